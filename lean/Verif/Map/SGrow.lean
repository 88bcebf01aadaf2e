import Verif.Map.SIns
/-!
# `insert_before` with a new array
-/
set_option linter.unusedVariables false
set_option linter.unusedSimpArgs false
set_option linter.unusedSectionVars false
namespace Verif.SVMap
open Verif Verif.Vec
variable {G : Gone} {K V : Type} {h h' h'' : Mem K V} {S : State K V} {c d b i j : Nat} {s : SS K V} {ps qs : List Ptr}

theorem alloc_ok (h : Mem K V) (n : Nat) : newArray n h = .ok (⟨h.fresh, 0⟩, { h with size := upd h.size h.fresh (some n), slot := upd h.slot h.fresh (fun _ => none), fresh := h.fresh + 1 }) := rfl

theorem insert_grow (W : WorldG G h S) (hc : S c = some s) (hi : i ≤ s.nodes.length) (e : K × V) (full : s.nodes.length = s.cap) (n1 : s.cap ≠ 1) :
    ∃ h', insertBefore c ⟨s.blk, i⟩ e h = .ok (⟨h.fresh, i⟩, h') ∧ WorldG G h' (S.set c (some (insState h.fresh i e s))) := by
  have v := W.sm c s hc
  have pos := W.pos
  have bound : ∀ b ∈ s.blocks, b < h.fresh ∧ b ≠ 0 := fun b hb => W.bound c b (by rw [own_some hc]; exact hb)
  have bf : s.blk < h.fresh := by
    by_cases z : s.blk = 0
    · omega
    · exact (bound _ (blk_mem z)).1
  have nf : ∀ x ∈ s.nodes, x.1 < h.fresh := fun x hx => (bound _ (node_mem hx)).1
  obtain ⟨N, hN⟩ : ∃ N, N = if s.cap + s.cap / 2 = 0 then 2 else s.cap + s.cap / 2 := ⟨_, rfl⟩
  have hN' : (if s.cap = 0 then 2 else s.cap + s.cap / 2) = N := by
    rw [hN]; split <;> split <;> omega
  have big : s.nodes.length + 1 ≤ N := by rw [hN]; split <;> omega
  have szb : s.nodes ≠ [] → h.size s.blk = some s.cap := by
    intro q
    have : 0 < s.nodes.length := List.length_pos_iff.2 q
    exact (v.array this).2
  let h1 : Mem K V := { h with size := upd h.size h.fresh (some N), slot := upd h.slot h.fresh (fun _ => none), fresh := h.fresh + 1 }
  have s1 : h1.size h.fresh = some N := upd_same ..
  have ne : h.fresh ≠ s.blk := by omega
  have pl : (ptrs (s.nodes.take i)).length = i := by rw [ptrs_length, List.length_take]; omega
  have pl' : (ptrs (s.nodes.drop i)).length = s.nodes.length - i := by rw [ptrs_length, List.length_drop]
  have b1 : h1.size s.blk = h.size s.blk := upd_other _ _ (Ne.symm ne)
  have c1 : h1.slot s.blk = h.slot s.blk := upd_other _ _ (Ne.symm ne)
  obtain ⟨h2, e2, w2⟩ := copyPtrs_ok (n := s.cap) (m := N) ne (ptrs (s.nodes.take i)) 0 0 h1
    (fun q => ⟨by rw [b1]; exact szb (by rintro r; rw [r] at q; simp [ptrs] at q), by omega⟩)
    (fun k p q => by
      obtain ⟨x, hx, rfl⟩ := ptrs_get q
      have hk := (List.getElem?_eq_some_iff.1 hx).1
      rw [List.length_take] at hk
      rw [List.getElem?_take_of_lt (by omega)] at hx
      rw [c1, Nat.zero_add]; exact v.slots k x hx) s1 (by omega)
  rw [Nat.zero_add, pl] at e2
  have f2 : h2.fresh = h.fresh + 1 := w2.fresh
  let h3 := mk1 h2 e
  have s3 : h3.size h.fresh = some N := by
    show upd h2.size h2.fresh _ h.fresh = _
    rw [upd_other _ _ (by omega), w2.size]; exact s1
  obtain ⟨h4, e4, w4⟩ := wrPtr_ok (b := h.fresh) (j := i) s3 (by omega) ⟨h2.fresh, 0⟩
  have b4 : h4.size s.blk = h.size s.blk := by
    rw [w4.size]; show upd h2.size h2.fresh _ s.blk = _
    rw [upd_other _ _ (by omega), w2.size]; exact b1
  have c4 : h4.slot s.blk = h.slot s.blk := by
    rw [w4.other _ (Ne.symm ne)]; show upd h2.slot h2.fresh _ s.blk = _
    rw [upd_other _ _ (by omega), w2.other _ (Ne.symm ne)]; exact c1
  obtain ⟨h5, e5, w5⟩ := copyPtrs_ok (n := s.cap) (m := N) ne (ptrs (s.nodes.drop i)) i (i + 1) h4
    (fun q => ⟨by rw [b4]; exact szb (by rintro r; rw [r] at q; simp [ptrs] at q), by omega⟩)
    (fun k p q => by
      obtain ⟨x, hx, rfl⟩ := ptrs_get q
      rw [List.getElem?_drop] at hx
      rw [c4]; exact v.slots _ x hx) (by rw [w4.size]; exact s3) (by omega)
  rw [show i + (ptrs (s.nodes.drop i)).length = s.nodes.length by omega, show i + 1 + (ptrs (s.nodes.drop i)).length = s.nodes.length + 1 by omega] at e5
  have b5 : h5.size s.blk = h.size s.blk := by rw [w5.size]; exact b4
  obtain ⟨h6, e6, o6, f6, z6, g6⟩ : ∃ h6, deleteArray ⟨s.blk, 0⟩ h5 = .ok ((), h6) ∧ h6.obj = h5.obj ∧ h6.fresh = h5.fresh ∧
      (∀ x, x ≠ s.blk ∨ s.blk = 0 → h6.size x = h5.size x ∧ h6.slot x = h5.slot x) ∧ (s.blk ≠ 0 → h6.size s.blk = none ∧ ∀ k, h6.slot s.blk k = none) := by
    rcases v.arr with ⟨z, z'⟩ | ⟨z, z'⟩
    · refine ⟨h5, by rw [z]; exact deleteArray_null, rfl, rfl, fun x _ => ⟨rfl, rfl⟩, fun q => absurd z q⟩
    · refine ⟨del h5 s.blk, deleteArray_ok z (b5.trans z'), rfl, rfl, ?_, ?_⟩
      · intro x q
        have : x ≠ s.blk := by rcases q with q | q; exact q; exact absurd q z
        exact ⟨upd_other _ _ this, upd_other _ _ this⟩
      · intro _; exact ⟨upd_same .., fun k => by show upd h5.slot s.blk _ s.blk k = _; rw [upd_same]⟩
  have ob5 : h5.obj = h.obj := by rw [w5.obj, w4.obj]; show h2.obj = _; rw [w2.obj]
  have oc : h6.obj c = some ⟨⟨s.blk, 0⟩, ⟨s.blk, s.nodes.length⟩, ⟨s.blk, s.cap⟩⟩ := by rw [o6, ob5]; exact v.obj
  let h7 := h6.setObj c ⟨⟨h.fresh, 0⟩, ⟨h.fresh, s.nodes.length + 1⟩, ⟨h.fresh, N⟩⟩
  have s7 : h7.size h.fresh = some N := by
    show h6.size h.fresh = _
    rw [(z6 _ (.inl ne)).1, w5.size, w4.size]; exact s3
  obtain ⟨h8, e8, w8⟩ := fillNull_ok (b := h.fresh) (n := N) (N - (s.nodes.length + 1)) (s.nodes.length + 1) h7 s7 (by omega)
  refine ⟨h8, ?_, ?_⟩
  · have cnd : s.cap - s.nodes.length < 1 := by omega
    simp only [insertBefore, Prog.bind_app, getObj_eq v.obj, Res.bind_ok, diff_eq s.blk v.le, Prog.ite_app, if_pos cnd, diff_eq s.blk (Nat.zero_le _), Nat.sub_zero, ← hN, alloc_ok]
    rw [show copyPtrs ⟨s.blk, 0⟩ ⟨s.blk, i⟩ ⟨h.fresh, 0⟩ _ = _ from e2]
    simp only [Res.bind_ok, newPair_ok]
    rw [show wrPtr ⟨h.fresh, i⟩ ⟨h2.fresh, 0⟩ (mk1 h2 e) = _ from e4]
    simp only [Res.bind_ok, ptr_add, e5, e6, Nat.zero_add]
    rw [setObj_eq oc]
    simp only [Res.bind_ok]
    rw [show fillNull ⟨h.fresh, s.nodes.length + 1⟩ ⟨h.fresh, N⟩ _ = _ from e8]
    rfl
  have st : insState h.fresh i e s = ⟨h.fresh, N, insNodes i (h.fresh + 1, e) s.nodes⟩ := by
    simp only [insState, if_neg (show ¬ s.nodes.length < s.cap by omega), hN']
  rw [st]
  have Hobj : h8.obj = upd h.obj c (some ⟨⟨h.fresh, 0⟩, ⟨h.fresh, s.nodes.length + 1⟩, ⟨h.fresh, N⟩⟩) := by
    rw [w8.obj]; show upd h6.obj c _ = _; rw [o6, ob5]
  have Hfresh : h8.fresh = h.fresh + 2 := by
    rw [w8.fresh]; show h6.fresh = _
    rw [f6, w5.fresh, w4.fresh]; show h2.fresh + 1 = _; omega
  have size5 : h5.size = upd (upd h.size h.fresh (some N)) (h.fresh + 1) (some 1) := by
    rw [w5.size, w4.size]; show upd h2.size h2.fresh _ = _; rw [f2, w2.size]
  have slot5 : ∀ x, x ≠ h.fresh → h5.slot x = upd h.slot (h.fresh + 1) (one e) x := by
    intro x q
    rw [w5.other x q, w4.other x q]; show upd h2.slot h2.fresh _ x = _
    rw [f2]; simp only [upd]; split
    · rfl
    · rw [w2.other x q]; show upd h.slot h.fresh _ x = _; rw [upd_other _ _ q]
  have Hsize : ∀ x, x ≠ s.blk ∨ s.blk = 0 → h8.size x = upd (upd h.size h.fresh (some N)) (h.fresh + 1) (some 1) x := by
    intro x q
    rw [w8.size]; show h6.size x = _
    rw [(z6 x q).1, size5]
  have Hslot : ∀ x, x ≠ h.fresh → x ≠ s.blk ∨ s.blk = 0 → h8.slot x = upd h.slot (h.fresh + 1) (one e) x := by
    intro x q q'
    rw [w8.other x q]; show h6.slot x = _
    rw [(z6 x q').2, slot5 x q]
  have Hgone : s.blk ≠ 0 → h8.size s.blk = none ∧ ∀ k, h8.slot s.blk k = none := by
    intro q
    rw [w8.size, w8.other _ (Ne.symm ne)]; exact g6 q
  have s68 : ∀ k, k < s.nodes.length + 1 → h8.slot h.fresh k = h5.slot h.fresh k := by
    intro k l
    rw [w8.out k (.inl l)]; show h6.slot h.fresh k = _
    rw [(z6 _ (.inl ne)).2]
  have s3' : h3.slot h.fresh = h2.slot h.fresh := by
    show upd h2.slot h2.fresh _ h.fresh = _
    rw [upd_other _ _ (by omega)]
  have Hlow : ∀ k x, k < i → s.nodes[k]? = some x → h8.slot h.fresh k = some (.ptr ⟨x.1, 0⟩) := by
    intro k x l hx
    rw [s68 k (by omega), w5.out k (.inl (by omega)), w4.out k (.inl l), s3']
    have := w2.inn k ⟨x.1, 0⟩ (ptrs_of (by rw [List.getElem?_take_of_lt l]; exact hx))
    rwa [Nat.zero_add] at this
  have Hmid : h8.slot h.fresh i = some (.ptr ⟨h.fresh + 1, 0⟩) := by
    rw [s68 i (by omega), w5.out i (.inl (by omega))]
    have := w4.inn 0 _ rfl; rw [f2] at this; exact this
  have Hhigh : ∀ k x, i ≤ k → s.nodes[k]? = some x → h8.slot h.fresh (k + 1) = some (.ptr ⟨x.1, 0⟩) := by
    intro k x l hx
    have hk := (List.getElem?_eq_some_iff.1 hx).1
    rw [s68 (k + 1) (by omega)]
    have := w5.inn (k - i) ⟨x.1, 0⟩ (ptrs_of (by rw [List.getElem?_drop, show i + (k - i) = k by omega]; exact hx))
    rwa [show i + 1 + (k - i) = k + 1 by omega] at this
  have Htail : ∀ k x, s.nodes.length + 1 ≤ k → h8.slot h.fresh k = some x → x = .ptr Ptr.null := by
    intro k x l hx
    by_cases q : k < N
    · have := w8.inn (k - (s.nodes.length + 1)) Ptr.null (by rw [List.getElem?_replicate, if_pos (by omega)])
      rw [show s.nodes.length + 1 + (k - (s.nodes.length + 1)) = k by omega, hx] at this
      cases this; rfl
    · exfalso
      rw [w8.out k (.inr (by rw [List.length_replicate]; omega))] at hx
      have hx : h6.slot h.fresh k = some x := hx
      rw [(z6 _ (.inl ne)).2, w5.out k (.inr (by omega)), w4.out k (.inr (by simp; omega)), s3', w2.out k (.inr (by omega))] at hx
      have hx : upd h.slot h.fresh (fun _ => none) h.fresh k = some x := hx
      rw [upd_same] at hx; cases hx
  have own := own_some hc
  have memb : ∀ b, b ∈ (⟨h.fresh, N, insNodes i (h.fresh + 1, e) s.nodes⟩ : SS K V).blocks ↔ b = h.fresh ∨ b = h.fresh + 1 ∨ b ∈ s.ids := by
    intro b
    simp only [SS.blocks, SS.ids, List.mem_append, List.mem_map, insNodes_mem, if_neg (show h.fresh ≠ 0 by omega), List.mem_singleton]
    constructor
    · rintro (q | ⟨x, rfl | hx, rfl⟩)
      · exact .inl q
      · exact .inr (.inl rfl)
      · exact .inr (.inr ⟨x, hx, rfl⟩)
    · rintro (rfl | rfl | ⟨x, hx, rfl⟩)
      · exact .inl rfl
      · exact .inr ⟨_, .inl rfl, rfl⟩
      · exact .inr ⟨x, .inr hx, rfl⟩
  have idsub : ∀ b ∈ s.ids, b ∈ s.blocks := fun b hb => by simp only [SS.blocks, List.mem_append]; exact .inr hb
  have blknot : s.blk ≠ 0 → s.blk ∉ s.ids := by
    intro z
    have := v.nodup
    simp only [SS.blocks, if_neg z, List.singleton_append, List.nodup_cons] at this
    exact this.1
  have idnd : s.ids.Nodup := by
    have := v.nodup; simp only [SS.blocks] at this; exact (List.nodup_append.1 this).2.1
  refine W.change c _ (W.not_gone hc) ?_ (by omega) ?_ ?_ ?_ ?_ ?_ ?_
  · intro s' _; have := W.lt c s hc; omega
  · intro d q; rw [Hobj, upd_other _ _ q]
  · rintro _ ⟨⟩
    refine ⟨?_, ?_, ?_, ?_, ?_, ?_, ?_⟩
    · rw [Hobj, upd_same, insNodes_length hi]
    · rw [insNodes_length hi]; exact big
    · refine .inr ⟨by show h.fresh ≠ 0; omega, ?_⟩
      show h8.size h.fresh = _
      rw [Hsize _ (.inl ne), upd_other _ _ (by omega), upd_same]
    · intro k x hx
      show h8.slot h.fresh k = _
      rw [insNodes_get hi] at hx
      split at hx
      · exact Hlow k x ‹_› hx
      · split at hx
        · cases hx; subst i; exact Hmid
        · obtain ⟨m, rfl⟩ : ∃ m, k = m + 1 := ⟨k - 1, by omega⟩
          exact Hhigh m x (by omega) hx
    · intro k x l hx
      rw [insNodes_length hi] at l
      refine ⟨Ptr.null, Htail k x l hx, ?_, by show 0 < _; omega⟩
      show h8.size 0 = none
      have z0 : h.size 0 = none := W.zero.1
      by_cases q : s.blk = 0
      · rw [Hsize 0 (.inr q), upd_other _ _ (by omega), upd_other _ _ (by omega)]; exact z0
      · rw [Hsize 0 (.inl (Ne.symm q)), upd_other _ _ (by omega), upd_other _ _ (by omega)]; exact z0
    · intro x hx
      rcases insNodes_mem.1 hx with rfl | hx
      · have q : h.fresh + 1 ≠ s.blk ∨ s.blk = 0 := .inl (by omega)
        refine ⟨?_, ?_, ?_⟩
        · show h8.size (h.fresh + 1) = _; rw [Hsize _ q, upd_same]
        · show h8.slot (h.fresh + 1) = _; rw [Hslot _ (by omega) q, upd_same]
        · show h.fresh + 1 ≠ 0; omega
      · have q : x.1 ≠ s.blk ∨ s.blk = 0 := by
          by_cases z : s.blk = 0
          · exact .inr z
          · exact .inl fun w => blknot z (by rw [← w]; exact List.mem_map_of_mem hx)
        have := nf x hx
        rw [Hsize _ q, Hslot _ (by omega) q, upd_other _ _ (by omega), upd_other _ _ (by omega), upd_other _ _ (by omega)]
        exact v.node x hx
    · simp only [SS.blocks, SS.ids, if_neg (show h.fresh ≠ 0 by omega), List.singleton_append, List.nodup_cons]
      rw [(insNodes_ids _ _).mem_iff, (insNodes_ids _ _).nodup_iff]
      have big : ∀ b, b ∈ s.nodes.map (·.1) → b < h.fresh := fun b hb => (bound b (idsub b hb)).1
      refine ⟨fun q => ?_, List.nodup_cons.2 ⟨fun q => ?_, idnd⟩⟩
      · rcases List.mem_cons.1 q with q | q
        · simp at q
        · have := big _ q; omega
      · have := big _ q; simp at this; omega
  · intro q; cases q
  · rintro _ ⟨⟩ b hb
    rw [memb] at hb; rw [own]
    rcases hb with rfl | rfl | hb
    · exact ⟨.inr (Nat.le_refl _), by omega⟩
    · exact ⟨.inr (by omega), by omega⟩
    · have := bound b (idsub b hb); exact ⟨.inl (idsub b hb), by omega⟩
  · intro b q q'
    have q' := q' _ rfl
    rw [memb] at q'
    rw [own] at q
    have n1 : b ≠ h.fresh := fun z => q' (.inl z)
    have n2 : b ≠ h.fresh + 1 := fun z => q' (.inr (.inl z))
    have n3 : b ≠ s.blk ∨ s.blk = 0 := by
      by_cases z : s.blk = 0
      · exact .inr z
      · exact .inl fun w => q (by rw [w]; exact blk_mem z)
    rw [Hsize b n3, Hslot b n1 n3, upd_other _ _ n2, upd_other _ _ n1, upd_other _ _ n2]
    exact ⟨rfl, rfl⟩
  · intro b q q'
    have q' := q' _ rfl
    rw [memb] at q'
    rw [own] at q
    simp only [SS.blocks, List.mem_append] at q
    rcases q with q | q
    · by_cases z : s.blk = 0
      · simp [z] at q
      · simp [z] at q; subst q; exact Hgone z
    · exact absurd (.inr (.inr q)) q'

theorem copyPtrs_one_out {n m : Nat} {b' : Nat} {p : Ptr} (l : h.size b = some n) (hi : i < n) (hv : h.slot b i = some (.ptr p)) (l' : h.size b' = some m) (lm : m ≤ j) :
    copyPtrs ⟨b, i⟩ ⟨b, i + 1⟩ ⟨b', j⟩ h = .ub .access := by
  rw [copyPtrs]
  simp only [ne_eq, Ptr.mk.injEq, true_and, Prog.ite_app, Prog.bind_app, rdPtr_eq (p := ⟨b, i⟩) l hi hv, Res.bind_ok, wrPtr_out l' lm, Res.bind_ub]
  simp

/-- An insertion into a full array of capacity one writes behind the end of the new array, which again has capacity one. -/
theorem insert_full_one (W : WorldG G h S) (hc : S c = some s) (hi : i ≤ s.nodes.length) (e : K × V) (full : s.nodes.length = s.cap) (n1 : s.cap = 1) :
    insertBefore c ⟨s.blk, i⟩ e h = .ub .access := by
  have v := W.sm c s hc
  have bf := (W.bound c s.blk (by rw [own_some hc]; exact blk_mem (v.array (i := 0) (by omega)).1)).1
  have sz := (v.array (i := 0) (by omega)).2
  obtain ⟨x, hx⟩ : ∃ x, s.nodes = [x] := List.length_eq_one_iff.1 (by omega)
  have h0 : h.slot s.blk 0 = some (.ptr ⟨x.1, 0⟩) := v.slots 0 x (by rw [hx]; rfl)
  have cnd : s.cap - s.nodes.length < 1 := by omega
  simp only [insertBefore, Prog.bind_app, getObj_eq v.obj, Res.bind_ok, diff_eq s.blk v.le, Prog.ite_app, if_pos cnd, diff_eq s.blk (Nat.zero_le _), Nat.sub_zero, alloc_ok]
  simp only [n1]
  simp only [show (if 1 + 1 / 2 = 0 then 2 else 1 + 1 / 2) = 1 from rfl]
  have ne : h.fresh ≠ s.blk := by omega
  let h1 : Mem K V := { h with size := upd h.size h.fresh (some 1), slot := upd h.slot h.fresh (fun _ => none), fresh := h.fresh + 1 }
  have s1 : h1.size h.fresh = some 1 := upd_same ..
  have b1 : h1.size s.blk = some s.cap := (upd_other _ _ (Ne.symm ne)).trans sz
  have c1 : h1.slot s.blk 0 = some (.ptr ⟨x.1, 0⟩) := by
    show upd h.slot h.fresh _ s.blk 0 = _; rw [upd_other _ _ (Ne.symm ne)]; exact h0
  by_cases q : i = 0
  · subst q
    have e2 : copyPtrs ⟨s.blk, 0⟩ ⟨s.blk, 0⟩ ⟨h.fresh, 0⟩ h1 = .ok (⟨h.fresh, 0⟩, h1) := by rw [copyPtrs]; simp
    rw [show copyPtrs ⟨s.blk, 0⟩ ⟨s.blk, 0⟩ ⟨h.fresh, 0⟩ _ = _ from e2]
    simp only [Res.bind_ok, newPair_ok]
    have s3 : (mk1 h1 e).size h.fresh = some 1 := by
      show upd h1.size h1.fresh _ h.fresh = _
      rw [upd_other _ _ (by show h.fresh ≠ h.fresh + 1; omega)]; exact s1
    obtain ⟨h4, e4, w4⟩ := wrPtr_ok (b := h.fresh) (j := 0) s3 (by omega) ⟨h1.fresh, 0⟩
    rw [e4]
    simp only [Res.bind_ok, ptr_add, Nat.zero_add]
    rw [show s.nodes.length = 0 + 1 by omega, copyPtrs_one_out (n := s.cap) (m := 1) (p := ⟨x.1, 0⟩) ?_ (by omega) ?_ ?_ (Nat.le_refl _)]
    · rfl
    · rw [w4.size]; show upd h1.size h1.fresh _ s.blk = _
      rw [upd_other _ _ (by show s.blk ≠ h.fresh + 1; omega)]; exact b1
    · rw [w4.other _ (Ne.symm ne)]; show upd h1.slot h1.fresh _ s.blk 0 = _
      rw [upd_other _ _ (by show s.blk ≠ h.fresh + 1; omega)]; exact c1
    · rw [w4.size]; exact s3
  · have : i = 1 := by omega
    subst this
    obtain ⟨h2, e2, w2⟩ := copyPtrs_ok (n := s.cap) (m := 1) ne [⟨x.1, 0⟩] 0 0 h1 (fun _ => ⟨b1, by simp; omega⟩)
      (fun k p hk => by
        cases k with
        | zero => simp at hk; subst hk; exact c1
        | succ k => simp at hk) s1 (Nat.le_refl _)
    rw [show copyPtrs ⟨s.blk, 0⟩ ⟨s.blk, 1⟩ ⟨h.fresh, 0⟩ _ = _ from e2]
    simp only [Res.bind_ok, newPair_ok]
    have s3 : (mk1 h2 e).size h.fresh = some 1 := by
      show upd h2.size h2.fresh _ h.fresh = _
      rw [upd_other _ _ (by rw [w2.fresh]; show h.fresh ≠ h.fresh + 1; omega), w2.size]; exact s1
    rw [show wrPtr ⟨h.fresh, 0 + [(⟨x.1, 0⟩ : Ptr)].length⟩ ⟨h2.fresh, 0⟩ (mk1 h2 e) = .ub .access from wrPtr_out s3 (Nat.le_refl _) _]
    rfl

/-- The array grows where it is full, unless its capacity is one. -/
theorem insertBefore_ok (W : WorldG G h S) (hc : S c = some s) (hi : i ≤ s.nodes.length) (e : K × V) (ok : ¬ (s.nodes.length = 1 ∧ s.cap = 1)) :
    ∃ h', insertBefore c ⟨s.blk, i⟩ e h = .ok (⟨(insState h.fresh i e s).blk, i⟩, h') ∧ WorldG G h' (S.set c (some (insState h.fresh i e s))) := by
  by_cases q : s.nodes.length < s.cap
  · obtain ⟨h', a, a'⟩ := insert_room W hc hi e q
    exact ⟨h', by rw [a]; simp only [insState, if_pos q], a'⟩
  · have := (W.sm c s hc).le
    obtain ⟨h', a, a'⟩ := insert_grow W hc hi e (by omega) (by omega)
    exact ⟨h', by rw [a]; simp only [insState, if_neg q], a'⟩

end Verif.SVMap
