import Verif.Map.SGrow
/-!
# Construction, copy, destruction, `clear` and stores of `ttl::sorted_vector_map`
-/
set_option linter.unusedVariables false
set_option linter.unusedSimpArgs false
set_option linter.unusedSectionVars false
namespace Verif.SVMap
open Verif Verif.Vec
variable {G : Gone} {K V : Type} {h h' h'' : Mem K V} {S : State K V} {c d b i j : Nat} {s : SS K V} {ps qs : List Ptr}

theorem WorldG.fresh_none (W : WorldG G h S) {x : Nat} (l : h.fresh ≤ x) : S x = none ∧ h.obj x = none ∧ h.size x = none ∧ ∀ k, h.slot x k = none := by
  have a : S x = none := by
    cases g : S x with
    | none => rfl
    | some s => have := W.lt x s g; omega
  exact ⟨a, W.objG x a (fun g => Nat.not_le.2 (W.goneO x g).1 l), W.free l⟩


/-! ## Construction -/

theorem create_ok (W : WorldG G h S) : ∃ h', create h = .ok (h.fresh, h') ∧ WorldG G h' (S.set h.fresh (some ⟨0, 0, []⟩)) ∧ h'.fresh = h.fresh + 1 := by
  obtain ⟨sn, _, _⟩ := W.fresh_none (Nat.le_refl _)
  refine ⟨_, rfl, ?_, rfl⟩
  refine W.change _ _ W.not_fresh (fun _ _ => Nat.lt_succ_self _) (Nat.le_succ _) (fun d q => upd_other _ _ q) ?_ (fun q => by cases q) ?_ (fun b q q' => ⟨rfl, rfl⟩) ?_
  · rintro _ ⟨⟩
    refine ⟨upd_same .., Nat.le_refl _, .inl ⟨rfl, rfl⟩, fun i e q => by simp at q, fun i x l q => ?_, fun e he => by simp at he, by simp [SS.blocks, SS.ids]⟩
    have q : h.slot 0 i = some x := q
    rw [W.zero.2] at q; cases q
  · rintro _ ⟨⟩ b hb; simp [SS.blocks, SS.ids] at hb
  · intro b q; rw [own_none sn] at q; cases q

theorem ctor_ok (W : WorldG G h S) (n : Nat) : ∃ h', ctor n h = .ok (h.fresh, h') ∧ WorldG G h' (S.set h.fresh (some ⟨h.fresh + 1, n, []⟩)) ∧ h'.fresh = h.fresh + 2 := by
  obtain ⟨sn, _, _⟩ := W.fresh_none (Nat.le_refl _)
  have pos := W.pos
  refine ⟨{ obj := upd h.obj h.fresh (some ⟨⟨h.fresh + 1, 0⟩, ⟨h.fresh + 1, 0⟩, ⟨h.fresh + 1, n⟩⟩), size := upd h.size (h.fresh + 1) (some n), slot := upd h.slot (h.fresh + 1) fun _ => none, fresh := h.fresh + 2 }, ?_, ?_, rfl⟩
  · simp only [ctor, newObj, Prog.bind_app, Res.bind_ok, newArray, alloc, setObj, upd_same, upd_upd, ptr_add, Nat.zero_add, Prog.pure_app]
  refine W.change _ _ W.not_fresh (fun _ _ => by show _ < h.fresh + 2; omega) (by show _ ≤ h.fresh + 2; omega) (fun d q => upd_other _ _ q) ?_ (fun q => by cases q) ?_ ?_ ?_
  · rintro _ ⟨⟩
    refine ⟨upd_same .., Nat.zero_le _, .inr ⟨Nat.succ_ne_zero _, upd_same ..⟩, fun i e q => by simp at q, fun i x l q => ?_, fun e he => by simp at he, by simp [SS.blocks, SS.ids]⟩
    have q : upd h.slot (h.fresh + 1) (fun _ => none) (h.fresh + 1) i = some x := q
    rw [upd_same] at q; cases q
  · rintro _ ⟨⟩ b hb
    simp [SS.blocks, SS.ids] at hb
    subst hb; exact ⟨.inr (by omega), by show _ < h.fresh + 2; omega⟩
  · intro b q q'
    have q' := q' _ rfl
    have : b ≠ h.fresh + 1 := by simpa [SS.blocks, SS.ids] using q'
    exact ⟨upd_other _ _ this, upd_other _ _ this⟩
  · intro b q; rw [own_none sn] at q; cases q

/-! ## Copy -/

/-- New nodes `f`, `f + 1`, … with the contents of `ns`. -/
def renum (f : Nat) : List (Nat × K × V) → List (Nat × K × V)
  | [] => []
  | x :: xs => (f, x.2) :: renum (f + 1) xs

theorem renum_vals (ns : List (Nat × K × V)) : ∀ f, (renum f ns).map (·.2) = ns.map (·.2) := by
  induction ns with
  | nil => intro f; rfl
  | cons x xs ih => intro f; simp [renum, ih]

/-- One round of the copy loop. -/
theorem copy_step (W : WorldG G h S) (hc : S c = some s) (room : s.nodes.length < s.cap) (e : K × V) :
    ∃ h', (do let p ← newPair e; let r ← getObj c; setObj c { r with last := r.last + 1 }; wrPtr r.last p : Prog (Mem K V) Unit) h = .ok ((), h') ∧
      WorldG G h' (S.set c (some ⟨s.blk, s.cap, s.nodes ++ [(h.fresh, e)]⟩)) ∧ h'.fresh = h.fresh + 1 := by
  have v := W.sm c s hc
  have ne0 : s.blk ≠ 0 := by
    rcases v.arr with ⟨_, z⟩ | z
    · omega
    · exact z.1
  have sz : h.size s.blk = some s.cap := by
    rcases v.arr with ⟨_, z⟩ | z
    · omega
    · exact z.2
  have bf : s.blk < h.fresh := (W.bound c s.blk (by rw [own_some hc]; exact blk_mem ne0)).1
  have nf : ∀ x ∈ s.nodes, x.1 < h.fresh := fun x hx => (W.bound c x.1 (by rw [own_some hc]; exact node_mem hx)).1
  let h1 := mk1 h e
  let h2 := h1.setObj c ⟨⟨s.blk, 0⟩, ⟨s.blk, s.nodes.length + 1⟩, ⟨s.blk, s.cap⟩⟩
  have s2 : h2.size s.blk = some s.cap := by
    show upd h.size h.fresh _ s.blk = _
    rw [upd_other _ _ (by omega)]; exact sz
  obtain ⟨h3, e3, w3⟩ := wrPtr_ok (b := s.blk) (j := s.nodes.length) s2 room ⟨h.fresh, 0⟩
  have o1 : h1.obj c = some ⟨⟨s.blk, 0⟩, ⟨s.blk, s.nodes.length⟩, ⟨s.blk, s.cap⟩⟩ := v.obj
  refine ⟨h3, ?_, ?_, by rw [w3.fresh]; rfl⟩
  · simp only [Prog.bind_app, newPair_ok, Res.bind_ok]
    rw [show getObj c (mk1 h e) = _ from getObj_eq o1]
    simp only [Res.bind_ok, ptr_add]
    rw [setObj_eq o1]
    exact e3
  have Hobj : h3.obj = upd h.obj c (some ⟨⟨s.blk, 0⟩, ⟨s.blk, s.nodes.length + 1⟩, ⟨s.blk, s.cap⟩⟩) := by rw [w3.obj]; rfl
  have Hfresh : h3.fresh = h.fresh + 1 := by rw [w3.fresh]; rfl
  have Hsize : h3.size = upd h.size h.fresh (some 1) := by rw [w3.size]; rfl
  have Hslot : ∀ x, x ≠ s.blk → h3.slot x = upd h.slot h.fresh (one e) x := fun x q => by rw [w3.other x q]; rfl
  have Hb : h2.slot s.blk = h.slot s.blk := upd_other _ _ (by omega)
  have own := own_some hc
  have nin : h.fresh ∉ s.blocks := fun q => by have := (W.bound c h.fresh (by rw [own]; exact q)).1; omega
  have memb : ∀ b, b ∈ (⟨s.blk, s.cap, s.nodes ++ [(h.fresh, e)]⟩ : SS K V).blocks ↔ b = h.fresh ∨ b ∈ s.blocks := by
    intro b
    simp only [SS.blocks, SS.ids, List.map_append, List.map_cons, List.map_nil, List.mem_append, List.mem_singleton]
    constructor
    · rintro (q | q | q)
      · exact .inr (.inl q)
      · exact .inr (.inr q)
      · exact .inl q
    · rintro (q | q | q)
      · exact .inr (.inr q)
      · exact .inl q
      · exact .inr (.inl q)
  refine W.change c _ (W.not_gone hc) ?_ (by omega) ?_ ?_ ?_ ?_ ?_ ?_
  · intro s' _; have := W.lt c s hc; omega
  · intro d q; rw [Hobj, upd_other _ _ q]
  · rintro _ ⟨⟩
    refine ⟨?_, ?_, ?_, ?_, ?_, ?_, ?_⟩
    · rw [Hobj, upd_same, List.length_append]; rfl
    · rw [List.length_append]; exact room
    · refine .inr ⟨ne0, ?_⟩
      show h3.size s.blk = _
      rw [Hsize, upd_other _ _ (by omega)]; exact sz
    · intro k x hx
      show h3.slot s.blk k = _
      by_cases l : k < s.nodes.length
      · rw [List.getElem?_append_left l] at hx
        rw [w3.out k (.inl l), Hb]; exact v.slots k x hx
      · have hk := (List.getElem?_eq_some_iff.1 hx).1
        rw [List.length_append, List.length_singleton] at hk
        have : k = s.nodes.length := by omega
        subst this
        rw [List.getElem?_append_right (Nat.le_refl _), Nat.sub_self] at hx
        cases hx; exact w3.inn 0 _ rfl
    · intro k x l hx
      rw [List.length_append, List.length_singleton] at l
      have hx : h3.slot s.blk k = some x := hx
      rw [w3.out k (.inr (by simpa using l)), Hb] at hx
      obtain ⟨q, a, a', a''⟩ := v.tail k x (by omega) hx
      exact ⟨q, a, by rw [Hsize, upd_other _ _ (by omega)]; exact a', by omega⟩
    · intro x hx
      have nb : x.1 ≠ s.blk := by
        rintro q
        rcases List.mem_append.1 hx with hx | hx
        · have := v.nodup
          simp only [SS.blocks, if_neg ne0, List.singleton_append, List.nodup_cons] at this
          exact this.1 (by rw [← q]; exact List.mem_map_of_mem hx)
        · simp at hx; subst hx; simp at q; omega
      rw [Hslot _ nb, Hsize]
      rcases List.mem_append.1 hx with hx | hx
      · rw [upd_other _ _ (by have := nf x hx; omega), upd_other _ _ (by have := nf x hx; omega)]
        exact v.node x hx
      · simp at hx; subst hx
        have := W.pos; refine ⟨by simp, by simp, ?_⟩; show h.fresh ≠ 0; omega
    · have p : (⟨s.blk, s.cap, s.nodes ++ [(h.fresh, e)]⟩ : SS K V).blocks = s.blocks ++ [h.fresh] := by simp [SS.blocks, SS.ids]
      rw [p, List.nodup_append]
      refine ⟨v.nodup, by simp, ?_⟩
      intro a ha b hb q
      simp at hb; subst hb; subst q; exact nin ha
  · intro q; cases q
  · rintro _ ⟨⟩ b hb
    rw [memb] at hb; rw [own]
    rcases hb with rfl | hb
    · exact ⟨.inr (Nat.le_refl _), by omega⟩
    · have := (W.bound c b (by rw [own]; exact hb)).1; exact ⟨.inl hb, by omega⟩
  · intro b q q'
    have q' := q' _ rfl
    rw [memb] at q'
    have nb : b ≠ h.fresh := fun z => q' (.inl z)
    have nb' : b ≠ s.blk := fun z => q' (.inr (by rw [z]; exact blk_mem ne0))
    rw [Hsize, Hslot b nb', upd_other _ _ nb, upd_other _ _ nb]
    exact ⟨rfl, rfl⟩
  · intro b q q'
    have q' := q' _ rfl
    rw [memb] at q'
    rw [own] at q
    exact absurd (.inr q) q'

theorem copyLoop_ok {t : SS K V} (ne : d ≠ c) : ∀ (zs : List (Nat × K × V)) (i : Nat) (h : Mem K V) (S : State K V) (s : SS K V), WorldG G h S → S c = some s → S d = some t →
    t.nodes.drop i = zs → i ≤ t.nodes.length → s.nodes.length + zs.length ≤ s.cap →
    ∃ h', copyLoop c ⟨t.blk, i⟩ ⟨t.blk, t.nodes.length⟩ h = .ok ((), h') ∧ WorldG G h' (S.set c (some ⟨s.blk, s.cap, s.nodes ++ renum h.fresh zs⟩))
  | [], i, h, S, s, W, hc, hd, q, l, room => by
    have : i = t.nodes.length := by
      have := congrArg List.length q; simp at this; omega
    subst this
    refine ⟨h, by rw [copyLoop]; simp, ?_⟩
    simp only [renum, List.append_nil]
    rw [show (some ⟨s.blk, s.cap, s.nodes⟩ : Option (SS K V)) = S c from hc.symm, set_self']; exact W
  | z :: zs, i, h, S, s, W, hc, hd, q, l, room => by
    have l1 : i < t.nodes.length := by
      have := congrArg List.length q; simp at this; omega
    rw [List.drop_eq_getElem_cons l1] at q
    simp only [List.cons.injEq] at q
    have hz : t.nodes[i]? = some z := by rw [List.getElem?_eq_getElem l1, q.1]
    rw [List.length_cons] at room
    obtain ⟨h1, e1, W1, f1⟩ := copy_step W hc (by omega) z.2
    obtain ⟨h2, e2, W2⟩ := copyLoop_ok ne zs (i + 1) h1 _ _ W1 (set_same ..) (by rw [set_other _ ne]; exact hd) q.2 l1 (by simp; omega)
    refine ⟨h2, ?_, ?_⟩
    · have hne : (⟨t.blk, i⟩ : Ptr) ≠ ⟨t.blk, t.nodes.length⟩ := by simp; omega
      obtain ⟨r1, r2⟩ := (W.sm d t hd).rd hz
      rw [copyLoop]
      simp only [Prog.ite_app, if_pos hne]
      have : ∀ (k : Prog (Mem K V) Unit), (do let p ← newPair z.2; let r ← getObj c; setObj c { r with last := r.last + 1 }; wrPtr r.last p; k : Prog (Mem K V) Unit) h = k h1 := by
        intro k
        have : (do let p ← newPair z.2; let r ← getObj c; setObj c { r with last := r.last + 1 }; wrPtr r.last p; k : Prog (Mem K V) Unit)
            = (do (do let p ← newPair z.2; let r ← getObj c; setObj c { r with last := r.last + 1 }; wrPtr r.last p); k) := by simp only [bind_assoc]
        rw [this, Prog.bind_app, e1, Res.bind_ok]
      simp only [Prog.bind_app, r1, r2, Res.bind_ok] at this ⊢
      rw [this]; exact e2
    · rw [set_set] at W2
      simp only [renum]
      rw [f1] at W2
      simpa using W2

theorem copyOf_ok (W : WorldG G h S) {t : SS K V} (hd : S d = some t) :
    ∃ h', copyOf d h = .ok (h.fresh, h') ∧ WorldG G h' (S.set h.fresh (some ⟨h.fresh + 1, t.cap, renum (h.fresh + 2) t.nodes⟩)) := by
  obtain ⟨h1, e1, W1, f1⟩ := ctor_ok W t.cap
  have ne : d ≠ h.fresh := by have := W.lt d t hd; omega
  obtain ⟨h2, e2, W2⟩ := copyLoop_ok ne t.nodes 0 h1 _ _ W1 (set_same ..) (by rw [set_other _ ne]; exact hd) (List.drop_zero ..) (Nat.zero_le _)
    (by have := (W.sm d t hd).le; simpa using this)
  refine ⟨h2, ?_, ?_⟩
  · have o := (W.sm d t hd).obj
    simp only [ctor, newObj, Prog.bind_app, Res.bind_ok, newArray, alloc, setObj, upd_same, upd_upd, ptr_add, Nat.zero_add, Prog.pure_app] at e1
    have e1' := Res.ok.inj e1
    have o' : (upd h.obj h.fresh (some ⟨Ptr.null, Ptr.null, Ptr.null⟩)) d = some ⟨⟨t.blk, 0⟩, ⟨t.blk, t.nodes.length⟩, ⟨t.blk, t.cap⟩⟩ := by rw [upd_other _ _ ne]; exact o
    simp only [copyOf, newObj, Prog.bind_app, Res.bind_ok, getObj, o', diff_eq t.blk (Nat.zero_le _), Nat.sub_zero, newArray, alloc, setObj, upd_same, upd_upd, ptr_add, Nat.zero_add]
    rw [(Prod.mk.inj e1').2, e2]; rfl
  · rw [set_set, f1] at W2
    simpa using W2

/-! ## `clear` -/

theorem clear_step (W : WorldG G h S) {ns : List (Nat × K × V)} {x : Nat × K × V} {blk cap : Nat} (hc : S c = some ⟨blk, cap, ns ++ [x]⟩) :
    WorldG G (del (h.setObj c ⟨⟨blk, 0⟩, ⟨blk, ns.length⟩, ⟨blk, cap⟩⟩) x.1) (S.set c (some ⟨blk, cap, ns⟩)) ∧
      deletePair ⟨x.1, 0⟩ (h.setObj c ⟨⟨blk, 0⟩, ⟨blk, ns.length⟩, ⟨blk, cap⟩⟩) = .ok ((), del (h.setObj c ⟨⟨blk, 0⟩, ⟨blk, ns.length⟩, ⟨blk, cap⟩⟩) x.1) ∧
      rdPtr ⟨blk, ns.length⟩ (h.setObj c ⟨⟨blk, 0⟩, ⟨blk, ns.length⟩, ⟨blk, cap⟩⟩) = .ok (⟨x.1, 0⟩, h.setObj c ⟨⟨blk, 0⟩, ⟨blk, ns.length⟩, ⟨blk, cap⟩⟩) := by
  have v := W.sm c _ hc
  have hx : (ns ++ [x])[ns.length]? = some x := by simp
  obtain ⟨n1, n2, n3⟩ := v.node x (by simp)
  have ar := v.array (i := ns.length) (by simp)
  simp only at ar
  have own := own_some hc
  have xb := W.bound c x.1 (by rw [own]; exact node_mem (s := ⟨blk, cap, ns ++ [x]⟩) (by simp))
  have nd := v.nodup
  have eqb : (⟨blk, cap, ns ++ [x]⟩ : SS K V).blocks = (⟨blk, cap, ns⟩ : SS K V).blocks ++ [x.1] := by simp [SS.blocks, SS.ids]
  rw [eqb, List.nodup_append] at nd
  have xn : x.1 ∉ (⟨blk, cap, ns⟩ : SS K V).blocks := fun q => nd.2.2 _ q _ (List.mem_singleton.2 rfl) rfl
  have xblk : blk ≠ x.1 := fun q => xn (by rw [← q]; exact blk_mem (s := ⟨blk, cap, ns⟩) ar.1)
  have rd := v.rd hx
  refine ⟨?_, deletePair_ok n3 n1 n2, rdPtr_eq (p := ⟨blk, ns.length⟩) ar.2 (by have := v.le; simp at this; exact this) (v.slots _ _ hx)⟩
  refine W.change c _ (W.not_gone hc) ?_ (Nat.le_refl _) (fun d q => upd_other _ _ q) ?_ (fun q => by cases q) ?_ ?_ ?_
  · intro s' _; exact W.lt c _ hc
  · rintro _ ⟨⟩
    refine ⟨upd_same .., by have := v.le; simp at this; show ns.length ≤ cap; omega, .inr ⟨ar.1, (upd_other _ _ xblk).trans ar.2⟩, ?_, ?_, ?_, nd.1⟩
    · intro k y hy
      show upd h.slot x.1 _ blk k = _
      rw [upd_other _ _ xblk]
      refine v.slots k y ?_
      have := (List.getElem?_eq_some_iff.1 hy).1
      show (ns ++ [x])[k]? = some y
      rw [List.getElem?_append_left this]; exact hy
    · intro k y l hy
      have hy : upd h.slot x.1 (fun _ => none) blk k = some y := hy
      rw [upd_other _ _ xblk] at hy
      by_cases q : k = ns.length
      · subst q
        have := v.slots _ _ hx
        simp only at this; rw [this] at hy; cases hy
        exact ⟨⟨x.1, 0⟩, rfl, upd_same .., xb.1⟩
      · obtain ⟨p, a, a', a''⟩ := v.tail k y (by simp at l ⊢; omega) hy
        refine ⟨p, a, ?_, a''⟩
        show upd h.size x.1 none p.blk = none
        simp only [upd]; split
        · rfl
        · exact a'
    · intro y hy
      have yx : y.1 ≠ x.1 := fun q => xn (by rw [← q]; exact node_mem (s := ⟨blk, cap, ns⟩) hy)
      show upd h.size x.1 none y.1 = _ ∧ upd h.slot x.1 _ y.1 = _ ∧ _
      rw [upd_other _ _ yx, upd_other _ _ yx]
      exact v.node y (List.mem_append_left _ hy)
  · rintro _ ⟨⟩ b hb
    have : b ∈ S.own c := by rw [own, eqb]; exact List.mem_append_left _ hb
    exact ⟨.inl this, (W.bound c b this).1⟩
  · intro b q q'
    have : b ≠ x.1 := by
      rintro rfl; refine q ?_; rw [own, eqb]; simp
    exact ⟨upd_other _ _ this, upd_other _ _ this⟩
  · intro b q q'
    rw [own, eqb] at q
    rcases List.mem_append.1 q with q | q
    · exact absurd q (q' _ rfl)
    · simp at q; subst q
      exact ⟨upd_same .., fun k => by show upd h.slot x.1 _ x.1 k = _; rw [upd_same]⟩

theorem clear_ok (ns : List (Nat × K × V)) : ∀ (h : Mem K V) (S : State K V) (blk cap : Nat), WorldG G h S → S c = some ⟨blk, cap, ns⟩ →
    ∃ h', clear c h = .ok ((), h') ∧ WorldG G h' (S.set c (some ⟨blk, cap, []⟩)) := by
  refine rev_ind (P := fun ns => ∀ (h : Mem K V) (S : State K V) (blk cap : Nat), WorldG G h S → S c = some ⟨blk, cap, ns⟩ →
    ∃ h', clear c h = .ok ((), h') ∧ WorldG G h' (S.set c (some ⟨blk, cap, []⟩))) ?_ ?_ ns
  · intro h S blk cap W hc
    refine ⟨h, ?_, ?_⟩
    · rw [clear]; simp [getObj_eq (W.sm c _ hc).obj, less_eq]
    · rw [← hc, set_self']; exact W
  · intro ns x ih h S blk cap W hc
    obtain ⟨W1, e1, r1⟩ := clear_step W hc
    obtain ⟨h', e2, W2⟩ := ih _ _ blk cap W1 (set_same ..)
    refine ⟨h', ?_, by rw [set_set] at W2; exact W2⟩
    have v := W.sm c _ hc
    rw [clear]
    simp only [Prog.bind_app, getObj_eq v.obj, Res.bind_ok, less_eq, List.length_append, List.length_singleton, Nat.zero_lt_succ, decide_true, if_true, dec_eq]
    have o : h.obj c = some ⟨⟨blk, 0⟩, ⟨blk, ns.length + 1⟩, ⟨blk, cap⟩⟩ := by have := v.obj; simpa using this
    simp only [setObj_eq o, Res.bind_ok, r1, e1, e2]

/-! ## Destruction -/

/-- The blocks `bs` released. -/
def delAll (h : Mem K V) : List Nat → Mem K V
  | [] => h
  | b :: bs => delAll (del h b) bs

theorem delAll_spec : ∀ (bs : List Nat) (h : Mem K V), (delAll h bs).obj = h.obj ∧ (delAll h bs).fresh = h.fresh ∧
    (∀ b, b ∉ bs → (delAll h bs).size b = h.size b ∧ (delAll h bs).slot b = h.slot b) ∧ ∀ b, b ∈ bs → (delAll h bs).size b = none ∧ (delAll h bs).slot b = fun _ => none
  | [], h => ⟨rfl, rfl, fun _ _ => ⟨rfl, rfl⟩, fun _ q => by cases q⟩
  | x :: bs, h => by
    obtain ⟨a, a', a2, a3⟩ := delAll_spec bs (del h x)
    refine ⟨a, a', ?_, ?_⟩
    · intro b q
      simp only [List.mem_cons, not_or] at q
      obtain ⟨k, k'⟩ := a2 b q.2
      exact ⟨k.trans (upd_other _ _ q.1), k'.trans (upd_other _ _ q.1)⟩
    · intro b q
      by_cases m : b ∈ bs
      · exact a3 b m
      · have : b = x := by
          rcases List.mem_cons.1 q with r | r
          · exact r
          · exact absurd r m
        subst this
        obtain ⟨k, k'⟩ := a2 b m
        exact ⟨k.trans (upd_same ..), k'.trans (upd_same ..)⟩

theorem destroyLoop_ok {n : Nat} : ∀ (ns : List (Nat × K × V)) (i : Nat) (h : Mem K V), (ns ≠ [] → h.size b = some n ∧ i + ns.length ≤ n) →
    (∀ (k : Nat) x, ns[k]? = some x → h.slot b (i + k) = some (.ptr ⟨x.1, 0⟩)) → (∀ x ∈ ns, h.size x.1 = some 1 ∧ h.slot x.1 = one x.2 ∧ x.1 ≠ 0) →
    (ns.map (·.1)).Nodup → b ∉ ns.map (·.1) →
    destroyLoop ⟨b, i⟩ ⟨b, i + ns.length⟩ h = .ok ((), delAll h (ns.map (·.1)))
  | [], i, h, l, q, q', nd, nb => by rw [destroyLoop]; simp [delAll]
  | x :: ns, i, h, l, q, q', nd, nb => by
    obtain ⟨l, l1⟩ := l (by simp)
    rw [List.length_cons] at l1
    simp only [List.map_cons, List.nodup_cons, List.mem_cons, not_or] at nd nb
    obtain ⟨a, a', a''⟩ := q' x (by simp)
    have ih := destroyLoop_ok (n := n) ns (i + 1) (del h x.1) (fun _ => ⟨(upd_other _ _ nb.1).trans l, by omega⟩)
      (fun k y e => by
        show upd h.slot x.1 _ b _ = _
        rw [upd_other _ _ nb.1, show i + 1 + k = i + (k + 1) by omega]; exact q (k + 1) y (by simpa using e))
      (fun y hy => by
        have : y.1 ≠ x.1 := fun e => nd.1 (by rw [← e]; exact List.mem_map_of_mem hy)
        show upd h.size x.1 none y.1 = _ ∧ upd h.slot x.1 _ y.1 = _ ∧ _
        rw [upd_other _ _ this, upd_other _ _ this]; exact q' y (by simp [hy]))
      nd.2 nb.2
    have hne : (⟨b, i⟩ : Ptr) ≠ ⟨b, i + (x :: ns).length⟩ := by simp
    rw [destroyLoop]
    simp only [Prog.ite_app, if_pos hne]
    simp only [Prog.bind_app, rdPtr_eq (p := ⟨b, i⟩) l (by show i < n; omega) (q 0 x rfl), Res.bind_ok, deletePair_ok a'' a a', ptr_add, List.length_cons,
      show i + (ns.length + 1) = i + 1 + ns.length by omega, ih, List.map_cons, delAll]

theorem destroy_ok (W : WorldG G h S) (hc : S c = some s) : ∃ h', destroy c h = .ok ((), h') ∧ WorldG G h' (S.set c none) ∧ h'.fresh = h.fresh := by
  have v := W.sm c s hc
  have own := own_some hc
  have nd := v.nodup
  simp only [SS.blocks] at nd
  have nd' := List.nodup_append.1 nd
  have bn : s.blk ∉ s.nodes.map (·.1) := by
    by_cases z : s.blk = 0
    · intro q; obtain ⟨x, hx, e⟩ := List.mem_map.1 q
      exact (v.node x hx).2.2 (e.trans z)
    · exact fun q => nd'.2.2 s.blk (by simp [z]) s.blk q rfl
  have e1 := destroyLoop_ok (b := s.blk) (n := s.cap) s.nodes 0 h (fun q => ⟨(v.array (i := 0) (List.length_pos_iff.2 q)).2, by have := v.le; omega⟩)
    (fun k x e => by rw [Nat.zero_add]; exact v.slots k x e) v.node nd'.2.1 bn
  rw [Nat.zero_add] at e1
  obtain ⟨a, a', a2, a3⟩ := delAll_spec (s.nodes.map (·.1)) h
  obtain ⟨h2, e2, o2, f2, z2⟩ : ∃ h2, deleteArray ⟨s.blk, 0⟩ (delAll h (s.nodes.map (·.1))) = .ok ((), h2) ∧ h2.obj = h.obj ∧ h2.fresh = h.fresh ∧
      ∀ x, (x ∉ s.blocks → h2.size x = h.size x ∧ h2.slot x = h.slot x) ∧ (x ∈ s.blocks → h2.size x = none ∧ ∀ k, h2.slot x k = none) := by
    rcases v.arr with ⟨z, z'⟩ | ⟨z, z'⟩
    · refine ⟨_, by rw [z]; exact deleteArray_null, a, a', fun x => ?_⟩
      simp only [SS.blocks, z, if_true, List.nil_append, SS.ids]
      exact ⟨a2 x, fun q => ⟨(a3 x q).1, fun k => by rw [(a3 x q).2]⟩⟩
    · refine ⟨_, deleteArray_ok z ((a2 _ bn).1.trans z'), a, a', fun x => ?_⟩
      simp only [SS.blocks, z, if_false, List.singleton_append, SS.ids, List.mem_cons, not_or, del]
      constructor
      · rintro ⟨q, q'⟩
        rw [upd_other _ _ q, upd_other _ _ q]; exact a2 x q'
      · intro q
        by_cases r : x = s.blk
        · subst r; rw [upd_same, upd_same]; exact ⟨rfl, fun _ => rfl⟩
        · have q := q.resolve_left r
          rw [upd_other _ _ r, upd_other _ _ r]; exact ⟨(a3 x q).1, fun k => by rw [(a3 x q).2]⟩
  refine ⟨{ h2 with obj := upd h2.obj c none }, ?_, ?_, f2⟩
  · simp only [destroy, Prog.bind_app, getObj_eq v.obj, Res.bind_ok, e1, e2, dropObj]
    rw [o2, v.obj]
  · refine W.change c none (W.not_gone hc) (fun _ q => by cases q) (by show _ ≤ h2.fresh; omega) (fun d q => ?_) (fun _ q => by cases q) (fun _ => upd_same ..) (fun _ q => by cases q) ?_ ?_
    · show upd h2.obj c none d = _; rw [upd_other _ _ q, o2]
    · intro b q _; rw [own] at q; exact (z2 b).1 q
    · intro b q _; rw [own] at q; exact (z2 b).2 q

/-! ## Stores -/

theorem store_ok (W : WorldG G h S) (hc : S c = some s) {x : Nat × K × V} (hx : s.nodes[i]? = some x) (w : V) :
    ∃ h', wrSecond ⟨x.1, 0⟩ w h = .ok ((), h') ∧ WorldG G h' (S.set c (some ⟨s.blk, s.cap, s.nodes.set i (x.1, x.2.1, w)⟩)) ∧ h'.fresh = h.fresh := by
  have v := W.sm c s hc
  have hm := List.mem_of_getElem? hx
  have hl := (List.getElem?_eq_some_iff.1 hx).1
  obtain ⟨n1, n2, n3⟩ := v.node x hm
  have own := own_some hc
  have hv0 : h.slot x.1 0 = some (.pair x.2.1 x.2.2) := by rw [n2]; rfl
  have xb := W.bound c x.1 (by rw [own]; exact node_mem hm)
  refine ⟨{ h with slot := upd h.slot x.1 (one (x.2.1, w)) }, ?_, ?_, rfl⟩
  · simp only [wrSecond, Prog.bind_app, rdPair_eq n1 n2, Res.bind_ok, write_eq (p := ⟨x.1, 0⟩) n1 Nat.zero_lt_one hv0]
    have e : upd (h.slot x.1) 0 (some (.pair x.2.1 w)) = one (x.2.1, w) := by
      funext k; rw [n2]; simp only [upd, one]; split <;> rfl
    simp only [e]
  have ids : (⟨s.blk, s.cap, s.nodes.set i (x.1, x.2.1, w)⟩ : SS K V).blocks = s.blocks := by
    simp only [SS.blocks, SS.ids, List.map_set]
    congr 1
    refine List.ext_getElem? fun k => ?_
    rw [List.getElem?_set]
    split
    · rename_i q; subst q; simp [hl, hx]
      have := (List.getElem?_eq_some_iff.1 hx).2; rw [this]
    · rfl
  have ar := v.array hl
  have nd := v.nodup
  have xblk : s.blk ≠ x.1 := by
    intro q
    simp only [SS.blocks, if_neg ar.1, List.singleton_append, List.nodup_cons] at nd
    exact nd.1 (by rw [q]; exact List.mem_map_of_mem hm)
  have idnd : s.ids.Nodup := by simp only [SS.blocks] at nd; exact (List.nodup_append.1 nd).2.1
  refine W.change c _ (W.not_gone hc) ?_ (Nat.le_refl _) (fun d q => rfl) ?_ (fun q => by cases q) ?_ ?_ ?_
  · intro s' _; exact W.lt c _ hc
  · rintro _ ⟨⟩
    refine ⟨by rw [List.length_set]; exact v.obj, by rw [List.length_set]; exact v.le, v.arr, ?_, ?_, ?_, by rw [ids]; exact nd⟩
    · intro k y hy
      show upd h.slot x.1 _ s.blk k = _
      rw [upd_other _ _ xblk]
      rw [List.getElem?_set] at hy
      split at hy
      · rename_i q; subst q; cases hy; exact v.slots i x hx
      · exact v.slots _ _ hy
    · intro k y l hy
      rw [List.length_set] at l
      have hy : upd h.slot x.1 _ s.blk k = some y := hy
      rw [upd_other _ _ xblk] at hy
      exact v.tail k y l hy
    · intro y hy
      obtain ⟨k, hk⟩ := List.mem_iff_getElem?.1 hy
      rw [List.getElem?_set] at hk
      split at hk
      · rename_i q; subst q; cases hk
        exact ⟨n1, upd_same .., n3⟩
      · rename_i q
        have : y.1 ≠ x.1 := by
          intro e
          have := (List.getElem?_inj (i := i) (j := k) (by rw [SS.ids, List.length_map]; exact hl) idnd).1 (by rw [SS.ids, List.getElem?_map, List.getElem?_map, hk, hx, Option.map_some, Option.map_some, e])
          exact q this
        show h.size y.1 = _ ∧ upd h.slot x.1 _ y.1 = _ ∧ _
        rw [upd_other _ _ this]; exact v.node y (List.mem_of_getElem? hk)
  · rintro _ ⟨⟩ b hb
    rw [ids] at hb
    have : b ∈ S.own c := by rw [own]; exact hb
    exact ⟨.inl this, (W.bound c b this).1⟩
  · intro b q q'
    have : b ≠ x.1 := by rintro rfl; refine q ?_; rw [own]; exact node_mem hm
    exact ⟨rfl, upd_other _ _ this⟩
  · intro b q q'
    rw [own] at q
    exact absurd q (by have := q' _ rfl; rwa [ids] at this)

end Verif.SVMap
