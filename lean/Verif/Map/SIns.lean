import Verif.Map.SOps
/-!
# Executions of the modifying functions of `ttl::sorted_vector_map`
-/
set_option linter.unusedVariables false
set_option linter.unusedSimpArgs false
set_option linter.unusedSectionVars false
namespace Verif.SVMap
open Verif Verif.Vec
variable {G : Gone} {K V : Type} {h h' h'' : Mem K V} {S : State K V} {c d b i j : Nat} {s : SS K V} {ps qs : List Ptr}

/-! ## Writing pointers -/

/-- `h'` is `h` with the pointers `ps` written to block `b` from slot `j`. -/
structure Wr (h h' : Mem K V) (b j : Nat) (ps : List Ptr) : Prop where
  obj : h'.obj = h.obj
  size : h'.size = h.size
  fresh : h'.fresh = h.fresh
  other : ∀ b', b' ≠ b → h'.slot b' = h.slot b'
  inn : ∀ (k : Nat) p, ps[k]? = some p → h'.slot b (j + k) = some (.ptr p)
  out : ∀ x, x < j ∨ j + ps.length ≤ x → h'.slot b x = h.slot b x

theorem Wr.refl (h : Mem K V) (b j : Nat) : Wr h h b j [] := ⟨rfl, rfl, rfl, fun _ _ => rfl, fun k p q => by simp at q, fun _ _ => rfl⟩
theorem Wr.append (a : Wr h h' b j ps) (a' : Wr h' h'' b (j + ps.length) qs) : Wr h h'' b j (ps ++ qs) := by
  refine ⟨a'.obj.trans a.obj, a'.size.trans a.size, a'.fresh.trans a.fresh, fun x q => (a'.other x q).trans (a.other x q), ?_, ?_⟩
  · intro k p q
    by_cases l : k < ps.length
    · rw [List.getElem?_append_left l] at q
      rw [a'.out _ (.inl (by omega))]; exact a.inn k p q
    · rw [List.getElem?_append_right (by omega)] at q
      have := a'.inn _ p q
      rwa [show j + ps.length + (k - ps.length) = j + k by omega] at this
  · intro x q
    rw [List.length_append] at q
    rw [a'.out x (by omega), a.out x (by omega)]
theorem Wr.prepend (a : Wr h h' b (j + ps.length) qs) (a' : Wr h' h'' b j ps) : Wr h h'' b j (ps ++ qs) := by
  refine ⟨a'.obj.trans a.obj, a'.size.trans a.size, a'.fresh.trans a.fresh, fun x q => (a'.other x q).trans (a.other x q), ?_, ?_⟩
  · intro k p q
    by_cases l : k < ps.length
    · rw [List.getElem?_append_left l] at q; exact a'.inn k p q
    · rw [List.getElem?_append_right (by omega)] at q
      have := a.inn _ p q
      rw [show j + ps.length + (k - ps.length) = j + k by omega] at this
      rw [a'.out _ (.inr (by omega))]; exact this
  · intro x q
    rw [List.length_append] at q
    rw [a'.out x (by omega), a.out x (by omega)]

theorem wrPtr_ok {n : Nat} (hs : h.size b = some n) (hi : j < n) (q : Ptr) : ∃ h', wrPtr ⟨b, j⟩ q h = .ok ((), h') ∧ Wr h h' b j [q] := by
  refine ⟨{ h with slot := upd h.slot b (upd (h.slot b) j (some (.ptr q))) }, by simp only [wrPtr]; rw [inBlock_eq (p := ⟨b, j⟩) hs hi], ⟨rfl, rfl, rfl, fun x e => upd_other _ _ e, ?_, ?_⟩⟩
  · intro k p e
    cases k with
    | zero => simp at e; subst e; simp
    | succ k => simp at e
  · intro x l
    simp only [List.length_singleton] at l
    simp only [upd_same]; rw [upd_other _ _ (by omega)]
theorem wrPtr_out {n : Nat} (hs : h.size b = some n) (hi : n ≤ j) (q : Ptr) : wrPtr ⟨b, j⟩ q h = .ub .access := by
  simp [wrPtr, inBlock, hs, Nat.not_lt.2 hi]

theorem copyPtrs_ok {n m : Nat} {b' : Nat} (ne : b' ≠ b) : ∀ (ps : List Ptr) (i j : Nat) (h : Mem K V),
    (ps ≠ [] → h.size b = some n ∧ i + ps.length ≤ n) → (∀ (k : Nat) p, ps[k]? = some p → h.slot b (i + k) = some (.ptr p)) → h.size b' = some m → j + ps.length ≤ m →
    ∃ h', copyPtrs ⟨b, i⟩ ⟨b, i + ps.length⟩ ⟨b', j⟩ h = .ok (⟨b', j + ps.length⟩, h') ∧ Wr h h' b' j ps
  | [], i, j, h, l, q, l', l'' => by
    refine ⟨h, ?_, Wr.refl ..⟩
    rw [copyPtrs]; simp
  | p :: ps, i, j, h, l, q, l', l'' => by
    obtain ⟨l, l1⟩ := l (by simp)
    rw [List.length_cons] at l1 l''
    obtain ⟨h1, e1, w1⟩ := wrPtr_ok (j := j) l' (by omega) p
    obtain ⟨h2, e2, w2⟩ := copyPtrs_ok ne ps (i + 1) (j + 1) h1 (fun _ => ⟨by rw [w1.size]; exact l, by omega⟩)
      (fun k x e => by rw [w1.other b (Ne.symm ne), show i + 1 + k = i + (k + 1) by omega]; exact q (k + 1) x (by simpa using e)) (by rw [w1.size]; exact l') (by omega)
    refine ⟨h2, ?_, w1.append (ps := [p]) w2⟩
    have hne : (⟨b, i⟩ : Ptr) ≠ ⟨b, i + (p :: ps).length⟩ := by simp
    rw [copyPtrs]
    simp only [Prog.ite_app, if_pos hne, Prog.bind_app]
    simp only [rdPtr_eq (p := ⟨b, i⟩) l (by show i < n; omega) (q 0 p rfl), Res.bind_ok, e1, ptr_add, List.length_cons, show i + (ps.length + 1) = i + 1 + ps.length by omega, e2,
      show j + (ps.length + 1) = j + 1 + ps.length by omega]

theorem fillNull_ok {n : Nat} : ∀ (k j : Nat) (h : Mem K V), h.size b = some n → j + k = n →
    ∃ h', fillNull ⟨b, j⟩ ⟨b, n⟩ h = .ok ((), h') ∧ Wr h h' b j (List.replicate k Ptr.null)
  | 0, j, h, l, q => by
    refine ⟨h, ?_, Wr.refl ..⟩
    rw [fillNull]; simp [less_eq, show ¬ j < n by omega]
  | k + 1, j, h, l, q => by
    obtain ⟨h1, e1, w1⟩ := wrPtr_ok (j := j) l (by omega) Ptr.null
    obtain ⟨h2, e2, w2⟩ := fillNull_ok k (j + 1) h1 (by rw [w1.size]; exact l) (by omega)
    refine ⟨h2, ?_, w1.append (ps := [Ptr.null]) w2⟩
    rw [fillNull]
    simp only [Prog.bind_app, less_eq, Res.bind_ok, show (decide (j < n)) = true by simp; omega, if_true, e1, ptr_add, e2]

theorem shiftPtrs_ok {n : Nat} (i : Nat) : ∀ (ps : List Ptr) (h : Mem K V), h.size b = some n → i + ps.length < n →
    (∀ (k : Nat) p, ps[k]? = some p → h.slot b (i + k) = some (.ptr p)) →
    ∃ h', shiftPtrs ⟨b, i + ps.length⟩ ⟨b, i⟩ ⟨b, i + ps.length + 1⟩ h = .ok (⟨b, i⟩, h') ∧ Wr h h' b (i + 1) ps := by
  refine rev_ind ?_ ?_
  · intro h l q e
    refine ⟨h, ?_, Wr.refl ..⟩
    rw [shiftPtrs]; simp
  · intro ps p ih h l q e
    rw [List.length_append, List.length_singleton] at q
    obtain ⟨h1, e1, w1⟩ := wrPtr_ok (j := i + 1 + ps.length) l (by omega) p
    obtain ⟨h2, e2, w2⟩ := ih h1 (by rw [w1.size]; exact l) (by omega) (fun k x hk => by
      have hl := (List.getElem?_eq_some_iff.1 hk).1
      rw [w1.out _ (.inl (by omega))]; exact e k x (by rw [List.getElem?_append_left hl]; exact hk))
    refine ⟨h2, ?_, w1.prepend w2⟩
    have hne : (⟨b, i + (ps ++ [p]).length⟩ : Ptr) ≠ ⟨b, i⟩ := by simp
    rw [shiftPtrs]
    simp only [Prog.ite_app, if_pos hne]
    have rp : rdPtr ⟨b, i + ps.length⟩ h = .ok (p, h) := rdPtr_eq (p := ⟨b, i + ps.length⟩) l (by show i + ps.length < n; omega) (e ps.length p (by simp))
    have hl : i + (ps ++ [p]).length = i + ps.length + 1 := by simp; omega
    rw [hl]
    simp only [Prog.bind_app, dec_eq, Res.bind_ok, rp]
    rw [show i + ps.length + 1 = i + 1 + ps.length by omega, e1]
    simp only [Res.bind_ok]
    rw [show i + 1 + ps.length = i + ps.length + 1 by omega, e2]

/-! ## Nodes -/

/-- `h` with a new block that holds the pair `e`. -/
def mk1 (h : Mem K V) (e : K × V) : Mem K V := { h with size := upd h.size h.fresh (some 1), slot := upd h.slot h.fresh (one e), fresh := h.fresh + 1 }

theorem newPair_ok (h : Mem K V) (e : K × V) : newPair e h = .ok (⟨h.fresh, 0⟩, mk1 h e) := by
  simp only [newPair, alloc, Prog.bind_app, Res.bind_ok, construct, Prog.pure_app, inBlock, upd_same, Nat.zero_lt_one, if_true]
  simp only [mk1, upd_upd]
  congr 4

/-- `h` with block `b` released. -/
def del (h : Mem K V) (b : Nat) : Mem K V := { h with size := upd h.size b none, slot := upd h.slot b fun _ => none }

theorem deletePair_ok {e : K × V} (hb : b ≠ 0) (hs : h.size b = some 1) (hv : h.slot b = one e) : deletePair ⟨b, 0⟩ h = .ok ((), del h b) := by
  have ne : (⟨b, 0⟩ : Ptr) ≠ Ptr.null := by simp [Ptr.null, hb]
  have hv0 : h.slot b 0 = some (.pair e.1 e.2) := by rw [hv]; rfl
  simp only [deletePair, if_neg ne, Prog.bind_app, destruct_eq (p := ⟨b, 0⟩) hs Nat.zero_lt_one hv0, Res.bind_ok, free, hs, if_true]
  simp only [del]
  congr 5
  funext x; rw [hv]; simp only [upd, one]; split <;> rfl
theorem deleteArray_ok {n : Nat} (hb : b ≠ 0) (hs : h.size b = some n) : deleteArray ⟨b, 0⟩ h = .ok ((), del h b) := by
  have ne : (⟨b, 0⟩ : Ptr) ≠ Ptr.null := by simp [Ptr.null, hb]
  simp only [deleteArray, if_neg ne, hs, if_true]; rfl
theorem deleteArray_null : deleteArray ⟨0, 0⟩ h = .ok ((), h) := by simp [deleteArray, Ptr.null]

/-! ## `insert_before` -/

/-- The nodes with a new one before position `i`. -/
def insNodes (i : Nat) (x : Nat × K × V) (ns : List (Nat × K × V)) : List (Nat × K × V) := ns.take i ++ x :: ns.drop i

theorem insNodes_length {x : Nat × K × V} {ns : List (Nat × K × V)} (hi : i ≤ ns.length) : (insNodes i x ns).length = ns.length + 1 := by
  simp [insNodes]; omega
theorem insNodes_get {x : Nat × K × V} {ns : List (Nat × K × V)} (hi : i ≤ ns.length) (k : Nat) :
    (insNodes i x ns)[k]? = if k < i then ns[k]? else if k = i then some x else ns[k - 1]? := by
  simp only [insNodes]
  by_cases l : k < i
  · rw [List.getElem?_append_left (by simp; omega), List.getElem?_take_of_lt l, if_pos l]
  · rw [List.getElem?_append_right (by simp; omega), List.length_take, Nat.min_eq_left hi, if_neg l]
    by_cases e : k = i
    · subst e; simp
    · obtain ⟨m, rfl⟩ : ∃ m, k = i + (m + 1) := ⟨k - i - 1, by omega⟩
      rw [show i + (m + 1) - i = m + 1 by omega, List.getElem?_cons_succ, List.getElem?_drop, if_neg e, show i + (m + 1) - 1 = i + m by omega]
theorem insNodes_mem {x y : Nat × K × V} {ns : List (Nat × K × V)} : y ∈ insNodes i x ns ↔ y = x ∨ y ∈ ns := by
  simp only [insNodes, List.mem_append, List.mem_cons]
  constructor
  · rintro (q | rfl | q)
    · exact .inr (List.mem_of_mem_take q)
    · exact .inl rfl
    · exact .inr (List.mem_of_mem_drop q)
  · rintro (rfl | q)
    · exact .inr (.inl rfl)
    · rw [← List.take_append_drop i ns, List.mem_append] at q
      rcases q with q | q
      · exact .inl q
      · exact .inr (.inr q)
theorem insNodes_ids (x : Nat × K × V) (ns : List (Nat × K × V)) : ((insNodes i x ns).map (·.1)).Perm (x.1 :: ns.map (·.1)) := by
  have : (insNodes i x ns).Perm (x :: ns) := by
    simp only [insNodes]
    refine (List.perm_middle).trans ?_
    rw [List.take_append_drop]
  exact this.map _

/-- The pointers to nodes. -/
def ptrs (ns : List (Nat × K × V)) : List Ptr := ns.map fun e => ⟨e.1, 0⟩
theorem ptrs_get {ns : List (Nat × K × V)} {k : Nat} {p : Ptr} (q : (ptrs ns)[k]? = some p) : ∃ e, ns[k]? = some e ∧ p = ⟨e.1, 0⟩ := by
  rw [ptrs, List.getElem?_map, Option.map_eq_some_iff] at q
  obtain ⟨e, he, rfl⟩ := q; exact ⟨e, he, rfl⟩
theorem ptrs_of {ns : List (Nat × K × V)} {k : Nat} {e : Nat × K × V} (q : ns[k]? = some e) : (ptrs ns)[k]? = some ⟨e.1, 0⟩ := by
  rw [ptrs, List.getElem?_map, q]; rfl
theorem ptrs_length (ns : List (Nat × K × V)) : (ptrs ns).length = ns.length := by simp [ptrs]

/-- The state after an insertion: with room in the array, the node is the next block; otherwise the array is the next block and the node
the one after it. -/
def insState (f i : Nat) (e : K × V) (s : SS K V) : SS K V :=
  if s.nodes.length < s.cap then ⟨s.blk, s.cap, insNodes i (f, e) s.nodes⟩
  else ⟨f, if s.cap = 0 then 2 else s.cap + s.cap / 2, insNodes i (f + 1, e) s.nodes⟩

theorem nodup_ins {x : Nat × K × V} {b c' : Nat} {ns : List (Nat × K × V)} (nd : (⟨b, c', ns⟩ : SS K V).blocks.Nodup) (hx : x.1 ∉ (⟨b, c', ns⟩ : SS K V).blocks) :
    (⟨b, c', insNodes i x ns⟩ : SS K V).blocks.Nodup := by
  simp only [SS.blocks, SS.ids] at nd hx ⊢
  have p : ((if b = 0 then [] else [b]) ++ (insNodes i x ns).map (·.1)).Perm ((if b = 0 then [] else [b]) ++ (x.1 :: ns.map (·.1))) := (insNodes_ids x ns).append_left _
  rw [p.nodup_iff, List.perm_middle.nodup_iff, List.nodup_cons]
  exact ⟨hx, nd⟩

theorem insert_room (W : WorldG G h S) (hc : S c = some s) (hi : i ≤ s.nodes.length) (e : K × V) (room : s.nodes.length < s.cap) :
    ∃ h', insertBefore c ⟨s.blk, i⟩ e h = .ok (⟨s.blk, i⟩, h') ∧ WorldG G h' (S.set c (some (insState h.fresh i e s))) := by
  have v := W.sm c s hc
  have ne0 : s.blk ≠ 0 := by
    rcases v.arr with ⟨_, z⟩ | z
    · omega
    · exact z.1
  have sz : h.size s.blk = some s.cap := by
    rcases v.arr with ⟨_, z⟩ | z
    · omega
    · exact z.2
  have bf : s.blk < h.fresh := (W.bound c s.blk (by rw [own_some hc]; exact blk_mem ne0)).1
  have nf : ∀ x ∈ s.nodes, x.1 < h.fresh := fun x hx => (W.bound c x.1 (by rw [own_some hc]; exact node_mem hx)).1
  have fs : h.size h.fresh = none ∧ ∀ k, h.slot h.fresh k = none := W.free (Nat.le_refl _)
  let h1 := h.setObj c ⟨⟨s.blk, 0⟩, ⟨s.blk, s.nodes.length + 1⟩, ⟨s.blk, s.cap⟩⟩
  have dl : (ptrs (s.nodes.drop i)).length = s.nodes.length - i := by rw [ptrs_length, List.length_drop]
  obtain ⟨h2, e2, w2⟩ := shiftPtrs_ok (b := s.blk) i (ptrs (s.nodes.drop i)) h1 sz (by omega) (fun k p q => by
    obtain ⟨x, hx, rfl⟩ := ptrs_get q
    rw [List.getElem?_drop] at hx
    exact v.slots _ _ hx)
  rw [show i + (ptrs (s.nodes.drop i)).length = s.nodes.length by omega] at e2
  have f2 : h2.fresh = h.fresh := w2.fresh
  let h3 := mk1 h2 e
  have s3 : h3.size s.blk = some s.cap := by
    show upd h2.size h2.fresh _ s.blk = _
    rw [upd_other _ _ (by omega), w2.size]; exact sz
  obtain ⟨h4, e4, w4⟩ := wrPtr_ok (b := s.blk) (j := i) s3 (by omega) ⟨h2.fresh, 0⟩
  have ex : insertBefore c ⟨s.blk, i⟩ e h = .ok (⟨s.blk, i⟩, h4) := by
    have cnd : ¬ s.cap - s.nodes.length < 1 := by omega
    simp only [insertBefore, Prog.bind_app, getObj_eq v.obj, Res.bind_ok, diff_eq s.blk (Nat.le_of_lt room), Prog.ite_app, if_neg cnd, ptr_add, setObj_eq v.obj]
    rw [show h.setObj c ⟨⟨s.blk, 0⟩, ⟨s.blk, s.nodes.length + 1⟩, ⟨s.blk, s.cap⟩⟩ = h1 from rfl, e2]
    simp only [Res.bind_ok, newPair_ok]
    rw [show mk1 h2 e = h3 from rfl, e4]
    rfl
  refine ⟨h4, ex, ?_⟩
  have st : insState h.fresh i e s = ⟨s.blk, s.cap, insNodes i (h.fresh, e) s.nodes⟩ := by simp only [insState, if_pos room]
  rw [st]
  -- what the final memory looks like
  have Hobj : h4.obj = upd h.obj c (some ⟨⟨s.blk, 0⟩, ⟨s.blk, s.nodes.length + 1⟩, ⟨s.blk, s.cap⟩⟩) := by
    rw [w4.obj]; show h2.obj = _; rw [w2.obj]; rfl
  have Hfresh : h4.fresh = h.fresh + 1 := by
    rw [w4.fresh]; show h2.fresh + 1 = _; rw [f2]
  have Hsize : h4.size = upd h.size h.fresh (some 1) := by
    rw [w4.size]; show upd h2.size h2.fresh _ = _; rw [f2, w2.size]; rfl
  have Hslot : ∀ x, x ≠ s.blk → h4.slot x = upd h.slot h.fresh (one e) x := by
    intro x q
    rw [w4.other x q]; show upd h2.slot h2.fresh _ x = _
    rw [f2]; simp only [upd]; split
    · rfl
    · rw [w2.other x q]; rfl
  have H3 : h3.slot s.blk = h2.slot s.blk := by
    show upd h2.slot h2.fresh _ s.blk = _
    rw [upd_other _ _ (by omega)]
  have Hlow : ∀ k x, k < i → s.nodes[k]? = some x → h4.slot s.blk k = some (.ptr ⟨x.1, 0⟩) := by
    intro k x l hx
    rw [w4.out k (.inl l), H3, w2.out k (.inl (by omega))]; exact v.slots k x hx
  have Hmid : h4.slot s.blk i = some (.ptr ⟨h.fresh, 0⟩) := by
    have := w4.inn 0 _ rfl; rw [f2] at this; exact this
  have Hhigh : ∀ k x, i ≤ k → s.nodes[k]? = some x → h4.slot s.blk (k + 1) = some (.ptr ⟨x.1, 0⟩) := by
    intro k x l hx
    rw [w4.out _ (.inr (by simp; omega)), H3]
    have := w2.inn (k - i) ⟨x.1, 0⟩ (ptrs_of (by rw [List.getElem?_drop, show i + (k - i) = k by omega]; exact hx))
    rwa [show i + 1 + (k - i) = k + 1 by omega] at this
  have Htail : ∀ k, s.nodes.length + 1 ≤ k → h4.slot s.blk k = h.slot s.blk k := by
    intro k l
    rw [w4.out _ (.inr (by simp; omega)), H3, w2.out _ (.inr (by omega))]; rfl
  have own := own_some hc
  have nin : h.fresh ∉ s.blocks := fun q => by have := (W.bound c h.fresh (by rw [own]; exact q)).1; omega
  have memb : ∀ b, b ∈ (⟨s.blk, s.cap, insNodes i (h.fresh, e) s.nodes⟩ : SS K V).blocks ↔ b = h.fresh ∨ b ∈ s.blocks := by
    intro b
    simp only [SS.blocks, SS.ids, List.mem_append, List.mem_map, insNodes_mem]
    constructor
    · rintro (q | ⟨x, rfl | hx, rfl⟩)
      · exact .inr (.inl q)
      · exact .inl rfl
      · exact .inr (.inr ⟨x, hx, rfl⟩)
    · rintro (rfl | q | ⟨x, hx, rfl⟩)
      · exact .inr ⟨_, .inl rfl, rfl⟩
      · exact .inl q
      · exact .inr ⟨x, .inr hx, rfl⟩
  refine W.change c _ (W.not_gone hc) ?_ (by omega) ?_ ?_ ?_ ?_ ?_ ?_
  · intro s' _; have := W.lt c s hc; omega
  · intro d q; rw [Hobj, upd_other _ _ q]
  · rintro _ ⟨⟩
    refine ⟨?_, ?_, ?_, ?_, ?_, ?_, nodup_ins v.nodup nin⟩
    · rw [Hobj, upd_same, insNodes_length hi]
    · rw [insNodes_length hi]; exact room
    · refine .inr ⟨ne0, ?_⟩
      show h4.size s.blk = _
      rw [Hsize, upd_other _ _ (by omega)]; exact sz
    · intro k x hx
      show h4.slot s.blk k = _
      rw [insNodes_get hi] at hx
      split at hx
      · exact Hlow k x ‹_› hx
      · split at hx
        · cases hx; subst i; exact Hmid
        · obtain ⟨m, rfl⟩ : ∃ m, k = m + 1 := ⟨k - 1, by omega⟩
          exact Hhigh m x (by omega) hx
    · intro k x l hx
      rw [insNodes_length hi] at l
      have hx : h4.slot s.blk k = some x := hx
      rw [Htail k l] at hx
      obtain ⟨q, a, a', a''⟩ := v.tail k x (by omega) hx
      exact ⟨q, a, by rw [Hsize, upd_other _ _ (by omega)]; exact a', by omega⟩
    · intro x hx
      have nb : x.1 ≠ s.blk := by
        rintro q
        rcases insNodes_mem.1 hx with rfl | hx
        · simp at q; omega
        · have := v.nodup
          simp only [SS.blocks, if_neg ne0, List.singleton_append, List.nodup_cons] at this
          exact this.1 (by rw [← q]; exact List.mem_map_of_mem hx)
      rw [Hslot _ nb, Hsize]
      rcases insNodes_mem.1 hx with rfl | hx
      · have := W.pos; refine ⟨by simp, by simp, ?_⟩; show h.fresh ≠ 0; omega
      · rw [upd_other _ _ (by have := nf x hx; omega), upd_other _ _ (by have := nf x hx; omega)]
        exact v.node x hx
  · intro q; cases q
  · rintro _ ⟨⟩ b hb
    rw [memb] at hb; rw [own]
    rcases hb with rfl | hb
    · exact ⟨.inr (Nat.le_refl _), by omega⟩
    · have := (W.bound c b (by rw [own]; exact hb)).1; exact ⟨.inl hb, by omega⟩
  · intro b q q'
    have q' := q' _ rfl
    rw [memb] at q'
    have nb : b ≠ h.fresh := fun z => q' (.inl z)
    have nb' : b ≠ s.blk := fun z => q' (.inr (by rw [z]; exact blk_mem ne0))
    rw [Hsize, Hslot b nb', upd_other _ _ nb, upd_other _ _ nb]
    exact ⟨rfl, rfl⟩
  · intro b q q'
    have q' := q' _ rfl
    rw [memb] at q'
    rw [own] at q
    exact absurd (.inr q) q'

end Verif.SVMap
