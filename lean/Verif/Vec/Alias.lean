import Verif.Vec.Step
/-!
# `ttl::vector` called with its own elements, and `erase(p, p)`
-/
set_option linter.unusedVariables false
set_option linter.unusedSimpArgs false
namespace Verif.Vec
open Verif
variable {T : Type} {b n c d i j a : Nat} {ws : List T} {h h' : Mem T} {s : VS T}

/-- Memory when an insertion of `n` elements at `i` has opened its gap. -/
def Heap.gap (h : Mem T) (c : Nat) (s : VS T) (i n : Nat) : Mem T :=
  (h.lay s.blk (s.vals.take i) n (s.vals.drop i)).setObj c ⟨⟨s.blk, 0⟩, ⟨s.blk, s.vals.length + n⟩, ⟨s.blk, s.cap⟩⟩

theorem insertHere_start (v : IsVec h c s) (hi : i < s.vals.length) (hn : 0 < n) (room : s.vals.length + n ≤ s.cap) (src : Src T) :
    insertValues c ⟨s.blk, i⟩ n src h = (do let _ ← fillAt n src ⟨s.blk, i⟩; return (← begin_ c) + i : Prog (Mem T) Ptr) (h.gap c s i n) := by
  have le := v.le
  have room' : ¬ s.cap - s.vals.length < n := by omega
  have hs := v.size (by omega)
  have ht : (s.vals.take i).length = i := by simp; omega
  have hd : (s.vals.drop i).length = s.vals.length - i := by simp
  have htd := List.take_append_drop i s.vals
  simp only [insertValues, Prog.bind_app, getObj_eq v.obj, Res.bind_ok, VS.rep, diff_eq _ (Nat.zero_le _), Nat.sub_zero, hn, if_true,
    diff_eq _ le, room', if_false, less_eq, Prog.ite_app, decide_eq_true_eq, if_pos hi, setObj_eq v.obj, ptr_add, Nat.zero_add]
  obtain ⟨g, hgg⟩ : ∃ g, n = g + 1 := ⟨n - 1, by omega⟩
  let h1 : Mem T := h.setObj c ⟨⟨s.blk, 0⟩, ⟨s.blk, s.vals.length + n⟩, ⟨s.blk, s.cap⟩⟩
  have c1 := shiftUp_ok (n := s.cap) (b := s.blk) (g := g) (xs := s.vals.take i) (s.vals.drop i) [] h1 hs (by rw [ht, hd]; omega)
    (by rw [htd, set_slot, v.slot, lay_gap])
  rw [ht, hd, show i + (s.vals.length - i) = s.vals.length by omega, ← hgg, List.append_nil] at c1
  rw [show shiftUp _ _ _ _ = _ from c1]
  simp only [Res.bind_ok, Heap.gap, h1, set_lay]

/-- The argument is an element that the insertion has just moved away: its old slot holds no object. -/
theorem insert_gap_ub (v : IsVec h c s) (hi : i ≤ a) (ha : a < s.vals.length) (hn : a < i + n) (room : s.vals.length + n ≤ s.cap) :
    insertN c ⟨s.blk, i⟩ n (.slot ⟨s.blk, a⟩) h = .ub .lifetime := by
  have le := v.le
  obtain ⟨m, rfl⟩ : ∃ m, n = m + 1 := ⟨n - 1, by omega⟩
  have ht : (s.vals.take i).length = i := by simp; omega
  rw [insertN, insertHere_start v (by omega) (by omega) room]
  simp only [fillAt, Src.next, Src.deref, Arg.get, Prog.bind_app, Prog.pure_app, Res.bind_ok]
  rw [read_raw (n := s.cap) (h := h.gap c s i (m + 1)) (p := ⟨s.blk, a⟩) (by exact v.size (by omega)) (by show a < s.cap; omega)]
  · rfl
  · show upd h.slot s.blk (lay _ _ _) s.blk a = none
    rw [upd_same]
    exact lay_raw _ _ _ (by omega) (by omega)

/-- The same for a range that starts among the elements just moved away. -/
theorem insert_gap_range_ub (v : IsVec h c s) (hi : i ≤ a) (ha : a < s.vals.length) (hn : a < i + n) (room : s.vals.length + n ≤ s.cap) :
    insertRange c ⟨s.blk, i⟩ n (.range ⟨s.blk, a⟩) h = .ub .lifetime := by
  have le := v.le
  obtain ⟨m, rfl⟩ : ∃ m, n = m + 1 := ⟨n - 1, by omega⟩
  have ht : (s.vals.take i).length = i := by simp; omega
  rw [insertRange, insertHere_start v (by omega) (by omega) room]
  simp only [fillAt, Src.next, Src.deref, Arg.get, Prog.bind_app, Prog.pure_app, Res.bind_ok]
  rw [read_raw (n := s.cap) (h := h.gap c s i (m + 1)) (p := ⟨s.blk, a⟩) (by exact v.size (by omega)) (by show a < s.cap; omega)]
  · rfl
  · show upd h.slot s.blk (lay _ _ _) s.blk a = none
    rw [upd_same]
    exact lay_raw _ _ _ (by omega) (by omega)

theorem fillAt_same {ρ : Type} {xs ys : List T} {p : Ptr} {v : T} : ∀ (n : Nat) (xs : List T) (h : Heap ρ T) (m : Nat), h.size b = some cap → xs.length + n ≤ cap →
    h.slot b = lay xs (n + m) ys → (∀ zs k, zs.length + k = xs.length + (n + m) → read p (h.lay b zs k ys) = .ok (v, h.lay b zs k ys)) →
    fillAt n (.counter (.slot p)) ⟨b, xs.length⟩ h = .ok (⟨b, xs.length + n⟩, h.lay b (xs ++ List.replicate n v) m ys)
  | 0, xs, h, m, hs, hn, hl, hr => by
    simp only [List.replicate_zero, List.append_nil, Nat.add_zero, Nat.zero_add] at hl ⊢
    rw [lay_self h b xs m ys hl]; rfl
  | n + 1, xs, h, m, hs, hn, hl, hr => by
    have r0 := hr xs (n + 1 + m) rfl
    rw [lay_self h b xs _ ys hl] at r0
    simp only [fillAt, Src.next, Src.deref, Arg.get, Prog.bind_app, Prog.pure_app, r0, Res.bind_ok]
    rw [construct_left (v := v) (g := n + m) hs (by omega) (by rw [hl]; congr 1; omega)]
    simp only [Res.bind_ok, ptr_add, Src.succ]
    have := fillAt_same (xs := xs) (ys := ys) (p := p) (v := v) n (xs ++ [v]) (h.lay b (xs ++ [v]) (n + m) ys) m hs (by simp; omega) (by simp)
      (by intro zs k e; rw [lay_lay]; exact hr zs k (by simp at e; omega))
    simp only [List.length_append, List.length_singleton, lay_lay, List.append_assoc, List.singleton_append] at this
    rw [this, show xs.length + 1 + n = xs.length + (n + 1) by omega]; rfl

/-- The argument is an element further behind: the insertion takes the element that has moved to its old place. -/
theorem insert_shifted_ok (v : IsVec h c s) (hi : i + n ≤ a) (ha : a < s.vals.length) (hn : 0 < n) (room : s.vals.length + n ≤ s.cap) {w : T} (hw : s.vals[a - n]? = some w) :
    insertN c ⟨s.blk, i⟩ n (.slot ⟨s.blk, a⟩) h = .ok (⟨s.blk, i⟩, h.vec c ⟨s.vals.take i ++ List.replicate n w ++ s.vals.drop i, s.cap, s.blk⟩) := by
  have le := v.le
  have ht : (s.vals.take i).length = i := by simp; omega
  have hd : (s.vals.drop i).length = s.vals.length - i := by simp
  have hs := v.size (by omega)
  rw [insertN, insertHere_start v (by omega) hn room]
  have c2 := fillAt_same (xs := s.vals.take i) (ys := s.vals.drop i) (cap := s.cap) (p := ⟨s.blk, a⟩) (v := w) (b := s.blk) n (s.vals.take i) (h.gap c s i n) 0 hs (by omega)
    (by show upd h.slot s.blk _ s.blk = _; rw [upd_same]; rfl)
    (by
      intro zs k e
      refine read_eq (n := s.cap) (h := Heap.lay _ _ _ _ _) hs (by show a < s.cap; omega) ?_
      rw [lay_slot_same]
      show lay zs k (s.vals.drop i) a = some w
      rw [ht] at e
      have e1 : ¬ a < zs.length := by omega
      have e2 : ¬ a < zs.length + k := by omega
      simp only [lay, if_neg e1, if_neg e2, List.getElem?_drop]
      rw [show i + (a - (zs.length + k)) = a - n by omega]; exact hw)
  rw [ht] at c2
  simp only [Prog.bind_app, c2, Res.bind_ok]
  have hlen : (s.vals.take i ++ List.replicate n w ++ s.vals.drop i).length = s.vals.length + n := by
    rw [List.length_append, List.length_append, ht, hd, List.length_replicate]; omega
  simp only [Heap.gap, begin_, Prog.bind_app, set_lay, lay_lay, getObj_eq (set_obj_same ..), Res.bind_ok, Prog.pure_app, ptr_add, Nat.zero_add]
  simp only [Heap.vec, VS.rep, hlen, Heap.lay, lay_zero (s.vals.take i ++ _)]

/-- The loop that closes the gap copies an element onto itself. -/
theorem erase_empty_ub (v : IsVec h c s) (hi : i < s.vals.length) : eraseRange c ⟨s.blk, i⟩ ⟨s.blk, i⟩ h = .ub .lifetime := by
  have le := v.le
  have hs := v.size (by omega)
  have hh := v.holds (List.getElem?_eq_getElem hi)
  simp only [eraseRange, Prog.bind_app, getObj_eq v.obj, Res.bind_ok, VS.rep, diff_eq _ (Nat.zero_le _), Nat.sub_zero, ptr_add, Nat.zero_add]
  rw [destroyBack]
  simp only [if_true, Prog.pure_app, Res.bind_ok]
  rw [shiftDown]
  have ne : ¬ (Ptr.mk s.blk i = ⟨s.blk, s.vals.length⟩) := by simp; omega
  simp only [Prog.ite_app, if_neg ne, Prog.bind_app, hh.read, Res.bind_ok]
  rw [construct_live (n := s.cap) hs (by show i < s.cap; omega) hh.2]; rfl

theorem read_cleared (v : IsVec h c s) (k : Change h h' c s s') (hv : s'.vals = []) : ∃ f, read ⟨s.blk, a⟩ h' = .ub f := by
  rcases k.moved with ⟨e1, e2⟩ | ⟨_, _, e1, e2⟩
  · have sl := k.vec.slot
    rw [e1, hv] at sl
    cases q : h'.size s.blk with
    | none => exact ⟨.access, read_out (by intro n e; simp only at e; rw [q] at e; cases e)⟩
    | some m =>
      by_cases l : a < m
      · exact ⟨.lifetime, read_raw q l (by show h'.slot s.blk a = none; rw [sl, lay_nil_none])⟩
      · exact ⟨.access, read_out (by intro n e; simp only at e; rw [q] at e; cases e; show m ≤ a; omega)⟩
  · exact ⟨.access, read_out (by intro n e; simp only at e; rw [e1] at e; cases e)⟩

/-- `assign(n, v)` with an own element destroys it before it is copied. -/
theorem assignN_own_ub (B : Base h) (v : IsVec h c s) (hn : 0 < n) : ∃ f, assignN c n (.slot ⟨s.blk, a⟩) h = .ub f := by
  obtain ⟨h1, e1, e2, k, _, hv⟩ := clear_reserve B v n
  obtain ⟨f, q⟩ := read_cleared (a := a) v k hv
  obtain ⟨m, rfl⟩ : ∃ m, n = m + 1 := ⟨n - 1, by omega⟩
  refine ⟨f, ?_⟩
  simp only [assignN, Prog.bind_app, e1, Res.bind_ok, e2, fillBack, Src.next, Src.deref, Arg.get, Prog.pure_app, q]; rfl

/-- `assign(first, last)` with a non-empty own range destroys it before it is copied. -/
theorem assignRange_own_ub (v : IsVec h c s) (hn : 0 < n) (ha : a < s.vals.length) : ∃ f, assignRange c n (.range ⟨s.blk, a⟩) h = .ub f := by
  have k : Change h _ c s (s.become []) := vec_change v [] (Nat.zero_le _)
  obtain ⟨f, q⟩ := read_cleared (a := a) v k rfl
  obtain ⟨m, rfl⟩ : ∃ m, n = m + 1 := ⟨n - 1, by omega⟩
  have v1 := k.vec
  have le := v.le
  refine ⟨f, ?_⟩
  simp only [assignRange, Prog.bind_app, clear_ok v, Res.bind_ok, pushAll, Src.deref, Prog.pure_app, pushBack]
  have e : h.vec c ⟨[], s.cap, s.blk⟩ = h.vec c (s.become []) := rfl
  rw [e] at q ⊢
  simp only [getObj_eq v1.obj, Res.bind_ok, VS.rep, VS.become, less_eq, Prog.bind_app, Prog.ite_app, decide_eq_true_eq, List.length_nil]
  rw [if_pos (by omega)]
  simp only [Arg.get]
  rw [← e] at q
  rw [q]; rfl

end Verif.Vec
