import Verif.Exc.VecProps
import Verif.Exc.Cost
/-!
# What `ttl::vector` costs (C141)

The executions of `Verif.Exc.VecModel` count the operations of a call that may throw: allocations of storage and copies of elements. Here the
count is what is asked for: how many of them a sequence of `push_back`s makes.
-/
set_option linter.unusedVariables false
set_option linter.unusedSimpArgs false
namespace Verif.Exc.XVec
open Verif Verif.Vec Verif.Exc Verif.Vec.VecProps
variable {T : Type} {n c d i cap : Nat} {vs xs : List T} {h h' : Mem T} {S : State T} {dv : T} {p : Ptr}

/-- The client's loop `for (x : xs) c.push_back(x);` -/
def pushes (dv : T) (c : Nat) : List T → Thr (Mem T) Unit
  | [] => pure ()
  | v :: vs => do
    let _ ← exec dv (.pushBack c (.ext v))
    pushes dv c vs

theorem pushes_append (dv : T) (c : Nat) (xs ys : List T) : pushes dv c (xs ++ ys) = (do let _ ← pushes dv c xs; pushes dv c ys) := by
  induction xs with
  | nil => rfl
  | cons x xs ih => simp only [List.cons_append, pushes, ih, bind_assoc]

theorem push_room (R : Reach dv S h) (hc : S.Exists c) (o : Shows h c vs cap p) (room : vs.length < cap) (v : T) :
    ∃ h' S', Costs (exec dv (.pushBack c (.ext v))) h 1 h' ∧ Reach dv S' h' ∧ S'.Exists c ∧ Shows h' c (vs ++ [v]) cap p := by
  obtain ⟨b, rfl, hs, w⟩ := shown' R hc o
  have X := pushBack_breaks (x := .ext v) (a := v) w rfl room
  have C : Costs (exec dv (.pushBack c (.ext v))) h 1 (h.vec c ⟨vs ++ [v], cap, b⟩) :=
    Points.costs (x := exec dv (.pushBack c (.ext v))) (Points.call_seq (s := h) (s' := h) (a := (Arg.ext v : Arg T)) rfl (Points.seq_pure (x := pushBack c (.ext v)) (g := fun _ => Ret.none) X))
  have hk : spec dv S h.fresh (.pushBack c (.ext v)) = S.put c ⟨vs ++ [v], cap, b⟩ := by
    simp only [spec, get_some hs, vals_some hs, State.copies, CArg.val, VS.ins]
    simp [show ¬ cap < vs.length + 1 by omega]
  obtain ⟨h', e, R', o', _⟩ := one_vector R (.pushBack c (.ext v)) ⟨hc, trivial⟩ hk
  have C' := C
  obtain ⟨⟨a, r⟩, _⟩ := C'
  have e2 := returns_same (r 0)
  rw [e] at e2
  simp only [Res.ok.injEq, Prod.mk.injEq] at e2
  obtain ⟨_, rfl⟩ := e2
  exact ⟨_, _, C, R', ⟨_, by simp [State.put]; rfl⟩, o'⟩

theorem push_full (R : Reach dv S h) (hc : S.Exists c) (o : Shows h c vs vs.length p) (v : T) :
    ∃ h' S' q, Costs (exec dv (.pushBack c (.ext v))) h (vs.length + 2) h' ∧ Reach dv S' h' ∧ S'.Exists c ∧ Shows h' c (vs ++ [v]) (vs.length + 1) q ∧ q ≠ p := by
  obtain ⟨b, rfl, hs, w⟩ := shown' R hc o
  have X := pushBack_moves (x := .ext v) (a := v) R.world.base w (fun _ _ => rfl) rfl
  have C : Costs (exec dv (.pushBack c (.ext v))) h (vs.length + 2) (h.moved c b (vs ++ [v]) (vs.length + 1)) :=
    Points.costs (x := exec dv (.pushBack c (.ext v))) (Points.cast (show 1 + (vs.length + 1) = vs.length + 2 by omega)
      (Points.call_seq (s := h) (s' := h) (a := (Arg.ext v : Arg T)) rfl (Points.seq_pure (x := pushBack c (.ext v)) (g := fun _ => Ret.none) X)))
  have hk : spec dv S h.fresh (.pushBack c (.ext v)) = S.put c ⟨vs ++ [v], vs.length + 1, h.fresh⟩ := by
    simp only [spec, get_some hs, vals_some hs, State.copies, CArg.val, VS.ins]
    simp
  obtain ⟨h', e, R', o', _⟩ := one_vector R (.pushBack c (.ext v)) ⟨hc, trivial⟩ hk
  have C' := C
  obtain ⟨⟨a, r⟩, _⟩ := C'
  have e2 := returns_same (r 0)
  rw [e] at e2
  simp only [Res.ok.injEq, Prod.mk.injEq] at e2
  obtain ⟨_, rfl⟩ := e2
  refine ⟨_, _, _, C, R', ⟨_, by simp [State.put]; rfl⟩, o', fun q => ?_⟩
  have lt := w.lt_fresh R.world.base
  simp only [Ptr.mk.injEq, and_true] at q
  simp only at lt
  omega

/-- **C141, with room** (after `reserve`): `n` `push_back`s make `n` copies, allocate nothing and move no element. -/
theorem push_back_cost_partial (R : Reach dv S h) (hc : S.Exists c) (o : Shows h c vs cap p) (room : vs.length + xs.length ≤ cap) :
    ∃ h' S', Costs (pushes dv c xs) h xs.length h' ∧ Reach dv S' h' ∧ S'.Exists c ∧ Shows h' c (vs ++ xs) cap p := by
  induction xs generalizing S h vs with
  | nil => exact ⟨h, S, Costs.nothing _ _, R, hc, by rw [List.append_nil]; exact o⟩
  | cons x xs ih =>
    simp only [List.length_cons] at room
    obtain ⟨h1, S1, C1, R1, hc1, o1⟩ := push_room R hc o (by omega) x
    obtain ⟨h2, S2, C2, R2, hc2, o2⟩ := ih R1 hc1 o1 (by simp; omega)
    refine ⟨h2, S2, ?_, R2, hc2, by simpa using o2⟩
    have := C1.seq C2
    rw [List.length_cons, Nat.add_comm]; exact this

/-- **C141, without room**: each of the `n` `push_back`s allocates a block and copies all elements; together `n * (2 * size + n + 3) / 2` operations. -/
theorem push_back_full_cost (R : Reach dv S h) (hc : S.Exists c) (o : Shows h c vs vs.length p) (xs : List T) :
    ∃ m h' S' q, 2 * m = xs.length * (2 * vs.length + xs.length + 3) ∧ Costs (pushes dv c xs) h m h' ∧ Reach dv S' h' ∧ S'.Exists c ∧
      Shows h' c (vs ++ xs) (vs.length + xs.length) q := by
  induction xs generalizing S h vs p with
  | nil => exact ⟨0, h, S, p, by simp, Costs.nothing _ _, R, hc, by simpa using o⟩
  | cons x xs ih =>
    obtain ⟨h1, S1, q, C1, R1, hc1, o1, _⟩ := push_full R hc o x
    obtain ⟨m, h2, S2, q2, em, C2, R2, hc2, o2⟩ := ih R1 hc1 (vs := vs ++ [x]) (by simpa using o1)
    refine ⟨_, h2, S2, q2, ?_, C1.seq C2, R2, hc2, by simpa [Nat.add_assoc, Nat.add_comm 1] using o2⟩
    simp only [List.length_append, List.length_cons, List.length_nil] at em ⊢
    rw [Nat.mul_add, em]
    have e1 : 2 * (vs.length + (0 + 1)) + xs.length + 3 = 2 * vs.length + xs.length + 5 := by omega
    have e2 : 2 * vs.length + (xs.length + 1) + 3 = 2 * vs.length + xs.length + 4 := by omega
    rw [e1, e2, Nat.add_mul, Nat.mul_add, Nat.mul_add]
    simp only [Nat.mul_add, Nat.add_mul, Nat.one_mul]
    omega

/-- **C141, exactly**: the first elements use the room there is; from then on every `push_back` reallocates. -/
theorem push_back_total (R : Reach dv S h) (hc : S.Exists c) (o : Shows h c vs cap p) (xs : List T) :
    ∃ m h' S' q, Costs (pushes dv c xs) h m h' ∧ Reach dv S' h' ∧ S'.Exists c ∧ Shows h' c (vs ++ xs) (max cap (vs.length + xs.length)) q ∧
      ((vs.length + xs.length ≤ cap ∧ m = xs.length) ∨
        ∃ full grows, vs.length + full = cap ∧ full + grows = xs.length ∧ 2 * m = 2 * full + grows * (2 * cap + grows + 3)) := by
  by_cases room : vs.length + xs.length ≤ cap
  · obtain ⟨h', S', C, R', hc', o'⟩ := push_back_cost_partial R hc o room
    exact ⟨_, h', S', p, C, R', hc', by rw [Nat.max_eq_left room]; exact o', .inl ⟨room, rfl⟩⟩
  · obtain ⟨b, rfl, hs, w⟩ := shown' R hc o
    have le : vs.length ≤ cap := w.le
    have l1 : (xs.take (cap - vs.length)).length = cap - vs.length := by rw [List.length_take]; omega
    have l2 : (xs.drop (cap - vs.length)).length = xs.length - (cap - vs.length) := List.length_drop
    obtain ⟨h1, S1, C1, R1, hc1, o1⟩ := push_back_cost_partial (xs := xs.take (cap - vs.length)) R hc o (by omega)
    have l3 : (vs ++ xs.take (cap - vs.length)).length = cap := by rw [List.length_append]; omega
    obtain ⟨m, h2, S2, q, em, C2, R2, hc2, o2⟩ := push_back_full_cost R1 hc1 (by rw [l3]; exact o1) (xs.drop (cap - vs.length))
    rw [l3, l2] at em
    rw [l3, l2, List.append_assoc, List.take_append_drop] at o2
    have e : pushes dv c xs = (do let _ ← pushes dv c (xs.take (cap - vs.length)); pushes dv c (xs.drop (cap - vs.length))) := by
      rw [← pushes_append, List.take_append_drop]
    refine ⟨_, h2, S2, q, by rw [e]; exact C1.seq C2, R2, hc2, ?_, .inr ⟨cap - vs.length, xs.length - (cap - vs.length), by omega, by omega, by rw [l1]; omega⟩⟩
    rw [show max cap (vs.length + xs.length) = cap + (xs.length - (cap - vs.length)) by omega]
    exact o2

/-- **C141 is false as stated**: no multiple of the number of elements bounds the cost of appending them one by one to a new vector. -/
theorem push_back_quadratic (v : T) (K : Nat) : ∃ (S : State T) (h : Mem T) (c n : Nat), Reach dv S h ∧ S.Exists c ∧ Observes h c [] ∧
    ∃ m h', Costs (pushes dv c (List.replicate n v)) h m h' ∧ K * n < m := by
  obtain ⟨h, S, c, R, hc, o⟩ : ∃ (h : Mem T) (S : State T) (c : Nat), Reach dv S h ∧ S.Exists c ∧ Shows h c [] 0 ⟨0, 0⟩ := by
    obtain ⟨h, e, R, o, _⟩ := one_vector (c := empty₀.fresh) (t := ⟨[], 0, 0⟩) (Reach.start (T := T) (dv := dv)) .create trivial rfl
    exact ⟨h, _, _, R, ⟨_, by simp [State.put]; rfl⟩, o⟩
  obtain ⟨m, h', S', q, em, C, _⟩ := push_back_full_cost R hc o (List.replicate (2 * K + 1) v)
  refine ⟨S, h, c, 2 * K + 1, R, hc, o.toObserves, m, h', C, ?_⟩
  simp only [List.length_replicate, List.length_nil] at em
  have e1 : 2 * (K * (2 * K + 1)) < (2 * K + 1) * (2 * 0 + (2 * K + 1) + 3) := by
    rw [← Nat.mul_assoc, Nat.mul_comm (2 * K)]
    exact Nat.mul_lt_mul_of_pos_left (by omega) (by omega)
  omega

/-- **C141, the remedy**: `reserve(size() + n)` before `n` `push_back`s. -/
theorem reserve_first_partial (R : Reach dv S h) (hc : S.Exists c) (o : Shows h c vs cap p) (xs : List T) :
    ∃ m h' S' q, Costs (do let _ ← exec dv (.reserve c (vs.length + xs.length)); pushes dv c xs) h m h' ∧ m ≤ 1 + vs.length + xs.length ∧
      Reach dv S' h' ∧ S'.Exists c ∧ Observes h' c (vs ++ xs) ∧ Shows h' c (vs ++ xs) (max cap (vs.length + xs.length)) q := by
  obtain ⟨b, rfl, hs, w⟩ := shown' R hc o
  by_cases q : vs.length + xs.length < cap
  · have X := reserve_stays w q (P := fun _ _ => True)
    have C : Costs (exec dv (.reserve c (vs.length + xs.length))) h 0 h := (Points.seq_pure (g := fun _ => Ret.none) X).costs
    obtain ⟨h2, S2, C2, R2, hc2, o2⟩ := push_back_cost_partial (xs := xs) R hc o (by omega)
    have le : max cap (vs.length + xs.length) = cap := by omega
    exact ⟨_, h2, S2, _, C.seq C2, by omega, R2, hc2, o2.toObserves, by rw [le]; exact o2⟩
  · have X := reserve_moves R.world.base w (n := vs.length + xs.length) (by simp only; omega)
    have C := (Points.seq_pure (g := fun _ => Ret.none) X).costs
    have hk : spec dv S h.fresh (.reserve c (vs.length + xs.length)) = S.put c ⟨vs, vs.length + xs.length, h.fresh⟩ := by
      simp only [spec, get_some hs, VS.reserve]
      rw [if_neg (by omega)]
    obtain ⟨h1, e, R1, o1, _⟩ := one_vector R (.reserve c (vs.length + xs.length)) hc hk
    have C' := C
    obtain ⟨⟨a, r⟩, _⟩ := C'
    have e2 := returns_same (dv := dv) (q := .reserve c (vs.length + xs.length)) (r 0)
    rw [e] at e2
    simp only [Res.ok.injEq, Prod.mk.injEq] at e2
    obtain ⟨_, rfl⟩ := e2
    obtain ⟨h2, S2, C2, R2, hc2, o2⟩ := push_back_cost_partial (xs := xs) R1 ⟨_, by simp [State.put]; rfl⟩ o1 (Nat.le_refl _)
    have le : max cap (vs.length + xs.length) = vs.length + xs.length := by omega
    exact ⟨_, h2, S2, _, Costs.seq (x := exec dv (.reserve c (vs.length + xs.length))) C C2, by simp only; omega, R2, hc2, o2.toObserves, by rw [le]; exact o2⟩

/-- **C141, in the middle**: `insert` of one element copies the elements behind it, or all of them and allocates. -/
theorem insert_cost (R : Reach dv S h) (hc : S.Exists c) (o : Shows h c vs cap p) (hi : i ≤ vs.length) (v : T) :
    ∃ h' S', Costs (exec dv (.insert c i (.ext v))) h (if vs.length < cap then vs.length - i + 1 else vs.length + 2) h' ∧ Reach dv S' h' ∧
      Observes h' c (vs.take i ++ v :: vs.drop i) := by
  obtain ⟨b, rfl, hs, w⟩ := shown' R hc o
  have lg : Legal S (.insert c i (.ext v)) := ⟨hc, by rw [vals_some hs]; exact hi, trivial, .inl trivial⟩
  obtain ⟨h', X, e, _⟩ := insert_counted (dv := dv) (reach_xreach R).fine hs lg
  have R' := R.step _ lg e
  have en : insertionPoints ⟨vs, cap, b⟩ i 1 = if vs.length < cap then vs.length - i + 1 else vs.length + 2 := by
    simp only [insertionPoints, Nat.one_ne_zero, if_false]
    by_cases q : vs.length < cap
    · rw [if_neg (by omega), if_pos q]
    · rw [if_pos (by omega), if_neg q]; omega
  rw [en] at X
  refine ⟨h', _, X.costs, R', ?_⟩
  have hk : ∃ t : VS T, spec dv S h.fresh (.insert c i (.ext v)) = S.put c t ∧ t.vals = vs.take i ++ v :: vs.drop i := by
    refine ⟨_, rfl, ?_⟩
    simp only [get_some hs, State.copies, CArg.val, VS.ins]
    split
    · simp at *
    · split <;> simp
  obtain ⟨t, hk, ht⟩ := hk
  rw [hk] at R'
  rw [← ht]
  exact isVec_observes (R'.world.vec c t (by simp [State.put]))

/-- … and `erase` of one element copies the elements behind it. -/
theorem erase_cost (R : Reach dv S h) (hc : S.Exists c) (o : Observes h c vs) (hi : i < vs.length) :
    ∃ h' S', Costs (exec dv (.erase c i)) h (vs.length - (i + 1)) h' ∧ Reach dv S' h' ∧ Observes h' c (vs.take i ++ vs.drop (i + 1)) := by
  obtain ⟨s, hs, rfl, w⟩ := observed R hc o
  have lg : Legal S (.erase c i) := ⟨hc, by rw [vals_some hs]; exact hi⟩
  obtain ⟨h', X, e, _⟩ := erase_counted (dv := dv) (reach_xreach R).fine hs hi
  have er : retOf dv S h.fresh (.erase c i) = .it ⟨s.blk, i⟩ := by simp only [retOf, get_some hs]
  have R' := R.step _ lg e
  refine ⟨h', _, X.costs, R', ?_⟩
  have hk : ∃ t : VS T, spec dv S h.fresh (.erase c i) = S.put c t ∧ t.vals = s.vals.take i ++ s.vals.drop (i + 1) := by
    refine ⟨_, rfl, ?_⟩
    simp only [get_some hs, vals_some hs, VS.become]
  obtain ⟨t, hk, ht⟩ := hk
  rw [hk] at R'
  rw [← ht]
  exact isVec_observes (R'.world.vec c t (by simp [State.put]))

/-- A vector with four elements and room for ten: appending eight costs 6 + 12 + 13 operations: six copies, then two reallocations with 10 and 11 old elements. -/
example : ∃ (c : Nat) (S : State Nat) (h : Mem Nat), Reach 0 S h ∧ Observes h c [5, 6, 7, 8] ∧ ∃ h', Costs (pushes 0 c [1, 2, 3, 4, 5, 6, 7, 8]) h 31 h' := by
  obtain ⟨c, d, S, h, p, q, R, hc, hd, ne, oc, od⟩ := VecProps.demo
  obtain ⟨m, h', S', _, C, _, _, _, e⟩ := push_back_total R hc oc [1, 2, 3, 4, 5, 6, 7, 8]
  refine ⟨c, S, h, R, oc.toObserves, h', ?_⟩
  rcases e with ⟨e, _⟩ | ⟨f, g, e1, e2, e3⟩
  · simp at e
  · simp only [List.length_cons, List.length_nil] at e1 e2
    have : f = 6 := by omega
    subst this
    have : g = 2 := by omega
    subst this
    have : m = 31 := by omega
    subst this
    exact C

end Verif.Exc.XVec
