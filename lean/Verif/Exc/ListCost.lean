import Verif.Exc.ListCtor
import Verif.Seq.ListProps5
import Verif.Exc.Cost
/-!
# What the operations of `ttl::list` cost (C144)

The executions of `Verif.Exc.ListModel` count the operations that may throw: `new node(value)` (an allocation together with the copy of the element),
comparisons and predicate calls. Here this count is what is asked for. What the relinking operations do besides (pointers) does not count.
-/
set_option linter.unusedVariables false
set_option linter.unusedSimpArgs false
set_option linter.unusedSectionVars false
namespace Verif.Exc.XList
open Verif Verif.Seq Verif.Seq.DList Verif.Seq.ListProps Verif.Exc
variable {T : Type} {S : State T} {h h' : Heap T} {c d : Addr} {es fs : List (Addr × T)}

/-- Every legal call makes exactly `work S q` allocations with copies, comparisons and predicate calls. -/
theorem call_cost (R : Reach S h) (q : Call T) (lg : Legal S q) : ∃ h', DList.exec q h = .ok ((), h') ∧ Costs (exec q) h (work S q) h' := by
  by_cases nc : Constructs q
  · cases q <;> simp only [Constructs] at nc
    case copyOf d =>
      obtain ⟨h', e, X⟩ := copy_ctor_points R lg (reach_shows R lg)
      exact ⟨h', e, X.costs⟩
    case ctorN n v =>
      obtain ⟨h', e, X⟩ := ctor_n_points R n v
      exact ⟨h', e, X.costs⟩
    case ctorVals vs =>
      obtain ⟨h', e, X⟩ := ctor_vals_points R vs
      exact ⟨h', e, X.costs⟩
  · obtain ⟨h', e, _, X⟩ := call_points_work R q lg nc
    exact ⟨h', e, X.costs⟩

/-- The operations that only relink or free. -/
def Relinks : Call T → Prop
  | .create | .destroy _ | .popFront _ | .popBack _ | .erase _ _ | .eraseRange _ _ _ | .clear _ | .reverse _ | .spliceAll _ _ _ | .spliceOne _ _ _ _
  | .splice _ _ _ _ _ | .swap _ _ => True
  | _ => False

/-- **C144.** Popping, erasing, clearing, reversing, splicing and swapping neither allocate nor copy nor compare. -/
theorem relinking_free (R : Reach S h) (q : Call T) (lg : Legal S q) (r : Relinks q) : ∃ h', DList.exec q h = .ok ((), h') ∧ Costs (exec q) h 0 h' := by
  have := call_cost R q lg
  cases q <;> first | exact this | exact r.elim

/-- **C144.** Inserting an element makes one node and one copy. -/
theorem insertion_cost (R : Reach S h) (hc : S.Intact c) (o : Shows h c es) (v : T) :
    (∃ h', DList.exec (.pushFront c v) h = .ok ((), h') ∧ Costs (exec (.pushFront c v)) h 1 h') ∧
    (∃ h', DList.exec (.pushBack c v) h = .ok ((), h') ∧ Costs (exec (.pushBack c v)) h 1 h') ∧
    (∀ i, i ≤ es.length → ∃ h', DList.exec (.insert c i v) h = .ok ((), h') ∧ Costs (exec (.insert c i v)) h 1 h') ∧
    (∀ i n, i ≤ es.length → ∃ h', DList.exec (.insertN c i n v) h = .ok ((), h') ∧ Costs (exec (.insertN c i n v)) h n h') ∧
    (∀ i vs, i ≤ es.length → ∃ h', DList.exec (.insertVals c i vs) h = .ok ((), h') ∧ Costs (exec (.insertVals c i vs)) h vs.length h') := by
  have hg := get_shown R (intact_ex hc) o
  refine ⟨call_cost R (.pushFront c v) hc, call_cost R (.pushBack c v) hc, fun i l => ?_, fun i n l => ?_, fun i vs l => ?_⟩
  · exact call_cost R (.insert c i v) ⟨hc, by rw [hg]; exact l⟩
  · exact call_cost R (.insertN c i n v) ⟨hc, by rw [hg]; exact l⟩
  · exact call_cost R (.insertVals c i vs) ⟨hc, by rw [hg]; exact l⟩

/-- **C144.** A copy of a list makes one node and one copy for each element. -/
theorem copy_cost (R : Reach S h) (hd : S.Exists d) (o : Shows h d fs) : ∃ h', DList.exec (.copyOf d) h = .ok ((), h') ∧ Costs (exec (.copyOf d)) h fs.length h' := by
  have := call_cost R (.copyOf d) hd
  simp only [work, get_shown R hd o] at this; exact this

/-- **C144.** `remove_if` calls its predicate once for each element, `remove` compares once with each element, `unique` compares each element once with one before
it; none of them makes an element. -/
theorem remove_cost (R : Reach S h) (hc : S.Intact c) (o : Shows h c es) :
    (∀ p, ∃ h', DList.exec (.removeIf c p) h = .ok ((), h') ∧ Costs (exec (.removeIf c p)) h es.length h') ∧
    (∀ eqv v, ∃ h', DList.exec (.remove c eqv v) h = .ok ((), h') ∧ Costs (exec (.remove c eqv v)) h es.length h') ∧
    (∀ pred, ∃ h', DList.exec (.unique c pred) h = .ok ((), h') ∧ Costs (exec (.unique c pred)) h (es.length - 1) h') := by
  have hg := get_shown R (intact_ex hc) o
  refine ⟨fun p => ?_, fun eqv v => ?_, fun pred => ?_⟩
  · have := call_cost R (.removeIf c p) hc; simp only [work, hg] at this; exact this
  · have := call_cost R (.remove c eqv v) hc; simp only [work, hg] at this; exact this
  · have := call_cost R (.unique c pred) hc; simp only [work, hg] at this; exact this

/-! ## merge -/

theorem mergeCompares_le (lt : T → T → Bool) : ∀ (m : Nat) (os bs : List T), 2 * os.length + bs.length = m → os ≠ [] → bs ≠ [] →
    mergeCompares lt os bs ≤ 2 * os.length + bs.length - 1 := by
  intro m
  induction m using Nat.strongRecOn with
  | _ m ih =>
  intro os bs e q1 q2
  cases os with
  | nil => exact absurd rfl q1
  | cons o os =>
    cases bs with
    | nil => exact absurd rfl q2
    | cons b bs =>
      rw [mergeCompares]
      simp only [List.length_cons] at e ⊢
      split
      · cases os with
        | nil => rw [mergeCompares]; simp; omega
        | cons o2 os => have := ih _ (by simp only [List.length_cons] at e ⊢; omega) (o2 :: os) (o :: b :: bs) rfl (by simp) (by simp); simp only [List.length_cons] at this ⊢; omega
      · cases bs with
        | nil => rw [mergeCompares]; simp; omega
        | cons b2 bs => have := ih _ (by simp only [List.length_cons] at e ⊢; omega) (o :: os) (b2 :: bs) rfl (by simp) (by simp); simp only [List.length_cons] at this ⊢; omega

/-- **C144, what holds of merge.** Merging a list of `m` elements into one of `n` compares at most `2 m + n - 1` times (the standard allows `m + n - 1`) and makes no
element. -/
theorem merge_cost_partial (R : Reach S h) {lt : T → T → Bool} (hc : S.Intact c) (hd : S.Intact d) (ne : c ≠ d) (o : Shows h c es) (p : Shows h d fs)
    (so : fs.Pairwise fun x y => lt y.2 x.2 = false) :
    ∃ n h', DList.exec (.merge c d lt) h = .ok ((), h') ∧ Costs (exec (.merge c d lt)) h n h' ∧ n ≤ 2 * fs.length + es.length - 1 ∧ (es = [] ∨ fs = [] → n = 0) := by
  have hg := get_shown R (intact_ex hc) o
  have hf := get_shown R (intact_ex hd) p
  obtain ⟨h', e, X⟩ := call_cost R (.merge c d lt) ⟨hc, hd, ne, by rw [hf]; exact so⟩
  simp only [work, hg, hf] at X
  have z : es = [] ∨ fs = [] → mergeCompares lt (fs.map Prod.snd) (es.map Prod.snd) = 0 := by
    rintro (rfl | rfl)
    · cases fs <;> simp [mergeCompares]
    · simp [mergeCompares]
  refine ⟨_, h', e, X, ?_, z⟩
  by_cases q : es = [] ∨ fs = []
  · rw [z q]; exact Nat.zero_le _
  · have := mergeCompares_le lt _ (fs.map Prod.snd) (es.map Prod.snd) rfl (by intro x; exact q (.inr (List.map_eq_nil_iff.1 x))) (by intro x; exact q (.inl (List.map_eq_nil_iff.1 x)))
    simpa using this

theorem mergeCompares_smaller {lt : T → T → Bool} {b : T} {bs : List T} : ∀ (os : List T), os.Pairwise (fun x y => lt y x = false) → (∀ x ∈ os, lt x b = true) → os ≠ [] →
    mergeCompares lt os (b :: bs) = 2 * os.length - 1
  | [], _, _, q => absurd rfl q
  | [o], _, l, _ => by rw [mergeCompares, if_pos (l o (by simp)), mergeCompares]; rfl
  | o :: o2 :: os, s, l, _ => by
    have s2 := List.pairwise_cons.1 s
    have ih := mergeCompares_smaller (bs := bs) (o2 :: os) s2.2 (fun x m => l x (by simp [m])) (by simp)
    rw [mergeCompares, if_pos (l o (by simp)), mergeCompares, if_neg (by rw [s2.1 o2 (by simp)]; simp), ih]
    simp only [List.length_cons]; omega

/-- **C144, where the code does more than the standard allows.** Merging `m` elements that are all smaller than the first of `n` compares `2 m - 1` times: after an
element was moved, the next one is compared with it, too. For `m > n` that is more than `m + n - 1`. -/
theorem merge_compares_more (R : Reach S h) {lt : T → T → Bool} (hc : S.Intact c) (hd : S.Intact d) (ne : c ≠ d) {e : Addr × T} (o : Shows h c (e :: es)) (p : Shows h d fs)
    (so : fs.Pairwise fun x y => lt y.2 x.2 = false) (smaller : ∀ x ∈ fs, lt x.2 e.2 = true) (ne0 : fs ≠ []) :
    (∃ h', DList.exec (.merge c d lt) h = .ok ((), h') ∧ Costs (exec (.merge c d lt)) h (2 * fs.length - 1) h') ∧
      ((e :: es).length < fs.length → (e :: es).length + fs.length - 1 < 2 * fs.length - 1) := by
  have hg := get_shown R (intact_ex hc) o
  have hf := get_shown R (intact_ex hd) p
  refine ⟨?_, fun l => by simp only [List.length_cons] at l ⊢; omega⟩
  have X := call_cost R (.merge c d lt) ⟨hc, hd, ne, by rw [hf]; exact so⟩
  simp only [work, hg, hf, List.map_cons] at X
  rw [mergeCompares_smaller _ (List.pairwise_map.2 so) (by intro x m; obtain ⟨y, m', rfl⟩ := List.mem_map.1 m; exact smaller y m') (by intro x; exact ne0 (List.map_eq_nil_iff.1 x)), List.length_map] at X
  exact X

/-! ## Concrete cases -/

/-- Merging 1, 2, 3 into the list with the only element 9 compares five times, and with the roles exchanged three times. -/
example : ∃ (S : State Nat) (h : Heap Nat) (c d : Addr), Reach S h ∧
    (∃ h', Costs (exec (.merge c d fun a b => decide (a < b))) h 5 h') ∧ (∃ h', Costs (exec (.merge d c fun a b => decide (a < b))) h 3 h') ∧
    (∃ h', Costs (exec (.reverse d)) h 0 h') ∧ (∃ h', Costs (exec (.unique d fun a b => a == b)) h 2 h') := by
  obtain ⟨S, h, c, d, es, fs, R, hc, hd, ne, o, p, e1, e2⟩ := exists_lists [9] [1, 2, 3]
  have hg := get_shown R (intact_ex hc) o
  have hf := get_shown R (intact_ex hd) p
  have pw : ∀ (xs : List (Addr × Nat)), xs.map Prod.snd = [9] ∨ xs.map Prod.snd = [1, 2, 3] → xs.Pairwise fun x y => decide (y.2 < x.2) = false := by
    intro xs q
    rw [← List.pairwise_map (f := Prod.snd) (R := fun x y => decide (y < x) = false)]
    rcases q with q | q <;> rw [q] <;> simp
  refine ⟨S, h, c, d, R, ?_, ?_, ?_, ?_⟩
  · obtain ⟨h', _, X⟩ := call_cost R (.merge c d fun a b => decide (a < b)) ⟨hc, hd, ne, by rw [hf]; exact pw _ (.inr e2)⟩
    simp only [work, hg, hf, e1, e2] at X
    exact ⟨h', by simpa [mergeCompares] using X⟩
  · obtain ⟨h', _, X⟩ := call_cost R (.merge d c fun a b => decide (a < b)) ⟨hd, hc, Ne.symm ne, by rw [hg]; exact pw _ (.inl e1)⟩
    simp only [work, hg, hf, e1, e2] at X
    exact ⟨h', by simpa [mergeCompares] using X⟩
  · obtain ⟨h', _, X⟩ := relinking_free R (.reverse d) hd trivial
    exact ⟨h', X⟩
  · obtain ⟨h', _, X⟩ := (remove_cost R hd p).2.2 fun a b => a == b
    have : fs.length = 3 := by rw [← List.length_map (f := Prod.snd), e2]; rfl
    rw [this] at X; exact ⟨h', X⟩

end Verif.Exc.XList
