import Verif.Exc.FvProps
import Verif.Exc.Cost
/-!
# What the operations of `ttl::fixed_vector` cost (C146)

`exec N dv q` of `Verif.Exc.FvModel` counts the operations that may throw: each construction of an element (`T()` or a copy) and each assignment of one. Here this
count is what is asked for. `XReach` is a client program with any exceptions in its past.
-/
set_option linter.unusedVariables false
set_option linter.unusedSimpArgs false
namespace Verif.Exc.XFv
open Verif Verif.Vec.FV Verif.Exc Verif.Vec.FV.FVProps
open Verif.Vec hiding CArg CSrc Call Legal Mem Reach Ret State World appendOne arg_ok assign assignN assignRange at_ at_ok back back_ok begin_ begin_ok capacity capacity_ok clear clear_ok copies_val copyAll copyAll_ok copyOf create ctor ctorN ctorRange destroy empty empty_ok empty₀ end_ end_ok equal erase eraseRange eraseRange_end exec front insert insertN insertRange insertValues notEqual popBack popBack_ok pushAll pushBack put_exists put_other put_put put_same put_self resize resizeX retOf shrinkTo shrinkTo_ok size size_ok spec src_ok step_ok store sub_made swap swap_ok toList vals_some world_start
variable {T : Type} {N n c d x i j a k : Nat} {xs ys zs vs ws us s : List T} {h h' t : Mem T} {dv : T} {S : State T} {L : Nat → Prop}

/-- Every legal call makes exactly `points N S q` constructions and assignments of elements. -/
theorem call_cost (X : XReach N dv S L h) (q : Call T) (lg : Legal S q) :
    ∃ h', Vec.FV.exec N dv q h = .ok (retOf h.fresh q, h') ∧ Costs (exec N dv q) h (points N S q) h' := by
  obtain ⟨h1, e1, W, P⟩ := call_points (dv := dv) X.world q lg
  exact ⟨h1, e1, P.costs⟩

theorem vals_got (X : XReach N dv S L h) (hc : S.Exists c) (o : Observes N h c vs) : S.vals c = vs := vals_some (got X hc o)

theorem length_le (X : XReach N dv S L h) (hc : S.Exists c) (o : Observes N h c vs) : vs.length ≤ N := by
  have := (history_partial X hc).2; rwa [vals_got X hc o] at this

/-- **C146.** `push_back` copies one element, none if the fixed vector is full; `pop_back`, `clear` and destruction copy none. -/
theorem append_cost (X : XReach N dv S L h) (hc : S.Exists c) (o : Observes N h c vs) :
    (∀ a : CArg T, a.Valid S → vs.length < N → ∃ h', Costs (exec N dv (.pushBack c a)) h 1 h') ∧
    (∀ a : CArg T, a.Valid S → vs.length = N → ∃ h', Costs (exec N dv (.pushBack c a)) h 0 h') ∧
    (vs ≠ [] → ∃ h', Costs (exec N dv (.popBack c)) h 0 h') ∧ (∃ h', Costs (exec N dv (.clear c)) h 0 h') ∧ ∃ h', Costs (exec N dv (.destroy c)) h 0 h' := by
  have hv := vals_got X hc o
  refine ⟨fun a v l => ?_, fun a v l => ?_, fun ne => ?_, ?_, ?_⟩
  · obtain ⟨h', _, Y⟩ := call_cost X (.pushBack c a) ⟨hc, v⟩
    simp only [points, hv, show min 1 (N - vs.length) = 1 by omega] at Y; exact ⟨h', Y⟩
  · obtain ⟨h', _, Y⟩ := call_cost X (.pushBack c a) ⟨hc, v⟩
    simp only [points, hv, show min 1 (N - vs.length) = 0 by omega] at Y; exact ⟨h', Y⟩
  · obtain ⟨h', _, Y⟩ := call_cost X (.popBack c) ⟨hc, by rw [hv]; exact ne⟩; exact ⟨h', Y⟩
  · obtain ⟨h', _, Y⟩ := call_cost X (.clear c) hc; exact ⟨h', Y⟩
  · obtain ⟨h', _, Y⟩ := call_cost X (.destroy c) hc; exact ⟨h', Y⟩

/-- **C146.** Inserting `n` elements that fit before element `i` copies these and the elements from `i` on, each once; whether they fit or not, no more than that. -/
theorem insert_cost (X : XReach N dv S L h) (hc : S.Exists c) (o : Observes N h c vs) {m : CArg T} (v : m.Valid S) (hi : i ≤ vs.length)
    (b : m.Before c i ∨ i = vs.length) (n : Nat) :
    ∃ k h', Costs (exec N dv (.insertN c i n m)) h k h' ∧ k ≤ n + (vs.length - i) ∧ (0 < n → vs.length + n ≤ N → k = n + (vs.length - i)) ∧ (n = 0 → k = 0) := by
  have hv := vals_got X hc o
  obtain ⟨h', _, Y⟩ := call_cost X (.insertN c i n m) ⟨hc, by rw [hv]; exact hi, v, by rw [hv]; exact b⟩
  refine ⟨_, h', Y, ?_, ?_, ?_⟩ <;> simp only [points, hv, insPts]
  · split
    · omega
    · split <;> omega
  · intro p l; rw [if_neg (by omega)]; split <;> omega
  · intro e; rw [if_pos e]

/-- **C146.** The same for a range of elements. -/
theorem insert_range_cost (X : XReach N dv S L h) (hc : S.Exists c) (o : Observes N h c vs) (us : List T) (hi : i ≤ vs.length) :
    ∃ k h', Costs (exec N dv (.insertRange c i (.vals us))) h k h' ∧ k ≤ us.length + (vs.length - i) ∧
      (us ≠ [] → vs.length + us.length ≤ N → k = us.length + (vs.length - i)) := by
  have hv := vals_got X hc o
  obtain ⟨h', _, Y⟩ := call_cost X (.insertRange c i (.vals us)) ⟨hc, by rw [hv]; exact hi, trivial, .inl trivial⟩
  refine ⟨_, h', Y, ?_, ?_⟩ <;> simp only [points, hv, insPts, Vec.FV.CSrc.vals']
  · split
    · omega
    · split <;> omega
  · intro p l
    have : 0 < us.length := List.length_pos_iff.2 p
    rw [if_neg (by omega)]; split <;> omega

/-- **C146.** Erasing copies the elements behind those erased, each once. -/
theorem erase_cost (X : XReach N dv S L h) (hc : S.Exists c) (o : Observes N h c vs) :
    (∀ i, i < vs.length → ∃ h', Costs (exec N dv (.erase c i)) h (vs.length - (i + 1)) h') ∧
    (∀ i j, i < j → j ≤ vs.length → ∃ h', Costs (exec N dv (.eraseRange c i j)) h (vs.length - j) h') := by
  have hv := vals_got X hc o
  refine ⟨fun i l => ?_, fun i j l r => ?_⟩
  · obtain ⟨h', _, Y⟩ := call_cost X (.erase c i) ⟨hc, by rw [hv]; exact l⟩
    simp only [points, hv] at Y; exact ⟨h', Y⟩
  · obtain ⟨h', _, Y⟩ := call_cost X (.eraseRange c i j) ⟨hc, by omega, by rw [hv]; exact r, fun e => by omega⟩
    simp only [points, hv] at Y; exact ⟨h', Y⟩

/-- **C146.** Copying a fixed vector, by construction or assignment, copies each element once; assigning it to itself copies nothing. -/
theorem copy_cost (X : XReach N dv S L h) (hd : S.Exists d) (o : Observes N h d ws) :
    (∃ h', Costs (exec N dv (.copyOf d)) h ws.length h') ∧ (∀ c, S.Exists c → c ≠ d → ∃ h', Costs (exec N dv (.assign c d)) h ws.length h') ∧
    ∃ h', Costs (exec N dv (.assign d d)) h 0 h' := by
  have hv := vals_got X hd o
  refine ⟨?_, fun c hc ne => ?_, ?_⟩
  · obtain ⟨h', _, Y⟩ := call_cost X (.copyOf d) hd; simp only [points, hv] at Y; exact ⟨h', Y⟩
  · obtain ⟨h', _, Y⟩ := call_cost X (.assign c d) ⟨hc, hd⟩; simp only [points, hv, if_neg (Ne.symm ne)] at Y; exact ⟨h', Y⟩
  · obtain ⟨h', _, Y⟩ := call_cost X (.assign d d) ⟨hd, hd⟩; simp only [points, if_true] at Y; exact ⟨h', Y⟩

/-- **C146.** Filling (construction, `assign`, `resize`) makes one element for each element made that fits, and `resize(n)` one more: the `T()` it copies. Shrinking makes
none. -/
theorem fill_cost (X : XReach N dv S L h) (hc : S.Exists c) (o : Observes N h c vs) (n : Nat) :
    (∃ h', Costs (exec N dv (.ctor n)) h (min n N) h') ∧ (∀ v, ∃ h', Costs (exec N dv (.ctorN n (.ext v))) h (min n N) h') ∧
    (∀ v, ∃ h', Costs (exec N dv (.assignN c n (.ext v))) h (min n N) h') ∧
    (∀ us, ∃ h', Costs (exec N dv (.assignRange c (.vals us))) h (min us.length N) h') ∧
    (∀ v, ∃ h', Costs (exec N dv (.resizeX c n (.ext v))) h (min n N - vs.length) h') ∧
    (vs.length ≤ n → ∃ h', Costs (exec N dv (.resize c n)) h (1 + (min n N - vs.length)) h') ∧ (n < vs.length → ∃ h', Costs (exec N dv (.resize c n)) h 0 h') := by
  have hv := vals_got X hc o
  have hl := length_le X hc o
  refine ⟨?_, fun v => ?_, fun v => ?_, fun us => ?_, fun v => ?_, fun l => ?_, fun l => ?_⟩
  · obtain ⟨h', _, Y⟩ := call_cost X (.ctor n) trivial; exact ⟨h', Y⟩
  · obtain ⟨h', _, Y⟩ := call_cost X (.ctorN n (.ext v)) trivial; exact ⟨h', Y⟩
  · obtain ⟨h', _, Y⟩ := call_cost X (.assignN c n (.ext v)) ⟨hc, trivial, trivial⟩; exact ⟨h', Y⟩
  · obtain ⟨h', _, Y⟩ := call_cost X (.assignRange c (.vals us)) ⟨hc, trivial, trivial⟩; exact ⟨h', Y⟩
  · obtain ⟨h', _, Y⟩ := call_cost X (.resizeX c n (.ext v)) ⟨hc, trivial⟩
    simp only [points, hv, insPts] at Y
    refine ⟨h', ?_⟩
    split at Y
    · rw [show min n N - vs.length = 0 by omega]; exact Y
    · split at Y
      · rw [show min n N - vs.length = 0 by omega]; exact Y
      · rw [if_neg (Nat.lt_irrefl _)] at Y
        rw [show min n N - vs.length = min (n - vs.length) (N - vs.length) by omega]; exact Y
  · obtain ⟨h', _, Y⟩ := call_cost X (.resize c n) hc
    simp only [points, hv, insPts, if_neg (show ¬ n < vs.length by omega)] at Y
    refine ⟨h', ?_⟩
    rw [if_neg (Nat.lt_irrefl _)] at Y
    have e : (if (if N < n then N else n) - vs.length = 0 then 0 else min ((if N < n then N else n) - vs.length) (N - vs.length)) = min n N - vs.length := by
      split <;> split <;> omega
    rw [e] at Y; exact Y
  · obtain ⟨h', _, Y⟩ := call_cost X (.resize c n) hc
    simp only [points, hv, if_pos l] at Y; exact ⟨h', Y⟩

/-- **C146.** Swapping a fixed vector with one that is not shorter makes three copies for each element of the first and one for each element the second has more. -/
theorem swap_cost (X : XReach N dv S L h) (hc : S.Exists c) (hd : S.Exists d) (oc : Observes N h c vs) (od : Observes N h d ws) (l : vs.length ≤ ws.length) :
    ∃ h', Costs (exec N dv (.swap c d)) h (3 * vs.length + (ws.length - vs.length)) h' := by
  have h1 := vals_got X hc oc
  have h2 := vals_got X hd od
  obtain ⟨h', _, Y⟩ := call_cost X (.swap c d) ⟨hc, hd, by rw [h1, h2]; exact l⟩
  simp only [points, h1, h2] at Y; exact ⟨h', Y⟩

/-- Capacity 6: inserting two elements before element 1 of four makes five copies, erasing element 1 of four copies two, swapping two with four elements eight, `resize(1000)` three. -/
example : ∃ (c d : Nat) (S : State Nat) (h h1 h2 h3 h4 h5 : Mem Nat), Observes 6 h c [5, 6, 7, 8] ∧ Observes 6 h d [1, 2] ∧
    Costs (exec 6 0 (.insertN c 1 2 (.ext 9))) h 5 h1 ∧ Costs (exec 6 0 (.erase c 1)) h 2 h2 ∧ Costs (exec 6 0 (.swap d c)) h 8 h3 ∧
    Costs (exec 6 0 (.resize c 1000)) h 3 h4 ∧ Costs (exec 6 0 (.assign c c)) h 0 h5 := by
  obtain ⟨c, d, S, h, R, hc, hd, ne, oc, od⟩ := demo
  have X := reach_xreach R
  obtain ⟨k, h1, Y1, _, e1, _⟩ := insert_cost X hc oc (m := .ext 9) (i := 1) trivial (by decide) (.inl trivial) 2
  obtain rfl := e1 (by decide) (by decide)
  obtain ⟨h2, Y2⟩ := (erase_cost X hc oc).1 1 (by decide)
  obtain ⟨h3, Y3⟩ := swap_cost X hd hc od oc (by decide)
  obtain ⟨h4, Y4⟩ := (fill_cost X hc oc 1000).2.2.2.2.2.1 (by decide)
  obtain ⟨h5, Y5⟩ := (copy_cost X hc oc).2.2
  exact ⟨c, d, S, h, h1, h2, h3, h4, h5, oc, od, Y1, Y2, Y3, Y4, Y5⟩

end Verif.Exc.XFv
