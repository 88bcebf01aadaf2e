import Verif.Seq.RunFwd
import Verif.Seq.BwdProps3
/-!
# `backward_list`: range insertion, assignment and construction from iterators of lists (C124)
-/
set_option linter.unusedVariables false
set_option linter.unusedSimpArgs false
set_option linter.unusedSectionVars false
namespace Verif.Seq.BList
open Verif Verif.Seq
variable {T : Type}

/-- ttl/backward_list.hpp:112-118 `backward_list(first, last)` where `first`, `last` are iterators of a list -/
def ctorNodes (first last : Addr) : Prog (Heap T) Addr := do
  let c ← create
  insertNodes c c first last
  pure c

/-- ttl/backward_list.hpp:149-154 `assign(first, last)` where `first`, `last` are iterators of a list -/
def assignNodes (c first last : Addr) : Prog (Heap T) Unit := do clear c; insertNodes c c first last

end Verif.Seq.BList

namespace Verif.Seq.BwdProps
open Verif Verif.Seq.BList
open Verif.Seq.DList (Arg fresh insertAt slice cut Blank posOf)
variable {T : Type} {h : Heap T} {S : State T} {c d : Addr} {es fs : List (Addr × T)}

/-- `c.insert_after(pos_i, jt_j, jt_k)`, where `jt_j` is the iterator of the `j`-th element of `d`, does exactly what it does with an
array that holds the values of the range, provided that, if `d` is `c`, the element at `pos_i` is not in the range. -/
theorem insert_range_same (R : Reach S h) (hc : S.Exists c) (hs : Shows h c es) (hd : S.Exists d) (ht : Shows h d fs) {i j k : Nat}
    (hi : i ≤ es.length) (hjk : j ≤ k) (hk : k ≤ fs.length) (ho : c = d → i ≤ j ∨ k < i) :
    (do insertNodes c (← SList.posAt c i) (← SList.posAt d (j + 1)) (← SList.posAt d (k + 1))) h =
      exec (.insertVals c i ((slice j k fs).map Prod.snd)) h := by
  obtain ⟨t, qc, r, _⟩ := shown R hc hs
  obtain ⟨u, qd, rd, _⟩ := shown R hd ht
  have w := R.world.wf
  have lv : h.live (lastOf c ((es.take i).map Prod.fst)) = true := Slist.last_live (A := es.take i) (B := es.drop i) (by rw [List.take_append_drop]; exact r)
  simp only [exec, Prog.bind_app, r.posAt hi, Res.bind_ok, rd.posAt_elem (Nat.le_trans hjk hk), rd.posAt_elem hk, insertNodes, insertVals]
  rw [SList.insertNodes_run _ w lv (rd.run w hjk)]
  by_cases hcd : c = d
  · subst hcd
    rw [ht.inj hs]
    exact last_not_in_slice r.nodup hi (ho rfl)
  · intro e he q
    refine R.world.disj d _ c _ qd qc (Ne.symm hcd) e.1 ?_ ?_
    · show e.1 ∈ scells d fs
      obtain ⟨n, _, _, hn⟩ := mem_slice he
      simp only [scells, List.mem_cons, List.mem_map]
      exact .inr ⟨e, List.mem_of_getElem? hn, rfl⟩
    · show e.1 ∈ scells c es
      rw [q]
      have := Slist.last_mem (c := c) (A := es.take i) (B := es.drop i)
      rwa [List.take_append_drop] at this

/-- `c.insert_after(pos_i, jt_j, jt_k)` with iterators of a list `d`, which may be `c` itself unless `j < i ≤ k`: copies of the values
of the range (as they were before the call) appear in new nodes behind position `i`; all nodes stay; no other list changes. `back()`,
`before_end()` and `empty()` stay right if `pos_i` is not the last position. -/
theorem insert_range_partial (R : Reach S h) (hc : S.Exists c) (hs : Shows h c es) (hd : S.Exists d) (ht : Shows h d fs) {i j k : Nat}
    (hi : i ≤ es.length) (hjk : j ≤ k) (hk : k ≤ fs.length) (ho : c = d → i ≤ j ∨ k < i) :
    ∃ h' ns S', (do insertNodes c (← SList.posAt c i) (← SList.posAt d (j + 1)) (← SList.posAt d (k + 1))) h = .ok ((), h') ∧
      Reach S' h' ∧ (∀ x, S.Exists x → S'.Exists x) ∧ Shows h' c (es.take i ++ ns ++ es.drop i) ∧
      (Observes h c es → i < es.length → Observes h' c (es.take i ++ ns ++ es.drop i)) ∧
      ns.map Prod.snd = slice j k (fs.map Prod.snd) ∧ OthersKept S h h' [c] := by
  obtain ⟨t, qc, r, tl⟩ := shown R hc hs
  have hg := get_shown R hc hs
  obtain ⟨h', q, R', s', k', r', t'⟩ := one_list (c := c) R (.insertVals c i ((slice j k fs).map Prod.snd)) ⟨hc, by rw [hg]; exact hi⟩ rfl
  rw [hg] at s' r'
  have e : insertAt i (fresh h.fresh ((slice j k fs).map Prod.snd)) es = es.take i ++ fresh h.fresh ((slice j k fs).map Prod.snd) ++ es.drop i := by simp [insertAt]
  rw [e] at s'
  refine ⟨h', fresh h.fresh ((slice j k fs).map Prod.snd), _, ?_, R', fun x hx => put_exists_other _ _ _ hx, s', ?_, ?_, k'⟩
  · rw [insert_range_same R hc hs hd ht hi hjk hk ho]; exact q
  · intro o hlt
    rw [← e]
    refine observes_of R'.world.wf r' (t'.trans ?_)
    rw [last_insert hlt, end_some qc, ← tl]
    exact o.tail R.world.wf r
  · rw [fresh_values, slice, slice, List.map_take, List.map_drop]

/-- `c.insert_after(pos_i, it_j, it_k)` with `j < i ≤ k` never returns: it copies its own copies. -/
theorem insert_own_range_endless (R : Reach S h) (hc : S.Exists c) (hs : Shows h c es) {i j k : Nat}
    (hji : j < i) (hik : i ≤ k) (hk : k ≤ es.length) :
    (do insertNodes c (← SList.posAt c i) (← SList.posAt c (j + 1)) (← SList.posAt c (k + 1))) h = .diverge := by
  obtain ⟨t, qc, r, _⟩ := shown R hc hs
  simp only [Prog.bind_app, r.posAt (show i ≤ es.length by omega), Res.bind_ok, r.posAt_elem (show j ≤ es.length by omega), r.posAt_elem hk,
    insertNodes, r.endless R.world.wf hji hik hk]
  rfl

/-- The positions of an unchanged list are the same in both memories. -/
theorem same_positions {S' : State T} {h' : Heap T} (R : Reach S h) (R' : Reach S' h') (hd : S.Exists d) (hd' : S'.Exists d) (ht : Shows h d fs)
    (ht' : Shows h' d fs) {j : Nat} (hj : j ≤ fs.length) : ∃ a, SList.posAt d (j + 1) h = .ok (a, h) ∧ SList.posAt d (j + 1) h' = .ok (a, h') := by
  obtain ⟨_, _, r, _⟩ := shown R hd ht
  obtain ⟨_, _, r', _⟩ := shown R' hd' ht'
  exact ⟨_, r.posAt_elem hj, r'.posAt_elem hj⟩

/-- `insert_after(pos, jt_j, jt_k)` at the last position leaves `before_end()` where it was, exactly like a range of an array. -/
theorem insert_part_at_end_loses_end (R : Reach S h) (hc : S.Exists c) (ob : Observes h c es) (hd : S.Exists d) (ht : Shows h d fs) (hcd : c ≠ d) {j k : Nat}
    (hjk : j ≤ k) (hk : k ≤ fs.length) :
    ∃ h1 ns, (do insertNodes c (← SList.posAt c es.length) (← SList.posAt d (j + 1)) (← SList.posAt d (k + 1))) h = .ok ((), h1) ∧
      Shows h1 c (es ++ ns) ∧ NewNodes h ns (slice j k (fs.map Prod.snd)) ∧
      BList.beforeEnd c h1 = .ok (((es.getLast?).map Prod.fst).getD c, h1) ∧
      ∀ v, ∃ h2 n, exec (.pushBack c v) h1 = .ok ((), h2) ∧ Shows h2 c (es ++ (n, v) :: ns) := by
  have e : (slice j k fs).map Prod.snd = slice j k (fs.map Prod.snd) := by rw [slice, slice, List.map_take, List.map_drop]
  rw [insert_range_same R hc ob.shows hd ht (Nat.le_refl _) hjk hk (fun q => absurd q hcd), e]
  exact insert_range_at_end_loses_end R hc ob _

/-- `backward_list<T> c(jt_j, jt_k)` with iterators of a list does exactly what it does with an array that holds the values. -/
theorem construct_range_same (R : Reach S h) (hd : S.Exists d) (ht : Shows h d fs) {j k : Nat} (hjk : j ≤ k) (hk : k ≤ fs.length) :
    (do ctorNodes (← SList.posAt d (j + 1)) (← SList.posAt d (k + 1))) h = ctorVals (slice j k (fs.map Prod.snd)) h := by
  have e : (slice j k fs).map Prod.snd = slice j k (fs.map Prod.snd) := by rw [slice, slice, List.map_take, List.map_drop]
  obtain ⟨h1, q1, R1, o1, k1⟩ := one_healthy (c := h.fresh) R .create trivial rfl rfl
  have q1' : create h = .ok (h.fresh, h1) := by
    obtain ⟨h2, q2, _⟩ := create_good (T := T) R.world
    have : exec .create h = .ok ((), h2) := by simp only [exec, Prog.bind_app, q2, Res.bind_ok, Prog.pure_app]
    rw [q1] at this; cases this; exact q2
  have ne : d ≠ h.fresh := fun q => not_exists_fresh R (q ▸ hd)
  have kd := (k1 d (by simpa using ne) hd fs).1 ht
  have hd1 := put_exists_other S (c := h.fresh) [] h.fresh hd
  obtain ⟨a, p1, p1'⟩ := same_positions R R1 hd hd1 ht kd (Nat.le_trans hjk hk)
  obtain ⟨b, p2, p2'⟩ := same_positions R R1 hd hd1 ht kd hk
  have := insert_range_same (i := 0) R1 (put_exists _ _ _ _) o1.shows hd1 kd (Nat.zero_le _) hjk hk (fun q => absurd q.symm ne)
  rw [e] at this
  have p0 : SList.posAt h.fresh 0 h1 = .ok (h.fresh, h1) := rfl
  simp only [exec, Prog.bind_app, p0, p1', p2', Res.bind_ok] at this
  simp only [ctorNodes, ctorVals, Prog.bind_app, p1, p2, q1', Res.bind_ok, this]

/-- Iterating the list constructed from a range of a list shows copies of the values of the range; but `empty()` answers true and
`push_back` inserts at the front. -/
theorem construct_part_loses_end (R : Reach S h) (hd : S.Exists d) (ht : Shows h d fs) {j k : Nat} (hjk : j ≤ k) (hk : k ≤ fs.length) :
    ∃ h1 c ns S1, (do ctorNodes (← SList.posAt d (j + 1)) (← SList.posAt d (k + 1))) h = .ok (c, h1) ∧ Reach S1 h1 ∧ S1.Exists c ∧ ¬ S.Exists c ∧
      Shows h1 c ns ∧ NewNodes h ns (slice j k (fs.map Prod.snd)) ∧ OthersKept S h h1 [c] ∧
      BList.empty c h1 = .ok (true, h1) ∧ ∀ v, ∃ h2 n, exec (.pushBack c v) h1 = .ok ((), h2) ∧ Shows h2 c ((n, v) :: ns) := by
  rw [construct_range_same R hd ht hjk hk]
  exact construct_from_range_loses_end R _

/-- `c.assign(jt_j, jt_k)` with iterators of another list does exactly what it does with an array that holds the values. -/
theorem assign_range_same (R : Reach S h) (hc : S.Exists c) (hd : S.Exists d) (ht : Shows h d fs) (hcd : c ≠ d) {j k : Nat} (hjk : j ≤ k) (hk : k ≤ fs.length) :
    (do assignNodes c (← SList.posAt d (j + 1)) (← SList.posAt d (k + 1))) h = exec (.assignVals c (slice j k (fs.map Prod.snd))) h := by
  have e : (slice j k fs).map Prod.snd = slice j k (fs.map Prod.snd) := by rw [slice, slice, List.map_take, List.map_drop]
  obtain ⟨h1, q1, R1, o1, k1⟩ := one_healthy (c := c) R (.clear c) hc rfl rfl
  have q1' : clear c h = .ok ((), h1) := q1
  have kd := (k1 d (by simpa using hcd.symm) hd fs).1 ht
  have hd1 := put_exists_other S (c := c) [] c hd
  obtain ⟨a, p1, p1'⟩ := same_positions R R1 hd hd1 ht kd (Nat.le_trans hjk hk)
  obtain ⟨b, p2, p2'⟩ := same_positions R R1 hd hd1 ht kd hk
  have := insert_range_same (i := 0) R1 (put_exists _ _ _ _) o1.shows hd1 kd (Nat.zero_le _) hjk hk (fun q => absurd q hcd)
  rw [e] at this
  have p0 : SList.posAt c 0 h1 = .ok (c, h1) := rfl
  simp only [exec, Prog.bind_app, p0, p1', p2', Res.bind_ok] at this
  simp only [exec, assignNodes, assignVals, Prog.bind_app, p1, p2, q1', Res.bind_ok, this]

theorem assign_part_loses_end (R : Reach S h) (hc : S.Exists c) (hd : S.Exists d) (ht : Shows h d fs) (hcd : c ≠ d) {j k : Nat} (hjk : j ≤ k) (hk : k ≤ fs.length) :
    ∃ h1 ns, (do assignNodes c (← SList.posAt d (j + 1)) (← SList.posAt d (k + 1))) h = .ok ((), h1) ∧ Shows h1 c ns ∧
      NewNodes h ns (slice j k (fs.map Prod.snd)) ∧ OthersKept S h h1 [c] ∧
      BList.empty c h1 = .ok (true, h1) ∧ ∀ v, ∃ h2 n, exec (.pushBack c v) h1 = .ok ((), h2) ∧ Shows h2 c ((n, v) :: ns) := by
  rw [assign_range_same R hc hd ht hcd hjk hk]
  exact assign_range_loses_end R hc _

/-- `c.assign(it_j, it_k)` with a non-empty range of `c` itself reads an element it has just deleted. -/
theorem assign_own_range_ub (R : Reach S h) (hc : S.Exists c) (hs : Shows h c es) {j k : Nat} (hjk : j < k) (hk : k ≤ es.length) :
    (do assignNodes c (← SList.posAt c (j + 1)) (← SList.posAt c (k + 1))) h = .ub .access := by
  obtain ⟨t, qc, r, _⟩ := shown R hc hs
  have rn := r.run R.world.wf (Nat.le_of_lt hjk)
  obtain ⟨h1, q1, W1, _, ef⟩ := clear_good R.world qc
  simp only [Prog.bind_app, Res.bind_ok, r.posAt_elem (show j ≤ es.length by omega), r.posAt_elem hk, assignNodes, q1]
  have sl : slice j k es ≠ [] := by
    intro e
    have := congrArg List.length e
    simp [slice] at this; omega
  cases g : slice j k es with
  | nil => exact absurd g sl
  | cons e es' =>
    rw [g] at rn
    obtain ⟨r1, r2, r3, r4, r5⟩ := rn
    have he : e ∈ es := by
      obtain ⟨n, _, _, hn⟩ := mem_slice (show e ∈ slice j k es by rw [g]; simp)
      exact List.mem_of_getElem? hn
    have ne : e.1 ≠ c := fun q => (List.nodup_cons.1 r.nodup).1 (List.mem_map.2 ⟨e, he, q⟩)
    have dead : h1.live e.1 = false := ef.shrunk e.1 (by simp only [scells, List.mem_cons, List.mem_map]; exact .inr ⟨e, he, rfl⟩) (by simp [scells, ne])
    rw [insertNodes, SList.insertNodes, r1]
    simp only [Prog.ite_app, ne_eq, r2, not_false_eq_true, if_true, Prog.bind_app, getVal, dead]
    rfl

/-- The hypotheses are met: two lists, a part of the second inserted into the first, a part of a list into itself, an assignment of a
part, and an insertion that never ends. -/
example : ∃ (S : State Nat) (h h1 h2 h3 : Heap Nat) (c d : Addr) (gs hs ks : List (Addr × Nat)), Reach S h ∧
    (do insertNodes c (← SList.posAt c 1) (← SList.posAt d 2) (← SList.posAt d 4)) h = .ok ((), h1) ∧ Observes h1 c gs ∧ gs.map Prod.snd = [1, 8, 9, 2, 3] ∧
    (do insertNodes c (← SList.posAt c 3) (← SList.posAt c 1) (← SList.posAt c 3)) h = .ok ((), h2) ∧ Shows h2 c hs ∧ hs.map Prod.snd = [1, 2, 3, 1, 2] ∧
    (do assignNodes c (← SList.posAt d 2) (← SList.posAt d 3)) h = .ok ((), h3) ∧ Shows h3 c ks ∧ ks.map Prod.snd = [8] ∧
    (do insertNodes c (← SList.posAt c 3) (← SList.posAt c 1) (← SList.posAt c 4)) h = .diverge := by
  obtain ⟨S, h, c, d, es, fs, R, hc, hd, hcd, os, ot, e1, e2⟩ := exists_lists [1, 2, 3] [7, 8, 9]
  have hs := os.shows
  have ht := ot.shows
  have l1 : es.length = 3 := by simpa using congrArg List.length e1
  have l2 : fs.length = 3 := by simpa using congrArg List.length e2
  obtain ⟨h1, ns, _, q1, _, _, _, s1, v1, _⟩ := insert_range_partial (i := 1) (j := 1) (k := 3) R hc hs hd ht (by omega) (by omega) (by omega) (fun e => absurd e hcd)
  obtain ⟨h2, ms, _, q2, _, _, s2, _, v2, _⟩ := insert_range_partial (i := 3) (j := 0) (k := 2) R hc hs hc hs (by omega) (by omega) (by omega) (fun _ => .inr (by omega))
  obtain ⟨h3, ks, q3, s3, v3, _⟩ := assign_part_loses_end (j := 1) (k := 2) R hc hd ht hcd (by omega) (by omega)
  refine ⟨S, h, h1, h2, h3, c, d, _, _, _, R, q1, s1 os (by omega), ?_, q2, s2, ?_, q3, s3, ?_, insert_own_range_endless R hc hs (by omega) (by omega) (by omega)⟩
  · simp only [List.map_append, List.map_take, List.map_drop, v1, e1, e2]; rfl
  · simp only [List.map_append, List.map_take, List.map_drop, v2, e1]; rfl
  · rw [v3.values, e2]; rfl

end Verif.Seq.BwdProps
