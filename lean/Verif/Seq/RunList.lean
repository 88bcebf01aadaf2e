import Verif.Seq.Run
import Verif.Seq.ListMerge
/-!
# `list`: range insertion, assignment and construction from iterators of lists (C124)
-/
set_option linter.unusedVariables false
set_option linter.unusedSimpArgs false
set_option linter.unusedSectionVars false
namespace Verif.Seq.DList
open Verif Verif.Seq
variable {T : Type} {h : Heap T}

/-- ttl/list.hpp:202-207 `list(first, last)` where `first`, `last` are `list` iterators -/
def ctorNodes (first last : Addr) : Prog (Heap T) Addr := do
  let c ← create
  insertNodes c first last
  pure c

/-- ttl/list.hpp:239-244 `assign(first, last)` where `first`, `last` are `list` iterators -/
def assignNodes (c first last : Addr) : Prog (Heap T) Unit := do clear c; insertNodes c first last

/-- The loop of `insert` reads the same values as from an array if the element before `pos` is not in the range. -/
theorem insertNodes_run : ∀ (es : List (Addr × T)) {h : Heap T} {pos f l : Addr}, Wf h → h.live pos = true → h.live (h.prev pos) = true →
    Run h f es l → (∀ e ∈ es, e.1 ≠ h.prev pos) → insertNodes pos f l h = insertVals pos (es.map Prod.snd) h
  | [], h, pos, f, l, w, lp, lq, r, hd => by
    rw [insertNodes]; simp only [Run] at r; simp [r, insertVals]
  | e :: es, h, pos, f, l, w, lp, lq, r, hd => by
    obtain ⟨rfl, r2, r3, r4, r5⟩ := r
    have np := w.ne_fresh lp
    have nq := w.ne_fresh lq
    let h1 : Heap T := { h with val := upd h.val h.fresh (some e.2), live := upd h.live h.fresh true, fresh := h.fresh + 1 }
    have l1 : ∀ x, h.live x = true → h1.live x = true := by
      intro x hx; show upd h.live h.fresh true x = true; rw [upd_other _ _ (w.ne_fresh hx)]; exact hx
    have lf : h1.live h.fresh = true := upd_same _ _ _
    have ib := insertBefore_eq (h := h1) (p := pos) (n := h.fresh) (l1 _ lp) (l1 _ lq) lf
    let h2 := insB h1 pos h.fresh
    have k : ∀ x ∈ e :: es, h2.next x.1 = h.next x.1 ∧ h2.val x.1 = h.val x.1 ∧ h2.live x.1 = h.live x.1 := by
      intro x hx
      have xl : h.live x.1 = true := (Run.live (f := e.1) (l := l) (es := e :: es) ⟨rfl, r2, r3, r4, r5⟩ x hx).1
      have x1 := w.ne_fresh xl
      have x2 := hd x hx
      refine ⟨?_, upd_other _ _ x1, upd_other _ _ x1⟩
      show upd (upd h.next (h.prev pos) h.fresh) h.fresh pos x.1 = _
      rw [upd_other _ _ x1, upd_other _ _ x2]
    have w2 : Wf h2 := by
      refine ⟨Nat.succ_pos _, ?_, ?_⟩
      · show upd h.live h.fresh true 0 = false
        rw [upd_other _ _ (Nat.ne_of_lt w.pos)]; exact w.null
      · intro x hx
        by_cases q : x = h.fresh
        · rw [q]; exact Nat.lt_succ_self _
        · have : upd h.live h.fresh true x = true := hx
          rw [upd_other _ _ q] at this; exact Nat.lt_succ_of_lt (w.used x this)
    have p2 : h2.prev pos = h.fresh := upd_same _ _ _
    have rr : Run h2 (h2.next e.1) es l := by
      rw [(k e (by simp)).1]; exact r5.frame fun x hx => k x (List.mem_cons_of_mem _ hx)
    have ih := insertNodes_run es (pos := pos) w2 (l1 _ lp) (by rw [p2]; exact lf) rr (by
      intro x hx
      rw [p2]
      exact w.ne_fresh (Run.live (f := e.1) (l := l) (es := e :: es) ⟨rfl, r2, r3, r4, r5⟩ x (List.mem_cons_of_mem _ hx)).1)
    have l2 : h2.live e.1 = true := by rw [(k e (by simp)).2.2]; exact r3
    rw [insertNodes]
    simp only [Prog.ite_app, ne_eq, r2, not_false_eq_true, if_true, Prog.bind_app, getVal_eq r3 r4, Res.bind_ok, newNode_eq, List.map_cons, insertVals]
    change ((insertBefore pos h.fresh h1).bind _) = ((insertBefore pos h.fresh h1).bind _)
    rw [ib]
    simp only [Res.bind_ok]
    change (getNext e.1 h2).bind _ = _
    rw [getNext_eq l2]
    exact ih

open Lean.Order in
/-- If the element in front of `pos` is in the range, the loop meets its own copies for ever. -/
theorem insertNodes_endless {c pos l : Addr} : ∀ (first : Addr) (h : Heap T) (A Q B : List (Addr × T)), Wf h → Ring h c (A ++ Q ++ B) → Q ≠ [] →
    first = posOf c ((Q ++ B).map Prod.fst) → pos = posOf c (B.map Prod.fst) → (l = c ∨ l ∈ B.map Prod.fst) → insertNodes pos first l h = .diverge := by
  refine insertNodes.fixpoint_induct (T := T) pos l (motive := fun f => ∀ (first : Addr) (h : Heap T) (A Q B : List (Addr × T)), Wf h →
    Ring h c (A ++ Q ++ B) → Q ≠ [] → first = posOf c ((Q ++ B).map Prod.fst) → pos = posOf c (B.map Prod.fst) → (l = c ∨ l ∈ B.map Prod.fst) →
    f first h = .diverge) ?_ ?_
  · intro D chain ih first h A Q B w r hQ hf hp hl
    classical
    let F := CCPO.csup chain
    let g : Addr → Prog (Heap T) Unit := fun q m => if q = first ∧ m = h then .diverge else F q m
    have le : F ⊑ g := csup_le chain fun f hf' => by
      intro q m
      by_cases e' : q = first ∧ m = h
      · obtain ⟨rfl, rfl⟩ := e'
        have := ih f hf' q m A Q B w r hQ hf hp hl
        simp only [g, and_self, if_true, this]
        exact PartialOrder.rel_refl
      · simp only [g, if_neg e']
        exact le_csup chain hf' q m
    have := le first h
    simp only [g, and_self, if_true] at this
    have fin : ∀ x : Res (Unit × Heap T), FlatOrder.rel (b := Res.diverge) x .diverge → x = .diverge := by
      intro x q; cases q <;> rfl
    exact fin _ this
  · intro f ih first h A Q B w r hQ hf hp hl
    cases Q with
    | nil => exact absurd rfl hQ
    | cons q Q =>
      have hf : first = q.1 := hf
      subst hf
      obtain ⟨lq, vq⟩ := r.data q (by simp)
      have hne : q.1 ≠ l := by
        have nd := r.nodup
        intro e
        rcases hl with rfl | hl
        · simp [e] at nd
        · simp only [List.map_append, List.map_cons, List.nodup_cons, List.nodup_append, List.mem_append, List.mem_cons] at nd
          rw [← e] at hl
          grind
      obtain ⟨h', e, r', ef, _⟩ := insert_ok (A := A ++ q :: Q) (B := B) w (by simpa using r) q.2
      rw [← hp] at e
      unfold insert at e
      simp only [Prog.bind_app, newNode_eq, Res.bind_ok] at e
      have r'' : Ring h' c ((A ++ [q]) ++ (Q ++ [(h.fresh, q.2)]) ++ B) := by simpa using r'
      have lq' : h'.live q.1 = true := (r'.data q (by simp)).1
      have hl' : Links h' c (A.map Prod.fst ++ q.1 :: (Q ++ [(h.fresh, q.2)] ++ B).map Prod.fst) := by have := r'.links; simpa using this
      simp only [Prog.ite_app, ne_eq, hne, not_false_eq_true, if_true, Prog.bind_app, getVal_eq lq vq, Res.bind_ok, newNode_eq, e, getNext_eq lq',
        hl'.at_node.1]
      exact ih _ h' (A ++ [q]) (Q ++ [(h.fresh, q.2)]) B ef.wf r'' (by simp) rfl hp hl

end Verif.Seq.DList

namespace Verif.Seq.ListProps
open Verif Verif.Seq Verif.Seq.DList
variable {T : Type} {h : Heap T} {S : State T} {c d : Addr} {es fs : List (Addr × T)}

theorem shown (R : Reach S h) (hd : S.Exists d) (hs : Shows h d fs) : ∃ s, S d = some s ∧ s.elems = fs := by
  obtain ⟨s, q⟩ := hd
  exact ⟨s, q, by rw [← get_some q]; exact get_shown R ⟨s, q⟩ hs⟩

theorem iterAt_any (R : Reach S h) (hd : S.Exists d) (hs : Shows h d fs) {j : Nat} (hj : j ≤ fs.length) :
    iterAt d j h = .ok (posOf d ((fs.drop j).map Prod.fst), h) := by
  obtain ⟨s, q, rfl⟩ := shown R hd hs
  obtain ⟨l, lv, _, _⟩ := World.laid R.world q
  simp only [iterAt, Prog.bind_app, getNext_eq lv, Res.bind_ok, l.next, advance_ok j l hj]

theorem run_any (R : Reach S h) (hd : S.Exists d) (hs : Shows h d fs) {j k : Nat} (hjk : j ≤ k) :
    Run h (posOf d ((fs.drop j).map Prod.fst)) (slice j k fs) (posOf d ((fs.drop k).map Prod.fst)) := by
  obtain ⟨s, q, rfl⟩ := shown R hd hs
  obtain ⟨l, lv, _, nd⟩ := World.laid R.world q
  exact Run.slice l (List.nodup_cons.1 nd).2 hjk

/-- `c.insert(it_i, jt_j, jt_k)` with iterators of a list `d` does exactly what it does with an array that holds the values of the range,
provided that, if `d` is `c`, the element in front of position `i` is not in the range. -/
theorem insert_range_same (R : Reach S h) (hc : S.Intact c) (hs : Shows h c es) (hd : S.Exists d) (ht : Shows h d fs) {i j k : Nat}
    (hi : i ≤ es.length) (hjk : j ≤ k) (hk : k ≤ fs.length) (ho : c = d → i ≤ j ∨ k < i) :
    (do insertNodes (← iterAt c i) (← iterAt d j) (← iterAt d k)) h = exec (.insertVals c i ((slice j k fs).map Prod.snd)) h := by
  have r : Ring h c es := by
    obtain ⟨es', q⟩ := hc
    have := get_shown R ⟨_, q⟩ hs
    rw [State.get_ring q] at this; subst this
    exact World.ring R.world q
  have sp : es = es.take i ++ es.drop i := (List.take_append_drop i es).symm
  obtain ⟨lp, lq⟩ := Ring.pos_live (A := es.take i) (B := es.drop i) (by rw [← sp]; exact r)
  have hl : Links h c ((es.take i).map Prod.fst ++ (es.drop i).map Prod.fst) := by rw [← List.map_append, ← sp]; exact r.links
  simp only [exec, Prog.bind_app, iterAt_any R (intact_ex hc) hs hi, Res.bind_ok, iterAt_any R hd ht (Nat.le_trans hjk hk), iterAt_any R hd ht hk]
  refine insertNodes_run _ R.world.wf lp lq (run_any R hd ht hjk) ?_
  rw [Links.prev_last hl]
  by_cases hcd : c = d
  · subst hcd
    rw [ht.inj hs]
    exact last_not_in_slice r.nodup hi (ho rfl)
  · intro e he q
    obtain ⟨s, qd, hsd⟩ := shown R hd ht
    obtain ⟨s', qc, hsc⟩ := shown R (intact_ex hc) hs
    refine R.world.disj d _ c _ qd qc (Ne.symm hcd) e.1 ?_ ?_
    · show e.1 ∈ cells d s.elems
      rw [hsd]
      obtain ⟨n, _, _, hn⟩ := mem_slice he
      simp only [cells, List.mem_cons, List.mem_map]
      exact .inr ⟨e, List.mem_of_getElem? hn, rfl⟩
    · show e.1 ∈ cells c s'.elems
      rw [hsc, q]
      have := lastOf_mem ((es.take i).map Prod.fst) c
      simp only [cells, List.mem_cons] at this ⊢
      rcases this with g | g
      · exact .inl g
      · exact .inr (((List.take_sublist i es).map Prod.fst).subset g)

/-- `c.insert(it_i, jt_j, jt_k)` with iterators of a list `d`, which may be `c` itself unless `j < i ≤ k`: copies of the values of the range
(as they were before the call) appear in new nodes in front of position `i`; all nodes stay; no other list changes. -/
theorem insert_range_partial (R : Reach S h) (hc : S.Intact c) (hs : Shows h c es) (hd : S.Exists d) (ht : Shows h d fs) {i j k : Nat}
    (hi : i ≤ es.length) (hjk : j ≤ k) (hk : k ≤ fs.length) (ho : c = d → i ≤ j ∨ k < i) :
    ∃ h' ns, (do insertNodes (← iterAt c i) (← iterAt d j) (← iterAt d k)) h = .ok ((), h') ∧
      Reach (S.put c (es.take i ++ ns ++ es.drop i)) h' ∧ Shows h' c (es.take i ++ ns ++ es.drop i) ∧
      ns.map Prod.snd = slice j k (fs.map Prod.snd) ∧ OthersKept S h h' [c] := by
  have hg := get_shown R (intact_ex hc) hs
  obtain ⟨h', q, R', s', k'⟩ := one_list (c := c) R (.insertVals c i ((slice j k fs).map Prod.snd)) ⟨hc, by rw [hg]; exact hi⟩ rfl
  rw [hg] at R' s'
  refine ⟨h', fresh h.fresh ((slice j k fs).map Prod.snd), ?_, by simpa [insertAt] using R', by simpa [insertAt] using s', ?_, k'⟩
  · rw [insert_range_same R hc hs hd ht hi hjk hk ho]; exact q
  · rw [fresh_values, slice, slice, List.map_take, List.map_drop]

/-- `c.insert(it_i, it_j, it_k)` with `j < i ≤ k` never returns: it copies its own copies. -/
theorem insert_own_range_endless (R : Reach S h) (hc : S.Intact c) (hs : Shows h c es) {i j k : Nat}
    (hji : j < i) (hik : i ≤ k) (hk : k ≤ es.length) :
    (do insertNodes (← iterAt c i) (← iterAt c j) (← iterAt c k)) h = .diverge := by
  have r : Ring h c es := by
    obtain ⟨es', q⟩ := hc
    have := get_shown R ⟨_, q⟩ hs
    rw [State.get_ring q] at this; subst this
    exact World.ring R.world q
  have hc' := intact_ex hc
  simp only [Prog.bind_app, iterAt_any R hc' hs (show i ≤ es.length by omega), Res.bind_ok, iterAt_any R hc' hs (show j ≤ es.length by omega),
    iterAt_any R hc' hs hk]
  refine insertNodes_endless _ h (es.take j) (slice j i es) (es.drop i) R.world.wf ?_ ?_ ?_ rfl ?_
  · rw [List.append_assoc, ← three_parts es (Nat.le_of_lt hji)]; exact r
  · intro e
    have := congrArg List.length e
    simp [slice] at this; omega
  · rw [← drop_parts es (Nat.le_of_lt hji)]
  · rw [show k = i + (k - i) by omega, ← List.drop_drop]
    generalize es.drop i = zs
    cases g : zs.drop (k - i) with
    | nil => exact .inl rfl
    | cons x xs =>
      refine .inr (List.mem_map.2 ⟨x, ?_, rfl⟩)
      exact (List.drop_sublist (k - i) zs).subset (by rw [g]; simp)

/-- `list<T> c(jt_j, jt_k)` with iterators of a list: a new list with copies of the values of the range. -/
theorem construct_range (R : Reach S h) (hd : S.Exists d) (ht : Shows h d fs) {j k : Nat} (hjk : j ≤ k) (hk : k ≤ fs.length) :
    ∃ c h' ns, (do ctorNodes (← iterAt d j) (← iterAt d k)) h = .ok (c, h') ∧ Reach (S.put c ns) h' ∧ Shows h' c ns ∧
      ns.map Prod.snd = slice j k (fs.map Prod.snd) ∧ ∀ x, S.Exists x → x ≠ c ∧ ∀ gs, Shows h x gs → Shows h' x gs := by
  obtain ⟨h', q, R', s', k'⟩ := one_list (c := h.fresh) R (.ctorVals ((slice j k fs).map Prod.snd)) trivial rfl
  refine ⟨h.fresh, h', fresh (h.fresh + 1) ((slice j k fs).map Prod.snd), ?_, R', s', ?_, ?_⟩
  · simp only [Prog.bind_app, Res.bind_ok, iterAt_any R hd ht (Nat.le_trans hjk hk), iterAt_any R hd ht hk]
    obtain ⟨h1, q1, r1, ef, fr⟩ := create_ok (T := T) R.world.wf
    have rn := run_any R hd ht hjk
    have lv := rn.live
    have rn1 : Run h1 (posOf d ((fs.drop j).map Prod.fst)) (slice j k fs) (posOf d ((fs.drop k).map Prod.fst)) := rn.frame fun e he => by
      have := ef.frame e.1 id (fun g => by
        have := ef.grown e.1 id g
        rw [(lv e he).1] at this; cases this) (lv e he).1
      exact ⟨this.next, this.val, this.live⟩
    have hl : Links h1 h.fresh ([] ++ []) := r1.links
    have pl : h1.prev h.fresh = h.fresh := Links.prev_last hl
    have e := insertNodes_run (pos := h.fresh) _ ef.wf r1.head (by rw [pl]; exact r1.head) rn1 (by
      intro e he
      rw [pl]
      exact R.world.wf.ne_fresh (lv e he).1)
    simp only [exec, ctorVals, Prog.bind_app, q1, Res.bind_ok] at q
    simp only [ctorNodes, Prog.bind_app, q1, Res.bind_ok, e]
    cases g : insertVals h.fresh ((slice j k fs).map Prod.snd) h1 with
    | ok y => rw [g] at q; simp only [Res.bind_ok, Prog.pure_app, Res.ok.injEq, Prod.mk.injEq] at q ⊢; exact ⟨trivial, q.2⟩
    | ub f => rw [g] at q; cases q
    | diverge => rw [g] at q; cases q
  · rw [fresh_values, slice, slice, List.map_take, List.map_drop]
  · intro x hx
    have ne : x ≠ h.fresh := by
      obtain ⟨s, q⟩ := hx
      exact R.world.wf.ne_fresh (World.laid R.world q).2.1
    exact ⟨ne, fun gs hgs => k' x (by simpa using ne) hx gs hgs⟩

/-- `c.assign(jt_j, jt_k)` with iterators of another list, `c` empty (see `assign_nonempty_ub` for what happens otherwise). -/
theorem assign_part_partial (R : Reach S h) (hc : S.Intact c) (hs : Shows h c []) (hd : S.Exists d) (ht : Shows h d fs) (hcd : c ≠ d) {j k : Nat}
    (hjk : j ≤ k) (hk : k ≤ fs.length) :
    ∃ h' ns, (do assignNodes c (← iterAt d j) (← iterAt d k)) h = .ok ((), h') ∧ Reach (S.put c ns) h' ∧ Shows h' c ns ∧
      ns.map Prod.snd = slice j k (fs.map Prod.snd) ∧ OthersKept S h h' [c] := by
  obtain ⟨h', ns, q, R', s', v', k'⟩ := insert_range_partial (i := 0) R hc hs hd ht (by simp) hjk hk (fun e => absurd e hcd)
  refine ⟨h', ns, ?_, by simpa using R', by simpa using s', v', k'⟩
  have r : Ring h c [] := by
    obtain ⟨es', q⟩ := hc
    have := get_shown R ⟨_, q⟩ hs
    rw [State.get_ring q] at this; subst this
    exact World.ring R.world q
  have cl : clear c h = .ok ((), h) := by
    rw [clear]
    simp only [Prog.bind_app, getNext_eq r.head, Res.bind_ok, r.next_head]; simp
  have hc' := intact_ex hc
  simp only [Prog.bind_app, iterAt_any R hc' hs (Nat.zero_le _), Res.bind_ok, iterAt_any R hd ht (Nat.le_trans hjk hk), iterAt_any R hd ht hk] at q
  simp only [Prog.bind_app, Res.bind_ok, iterAt_any R hd ht (Nat.le_trans hjk hk), iterAt_any R hd ht hk, assignNodes, cl]
  exact q

/-- `c.assign(it_j, it_k)` with a non-empty range of `c` itself reads an element it has just deleted. -/
theorem assign_own_range_ub (R : Reach S h) (hc : S.Exists c) (hs : Shows h c es) {j k : Nat} (hjk : j < k) (hk : k ≤ es.length) :
    (do assignNodes c (← iterAt c j) (← iterAt c k)) h = .ub .access := by
  have rn := run_any R hc hs (Nat.le_of_lt hjk)
  obtain ⟨s, q, rfl⟩ := shown R hc hs
  obtain ⟨l, lv, vn, nd⟩ := World.laid R.world q
  obtain ⟨h1, q1, _, _, ef, _⟩ := clear_path s.elems R.world.wf l lv vn nd
  simp only [Prog.bind_app, Res.bind_ok, iterAt_any R hc hs (show j ≤ s.elems.length by omega), iterAt_any R hc hs hk, assignNodes, q1]
  have sl : slice j k s.elems ≠ [] := by
    intro e
    have := congrArg List.length e
    simp [slice] at this; omega
  cases g : slice j k s.elems with
  | nil => exact absurd g sl
  | cons e es' =>
    rw [g] at rn
    obtain ⟨r1, r2, r3, r4, r5⟩ := rn
    have he : e ∈ s.elems := by
      obtain ⟨n, _, _, hn⟩ := mem_slice (show e ∈ slice j k s.elems by rw [g]; simp)
      exact List.mem_of_getElem? hn
    have ne : e.1 ≠ c := fun q => (List.nodup_cons.1 nd).1 (List.mem_map.2 ⟨e, he, q⟩)
    have dead : h1.live e.1 = false := ef.shrunk e.1 (by simp only [cells, List.mem_cons, List.mem_map]; exact .inr ⟨e, he, rfl⟩) (by simp [cells, ne])
    rw [insertNodes, r1]
    simp only [Prog.ite_app, ne_eq, r2, not_false_eq_true, if_true, Prog.bind_app, getVal, dead]
    rfl

/-- The hypotheses are met: two lists, a part of the second inserted into the middle of the first, a part of a list into itself, and
the doubling of a list that never ends. -/
example : ∃ (S : State Nat) (h h1 h2 : Heap Nat) (c d : Addr) (gs hs : List (Addr × Nat)), Reach S h ∧
    (do insertNodes (← iterAt c 1) (← iterAt d 1) (← iterAt d 3)) h = .ok ((), h1) ∧ Shows h1 c gs ∧ gs.map Prod.snd = [1, 8, 9, 2, 3] ∧
    (do insertNodes (← iterAt c 3) (← iterAt c 0) (← iterAt c 2)) h = .ok ((), h2) ∧ Shows h2 c hs ∧ hs.map Prod.snd = [1, 2, 3, 1, 2] ∧
    (do insertNodes (← iterAt c 3) (← iterAt c 0) (← iterAt c 3)) h = .diverge := by
  obtain ⟨S, h, c, d, es, fs, R, hc, hd, hcd, hs, ht, e1, e2⟩ := exists_lists [1, 2, 3] [7, 8, 9]
  have l1 : es.length = 3 := by simpa using congrArg List.length e1
  have l2 : fs.length = 3 := by simpa using congrArg List.length e2
  obtain ⟨h1, ns, q1, _, s1, v1, _⟩ := insert_range_partial (i := 1) (j := 1) (k := 3) R hc hs (intact_ex hd) ht (by omega) (by omega) (by omega) (fun e => absurd e hcd)
  obtain ⟨h2, ms, q2, _, s2, v2, _⟩ := insert_range_partial (i := 3) (j := 0) (k := 2) R hc hs (intact_ex hc) hs (by omega) (by omega) (by omega) (fun _ => .inr (by omega))
  refine ⟨S, h, h1, h2, c, d, _, _, R, q1, s1, ?_, q2, s2, ?_, insert_own_range_endless R hc hs (by omega) (by omega) (by omega)⟩
  · simp only [List.map_append, List.map_take, List.map_drop, v1, e1, e2]; rfl
  · simp only [List.map_append, List.map_take, List.map_drop, v2, e1]; rfl

end Verif.Seq.ListProps
