import Verif.Seq.RunFwd
import Verif.Seq.LazyProps2
/-!
# `lazy_queue`: range insertion from iterators of queues (C124)
-/
set_option linter.unusedVariables false
set_option linter.unusedSimpArgs false
set_option linter.unusedSectionVars false
namespace Verif.Seq.LQueue
open Verif
open Verif.Seq.DList (posOf posOf_nil posOf_cons Laid slice)
variable {T : Type} {h : Heap T} {c : Addr} {A B : List (Addr × T)} {ns : List Addr}

/-- The node `get_node` delivers is not one that holds a value. -/
theorem nodeOf_bare (w : Wf h) (r : Queue h c (A ++ B) ns) {x : Addr} {v : T} (l : h.live x = true) (hv : h.val x = some v) : x ≠ nodeOf h.fresh ns := by
  cases ns with
  | nil => exact w.ne_fresh l
  | cons n ns =>
    intro e
    have e : x = n := e
    rw [e, (r.dead.data n (by simp)).2] at hv; cases hv

/-- Inserting a node behind `A` leaves `next` of all elements alone except of the last of `A`. -/
theorem grab_keeps (w : Wf h) (r : Queue h c (A ++ B) ns) (v : T) {n : Addr} {h' : Heap T}
    (q : (do SNode.insertAfter (lastOf c (A.map Prod.fst)) (← getNode c v) : Prog (Heap T) Addr) h = .ok (n, h')) {x : Addr} {u : T}
    (l : h.live x = true) (hv : h.val x = some u) (hx : x ≠ lastOf c (A.map Prod.fst)) :
    h'.next x = h.next x ∧ h'.val x = h.val x ∧ h'.live x = h.live x := by
  have lp := r.main.last_live
  cases ns with
  | nil =>
    have x1 := w.ne_fresh l
    rw [Prog.bind_app, getNode_new v r.dead.head r.dead.path, newNode_eq, Res.bind_ok,
      insertAfter_eq (by show upd h.live h.fresh true _ = true; rw [upd_other _ _ (w.ne_fresh lp)]; exact lp) (upd_same _ _ _)] at q
    cases q
    refine ⟨?_, upd_other _ _ x1, upd_other _ _ x1⟩
    show upd (upd h.next h.fresh _) (lastOf c (A.map Prod.fst)) h.fresh x = _
    rw [upd_other _ _ hx, upd_other _ _ x1]
  | cons m ns =>
    obtain ⟨ln, vn⟩ := r.dead.data m (by simp)
    have x1 : x ≠ m := by rintro rfl; rw [vn] at hv; cases hv
    have x2 : x ≠ c + 1 := by rintro rfl; rw [r.dead.bare] at hv; cases hv
    rw [Prog.bind_app, getNode_pool v r.dead.head r.dead.path.1 (w.ne_zero ln) ln vn, Res.bind_ok,
      insertAfter_eq (by exact lp) (by exact ln)] at q
    cases q
    refine ⟨?_, upd_other _ _ x1, rfl⟩
    show upd (upd (upd h.next (c + 1) (h.next m)) m _) (lastOf c (A.map Prod.fst)) m x = _
    rw [upd_other _ _ hx, upd_other _ _ x1, upd_other _ _ x2]

/-- The loop of `insert_after` reads the same values as from an array if the element at `pos` is not in the range. -/
theorem insertLoopNodes_run : ∀ (es : List (Addr × T)) {h : Heap T} {A : List (Addr × T)} {ns : List Addr} {f l : Addr}, Wf h →
    Queue h c (A ++ B) ns → Run h f es l → (∀ e ∈ es, e.1 ≠ lastOf c (A.map Prod.fst)) →
    insertLoopNodes c (lastOf c (A.map Prod.fst)) f l h = insertLoopVals c (lastOf c (A.map Prod.fst)) (es.map Prod.snd) h
  | [], h, A, ns, f, l, w, r, rn, hd => by
    rw [insertLoopNodes]; simp only [Run] at rn; simp [rn, insertLoopVals]
  | e :: es, h, A, ns, f, l, w, r, rn, hd => by
    have rn0 := rn
    obtain ⟨rfl, r2, r3, r4, r5⟩ := rn
    obtain ⟨h1, q, r1, ef, fr, tl⟩ := grab_ok w r e.2
    have k : ∀ x ∈ e :: es, h1.next x.1 = h.next x.1 ∧ h1.val x.1 = h.val x.1 ∧ h1.live x.1 = h.live x.1 := fun x hx =>
      grab_keeps w r e.2 q (rn0.live x hx).1 (rn0.live x hx).2 (hd x hx)
    have rr : Run h1 (h1.next e.1) es l := by
      rw [(k e (by simp)).1]; exact r5.frame fun x hx => k x (List.mem_cons_of_mem _ hx)
    have ih := insertLoopNodes_run es (A := A ++ [(nodeOf h.fresh ns, e.2)]) (ns := ns.tail) ef.wf (by simpa using r1) rr (by
      intro x hx
      simp only [List.map_append, List.map_cons, List.map_nil, lastOf_concat]
      have := rn0.live x (List.mem_cons_of_mem _ hx)
      exact nodeOf_bare w r this.1 this.2)
    simp only [List.map_append, List.map_cons, List.map_nil, lastOf_concat] at ih
    have l2 : h1.live e.1 = true := by rw [(k e (by simp)).2.2]; exact r3
    rw [insertLoopNodes]
    simp only [Prog.ite_app, ne_eq, r2, not_false_eq_true, if_true, Prog.bind_app, getVal_eq r3 r4, Res.bind_ok, List.map_cons, insertLoopVals] at q ⊢
    cases g : getNode c e.2 h with
    | ok x =>
      rw [g] at q
      simp only [Res.bind_ok] at q ⊢
      rw [q]
      simp only [Res.bind_ok, getNext_eq l2, ih]
    | ub f => rw [g] at q; cases q
    | diverge => rw [g] at q; cases q

open Lean.Order in
/-- If `pos` is an element of the range, the loop meets its own copies for ever. -/
theorem insertLoopNodes_endless {l : Addr} : ∀ (p first : Addr) (h : Heap T) (A Q B : List (Addr × T)) (ns : List Addr), Wf h →
    Queue h c (A ++ Q ++ B) ns → Q ≠ [] →
    first = posOf 0 ((Q ++ B).map Prod.fst) → p = lastOf c ((A ++ Q).map Prod.fst) → (l = 0 ∨ l ∈ B.map Prod.fst) →
    insertLoopNodes c p first l h = .diverge := by
  refine insertLoopNodes.fixpoint_induct (T := T) c l (motive := fun f => ∀ (p first : Addr) (h : Heap T) (A Q B : List (Addr × T)) (ns : List Addr), Wf h →
    Queue h c (A ++ Q ++ B) ns → Q ≠ [] → first = posOf 0 ((Q ++ B).map Prod.fst) → p = lastOf c ((A ++ Q).map Prod.fst) → (l = 0 ∨ l ∈ B.map Prod.fst) →
    f p first h = .diverge) ?_ ?_
  · intro D chain ih p first h A Q B ns w r hQ hf hp hl
    classical
    let F := CCPO.csup chain
    let g : Addr → Addr → Prog (Heap T) Addr := fun o q m => if o = p ∧ q = first ∧ m = h then .diverge else F o q m
    have le : F ⊑ g := csup_le chain fun f hf' => by
      intro o q m
      by_cases e' : o = p ∧ q = first ∧ m = h
      · obtain ⟨rfl, rfl, rfl⟩ := e'
        have := ih f hf' o q m A Q B ns w r hQ hf hp hl
        simp only [g, and_self, if_true, this]
        exact PartialOrder.rel_refl
      · simp only [g, if_neg e']
        exact le_csup chain hf' o q m
    have := le p first h
    simp only [g, and_self, if_true] at this
    have fin : ∀ x : Res (Addr × Heap T), FlatOrder.rel (b := Res.diverge) x .diverge → x = .diverge := by
      intro x q; cases q <;> rfl
    exact fin _ this
  · intro f ih p first h A Q B ns w r hQ hf hp hl
    cases Q with
    | nil => exact absurd rfl hQ
    | cons q Q =>
      have hf : first = q.1 := hf
      subst hf
      obtain ⟨lq, vq⟩ := r.main.data q (by simp)
      have hne : q.1 ≠ l := by
        have nd := r.main.nodup
        intro e
        rcases hl with rfl | hl
        · exact w.ne_zero lq e
        · simp only [List.map_append, List.map_cons, List.nodup_cons, List.nodup_append, List.mem_append, List.mem_cons] at nd
          rw [← e] at hl
          grind
      obtain ⟨h', e, r', ef, _, _⟩ := grab_ok (A := A ++ q :: Q) (B := B) w (by simpa using r) q.2
      rw [← hp] at e
      have r'' : Queue h' c ((A ++ [q]) ++ (Q ++ [(nodeOf h.fresh ns, q.2)]) ++ B) ns.tail := by simpa using r'
      have lq' : h'.live q.1 = true := (r'.main.data q (by simp)).1
      have nx : h'.next q.1 = posOf 0 ((Q ++ [(nodeOf h.fresh ns, q.2)] ++ B).map Prod.fst) := by
        have := Slist.next_at (A := A ++ [q]) (B := Q ++ [(nodeOf h.fresh ns, q.2)] ++ B) (by simpa using r''.main)
        simpa [lastOf_concat] using this
      simp only [Prog.ite_app, ne_eq, hne, not_false_eq_true, if_true, Prog.bind_app, getVal_eq lq vq, Res.bind_ok] at e ⊢
      cases g : getNode c q.2 h with
      | ok x =>
        rw [g] at e
        simp only [Res.bind_ok] at e ⊢
        rw [e]
        simp only [Res.bind_ok, getNext_eq lq', nx]
        exact ih _ _ h' (A ++ [q]) (Q ++ [(nodeOf h.fresh ns, q.2)]) B ns.tail ef.wf r'' (by simp) rfl (by simp [lastOf_append]) hl
      | ub f => rw [g] at e; cases e
      | diverge => rw [g] at e; cases e

end Verif.Seq.LQueue

namespace Verif.Seq.LazyProps
open Verif Verif.Seq.LQueue
open Verif.Seq.DList (Arg fresh insertAt slice cut Blank posOf)
variable {T : Type} {h : Heap T} {S : State T} {c d : Addr} {es fs : List (Addr × T)} {triv : Bool}

/-- `c.insert_after(pos_i, jt_j, jt_k)`, where `jt_j` is the iterator of the `j`-th element of `d`, does exactly what it does with an
array that holds the values of the range, provided that, if `d` is `c`, the element at `pos_i` is not in the range. -/
theorem insert_range_same (R : Reach triv S h) (hc : S.Exists c) (hs : Observes h c es) (hd : S.Exists d) (ht : Observes h d fs) {i j k : Nat}
    (hi : i ≤ es.length) (hjk : j ≤ k) (hk : k ≤ fs.length) (ho : c = d → i ≤ j ∨ k < i) :
    (do insertNodes c (← SList.posAt c i) (← SList.posAt d (j + 1)) (← SList.posAt d (k + 1))) h =
      exec triv (.insertVals c i ((slice j k fs).map Prod.snd)) h := by
  obtain ⟨ns, qc, r⟩ := observed R hc hs
  obtain ⟨ms, qd, rd⟩ := observed R hd ht
  have w := R.world.wf
  simp only [exec, Prog.bind_app, r.main.posAt hi, Res.bind_ok, rd.main.posAt_elem (Nat.le_trans hjk hk), rd.main.posAt_elem hk, insertNodes, insertVals]
  rw [insertLoopNodes_run (A := es.take i) (B := es.drop i) (ns := ns) _ w (by rw [List.take_append_drop]; exact r) (rd.main.run w hjk)]
  by_cases hcd : c = d
  · subst hcd
    rw [ht.inj hs]
    exact last_not_in_slice r.main.nodup hi (ho rfl)
  · intro e he q
    refine R.world.disj d _ c _ qd qc (Ne.symm hcd) e.1 ?_ ?_
    · show e.1 ∈ qcells d fs ms
      obtain ⟨n, _, _, hn⟩ := mem_slice he
      simp only [mem_qcells, scells, List.mem_cons, List.mem_map]
      exact .inl (.inr ⟨e, List.mem_of_getElem? hn, rfl⟩)
    · show e.1 ∈ qcells c es ns
      rw [q]
      have := Slist.last_mem (c := c) (A := es.take i) (B := es.drop i)
      rw [List.take_append_drop] at this
      exact mem_qcells.2 (.inl this)

/-- `c.insert_after(pos_i, jt_j, jt_k)` with iterators of a queue `d`, which may be `c` itself unless `j < i ≤ k`: copies of the values
of the range (as they were before the call) appear behind position `i`, in nodes that held no element; all elements stay; no other
queue changes. -/
theorem insert_range_partial (R : Reach triv S h) (hc : S.Exists c) (hs : Observes h c es) (hd : S.Exists d) (ht : Observes h d fs) {i j k : Nat}
    (hi : i ≤ es.length) (hjk : j ≤ k) (hk : k ≤ fs.length) (ho : c = d → i ≤ j ∨ k < i) :
    ∃ h' ns S', (do insertNodes c (← SList.posAt c i) (← SList.posAt d (j + 1)) (← SList.posAt d (k + 1))) h = .ok ((), h') ∧
      Reach triv S' h' ∧ (∀ x, S.Exists x → S'.Exists x) ∧ Observes h' c (es.take i ++ ns ++ es.drop i) ∧
      ns.map Prod.snd = slice j k (fs.map Prod.snd) ∧ OthersKept S h h' [c] := by
  have hg := get_observed R hc hs
  obtain ⟨h', q, R', s', k'⟩ := one_queue (c := c) R (.insertVals c i ((slice j k fs).map Prod.snd)) ⟨hc, by rw [hg]; exact hi⟩ rfl
  rw [hg] at s'
  refine ⟨h', alloc h.fresh (S.pool c) ((slice j k fs).map Prod.snd), _, ?_, R', fun x hx => put_exists_other _ _ _ hx, by simpa [insertAt] using s', ?_, k'⟩
  · rw [insert_range_same R hc hs hd ht hi hjk hk ho]; exact q
  · rw [alloc_values, slice, slice, List.map_take, List.map_drop]

/-- `c.insert_after(pos_i, it_j, it_k)` with `j < i ≤ k` never returns: it copies its own copies. -/
theorem insert_own_range_endless (R : Reach triv S h) (hc : S.Exists c) (hs : Observes h c es) {i j k : Nat}
    (hji : j < i) (hik : i ≤ k) (hk : k ≤ es.length) :
    (do insertNodes c (← SList.posAt c i) (← SList.posAt c (j + 1)) (← SList.posAt c (k + 1))) h = .diverge := by
  obtain ⟨ns, qc, r⟩ := observed R hc hs
  simp only [Prog.bind_app, r.main.posAt (show i ≤ es.length by omega), Res.bind_ok, r.main.posAt_elem (show j ≤ es.length by omega),
    r.main.posAt_elem hk, insertNodes]
  rw [insertLoopNodes_endless (c := c) _ _ h (es.take j) (slice j i es) (es.drop i) ns R.world.wf]
  · rfl
  · rw [List.append_assoc, ← three_parts es (Nat.le_of_lt hji)]; exact r
  · intro e
    have := congrArg List.length e
    simp [slice] at this; omega
  · rw [← drop_parts es (Nat.le_of_lt hji)]
  · have e : es.take i = es.take j ++ slice j i es := by
      have := three_parts es (Nat.le_of_lt hji)
      have h2 := List.take_append_drop i es
      rw [← List.append_assoc] at this
      exact List.append_cancel_right (h2.trans this)
    rw [e]
  · rw [show k = i + (k - i) by omega, ← List.drop_drop]
    generalize es.drop i = zs
    cases g : zs.drop (k - i) with
    | nil => exact .inl rfl
    | cons x xs =>
      refine .inr (List.mem_map.2 ⟨x, ?_, rfl⟩)
      exact (List.drop_sublist (k - i) zs).subset (by rw [g]; simp)

/-- The hypotheses are met: two queues, a part of the second inserted into the first, a part of a queue into itself, and an insertion
that never ends. -/
example : ∃ (S : State Nat) (h h1 h2 : Heap Nat) (c d : Addr) (gs hs : List (Addr × Nat)), Reach true S h ∧
    (do insertNodes c (← SList.posAt c 1) (← SList.posAt d 2) (← SList.posAt d 4)) h = .ok ((), h1) ∧ Observes h1 c gs ∧ gs.map Prod.snd = [1, 8, 9, 2, 3] ∧
    (do insertNodes c (← SList.posAt c 3) (← SList.posAt c 1) (← SList.posAt c 3)) h = .ok ((), h2) ∧ Observes h2 c hs ∧ hs.map Prod.snd = [1, 2, 3, 1, 2] ∧
    (do insertNodes c (← SList.posAt c 3) (← SList.posAt c 1) (← SList.posAt c 4)) h = .diverge := by
  obtain ⟨S, h, c, d, es, fs, R, hc, hd, hcd, hs, ht, e1, e2⟩ := exists_queues (triv := true) [1, 2, 3] [7, 8, 9]
  have l1 : es.length = 3 := by simpa using congrArg List.length e1
  have l2 : fs.length = 3 := by simpa using congrArg List.length e2
  obtain ⟨h1, ns, _, q1, _, _, s1, v1, _⟩ := insert_range_partial (i := 1) (j := 1) (k := 3) R hc hs hd ht (by omega) (by omega) (by omega) (fun e => absurd e hcd)
  obtain ⟨h2, ms, _, q2, _, _, s2, v2, _⟩ := insert_range_partial (i := 3) (j := 0) (k := 2) R hc hs hc hs (by omega) (by omega) (by omega) (fun _ => .inr (by omega))
  refine ⟨S, h, h1, h2, c, d, _, _, R, q1, s1, ?_, q2, s2, ?_, insert_own_range_endless R hc hs (by omega) (by omega) (by omega)⟩
  · simp only [List.map_append, List.map_take, List.map_drop, v1, e1, e2]; rfl
  · simp only [List.map_append, List.map_take, List.map_drop, v2, e1]; rfl

end Verif.Seq.LazyProps
