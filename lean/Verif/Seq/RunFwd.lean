import Verif.Seq.Run
import Verif.Seq.FwdProps3
/-!
# `forward_list`: range insertion, assignment and construction from iterators of lists (C124)
-/
set_option linter.unusedVariables false
set_option linter.unusedSimpArgs false
set_option linter.unusedSectionVars false
namespace Verif.Seq
open Verif
open DList (posOf posOf_nil posOf_cons Laid slice)
variable {T : Type} {h : Heap T}

/-- The loop of `insert_after` reads the same values as from an array if the element at `pos` is not in the range. -/
theorem SList.insertNodes_run : ∀ (es : List (Addr × T)) {h : Heap T} {p f l : Addr}, Wf h → h.live p = true →
    Run h f es l → (∀ e ∈ es, e.1 ≠ p) → SList.insertNodes p f l h = SList.insertVals p (es.map Prod.snd) h
  | [], h, p, f, l, w, lp, r, hd => by
    rw [SList.insertNodes]; simp only [Run] at r; simp [r, SList.insertVals]
  | e :: es, h, p, f, l, w, lp, r, hd => by
    obtain ⟨rfl, r2, r3, r4, r5⟩ := r
    have np := w.ne_fresh lp
    let h1 : Heap T := { h with val := upd h.val h.fresh (some e.2), live := upd h.live h.fresh true, fresh := h.fresh + 1 }
    have l1 : ∀ x, h.live x = true → h1.live x = true := by
      intro x hx; show upd h.live h.fresh true x = true; rw [upd_other _ _ (w.ne_fresh hx)]; exact hx
    have lf : h1.live h.fresh = true := upd_same _ _ _
    have ib := insertAfter_eq (h := h1) (p := p) (n := h.fresh) (l1 _ lp) lf
    let h2 := insA h1 p h.fresh
    have k : ∀ x ∈ e :: es, h2.next x.1 = h.next x.1 ∧ h2.val x.1 = h.val x.1 ∧ h2.live x.1 = h.live x.1 := by
      intro x hx
      have xl : h.live x.1 = true := (Run.live (f := e.1) (l := l) (es := e :: es) ⟨rfl, r2, r3, r4, r5⟩ x hx).1
      have x1 := w.ne_fresh xl
      have x2 := hd x hx
      refine ⟨?_, upd_other _ _ x1, upd_other _ _ x1⟩
      show upd (upd h.next h.fresh (h.next p)) p h.fresh x.1 = _
      rw [upd_other _ _ x2, upd_other _ _ x1]
    have w2 : Wf h2 := by
      refine ⟨Nat.succ_pos _, ?_, ?_⟩
      · show upd h.live h.fresh true 0 = false
        rw [upd_other _ _ (Nat.ne_of_lt w.pos)]; exact w.null
      · intro x hx
        by_cases q : x = h.fresh
        · rw [q]; exact Nat.lt_succ_self _
        · have : upd h.live h.fresh true x = true := hx
          rw [upd_other _ _ q] at this; exact Nat.lt_succ_of_lt (w.used x this)
    have rr : Run h2 (h2.next e.1) es l := by
      rw [(k e (by simp)).1]; exact r5.frame fun x hx => k x (List.mem_cons_of_mem _ hx)
    have ih := SList.insertNodes_run es (p := h.fresh) w2 lf rr (by
      intro x hx
      exact w.ne_fresh (Run.live (f := e.1) (l := l) (es := e :: es) ⟨rfl, r2, r3, r4, r5⟩ x (List.mem_cons_of_mem _ hx)).1)
    have l2 : h2.live e.1 = true := by rw [(k e (by simp)).2.2]; exact r3
    rw [SList.insertNodes]
    simp only [Prog.ite_app, ne_eq, r2, not_false_eq_true, if_true, Prog.bind_app, getVal_eq r3 r4, Res.bind_ok, newNode_eq, List.map_cons, SList.insertVals]
    change ((SNode.insertAfter p h.fresh h1).bind _) = ((SNode.insertAfter p h.fresh h1).bind _)
    rw [ib]
    simp only [Res.bind_ok]
    change (getNext e.1 h2).bind _ = _
    rw [getNext_eq l2]
    exact ih

open Lean.Order in
/-- If `pos` is an element of the range, the loop meets its own copies for ever. -/
theorem SList.insertNodes_endless {c l : Addr} : ∀ (p first : Addr) (h : Heap T) (A Q B : List (Addr × T)), Wf h → Slist h c (A ++ Q ++ B) → Q ≠ [] →
    first = posOf 0 ((Q ++ B).map Prod.fst) → p = lastOf c ((A ++ Q).map Prod.fst) → (l = 0 ∨ l ∈ B.map Prod.fst) →
    SList.insertNodes p first l h = .diverge := by
  refine SList.insertNodes.fixpoint_induct (T := T) l (motive := fun f => ∀ (p first : Addr) (h : Heap T) (A Q B : List (Addr × T)), Wf h →
    Slist h c (A ++ Q ++ B) → Q ≠ [] → first = posOf 0 ((Q ++ B).map Prod.fst) → p = lastOf c ((A ++ Q).map Prod.fst) → (l = 0 ∨ l ∈ B.map Prod.fst) →
    f p first h = .diverge) ?_ ?_
  · intro D chain ih p first h A Q B w r hQ hf hp hl
    classical
    let F := CCPO.csup chain
    let g : Addr → Addr → Prog (Heap T) Addr := fun o q m => if o = p ∧ q = first ∧ m = h then .diverge else F o q m
    have le : F ⊑ g := csup_le chain fun f hf' => by
      intro o q m
      by_cases e' : o = p ∧ q = first ∧ m = h
      · obtain ⟨rfl, rfl, rfl⟩ := e'
        have := ih f hf' o q m A Q B w r hQ hf hp hl
        simp only [g, and_self, if_true, this]
        exact PartialOrder.rel_refl
      · simp only [g, if_neg e']
        exact le_csup chain hf' o q m
    have := le p first h
    simp only [g, and_self, if_true] at this
    have fin : ∀ x : Res (Addr × Heap T), FlatOrder.rel (b := Res.diverge) x .diverge → x = .diverge := by
      intro x q; cases q <;> rfl
    exact fin _ this
  · intro f ih p first h A Q B w r hQ hf hp hl
    cases Q with
    | nil => exact absurd rfl hQ
    | cons q Q =>
      have hf : first = q.1 := hf
      subst hf
      obtain ⟨lq, vq⟩ := r.data q (by simp)
      have hne : q.1 ≠ l := by
        have nd := r.nodup
        intro e
        rcases hl with rfl | hl
        · exact w.ne_zero lq e
        · simp only [List.map_append, List.map_cons, List.nodup_cons, List.nodup_append, List.mem_append, List.mem_cons] at nd
          rw [← e] at hl
          grind
      obtain ⟨h', e, r', ef, _, _⟩ := newInsert_ok (A := A ++ q :: Q) (B := B) w (by simpa using r) q.2
      rw [← hp] at e
      simp only [Prog.bind_app, newNode_eq, Res.bind_ok] at e
      have r'' : Slist h' c ((A ++ [q]) ++ (Q ++ [(h.fresh, q.2)]) ++ B) := by simpa using r'
      have lq' : h'.live q.1 = true := (r'.data q (by simp)).1
      have nx : h'.next q.1 = posOf 0 ((Q ++ [(h.fresh, q.2)] ++ B).map Prod.fst) := by
        have := Slist.next_at (A := A ++ [q]) (B := Q ++ [(h.fresh, q.2)] ++ B) (by simpa using r'')
        simpa [lastOf_concat] using this
      simp only [Prog.ite_app, ne_eq, hne, not_false_eq_true, if_true, Prog.bind_app, getVal_eq lq vq, Res.bind_ok, newNode_eq, e, getNext_eq lq', nx]
      exact ih _ _ h' (A ++ [q]) (Q ++ [(h.fresh, q.2)]) B ef.wf r'' (by simp) rfl (by simp [lastOf_append]) hl

theorem Slist.run (w : Wf h) {c : Addr} {es : List (Addr × T)} (r : Slist h c es) {j k : Nat} (hjk : j ≤ k) :
    Run h (posOf 0 ((es.drop j).map Prod.fst)) (slice j k es) (posOf 0 ((es.drop k).map Prod.fst)) :=
  Run.slice (r.laid w) (List.nodup_cons.1 r.nodup).2 hjk

theorem Slist.endless (w : Wf h) {c : Addr} {es : List (Addr × T)} (r : Slist h c es) {i j k : Nat} (hji : j < i) (hik : i ≤ k) (hk : k ≤ es.length) :
    SList.insertNodes (lastOf c ((es.take i).map Prod.fst)) (posOf 0 ((es.drop j).map Prod.fst)) (posOf 0 ((es.drop k).map Prod.fst)) h = .diverge := by
  refine SList.insertNodes_endless (c := c) _ _ h (es.take j) (slice j i es) (es.drop i) w ?_ ?_ ?_ ?_ ?_
  · rw [List.append_assoc, ← three_parts es (Nat.le_of_lt hji)]; exact r
  · intro e
    have := congrArg List.length e
    simp [slice] at this; omega
  · rw [← drop_parts es (Nat.le_of_lt hji)]
  · have e : es.take i = es.take j ++ slice j i es := by
      have := three_parts es (Nat.le_of_lt hji)
      have h2 := List.take_append_drop i es
      rw [← List.append_assoc] at this
      exact List.append_cancel_right (h2.trans this)
    rw [e]
  · rw [show k = i + (k - i) by omega, ← List.drop_drop]
    generalize es.drop i = zs
    cases g : zs.drop (k - i) with
    | nil => exact .inl rfl
    | cons x xs =>
      refine .inr (List.mem_map.2 ⟨x, ?_, rfl⟩)
      exact (List.drop_sublist (k - i) zs).subset (by rw [g]; simp)

end Verif.Seq

namespace Verif.Seq.FList
open Verif Verif.Seq
variable {T : Type}

/-- ttl/forward_list.hpp:101-106 `forward_list(first, last)` where `first`, `last` are iterators of a list -/
def ctorNodes (first last : Addr) : Prog (Heap T) Addr := do
  let c ← create
  insertNodes c first last
  pure c

/-- ttl/forward_list.hpp:132-137 `assign(first, last)` where `first`, `last` are iterators of a list -/
def assignNodes (c first last : Addr) : Prog (Heap T) Unit := do clear c; insertNodes c first last

end Verif.Seq.FList

namespace Verif.Seq.FwdProps
open Verif Verif.Seq.FList
open Verif.Seq.DList (Arg fresh insertAt slice cut Blank posOf)
variable {T : Type} {h : Heap T} {S : State T} {c d : Addr} {es fs : List (Addr × T)}

/-- `c.insert_after(pos_i, jt_j, jt_k)`, where `jt_j` is the iterator of the `j`-th element of `d`, does exactly what it does with an
array that holds the values of the range, provided that, if `d` is `c`, the element at `pos_i` is not in the range. -/
theorem insert_range_same (R : Reach S h) (hc : S.Exists c) (hs : Shows h c es) (hd : S.Exists d) (ht : Shows h d fs) {i j k : Nat}
    (hi : i ≤ es.length) (hjk : j ≤ k) (hk : k ≤ fs.length) (ho : c = d → i ≤ j ∨ k < i) :
    (do insertNodes (← SList.posAt c i) (← SList.posAt d (j + 1)) (← SList.posAt d (k + 1))) h =
      exec (.insertVals c i ((slice j k fs).map Prod.snd)) h := by
  obtain ⟨qc, r⟩ := shown R hc hs
  obtain ⟨qd, rd⟩ := shown R hd ht
  have w := R.world.wf
  have lv : h.live (lastOf c ((es.take i).map Prod.fst)) = true := Slist.last_live (A := es.take i) (B := es.drop i) (by rw [List.take_append_drop]; exact r)
  simp only [exec, Prog.bind_app, r.posAt hi, Res.bind_ok, rd.posAt_elem (Nat.le_trans hjk hk), rd.posAt_elem hk, insertNodes, insertVals]
  rw [SList.insertNodes_run _ w lv (rd.run w hjk)]
  by_cases hcd : c = d
  · subst hcd
    rw [ht.inj hs]
    exact last_not_in_slice r.nodup hi (ho rfl)
  · intro e he q
    refine R.world.disj d _ c _ qd qc (Ne.symm hcd) e.1 ?_ ?_
    · show e.1 ∈ scells d fs
      obtain ⟨n, _, _, hn⟩ := mem_slice he
      simp only [scells, List.mem_cons, List.mem_map]
      exact .inr ⟨e, List.mem_of_getElem? hn, rfl⟩
    · show e.1 ∈ scells c es
      rw [q]
      have := Slist.last_mem (c := c) (A := es.take i) (B := es.drop i)
      rwa [List.take_append_drop] at this

/-- `c.insert_after(pos_i, jt_j, jt_k)` with iterators of a list `d`, which may be `c` itself unless `j < i ≤ k`: copies of the values
of the range (as they were before the call) appear in new nodes behind position `i`; all nodes stay; no other list changes. -/
theorem insert_range_partial (R : Reach S h) (hc : S.Exists c) (hs : Shows h c es) (hd : S.Exists d) (ht : Shows h d fs) {i j k : Nat}
    (hi : i ≤ es.length) (hjk : j ≤ k) (hk : k ≤ fs.length) (ho : c = d → i ≤ j ∨ k < i) :
    ∃ h' ns, (do insertNodes (← SList.posAt c i) (← SList.posAt d (j + 1)) (← SList.posAt d (k + 1))) h = .ok ((), h') ∧
      Reach (S.put c (es.take i ++ ns ++ es.drop i)) h' ∧ Shows h' c (es.take i ++ ns ++ es.drop i) ∧
      ns.map Prod.snd = slice j k (fs.map Prod.snd) ∧ OthersKept S h h' [c] := by
  have hg := get_shown R hc hs
  obtain ⟨h', q, R', s', k'⟩ := one_list (c := c) R (.insertVals c i ((slice j k fs).map Prod.snd)) ⟨hc, by rw [hg]; exact hi⟩ rfl
  rw [hg] at R' s'
  refine ⟨h', fresh h.fresh ((slice j k fs).map Prod.snd), ?_, by simpa [insertAt] using R', by simpa [insertAt] using s', ?_, k'⟩
  · rw [insert_range_same R hc hs hd ht hi hjk hk ho]; exact q
  · rw [fresh_values, slice, slice, List.map_take, List.map_drop]

/-- `c.insert_after(pos_i, it_j, it_k)` with `j < i ≤ k` never returns: it copies its own copies. -/
theorem insert_own_range_endless (R : Reach S h) (hc : S.Exists c) (hs : Shows h c es) {i j k : Nat}
    (hji : j < i) (hik : i ≤ k) (hk : k ≤ es.length) :
    (do insertNodes (← SList.posAt c i) (← SList.posAt c (j + 1)) (← SList.posAt c (k + 1))) h = .diverge := by
  obtain ⟨qc, r⟩ := shown R hc hs
  simp only [Prog.bind_app, r.posAt (show i ≤ es.length by omega), Res.bind_ok, r.posAt_elem (show j ≤ es.length by omega), r.posAt_elem hk,
    insertNodes, r.endless R.world.wf hji hik hk]
  rfl

theorem put_put (S : State T) (c : Addr) (es fs : List (Addr × T)) : (S.put c es).put c fs = S.put c fs := by
  funext x
  by_cases q : x = c
  · subst q; rw [put_same, put_same]
  · rw [put_other _ _ q, put_other _ _ q, put_other _ _ q]

/-- `forward_list<T> c(jt_j, jt_k)` with iterators of a list: a new list with copies of the values of the range. -/
theorem construct_range (R : Reach S h) (hd : S.Exists d) (ht : Shows h d fs) {j k : Nat} (hjk : j ≤ k) (hk : k ≤ fs.length) :
    ∃ c h' ns, (do ctorNodes (← SList.posAt d (j + 1)) (← SList.posAt d (k + 1))) h = .ok (c, h') ∧ Reach (S.put c ns) h' ∧ Shows h' c ns ∧
      ns.map Prod.snd = slice j k (fs.map Prod.snd) ∧ ∀ x, S.Exists x → x ≠ c ∧ ∀ gs, Shows h x gs → Shows h' x gs := by
  have hn := not_exists_fresh R
  obtain ⟨h1, q1, R1, s1, k1⟩ := one_list (c := h.fresh) R .create trivial rfl
  have q1' : create h = .ok (h.fresh, h1) := by
    obtain ⟨h2, q2, _⟩ := create_ok (T := T) R.world.wf
    have : exec .create h = .ok ((), h2) := by simp only [exec, Prog.bind_app, q2, Res.bind_ok, Prog.pure_app]
    rw [q1] at this; cases this; exact q2
  have ne : ∀ x, S.Exists x → x ≠ h.fresh := fun x hx e => hn (e ▸ hx)
  have kd := k1 d (by simpa using ne d hd) hd fs ht
  have hd1 := put_exists_other S (c := h.fresh) [] hd
  obtain ⟨h', ns, q, R', s', v', k'⟩ := insert_range_partial (i := 0) R1 (put_exists _ _ _) s1 hd1 kd (Nat.zero_le _) hjk hk (fun e => absurd e.symm (ne d hd))
  obtain ⟨_, rd⟩ := shown R hd ht
  obtain ⟨_, rd1⟩ := shown R1 hd1 kd
  refine ⟨h.fresh, h', ns, ?_, by simpa [put_put] using R', by simpa using s', v', fun x hx => ⟨ne x hx, fun gs hg => ?_⟩⟩
  · simp only [Prog.bind_app, SList.posAt, Prog.pure_app, Res.bind_ok] at q
    have p1 := rd.posAt_elem (Nat.le_trans hjk hk)
    have p2 := rd.posAt_elem hk
    have p1' := rd1.posAt_elem (Nat.le_trans hjk hk)
    have p2' := rd1.posAt_elem hk
    simp only [SList.posAt] at p1 p2 p1' p2'
    simp only [Prog.bind_app] at p1 p2 p1' p2'
    simp only [p1', p2', Res.bind_ok] at q
    simp only [ctorNodes, SList.posAt, Prog.bind_app, p1, p2, Res.bind_ok, q1', q, Prog.pure_app]
  · exact k' x (by simpa using ne x hx) (put_exists_other S [] hx) gs (k1 x (by simpa using ne x hx) hx gs hg)

/-- `c.assign(jt_j, jt_k)` with iterators of another list: `c` holds copies of the values of the range, whatever it held before. -/
theorem assign_part_partial (R : Reach S h) (hc : S.Exists c) (hd : S.Exists d) (ht : Shows h d fs) (hcd : c ≠ d) {j k : Nat}
    (hjk : j ≤ k) (hk : k ≤ fs.length) :
    ∃ h' ns, (do assignNodes c (← SList.posAt d (j + 1)) (← SList.posAt d (k + 1))) h = .ok ((), h') ∧ Reach (S.put c ns) h' ∧ Shows h' c ns ∧
      ns.map Prod.snd = slice j k (fs.map Prod.snd) ∧ OthersKept S h h' [c] := by
  obtain ⟨h1, q1, R1, s1, k1⟩ := one_list (c := c) R (.clear c) hc rfl
  have q1' : clear c h = .ok ((), h1) := q1
  have kd := k1 d (by simpa using hcd.symm) hd fs ht
  have hd1 := put_exists_other S (c := c) [] hd
  obtain ⟨h', ns, q, R', s', v', k'⟩ := insert_range_partial (i := 0) R1 (put_exists _ _ _) s1 hd1 kd (Nat.zero_le _) hjk hk (fun e => absurd e hcd)
  obtain ⟨_, rd⟩ := shown R hd ht
  obtain ⟨_, rd1⟩ := shown R1 hd1 kd
  refine ⟨h', ns, ?_, by simpa [put_put] using R', by simpa using s', v', fun x hx he gs hg => ?_⟩
  · simp only [Prog.bind_app, SList.posAt, Prog.pure_app, Res.bind_ok] at q
    have p1 := rd.posAt_elem (Nat.le_trans hjk hk)
    have p2 := rd.posAt_elem hk
    have p1' := rd1.posAt_elem (Nat.le_trans hjk hk)
    have p2' := rd1.posAt_elem hk
    simp only [SList.posAt] at p1 p2 p1' p2'
    simp only [Prog.bind_app] at p1 p2 p1' p2'
    simp only [p1', p2', Res.bind_ok] at q
    simp only [assignNodes, SList.posAt, Prog.bind_app, p1, p2, Res.bind_ok, q1', q, Prog.pure_app]
  · exact k' x hx (put_exists_other S [] he) gs (k1 x hx he gs hg)

/-- `c.assign(it_j, it_k)` with a non-empty range of `c` itself reads an element it has just deleted. -/
theorem assign_own_range_ub (R : Reach S h) (hc : S.Exists c) (hs : Shows h c es) {j k : Nat} (hjk : j < k) (hk : k ≤ es.length) :
    (do assignNodes c (← SList.posAt c (j + 1)) (← SList.posAt c (k + 1))) h = .ub .access := by
  obtain ⟨qc, r⟩ := shown R hc hs
  have rn := r.run R.world.wf (Nat.le_of_lt hjk)
  obtain ⟨h1, q1, _, _, _, _, hdead⟩ := clearLoop_ok R.world.wf r
  simp only [Prog.bind_app, Res.bind_ok, r.posAt_elem (show j ≤ es.length by omega), r.posAt_elem hk, assignNodes, clear, q1]
  have sl : slice j k es ≠ [] := by
    intro e
    have := congrArg List.length e
    simp [slice] at this; omega
  cases g : slice j k es with
  | nil => exact absurd g sl
  | cons e es' =>
    rw [g] at rn
    obtain ⟨r1, r2, r3, r4, r5⟩ := rn
    have he : e ∈ es := by
      obtain ⟨n, _, _, hn⟩ := mem_slice (show e ∈ slice j k es by rw [g]; simp)
      exact List.mem_of_getElem? hn
    have dead : h1.live e.1 = false := hdead e.1 (List.mem_map_of_mem he)
    rw [insertNodes, SList.insertNodes, r1]
    simp only [Prog.ite_app, ne_eq, r2, not_false_eq_true, if_true, Prog.bind_app, getVal, dead]
    rfl

/-- The hypotheses are met: two lists, a part of the second inserted into the first, a part of a list into itself, an assignment of a
part, and an insertion that never ends. -/
example : ∃ (S : State Nat) (h h1 h2 h3 : Heap Nat) (c d : Addr) (gs hs ks : List (Addr × Nat)), Reach S h ∧
    (do insertNodes (← SList.posAt c 1) (← SList.posAt d 2) (← SList.posAt d 4)) h = .ok ((), h1) ∧ Shows h1 c gs ∧ gs.map Prod.snd = [1, 8, 9, 2, 3] ∧
    (do insertNodes (← SList.posAt c 3) (← SList.posAt c 1) (← SList.posAt c 3)) h = .ok ((), h2) ∧ Shows h2 c hs ∧ hs.map Prod.snd = [1, 2, 3, 1, 2] ∧
    (do assignNodes c (← SList.posAt d 2) (← SList.posAt d 3)) h = .ok ((), h3) ∧ Shows h3 c ks ∧ ks.map Prod.snd = [8] ∧
    (do insertNodes (← SList.posAt c 3) (← SList.posAt c 1) (← SList.posAt c 4)) h = .diverge := by
  obtain ⟨S, h, c, d, es, fs, R, hc, hd, hcd, hs, ht, e1, e2⟩ := exists_lists [1, 2, 3] [7, 8, 9]
  have l1 : es.length = 3 := by simpa using congrArg List.length e1
  have l2 : fs.length = 3 := by simpa using congrArg List.length e2
  obtain ⟨h1, ns, q1, _, s1, v1, _⟩ := insert_range_partial (i := 1) (j := 1) (k := 3) R hc hs hd ht (by omega) (by omega) (by omega) (fun e => absurd e hcd)
  obtain ⟨h2, ms, q2, _, s2, v2, _⟩ := insert_range_partial (i := 3) (j := 0) (k := 2) R hc hs hc hs (by omega) (by omega) (by omega) (fun _ => .inr (by omega))
  obtain ⟨h3, ks, q3, _, s3, v3, _⟩ := assign_part_partial (j := 1) (k := 2) R hc hd ht hcd (by omega) (by omega)
  refine ⟨S, h, h1, h2, h3, c, d, _, _, _, R, q1, s1, ?_, q2, s2, ?_, q3, s3, ?_, insert_own_range_endless R hc hs (by omega) (by omega) (by omega)⟩
  · simp only [List.map_append, List.map_take, List.map_drop, v1, e1, e2]; rfl
  · simp only [List.map_append, List.map_take, List.map_drop, v2, e1]; rfl
  · rw [v3, e2]; rfl

end Verif.Seq.FwdProps
