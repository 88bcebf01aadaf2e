import Verif.Seq.ListProps3
/-!
# Properties of `ttl::list`, continued: the defects of splice and swap; resize, copies, comparison, memory
-/
set_option linter.unusedVariables false
set_option linter.unusedSimpArgs false
set_option linter.unusedSectionVars false
namespace Verif.Seq.ListProps
open Verif Verif.Seq Verif.Seq.DList
variable {T : Type} {h : Heap T} {S : State T} {c d : Addr}

/-- **C26 fails for every empty other list:** `splice(pos, other)` breaks the ring of the receiver. -/
theorem splice_all_empty_breaks (R : Reach S h) (hc : S.Intact c) (hd : S.Intact d) (hcd : c ≠ d) {es : List (Addr × T)}
    (hs : Shows h c es) (hf : Shows h d []) {i : Nat} (hi : i ≤ es.length) :
    ∃ h', exec (.spliceAll c i d) h = .ok ((), h') ∧ entries c h' = .ub .lifetime := by
  obtain ⟨h', q, e⟩ := splice_empty_range_breaks R hc hd hcd hs hf hi (j := 0) (by simp)
  obtain ⟨_, r⟩ := shown_ring R hc hs
  obtain ⟨_, r'⟩ := shown_ring R hd hf
  refine ⟨h', ?_, e⟩
  rw [← q, exec_splice R hc hd hs hf hi (by simp) (by simp)]
  simp only [exec, spliceAll, Prog.bind_app, iterAt_ok r hi, Res.bind_ok, getNext_eq r'.head, r'.next_head]
  simp

/-- **C26 fails for `pos == last`:** moving a range of a list to where it already is should change nothing, but the elements of the
range disappear from the list (their nodes stay allocated and form a ring of their own). -/
theorem splice_to_own_end_loses (R : Reach S h) (hc : S.Intact c) {es : List (Addr × T)} (hs : Shows h c es) {j k : Nat}
    (hjk : j < k) (hk : k ≤ es.length) :
    ∃ h', exec (.splice c k c j k) h = .ok ((), h') ∧ Shows h' c (es.take j ++ es.drop k) ∧ NoAlloc h h' := by
  obtain ⟨hc', r⟩ := shown_ring R hc hs
  obtain ⟨f, M, e1, e2⟩ := split_range hjk hk
  have e3 : es = es.take j ++ ((f :: M) ++ es.drop k) := by rw [← e2, List.take_append_drop]
  have q := exec_splice R hc hc hs hs hk (show j ≤ es.length by omega) hk
  have ra : Ring h c (es.take j ++ (f :: M ++ es.drop k)) := by rw [← e3]; exact r
  have rb : Ring h c ((es.take j ++ (f :: M)) ++ es.drop k) := by rw [List.append_assoc]; exact ra
  obtain ⟨lf, lf'⟩ := ra.pos_live
  obtain ⟨lp, lp'⟩ := rb.pos_live
  rw [e2] at q
  simp only [List.cons_append, List.map_cons, posOf_cons] at lf lf' q
  have nd : (c :: (es.take j ++ (f :: M ++ es.drop k)).map Prod.fst).Nodup := ra.nodup
  simp only [List.map_append, List.map_cons] at nd
  generalize hp : posOf c ((es.drop k).map Prod.fst) = p at *
  have mp : p ∈ c :: (es.drop k).map Prod.fst := by
    rw [← hp]; cases (es.drop k).map Prod.fst <;> simp
  have hne : f.1 ≠ p := by
    intro w; rw [← w] at mp
    simp only [List.nodup_cons, List.mem_append, List.mem_cons, List.nodup_append] at nd mp
    grind
  rw [nodeSplice_eq lp lf lp lp' lf' lp' hne] at q
  refine ⟨_, q, ?_, ⟨rfl, rfl, rfl⟩⟩
  -- links
  have hl : Links h c ((es.take j).map Prod.fst ++ ((f.1 :: M.map Prod.fst) ++ (es.drop k).map Prod.fst)) := by
    have := ra.links; simpa only [List.map_append, List.map_cons] using this
  obtain ⟨X, a, p', Y, kk⟩ := exists_cut c ((es.take j).map Prod.fst) ((es.drop k).map Prod.fst)
  obtain ⟨f', M', M0, m, b⟩ := exists_block (M := f.1 :: M.map Prod.fst) (by simp)
  have e4 : p' = p := kk.pos.trans hp
  subst e4
  have g := (kk.links_mid b).1 hl
  have ef : f' = f.1 := by have := b.first; cases this; rfl
  subst ef
  obtain ⟨g1, ⟨g2, g3⟩, g4, ⟨g5, g6⟩, g7⟩ := g
  have ln : Links (spl h p' f.1 p') c ((es.take j).map Prod.fst ++ (es.drop k).map Prod.fst) := by
    rw [kk.links]
    have mm := b.mem_m
    have ma : a ∈ c :: (es.take j).map Prod.fst := by rw [kk.left]; simp
    have ham : a ≠ m := by
      intro w; subst w
      simp only [List.nodup_cons, List.mem_append, List.mem_cons, List.nodup_append] at nd ma mm
      grind
    have hs1 : ∀ x, x ≠ a → x ≠ m → (spl h p' f.1 p').next x = h.next x := by
      intro x h1 h2; simp [spl, g6, g3, upd_other _ _ h1, upd_other _ _ h2]
    have hs2 : ∀ x, x ≠ p' → x ≠ f.1 → (spl h p' f.1 p').prev x = h.prev x := by
      intro x h1 h2; simp [spl, g6, g3, upd_other _ _ h1, upd_other _ _ h2]
    have nX : (X ++ [a]).Nodup := by
      rw [← kk.left]
      simp only [List.nodup_cons, List.mem_append, List.mem_cons, List.nodup_append] at nd ⊢
      grind
    have hm : ∀ x ∈ X ++ [a], x ≠ m ∧ x ≠ f.1 := by
      intro x hx; rw [← kk.left] at hx
      simp only [List.nodup_cons, List.mem_append, List.mem_cons, List.nodup_append] at nd hx mm
      grind
    have hY : ∀ x ∈ p' :: Y, x ≠ m ∧ x ≠ f.1 := by
      intro x hx; rw [← kk.right] at hx
      simp only [List.nodup_cons, List.mem_append, List.mem_cons, List.nodup_append, List.not_mem_nil, or_false] at nd hx mm
      grind
    refine ⟨?_, ?_, ?_, ?_⟩
    · refine g1.congr ?_ ?_
      · intro x hx
        have hxa : x ≠ a := by
          intro w; subst w
          rw [List.dropLast_concat] at hx
          exact (List.nodup_append.1 nX).2.2 x hx x (by simp) rfl
        exact hs1 x hxa (hm x ((List.dropLast_sublist _).subset hx)).1
      · intro x hx
        have hx' := List.mem_of_mem_tail hx
        refine hs2 x ?_ (hm x hx').2
        intro w; subst w
        -- the position is not among the nodes in front of it, and the header is the first of those
        have hx2 : x ∈ (es.take j).map Prod.fst := by
          have : (X ++ [a]).tail = (es.take j).map Prod.fst := by rw [← kk.left]; rfl
          rw [this] at hx; exact hx
        simp only [List.nodup_cons, List.mem_append, List.mem_cons, List.nodup_append] at nd mp
        grind
    · simp [spl, g6, g3, upd_other _ _ ham]
    · simp [spl, g6, g3, upd_other _ _ hne.symm]
    · refine g7.congr ?_ ?_
      · intro x hx
        have hx2 : x ∈ (es.drop k).map Prod.fst := by rw [kk.dropLast_right] at hx; exact hx
        refine hs1 x ?_ (hY x ((List.dropLast_sublist _).subset hx)).1
        intro w; subst w
        simp only [List.nodup_cons, List.mem_append, List.mem_cons, List.nodup_append] at nd ma
        grind
      · intro x hx
        have hx' := List.mem_of_mem_tail hx
        refine hs2 x ?_ (hY x hx').2
        intro w; subst w
        have nY : (x :: Y).Nodup := by
          rw [← kk.right]
          simp only [List.nodup_cons, List.mem_append, List.mem_cons, List.nodup_append] at nd ⊢
          grind
        exact (List.nodup_cons.1 nY).1 hx
  have r' : Ring (spl h p' f.1 p') c (es.take j ++ es.drop k) := by
    refine ⟨r.head, r.bare, by rw [List.map_append]; exact ln, ?_, ?_⟩
    · rw [List.map_append]
      simp only [List.nodup_cons, List.mem_append, List.mem_cons, List.nodup_append] at nd ⊢
      grind
    · intro e he
      rcases List.mem_append.1 he with he | he
      · exact r.data e (List.mem_of_mem_take he)
      · exact r.data e (List.mem_of_mem_drop he)
  exact r'.entries

/-! ## C27: swap -/

/-- **C27, the part that holds.** `swap` exchanges the contents of two lists if at least one of them has elements; the elements keep
their nodes, nothing is allocated or released. -/
theorem swap_exchanges_partial (R : Reach S h) (hc : S.Exists c) (hd : S.Exists d) (hcd : c ≠ d) {es fs : List (Addr × T)}
    (hs : Shows h c es) (hf : Shows h d fs) (hne : es ≠ [] ∨ fs ≠ []) :
    ∃ h', exec (.swap c d) h = .ok ((), h') ∧ Observes h' c fs ∧ Observes h' d es ∧ NoAlloc h h' ∧ OthersKept S h h' [c, d] := by
  have g1 := get_shown R hc hs
  have g2 := get_shown R hd hf
  obtain ⟨h1, q1, R1, s1, s2, o1⟩ := two_lists R (.swap c d) ⟨hc, hd, hcd, by rw [g1, g2]; exact hne⟩ hcd rfl
  rw [g2] at s1
  rw [g1] at s2
  refine ⟨h1, q1, observes_shown R1 ⟨_, by rw [put_other _ _ hcd]; exact put_same _ _ _⟩ s1, observes_shown R1 (put_exists _ _ _) s2, keeps_swap c d h _ _ q1, o1⟩

/-- **C27 fails for every pair of empty lists:** after `swap` of two empty lists a `push_back` on the first one is lost, and iterating
the second one dereferences the first one's header. -/
theorem swap_empty_breaks (R : Reach S h) (hc : S.Intact c) (hd : S.Intact d) (hcd : c ≠ d) (hs : Shows h c ([] : List (Addr × T)))
    (hf : Shows h d ([] : List (Addr × T))) (v : T) :
    ∃ h' h'', exec (.swap c d) h = .ok ((), h') ∧ exec (.pushBack c v) h' = .ok ((), h'') ∧ Shows h'' c [] ∧ entries d h'' = .ub .lifetime := by
  obtain ⟨hc', r⟩ := shown_ring R hc hs
  obtain ⟨hd', r'⟩ := shown_ring R hd hf
  have n1 : h.next c = c := r.next_head
  have n2 : h.next d = d := r'.next_head
  have p1 : h.prev c = c := r.links.2.1
  have p2 : h.prev d = d := r'.links.2.1
  have lc := r.head
  have ld := r'.head
  have fc : c ≠ h.fresh := R.world.wf.ne_fresh lc
  have fd : d ≠ h.fresh := R.world.wf.ne_fresh ld
  have q1 : exec (.swap c d) h = .ok ((), { h with
      next := upd (upd (upd h.next c d) c c) d d
      prev := upd (upd (upd h.prev c d) d c) d d }) := by
    simp only [exec, swap, nodeSwap, Prog.bind_app, getNext_eq lc, Res.bind_ok, n1, ne_eq, not_true_eq_false, if_false, halfSwap, getPrev, setPrev,
      lc, ld, if_true, p2, getNext, setNext, n2, upd_other _ _ hcd.symm, upd_same]
  let h2 : Heap T := { next := upd (upd (upd (upd (upd h.next c d) c c) d d) d h.fresh) h.fresh c, prev := upd (upd (upd (upd (upd h.prev c d) d c) d d) h.fresh d) c h.fresh, tail := h.tail, val := upd h.val h.fresh (some v), live := upd h.live h.fresh true, fresh := h.fresh + 1 }
  refine ⟨_, h2, q1, ?_, ?_, ?_⟩
  · simp [h2, exec, pushBack, newNode, insertBefore, getPrev, setNext, setPrev, upd, lc, ld, fc, fd, hcd, hcd.symm, fc.symm, fd.symm]
  · simp only [h2, Shows, entries, Prog.bind_app, getNext, upd_other _ _ fc, lc, if_true, Res.bind_ok, upd_other _ _ hcd, upd_same]
    rw [entriesFrom]; simp
  · simp only [h2, entries, Prog.bind_app, getNext, upd_other _ _ fd, ld, if_true, Res.bind_ok, upd_same]
    rw [entriesFrom]
    simp only [fd.symm, ne_eq, not_false_eq_true, if_true, getVal, upd_same, Prog.bind_app, Res.bind_ok, getNext, Prog.ite_app]
    rw [entriesFrom]
    simp [getVal, hcd, upd_other _ _ fc, lc, r.bare]

end Verif.Seq.ListProps
