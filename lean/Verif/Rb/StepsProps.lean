import Verif.Rb.Steps
import Verif.Rb.ContainerProps2
import Verif.Rb.MapSim
/-!
# C155: iteration follows two links per element, one step and the recursion are logarithmic
-/
set_option linter.unusedSimpArgs false
set_option linter.unusedSectionVars false
set_option linter.unusedVariables false
namespace Verif.Rb.Steps
open Verif Verif.Rb Verif.Rb.Container Tree
variable {K V : Type} [DecidableEq K] {lt : K → K → Bool} {keyOf : V → K}

/-- `++` from any element, `--` from any element or, unless the container is empty, from `end()`, and `begin()`: each
answers what the model's function answers and follows at most `2 * log2 (n + 1)` links. -/
theorem one_step_links (ho : StrictTotalOrder lt) {objs : List Addr} {h : Heap V} (r : Reach lt keyOf objs h) {c : Addr}
    (hc : c ∈ objs) {es} (he : entries c h = .ok (es, h)) :
    (∀ e ∈ es, ∃ y n, nextNode e.1 h = .ok (y, h) ∧ nextNodeC e.1 h = .ok ((y, n), h) ∧ n ≤ 2 * Nat.log2 (es.length + 1)) ∧
    (∀ e ∈ es, ∃ y n, iterPrev e.1 h = .ok (y, h) ∧ iterPrevC e.1 h = .ok ((y, n), h) ∧ n ≤ 2 * Nat.log2 (es.length + 1)) ∧
    (∃ y n, iterPrev c h = .ok (y, h) ∧ iterPrevC c h = .ok ((y, n), h) ∧ n ≤ 2 * Nat.log2 (es.length + 1)) ∧
    (∃ y n, begin_ c h = .ok (y, h) ∧ beginC c h = .ok ((y, n), h) ∧ n ≤ 2 * Nat.log2 (es.length + 1)) := by
  obtain ⟨o, a, w⟩ := owns_of_entries ho r hc he
  have ob := o.begin_
  have oe := o.iterPrev_end
  have on := fun {A B : List (Addr × V)} {e} (q : es = A ++ e :: B) => (q ▸ o : Owns h c (A ++ e :: B)).nextNode
  have op := fun {A B : List (Addr × V)} {e} (q : es = A ++ e :: B) => (q ▸ o : Owns h c (A ++ e :: B)).iterPrev
  have oq := fun {A B : List (Addr × V)} {e} (q : es = A ++ e :: B) => (q ▸ o : Owns h c (A ++ e :: B)).prevNode
  obtain ⟨t, rt, b, i, d⟩ := o
  have H := height_of (h := h) (hd := c) b i
  refine ⟨fun e he => ?_, fun e he => ?_, ?_, ?_⟩
  · obtain ⟨A, B, q⟩ := List.append_of_mem he
    have s := fwdAt_spec rt (x := e.1) (by rw [i, q]; simp) (on q)
    exact ⟨_, _, on q, s.1, Nat.le_trans s.2 H⟩
  · obtain ⟨A, B, q⟩ := List.append_of_mem he
    have s := bwdAt_spec rt b (x := e.1) (by rw [i, q]; simp) (oq q)
    exact ⟨_, _, op q, s.1, Nat.le_trans s.2 H⟩
  · by_cases ht : t = leaf
    · subst ht
      refine ⟨_, 0, oe, ?_, Nat.zero_le _⟩
      unfold iterPrevC
      simp only [Prog.bind_app, nd_eq rt.header, Res.bind_ok, Prog.ite_app, Prog.pure_app]
      rw [← i]; simp
    · refine ⟨_, _, oe, ?_, Nat.le_trans (rspine_lt ht) H⟩
      rw [iterPrevC_end rt ht, i]
  · refine ⟨_, _, ob, by rw [beginC_spec rt, i], ?_⟩
    split
    · exact Nat.zero_le _
    · next ht => exact Nat.le_trans (lspine_lt ht) H

/-- A loop from `begin()` to `end()` sees every element and follows exactly two links per element in all; so does a loop from
`end()` back to `begin()`. -/
theorem whole_loop_links (ho : StrictTotalOrder lt) {objs : List Addr} {h : Heap V} (r : Reach lt keyOf objs h) {c : Addr}
    (hc : c ∈ objs) {es} (he : entries c h = .ok (es, h)) :
    entriesC c h = .ok ((es, 2 * es.length), h) ∧ entriesBackwardC c h = .ok ((es.reverse, 2 * es.length), h) := by
  obtain ⟨o, a, w⟩ := owns_of_entries ho r hc he
  exact ⟨entriesC_owns o, entriesBackwardC_owns o⟩

/-- `clear()` and the destructor do what the model's functions do, and never have more than `2 * log2 (n + 1)` nested calls of
their recursive helper alive (one, for an empty container). -/
theorem clear_depth (ho : StrictTotalOrder lt) {objs : List Addr} {h : Heap V} (r : Reach lt keyOf objs h) {c : Addr}
    (hc : c ∈ objs) {es} (he : entries c h = .ok (es, h)) :
    (∃ d h', clear c h = .ok ((), h') ∧ clearD c h = .ok (d, h') ∧ d ≤ max 1 (2 * Nat.log2 (es.length + 1))) ∧
    (∃ d h', destroy c h = .ok ((), h') ∧ destroyD c h = .ok (d, h') ∧ d ≤ max 1 (2 * Nat.log2 (es.length + 1))) := by
  obtain ⟨o, a, w⟩ := owns_of_entries ho r hc he
  obtain ⟨d, h', e1, e2, b1, b2⟩ := clearD_owns w o
  have hb : d ≤ max 1 (2 * Nat.log2 (es.length + 1)) := by
    by_cases q : es = []
    · rw [b2 q]; exact Nat.le_max_left _ _
    · exact Nat.le_trans (b1 q) (Nat.le_max_right _ _)
  refine ⟨⟨d, h', e1, e2, hb⟩, ?_⟩
  obtain ⟨g, eg, _⟩ := destroy_owns w o
  refine ⟨d, g, eg, ?_, hb⟩
  unfold destroy at eg
  unfold destroyD
  simp only [Prog.bind_app, e1, Res.bind_ok] at eg
  simp only [Prog.bind_app, e2, Res.bind_ok, Prog.pure_app, eg]

/-- So does copying: construction of a copy, and assignment from another container. -/
theorem copy_depth (ho : StrictTotalOrder lt) {objs : List Addr} {h : Heap V} (r : Reach lt keyOf objs h) {c : Addr}
    (hc : c ∈ objs) {es} (he : entries c h = .ok (es, h)) :
    (∃ d x h', copyCtor c h = .ok (x, h') ∧ copyCtorD c h = .ok ((x, d), h') ∧ d ≤ 2 * Nat.log2 (es.length + 1)) ∧
    (∀ b ∈ objs, b ≠ c → ∀ bs, entries b h = .ok (bs, h) → ∃ d h', opAssign b c h = .ok ((), h') ∧ opAssignD b c h = .ok (d, h') ∧
      d ≤ max (max 1 (2 * Nat.log2 (bs.length + 1))) (2 * Nat.log2 (es.length + 1))) := by
  obtain ⟨o, a, w⟩ := owns_of_entries ho r hc he
  constructor
  · obtain ⟨h1, e1, o1, f1, n1, c1⟩ := newTree_owns w
    have oo1 : Owns h1 c es := o.frame w f1 (by simp)
    obtain ⟨d, h2, q1, q2, q3⟩ := assignD_owns f1.wf o1 oo1
    refine ⟨d, h.next, h2, ?_, ?_, q3⟩
    · unfold copyCtor; simp only [Prog.bind_app, e1, Res.bind_ok, q1, Prog.pure_app]
    · unfold copyCtorD; simp only [Prog.bind_app, e1, Res.bind_ok, q2, Prog.pure_app]
  · intro b hb hne bs hbs
    obtain ⟨ws, W, rfl, _⟩ := r.inv ho
    obtain ⟨⟨b', bs'⟩, hwb, rfl⟩ := List.mem_map.1 hb
    obtain ⟨⟨c', es'⟩, hwc, rfl⟩ := List.mem_map.1 hc
    have ob := W.owns _ hwb
    have oc := W.owns _ hwc
    have s1 := ob.entries.symm.trans hbs
    have s2 := oc.entries.symm.trans he
    simp only [Res.ok.injEq, Prod.mk.injEq, and_true] at s1 s2
    subst s1 s2
    obtain ⟨i, hi⟩ := List.getElem?_of_mem hwb
    obtain ⟨j, hj⟩ := List.getElem?_of_mem hwc
    have hij : i ≠ j := by
      intro e
      rw [e, hj] at hi
      simp only [Option.some.injEq, Prod.mk.injEq] at hi
      exact hne hi.1.symm
    obtain ⟨d, h1, e1, e2, b1, b2⟩ := clearD_owns w ob
    obtain ⟨h1', e1', o1, f1, _⟩ := clear_owns w ob
    rw [e1] at e1'
    simp only [Res.ok.injEq, Prod.mk.injEq, true_and] at e1'
    subst e1'
    have oo1 := oc.frame w f1 (W.disj_idx hi hj hij)
    obtain ⟨d', h2, q1, q2, q3⟩ := assignD_owns f1.wf o1 oo1
    refine ⟨max d d', h2, ?_, ?_, ?_⟩
    · unfold opAssign; simp only [Prog.bind_app, e1, Res.bind_ok, q1]
    · unfold opAssignD; simp only [Prog.bind_app, e2, Res.bind_ok, q2, Prog.pure_app]
    · have hd : d ≤ max 1 (2 * Nat.log2 (bs'.length + 1)) := by
        by_cases q : bs' = []
        · rw [b2 q]; exact Nat.le_max_left _ _
        · exact Nat.le_trans (b1 q) (Nat.le_max_right _ _)
      have q3 : d' ≤ 2 * Nat.log2 (es'.length + 1) := q3
      show max d d' ≤ max _ _
      omega

/-- A set holding 2, 5 and 7: looping over it takes six links, whatever its shape. -/
example : ∃ c h es, Reach (fun a b : Nat => decide (a < b)) id [c] h ∧ entries c h = .ok (es, h) ∧ es.map Prod.snd = [2, 5, 7] ∧
    entriesC c h = .ok ((es, 6), h) ∧ entriesBackwardC c h = .ok ((es.reverse, 6), h) ∧
    ∃ d h', destroyD c h = .ok (d, h') ∧ d ≤ 4 := by
  obtain ⟨c, h, es, r, he, hv⟩ := exists_reach_257
  have hl : es.length = 3 := by simpa using congrArg List.length hv
  have q := whole_loop_links natOrder r (by simp) he
  obtain ⟨_, d, h', _, q2, q3⟩ := clear_depth natOrder r (by simp) he
  rw [hl] at q q3
  exact ⟨c, h, es, r, he, hv, q.1, q.2, d, h', q2, Nat.le_trans q3 (by decide)⟩

end Verif.Rb.Steps
