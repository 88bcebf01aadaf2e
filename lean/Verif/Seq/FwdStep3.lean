import Verif.Seq.FwdStep2
/-!
# `ttl::forward_list`: splices, and the step theorem
-/
set_option linter.unusedVariables false
set_option linter.unusedSimpArgs false
namespace Verif.Seq
open Verif
open Verif.Seq.DList (Arg fresh insertAt slice cut Blank Relink split_at split_elem posOf posOf_cons posOf_nil)
variable {T : Type} {h : Heap T} {c d : Addr} {es fs : List (Addr × T)}

/-! ## Moving a range, in terms of indices -/

theorem slice_ne_nil {α : Type} {es : List α} {j k : Nat} (hjk : j < k) (hk : k ≤ es.length) : slice j k es ≠ [] := by
  intro q
  have := congrArg List.length q
  simp [slice] at this; omega

theorem take_slice {α : Type} (es : List α) {i j : Nat} (hij : i ≤ j) : es.take i ++ slice i j es = es.take j := by
  unfold slice
  have e := List.take_append_drop i (es.take j)
  rw [List.take_take, Nat.min_eq_left hij, List.drop_take] at e
  exact e

theorem splice_two_at (w : Wf h) (r : Slist h c es) (s : Slist h d fs) (dj : ∀ x ∈ scells c es, x ∉ scells d fs) {i j k : Nat}
    (hjk : j < k) (hk : k ≤ fs.length) :
    ∃ h', SNode.spliceRange (lastOf c ((es.take i).map Prod.fst)) (lastOf d ((fs.take j).map Prod.fst)) (posOf 0 ((fs.drop k).map Prod.fst)) h =
        .ok ((), h') ∧ Slist h' c (insertAt i (slice j k fs) es) ∧ Slist h' d (cut j k fs) ∧
      Relink (fun x => x ∈ scells c es ∨ x ∈ scells d fs) h h' := by
  have sp := slice_split fs (Nat.le_of_lt hjk)
  have := splice_two (A := es.take i) (B := es.drop i) (P := fs.take j) (M := slice j k fs) (Q := fs.drop k) w (slice_ne_nil hjk hk)
    (by simpa using r) (by rw [← sp]; exact s) (by rw [← sp]; simpa using dj)
  rw [← sp, List.take_append_drop] at this
  exact this

theorem splice_two_perm {α : Type} (es fs : List α) {i j k : Nat} (hjk : j ≤ k) :
    (insertAt i (slice j k fs) es ++ cut j k fs).Perm (es ++ fs) := by
  have e2 : es = es.take i ++ es.drop i := (List.take_append_drop i es).symm
  have e3 := slice_split fs hjk
  unfold insertAt cut
  conv => rhs; rw [e2, e3]
  generalize es.take i = A; generalize es.drop i = B; generalize fs.take j = P; generalize slice j k fs = M; generalize fs.drop k = Q
  simp only [List.append_assoc]
  refine List.Perm.append_left A ?_
  exact (List.perm_append_comm_assoc M B _).trans (List.Perm.append_left B (List.perm_append_comm_assoc M P Q))

theorem splice_before_at (w : Wf h) (r : Slist h c es) {i j k : Nat} (hij : i < j) (hjk : j < k) (hk : k ≤ es.length) :
    ∃ h', SNode.spliceRange (lastOf c ((es.take i).map Prod.fst)) (lastOf c ((es.take j).map Prod.fst)) (posOf 0 ((es.drop k).map Prod.fst)) h =
        .ok ((), h') ∧ Slist h' c (insertAt i (slice j k es) (cut j k es)) ∧ Relink (· ∈ scells c es) h h' := by
  have sp : es = es.take i ++ (slice i j es ++ (slice j k es ++ es.drop k)) := by
    rw [← List.append_assoc, take_slice es (Nat.le_of_lt hij)]; exact slice_split es (Nat.le_of_lt hjk)
  have := splice_before (A := es.take i) (N := slice i j es) (M := slice j k es) (Q := es.drop k) w (slice_ne_nil hjk hk)
    (slice_ne_nil hij (by omega)) (by rw [← sp]; exact r)
  rw [← sp, take_slice es (Nat.le_of_lt hij)] at this
  have e : insertAt i (slice j k es) (cut j k es) = es.take i ++ (slice j k es ++ (slice i j es ++ es.drop k)) := by
    have e1 : (cut j k es).take i = es.take i := by
      rw [cut, List.take_append_of_le_length (by simp; omega), List.take_take, Nat.min_eq_left (Nat.le_of_lt hij)]
    have e2 : (cut j k es).drop i = slice i j es ++ es.drop k := by
      rw [cut, List.drop_append_of_le_length (by simp; omega), List.drop_take]; rfl
    rw [insertAt, e1, e2]
  rw [e]; exact this

theorem splice_behind_at (w : Wf h) (r : Slist h c es) {i j k : Nat} (hjk : j < k) (hki : k < i) (hi : i ≤ es.length) :
    ∃ h', SNode.spliceRange (lastOf c ((es.take i).map Prod.fst)) (lastOf c ((es.take j).map Prod.fst)) (posOf 0 ((es.drop k).map Prod.fst)) h =
        .ok ((), h') ∧ Slist h' c (insertAt (i - (k - j)) (slice j k es) (cut j k es)) ∧ Relink (· ∈ scells c es) h h' := by
  have sp : es = es.take j ++ (slice j k es ++ (slice k i es ++ es.drop i)) := by
    rw [← List.append_assoc, take_slice es (Nat.le_of_lt hjk)]; exact slice_split es (Nat.le_of_lt hki)
  have := splice_behind (P := es.take j) (M := slice j k es) (N := slice k i es) (B := es.drop i) w (slice_ne_nil hjk (by omega))
    (slice_ne_nil hki hi) (by rw [← sp]; exact r)
  have e0 : es.take j ++ (slice j k es ++ slice k i es) = es.take i := by
    rw [← List.append_assoc, take_slice es (Nat.le_of_lt hjk), take_slice es (Nat.le_of_lt hki)]
  rw [← sp, e0] at this
  have ed : posOf 0 ((slice k i es).map Prod.fst) = posOf 0 ((es.drop k).map Prod.fst) := by
    have e3 : es.drop k = slice k i es ++ es.drop i := by
      have : es.drop i = (es.drop k).drop (i - k) := by rw [List.drop_drop]; congr 1; omega
      rw [slice, this, List.take_append_drop]
    have hn := slice_ne_nil hki hi
    rw [e3]
    cases q : slice k i es with
    | nil => exact absurd q hn
    | cons x xs => rfl
  rw [ed] at this
  have e : insertAt (i - (k - j)) (slice j k es) (cut j k es) = es.take j ++ (slice k i es ++ (slice j k es ++ es.drop i)) := by
    have e1 : (cut j k es).take (i - (k - j)) = es.take j ++ slice k i es := by
      have hl : (es.take j).length = j := by simp; omega
      rw [cut, List.take_append, List.take_of_length_le (by omega), hl, slice]
      congr 2; omega
    have e2 : (cut j k es).drop (i - (k - j)) = es.drop i := by
      have hl : (es.take j).length = j := by simp; omega
      rw [cut, List.drop_append, List.drop_of_length_le (by omega), hl, List.drop_drop, List.nil_append]
      congr 1; omega
    rw [insertAt, e1, e2, List.append_assoc]
  rw [e]; exact this

theorem splice_self_perm {α : Type} (es : List α) {i j k : Nat} (hjk : j ≤ k) :
    (insertAt i (slice j k es) (cut j k es)).Perm es := by
  have e2 : cut j k es = (cut j k es).take i ++ (cut j k es).drop i := (List.take_append_drop i _).symm
  have e3 := slice_split es hjk
  unfold insertAt
  calc ((cut j k es).take i ++ (slice j k es ++ (cut j k es).drop i)).Perm
        (slice j k es ++ ((cut j k es).take i ++ (cut j k es).drop i)) := by
          rw [← List.append_assoc, ← List.append_assoc]; exact List.Perm.append_right _ List.perm_append_comm
    _ |>.Perm (slice j k es ++ cut j k es) := by rw [← e2]
    _ |>.Perm es := by
      conv => rhs; rw [e3]
      unfold cut
      rw [← List.append_assoc, ← List.append_assoc]; exact List.Perm.append_right _ List.perm_append_comm

theorem splice_id {α : Type} {es : List α} {i : Nat} (hi : i < es.length) : insertAt i (slice i (i + 1) es) (cut i (i + 1) es) = es := by
  have e1 : slice i (i + 1) es = [es[i]] := by
    unfold slice
    rw [Nat.add_sub_cancel_left, List.drop_eq_getElem_cons hi]; rfl
  have hl : (es.take i).length = i := by simp; omega
  unfold insertAt cut
  rw [e1, List.take_append_of_le_length (by omega), List.drop_append_of_le_length (by omega), List.take_take, Nat.min_self]
  simp

/-- Distinct positions are distinct iterators. -/
theorem pos_inj (r : Slist h c es) {i j : Nat} (hi : i ≤ es.length) (hj : j ≤ es.length)
    (q : lastOf c ((es.take i).map Prod.fst) = lastOf c ((es.take j).map Prod.fst)) : i = j := by
  have hp : ∀ {i : Nat}, i ≤ es.length → (hn : i < (c :: es.map Prod.fst).length) → lastOf c ((es.take i).map Prod.fst) = (c :: es.map Prod.fst)[i] := by
    intro i hi hn
    cases i with
    | zero => rfl
    | succ i =>
      have hi' : i < es.length := hi
      rw [List.take_succ_eq_append_getElem hi', List.map_append, List.map_cons, List.map_nil, lastOf_concat]
      simp
  have h1 : i < (c :: es.map Prod.fst).length := by simp; omega
  have h2 : j < (c :: es.map Prod.fst).length := by simp; omega
  rw [hp hi h1, hp hj h2] at q
  exact (List.getElem_inj (h₀ := h1) (h₁ := h2) r.nodup).1 q

/-- Moving the element after position `j` behind position `i`. -/
theorem spliceNext_at (s : Slist h d fs) (w : Wf h) {j : Nat} (hj : j < fs.length) {p : Addr} (lp : h.live p = true)
    (h1 : p ≠ lastOf d ((fs.take j).map Prod.fst)) (h2 : p ≠ fs[j].1) :
    SNode.spliceNext p (lastOf d ((fs.take j).map Prod.fst)) h =
      SNode.spliceRange p (lastOf d ((fs.take j).map Prod.fst)) (posOf 0 ((fs.drop (j + 1)).map Prod.fst)) h := by
  have sp := split_elem hj
  have s1 : Slist h d (fs.take j ++ fs[j] :: fs.drop (j + 1)) := by rw [← sp]; exact s
  have s2 : Slist h d ((fs.take j ++ [fs[j]]) ++ fs.drop (j + 1)) := by simpa using s1
  have le := (s.data fs[j] (List.getElem_mem hj)).1
  have n1 := s1.next_at
  have n2 := s2.next_at
  simp only [List.map_append, List.map_cons, List.map_nil, lastOf_concat, posOf_cons] at n1 n2
  refine spliceNext_eq lp s1.last_live le n1 n2 ?_ h1 h2 ?_
  · intro q
    have nd := s1.nodup
    simp only [List.map_append, List.map_cons, List.nodup_cons, List.nodup_append] at nd
    cases e : fs.drop (j + 1) with
    | nil => rw [e] at q; exact w.ne_zero le q
    | cons x xs => rw [e] at q nd; simp only [List.map_cons, posOf_cons] at q nd; exact nd.2.2.1.1 (by simp [q])
  · intro q
    have := pos_inj s (i := j) (j := j + 1) (by omega) hj (by
      rw [List.take_succ_eq_append_getElem hj, List.map_append, List.map_cons, List.map_nil, lastOf_concat]; exact q)
    omega

end Verif.Seq
