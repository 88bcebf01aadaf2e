import Verif.Exc.AlgoSearch
/-!
# Number of comparisons of the searching algorithms, and exceptions thrown by a comparison

`Reads g x s n r`: the call `g` without exceptions returns `r` and leaves memory as it was; the call `x`, in which comparisons may throw, makes exactly `n` comparisons, returns `r` as well if
none throws, and if the one after the first `k < n` throws, the exception leaves the call and memory is as it was.
-/
set_option linter.unusedVariables false
set_option linter.unusedSimpArgs false
set_option linter.unusedSectionVars false
namespace Verif.Exc.XAlgo
open Verif Verif.Exc
variable {σ ι κ T U : Type} {s : σ}

/-! ## `search` -/

theorem searchInner_reads [DecidableEq ι] [DecidableEq κ] {I : Iter σ ι T} {J : Iter σ κ U} {i last : ι} {j sublast : κ} {xs : List T} {ys : List U}
    (hx : I.Range s i xs last) (hy : J.Range s j ys sublast) (pred : T → U → Bool) :
    ∃ n r, Reads (Algo.searchInner I J pred i last j sublast) (searchInner I J pred i last j sublast) s n r ∧ n ≤ ys.length ∧ n ≤ xs.length := by
  induction hy generalizing i xs with
  | nil l => exact ⟨0, .found, by rw [Algo.searchInner, searchInner]; simp only [if_true]; exact Does.pure_, by simp, by simp⟩
  | @cons f m l y ys hne hd hn hr ih =>
    cases hx with
    | nil => exact ⟨0, .exhausted, by rw [Algo.searchInner, searchInner]; simp only [if_neg hne, if_true]; exact Does.pure_, by simp, by simp⟩
    | @cons _ m' _ x xs hne' hd' hn' hr' =>
      cases hp : pred x y with
      | true =>
        obtain ⟨n, r, X, b, b'⟩ := ih hr'
        refine ⟨n + 1, r, ?_, by simpa using b, by simpa using b'⟩
        rw [Algo.searchInner, searchInner]
        simp only [if_neg hne, if_neg hne']
        refine Does.call hd' (Does.call hd (Does.point rfl ?_))
        simp only [hp, Bool.not_true, Bool.false_eq_true, if_false]
        exact Does.call hn' (Does.call hn X)
      | false =>
        refine ⟨0 + 1, .miss, ?_, by simp, by simp⟩
        rw [Algo.searchInner, searchInner]
        simp only [if_neg hne, if_neg hne']
        refine Does.call hd' (Does.call hd (Does.point rfl ?_))
        simp only [hp, Bool.not_false, if_true]
        exact Does.pure_

theorem searchInner_empty [DecidableEq ι] [DecidableEq κ] {I : Iter σ ι T} {J : Iter σ κ U} {last : ι} {j sublast : κ} (pred : T → U → Bool) {r : Algo.SearchStep}
    (e : Algo.searchInner I J pred last last j sublast s = .ok (r, s)) : r ≠ .miss := by
  rw [Algo.searchInner] at e
  intro c; subst c
  by_cases q : j = sublast
  · simp [q] at e
  · simp [q] at e

theorem search_reads [DecidableEq ι] [DecidableEq κ] {I : Iter σ ι T} {J : Iter σ κ U} {first last : ι} {subfirst sublast : κ} {xs : List T} {ys : List U}
    (hx : I.Range s first xs last) (hy : J.Range s subfirst ys sublast) (pred : T → U → Bool) :
    ∃ n r, Reads (Algo.search I J pred first last subfirst sublast) (search I J pred first last subfirst sublast) s n r ∧ n ≤ xs.length * ys.length := by
  induction hx with
  | nil l =>
    obtain ⟨n, r, X, b, b'⟩ := searchInner_reads (I := I) (.nil l) hy pred
    have no := searchInner_empty pred X.plain
    have n0 : n = 0 := by simpa using b'
    subst n0
    cases r with
    | found => exact ⟨0 + 0, l, by rw [Algo.search, search]; exact Does.seq X Does.pure_, by simp⟩
    | exhausted => exact ⟨0 + 0, l, by rw [Algo.search, search]; exact Does.seq X Does.pure_, by simp⟩
    | miss => exact absurd rfl no
  | @cons f m l x xs hne hd hn hr ih =>
    obtain ⟨n, r, X, b, b'⟩ := searchInner_reads (I := I) (.cons hne hd hn hr) hy pred
    obtain ⟨n', r', Y, c⟩ := ih
    have e : (x :: xs).length * ys.length = xs.length * ys.length + ys.length := by simp [Nat.add_mul]
    cases r with
    | found => exact ⟨n + 0, f, by rw [Algo.search, search]; exact Does.seq X Does.pure_, by omega⟩
    | exhausted => exact ⟨n + 0, l, by rw [Algo.search, search]; exact Does.seq X Does.pure_, by omega⟩
    | miss => exact ⟨n + n', r', by rw [Algo.search, search]; exact Does.seq X (Does.call hn Y), by omega⟩

/-- `search` finds the first occurrence, makes at most as many comparisons as the product of the two lengths, and a comparison that throws leaves memory as it was. -/
theorem search_does [DecidableEq ι] [DecidableEq κ] {I : Iter σ ι T} {J : Iter σ κ U} {first last : ι} {subfirst sublast : κ} {xs : List T} {ys : List U}
    (hx : I.Range s first xs last) (hy : J.Range s subfirst ys sublast) (pred : T → U → Bool) :
    ∃ n r, Reads (Algo.search I J pred first last subfirst sublast) (search I J pred first last subfirst sublast) s n r ∧ n ≤ xs.length * ys.length ∧
      ((∃ k, I.Reach s first k r ∧ Algo.OccursAt pred xs ys k ∧ ∀ m, m < k → ¬ Algo.OccursAt pred xs ys m) ∨ (r = last ∧ ∀ m, ¬ Algo.OccursAt pred xs ys m)) := by
  obtain ⟨n, r, X, b⟩ := search_reads hx hy pred
  obtain ⟨r', e, h⟩ := Algo.search_returns_first_occurrence hx hy pred
  have : r = r' := by have := X.plain.symm.trans e; simpa using this
  subst this
  exact ⟨n, r, X, b, h⟩

/-! ## `search_n` -/

theorem searchNInner_reads [DecidableEq ι] {I : Iter σ ι T} {f last : ι} {x : T} {xs : List T} (h : I.Range s f (x :: xs) last) (m : T → Bool) (c count : Int) :
    ∃ n r, Reads (Algo.searchNInner I m f last c count) (searchNInner I m f last c count) s n r ∧ n ≤ xs.length ∧
      ∀ p, r = .broke p → ∃ y post, I.Range s p (y :: post) last ∧ n + post.length = xs.length := by
  induction xs generalizing f x c with
  | nil =>
    by_cases q : c = count
    · exact ⟨0, .complete, by rw [Algo.searchNInner, searchNInner]; simp only [if_pos q]; exact Does.pure_, by simp, by simp⟩
    · cases h with
      | @cons _ f' _ _ _ hne hd hn hr =>
        cases hr
        exact ⟨0, .ended, by rw [Algo.searchNInner, searchNInner]; simp only [if_neg q]; exact Does.call hn (by simp only [if_true]; exact Does.pure_), by simp, by simp⟩
  | cons y ys ih =>
    by_cases q : c = count
    · exact ⟨0, .complete, by rw [Algo.searchNInner, searchNInner]; simp only [if_pos q]; exact Does.pure_, by simp, by simp⟩
    · cases h with
      | @cons _ f' _ _ _ hne hd hn hr =>
        obtain ⟨n, r, X, b, B⟩ := ih hr (c + 1)
        cases hr with
        | @cons _ f2 _ _ _ hne2 hd2 hn2 hr2 =>
          cases hp : m y with
          | true =>
            refine ⟨n + 1, r, ?_, by simpa using b, fun p e => ?_⟩
            · rw [Algo.searchNInner, searchNInner]
              simp only [if_neg q]
              refine Does.call hn ?_
              simp only [if_neg hne2]
              refine Does.call hd2 (Does.point rfl ?_)
              simp only [hp, Bool.not_true, Bool.false_eq_true, if_false]
              exact X
            · obtain ⟨z, post, R, l⟩ := B p e
              exact ⟨z, post, R, by simp only [List.length_cons]; omega⟩
          | false =>
            refine ⟨0 + 1, .broke f', ?_, by simp, fun p e => ?_⟩
            · rw [Algo.searchNInner, searchNInner]
              simp only [if_neg q]
              refine Does.call hn ?_
              simp only [if_neg hne2]
              refine Does.call hd2 (Does.point rfl ?_)
              simp only [hp, Bool.not_false, if_true]
              exact Does.pure_
            · simp only [Algo.RunStep.broke.injEq] at e
              subst e
              exact ⟨y, ys, .cons hne2 hd2 hn2 hr2, by simp only [List.length_cons]; omega⟩

theorem searchNOuter_reads [DecidableEq ι] {I : Iter σ ι T} {last : ι} (m0 m : T → Bool) (count : Int) : ∀ (len : Nat) (first : ι) (xs : List T), xs.length ≤ len →
    I.Range s first xs last → ∃ n r, Reads (Algo.searchNOuter I m0 m first last count) (searchNOuter I m0 m first last count) s n r ∧ n ≤ xs.length := by
  intro len
  induction len with
  | zero =>
    intro first xs hl h
    cases h with
    | nil => exact ⟨0, last, by rw [Algo.searchNOuter, searchNOuter]; simp only [if_true]; exact Does.pure_, by simp⟩
    | cons => simp at hl
  | succ len ih =>
    intro first xs hl h
    cases h with
    | nil => exact ⟨0, last, by rw [Algo.searchNOuter, searchNOuter]; simp only [if_true]; exact Does.pure_, by simp⟩
    | @cons _ mid _ x xs hne hd hn hr =>
      simp only [List.length_cons] at hl ⊢
      cases hp : m0 x with
      | false =>
        obtain ⟨n, r, X, b⟩ := ih mid xs (by omega) hr
        refine ⟨n + 1, r, ?_, by omega⟩
        rw [Algo.searchNOuter, searchNOuter]
        simp only [if_neg hne]
        refine Does.call hd (Does.point rfl ?_)
        simp only [hp, Bool.false_eq_true, if_false]
        exact Does.call hn X
      | true =>
        obtain ⟨n, r, X, b, B⟩ := searchNInner_reads (.cons hne hd hn hr) m 1 count
        have start : ∀ n' r', Does (σ := σ) (match r with | .complete => pure first | .ended => pure last | .broke f => do Algo.searchNOuter I m0 m (← I.next f) last count)
            (match r with | .complete => pure first | .ended => pure last | .broke f => do searchNOuter I m0 m (← Thr.call (I.next f)) last count) s n' r' s (fun _ t => t = s) →
            Reads (Algo.searchNOuter I m0 m first last count) (searchNOuter I m0 m first last count) s (n + n' + 1) r' := by
          intro n' r' Y
          rw [Algo.searchNOuter, searchNOuter]
          simp only [if_neg hne]
          refine Does.call hd (Does.point rfl ?_)
          simp only [hp, if_true]
          exact Does.seq X Y
        cases r with
        | complete => exact ⟨n + 0 + 1, first, start 0 first Does.pure_, by omega⟩
        | ended => exact ⟨n + 0 + 1, last, start 0 last Does.pure_, by omega⟩
        | broke p =>
          obtain ⟨y, post, R, l⟩ := B p rfl
          cases R with
          | @cons _ p' _ _ _ hne2 hd2 hn2 hr2 =>
            obtain ⟨n', r', Y, b'⟩ := ih p' post (by omega) hr2
            exact ⟨n + n' + 1, r', start n' r' (Does.call hn2 Y), by omega⟩

/-- `search_n` makes at most one comparison per element, finds the first run of `n` elements equal to the value, and a comparison that throws leaves memory as it was. -/
theorem searchN_does [DecidableEq ι] {I : Iter σ ι T} {first last : ι} {xs : List T} (h : I.Range s first xs last) (eq : T → U → Bool) (n : Nat) (v : U) :
    ∃ c r, Reads (Algo.searchN I eq first last n v) (searchN I eq first last n v) s c r ∧ c ≤ xs.length ∧
      ((∃ k, I.Reach s first k r ∧ Algo.RunAt (fun x => eq x v) n xs k ∧ ∀ i, i < k → ¬ Algo.RunAt (fun x => eq x v) n xs i) ∨
       (r = last ∧ ∀ i, ¬ Algo.RunAt (fun x => eq x v) n xs i)) := by
  obtain ⟨r', e, g⟩ := Algo.search_n_returns_first_run h eq n v
  have X : ∃ c r, Reads (Algo.searchN I eq first last n v) (searchN I eq first last n v) s c r ∧ c ≤ xs.length := by
    unfold Algo.searchN searchN
    by_cases q : (n : Int) ≤ 0
    · exact ⟨0, first, by simp only [if_pos q]; exact Does.pure_, by simp⟩
    · obtain ⟨c, r, Y, b⟩ := searchNOuter_reads (fun x => eq x v) (fun x => eq x v) n xs.length first xs (Nat.le_refl _) h
      exact ⟨c, r, by simp only [if_neg q]; exact Y, b⟩
  obtain ⟨c, r, X, b⟩ := X
  have : r = r' := by have := X.plain.symm.trans e; simpa using this
  subst this
  exact ⟨c, r, X, b, g⟩

/-- `search_n` with a predicate: any count (negative ones included), at most one comparison or call of the predicate per element. Which run it finds is the subject of C26. -/
theorem searchNPred_does [DecidableEq ι] {I : Iter σ ι T} {first last : ι} {xs : List T} (h : I.Range s first xs last) (eq pred : T → U → Bool) (count : Int) (v : U) :
    ∃ c r, Reads (Algo.searchNPred I eq pred first last count v) (searchNPred I eq pred first last count v) s c r ∧ c ≤ xs.length := by
  unfold Algo.searchNPred searchNPred
  by_cases q : count ≤ 0
  · exact ⟨0, first, by simp only [if_pos q]; exact Does.pure_, by simp⟩
  · obtain ⟨c, r, Y, b⟩ := searchNOuter_reads (fun x => eq x v) (fun x => pred x v) count xs.length first xs (Nat.le_refl _) h
    exact ⟨c, r, by simp only [if_neg q]; exact Y, b⟩

/-! ## `is_sorted_until`, `is_sorted` -/

/-- How many comparisons decide whether `xs` is sorted: one per neighbouring pair, up to the first pair out of order. -/
def neighbours (lt : T → T → Bool) : List T → Nat
  | [] => 0
  | [_] => 0
  | x :: y :: r => if lt y x then 1 else 1 + neighbours lt (y :: r)

theorem neighbours_le (lt : T → T → Bool) : ∀ xs : List T, neighbours lt xs ≤ xs.length - 1
  | [] => by simp [neighbours]
  | [_] => by simp [neighbours]
  | x :: y :: r => by
    have := neighbours_le lt (y :: r)
    simp only [neighbours, List.length_cons] at this ⊢
    split <;> omega

theorem sortedLoop_reads [DecidableEq ι] {I : Iter σ ι T} {first last : ι} {x : T} {xs : List T} (h : I.Range s first (x :: xs) last) (lt : T → T → Bool) :
    ∃ r, Reads (Algo.sortedLoop I lt first first last) (sortedLoop I lt first first last) s (neighbours lt (x :: xs)) r := by
  induction xs generalizing first x with
  | nil =>
    cases h with
    | cons hne hd hn hr =>
      cases hr
      exact ⟨last, by rw [Algo.sortedLoop, sortedLoop]; exact Does.call hn (by simp only [if_true]; exact Does.pure_)⟩
  | cons y ys ih =>
    cases h with
    | @cons _ f' _ _ _ hne hd hn hr =>
      obtain ⟨r, X⟩ := ih hr
      cases hr with
      | @cons _ f2 _ _ _ hne2 hd2 hn2 hr2 =>
        cases hp : lt y x with
        | true =>
          refine ⟨f', ?_⟩
          rw [Algo.sortedLoop, sortedLoop, neighbours, if_pos hp]
          refine Does.call hn ?_
          simp only [if_neg hne2]
          refine Does.call hd2 (Does.call hd (Does.point rfl ?_))
          simp only [hp, if_true]
          exact Does.pure_
        | false =>
          refine ⟨r, ?_⟩
          rw [Algo.sortedLoop, sortedLoop, neighbours, if_neg (by simp [hp]), Nat.add_comm]
          refine Does.call hn ?_
          simp only [if_neg hne2]
          refine Does.call hd2 (Does.call hd (Does.point rfl ?_))
          simp only [hp, Bool.false_eq_true, if_false]
          exact X

theorem isSortedUntil_reads [DecidableEq ι] {I : Iter σ ι T} {first last : ι} {xs : List T} (h : I.Range s first xs last) (lt : T → T → Bool) :
    ∃ r, Reads (Algo.isSortedUntil I lt first last) (isSortedUntil I lt first last) s (neighbours lt xs) r := by
  unfold Algo.isSortedUntil isSortedUntil
  cases h with
  | nil => exact ⟨first, by simp only [ne_eq, not_true_eq_false, if_false]; exact Does.pure_⟩
  | cons hne hd hn hr =>
    simp only [if_pos hne, ne_eq, hne, not_false_eq_true, if_true]
    exact sortedLoop_reads (.cons hne hd hn hr) lt

/-- `is_sorted_until` returns the position of the first element smaller than its predecessor, after one comparison per pair up to it. -/
theorem isSortedUntil_does [DecidableEq ι] {I : Iter σ ι T} {first last : ι} {xs : List T} (h : I.Range s first xs last) (lt : T → T → Bool) :
    ∃ r, Reads (Algo.isSortedUntil I lt first last) (isSortedUntil I lt first last) s (neighbours lt xs) r ∧
      ((∃ n, I.Reach s first (n + 1) r ∧ Algo.DescentAt lt xs n ∧ ∀ m, m < n → ¬ Algo.DescentAt lt xs m) ∨ (r = last ∧ ∀ m, ¬ Algo.DescentAt lt xs m)) := by
  obtain ⟨r, X⟩ := isSortedUntil_reads h lt
  obtain ⟨r', e, g⟩ := Algo.is_sorted_until_returns_first_descent h lt
  have : r = r' := by have := X.plain.symm.trans e; simpa using this
  subst this
  exact ⟨r, X, g⟩

/-- `is_sorted` answers whether the range is sorted, after at most `length - 1` comparisons. -/
theorem isSorted_does [DecidableEq ι] {I : Iter σ ι T} {first last : ι} {xs : List T} (h : I.Range s first xs last) {lt : T → T → Bool} (hlt : StrictWeakOrder lt) :
    ∃ b : Bool, Reads (Algo.isSorted I lt first last) (isSorted I lt first last) s (neighbours lt xs) b ∧ neighbours lt xs ≤ xs.length - 1 ∧
      (b = true ↔ xs.Pairwise fun a b => lt b a = false) := by
  obtain ⟨r, X⟩ := isSortedUntil_reads h lt
  obtain ⟨b, e, g⟩ := Algo.is_sorted_iff h hlt
  have Y : Reads (Algo.isSorted I lt first last) (isSorted I lt first last) s (neighbours lt xs) (decide (r = last)) := Does.map (fun r : ι => decide (r = last)) X
  have : decide (r = last) = b := by have := Y.plain.symm.trans e; simpa using this
  exact ⟨b, this ▸ Y, neighbours_le lt xs, g⟩

/-! ## `min_element`, `max_element`, `minmax_element` -/

theorem minLoop_reads [DecidableEq ι] {I : Iter σ ι T} {first last : ι} {xs : List T} (h : I.Range s first xs last) (lt : T → T → Bool) {smallest : ι} {x0 : T}
    (hs : I.deref smallest s = .ok (x0, s)) : ∃ r, Reads (Algo.minLoop I lt first last smallest) (minLoop I lt first last smallest) s xs.length r := by
  induction h generalizing smallest x0 with
  | nil l => exact ⟨smallest, by rw [Algo.minLoop, minLoop]; simp only [if_true]; exact Does.pure_⟩
  | @cons f m l x xs hne hd hn hr ih =>
    cases hp : lt x x0 with
    | true =>
      obtain ⟨r, X⟩ := ih hd
      refine ⟨r, ?_⟩
      rw [Algo.minLoop, minLoop]
      simp only [if_neg hne]
      refine Does.call hd (Does.call hs (Does.point rfl ?_))
      simp only [hp, if_true]
      exact Does.call hn X
    | false =>
      obtain ⟨r, X⟩ := ih hs
      refine ⟨r, ?_⟩
      rw [Algo.minLoop, minLoop]
      simp only [if_neg hne]
      refine Does.call hd (Does.call hs (Does.point rfl ?_))
      simp only [hp, Bool.false_eq_true, if_false]
      exact Does.call hn X

theorem maxLoop_reads [DecidableEq ι] {I : Iter σ ι T} {first last : ι} {xs : List T} (h : I.Range s first xs last) (lt : T → T → Bool) {largest : ι} {x0 : T}
    (hs : I.deref largest s = .ok (x0, s)) : ∃ r, Reads (Algo.maxLoop I lt first last largest) (maxLoop I lt first last largest) s xs.length r := by
  induction h generalizing largest x0 with
  | nil l => exact ⟨largest, by rw [Algo.maxLoop, maxLoop]; simp only [if_true]; exact Does.pure_⟩
  | @cons f m l x xs hne hd hn hr ih =>
    cases hp : lt x0 x with
    | true =>
      obtain ⟨r, X⟩ := ih hd
      refine ⟨r, ?_⟩
      rw [Algo.maxLoop, maxLoop]
      simp only [if_neg hne]
      refine Does.call hs (Does.call hd (Does.point rfl ?_))
      simp only [hp, if_true]
      exact Does.call hn X
    | false =>
      obtain ⟨r, X⟩ := ih hs
      refine ⟨r, ?_⟩
      rw [Algo.maxLoop, maxLoop]
      simp only [if_neg hne]
      refine Does.call hs (Does.call hd (Does.point rfl ?_))
      simp only [hp, Bool.false_eq_true, if_false]
      exact Does.call hn X

theorem minElement_reads [DecidableEq ι] {I : Iter σ ι T} {first last : ι} {xs : List T} (h : I.Range s first xs last) (lt : T → T → Bool) :
    ∃ r, Reads (Algo.minElement I lt first last) (minElement I lt first last) s (xs.length - 1) r := by
  unfold Algo.minElement minElement
  cases h with
  | nil => exact ⟨first, by simp only [if_true]; exact Does.pure_⟩
  | cons hne hd hn hr =>
    obtain ⟨r, X⟩ := minLoop_reads hr lt hd
    exact ⟨r, by simp only [if_neg hne]; exact Does.call hn X⟩

theorem maxElement_reads [DecidableEq ι] {I : Iter σ ι T} {first last : ι} {xs : List T} (h : I.Range s first xs last) (lt : T → T → Bool) :
    ∃ r, Reads (Algo.maxElement I lt first last) (maxElement I lt first last) s (xs.length - 1) r := by
  unfold Algo.maxElement maxElement
  cases h with
  | nil => exact ⟨first, by simp only [if_true]; exact Does.pure_⟩
  | cons hne hd hn hr =>
    obtain ⟨r, X⟩ := maxLoop_reads hr lt hd
    exact ⟨r, by simp only [if_neg hne]; exact Does.call hn X⟩

/-- `min_element` and `max_element` make exactly `length - 1` comparisons, `minmax_element` exactly twice as many (of an empty range: none); of a non-empty range they return the first
smallest and the first largest element. -/
theorem extrema_does [DecidableEq ι] {I : Iter σ ι T} {first last : ι} {xs : List T} (h : I.Range s first xs last) {lt : T → T → Bool} (hlt : StrictWeakOrder lt) :
    ∃ lo hi, Reads (Algo.minElement I lt first last) (minElement I lt first last) s (xs.length - 1) lo ∧
      Reads (Algo.maxElement I lt first last) (maxElement I lt first last) s (xs.length - 1) hi ∧
      Reads (Algo.minmaxElement I lt first last) (minmaxElement I lt first last) s (2 * (xs.length - 1)) (lo, hi) ∧
      (xs = [] → lo = last ∧ hi = last) ∧
      (xs ≠ [] → ∃ k k', I.Reach s first k lo ∧ Algo.FirstMin lt xs k ∧ I.Reach s first k' hi ∧ Algo.FirstMax lt xs k') := by
  obtain ⟨lo, X⟩ := minElement_reads h lt
  obtain ⟨hi, Y⟩ := maxElement_reads h lt
  refine ⟨lo, hi, X, Y, ?_, fun e => ?_, fun e => ?_⟩
  · refine Does.cast (by omega) rfl rfl (Does.seq X (Does.map (fun b => (lo, b)) Y))
  · subst e
    cases h
    have p1 := X.plain
    have p2 := Y.plain
    simp [Algo.minElement] at p1
    simp [Algo.maxElement] at p2
    exact ⟨p1.symm, p2.symm⟩
  · obtain ⟨r1, e1, _, g1⟩ := Algo.min_element_returns_first_min h hlt
    obtain ⟨r2, e2, _, g2⟩ := Algo.max_element_returns_first_max h hlt
    obtain ⟨k, R1, F1⟩ := g1 e
    obtain ⟨k', R2, F2⟩ := g2 e
    have q1 : lo = r1 := by have := X.plain.symm.trans e1; simpa using this
    have q2 : hi = r2 := by have := Y.plain.symm.trans e2; simpa using this
    subst q1 q2
    exact ⟨k, k', R1, F1, R2, F2⟩

/-! ## `mismatch` with three iterators -/

theorem mismatch3_does [DecidableEq ι] {I : Iter σ ι T} {J : Iter σ κ U} {first1 last1 : ι} {first2 last2 : κ} {xs : List T} {ys : List U}
    (hx : I.Range s first1 xs last1) (hy : J.Range s first2 ys last2) (hlen : xs.length ≤ ys.length) (pred : T → U → Bool) :
    ∃ r1 r2 n, Reads (Algo.mismatch3 I J pred first1 last1 first2) (mismatch3 I J pred first1 last1 first2) s (min (n + 1) xs.length) (r1, r2) ∧
      I.Reach s first1 n r1 ∧ J.Reach s first2 n r2 ∧ n ≤ xs.length ∧
      (∀ i (h1 : i < xs.length), i < n → pred xs[i] (ys[i]'(by omega)) = true) ∧
      (n = xs.length ∨ ∃ h : n < xs.length, pred xs[n] (ys[n]'(by omega)) = false) := by
  induction hx generalizing first2 ys with
  | nil l =>
    exact ⟨l, first2, 0, by rw [Algo.mismatch3, mismatch3]; simp only [if_true]; exact Does.pure_, .zero _, .zero _, by simp, by simp, by simp⟩
  | @cons f m l x xs hne hd hn hr ih =>
    cases hy with
    | nil => simp at hlen
    | @cons _ m' _ y ys hne' hd' hn' hr' =>
      cases hp : pred x y with
      | true =>
        obtain ⟨r1, r2, n, h1, h2, h3, h4, h5, h6⟩ := ih hr' (by simpa using hlen)
        refine ⟨r1, r2, n + 1, ?_, .succ hn h2, .succ hn' h3, by simpa using h4, ?_, ?_⟩
        · rw [Algo.mismatch3, mismatch3, show min (n + 1 + 1) (x :: xs).length = min (n + 1) xs.length + 1 by simp only [List.length_cons]; omega]
          simp only [if_neg hne]
          refine Does.call hd (Does.call hd' (Does.point rfl ?_))
          simp only [hp, if_true]
          exact Does.call hn (Does.call hn' h1)
        · intro i hi hin
          cases i with
          | zero => simpa using hp
          | succ i => simpa using h5 i (by simpa using hi) (by omega)
        · rcases h6 with h6 | ⟨h6, h7⟩
          · exact .inl (by simpa using h6)
          · exact .inr ⟨by simpa using h6, by simpa using h7⟩
      | false =>
        refine ⟨f, first2, 0, ?_, .zero _, .zero _, by simp, by simp, .inr ⟨by simp, by simpa using hp⟩⟩
        rw [Algo.mismatch3, mismatch3, show min (0 + 1) (x :: xs).length = 0 + 1 by simp only [List.length_cons]; omega]
        simp only [if_neg hne]
        refine Does.call hd (Does.call hd' (Does.point rfl ?_))
        simp only [hp, Bool.false_eq_true, if_false]
        exact Does.pure_

/-- Two lists `3, 1, 2` and `1, 2`: `search` finds the second in the first at its second element with at most 6 comparisons, and whichever throws, nothing has changed; `min_element` makes two
comparisons and `minmax_element` four. -/
example : ∃ (S : Seq.DList.State Nat) (h : Seq.Heap Nat) (c d b b' : Nat), Seq.DList.Reach S h ∧ Seq.DList.begin c h = .ok (b, h) ∧ Seq.DList.begin d h = .ok (b', h) ∧
    (∃ n ≤ 6, ∃ it, Algo.search Gen.nodeIter.toIter Gen.nodeIter.toIter (fun x y => x == y) b c b' d h = .ok (it, h) ∧ Gen.nodeIter.toIter.next b h = .ok (it, h) ∧
      ∀ k < n, search Gen.nodeIter.toIter Gen.nodeIter.toIter (fun x y => x == y) b c b' d k h = .ok (.thrown, h)) ∧
    minElement Gen.nodeIter.toIter (fun x y : Nat => decide (x < y)) b c 1 h = .ok (.thrown, h) ∧
    ∃ p, minmaxElement Gen.nodeIter.toIter (fun x y : Nat => decide (x < y)) b c 4 h = .ok (.ret p 0, h) := by
  obtain ⟨S, h, c, d, es, fs, R, hc, hd, hcd, hs, hs', hv, hw⟩ := Seq.ListProps.exists_lists [3, 1, 2] [1, 2]
  obtain ⟨b, e, P⟩ := Gen.list_presents R hc hs
  obtain ⟨b', e', P'⟩ := Gen.list_presents R hd hs'
  have X := P.forward.range
  have Y := P'.forward.range
  rw [hv] at X
  rw [hw] at Y
  have l : es.length = 3 := by have := congrArg List.length hv; simpa using this
  have l' : fs.length = 2 := by have := congrArg List.length hw; simpa using this
  have e3 : Gen.nodeAt c es 3 = c := by rw [← l]; exact e
  have e2 : Gen.nodeAt d fs 2 = d := by rw [← l']; exact e'
  simp only [List.length_cons, List.length_nil, Nat.zero_add] at X Y
  rw [show 1 + 1 + 1 = 3 from rfl, e3] at X
  rw [show 1 + 1 = 2 from rfl, e2] at Y
  have O : Algo.OccursAt (fun x y : Nat => x == y) [3, 1, 2] [1, 2] 1 := ⟨by simp, by intro j hj; match j, hj with | 0, _ => rfl | 1, _ => rfl⟩
  obtain ⟨n, r, Z, hn, g⟩ := search_does X Y (fun x y => x == y)
  obtain ⟨lo, hi, M, _, MM, _⟩ := extrema_does X (lt := fun x y : Nat => decide (x < y)) ⟨by simp, by simp; omega, by simp; omega⟩
  refine ⟨S, h, c, d, _, _, R, b, b', ⟨n, hn, r, Z.plain, ?_, fun k hk => ?_⟩, ?_, ?_⟩
  · rcases g with ⟨k, rk, ok, first⟩ | ⟨_, none⟩
    · have k1 : k = 1 := by
        obtain ⟨w, eq⟩ := ok
        simp only [List.length_cons, List.length_nil] at w
        rcases Nat.lt_or_ge k 1 with h0 | h1
        · obtain rfl : k = 0 := by omega
          exact absurd (eq 0 (by simp)) (by simp)
        · omega
      subst k1
      cases rk with
      | succ q r0 => cases r0; exact q
    · exact absurd O (none 1)
  · obtain ⟨t, f, rfl⟩ := Z.points.throws k hk
    exact f
  · obtain ⟨t, f, rfl⟩ := M.points.throws 1 (by simp)
    exact f
  · exact ⟨_, MM.points.returns 0⟩
end Verif.Exc.XAlgo
