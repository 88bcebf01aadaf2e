import Verif.Algorithm.ReadOnly
import Verif.Algorithm.Cells
import Verif.Order
/-!
# Properties of the non-modifying algorithms, continued

adjacent_find, equal, mismatch, for_each, is_sorted_until, is_sorted, min_element, max_element,
minmax_element, min, max, minmax.
-/
set_option linter.unusedSimpArgs false
namespace Verif.Algo
open Verif Iter
variable {σ ι κ T U : Type}

/-! ## C60: adjacent_find -/

/-- Elements `i` and `i+1` of `xs` exist and are related by `p`. -/
def AdjacentAt (p : T → T → Bool) (xs : List T) (i : Nat) : Prop :=
  ∃ h : i + 1 < xs.length, p xs[i] xs[i + 1] = true

theorem adjacentAt_succ {p : T → T → Bool} {x : T} {xs : List T} {i : Nat} :
    AdjacentAt p (x :: xs) (i + 1) ↔ AdjacentAt p xs i := by
  constructor
  · rintro ⟨h, hh⟩; exact ⟨by simpa using h, by simpa using hh⟩
  · rintro ⟨h, hh⟩; exact ⟨by simpa using h, by simpa using hh⟩

theorem adjacentLoop_spec [DecidableEq ι] {I : Iter σ ι T} {s : σ} {first next last : ι} {x : T}
    {xs : List T} (hd : I.deref first s = .ok (x, s)) (hn : I.next first s = .ok (next, s))
    (h : I.Range s next xs last) (p : T → T → Bool) :
    ∃ r, adjacentLoop I p first next last s = .ok (r, s) ∧
      ((∃ n, I.Reach s first n r ∧ AdjacentAt p (x :: xs) n ∧
          ∀ m, m < n → ¬ AdjacentAt p (x :: xs) m) ∨
       (r = last ∧ ∀ m, ¬ AdjacentAt p (x :: xs) m)) := by
  induction h generalizing first x with
  | nil l =>
    refine ⟨l, by rw [adjacentLoop]; simp, .inr ⟨rfl, ?_⟩⟩
    rintro m ⟨h, -⟩; simp at h
  | @cons f m l y ys hne hd' hn' hr ih =>
    by_cases hp : p x y
    · exact ⟨first, by rw [adjacentLoop]; simp [hne, hd, hd', hp],
        .inl ⟨0, .zero _, ⟨by simp, by simpa using hp⟩, by simp⟩⟩
    · obtain ⟨r, h1, h2⟩ := ih hd' hn'
      refine ⟨r, by rw [adjacentLoop]; simp [hne, hd, hd', hp, hn, hn', h1], ?_⟩
      have no0 : ¬ AdjacentAt p (x :: y :: ys) 0 := by rintro ⟨_, h⟩; exact hp (by simpa using h)
      rcases h2 with ⟨n, ha, hb, hc⟩ | ⟨ha, hb⟩
      · refine .inl ⟨n + 1, .succ hn ha, adjacentAt_succ.2 hb, ?_⟩
        intro k hk
        cases k with
        | zero => exact no0
        | succ k => rw [adjacentAt_succ]; exact hc k (by omega)
      · refine .inr ⟨ha, ?_⟩
        intro k
        cases k with
        | zero => exact no0
        | succ k => rw [adjacentAt_succ]; exact hb k

/-- `adjacent_find` returns the first position whose element is related to its successor, or
`last` if there is no such position. -/
theorem adjacent_find_returns_first [DecidableEq ι] {I : Iter σ ι T} {s : σ} {first last : ι}
    {xs : List T} (h : I.Range s first xs last) (p : T → T → Bool) :
    ∃ r, adjacentFind I p first last s = .ok (r, s) ∧
      ((∃ n, I.Reach s first n r ∧ AdjacentAt p xs n ∧ ∀ m, m < n → ¬ AdjacentAt p xs m) ∨
       (r = last ∧ ∀ m, ¬ AdjacentAt p xs m)) := by
  cases h with
  | nil =>
    refine ⟨first, by simp [adjacentFind], .inr ⟨rfl, ?_⟩⟩
    rintro m ⟨h, -⟩; simp at h
  | cons hne hd hn hr =>
    obtain ⟨r, h1, h2⟩ := adjacentLoop_spec hd hn hr p
    exact ⟨r, by simp [adjacentFind, hne, hn, h1], h2⟩

/-- Concrete instance: in `[1,2,2,2]` the first equal neighbours start at index 1. -/
example : ∃ r, adjacentFind Mem.ptr (fun a b => a == b) 0 4 (Mem.ofList [1, 2, 2, 2]) =
    .ok (r, Mem.ofList [1, 2, 2, 2]) ∧ r = 1 := by
  obtain ⟨r, h1, h2⟩ := adjacent_find_returns_first (Mem.holds_ofList [1, 2, 2, 2]).range
    (fun a b : Nat => a == b)
  refine ⟨r, h1, ?_⟩
  have o1 : AdjacentAt (fun a b : Nat => a == b) [1, 2, 2, 2] 1 := ⟨by decide, by decide⟩
  rcases h2 with ⟨n, ha, hb, hc⟩ | ⟨_, hb⟩
  · have := Mem.ptr_reach ha
    have n2 : ¬ 1 < n := fun h => hc 1 h o1
    rcases n with _|_|n
    · obtain ⟨_, hh⟩ := hb; simp at hh
    · omega
    · omega
  · exact absurd o1 (hb 1)

/-! ## C61: equal, mismatch -/

/-- `equal(first1, last1, first2)`: with at least as many elements behind `first2`, decides whether
corresponding elements are related. -/
theorem equal3_iff [DecidableEq ι] {I : Iter σ ι T} {J : Iter σ κ U} {s : σ}
    {first1 last1 : ι} {first2 last2 : κ} {xs : List T} {ys : List U}
    (hx : I.Range s first1 xs last1) (hy : J.Range s first2 ys last2)
    (hlen : xs.length ≤ ys.length) (pred : T → U → Bool) :
    ∃ b, equal3 I J pred first1 last1 first2 s = .ok (b, s) ∧
      (b = true ↔ ∀ i (h : i < xs.length), pred xs[i] (ys[i]'(by omega)) = true) := by
  induction hx generalizing first2 ys with
  | nil l => exact ⟨true, by rw [equal3]; simp, by simp⟩
  | @cons f m l x xs hne hd hn hr ih =>
    cases hy with
    | nil => simp at hlen
    | @cons _ m' _ y ys hne' hd' hn' hr' =>
      by_cases hp : pred x y
      · obtain ⟨b, h1, h2⟩ := ih hr' (by simpa using hlen)
        refine ⟨b, by rw [equal3]; simp [hne, hd, hd', hp, hn, hn', h1], h2.trans ?_⟩
        constructor
        · intro h i hi
          cases i with
          | zero => simpa using hp
          | succ i => simpa using h i (by simpa using hi)
        · intro h i hi
          exact h (i + 1) (by simpa using hi)
      · refine ⟨false, by rw [equal3]; simp [hne, hd, hd', hp], ?_⟩
        simp only [Bool.false_eq_true, false_iff]
        intro h
        exact hp (h 0 (by simp))

/-- `equal(first1, last1, first2, last2)` decides equality of the lengths and of corresponding
elements. -/
theorem equal4_iff [DecidableEq ι] [DecidableEq κ] {I : Iter σ ι T} {J : Iter σ κ U} {s : σ}
    {first1 last1 : ι} {first2 last2 : κ} {xs : List T} {ys : List U}
    (hx : I.Range s first1 xs last1) (hy : J.Range s first2 ys last2) (pred : T → U → Bool) :
    ∃ b, equal4 I J pred first1 last1 first2 last2 s = .ok (b, s) ∧
      (b = true ↔ xs.length = ys.length ∧
        ∀ i (h1 : i < xs.length) (h2 : i < ys.length), pred xs[i] ys[i] = true) := by
  induction hx generalizing first2 ys with
  | nil l =>
    cases hy with
    | nil => exact ⟨true, by rw [equal4]; simp, by simp⟩
    | cons hne' hd' hn' hr' =>
      exact ⟨false, by rw [equal4]; simp [hne'], by simp⟩
  | @cons f m l x xs hne hd hn hr ih =>
    cases hy with
    | nil => exact ⟨false, by rw [equal4]; simp [hne], by simp⟩
    | @cons _ m' _ y ys hne' hd' hn' hr' =>
      by_cases hp : pred x y
      · obtain ⟨b, h1, h2⟩ := ih hr'
        refine ⟨b, by rw [equal4]; simp [hne, hne', hd, hd', hp, hn, hn', h1], h2.trans ?_⟩
        constructor
        · rintro ⟨hl, h⟩
          refine ⟨by simpa using hl, ?_⟩
          intro i hi hi'
          cases i with
          | zero => simpa using hp
          | succ i => simpa using h i (by simpa using hi) (by simpa using hi')
        · rintro ⟨hl, h⟩
          refine ⟨by simpa using hl, ?_⟩
          intro i hi hi'
          exact h (i + 1) (by simpa using hi) (by simpa using hi')
      · refine ⟨false, by rw [equal4]; simp [hne, hne', hd, hd', hp], ?_⟩
        simp only [Bool.false_eq_true, false_iff]
        rintro ⟨_, h⟩
        exact hp (h 0 (by simp) (by simp))

/-- For `==` being equality, `equal` of two ranges decides equality of the two sequences. -/
theorem equal4_eq_iff [DecidableEq ι] [DecidableEq κ] [DecidableEq T] {I : Iter σ ι T}
    {J : Iter σ κ T} {s : σ} {first1 last1 : ι} {first2 last2 : κ} {xs ys : List T}
    (hx : I.Range s first1 xs last1) (hy : J.Range s first2 ys last2) :
    equal4 I J (fun a b => decide (a = b)) first1 last1 first2 last2 s =
      .ok (decide (xs = ys), s) := by
  obtain ⟨b, h1, h2⟩ := equal4_iff hx hy (fun a b => decide (a = b))
  rw [h1]
  congr 2
  rw [Bool.eq_iff_iff, h2]
  simp only [decide_eq_true_eq]
  constructor
  · rintro ⟨hl, h⟩; exact List.ext_getElem hl h
  · rintro rfl; simp

/-- `mismatch` (three iterators): both returned positions are at the same distance `n`; the first
`n` pairs are related, and either the first range is exhausted or pair `n` is not related. -/
theorem mismatch3_returns_first_difference [DecidableEq ι] {I : Iter σ ι T} {J : Iter σ κ U}
    {s : σ} {first1 last1 : ι} {first2 last2 : κ} {xs : List T} {ys : List U}
    (hx : I.Range s first1 xs last1) (hy : J.Range s first2 ys last2)
    (hlen : xs.length ≤ ys.length) (pred : T → U → Bool) :
    ∃ r1 r2 n, mismatch3 I J pred first1 last1 first2 s = .ok ((r1, r2), s) ∧
      I.Reach s first1 n r1 ∧ J.Reach s first2 n r2 ∧ n ≤ xs.length ∧
      (∀ i (h1 : i < xs.length), i < n → pred xs[i] (ys[i]'(by omega)) = true) ∧
      (n = xs.length ∨ ∃ h : n < xs.length, pred xs[n] (ys[n]'(by omega)) = false) := by
  induction hx generalizing first2 ys with
  | nil l => exact ⟨l, first2, 0, by rw [mismatch3]; simp, .zero _, .zero _, by simp, by simp, by simp⟩
  | @cons f m l x xs hne hd hn hr ih =>
    cases hy with
    | nil => simp at hlen
    | @cons _ m' _ y ys hne' hd' hn' hr' =>
      by_cases hp : pred x y
      · obtain ⟨r1, r2, n, h1, h2, h3, h4, h5, h6⟩ := ih hr' (by simpa using hlen)
        refine ⟨r1, r2, n + 1, by rw [mismatch3]; simp [hne, hd, hd', hp, hn, hn', h1],
          .succ hn h2, .succ hn' h3, by simpa using h4, ?_, ?_⟩
        · intro i hi hin
          cases i with
          | zero => simpa using hp
          | succ i => simpa using h5 i (by simpa using hi) (by omega)
        · rcases h6 with h6 | ⟨h6, h7⟩
          · exact .inl (by simpa using h6)
          · exact .inr ⟨by simpa using h6, by simpa using h7⟩
      · exact ⟨f, first2, 0, by rw [mismatch3]; simp [hne, hd, hd', hp], .zero _, .zero _, by simp,
          by simp, .inr ⟨by simp, by simpa using hp⟩⟩

/-- `mismatch` (four iterators): as above, stopping also at the end of the second range. -/
theorem mismatch4_returns_first_difference [DecidableEq ι] [DecidableEq κ] {I : Iter σ ι T}
    {J : Iter σ κ U} {s : σ} {first1 last1 : ι} {first2 last2 : κ} {xs : List T} {ys : List U}
    (hx : I.Range s first1 xs last1) (hy : J.Range s first2 ys last2) (pred : T → U → Bool) :
    ∃ r1 r2 n, mismatch4 I J pred first1 last1 first2 last2 s = .ok ((r1, r2), s) ∧
      I.Reach s first1 n r1 ∧ J.Reach s first2 n r2 ∧ n ≤ xs.length ∧ n ≤ ys.length ∧
      (∀ i (h1 : i < xs.length) (h2 : i < ys.length), i < n → pred xs[i] ys[i] = true) ∧
      (n = xs.length ∨ n = ys.length ∨
        ∃ (h : n < xs.length) (h' : n < ys.length), pred xs[n] ys[n] = false) := by
  induction hx generalizing first2 ys with
  | nil l => exact ⟨l, first2, 0, by rw [mismatch4]; simp, .zero _, .zero _, by simp, by simp,
      by simp, by simp⟩
  | @cons f m l x xs hne hd hn hr ih =>
    cases hy with
    | nil => exact ⟨f, last2, 0, by rw [mismatch4]; simp, .zero _, .zero _, by simp, by simp,
        by simp, by simp⟩
    | @cons _ m' _ y ys hne' hd' hn' hr' =>
      by_cases hp : pred x y
      · obtain ⟨r1, r2, n, h1, h2, h3, h4, h4', h5, h6⟩ := ih hr'
        refine ⟨r1, r2, n + 1, by rw [mismatch4]; simp [hne, hne', hd, hd', hp, hn, hn', h1],
          .succ hn h2, .succ hn' h3, by simpa using h4, by simpa using h4', ?_, ?_⟩
        · intro i hi hi' hin
          cases i with
          | zero => simpa using hp
          | succ i => simpa using h5 i (by simpa using hi) (by simpa using hi') (by omega)
        · rcases h6 with h6 | h6 | ⟨h6, h7, h8⟩
          · exact .inl (by simpa using h6)
          · exact .inr (.inl (by simpa using h6))
          · exact .inr (.inr ⟨by simpa using h6, by simpa using h7, by simpa using h8⟩)
      · exact ⟨f, first2, 0, by rw [mismatch4]; simp [hne, hne', hd, hd', hp], .zero _, .zero _,
          by simp, by simp, by simp, .inr (.inr ⟨by simp, by simp, by simpa using hp⟩)⟩

example : equal4 Mem.ptr Mem.ptr (fun a b => decide (a = b)) 0 2 1 3 (Mem.ofList [7, 7, 7]) =
    .ok (true, Mem.ofList [7, 7, 7]) := by
  have hx : (Mem.ofList [7, 7, 7]).Holds 0 [7, 7] := by
    intro i hi; simp at hi; rcases i with _|_|i <;> first | rfl | omega
  have hy : (Mem.ofList [7, 7, 7]).Holds 1 [7, 7] := by
    intro i hi; simp at hi; rcases i with _|_|i <;> first | rfl | omega
  simpa using equal4_eq_iff hx.range hy.range

/-! ## for_each -/

/-- `for_each` applies the functor to the elements in order and returns it. -/
theorem for_each_applies_in_order {δ : Type} [DecidableEq ι] {I : Iter σ ι T} {s : σ}
    {first last : ι} {xs : List T} (h : I.Range s first xs last) (step : T → δ → δ) (f : δ) :
    forEach I step first last f s = .ok (xs.foldl (fun d x => step x d) f, s) := by
  induction h generalizing f with
  | nil l => rw [forEach]; simp
  | cons hne hd hn hr ih => rw [forEach]; simp [hne, hd, hn, ih]

example : forEach Mem.ptr (fun x d => d ++ [x]) 0 3 [] (Mem.ofList [3, 1, 4]) =
    .ok ([3, 1, 4], Mem.ofList [3, 1, 4]) :=
  for_each_applies_in_order (Mem.holds_ofList [3, 1, 4]).range _ []

/-! ## C68: is_sorted_until, is_sorted -/

/-- Element `i+1` of `xs` exists and is less than element `i`. -/
def DescentAt (lt : T → T → Bool) (xs : List T) (i : Nat) : Prop :=
  ∃ h : i + 1 < xs.length, lt xs[i + 1] xs[i] = true

theorem descentAt_succ {lt : T → T → Bool} {x : T} {xs : List T} {i : Nat} :
    DescentAt lt (x :: xs) (i + 1) ↔ DescentAt lt xs i := by
  constructor
  · rintro ⟨h, hh⟩; exact ⟨by simpa using h, by simpa using hh⟩
  · rintro ⟨h, hh⟩; exact ⟨by simpa using h, by simpa using hh⟩

theorem sortedLoop_spec [DecidableEq ι] {I : Iter σ ι T} {s : σ} {first last : ι} {x : T}
    {xs : List T} (h : I.Range s first (x :: xs) last) (lt : T → T → Bool) :
    ∃ r, sortedLoop I lt first first last s = .ok (r, s) ∧
      ((∃ n, I.Reach s first (n + 1) r ∧ DescentAt lt (x :: xs) n ∧
          ∀ m, m < n → ¬ DescentAt lt (x :: xs) m) ∨
       (r = last ∧ ∀ m, ¬ DescentAt lt (x :: xs) m)) := by
  induction xs generalizing first x with
  | nil =>
    cases h with
    | cons hne hd hn hr =>
      cases hr
      refine ⟨last, by rw [sortedLoop]; simp [hn], .inr ⟨rfl, ?_⟩⟩
      rintro m ⟨h, -⟩; simp at h
  | cons y ys ih =>
    cases h with
    | @cons _ mid _ _ _ hne hd hn hr =>
      obtain ⟨r, h1, h2⟩ := ih hr
      cases hr with
      | cons hne' hd' hn' hr' =>
        by_cases hp : lt y x
        · exact ⟨mid, by rw [sortedLoop]; simp [hn, hne', hd, hd', hp],
            .inl ⟨0, .succ hn (.zero _), ⟨by simp, by simpa using hp⟩, by simp⟩⟩
        · refine ⟨r, by rw [sortedLoop]; simp [hn, hne', hd, hd', hp, h1], ?_⟩
          have no0 : ¬ DescentAt lt (x :: y :: ys) 0 := by
            rintro ⟨_, h⟩; exact hp (by simpa using h)
          rcases h2 with ⟨n, ha, hb, hc⟩ | ⟨ha, hb⟩
          · refine .inl ⟨n + 1, .succ hn ha, descentAt_succ.2 hb, ?_⟩
            intro k hk
            cases k with
            | zero => exact no0
            | succ k => rw [descentAt_succ]; exact hc k (by omega)
          · refine .inr ⟨ha, ?_⟩
            intro k
            cases k with
            | zero => exact no0
            | succ k => rw [descentAt_succ]; exact hb k

/-- `is_sorted_until` returns the position just after the longest prefix without a descent: the
second element of the first descending pair, or `last` if no neighbours descend. -/
theorem is_sorted_until_returns_first_descent [DecidableEq ι] {I : Iter σ ι T} {s : σ}
    {first last : ι} {xs : List T} (h : I.Range s first xs last) (lt : T → T → Bool) :
    ∃ r, isSortedUntil I lt first last s = .ok (r, s) ∧
      ((∃ n, I.Reach s first (n + 1) r ∧ DescentAt lt xs n ∧ ∀ m, m < n → ¬ DescentAt lt xs m) ∨
       (r = last ∧ ∀ m, ¬ DescentAt lt xs m)) := by
  cases h with
  | nil =>
    refine ⟨first, by simp [isSortedUntil], .inr ⟨rfl, ?_⟩⟩
    rintro m ⟨h, -⟩; simp at h
  | cons hne hd hn hr =>
    obtain ⟨r, h1, h2⟩ := sortedLoop_spec (.cons hne hd hn hr) lt
    exact ⟨r, by simp [isSortedUntil, hne, h1], h2⟩

theorem pairwise_iff_noDescent {lt : T → T → Bool} (hlt : StrictWeakOrder lt) (xs : List T) :
    xs.Pairwise (fun a b => lt b a = false) ↔ ∀ m, ¬ DescentAt lt xs m := by
  induction xs with
  | nil =>
    simp only [List.Pairwise.nil, true_iff]
    rintro m ⟨h, -⟩; simp at h
  | cons x xs ih =>
    rw [List.pairwise_cons, ih]
    constructor
    · rintro ⟨h1, h2⟩ m
      cases m with
      | zero =>
        rintro ⟨h, hh⟩
        have := h1 (xs[0]'(by simpa using h)) (List.getElem_mem _)
        simp at hh
        rw [hh] at this; cases this
      | succ m => rw [descentAt_succ]; exact h2 m
    · intro h
      have ht : ∀ m, ¬ DescentAt lt xs m := fun m => by rw [← descentAt_succ (x := x)]; exact h (m + 1)
      refine ⟨?_, ht⟩
      have hp := ih.2 ht
      cases xs with
      | nil => simp
      | cons y ys =>
        have hxy : lt y x = false := by
          cases e : lt y x
          · rfl
          · exact absurd ⟨by simp, by simpa using e⟩ (h 0)
        intro z hz
        rcases List.mem_cons.1 hz with rfl | hz
        · exact hxy
        · exact hlt.negTrans _ _ _ ((List.pairwise_cons.1 hp).1 z hz) hxy

/-- `is_sorted` decides sortedness (no later element is less than an earlier one). -/
theorem is_sorted_iff [DecidableEq ι] {I : Iter σ ι T} {s : σ} {first last : ι}
    {xs : List T} (h : I.Range s first xs last) {lt : T → T → Bool} (hlt : StrictWeakOrder lt) :
    ∃ b, isSorted I lt first last s = .ok (b, s) ∧
      (b = true ↔ xs.Pairwise (fun a b => lt b a = false)) := by
  obtain ⟨r, h1, h2⟩ := is_sorted_until_returns_first_descent h lt
  refine ⟨decide (r = last), by simp [isSorted, h1], ?_⟩
  rw [pairwise_iff_noDescent hlt, decide_eq_true_eq]
  constructor
  · intro e
    rcases h2 with ⟨n, ha, ⟨hb, _⟩, _⟩ | ⟨_, hb⟩
    · exact absurd e (h.ne_end hb ha)
    · exact hb
  · intro hno
    rcases h2 with ⟨n, _, hb, _⟩ | ⟨ha, _⟩
    · exact absurd hb (hno n)
    · exact ha

example : ∃ b, isSorted Mem.ptr (fun a b : Nat => decide (a < b)) 0 3 (Mem.ofList [1, 1, 4]) =
    .ok (b, Mem.ofList [1, 1, 4]) ∧ b = true := by
  obtain ⟨b, h1, h2⟩ := is_sorted_iff (Mem.holds_ofList [1, 1, 4]).range natOrder.toStrictWeak
  exact ⟨b, h1, h2.2 (by simp)⟩

/-! ## C70: min_element, max_element, minmax_element -/

/-- Index `k` holds the first smallest element of `xs`: nothing is smaller, and everything before
it is strictly larger. -/
def FirstMin (lt : T → T → Bool) (xs : List T) (k : Nat) : Prop :=
  ∃ h : k < xs.length, (∀ i (hi : i < xs.length), lt xs[i] xs[k] = false) ∧
    ∀ i (hi : i < k), lt xs[k] xs[i] = true

/-- Index `k` holds the first largest element of `xs`. -/
def FirstMax (lt : T → T → Bool) (xs : List T) (k : Nat) : Prop :=
  ∃ h : k < xs.length, (∀ i (hi : i < xs.length), lt xs[k] xs[i] = false) ∧
    ∀ i (hi : i < k), lt xs[i] xs[k] = true

/-- Appending an element not smaller than the current minimum keeps the index. -/
theorem FirstMin.keep {lt : T → T → Bool} {xs : List T} {k : Nat} {x : T}
    (h : FirstMin lt xs k) (hx : lt x (xs[k]'h.1) = false) : FirstMin lt (xs ++ [x]) k := by
  obtain ⟨hk, h1, h2⟩ := h
  refine ⟨by simp; omega, ?_, ?_⟩
  · intro i hi
    rw [List.getElem_append_left hk]
    by_cases hi' : i < xs.length
    · rw [List.getElem_append_left hi']; exact h1 i hi'
    · have : i = xs.length := by simp at hi; omega
      subst this
      simpa using hx
  · intro i hi
    rw [List.getElem_append_left hk, List.getElem_append_left (by omega)]
    exact h2 i hi

theorem FirstMin.replace {lt : T → T → Bool} (hlt : StrictWeakOrder lt) {xs : List T} {k : Nat}
    {x : T} (h : FirstMin lt xs k) (hx : lt x (xs[k]'h.1) = true) :
    FirstMin lt (xs ++ [x]) xs.length := by
  obtain ⟨hk, h1, h2⟩ := h
  have hlt' : ∀ i (hi : i < xs.length), lt x xs[i] = true := fun i hi =>
    hlt.lt_of_lt_of_not_lt hx (h1 i hi)
  refine ⟨by simp, ?_, ?_⟩
  · intro i hi
    simp only [List.getElem_concat_length]
    by_cases hi' : i < xs.length
    · rw [List.getElem_append_left hi']; exact hlt.asymm (hlt' i hi')
    · have : i = xs.length := by simp at hi; omega
      subst this
      simpa using hlt.irrefl x
  · intro i hi
    simp only [List.getElem_concat_length]
    rw [List.getElem_append_left hi]
    exact hlt' i hi

theorem FirstMax.keep {lt : T → T → Bool} {xs : List T} {k : Nat} {x : T}
    (h : FirstMax lt xs k) (hx : lt (xs[k]'h.1) x = false) : FirstMax lt (xs ++ [x]) k := by
  obtain ⟨hk, h1, h2⟩ := h
  refine ⟨by simp; omega, ?_, ?_⟩
  · intro i hi
    rw [List.getElem_append_left hk]
    by_cases hi' : i < xs.length
    · rw [List.getElem_append_left hi']; exact h1 i hi'
    · have : i = xs.length := by simp at hi; omega
      subst this
      simpa using hx
  · intro i hi
    rw [List.getElem_append_left hk, List.getElem_append_left (by omega)]
    exact h2 i hi

theorem FirstMax.replace {lt : T → T → Bool} (hlt : StrictWeakOrder lt) {xs : List T} {k : Nat}
    {x : T} (h : FirstMax lt xs k) (hx : lt (xs[k]'h.1) x = true) :
    FirstMax lt (xs ++ [x]) xs.length := by
  obtain ⟨hk, h1, h2⟩ := h
  have hlt' : ∀ i (hi : i < xs.length), lt xs[i] x = true := fun i hi =>
    hlt.lt_of_not_lt_of_lt (h1 i hi) hx
  refine ⟨by simp, ?_, ?_⟩
  · intro i hi
    simp only [List.getElem_concat_length]
    by_cases hi' : i < xs.length
    · rw [List.getElem_append_left hi']; exact hlt.asymm (hlt' i hi')
    · have : i = xs.length := by simp at hi; omega
      subst this
      simpa using hlt.irrefl x
  · intro i hi
    simp only [List.getElem_concat_length]
    rw [List.getElem_append_left hi]
    exact hlt' i hi

theorem minLoop_spec [DecidableEq ι] {I : Iter σ ι T} {s : σ} {beg first last smallest : ι}
    {pre xs : List T} {k : Nat} {lt : T → T → Bool} (hlt : StrictWeakOrder lt)
    (h : I.Range s first xs last) (hf : I.Reach s beg pre.length first)
    (hs : I.Reach s beg k smallest) (hmin : FirstMin lt pre k)
    (hd : I.deref smallest s = .ok (pre[k]'hmin.1, s)) :
    ∃ r n, minLoop I lt first last smallest s = .ok (r, s) ∧ I.Reach s beg n r ∧
      FirstMin lt (pre ++ xs) n := by
  induction h generalizing pre k smallest with
  | nil l => exact ⟨smallest, k, by rw [minLoop]; simp, hs, by simpa using hmin⟩
  | @cons f m l x xs hne hdf hn hr ih =>
    have hf' : I.Reach s beg (pre ++ [x]).length m := by simpa using hf.snoc hn
    by_cases hp : lt x (pre[k]'hmin.1)
    · obtain ⟨r, n, h1, h2, h3⟩ := ih hf' hf (hmin.replace hlt hp)
        (by simpa using hdf)
      exact ⟨r, n, by rw [minLoop]; simp [hne, hdf, hd, hp, hn, h1], h2, by simpa using h3⟩
    · obtain ⟨r, n, h1, h2, h3⟩ := ih hf' hs (hmin.keep (by simpa using hp))
        (by rw [List.getElem_append_left hmin.1]; exact hd)
      exact ⟨r, n, by rw [minLoop]; simp [hne, hdf, hd, hp, hn, h1], h2, by simpa using h3⟩

/-- `min_element` of a non-empty range returns the position of the first smallest element; of an
empty range, `last`. -/
theorem min_element_returns_first_min [DecidableEq ι] {I : Iter σ ι T} {s : σ} {first last : ι}
    {xs : List T} (h : I.Range s first xs last) {lt : T → T → Bool} (hlt : StrictWeakOrder lt) :
    ∃ r, minElement I lt first last s = .ok (r, s) ∧
      (xs = [] → r = last) ∧ (xs ≠ [] → ∃ k, I.Reach s first k r ∧ FirstMin lt xs k) := by
  cases h with
  | nil => exact ⟨first, by simp [minElement], by simp, by simp⟩
  | @cons _ m _ x xs hne hd hn hr =>
    obtain ⟨r, k, h1, h2, h3⟩ := minLoop_spec (beg := first) (pre := [x]) (k := 0) hlt hr
      (.succ hn (.zero _)) (.zero _)
      ⟨by simp, by intro i hi; simp at hi; subst hi; simpa using hlt.irrefl x, by simp⟩ hd
    exact ⟨r, by simp [minElement, hne, hn, h1], by simp, fun _ => ⟨k, h2, h3⟩⟩

theorem maxLoop_spec [DecidableEq ι] {I : Iter σ ι T} {s : σ} {beg first last largest : ι}
    {pre xs : List T} {k : Nat} {lt : T → T → Bool} (hlt : StrictWeakOrder lt)
    (h : I.Range s first xs last) (hf : I.Reach s beg pre.length first)
    (hs : I.Reach s beg k largest) (hmax : FirstMax lt pre k)
    (hd : I.deref largest s = .ok (pre[k]'hmax.1, s)) :
    ∃ r n, maxLoop I lt first last largest s = .ok (r, s) ∧ I.Reach s beg n r ∧
      FirstMax lt (pre ++ xs) n := by
  induction h generalizing pre k largest with
  | nil l => exact ⟨largest, k, by rw [maxLoop]; simp, hs, by simpa using hmax⟩
  | @cons f m l x xs hne hdf hn hr ih =>
    have hf' : I.Reach s beg (pre ++ [x]).length m := by simpa using hf.snoc hn
    by_cases hp : lt (pre[k]'hmax.1) x
    · obtain ⟨r, n, h1, h2, h3⟩ := ih hf' hf (hmax.replace hlt hp)
        (by simpa using hdf)
      exact ⟨r, n, by rw [maxLoop]; simp [hne, hdf, hd, hp, hn, h1], h2, by simpa using h3⟩
    · obtain ⟨r, n, h1, h2, h3⟩ := ih hf' hs (hmax.keep (by simpa using hp))
        (by rw [List.getElem_append_left hmax.1]; exact hd)
      exact ⟨r, n, by rw [maxLoop]; simp [hne, hdf, hd, hp, hn, h1], h2, by simpa using h3⟩

/-- `max_element` of a non-empty range returns the position of the first largest element; of an
empty range, `last`. -/
theorem max_element_returns_first_max [DecidableEq ι] {I : Iter σ ι T} {s : σ} {first last : ι}
    {xs : List T} (h : I.Range s first xs last) {lt : T → T → Bool} (hlt : StrictWeakOrder lt) :
    ∃ r, maxElement I lt first last s = .ok (r, s) ∧
      (xs = [] → r = last) ∧ (xs ≠ [] → ∃ k, I.Reach s first k r ∧ FirstMax lt xs k) := by
  cases h with
  | nil => exact ⟨first, by simp [maxElement], by simp, by simp⟩
  | @cons _ m _ x xs hne hd hn hr =>
    obtain ⟨r, k, h1, h2, h3⟩ := maxLoop_spec (beg := first) (pre := [x]) (k := 0) hlt hr
      (.succ hn (.zero _)) (.zero _)
      ⟨by simp, by intro i hi; simp at hi; subst hi; simpa using hlt.irrefl x, by simp⟩ hd
    exact ⟨r, by simp [maxElement, hne, hn, h1], by simp, fun _ => ⟨k, h2, h3⟩⟩

/-- `minmax_element` returns the first smallest and the first largest position. (The C++ standard's
`std::minmax_element` would return the *last* largest one.) -/
theorem minmax_element_returns_extrema [DecidableEq ι] {I : Iter σ ι T} {s : σ} {first last : ι}
    {xs : List T} (h : I.Range s first xs last) {lt : T → T → Bool} (hlt : StrictWeakOrder lt) :
    ∃ a b, minmaxElement I lt first last s = .ok ((a, b), s) ∧
      (xs = [] → a = last ∧ b = last) ∧
      (xs ≠ [] → (∃ k, I.Reach s first k a ∧ FirstMin lt xs k) ∧
        (∃ k, I.Reach s first k b ∧ FirstMax lt xs k)) := by
  obtain ⟨a, h1, h2, h3⟩ := min_element_returns_first_min h hlt
  obtain ⟨b, h4, h5, h6⟩ := max_element_returns_first_max h hlt
  exact ⟨a, b, by simp [minmaxElement, h1, h4], fun e => ⟨h2 e, h5 e⟩, fun e => ⟨h3 e, h6 e⟩⟩

/-- The first minimum is unique, so `FirstMin` pins the result down. -/
theorem FirstMin.unique {lt : T → T → Bool} {xs : List T} {k k' : Nat} (h : FirstMin lt xs k)
    (h' : FirstMin lt xs k') : k = k' := by
  obtain ⟨hk, h1, h2⟩ := h
  obtain ⟨hk', h1', h2'⟩ := h'
  rcases Nat.lt_trichotomy k k' with hl | hl | hl
  · have a := h2' k hl; have b := h1 k' hk'; rw [a] at b; cases b
  · exact hl
  · have a := h2 k' hl; have b := h1' k hk; rw [a] at b; cases b

/-- Concrete instance: in `[3,1,4,1]` the first smallest element is at index 1. -/
example : ∃ r, minElement Mem.ptr (fun a b : Nat => decide (a < b)) 0 4 (Mem.ofList [3, 1, 4, 1]) =
    .ok (r, Mem.ofList [3, 1, 4, 1]) ∧ r = 1 := by
  obtain ⟨r, h1, _, h3⟩ := min_element_returns_first_min (Mem.holds_ofList [3, 1, 4, 1]).range
    natOrder.toStrictWeak
  obtain ⟨k, hk, hm⟩ := h3 (by simp)
  have : FirstMin (fun a b : Nat => decide (a < b)) [3, 1, 4, 1] 1 := by
    refine ⟨by decide, ?_, ?_⟩
    · intro i hi; simp at hi; rcases i with _|_|_|_|i <;> first | rfl | omega
    · intro i hi; obtain rfl : i = 0 := by omega
      rfl
  have := hm.unique this
  have := Mem.ptr_reach hk
  exact ⟨r, h1, by omega⟩

/-! ## C71: min, max, minmax -/

/-- `min` returns one of its arguments, and neither argument is less than the result. -/
theorem min_is_minimum {lt : T → T → Bool} (hlt : StrictWeakOrder lt) (a b : T) :
    (min lt a b = a ∨ min lt a b = b) ∧ lt a (min lt a b) = false ∧ lt b (min lt a b) = false := by
  unfold min
  split
  · rename_i h; exact ⟨.inl rfl, hlt.irrefl a, hlt.asymm h⟩
  · rename_i h; exact ⟨.inr rfl, by simpa using h, hlt.irrefl b⟩

/-- `max` returns one of its arguments, and the result is less than neither argument. -/
theorem max_is_maximum {lt : T → T → Bool} (hlt : StrictWeakOrder lt) (a b : T) :
    (max lt a b = a ∨ max lt a b = b) ∧ lt (max lt a b) a = false ∧ lt (max lt a b) b = false := by
  unfold max
  split
  · rename_i h; exact ⟨.inr rfl, hlt.asymm h, hlt.irrefl b⟩
  · rename_i h; exact ⟨.inl rfl, hlt.irrefl a, by simpa using h⟩

/-- `minmax` returns both arguments, the second not less than the first, keeping the order of
equivalent arguments. -/
theorem minmax_orders {lt : T → T → Bool} (a b : T) :
    (minmax lt a b = (a, b) ∧ lt b a = false) ∨ (minmax lt a b = (b, a) ∧ lt b a = true) := by
  unfold minmax
  split
  · rename_i h; exact .inr ⟨rfl, h⟩
  · rename_i h; exact .inl ⟨rfl, by simpa using h⟩

/-- Deviation from the C++ standard (which asks for the first argument on ties): for two
equivalent arguments `ttl::min` returns the second. -/
theorem min_tie_returns_second {lt : T → T → Bool} (a b : T) (h : lt a b = false) :
    min lt a b = b := by simp [min, h]

example : min (fun a b : Nat × Nat => decide (a.1 < b.1)) (1, 0) (1, 9) = (1, 9) :=
  min_tie_returns_second _ _ (by decide)

end Verif.Algo
