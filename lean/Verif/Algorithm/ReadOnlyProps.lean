import Verif.Algorithm.ReadOnly
import Verif.Algorithm.Cells
/-!
# Properties of the non-modifying algorithms

Every theorem quantifies over all memories, all iterator types (any model iterator `I`), all valid
ranges of any length and all value predicates. "`= .ok (r, s)`" says that the call returns `r`,
terminates, and leaves memory `s` unchanged.
-/
set_option linter.unusedSimpArgs false
namespace Verif.Algo
open Verif Iter
variable {σ ι κ T U : Type}

/-! ## C55: find, find_if, find_if_not -/

/-- `find_if` returns the position whose distance from `first` is the index of the first element
satisfying `p` (the number of elements, i.e. `last`, when there is none). -/
theorem find_if_returns_first_match [DecidableEq ι] {I : Iter σ ι T} {s : σ} {first last : ι}
    {xs : List T} (h : I.Range s first xs last) (p : T → Bool) :
    ∃ r, findIf I p first last s = .ok (r, s) ∧ I.Reach s first (xs.findIdx p) r := by
  induction h with
  | nil l => exact ⟨l, by rw [findIf]; simp, .zero _⟩
  | @cons f m l x xs hne hd hn hr ih =>
    obtain ⟨r, h1, h2⟩ := ih
    by_cases hp : p x
    · exact ⟨f, by rw [findIf]; simp [hne, hd, hp], by simp [List.findIdx_cons, hp]; exact .zero _⟩
    · refine ⟨r, by rw [findIf]; simp [hne, hd, hp, hn, h1], ?_⟩
      simp [List.findIdx_cons, hp]
      exact .succ hn h2

/-- `find` is `find_if` for equality with the value. -/
theorem find_returns_first_match [DecidableEq ι] {I : Iter σ ι T} {s : σ} {first last : ι}
    {xs : List T} (h : I.Range s first xs last) (eq : T → U → Bool) (v : U) :
    ∃ r, find I eq first last v s = .ok (r, s) ∧
      I.Reach s first (xs.findIdx fun x => eq x v) r := by
  induction h with
  | nil l => exact ⟨l, by rw [find]; simp, .zero _⟩
  | @cons f m l x xs hne hd hn hr ih =>
    obtain ⟨r, h1, h2⟩ := ih
    by_cases hp : eq x v
    · exact ⟨f, by rw [find]; simp [hne, hd, hp], by simp [List.findIdx_cons, hp]; exact .zero _⟩
    · refine ⟨r, by rw [find]; simp [hne, hd, hp, hn, h1], ?_⟩
      simp [List.findIdx_cons, hp]
      exact .succ hn h2

/-- `find_if_not` returns the first position whose element does not satisfy `p`. -/
theorem find_if_not_returns_first_mismatch [DecidableEq ι] {I : Iter σ ι T} {s : σ}
    {first last : ι} {xs : List T} (h : I.Range s first xs last) (p : T → Bool) :
    ∃ r, findIfNot I p first last s = .ok (r, s) ∧
      I.Reach s first (xs.findIdx fun x => !p x) r := by
  induction h with
  | nil l => exact ⟨l, by rw [findIfNot]; simp, .zero _⟩
  | @cons f m l x xs hne hd hn hr ih =>
    obtain ⟨r, h1, h2⟩ := ih
    by_cases hp : p x
    · refine ⟨r, by rw [findIfNot]; simp [hne, hd, hp, hn, h1], ?_⟩
      simp [List.findIdx_cons, hp]
      exact .succ hn h2
    · exact ⟨f, by rw [findIfNot]; simp [hne, hd, hp],
        by simp [List.findIdx_cons, hp]; exact .zero _⟩

/-- Concrete instance: a pointer range over `[3,1,4,1,5]`, looking for `1`. -/
example : ∃ r, find Mem.ptr (fun a b => a == b) 0 5 1 (Mem.ofList [3, 1, 4, 1, 5]) =
    .ok (r, Mem.ofList [3, 1, 4, 1, 5]) ∧ r = 1 := by
  obtain ⟨r, h1, h2⟩ := find_returns_first_match (Mem.holds_ofList [3, 1, 4, 1, 5]).range
    (fun a b : Nat => a == b) 1
  exact ⟨r, h1, Mem.ptr_reach h2⟩

/-! ## C56: all_of, any_of, none_of -/

theorem all_of_iff [DecidableEq ι] {I : Iter σ ι T} {s : σ} {first last : ι}
    {xs : List T} (h : I.Range s first xs last) (p : T → Bool) :
    ∃ b, allOf I p first last s = .ok (b, s) ∧ (b = true ↔ ∀ x ∈ xs, p x = true) := by
  obtain ⟨r, h1, h2⟩ := find_if_not_returns_first_mismatch h p
  refine ⟨decide (r = last), by simp [allOf, h1], ?_⟩
  simp only [decide_eq_true_eq]
  constructor
  · intro e x hx
    apply Classical.byContradiction
    intro hnp
    have hlt : xs.findIdx (fun x => !p x) < xs.length :=
      List.findIdx_lt_length_of_exists ⟨x, hx, by simpa using hnp⟩
    exact h.ne_end hlt h2 e
  · intro hall
    have : xs.findIdx (fun x => !p x) = xs.length := by
      rw [List.findIdx_eq_length]; intro x hx; simp [hall x hx]
    rw [this] at h2
    exact h2.unique h.reach_end

theorem any_of_iff [DecidableEq ι] {I : Iter σ ι T} {s : σ} {first last : ι}
    {xs : List T} (h : I.Range s first xs last) (p : T → Bool) :
    ∃ b, anyOf I p first last s = .ok (b, s) ∧ (b = true ↔ ∃ x ∈ xs, p x = true) := by
  obtain ⟨r, h1, h2⟩ := find_if_returns_first_match h p
  refine ⟨decide (r ≠ last), by simp [anyOf, h1], ?_⟩
  simp only [decide_eq_true_eq]
  constructor
  · intro e
    apply Classical.byContradiction
    intro hnp
    have : xs.findIdx p = xs.length := by
      rw [List.findIdx_eq_length]; intro x hx
      simpa using fun hp => hnp ⟨x, hx, hp⟩
    rw [this] at h2
    exact e (h2.unique h.reach_end)
  · rintro ⟨x, hx, hp⟩
    exact h.ne_end (List.findIdx_lt_length_of_exists ⟨x, hx, hp⟩) h2

theorem none_of_iff [DecidableEq ι] {I : Iter σ ι T} {s : σ} {first last : ι}
    {xs : List T} (h : I.Range s first xs last) (p : T → Bool) :
    ∃ b, noneOf I p first last s = .ok (b, s) ∧ (b = true ↔ ∀ x ∈ xs, p x = false) := by
  obtain ⟨r, h1, h2⟩ := find_if_returns_first_match h p
  refine ⟨decide (r = last), by simp [noneOf, h1], ?_⟩
  simp only [decide_eq_true_eq]
  constructor
  · intro e x hx
    apply Classical.byContradiction
    intro hnp
    exact h.ne_end (List.findIdx_lt_length_of_exists ⟨x, hx, by simpa using hnp⟩) h2 e
  · intro hall
    have : xs.findIdx p = xs.length := by
      rw [List.findIdx_eq_length]; intro x hx; simp [hall x hx]
    rw [this] at h2
    exact h2.unique h.reach_end

example : ∃ b, anyOf Mem.ptr (fun x => x % 2 == 0) 0 3 (Mem.ofList [3, 1, 4]) =
    .ok (b, Mem.ofList [3, 1, 4]) ∧ b = true := by
  obtain ⟨b, h1, h2⟩ := any_of_iff (Mem.holds_ofList [3, 1, 4]).range (fun x => x % 2 == 0)
  exact ⟨b, h1, h2.2 ⟨4, by simp, by decide⟩⟩

/-! ## C57: count, count_if -/

theorem countLoop_spec [DecidableEq ι] {I : Iter σ ι T} {s : σ} {first last : ι}
    {xs : List T} (h : I.Range s first xs last) (p : T → Bool) (c : Nat)
    (hb : c + xs.countP p < 2147483648) :
    countLoop I p first last c s = .ok (((c + xs.countP p : Nat) : Int), s) := by
  induction h generalizing c with
  | nil l => rw [countLoop]; simp
  | @cons f m l x xs hne hd hn hr ih =>
    rw [countLoop]
    by_cases hp : p x
    · simp only [List.countP_cons, hp] at hb
      simp only [if_true] at hb
      have := ih (c + 1) (by omega)
      have h' : (c : Int) + 1 < 2147483648 := by omega
      simp [hne, hd, hp, incInt, h', hn, List.countP_cons]
      rw [show ((c : Int) + 1) = ((c + 1 : Nat) : Int) by simp, this]
      congr 2; omega
    · have := ih c (by simpa [List.countP_cons, hp] using hb)
      simp [hne, hd, hp, hn, List.countP_cons, this]

/-- `count_if` returns the number of matching elements when that number fits an `int`. -/
theorem count_if_counts [DecidableEq ι] {I : Iter σ ι T} {s : σ} {first last : ι}
    {xs : List T} (h : I.Range s first xs last) (p : T → Bool)
    (hb : xs.countP p < 2147483648) :
    countIf I p first last s = .ok ((xs.countP p : Int), s) := by
  simpa [countIf] using countLoop_spec h p 0 (by simpa using hb)

theorem count_counts [DecidableEq ι] {I : Iter σ ι T} {s : σ} {first last : ι}
    {xs : List T} (h : I.Range s first xs last) (eq : T → U → Bool) (v : U)
    (hb : xs.countP (fun x => eq x v) < 2147483648) :
    count I eq first last v s = .ok ((xs.countP (fun x => eq x v) : Int), s) := by
  simpa [count] using countLoop_spec h (fun x => eq x v) 0 (by simpa using hb)

/-- The bound is sharp: with 2^31 or more matches the `int` counter overflows, which is undefined
behaviour. -/
theorem count_if_overflow [DecidableEq ι] {I : Iter σ ι T} {s : σ} {first last : ι}
    {xs : List T} (h : I.Range s first xs last) (p : T → Bool)
    (hb : 2147483648 ≤ xs.countP p) :
    countIf I p first last s = .ub .arith := by
  have key : ∀ (c : Nat), c < 2147483648 → 2147483648 ≤ c + xs.countP p →
      countLoop I p first last c s = .ub .arith := by
    clear hb
    induction h with
    | nil l => intro c h1 h2; simp at h2; omega
    | @cons f m l x xs hne hd hn hr ih =>
      intro c h1 h2
      rw [countLoop]
      by_cases hp : p x
      · simp only [List.countP_cons, hp, if_true] at h2
        by_cases h' : (c : Int) + 1 < 2147483648
        · have := ih (c + 1) (by omega) (by omega)
          simp [hne, hd, hp, incInt, h', hn]
          rw [show ((c : Int) + 1) = ((c + 1 : Nat) : Int) by simp, this]
        · simp [hne, hd, hp, incInt, h']
      · have := ih c h1 (by simpa [List.countP_cons, hp] using h2)
        simp [hne, hd, hp, hn, this]
  exact key 0 (by omega) (by omega)

example : count Mem.ptr (fun a b => a == b) 0 5 1 (Mem.ofList [3, 1, 4, 1, 5]) =
    .ok (2, Mem.ofList [3, 1, 4, 1, 5]) := by
  have := count_counts (Mem.holds_ofList [3, 1, 4, 1, 5]).range (fun a b : Nat => a == b) 1
    (by decide)
  simpa using this

/-! ## C58: search -/

/-- The pattern `ys` occurs in `xs` at index `i` (element-wise under `pred`). -/
def OccursAt (pred : T → U → Bool) (xs : List T) (ys : List U) (i : Nat) : Prop :=
  ∃ h : i + ys.length ≤ xs.length, ∀ j (hj : j < ys.length), pred xs[i + j] ys[j] = true

/-- Inner loop: decides whether the pattern is a prefix. -/
theorem searchInner_spec [DecidableEq ι] [DecidableEq κ] {I : Iter σ ι T} {J : Iter σ κ U}
    {s : σ} {i last : ι} {j sublast : κ} {xs : List T} {ys : List U}
    (hx : I.Range s i xs last) (hy : J.Range s j ys sublast) (pred : T → U → Bool) :
    ∃ r, searchInner I J pred i last j sublast s = .ok (r, s) ∧
      (r = .found → OccursAt pred xs ys 0) ∧
      (r = .exhausted → xs.length < ys.length) ∧
      (r = .miss → ¬ OccursAt pred xs ys 0 ∧ xs ≠ []) := by
  induction hy generalizing i xs with
  | nil l => exact ⟨.found, by rw [searchInner]; simp, fun _ => ⟨by simp, by simp⟩, by simp, by simp⟩
  | @cons f m l y ys hne hd hn hr ih =>
    cases hx with
    | nil => exact ⟨.exhausted, by rw [searchInner]; simp [hne], by simp, by simp, by simp⟩
    | @cons _ m' _ x xs hne' hd' hn' hr' =>
      by_cases hp : pred x y
      · obtain ⟨r, h1, h2, h3, h4⟩ := ih hr'
        refine ⟨r, by rw [searchInner]; simp [hne, hne', hd, hd', hp, hn, hn', h1], ?_, ?_, ?_⟩
        · intro e
          obtain ⟨h, hh⟩ := h2 e
          refine ⟨by simp at h ⊢; omega, ?_⟩
          intro k hk
          cases k with
          | zero => simpa using hp
          | succ k => simpa using hh k (by simpa using hk)
        · intro e; have := h3 e; simp; omega
        · intro e
          refine ⟨?_, by simp⟩
          rintro ⟨h, hh⟩
          refine (h4 e).1 ⟨by simp at h ⊢; omega, ?_⟩
          intro k hk
          have := hh (k + 1) (by simpa using hk)
          simpa using this
      · refine ⟨.miss, by rw [searchInner]; simp [hne, hne', hd, hd', hp], by simp, by simp, ?_⟩
        intro _
        refine ⟨?_, by simp⟩
        rintro ⟨h, hh⟩
        exact hp (hh 0 (by simp))

theorem occursAt_succ {pred : T → U → Bool} {x : T} {xs : List T} {ys : List U} {i : Nat} :
    OccursAt pred (x :: xs) ys (i + 1) ↔ OccursAt pred xs ys i := by
  constructor
  · rintro ⟨h, hh⟩
    refine ⟨by simp at h; omega, fun j hj => ?_⟩
    have := hh j hj
    simpa [Nat.add_right_comm] using this
  · rintro ⟨h, hh⟩
    refine ⟨by simp; omega, fun j hj => ?_⟩
    have := hh j hj
    simpa [Nat.add_right_comm] using this

/-- `search` returns the first position at which the pattern occurs, or `last` if it occurs
nowhere. (An empty pattern occurs at index 0.) -/
theorem search_returns_first_occurrence [DecidableEq ι] [DecidableEq κ] {I : Iter σ ι T}
    {J : Iter σ κ U} {s : σ} {first last : ι} {subfirst sublast : κ} {xs : List T} {ys : List U}
    (hx : I.Range s first xs last) (hy : J.Range s subfirst ys sublast) (pred : T → U → Bool) :
    ∃ r, search I J pred first last subfirst sublast s = .ok (r, s) ∧
      ((∃ n, I.Reach s first n r ∧ OccursAt pred xs ys n ∧ ∀ m, m < n → ¬ OccursAt pred xs ys m) ∨
       (r = last ∧ ∀ m, ¬ OccursAt pred xs ys m)) := by
  induction xs generalizing first with
  | nil =>
    cases hx
    obtain ⟨r, h1, h2, h3, h4⟩ := searchInner_spec (.nil last) hy pred (I := I)
    cases r with
    | found => exact ⟨last, by rw [search]; simp [h1], .inl ⟨0, .zero _, h2 rfl, by simp⟩⟩
    | exhausted =>
      refine ⟨last, by rw [search]; simp [h1], .inr ⟨rfl, ?_⟩⟩
      rintro m ⟨h, -⟩
      have := h3 rfl
      simp at h; simp [h.2] at this
    | miss => exact absurd rfl (h4 rfl).2
  | cons x xs ih =>
    obtain ⟨r, h1, h2, h3, h4⟩ := searchInner_spec hx hy pred
    cases r with
    | found => exact ⟨first, by rw [search]; simp [h1], .inl ⟨0, .zero _, h2 rfl, by simp⟩⟩
    | exhausted =>
      refine ⟨last, by rw [search]; simp [h1], .inr ⟨rfl, ?_⟩⟩
      rintro m ⟨h, -⟩
      have := h3 rfl
      simp at h this; omega
    | miss =>
      cases hx with
      | @cons _ mid _ _ _ hne hd hn hr =>
        obtain ⟨r, hr1, hr2⟩ := ih hr
        refine ⟨r, by rw [search]; simp [h1, hn, hr1], ?_⟩
        rcases hr2 with ⟨n, ha, hb, hc⟩ | ⟨ha, hb⟩
        · refine .inl ⟨n + 1, .succ hn ha, occursAt_succ.2 hb, ?_⟩
          intro m hm
          cases m with
          | zero => exact (h4 rfl).1
          | succ m => rw [occursAt_succ]; exact hc m (by omega)
        · refine .inr ⟨ha, ?_⟩
          intro m
          cases m with
          | zero => exact (h4 rfl).1
          | succ m => rw [occursAt_succ]; exact hb m

/-- Concrete instance: `[1,2]` in `[0,1,1,2,9]` (pattern stored behind the text). -/
example : ∃ r, search Mem.ptr Mem.ptr (fun a b => a == b) 0 5 5 7
    (Mem.ofList [0, 1, 1, 2, 9, 1, 2]) = .ok (r, Mem.ofList [0, 1, 1, 2, 9, 1, 2]) ∧ r = 2 := by
  have hx : (Mem.ofList [0, 1, 1, 2, 9, 1, 2]).Holds 0 [0, 1, 1, 2, 9] := by
    intro i hi; simp at hi; rcases i with _|_|_|_|_|i <;> first | rfl | omega
  have hy : (Mem.ofList [0, 1, 1, 2, 9, 1, 2]).Holds 5 [1, 2] := by
    intro i hi; simp at hi; rcases i with _|_|i <;> first | rfl | omega
  obtain ⟨r, h1, h2⟩ := search_returns_first_occurrence hx.range hy.range (fun a b : Nat => a == b)
  refine ⟨r, h1, ?_⟩
  have o2 : OccursAt (fun a b : Nat => a == b) [0, 1, 1, 2, 9] [1, 2] 2 :=
    ⟨by decide, by intro j hj; simp at hj; rcases j with _|_|j <;> first | rfl | omega⟩
  rcases h2 with ⟨n, ha, hb, hc⟩ | ⟨_, hb⟩
  · have := Mem.ptr_reach ha
    have n2 : ¬ 2 < n := fun h => hc 2 h o2
    rcases n with _|_|_|n
    · obtain ⟨_, hh⟩ := hb; have := hh 0 (by decide); simp at this
    · obtain ⟨_, hh⟩ := hb; have := hh 1 (by decide); simp at this
    · omega
    · omega
  · exact absurd o2 (hb 2)

/-! ## C59: search_n -/

/-- `n` consecutive elements of `xs` starting at index `i` satisfy `m`. -/
def RunAt (m : T → Bool) (n : Nat) (xs : List T) (i : Nat) : Prop :=
  ∃ h : i + n ≤ xs.length, ∀ j (hj : j < n), m (xs[i + j]'(by omega)) = true

theorem runAt_succ {m : T → Bool} {n : Nat} {x : T} {xs : List T} {i : Nat} :
    RunAt m n (x :: xs) (i + 1) ↔ RunAt m n xs i := by
  constructor
  · rintro ⟨h, hh⟩
    refine ⟨by simp at h; omega, fun j hj => ?_⟩
    have := hh j hj
    simpa [Nat.add_right_comm] using this
  · rintro ⟨h, hh⟩
    refine ⟨by simp; omega, fun j hj => ?_⟩
    have := hh j hj
    simpa [Nat.add_right_comm] using this

/-- Inner loop, started on a matching element with `k` more matches needed: either the next `k`
elements match, or the range ends too early, or the first non-matching element is at distance
`d + 1` with the `d` elements before it matching. -/
theorem searchNInner_spec [DecidableEq ι] {I : Iter σ ι T} {s : σ} {f last : ι} {x : T}
    {xs : List T} (h : I.Range s f (x :: xs) last) (m : T → Bool) (c k : Nat) :
    ∃ r, searchNInner I m f last c ((c + k : Nat) : Int) s = .ok (r, s) ∧
      ((r = .complete ∧ k ≤ xs.length ∧ ∀ j (hj : j < xs.length), j < k → m xs[j] = true) ∨
       (r = .ended ∧ xs.length < k) ∨
       (∃ p pre y post, r = .broke p ∧ xs = pre ++ y :: post ∧ pre.length < k ∧ m y = false ∧
          I.Reach s f (pre.length + 1) p ∧ I.Range s p (y :: post) last)) := by
  induction k generalizing f x xs c with
  | zero => exact ⟨.complete, by rw [searchNInner]; simp, .inl ⟨rfl, by simp, by simp⟩⟩
  | succ k ih =>
    have hck : ¬ ((c : Int) = ((c + (k + 1) : Nat) : Int)) := by omega
    cases h with
    | @cons _ f' _ _ _ hne hd hn hr =>
      cases hr with
      | nil =>
        exact ⟨.ended, by rw [searchNInner]; rw [Prog.ite_app, if_neg hck]; simp [hn],
          .inr (.inl ⟨rfl, by simp⟩)⟩
      | @cons _ _ _ y ys hne' hd' hn' hr' =>
        by_cases hm : m y
        · obtain ⟨r, h1, h2⟩ := ih (.cons hne' hd' hn' hr') (c + 1)
          refine ⟨r, ?_, ?_⟩
          · rw [searchNInner, Prog.ite_app, if_neg hck]
            simp only [Prog.bind_app, hn, Res.bind_ok, Prog.ite_app, if_neg hne', hd', hm]
            simp only [Bool.not_true, Bool.false_eq_true, if_false]
            rw [show ((c : Int) + 1) = ((c + 1 : Nat) : Int) by simp,
              show c + (k + 1) = c + 1 + k by omega]
            exact h1
          · rcases h2 with ⟨e, hk, hh⟩ | ⟨e, hk⟩ | ⟨p, pre, z, post, e, hxs, hl, hz, hre, hra⟩
            · refine .inl ⟨e, by simp; omega, ?_⟩
              intro j hj hjk
              cases j with
              | zero => simpa using hm
              | succ j => simpa using hh j (by simpa using hj) (by omega)
            · exact .inr (.inl ⟨e, by simp; omega⟩)
            · exact .inr (.inr ⟨p, y :: pre, z, post, e, by simp [hxs], by simp; omega, hz,
                .succ hn hre, hra⟩)
        · refine ⟨.broke f', ?_, .inr (.inr ⟨f', [], y, ys, rfl, by simp, by simp, by simpa using hm,
            .succ hn (.zero _), .cons hne' hd' hn' hr'⟩)⟩
          rw [searchNInner, Prog.ite_app, if_neg hck]
          simp [hn, hne', hd', hm]

/-- No run of length `n ≥ 1` can start in `pre` or at `y` when `y` does not match and `pre` is
shorter than `n`. -/
theorem no_run_before {m : T → Bool} {n : Nat} {x : T} {pre post : List T} {y : T}
    (hy : m y = false) (hl : pre.length + 1 < n) (i : Nat) (hi : i ≤ pre.length + 1) :
    ¬ RunAt m n (x :: (pre ++ y :: post)) i := by
  rintro ⟨h, hh⟩
  have h1 : pre.length + 1 - i < n := by omega
  have := hh (pre.length + 1 - i) h1
  have e : i + (pre.length + 1 - i) = pre.length + 1 := by omega
  simp only [e] at this
  simp [hy] at this

theorem searchNOuter_spec [DecidableEq ι] {I : Iter σ ι T} {s : σ} {last : ι} (m : T → Bool)
    (n : Nat) (hn1 : 1 ≤ n) : ∀ (len : Nat) (first : ι) (xs : List T), xs.length ≤ len →
    I.Range s first xs last →
    ∃ r, searchNOuter I m m first last n s = .ok (r, s) ∧
      ((∃ k, I.Reach s first k r ∧ RunAt m n xs k ∧ ∀ i, i < k → ¬ RunAt m n xs i) ∨
       (r = last ∧ ∀ i, ¬ RunAt m n xs i)) := by
  intro len
  induction len with
  | zero =>
    intro first xs hl h
    have : xs = [] := by cases xs <;> simp_all
    subst this
    cases h
    refine ⟨last, by rw [searchNOuter]; simp, .inr ⟨rfl, ?_⟩⟩
    rintro i ⟨h, -⟩; simp at h; omega
  | succ len ih =>
    intro first xs hl h
    cases h with
    | nil =>
      refine ⟨last, by rw [searchNOuter]; simp, .inr ⟨rfl, ?_⟩⟩
      rintro i ⟨h, -⟩; simp at h; omega
    | @cons _ mid _ x xs hne hd hn hr =>
      by_cases hm : m x
      · obtain ⟨r, h1, h2⟩ := searchNInner_spec (.cons hne hd hn hr) m 1 (n - 1)
        rw [show 1 + (n - 1) = n by omega] at h1
        rw [show ((1 : Nat) : Int) = 1 by rfl] at h1
        rcases h2 with ⟨e, hk, hh⟩ | ⟨e, hk⟩ | ⟨p, pre, z, post, e, hxs, hl', hz, hre, hra⟩
        · subst e
          refine ⟨first, by rw [searchNOuter]; simp [hne, hd, hm, h1], .inl ⟨0, .zero _, ?_, by simp⟩⟩
          refine ⟨by simp; omega, ?_⟩
          intro j hj
          cases j with
          | zero => simpa using hm
          | succ j => simpa using hh j (by omega) (by omega)
        · subst e
          refine ⟨last, by rw [searchNOuter]; simp [hne, hd, hm, h1], .inr ⟨rfl, ?_⟩⟩
          rintro i ⟨h, -⟩; simp at h; omega
        · subst e
          cases hra with
          | @cons _ p' _ _ _ hne2 hd2 hn2 hr2 =>
            subst hxs
            obtain ⟨r, hr1, hr3⟩ := ih p' post (by simp at hl; omega) hr2
            have sh : ∀ i, RunAt m n (x :: (pre ++ z :: post)) (pre.length + 2 + i) ↔
                RunAt m n post i := by
              intro i
              have : ∀ (l : List T) , RunAt m n (l ++ post) (l.length + i) ↔ RunAt m n post i := by
                intro l
                induction l with
                | nil => simp
                | cons a l ihl =>
                  rw [show (a :: l).length + i = (l.length + i) + 1 by simp; omega,
                    List.cons_append, runAt_succ]; exact ihl
              have := this (x :: (pre ++ [z]))
              simpa using this
            refine ⟨r, by rw [searchNOuter]; simp [hne, hd, hm, h1, hn2, hr1], ?_⟩
            have nob := fun i hi => no_run_before (n := n) (x := x) (pre := pre) (post := post) hz (by omega) i hi
            rcases hr3 with ⟨k, ha, hb, hc⟩ | ⟨ha, hb⟩
            · refine .inl ⟨pre.length + 2 + k, ?_, (sh k).2 hb, ?_⟩
              · have := hre.trans (Reach.succ hn2 ha)
                rw [show pre.length + 2 + k = pre.length + 1 + (k + 1) by omega]
                exact this
              · intro i hi
                by_cases h' : i ≤ pre.length + 1
                · exact nob i h'
                · have := (not_congr (sh (i - (pre.length + 2)))).2 (hc _ (by omega))
                  rwa [show pre.length + 2 + (i - (pre.length + 2)) = i by omega] at this
            · refine .inr ⟨ha, ?_⟩
              intro i
              by_cases h' : i ≤ pre.length + 1
              · exact nob i h'
              · have := (not_congr (sh (i - (pre.length + 2)))).2 (hb _)
                rwa [show pre.length + 2 + (i - (pre.length + 2)) = i by omega] at this
      · obtain ⟨r, hr1, hr2⟩ := ih mid xs (by simp at hl; omega) hr
        have no0 : ¬ RunAt m n (x :: xs) 0 := by
          rintro ⟨h, hh⟩; exact hm (by simpa using hh 0 (by omega))
        refine ⟨r, by rw [searchNOuter]; simp [hne, hd, hm, hn, hr1], ?_⟩
        rcases hr2 with ⟨k, ha, hb, hc⟩ | ⟨ha, hb⟩
        · refine .inl ⟨k + 1, .succ hn ha, runAt_succ.2 hb, ?_⟩
          intro i hi
          cases i with
          | zero => exact no0
          | succ i => rw [runAt_succ]; exact hc i (by omega)
        · refine .inr ⟨ha, ?_⟩
          intro i
          cases i with
          | zero => exact no0
          | succ i => rw [runAt_succ]; exact hb i

/-- `search_n` without predicate returns the first position that starts `n` consecutive elements
equal to the value, or `last`. -/
theorem search_n_returns_first_run [DecidableEq ι] {I : Iter σ ι T} {s : σ} {first last : ι}
    {xs : List T} (h : I.Range s first xs last) (eq : T → U → Bool) (n : Nat) (v : U) :
    ∃ r, searchN I eq first last n v s = .ok (r, s) ∧
      ((∃ k, I.Reach s first k r ∧ RunAt (fun x => eq x v) n xs k ∧
          ∀ i, i < k → ¬ RunAt (fun x => eq x v) n xs i) ∨
       (r = last ∧ ∀ i, ¬ RunAt (fun x => eq x v) n xs i)) := by
  by_cases hn : n = 0
  · subst hn
    exact ⟨first, by simp [searchN], .inl ⟨0, .zero _, ⟨by simp, by simp⟩, by simp⟩⟩
  · obtain ⟨r, h1, h2⟩ := searchNOuter_spec (I := I) (s := s) (last := last) (fun x => eq x v) n
      (by omega) xs.length first xs (Nat.le_refl _) h
    refine ⟨r, ?_, h2⟩
    have : ¬ ((n : Int) ≤ 0) := by omega
    simp only [searchN, this, if_false]
    exact h1

/-- The property one expects of `search_n` with a predicate. -/
def SearchNPredSpec : Prop :=
  ∀ (xs : List Nat) (eq pred : Nat → Nat → Bool) (n : Nat) (v : Nat),
    ∃ r, searchNPred Mem.ptr eq pred 0 xs.length n v (Mem.ofList xs) = .ok (r, Mem.ofList xs) ∧
      ((RunAt (fun x => pred x v) n xs r ∧ ∀ i, i < r → ¬ RunAt (fun x => pred x v) n xs i) ∨
       (r = xs.length ∧ ∀ i, ¬ RunAt (fun x => pred x v) n xs i))

/-- It is false of the code: line 138 compares the first element of a candidate run with `==`
instead of the predicate. Looking in `[2]` for one element that is `> 1` misses it. -/
theorem search_n_pred_wrong : ¬ SearchNPredSpec := by
  intro h
  obtain ⟨r, h1, h2⟩ := h [2] (fun a b => a == b) (fun a b => decide (b < a)) 1 1
  have e : searchNPred Mem.ptr (fun a b : Nat => a == b) (fun a b => decide (b < a)) 0 1 1 1
      (Mem.ofList [2]) = .ok (1, Mem.ofList [2]) := by
    simp only [searchNPred]
    rw [searchNOuter]; simp [Mem.ptr, Mem.load, Mem.ofList]
    rw [searchNOuter]; simp
  have run0 : RunAt (fun x : Nat => decide (1 < x)) 1 [2] 0 :=
    ⟨by decide, by intro j hj; obtain rfl : j = 0 := by omega
                   rfl⟩
  simp only [List.length_singleton] at h1
  rw [show ((1 : Nat) : Int) = 1 by rfl, e] at h1
  simp at h1
  subst h1
  rcases h2 with ⟨ha, hb⟩ | ⟨_, hb⟩
  · exact hb 0 (by omega) run0
  · exact hb 0 run0

/-- Partial: `search_n` with predicate is right when the predicate agrees with `==` on the value
(missing: every other predicate, for which the code is wrong, see `search_n_pred_wrong`). -/
theorem search_n_pred_returns_first_run_partial [DecidableEq ι] {I : Iter σ ι T} {s : σ}
    {first last : ι} {xs : List T} (h : I.Range s first xs last) (eq pred : T → U → Bool) (n : Nat)
    (v : U) (hagree : ∀ x, eq x v = pred x v) :
    ∃ r, searchNPred I eq pred first last n v s = .ok (r, s) ∧
      ((∃ k, I.Reach s first k r ∧ RunAt (fun x => pred x v) n xs k ∧
          ∀ i, i < k → ¬ RunAt (fun x => pred x v) n xs i) ∨
       (r = last ∧ ∀ i, ¬ RunAt (fun x => pred x v) n xs i)) := by
  have : (fun x => eq x v) = (fun x => pred x v) := funext hagree
  have := search_n_returns_first_run h pred n v
  simp only [searchN] at this
  simp only [searchNPred]
  rw [‹(fun x => eq x v) = (fun x => pred x v)›]
  exact this

/-- Concrete instance: two consecutive `1`s in `[1,0,1,1]` start at index 2. -/
example : ∃ r, searchN Mem.ptr (fun a b => a == b) 0 4 2 1 (Mem.ofList [1, 0, 1, 1]) =
    .ok (r, Mem.ofList [1, 0, 1, 1]) ∧ (r = 2 ∨ r = 4) := by
  obtain ⟨r, h1, h2⟩ := search_n_returns_first_run (Mem.holds_ofList [1, 0, 1, 1]).range
    (fun a b : Nat => a == b) 2 1
  refine ⟨r, h1, ?_⟩
  rcases h2 with ⟨k, hk, ⟨hk1, hk2⟩, _⟩ | ⟨hk, _⟩
  · have := Mem.ptr_reach hk
    simp at hk1
    rcases k with _|_|_|k
    · have := hk2 1 (by omega); simp at this
    · have := hk2 0 (by omega); simp at this
    · omega
    · omega
  · simp at hk; omega

end Verif.Algo
