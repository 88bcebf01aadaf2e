import Verif.Exc.AlgoModel
/-!
# Properties of the algorithms when functors or assignments throw
-/
set_option linter.unusedVariables false
set_option linter.unusedSimpArgs false
set_option linter.unusedSectionVars false
namespace Verif.Exc.XAlgo
open Verif Verif.Exc Verif.Gen
variable {σ ι κ ω T U V δ α β : Type} {s s' s1 t : σ} {n m : Nat} {a : α} {b : β} {P Q : Nat → σ → Prop}

/-- If nothing throws, `x` does what the call `g` without exceptions does: it returns `a` and leaves `s'`. On its way it makes `n` calls and assignments that may throw; if the one after
the first `k` throws, the memory left has the property `P k`. -/
structure Does (g : Prog σ α) (x : Thr σ α) (s : σ) (n : Nat) (a : α) (s' : σ) (P : Nat → σ → Prop) : Prop where
  plain : g s = .ok (a, s')
  points : Points x s n a s' P

namespace Does
theorem pure_ : Does (pure a : Prog σ α) (pure a) s 0 a s P := ⟨rfl, Points.pure_⟩
theorem call {p : Prog σ α} {g : α → Prog σ β} {x : α → Thr σ β} (e : p s = .ok (a, s1)) (Y : Does (g a) (x a) s1 n b s' P) : Does (p >>= g) (Thr.call p >>= x) s n b s' P :=
  ⟨by simp only [Prog.bind_app, e, Res.bind_ok, Y.plain], Points.call_seq e Y.points⟩
theorem point {g : Prog σ β} {x : Unit → Thr σ β} (p : P 0 s) (Y : Does g (x ()) s n b s' fun k t => P (k + 1) t) : Does g (Thr.point >>= x) s (n + 1) b s' P := by
  refine ⟨Y.plain, Points.cast (Nat.add_comm 1 n) (Points.seq (n := 1) (Points.point_ p) (Y.points.imp fun k t _ q => ?_))⟩
  rw [Nat.add_comm]; exact q
theorem seq {g : Prog σ α} {x : Thr σ α} {g' : α → Prog σ β} {x' : α → Thr σ β} (X : Does g x s n a s1 P) (Y : Does (g' a) (x' a) s1 m b s' fun k t => P (n + k) t) :
    Does (g >>= g') (x >>= x') s (n + m) b s' P :=
  ⟨by simp only [Prog.bind_app, X.plain, Res.bind_ok, Y.plain], Points.seq X.points Y.points⟩
theorem map {g : Prog σ α} {x : Thr σ α} (f : α → β) (X : Does g x s n a s' P) : Does (g >>= fun a => pure (f a)) (x >>= fun a => pure (f a)) s n (f a) s' P :=
  seq (m := 0) X pure_
theorem imp {g : Prog σ α} {x : Thr σ α} (X : Does g x s n a s' P) (h : ∀ k t, k < n → P k t → Q k t) : Does g x s n a s' Q := ⟨X.plain, X.points.imp h⟩
theorem cast {g : Prog σ α} {x : Thr σ α} {a' : α} {s'' : σ} (e : n = m) (ea : a = a') (es : s' = s'') (X : Does g x s n a s' P) : Does g x s m a' s'' P := by
  subst e ea es; exact X
end Does

/-- `x` reads only: it makes `n` calls of the functor; it returns what `g` returns, or is left by an exception of the functor, and memory is as before in both cases. -/
def Reads (g : Prog σ α) (x : Thr σ α) (s : σ) (n : Nat) (a : α) : Prop := Does g x s n a s fun _ t => t = s

/-! ## Algorithms that read -/

/-- How often a functor is asked until it first answers `true`. -/
def asked (p : Fn δ T Bool) (d : δ) (xs : List T) : Nat := min ((scanS p d xs).1 + 1) xs.length

theorem asked_hit {p : Fn δ T Bool} {d : δ} {x : T} {xs : List T} (q : (p x d).1 = true) : asked p d (x :: xs) = 0 + 1 := by
  simp [asked, scanS, q]
theorem asked_miss {p : Fn δ T Bool} {d : δ} {x : T} {xs : List T} (q : (p x d).1 = false) : asked p d (x :: xs) = asked p (p x d).2 xs + 1 := by
  simp only [asked, scanS, q, Bool.false_eq_true, if_false, List.length_cons]; omega

section Read
variable [DecidableEq ι] {I : Iter σ ι T} {first last : ι} {xs : List T}

theorem findIf_does (h : Iter.Range I s first xs last) (p : Fn δ T Bool) (d : δ) :
    ∃ it, Iter.Reach I s first (scanS p d xs).1 it ∧ Reads (Gen.findIf I p first last d) (findIf I p first last d) s (asked p d xs) (it, (scanS p d xs).2) := by
  induction h generalizing d with
  | nil last => exact ⟨last, by simpa [scanS] using .zero _, by rw [Gen.findIf, findIf]; simp only [if_true]; exact Does.pure_⟩
  | @cons first mid last x xs hne hd hn hr ih =>
    cases q : (p x d).1 with
    | true =>
      refine ⟨first, by simpa [scanS, q] using .zero _, ?_⟩
      rw [Gen.findIf, findIf, asked_hit q]
      simp only [if_neg hne]
      refine Does.call hd (Does.point rfl ?_)
      simp only [q, if_true, scanS]; exact Does.pure_
    | false =>
      obtain ⟨it, r, X⟩ := ih (p x d).2
      refine ⟨it, by simpa [scanS, q] using .succ hn r, ?_⟩
      rw [Gen.findIf, findIf, asked_miss q]
      simp only [if_neg hne]
      refine Does.call hd (Does.point rfl ?_)
      simp only [q, if_false, scanS, Bool.false_eq_true]
      exact Does.call hn X

theorem findIfNot_does (h : Iter.Range I s first xs last) (p : Fn δ T Bool) (d : δ) :
    ∃ it, Iter.Reach I s first (scanS (notS p) d xs).1 it ∧
      Reads (Gen.findIfNot I p first last d) (findIfNot I p first last d) s (asked (notS p) d xs) (it, (scanS (notS p) d xs).2) := by
  induction h generalizing d with
  | nil last => exact ⟨last, by simpa [scanS] using .zero _, by rw [Gen.findIfNot, findIfNot]; simp only [if_true]; exact Does.pure_⟩
  | @cons first mid last x xs hne hd hn hr ih =>
    cases q : (p x d).1 with
    | false =>
      refine ⟨first, by simpa [scanS, notS, q] using .zero _, ?_⟩
      rw [Gen.findIfNot, findIfNot, asked_hit (p := notS p) (by simp [notS, q])]
      simp only [if_neg hne]
      refine Does.call hd (Does.point rfl ?_)
      simp only [q, Bool.not_false, if_true, scanS, notS]; exact Does.pure_
    | true =>
      obtain ⟨it, r, X⟩ := ih (p x d).2
      refine ⟨it, by simpa [scanS, notS, q] using .succ hn r, ?_⟩
      rw [Gen.findIfNot, findIfNot, asked_miss (p := notS p) (by simp [notS, q])]
      simp only [if_neg hne]
      refine Does.call hd (Does.point rfl ?_)
      simp only [q, Bool.not_true, if_false, scanS, notS, Bool.false_eq_true]
      exact Does.call hn X

theorem forEach_does (h : Iter.Range I s first xs last) (step : T → δ → δ) (f : δ) :
    Reads (Algo.forEach I step first last f) (forEach I step first last f) s xs.length (xs.foldl (fun d x => step x d) f) := by
  induction h generalizing f with
  | nil last => rw [Algo.forEach, forEach]; simp only [if_true]; exact Does.pure_
  | @cons first mid last x xs hne hd hn hr ih =>
    rw [Algo.forEach, forEach]
    simp only [if_neg hne]
    exact Does.call hd (Does.point rfl (Does.call hn (ih _)))

theorem accumulate_does (h : Iter.Range I s first xs last) (add : U → T → U) (v : U) :
    Reads (Algo.accumulate I add first last v) (accumulate I add first last v) s (2 * xs.length) (xs.foldl add v) := by
  induction h generalizing v with
  | nil last => rw [Algo.accumulate, accumulate]; simp only [if_true]; exact Does.pure_
  | @cons first mid last x xs hne hd hn hr ih =>
    rw [Algo.accumulate, accumulate]
    simp only [if_neg hne]
    exact Does.call hd (Does.point rfl (Does.point rfl (Does.call hn (ih _))))

theorem countLoop_does (h : Iter.Range I s first xs last) (p : Fn δ T Bool) (d : δ) (c : Int) (hc : 0 ≤ c) (hn : c + (filterS p d xs).1.length < 2147483648) :
    Reads (Gen.countLoop I p first last c d) (countLoop I p first last c d) s xs.length (c + (filterS p d xs).1.length, (filterS p d xs).2) := by
  induction h generalizing d c with
  | nil last => rw [Gen.countLoop, countLoop]; simp only [if_true, filterS, List.length_nil]; exact Does.cast rfl (by simp) rfl Does.pure_
  | @cons first mid last x xs hne hd hx hr ih =>
    rw [Gen.countLoop, countLoop]
    simp only [if_neg hne]
    refine Does.call hd (Does.point rfl ?_)
    cases q : (p x d).1 with
    | true =>
      simp only [filterS, q, if_true, List.length_cons] at hn ⊢
      have e1 : (Algo.incInt c : Prog σ Int) s = .ok (c + 1, s) := by
        simp only [Algo.incInt, Prog.bind_app, Prog.need, if_pos (show c + 1 < 2147483648 by omega)]; rfl
      have X := ih (p x d).2 (c + 1) (by omega) (by omega)
      exact Does.call e1 (Does.call hx (Does.cast rfl (by simp; omega) rfl X))
    | false =>
      simp only [filterS, q, if_false, Bool.false_eq_true] at hn ⊢
      exact Does.call (p := pure c) rfl (Does.call hx (ih (p x d).2 c hc hn))

theorem countIf_does (h : Iter.Range I s first xs last) (p : Fn δ T Bool) (d : δ) (hn : (filterS p d xs).1.length < 2147483648) :
    Reads (Gen.countIf I p first last d) (countIf I p first last d) s xs.length ((filterS p d xs).1.length, (filterS p d xs).2) :=
  Does.cast rfl (by simp) rfl (countLoop_does h p d 0 (by omega) (by omega))

theorem adjacentLoop_does {first next last : ι} {x : T} {xs : List T} (hd : I.deref first s = .ok (x, s)) (hn : I.next first s = .ok (next, s))
    (h : Iter.Range I s next xs last) (p : Fn δ (T × T) Bool) (d : δ) :
    ∃ it, Reads (Gen.adjacentLoop I p first next last d) (adjacentLoop I p first next last d) s (asked p d ((x :: xs).zip xs)) (it, (scanS p d ((x :: xs).zip xs)).2) := by
  induction h generalizing first x d with
  | nil last => exact ⟨last, by rw [Gen.adjacentLoop, adjacentLoop]; simp only [if_true]; exact Does.pure_⟩
  | @cons nx mid last y ys hne hd2 hn2 hr ih =>
    rw [List.zip_cons_cons]
    cases q : (p (x, y) d).1 with
    | true =>
      refine ⟨first, ?_⟩
      rw [Gen.adjacentLoop, adjacentLoop, asked_hit q]
      simp only [if_neg hne]
      refine Does.call hd (Does.call hd2 (Does.point rfl ?_))
      simp only [q, if_true, scanS]; exact Does.pure_
    | false =>
      obtain ⟨it, X⟩ := ih hd2 hn2 (p (x, y) d).2
      refine ⟨it, ?_⟩
      rw [Gen.adjacentLoop, adjacentLoop, asked_miss q]
      simp only [if_neg hne]
      refine Does.call hd (Does.call hd2 (Does.point rfl ?_))
      simp only [q, if_false, scanS, Bool.false_eq_true]
      exact Does.call hn2 (Does.call hn X)

theorem adjacentFind_does (h : Iter.Range I s first xs last) (p : Fn δ (T × T) Bool) (d : δ) :
    ∃ it, Reads (Gen.adjacentFind I p first last d) (adjacentFind I p first last d) s (asked p d (xs.zip xs.tail)) (it, (scanS p d (xs.zip xs.tail)).2) := by
  cases h with
  | nil => exact ⟨first, by simp only [Gen.adjacentFind, adjacentFind, if_true]; exact Does.pure_⟩
  | @cons _ mid _ x xs hne hd hn hr =>
    obtain ⟨it, X⟩ := adjacentLoop_does hd hn hr p d
    refine ⟨it, ?_⟩
    simp only [Gen.adjacentFind, adjacentFind, if_neg hne]
    exact Does.call hn X
end Read

section Pairs
variable [DecidableEq ι] [DecidableEq κ] {I : Iter σ ι T} {J : Iter σ κ U} {f1 l1 : ι} {f2 l2 : κ} {xs : List T} {ys : List U}

theorem equal4_does (h1 : Iter.Range I s f1 xs l1) (h2 : Iter.Range J s f2 ys l2) (p : Fn δ (T × U) Bool) (d : δ) :
    Reads (Gen.equal4 I J p f1 l1 f2 l2 d) (equal4 I J p f1 l1 f2 l2 d) s (asked (notS p) d (xs.zip ys))
      (decide ((scanS (notS p) d (xs.zip ys)).1 = (xs.zip ys).length ∧ xs.length = ys.length), (scanS (notS p) d (xs.zip ys)).2) := by
  induction h1 generalizing f2 ys d with
  | nil last =>
    rw [Gen.equal4, equal4]
    simp only [ne_eq, not_true_eq_false, false_and, if_false, List.zip_nil_left, true_and]
    refine Does.cast (by simp [asked]) ?_ rfl Does.pure_
    cases h2 with
    | nil => simp [scanS]
    | cons hne => simp [scanS, hne]
  | @cons first mid last x xs hne hd hn hr ih =>
    rw [Gen.equal4, equal4]
    cases h2 with
    | nil =>
      simp only [ne_eq, not_true_eq_false, and_false, if_false, List.zip_nil_right]
      exact Does.cast (by simp [asked]) (by simp [scanS, hne]) rfl Does.pure_
    | @cons _ mid2 _ y ys hne2 hd2 hn2 hr2 =>
      simp only [if_pos (And.intro hne hne2)]
      rw [List.zip_cons_cons]
      refine Does.cast rfl rfl rfl (n := asked (notS p) d ((x, y) :: xs.zip ys)) ?_
      cases q : (p (x, y) d).1 with
      | false =>
        rw [asked_hit (p := notS p) (by simp [notS, q])]
        refine Does.call hd (Does.call hd2 (Does.point rfl ?_))
        simp only [q, Bool.not_false, if_true]
        exact Does.cast rfl (by simp [scanS, notS, q]) rfl Does.pure_
      | true =>
        rw [asked_miss (p := notS p) (by simp [notS, q])]
        refine Does.call hd (Does.call hd2 (Does.point rfl ?_))
        simp only [q, Bool.not_true, if_false, Bool.false_eq_true]
        exact Does.call hn (Does.call hn2 (Does.cast rfl (by simp [scanS, notS, q]) rfl (ih hr2 (p (x, y) d).2)))

theorem equal3_does (h1 : Iter.Range I s f1 xs l1) (h2 : Iter.Range J s f2 ys l2) (hl : xs.length ≤ ys.length) (p : Fn δ (T × U) Bool) (d : δ) :
    Reads (Gen.equal3 I J p f1 l1 f2 d) (equal3 I J p f1 l1 f2 d) s (asked (notS p) d (xs.zip ys))
      (decide ((scanS (notS p) d (xs.zip ys)).1 = xs.length), (scanS (notS p) d (xs.zip ys)).2) := by
  induction h1 generalizing f2 ys d with
  | nil last =>
    rw [Gen.equal3, equal3]
    simp only [if_true, List.zip_nil_left]
    exact Does.cast (by simp [asked]) (by simp [scanS]) rfl Does.pure_
  | @cons first mid last x xs hne hd hn hr ih =>
    rw [Gen.equal3, equal3]
    cases h2 with
    | nil => simp at hl
    | @cons _ mid2 _ y ys hne2 hd2 hn2 hr2 =>
      simp only [if_neg hne]
      rw [List.zip_cons_cons]
      cases q : (p (x, y) d).1 with
      | false =>
        rw [asked_hit (p := notS p) (by simp [notS, q])]
        refine Does.call hd (Does.call hd2 (Does.point rfl ?_))
        simp only [q, Bool.not_false, if_true]
        exact Does.cast rfl (by simp [scanS, notS, q]) rfl Does.pure_
      | true =>
        rw [asked_miss (p := notS p) (by simp [notS, q])]
        refine Does.call hd (Does.call hd2 (Does.point rfl ?_))
        simp only [q, Bool.not_true, if_false, Bool.false_eq_true]
        exact Does.call hn (Does.call hn2 (Does.cast rfl (by simp [scanS, notS, q]) rfl (ih hr2 (by simpa using hl) (p (x, y) d).2)))

theorem mismatch4_does (h1 : Iter.Range I s f1 xs l1) (h2 : Iter.Range J s f2 ys l2) (p : Fn δ (T × U) Bool) (d : δ) :
    ∃ a b, Reads (Gen.mismatch4 I J p f1 l1 f2 l2 d) (mismatch4 I J p f1 l1 f2 l2 d) s (asked (notS p) d (xs.zip ys)) ((a, b), (scanS (notS p) d (xs.zip ys)).2) := by
  induction h1 generalizing f2 ys d with
  | nil last =>
    refine ⟨last, f2, ?_⟩
    rw [Gen.mismatch4, mismatch4]
    simp only [ne_eq, not_true_eq_false, false_and, if_false, List.zip_nil_left]
    exact Does.cast (by simp [asked]) (by simp [scanS]) rfl Does.pure_
  | @cons first mid last x xs hne hd hn hr ih =>
    cases h2 with
    | nil =>
      refine ⟨first, l2, ?_⟩
      rw [Gen.mismatch4, mismatch4]
      simp only [ne_eq, not_true_eq_false, and_false, if_false, List.zip_nil_right]
      exact Does.cast (by simp [asked]) (by simp [scanS]) rfl Does.pure_
    | @cons _ mid2 _ y ys hne2 hd2 hn2 hr2 =>
      rw [List.zip_cons_cons]
      cases q : (p (x, y) d).1 with
      | false =>
        refine ⟨first, f2, ?_⟩
        rw [Gen.mismatch4, mismatch4, asked_hit (p := notS p) (by simp [notS, q])]
        simp only [if_pos (And.intro hne hne2)]
        refine Does.call hd (Does.call hd2 (Does.point rfl ?_))
        simp only [q, if_false, Bool.false_eq_true]
        exact Does.cast rfl (by simp [scanS, notS, q]) rfl Does.pure_
      | true =>
        obtain ⟨a, b, X⟩ := ih hr2 (p (x, y) d).2
        refine ⟨a, b, ?_⟩
        rw [Gen.mismatch4, mismatch4, asked_miss (p := notS p) (by simp [notS, q])]
        simp only [if_pos (And.intro hne hne2)]
        refine Does.call hd (Does.call hd2 (Does.point rfl ?_))
        simp only [q, if_true]
        exact Does.call hn (Does.call hn2 (Does.cast rfl (by simp [scanS, notS, q]) rfl X))
end Pairs

section Bounds
variable {I : RIter σ ι T} {pos : Nat → ι} {xs : List T}

theorem boundLoop_does (W : RAt I s pos xs) (go : Fn δ T Bool) : ∀ (c lo : Nat) (d : δ), lo + c ≤ xs.length →
    ∃ n k d', n ≤ probes c ∧ lo ≤ k ∧ k ≤ lo + c ∧ Reads (Gen.boundLoop I go (pos lo) c d) (boundLoop I go (pos lo) c d) s n (pos k, d') := by
  intro c
  induction c using Nat.strongRecOn with
  | ind c ih =>
    intro lo d hc
    rcases Nat.eq_zero_or_pos c with rfl | hp
    · refine ⟨0, lo, d, by omega, by omega, by omega, ?_⟩
      rw [Gen.boundLoop, boundLoop]; simp only [Int.natCast_zero, gt_iff_lt, Int.lt_irrefl, if_false]; exact Does.pure_
    · have hlt : lo + c / 2 < xs.length := by omega
      have hstep : (c : Int).tdiv 2 = ((c / 2 : Nat) : Int) := by rw [Int.tdiv_eq_ediv_of_nonneg (by omega)]; omega
      have hd : I.deref (pos (lo + c / 2)) s = .ok (xs[lo + c / 2], s) := W.deref _ _ (List.getElem?_eq_getElem hlt)
      cases q : (go xs[lo + c / 2] d).1 with
      | true =>
        obtain ⟨n, k, d', h1, h2, h3, X⟩ := ih (c - (c / 2 + 1)) (by omega) (lo + c / 2 + 1) (go xs[lo + c / 2] d).2 (by omega)
        have hh := probes_half hp (k := c - (c / 2 + 1)) (by omega)
        refine ⟨n + 1, k, d', by omega, by omega, by omega, ?_⟩
        rw [Gen.boundLoop, boundLoop]
        simp only [gt_iff_lt, if_pos (show (0 : Int) < (c : Int) by omega), hstep, Int.toNat_natCast, W.plus lo (c / 2) (by omega)]
        refine Does.call hd (Does.point rfl ?_)
        simp only [q, if_true]
        rw [show ((c : Int) - (((c / 2 : Nat) : Int) + 1)) = ((c - (c / 2 + 1) : Nat) : Int) by omega]
        exact Does.call (W.next _ hlt) X
      | false =>
        obtain ⟨n, k, d', h1, h2, h3, X⟩ := ih (c / 2) (by omega) lo (go xs[lo + c / 2] d).2 (by omega)
        have hh := probes_half hp (k := c / 2) (Nat.le_refl _)
        refine ⟨n + 1, k, d', by omega, by omega, by omega, ?_⟩
        rw [Gen.boundLoop, boundLoop]
        simp only [gt_iff_lt, if_pos (show (0 : Int) < (c : Int) by omega), hstep, Int.toNat_natCast, W.plus lo (c / 2) (by omega)]
        refine Does.call hd (Does.point rfl ?_)
        simp only [q, if_false, Bool.false_eq_true]
        exact X
end Bounds

end Verif.Exc.XAlgo
