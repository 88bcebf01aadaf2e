import Verif.Algorithm.GenericProps
/-!
# Generic algorithms, continued: two inputs, comparisons
-/
set_option linter.unusedVariables false
set_option linter.unusedSimpArgs false
set_option linter.unusedSectionVars false
namespace Verif.Gen
open Verif
variable {σ ι κ ω T U V δ : Type}

section Pairs
variable [DecidableEq ι] [DecidableEq κ] {I : Iter σ ι T} {J : Iter σ κ U} {s : σ}

/-- `equal(first1, last1, first2, last2, pred)`: `pred` is called on the pairs in order until it is false. -/
theorem equal4_any {f1 l1 : ι} {f2 l2 : κ} {xs : List T} {ys : List U} (h1 : Iter.Range I s f1 xs l1) (h2 : Iter.Range J s f2 ys l2) (p : Fn δ (T × U) Bool) (d : δ) :
    equal4 I J p f1 l1 f2 l2 d s = .ok ((decide ((scanS (notS p) d (xs.zip ys)).1 = (xs.zip ys).length ∧ xs.length = ys.length), (scanS (notS p) d (xs.zip ys)).2), s) := by
  induction h1 generalizing f2 ys d with
  | nil last =>
    rw [equal4]
    cases h2 with
    | nil => simp [scanS]
    | cons hne => simp [scanS, hne]
  | @cons first mid last x xs hne hd hn hr ih =>
    rw [equal4]
    cases h2 with
    | nil => simp [scanS, hne]
    | @cons _ mid2 _ y ys hne2 hd2 hn2 hr2 =>
      simp only [Prog.ite_app]
      rw [if_pos ⟨hne, hne2⟩]
      simp only [Prog.bind_app, hd, hd2, Res.bind_ok, List.zip_cons_cons, scanS]
      cases q : (p (x, y) d).1 with
      | false => simp [notS, q]
      | true => simp [notS, q, hn, hn2, ih hr2]

/-- `equal(first1, last1, first2, pred)`, the second range being long enough. -/
theorem equal3_any {f1 l1 : ι} {f2 l2 : κ} {xs : List T} {ys : List U} (h1 : Iter.Range I s f1 xs l1) (h2 : Iter.Range J s f2 ys l2) (hl : xs.length ≤ ys.length) (p : Fn δ (T × U) Bool) (d : δ) :
    equal3 I J p f1 l1 f2 d s = .ok ((decide ((scanS (notS p) d (xs.zip ys)).1 = xs.length), (scanS (notS p) d (xs.zip ys)).2), s) := by
  induction h1 generalizing f2 ys d with
  | nil last => rw [equal3]; simp [scanS]
  | @cons first mid last x xs hne hd hn hr ih =>
    rw [equal3]
    cases h2 with
    | nil => simp at hl
    | @cons _ mid2 _ y ys hne2 hd2 hn2 hr2 =>
      simp only [Prog.ite_app, if_neg hne, Prog.bind_app, hd, hd2, Res.bind_ok, List.zip_cons_cons, scanS]
      cases q : (p (x, y) d).1 with
      | false => simp [notS, q]
      | true => simp [notS, q, hn, hn2, ih hr2 (by simpa using hl)]

/-- `mismatch(first1, last1, first2, last2, pred)`: the first pair for which `pred` is false, or the end of the shorter range; `pred` is
called on the pairs in order until then. -/
theorem mismatch4_any {f1 l1 : ι} {f2 l2 : κ} {xs : List T} {ys : List U} (h1 : Iter.Range I s f1 xs l1) (h2 : Iter.Range J s f2 ys l2) (p : Fn δ (T × U) Bool) (d : δ) :
    ∃ a b, mismatch4 I J p f1 l1 f2 l2 d s = .ok (((a, b), (scanS (notS p) d (xs.zip ys)).2), s) ∧
      Iter.Reach I s f1 (scanS (notS p) d (xs.zip ys)).1 a ∧ Iter.Reach J s f2 (scanS (notS p) d (xs.zip ys)).1 b := by
  induction h1 generalizing f2 ys d with
  | nil last => rw [mismatch4]; exact ⟨last, f2, by simp [scanS], by simpa [scanS] using .zero _, by simpa [scanS] using .zero _⟩
  | @cons first mid last x xs hne hd hn hr ih =>
    rw [mismatch4]
    cases h2 with
    | nil => exact ⟨first, l2, by simp [scanS], by simpa [scanS] using .zero _, by simpa [scanS] using .zero _⟩
    | @cons _ mid2 _ y ys hne2 hd2 hn2 hr2 =>
      simp only [Prog.ite_app]
      rw [if_pos ⟨hne, hne2⟩]
      simp only [Prog.bind_app, hd, hd2, Res.bind_ok, List.zip_cons_cons, scanS]
      cases q : (p (x, y) d).1 with
      | false => exact ⟨first, f2, by simp [notS, q], by simpa [notS, q] using .zero _, by simpa [notS, q] using .zero _⟩
      | true =>
        obtain ⟨a, b, e, ra, rb⟩ := ih hr2 (p (x, y) d).2
        exact ⟨a, b, by simp [notS, q, hn, hn2]; simpa [notS] using e, by simpa [notS, q] using .succ hn ra, by simpa [notS, q] using .succ hn2 rb⟩

theorem adjacentLoop_any {first next last : ι} {x : T} {xs : List T} (hd : I.deref first s = .ok (x, s)) (hn : I.next first s = .ok (next, s))
    (h : Iter.Range I s next xs last) (p : Fn δ (T × T) Bool) (d : δ) :
    ∃ it, adjacentLoop I p first next last d s = .ok ((it, (scanS p d ((x :: xs).zip xs)).2), s) ∧
      ((scanS p d ((x :: xs).zip xs)).1 = xs.length ∧ it = last ∨ (scanS p d ((x :: xs).zip xs)).1 < xs.length ∧ Iter.Reach I s first (scanS p d ((x :: xs).zip xs)).1 it) := by
  induction h generalizing first x d with
  | nil last => rw [adjacentLoop]; exact ⟨last, by simp [scanS], by simp [scanS]⟩
  | @cons nx mid last y ys hne hd2 hn2 hr ih =>
    rw [adjacentLoop]
    simp only [Prog.ite_app, if_neg hne, Prog.bind_app, hd, hd2, Res.bind_ok, List.zip_cons_cons, scanS]
    cases q : (p (x, y) d).1 with
    | true => exact ⟨first, by simp, .inr ⟨by simp, by simpa using .zero _⟩⟩
    | false =>
      obtain ⟨it, e, r⟩ := ih hd2 hn2 (p (x, y) d).2
      refine ⟨it, by simp [hn, hn2, e], ?_⟩
      rcases r with ⟨r1, r2⟩ | ⟨r1, r2⟩
      · exact .inl ⟨by simpa using r1, r2⟩
      · exact .inr ⟨by simpa using r1, by simpa using .succ hn r2⟩

/-- `adjacent_find(first, last, p)`: `p` is called on the neighbours in order until it is true; the position of the first of them is
returned, `last` if there is none. -/
theorem adjacent_find_any {first last : ι} {xs : List T} (h : Iter.Range I s first xs last) (p : Fn δ (T × T) Bool) (d : δ) :
    ∃ it, adjacentFind I p first last d s = .ok ((it, (scanS p d (xs.zip xs.tail)).2), s) ∧
      ((scanS p d (xs.zip xs.tail)).1 = xs.tail.length ∧ it = last ∨ (scanS p d (xs.zip xs.tail)).1 < xs.tail.length ∧ Iter.Reach I s first (scanS p d (xs.zip xs.tail)).1 it) := by
  cases h with
  | nil => exact ⟨first, by simp [adjacentFind, scanS], by simp [scanS]⟩
  | @cons _ mid _ x xs hne hd hn hr =>
    obtain ⟨it, e, r⟩ := adjacentLoop_any hd hn hr p d
    exact ⟨it, by simp [adjacentFind, hne, hn, e], by simpa using r⟩
end Pairs

/-! ## Two inputs and an output -/

/-- Two inputs and an output, pairwise without common objects. The inputs are read-only, so they may be the same sequence. -/
structure Flow2 (I : Iter σ ι T) (J : Iter σ κ U) (O : WIter σ ω V) (s1 : Nat → ι) (xs : List T) (s2 : Nat → κ) (ys : List U) (dst : Nat → ω) (cap : Nat)
    (mem : List V → σ) : Prop where
  ne1 : ∀ i, i < xs.length → s1 i ≠ s1 xs.length
  ne2 : ∀ i, i < ys.length → s2 i ≠ s2 ys.length
  deref1 : ∀ out i x, out.length ≤ cap → xs[i]? = some x → I.deref (s1 i) (mem out) = .ok (x, mem out)
  deref2 : ∀ out i y, out.length ≤ cap → ys[i]? = some y → J.deref (s2 i) (mem out) = .ok (y, mem out)
  next1 : ∀ out i, out.length ≤ cap → i < xs.length → I.next (s1 i) (mem out) = .ok (s1 (i + 1), mem out)
  next2 : ∀ out i, out.length ≤ cap → i < ys.length → J.next (s2 i) (mem out) = .ok (s2 (i + 1), mem out)
  assign : ∀ out v, out.length < cap → O.assign (dst out.length) v (mem out) = .ok ((), mem (out ++ [v]))
  out : ∀ out k, out.length ≤ cap → k < cap → O.next (dst k) (mem out) = .ok (dst (k + 1), mem out)

/-- Merging with a comparison that has a state. -/
def mergeS (lt : Fn δ (T × T) Bool) : δ → List T → List T → List T × δ
  | d, [], ys => (ys, d)
  | d, x :: xs, [] => (x :: xs, d)
  | d, x :: xs, y :: ys =>
    if (lt (y, x) d).1 then (y :: (mergeS lt (lt (y, x) d).2 (x :: xs) ys).1, (mergeS lt (lt (y, x) d).2 (x :: xs) ys).2)
    else (x :: (mergeS lt (lt (y, x) d).2 xs (y :: ys)).1, (mergeS lt (lt (y, x) d).2 xs (y :: ys)).2)
termination_by _ xs ys => xs.length + ys.length

theorem mergeS_nil_right (lt : Fn δ (T × T) Bool) (d : δ) (xs : List T) : mergeS lt d xs [] = (xs, d) := by cases xs <;> simp [mergeS]

section Two
variable [DecidableEq ι] [DecidableEq κ]

theorem copy_rest1 {I : Iter σ ι T} {J : Iter σ κ U} {O : WIter σ ω T} {s1 : Nat → ι} {xs : List T} {s2 : Nat → κ} {ys : List U} {dst : Nat → ω} {cap : Nat}
    {mem : List T → σ} (F : Flow2 I J O s1 xs s2 ys dst cap mem) : ∀ (R A out : List T), A ++ R = xs → out.length + R.length ≤ cap →
    copy I O (s1 A.length) (s1 xs.length) (dst out.length) (mem out) = .ok (dst (out.length + R.length), mem (out ++ R)) := by
  intro R
  induction R with
  | nil => intro A out e hc; simp only [List.append_nil] at e; subst e; rw [copy]; simp
  | cons x R ih =>
    intro A out e hc
    have hA : A.length < xs.length := by rw [← e]; simp
    simp only [List.length_cons] at hc
    have := ih (A ++ [x]) (out ++ [x]) (by simpa using e) (by simp; omega)
    simp only [List.length_append, List.length_singleton] at this
    rw [copy]
    simp only [Prog.ite_app, if_neg (F.ne1 _ hA), Prog.bind_app, F.deref1 out A.length x (by omega) (by rw [← e]; simp), Res.bind_ok,
      F.assign out x (by omega), F.out (out ++ [x]) out.length (by simp; omega) (by omega), F.next1 (out ++ [x]) A.length (by simp; omega) hA, this]
    simp [Nat.add_assoc, Nat.add_comm 1]

theorem copy_rest2 {I : Iter σ ι T} {J : Iter σ κ U} {O : WIter σ ω U} {s1 : Nat → ι} {xs : List T} {s2 : Nat → κ} {ys : List U} {dst : Nat → ω} {cap : Nat}
    {mem : List U → σ} (F : Flow2 I J O s1 xs s2 ys dst cap mem) : ∀ (R A out : List U), A ++ R = ys → out.length + R.length ≤ cap →
    copy J O (s2 A.length) (s2 ys.length) (dst out.length) (mem out) = .ok (dst (out.length + R.length), mem (out ++ R)) := by
  have F' : Flow2 J I O s2 ys s1 xs dst cap mem := ⟨F.ne2, F.ne1, F.deref2, F.deref1, F.next2, F.next1, F.assign, F.out⟩
  exact copy_rest1 F'

theorem merge_flow {I : Iter σ ι T} {J : Iter σ κ T} {O : WIter σ ω T} {s1 : Nat → ι} {xs : List T} {s2 : Nat → κ} {ys : List T} {dst : Nat → ω} {cap : Nat}
    {mem : List T → σ} (F : Flow2 I J O s1 xs s2 ys dst cap mem) (lt : Fn δ (T × T) Bool) :
    ∀ (k : Nat) (R A S B out : List T) (d : δ), R.length + S.length = k → A ++ R = xs → B ++ S = ys → out.length + R.length + S.length ≤ cap →
    merge I J O lt (s1 A.length) (s1 xs.length) (s2 B.length) (s2 ys.length) (dst out.length) d (mem out) =
      .ok ((dst (out.length + R.length + S.length), (mergeS lt d R S).2), mem (out ++ (mergeS lt d R S).1)) := by
  intro k
  induction k with
  | zero =>
    intro R A S B out d hk e1 e2 hc
    have h1 : R = [] := List.eq_nil_of_length_eq_zero (by omega)
    have h2 : S = [] := List.eq_nil_of_length_eq_zero (by omega)
    subst h1; subst h2
    have c2 := copy_rest2 F [] B out e2 (by simp at hc ⊢; omega)
    simp only [List.append_nil] at e1
    rw [merge, e1]
    simp [c2, mergeS]
  | succ k ih =>
    intro R A S B out d hk e1 e2 hc
    cases R with
    | nil =>
      have c2 := copy_rest2 F S B out e2 (by simp at hc ⊢; omega)
      simp only [List.append_nil] at e1
      rw [merge, e1]
      simp [c2, mergeS]
    | cons x R =>
      have hA : A.length < xs.length := by rw [← e1]; simp
      rw [merge]
      simp only [Prog.ite_app]
      rw [if_pos (F.ne1 _ hA)]
      cases S with
      | nil =>
        have c1 := copy_rest1 F (x :: R) A out e1 (by simpa using hc)
        simp only [List.append_nil] at e2
        rw [e2]
        simp [c1, mergeS]
      | cons y S =>
        have hB : B.length < ys.length := by rw [← e2]; simp
        simp only [List.length_cons] at hc hk
        have dx := F.deref1 out A.length x (by omega) (by rw [← e1]; simp)
        have dy := F.deref2 out B.length y (by omega) (by rw [← e2]; simp)
        rw [if_neg (F.ne2 _ hB)]
        simp only [Prog.bind_app, dx, dy, Res.bind_ok, Prog.ite_app]
        cases q : (lt (y, x) d).1 with
        | true =>
          have := ih (x :: R) A S (B ++ [y]) (out ++ [y]) (lt (y, x) d).2 (by simp; omega) e1 (by simpa using e2) (by simp; omega)
          simp only [List.length_append, List.length_singleton] at this
          simp only [if_true, Prog.bind_app, dy, Res.bind_ok, F.assign out y (by omega), F.next2 (out ++ [y]) B.length (by simp; omega) hB,
            F.out (out ++ [y]) out.length (by simp; omega) (by omega), this, mergeS, q]
          simp [show out.length + 1 + (R.length + 1) + S.length = out.length + (R.length + 1) + (S.length + 1) by omega]
        | false =>
          have := ih R (A ++ [x]) (y :: S) B (out ++ [x]) (lt (y, x) d).2 (by simp; omega) (by simpa using e1) e2 (by simp; omega)
          simp only [List.length_append, List.length_singleton] at this
          simp only [Bool.false_eq_true, if_false, Prog.bind_app, dx, Res.bind_ok, F.assign out x (by omega), F.next1 (out ++ [x]) A.length (by simp; omega) hA,
            F.out (out ++ [x]) out.length (by simp; omega) (by omega), this, mergeS, q]
          simp [show out.length + 1 + R.length + (S.length + 1) = out.length + (R.length + 1) + (S.length + 1) by omega]

theorem transform2_flow {I : Iter σ ι T} {J : Iter σ κ U} {O : WIter σ ω V} {s1 : Nat → ι} {xs : List T} {s2 : Nat → κ} {ys : List U} {dst : Nat → ω} {cap : Nat}
    {mem : List V → σ} (F : Flow2 I J O s1 xs s2 ys dst cap mem) (hy : xs.length ≤ ys.length) (hc : xs.length ≤ cap) (op : Fn δ (T × U) V) :
    ∀ (R A : List T) (S B : List U) (out : List V) (d : δ), A ++ R = xs → B ++ S = ys → A.length = B.length → A.length = out.length →
    transform2 I J O op (s1 A.length) (s1 xs.length) (s2 B.length) (dst out.length) d (mem out) =
      .ok ((dst xs.length, (mapS op d (R.zip S)).2), mem (out ++ (mapS op d (R.zip S)).1)) := by
  intro R
  induction R with
  | nil => intro A S B out d e1 e2 hab ho; simp only [List.append_nil] at e1; subst e1; rw [transform2]; simp [mapS, ho]
  | cons x R ih =>
    intro A S B out d e1 e2 hab ho
    have hA : A.length < xs.length := by rw [← e1]; simp
    cases S with
    | nil => simp only [List.append_nil] at e2; subst e2; omega
    | cons y S =>
      have hB : B.length < ys.length := by rw [← e2]; simp
      have := ih (A ++ [x]) S (B ++ [y]) (out ++ [(op (x, y) d).1]) (op (x, y) d).2 (by simpa using e1) (by simpa using e2) (by simpa using hab) (by simpa using ho)
      simp only [List.length_append, List.length_singleton] at this
      rw [transform2]
      simp only [Prog.ite_app, if_neg (F.ne1 _ hA), Prog.bind_app, F.deref1 out A.length x (by omega) (by rw [← e1]; simp), Res.bind_ok,
        F.next1 out A.length (by omega) hA, F.deref2 out B.length y (by omega) (by rw [← e2]; simp), F.next2 out B.length (by omega) hB,
        F.assign out _ (by omega), F.out (out ++ [(op (x, y) d).1]) out.length (by simp; omega) (by omega), this, List.zip_cons_cons, mapS]
      simp
end Two

/-! ## Merge: number of comparisons -/

/-- A pure comparison merges as `mergeSeq`, and is called at most `n + m - 1` times (not at all if one range is empty). -/
theorem mergeS_logged (lt : T → T → Bool) : ∀ (k : Nat) (xs ys : List T) (log : List (T × T)), xs.length + ys.length = k →
    (mergeS (logged fun p : T × T => lt p.1 p.2) log xs ys).1 = Algo.mergeSeq lt xs ys ∧
    (xs ≠ [] → ys ≠ [] → (mergeS (logged fun p : T × T => lt p.1 p.2) log xs ys).2.length + 1 ≤ log.length + xs.length + ys.length) ∧
    (xs = [] ∨ ys = [] → (mergeS (logged fun p : T × T => lt p.1 p.2) log xs ys).2 = log) := by
  intro k
  induction k with
  | zero =>
    intro xs ys log hk
    have h1 : xs = [] := List.eq_nil_of_length_eq_zero (by omega)
    have h2 : ys = [] := List.eq_nil_of_length_eq_zero (by omega)
    subst h1; subst h2
    simp [mergeS, Algo.mergeSeq]
  | succ k ih =>
    intro xs ys log hk
    cases xs with
    | nil => simp [mergeS, Algo.mergeSeq]
    | cons x xs =>
      cases ys with
      | nil => simp [mergeS, Algo.mergeSeq]
      | cons y ys =>
        simp only [List.length_cons] at hk
        cases q : lt y x with
        | true =>
          obtain ⟨i1, i2, i3⟩ := ih (x :: xs) ys (log ++ [(y, x)]) (by simp; omega)
          refine ⟨by simp [mergeS, Algo.mergeSeq, logged, q]; simpa [logged] using i1, ?_, by simp⟩
          intro _ _
          rw [mergeS]
          simp only [logged, q, if_true]
          cases ys with
          | nil => have := congrArg List.length (i3 (.inr rfl)); simp [logged] at this ⊢; omega
          | cons => have := i2 (by simp) (by simp); simp [logged] at this ⊢; omega
        | false =>
          obtain ⟨i1, i2, i3⟩ := ih xs (y :: ys) (log ++ [(y, x)]) (by simp; omega)
          refine ⟨by simp [mergeS, Algo.mergeSeq, logged, q]; simpa [logged] using i1, ?_, by simp⟩
          intro _ _
          rw [mergeS]
          simp only [logged, q, Bool.false_eq_true, if_false]
          cases xs with
          | nil => have := congrArg List.length (i3 (.inl rfl)); simp [logged] at this ⊢; omega
          | cons => have := i2 (by simp) (by simp); simp [logged] at this ⊢; omega
end Verif.Gen
