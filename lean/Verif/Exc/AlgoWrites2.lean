import Verif.Exc.AlgoWrites
/-!
# What an exception leaves behind: remove, reverse, swap_ranges, merge
-/
set_option linter.unusedVariables false
set_option linter.unusedSimpArgs false
set_option linter.unusedSectionVars false
namespace Verif.Exc.XAlgo
open Verif Verif.Exc Verif.Gen
variable {σ ι κ ω T U V δ α β : Type}

/-! ## remove_if -/

theorem filterS_append (p : Fn δ T Bool) : ∀ (xs ys : List T) (d : δ), (filterS p d (xs ++ ys)).1 = (filterS p d xs).1 ++ (filterS p (filterS p d xs).2 ys).1 ∧
    (filterS p d (xs ++ ys)).2 = (filterS p (filterS p d xs).2 ys).2
  | [], ys, d => by simp [filterS]
  | x :: xs, ys, d => by
    obtain ⟨e1, e2⟩ := filterS_append p xs ys (p x d).2
    simp only [List.cons_append, filterS, e1, e2, and_true]
    split <;> simp

theorem scan_parts (p : Fn δ T Bool) : ∀ (xs : List T) (d : δ), (scanS p d xs).1 < xs.length → ∃ A x R, xs = A ++ x :: R ∧ A.length = (scanS p d xs).1 ∧
    filterS (notS p) d (A ++ [x]) = (A, (scanS p d xs).2)
  | [], d, h => by simp [scanS] at h
  | x :: xs, d, h => by
    cases q : (p x d).1 with
    | true => exact ⟨[], x, xs, rfl, by simp [scanS, q], by simp [scanS, q, filterS, notS]⟩
    | false =>
      simp only [scanS, q, Bool.false_eq_true, if_false, List.length_cons, Nat.add_lt_add_iff_right] at h
      obtain ⟨A, y, R, e, l, f⟩ := scan_parts p xs (p x d).2 h
      refine ⟨x :: A, y, R, by simp [e], by simp [scanS, q, l], ?_⟩
      have nx : notS p x d = (true, (p x d).2) := by simp [notS, q]
      simp only [List.cons_append, scanS, q, Bool.false_eq_true, if_false, filterS, nx, if_true, f]

theorem scan_before (p : Fn δ T Bool) : ∀ (xs : List T) (d : δ) (k : Nat), k ≤ (scanS p d xs).1 → (filterS (notS p) d (xs.take k)).1 = xs.take k
  | [], d, k, h => by simp [filterS]
  | x :: xs, d, 0, h => by simp [filterS]
  | x :: xs, d, k + 1, h => by
    cases q : (p x d).1 with
    | true => simp [scanS, q] at h
    | false =>
      simp only [scanS, q, Bool.false_eq_true, if_false, Nat.add_le_add_iff_right] at h
      have nx : notS p x d = (true, (p x d).2) := by simp [notS, q]
      simp only [List.take_succ_cons, filterS, nx, if_true, scan_before p xs (p x d).2 k h]

section Write
variable [DecidableEq ι] {I : WIter σ ι T} {pos : Nat → ι} {n : Nat} {mem : List T → σ}

theorem removeLoop_tail (W : Window I pos n mem) (residue : T → T) (p : Fn δ T Bool) : ∀ (R K G : List T) (g : T) (d : δ), (K ++ g :: G ++ R).length = n →
    ∃ J, Does (Gen.removeLoop I residue p (pos K.length) (pos (K.length + G.length)) (pos n) d) (removeLoop I residue p (pos K.length) (pos (K.length + G.length)) (pos n) d)
      (mem (K ++ g :: G ++ R)) (R.length + (filterS (notS p) d R).1.length)
      (pos (K.length + (filterS (notS p) d R).1.length), (filterS (notS p) d R).2) (mem (K ++ (filterS (notS p) d R).1 ++ J))
      (fun k t => ∃ m Q, m ≤ k ∧ k ≤ 2 * m + 1 ∧ m < R.length ∧ (K ++ (filterS (notS p) d (R.take m)).1 ++ Q ++ R.drop m).length = n ∧
        t = mem (K ++ (filterS (notS p) d (R.take m)).1 ++ Q ++ R.drop m)) ∧
      (K ++ (filterS (notS p) d R).1 ++ J).length = n := by
  intro R
  induction R with
  | nil =>
    intro K G g d hl
    refine ⟨g :: G, ?_, by simpa [filterS] using hl⟩
    have e : K.length + G.length + 1 = n := by simp at hl; omega
    rw [Gen.removeLoop, removeLoop]
    refine Does.call (W.next _ hl (K.length + G.length) (by omega)) ?_
    simp only [e, if_true]
    exact Does.cast (by simp [filterS]) (by simp [filterS]) (by simp [filterS]) Does.pure_
  | cons x R ih =>
    intro K G g d hl
    have e : K.length + G.length + 1 < n := by simp at hl; omega
    have hd := W.deref _ hl (K.length + G.length + 1) x (by
      rw [List.getElem?_append_right (by simp; omega)]
      simp [show K.length + G.length + 1 - (K.length + (G.length + 1)) = 0 by omega])
    rw [Gen.removeLoop, removeLoop]
    have z : ∃ m Q, m ≤ 0 ∧ 0 ≤ 2 * m + 1 ∧ m < (x :: R).length ∧ (K ++ (filterS (notS p) d ((x :: R).take m)).1 ++ Q ++ (x :: R).drop m).length = n ∧
        mem (K ++ g :: G ++ x :: R) = mem (K ++ (filterS (notS p) d ((x :: R).take m)).1 ++ Q ++ (x :: R).drop m) :=
      ⟨0, g :: G, by omega, by omega, by simp, by simp [filterS] at hl ⊢; omega, by simp [filterS]⟩
    cases q : (p x d).1 with
    | true =>
      have fT : ∀ R, filterS (notS p) d (x :: R) = filterS (notS p) (p x d).2 R := by intro R; simp [filterS, notS, q]
      obtain ⟨J, X, l1⟩ := ih K (G ++ [x]) g (p x d).2 (by simp at hl ⊢; omega)
      refine ⟨J, ?_, by rw [fT]; exact l1⟩
      have e2 : K ++ g :: (G ++ [x]) ++ R = K ++ g :: G ++ x :: R := by simp
      simp only [e2, List.length_append, List.length_singleton] at X
      rw [show K.length + (G.length + 1) = K.length + G.length + 1 by omega] at X
      refine Does.cast (n := R.length + (filterS (notS p) (p x d).2 R).1.length + 1) (by rw [fT]; simp; omega) rfl rfl ?_
      refine Does.call (W.next _ hl (K.length + G.length) (by omega)) ?_
      simp only [if_neg (W.ne e (Nat.le_refl _))]
      refine Does.call hd (Does.point z ?_)
      simp only [q, Bool.not_true, Bool.false_eq_true, if_false]
      refine Does.cast rfl (by rw [fT]) (by rw [fT]) (X.imp fun k t _ E => ?_)
      obtain ⟨m, Q, h1, h2, h3, h4, E⟩ := E
      exact ⟨m + 1, Q, by omega, by omega, by simpa using h3, by simp only [List.take_succ_cons, fT, List.drop_succ_cons]; simp at h4 ⊢; omega,
        by simp only [List.take_succ_cons, fT, List.drop_succ_cons]; exact E⟩
    | false =>
      have fF : ∀ R, filterS (notS p) d (x :: R) = (x :: (filterS (notS p) (p x d).2 R).1, (filterS (notS p) (p x d).2 R).2) := by intro R; simp [filterS, notS, q]
      have ha := W.assign _ hl (K.length + G.length + 1) e (residue x)
      have e3 : (K ++ g :: G ++ x :: R).set (K.length + G.length + 1) (residue x) = K ++ g :: (G ++ residue x :: R) := by
        rw [List.set_append_right _ _ (by simp; omega)]
        simp [show K.length + G.length + 1 - (K.length + (G.length + 1)) = 0 by omega]
      rw [e3] at ha
      have l3 : (K ++ g :: (G ++ residue x :: R)).length = n := by simp at hl ⊢; omega
      have l4 : (K ++ x :: (G ++ residue x :: R)).length = n := by simp at hl ⊢; omega
      have mv : moveFrom I residue (pos (K.length + G.length + 1)) (mem (K ++ g :: G ++ x :: R)) = .ok (x, mem (K ++ g :: (G ++ residue x :: R))) := by
        simp only [moveFrom, Prog.bind_app, hd, Res.bind_ok, ha, Prog.pure_app]
      obtain ⟨g', G', eg⟩ : ∃ g' G', G ++ [residue x] = g' :: G' := by cases G <;> simp
      have lg : G'.length = G.length := by have := congrArg List.length eg; simp at this; omega
      have eR : K ++ x :: (G ++ residue x :: R) = (K ++ [x]) ++ g' :: G' ++ R := by rw [← eg]; simp
      obtain ⟨J, X, l1⟩ := ih (K ++ [x]) G' g' (p x d).2 (by rw [← eR]; exact l4)
      refine ⟨J, ?_, by rw [fF]; simpa using l1⟩
      rw [← eR] at X
      simp only [List.length_append, List.length_singleton, lg] at X
      rw [show K.length + 1 + G.length = K.length + G.length + 1 by omega] at X
      refine Does.cast (n := R.length + (filterS (notS p) (p x d).2 R).1.length + 1 + 1) (by rw [fF]; simp; omega) rfl rfl ?_
      refine Does.call (W.next _ hl (K.length + G.length) (by omega)) ?_
      simp only [if_neg (W.ne e (Nat.le_refl _))]
      refine Does.call hd (Does.point z ?_)
      simp only [q, Bool.not_false, if_true]
      obtain ⟨m0, Q0, a1, a2, a3, a4, a5⟩ := z
      refine Does.point ⟨m0, Q0, by omega, by omega, a3, a4, a5⟩ (Does.call mv (Does.call (W.assign_at l3 x) (Does.call (W.next _ l4 K.length (by omega)) ?_)))
      refine Does.cast rfl (by rw [fF]; simp only [List.length_cons, Prod.mk.injEq, and_true]; congr 1; omega) (by rw [fF]; simp) (X.imp fun k t _ E => ?_)
      obtain ⟨m, Q, h1, h2, h3, h4, E⟩ := E
      exact ⟨m + 1, Q, by omega, by omega, by simpa using h3, by simp only [List.take_succ_cons, fF, List.drop_succ_cons]; simp at h4 ⊢; omega,
        by simp only [List.take_succ_cons, fF, List.drop_succ_cons]; simpa using E⟩

theorem removeIf_window (W : Window I pos n mem) {xs : List T} (hx : xs.length = n) (residue : T → T) (p : Fn δ T Bool) (d : δ) :
    ∃ J, Does (Gen.removeIf I residue p (pos 0) (pos n) d) (removeIf I residue p (pos 0) (pos n) d) (mem xs)
      (xs.length + ((filterS (notS p) d xs).1.length - (scanS p d xs).1))
      (pos (filterS (notS p) d xs).1.length, (filterS (notS p) d xs).2) (mem ((filterS (notS p) d xs).1 ++ J))
      (fun k t => ∃ m Q, m ≤ k ∧ k ≤ 2 * m + 1 ∧ m < xs.length ∧ ((filterS (notS p) d (xs.take m)).1 ++ Q ++ xs.drop m).length = n ∧
        t = mem ((filterS (notS p) d (xs.take m)).1 ++ Q ++ xs.drop m)) ∧
      ((filterS (notS p) d xs).1 ++ J).length = n := by
  obtain ⟨it, r, X⟩ := findIf_does (W.range xs [] (by simpa using hx)) p d
  have ro := W.reach hx (scanS p d xs).1 0 (by have := scanS_le p xs d; omega)
  rw [Nat.zero_add] at ro
  cases r.unique ro
  simp only [List.length_nil, List.nil_append] at X
  have X' : Does _ _ _ _ _ _ (fun k t => ∃ m Q, m ≤ k ∧ k ≤ 2 * m + 1 ∧ m < xs.length ∧ ((filterS (notS p) d (xs.take m)).1 ++ Q ++ xs.drop m).length = n ∧
        t = mem ((filterS (notS p) d (xs.take m)).1 ++ Q ++ xs.drop m)) := X.imp (by
    intro k t hk e
    have hk' : k ≤ (scanS p d xs).1 ∧ k < xs.length := by simp only [asked] at hk; omega
    exact ⟨k, [], by omega, by omega, hk'.2, by rw [scan_before p xs d k hk'.1]; simpa using hx, by rw [scan_before p xs d k hk'.1, e]; simp⟩)
  rw [Gen.removeIf, removeIf]
  rcases Nat.lt_or_ge (scanS p d xs).1 xs.length with h | h
  · obtain ⟨A, x, R, e, l, f⟩ := scan_parts p xs d h
    have ex : xs = (A ++ [x]) ++ R := by rw [e]; simp
    have fx : filterS (notS p) d xs = (A ++ (filterS (notS p) (scanS p d xs).2 R).1, (filterS (notS p) (scanS p d xs).2 R).2) := by
      have a := filterS_append (notS p) (A ++ [x]) R d
      rw [← ex, f] at a
      exact Prod.ext a.1 a.2
    obtain ⟨J, Y, l1⟩ := removeLoop_tail W residue p R A [] x (scanS p d xs).2 (by rw [← hx, e]; simp)
    simp only [List.append_assoc, List.cons_append, List.nil_append, ← e, List.length_nil, Nat.add_zero] at Y
    have ha : asked p d xs = A.length + 1 := by simp only [asked]; omega
    have hn : xs.length = A.length + 1 + R.length := by rw [ex]; simp; omega
    refine ⟨J, ?_, by rw [fx]; simpa using l1⟩
    refine Does.cast (n := asked p d xs + (R.length + (filterS (notS p) (scanS p d xs).2 R).1.length)) (by rw [fx]; simp; omega) rfl rfl (Does.seq X' ?_)
    simp only [ne_eq, W.ne (show (scanS p d xs).1 < n by omega) (Nat.le_refl _), not_false_eq_true, if_true]
    rw [← l]
    refine Does.cast rfl (by rw [fx]; simp) (by rw [fx]; simp) (Y.imp fun k t _ E => ?_)
    obtain ⟨m, Q, h1, h2, h3, h4, E⟩ := E
    have et : xs.take (A.length + 1 + m) = (A ++ [x]) ++ R.take m := by
      rw [ex, List.take_append, List.take_of_length_le (by simp)]; simp
    have ed : xs.drop (A.length + 1 + m) = R.drop m := by
      rw [ex, List.drop_append, List.drop_of_length_le (by simp)]; simp
    have ef : (filterS (notS p) d (xs.take (A.length + 1 + m))).1 = A ++ (filterS (notS p) (scanS p d xs).2 (R.take m)).1 := by
      rw [et, (filterS_append (notS p) (A ++ [x]) (R.take m) d).1, f]
    exact ⟨A.length + 1 + m, Q, by omega, by omega, by omega, by rw [ef, ed]; simpa using h4, by rw [ef, ed]; simpa using E⟩
  · have hh : (scanS p d xs).1 = xs.length := by have := scanS_le p xs d; omega
    have fx := scan_all p xs d hh
    refine ⟨[], ?_, by rw [fx]; simpa using hx⟩
    have ha : asked p d xs = xs.length := by simp only [asked]; omega
    refine Does.cast (n := asked p d xs + 0) (by rw [fx]; simp; omega) rfl rfl (Does.seq X' ?_)
    simp only [hh, hx, ne_eq, not_true_eq_false, if_false]
    exact Does.cast rfl (by rw [fx]; simp [hx]) (by rw [fx]; simp) Does.pure_
end Write

/-! ## Exchanging -/

theorem reverse_tail [DecidableEq ι] {I : WIter σ ι T} {pos : Nat → ι} {n : Nat} {mem : List T → σ} (W : BiWindow I pos n mem) :
    ∀ (k : Nat) (A M B : List T), M.length = k → (A ++ M ++ B).length = n →
    Does (Gen.reverse I (pos A.length) (pos (A.length + M.length))) (reverse I (pos A.length) (pos (A.length + M.length))) (mem (A ++ M ++ B)) (3 * (M.length / 2)) ()
      (mem (A ++ M.reverse ++ B))
      (fun k t => t = mem (A ++ (M.reverse.take ((k + 1) / 3) ++ (M.take (M.length - k / 3)).drop ((k + 1) / 3) ++ M.reverse.drop (M.length - k / 3)) ++ B)) := by
  intro k
  induction k using Nat.strongRecOn with
  | ind k ih =>
    intro A M B hk hl
    rw [Gen.reverse, reverse]
    cases M with
    | nil => simp only [List.length_nil, Nat.add_zero, if_true]; exact Does.pure_
    | cons x M =>
      have hll : A.length + M.length + 1 + B.length = n := by simp at hl; omega
      have ne1 : pos A.length ≠ pos (A.length + (x :: M).length) := W.toWindow.ne (by simp) (by simp; omega)
      have pv := W.prev _ hl (A.length + M.length) (by omega)
      rw [show A.length + M.length + 1 = A.length + (x :: M).length by simp; omega] at pv
      simp only [if_neg ne1]
      rcases List.eq_nil_or_concat M with rfl | ⟨M, y, rfl⟩
      · refine Does.cast (n := 0) (by simp) rfl rfl (Does.call pv ?_)
        simp only [List.length_nil, Nat.add_zero, if_true]
        exact Does.pure_
      · have ne2 : pos A.length ≠ pos (A.length + (M.concat y).length) := W.toWindow.ne (by simp) (by omega)
        have e0 : A ++ x :: M.concat y ++ B = A ++ x :: (M ++ y :: B) := by simp
        have e0' : A ++ x :: (M ++ y :: B) = (A ++ x :: M) ++ y :: B := by simp
        have lA : A.length + (M.concat y).length = (A ++ x :: M).length := by simp
        have e1 : A ++ y :: (M ++ y :: B) = (A ++ y :: M) ++ y :: B := by simp
        have lB : A.length + (M.concat y).length = (A ++ y :: M).length := by simp
        have l0 : (A ++ x :: (M ++ y :: B)).length = n := by rw [← e0]; exact hl
        have l1 : (A ++ y :: (M ++ y :: B)).length = n := by simp at l0 ⊢; omega
        have g1 : I.deref (pos (A.length + (M.concat y).length)) (mem (A ++ x :: (M ++ y :: B))) = .ok (y, mem (A ++ x :: (M ++ y :: B))) := by
          rw [lA, e0']; exact W.toWindow.deref_at (by rw [← e0']; exact l0)
        have g2 : I.assign (pos (A.length + (M.concat y).length)) x (mem (A ++ y :: (M ++ y :: B))) = .ok ((), mem ((A ++ [y]) ++ M ++ x :: B)) := by
          rw [lB, e1, W.toWindow.assign_at (by rw [← e1]; exact l1)]; simp
        have l2 : ((A ++ [y]) ++ M ++ x :: B).length = n := by simp at l1 ⊢; omega
        have X := ih M.length (by simp at hk; omega) (A ++ [y]) M (x :: B) rfl l2
        simp only [List.length_append, List.length_singleton] at X
        rw [show A.length + 1 + M.length = A.length + (M.concat y).length by simp; omega] at X
        have es : (A ++ (x :: M.concat y).reverse ++ B) = (A ++ [y]) ++ M.reverse ++ x :: B := by simp
        refine Does.cast (n := 3 + 3 * (M.length / 2)) (by simp; omega) rfl rfl (Does.call pv ?_)
        simp only [if_neg ne2]
        rw [e0, es]
        refine Does.seq (n := 3) (a := ()) (s1 := mem ((A ++ [y]) ++ M ++ x :: B)) ?_ (Does.call (W.next _ l2 A.length (by omega)) ?_)
        · have hr : (x :: M.concat y).length ≤ (x :: M.concat y).reverse.length := by simp
          have z : mem (A ++ x :: (M ++ y :: B)) = mem (A ++ ((x :: M.concat y).reverse.take 0 ++ ((x :: M.concat y).take ((x :: M.concat y).length - 0)).drop 0 ++
              (x :: M.concat y).reverse.drop ((x :: M.concat y).length - 0)) ++ B) := by
            rw [Nat.sub_zero, List.drop_of_length_le (l := (x :: M.concat y).reverse) (by simp), List.take_of_length_le (Nat.le_refl _)]; simp
          have z2 : mem (A ++ y :: (M ++ y :: B)) = mem (A ++ ((x :: M.concat y).reverse.take 1 ++ ((x :: M.concat y).take ((x :: M.concat y).length - 0)).drop 1 ++
              (x :: M.concat y).reverse.drop ((x :: M.concat y).length - 0)) ++ B) := by
            rw [Nat.sub_zero, List.drop_of_length_le (l := (x :: M.concat y).reverse) (by simp), List.take_of_length_le (Nat.le_refl _)]; simp
          exact Does.call (W.toWindow.deref_at l0) (Does.point z (Does.call g1 (Does.point z (Does.call (W.toWindow.assign_at l0 y) (Does.point z2 ⟨g2, Points.call_ g2⟩)))))
        · refine X.imp fun k t hk' E => ?_
          rw [E]
          have h1 : (3 + k + 1) / 3 = (k + 1) / 3 + 1 := by omega
          have h2 : (3 + k) / 3 = k / 3 + 1 := by omega
          have h3 : (x :: M.concat y).length - (k / 3 + 1) = M.length - k / 3 + 1 := by simp; omega
          rw [h1, h2, h3]
          have h4 : (k + 1) / 3 ≤ M.length := by omega
          have h5 : k / 3 ≤ M.length := by omega
          simp only [List.concat_eq_append, List.reverse_cons, List.reverse_append, List.reverse_nil, List.nil_append, List.cons_append, List.take_succ_cons, List.drop_succ_cons,
            List.take_append_of_le_length (show (k + 1) / 3 ≤ M.reverse.length by simpa using h4), List.take_append_of_le_length (show M.length - k / 3 ≤ M.length by omega),
            List.drop_append_of_le_length (show M.length - k / 3 ≤ M.reverse.length by simp), List.append_assoc]

section Other
variable [DecidableEq ι] {I : WIter σ ι T} {pos : Nat → ι} {n : Nat} {J : WIter σ κ T} {pos' : Nat → κ} {n' : Nat} {mem : List T → List T → σ}

theorem swapRanges_tail (W : Window2 I pos n J pos' n' mem) : ∀ (R A S B C : List T), (A ++ R).length = n → (B ++ S ++ C).length = n' → A.length = B.length →
    R.length = S.length →
    Does (Gen.swapRanges I J (pos A.length) (pos n) (pos' B.length)) (swapRanges I J (pos A.length) (pos n) (pos' B.length)) (mem (A ++ R) (B ++ S ++ C)) (3 * R.length)
      (pos' n) (mem (A ++ S) (B ++ R ++ C))
      (fun k t => t = mem (A ++ (S.take ((k + 1) / 3) ++ R.drop ((k + 1) / 3))) (B ++ (R.take (k / 3) ++ S.drop (k / 3)) ++ C)) := by
  intro R
  induction R with
  | nil =>
    intro A S B C hA hB hAB hRS
    cases S with
    | nil => simp only [List.append_nil] at hA ⊢; rw [Gen.swapRanges, swapRanges, hA]; simp only [if_true]; exact Does.cast rfl (by rw [← hAB, hA]) rfl Does.pure_
    | cons => simp at hRS
  | cons x R ih =>
    intro A S B C hA hB hAB hRS
    cases S with
    | nil => simp at hRS
    | cons y S =>
      have hl : A.length < n := by simp at hA; omega
      have hl' : B.length < n' := by simp at hB; omega
      rw [Gen.swapRanges, swapRanges]
      have W1 := W.left (B ++ (y :: S) ++ C) hB
      have e : B ++ (y :: S) ++ C = B ++ y :: (S ++ C) := by simp
      have hB1 : (B ++ y :: (S ++ C)).length = n' := by rw [← e]; exact hB
      have hB2 : (B ++ x :: (S ++ C)).length = n' := by simp at hB1 ⊢; omega
      have hA2 : (A ++ y :: R).length = n := by simp at hA ⊢; omega
      have a1 := (W.left _ hB1).deref_at hA
      have a2 := (W.right _ hA).deref_at hB1
      have a3 := (W.left _ hB1).assign_at hA y
      have a4 := (W.right _ hA2).assign_at hB1 x
      have a5 := (W.left _ hB2).next _ hA2 A.length hl
      have a6 := (W.right _ hA2).next _ hB2 B.length hl'
      have X := ih (A ++ [y]) S (B ++ [x]) C (by simpa using hA) (by simp at hB ⊢; omega) (by simpa using hAB) (by simpa using hRS)
      simp only [List.length_append, List.length_singleton] at X
      have e1 : A ++ [y] ++ R = A ++ y :: R := by simp
      have e2 : B ++ [x] ++ S ++ C = B ++ x :: (S ++ C) := by simp
      have e3 : A ++ [y] ++ S = A ++ y :: S := by simp
      have e4 : B ++ [x] ++ R ++ C = B ++ (x :: R) ++ C := by simp
      rw [e1, e2, e3, e4] at X
      simp only [if_neg (W1.ne hl (Nat.le_refl _))]
      rw [e]
      refine Does.cast (n := 3 + 3 * R.length) (by simp; omega) rfl rfl (Does.seq (n := 3) (a := ()) (s1 := mem (A ++ y :: R) (B ++ x :: (S ++ C))) ?_ (Does.call a5 (Does.call a6 ?_)))
      · exact Does.call a1 (Does.point (by simp) (Does.call a2 (Does.point (by simp) (Does.call a3 (Does.point (by simp) ⟨a4, Points.call_ a4⟩)))))
      · refine X.imp fun k t _ E => ?_
        rw [E, show (3 + k + 1) / 3 = (k + 1) / 3 + 1 by omega, show (3 + k) / 3 = k / 3 + 1 by omega]
        simp

theorem reverseCopy_tail (mem : List T → List T → σ) (W : ∀ ys, ys.length = n' → BiWindow I pos n (fun xs => mem xs ys)) (W' : ∀ xs, xs.length = n → Window J pos' n' (mem xs)) :
    ∀ (k : Nat) (R A out C : List T), R.length = k → (R ++ A).length = n → (out ++ C).length = n' → R.length ≤ C.length →
    Does (Gen.reverseCopy I J (pos 0) (pos R.length) (pos' out.length)) (reverseCopy I J (pos 0) (pos R.length) (pos' out.length)) (mem (R ++ A) (out ++ C)) R.length
      (pos' (out.length + R.length)) (mem (R ++ A) (out ++ R.reverse ++ C.drop R.length))
      (fun k t => t = mem (R ++ A) (out ++ R.reverse.take k ++ C.drop k)) := by
  intro k
  induction k with
  | zero =>
    intro R A out C hk hA hB hRC
    have : R = [] := List.eq_nil_of_length_eq_zero hk
    subst this
    rw [Gen.reverseCopy, reverseCopy]; simp only [List.length_nil, if_true]
    exact Does.cast rfl (by simp) (by simp) Does.pure_
  | succ k ih =>
    intro R A out C hk hA hB hRC
    rcases List.eq_nil_or_concat R with rfl | ⟨R, x, rfl⟩
    · simp at hk
    · cases C with
      | nil => simp at hRC
      | cons c C =>
        have hl : R.length < n := by simp at hA; omega
        have ne : pos 0 ≠ pos (R.length + 1) := (W _ hB).toWindow.ne (by omega) (by omega)
        rw [Gen.reverseCopy, reverseCopy]
        have pv := (W _ hB).prev _ hA R.length hl
        have e : R.concat x ++ A = R ++ x :: A := by simp
        have hB1 : (out ++ x :: C).length = n' := by simp at hB ⊢; omega
        rw [e] at hA pv ⊢
        have a1 := (W _ hB).toWindow.deref_at hA
        have a2 := (W' _ hA).assign_at hB x
        have a3 := (W' _ hA).next _ hB1 out.length (by simp at hB; omega)
        have X := ih R (x :: A) (out ++ [x]) C (by simp at hk; omega) hA (by simpa using hB1) (by simpa using hRC)
        simp only [List.length_append, List.length_singleton, List.append_assoc, List.singleton_append] at X
        simp only [show (R.concat x).length = R.length + 1 by simp, if_neg ne]
        refine Does.call pv (Does.call a1 (Does.point (by simp) (Does.call a2 (Does.call a3 ?_))))
        exact Does.cast rfl (by congr 1; omega) (by simp) (X.imp fun k t _ E => by rw [E]; simp)

theorem copyBackward_tail (W : ∀ ys, ys.length = n' → BiWindow I pos n (fun xs => mem xs ys)) (W' : ∀ xs, xs.length = n → BiWindow J pos' n' (mem xs)) :
    ∀ (k : Nat) (R A C out : List T), R.length = k → (R ++ A).length = n → (C ++ out).length = n' → R.length ≤ C.length →
    Does (Gen.copyBackward I J (pos 0) (pos R.length) (pos' C.length)) (copyBackward I J (pos 0) (pos R.length) (pos' C.length)) (mem (R ++ A) (C ++ out)) R.length
      (pos' (C.length - R.length)) (mem (R ++ A) (C.take (C.length - R.length) ++ R ++ out))
      (fun k t => t = mem (R ++ A) (C.take (C.length - k) ++ R.drop (R.length - k) ++ out)) := by
  intro k
  induction k with
  | zero =>
    intro R A C out hk hA hB hRC
    have : R = [] := List.eq_nil_of_length_eq_zero hk
    subst this
    rw [Gen.copyBackward, copyBackward]; simp only [List.length_nil, if_true]
    exact Does.cast rfl (by simp) (by simp) Does.pure_
  | succ k ih =>
    intro R A C out hk hA hB hRC
    rcases List.eq_nil_or_concat R with rfl | ⟨R, x, rfl⟩
    · simp at hk
    · rcases List.eq_nil_or_concat C with rfl | ⟨C, c, rfl⟩
      · simp at hRC
      · have hl : R.length < n := by simp at hA; omega
        have hl' : C.length < n' := by simp at hB; omega
        have ne : pos 0 ≠ pos (R.length + 1) := (W _ hB).toWindow.ne (by omega) (by omega)
        rw [Gen.copyBackward, copyBackward]
        have e : R.concat x ++ A = R ++ x :: A := by simp
        have e' : C.concat c ++ out = C ++ c :: out := by simp
        have hB1 : (C ++ x :: out).length = n' := by simp at hB ⊢; omega
        rw [e'] at hB ⊢
        rw [e] at hA ⊢
        have pv := (W _ hB).prev _ hA R.length hl
        have pv' := (W' _ hA).prev _ hB C.length hl'
        have a1 := (W _ hB).toWindow.deref_at hA
        have a2 := (W' _ hA).toWindow.assign_at hB x
        have X := ih R (x :: A) C (x :: out) (by simp at hk; omega) hA hB1 (by simpa using hRC)
        simp only [show (R.concat x).length = R.length + 1 by simp, if_neg ne, show (C.concat c).length = C.length + 1 by simp]
        refine Does.call pv (Does.call pv' (Does.call a1 (Does.point ?_ (Does.call a2 ?_))))
        · rw [List.drop_of_length_le (by simp), List.take_of_length_le (by simp)]; simp
        · have hRC' : R.length ≤ C.length := by simpa using hRC
          refine Does.cast rfl (by congr 1; omega) ?_ (X.imp fun k t hk E => ?_)
          · rw [show C.length + 1 - (R.length + 1) = C.length - R.length by omega, List.concat_eq_append, List.concat_eq_append, List.take_append_of_le_length (by omega)]; simp
          · rw [E, show C.length + 1 - (k + 1) = C.length - k by omega, show R.length + 1 - (k + 1) = R.length - k by omega, List.concat_eq_append, List.concat_eq_append,
              List.take_append_of_le_length (by omega), List.drop_append_of_le_length (by omega)]
            simp
end Other

/-! ## Two inputs and an output -/
section Two
variable [DecidableEq ι] [DecidableEq κ]

theorem copy_rest1 {I : Iter σ ι T} {J : Iter σ κ U} {O : WIter σ ω T} {s1 : Nat → ι} {xs : List T} {s2 : Nat → κ} {ys : List U} {dst : Nat → ω} {cap : Nat}
    {mem : List T → σ} (F : Flow2 I J O s1 xs s2 ys dst cap mem) : ∀ (R A out : List T), A ++ R = xs → out.length + R.length ≤ cap →
    Does (Gen.copy I O (s1 A.length) (s1 xs.length) (dst out.length)) (copy I O (s1 A.length) (s1 xs.length) (dst out.length)) (mem out) R.length
      (dst (out.length + R.length)) (mem (out ++ R)) (fun k t => t = mem (out ++ R.take k)) := by
  intro R
  induction R with
  | nil => intro A out e hc; simp only [List.append_nil] at e; subst e; rw [Gen.copy, copy]; simp only [if_true]; exact Does.cast rfl (by simp) (by simp) Does.pure_
  | cons x R ih =>
    intro A out e hc
    have hA : A.length < xs.length := by rw [← e]; simp
    simp only [List.length_cons] at hc
    have X := ih (A ++ [x]) (out ++ [x]) (by simpa using e) (by simp; omega)
    simp only [List.length_append, List.length_singleton] at X
    rw [Gen.copy, copy]
    simp only [if_neg (F.ne1 _ hA)]
    refine Does.call (F.deref1 out A.length x (by omega) (by rw [← e]; simp)) (Does.point (by simp) (Does.call (F.assign out x (by omega))
      (Does.call (F.out (out ++ [x]) out.length (by simp; omega) (by omega)) (Does.call (F.next1 (out ++ [x]) A.length (by simp; omega) hA) ?_))))
    exact Does.cast rfl (by simp only [List.length_cons]; congr 1; omega) (by simp) (X.imp fun k t _ E => by rw [E]; simp)

theorem copy_rest2 {I : Iter σ ι T} {J : Iter σ κ U} {O : WIter σ ω U} {s1 : Nat → ι} {xs : List T} {s2 : Nat → κ} {ys : List U} {dst : Nat → ω} {cap : Nat}
    {mem : List U → σ} (F : Flow2 I J O s1 xs s2 ys dst cap mem) : ∀ (R A out : List U), A ++ R = ys → out.length + R.length ≤ cap →
    Does (Gen.copy J O (s2 A.length) (s2 ys.length) (dst out.length)) (copy J O (s2 A.length) (s2 ys.length) (dst out.length)) (mem out) R.length
      (dst (out.length + R.length)) (mem (out ++ R)) (fun k t => t = mem (out ++ R.take k)) := by
  have F' : Flow2 J I O s2 ys s1 xs dst cap mem := ⟨F.ne2, F.ne1, F.deref2, F.deref1, F.next2, F.next1, F.assign, F.out⟩
  exact copy_rest1 F'

/-- The number of comparisons a merge makes. -/
def comparisons (lt : Fn δ (T × T) Bool) : δ → List T → List T → Nat
  | _, [], _ => 0
  | _, _ :: _, [] => 0
  | d, x :: xs, y :: ys => if (lt (y, x) d).1 then comparisons lt (lt (y, x) d).2 (x :: xs) ys + 1 else comparisons lt (lt (y, x) d).2 xs (y :: ys) + 1
termination_by _ xs ys => xs.length + ys.length

theorem merge_flow {I : Iter σ ι T} {J : Iter σ κ T} {O : WIter σ ω T} {s1 : Nat → ι} {xs : List T} {s2 : Nat → κ} {ys : List T} {dst : Nat → ω} {cap : Nat}
    {mem : List T → σ} (F : Flow2 I J O s1 xs s2 ys dst cap mem) (lt : Fn δ (T × T) Bool) :
    ∀ (k : Nat) (R A S B out : List T) (d : δ), R.length + S.length = k → A ++ R = xs → B ++ S = ys → out.length + R.length + S.length ≤ cap →
    Does (Gen.merge I J O lt (s1 A.length) (s1 xs.length) (s2 B.length) (s2 ys.length) (dst out.length) d)
      (merge I J O lt (s1 A.length) (s1 xs.length) (s2 B.length) (s2 ys.length) (dst out.length) d) (mem out) (R.length + S.length + comparisons lt d R S)
      (dst (out.length + R.length + S.length), (mergeS lt d R S).2) (mem (out ++ (mergeS lt d R S).1))
      (fun k t => ∃ m, m ≤ k ∧ k ≤ 2 * m + 1 ∧ m < R.length + S.length ∧ t = mem (out ++ (mergeS lt d R S).1.take m)) := by
  intro k
  induction k with
  | zero =>
    intro R A S B out d hk e1 e2 hc
    have h1 : R = [] := List.eq_nil_of_length_eq_zero (by omega)
    have h2 : S = [] := List.eq_nil_of_length_eq_zero (by omega)
    subst h1; subst h2
    have c2 := copy_rest2 F [] B out e2 (by simp at hc ⊢; omega)
    simp only [List.append_nil] at e1
    rw [Gen.merge, merge, e1]
    simp only [ne_eq, not_true_eq_false, if_false]
    exact Does.cast (by simp [comparisons]) (by simp [mergeS]) (by simp [mergeS]) (Does.map (fun a => (a, d)) (c2.imp fun k t hk => absurd hk (by simp)))
  | succ k ih =>
    intro R A S B out d hk e1 e2 hc
    cases R with
    | nil =>
      have c2 := copy_rest2 F S B out e2 (by simp at hc ⊢; omega)
      simp only [List.append_nil] at e1
      rw [Gen.merge, merge, e1]
      simp only [ne_eq, not_true_eq_false, if_false]
      refine Does.cast (by simp [comparisons]) (by simp [mergeS]) (by simp [mergeS]) (Does.map (fun a => (a, d)) (c2.imp fun k t hk E => ?_))
      exact ⟨k, by omega, by omega, by simpa using hk, by rw [E]; simp [mergeS]⟩
    | cons x R =>
      have hA : A.length < xs.length := by rw [← e1]; simp
      rw [Gen.merge, merge]
      simp only [ne_eq, F.ne1 _ hA, not_false_eq_true, if_true]
      cases S with
      | nil =>
        have c1 := copy_rest1 F (x :: R) A out e1 (by simpa using hc)
        simp only [List.append_nil] at e2
        rw [e2]
        simp only [if_true]
        refine Does.cast (by simp [comparisons]) (by simp [mergeS]) (by simp [mergeS]) (Does.map (fun a => (a, d)) (c1.imp fun k t hk E => ?_))
        exact ⟨k, by omega, by omega, by simpa using hk, by rw [E]; simp [mergeS]⟩
      | cons y S =>
        have hB : B.length < ys.length := by rw [← e2]; simp
        simp only [List.length_cons] at hc hk
        have dx := F.deref1 out A.length x (by omega) (by rw [← e1]; simp)
        have dy := F.deref2 out B.length y (by omega) (by rw [← e2]; simp)
        have z : ∀ k, k ≤ 1 → ∃ m, m ≤ k ∧ k ≤ 2 * m + 1 ∧ m < (x :: R).length + (y :: S).length ∧ mem out = mem (out ++ (mergeS lt d (x :: R) (y :: S)).1.take m) :=
          fun k hk => ⟨0, by omega, by omega, by simp only [List.length_cons]; omega, by simp⟩
        simp only [if_neg (F.ne2 _ hB)]
        cases q : (lt (y, x) d).1 with
        | true =>
          have X := ih (x :: R) A S (B ++ [y]) (out ++ [y]) (lt (y, x) d).2 (by simp; omega) e1 (by simpa using e2) (by simp; omega)
          simp only [List.length_append, List.length_singleton] at X
          have em : mergeS lt d (x :: R) (y :: S) = (y :: (mergeS lt (lt (y, x) d).2 (x :: R) S).1, (mergeS lt (lt (y, x) d).2 (x :: R) S).2) := by rw [mergeS]; simp [q]
          refine Does.cast (n := (x :: R).length + S.length + comparisons lt (lt (y, x) d).2 (x :: R) S + 1 + 1) (by rw [comparisons]; simp [q]; omega) rfl rfl ?_
          refine Does.call dy (Does.call dx (Does.point (z 0 (by omega)) ?_))
          simp only [q, if_true]
          refine Does.call dy (Does.point (z 1 (by omega)) (Does.call (F.assign out y (by omega)) (Does.call (F.next2 (out ++ [y]) B.length (by simp; omega) hB)
            (Does.call (F.out (out ++ [y]) out.length (by simp; omega) (by omega)) ?_))))
          refine Does.cast rfl (by rw [em]; simp only [List.length_cons]; congr 2; omega) (by rw [em]; simp) (X.imp fun k t hk E => ?_)
          obtain ⟨m, h1, h2, h3, E⟩ := E
          exact ⟨m + 1, by omega, by omega, by simp at h3 ⊢; omega, by rw [E, em]; simp⟩
        | false =>
          have X := ih R (A ++ [x]) (y :: S) B (out ++ [x]) (lt (y, x) d).2 (by simp; omega) (by simpa using e1) e2 (by simp; omega)
          simp only [List.length_append, List.length_singleton] at X
          have em : mergeS lt d (x :: R) (y :: S) = (x :: (mergeS lt (lt (y, x) d).2 R (y :: S)).1, (mergeS lt (lt (y, x) d).2 R (y :: S)).2) := by rw [mergeS]; simp [q]
          refine Does.cast (n := R.length + (y :: S).length + comparisons lt (lt (y, x) d).2 R (y :: S) + 1 + 1) (by rw [comparisons]; simp [q]; omega) rfl rfl ?_
          refine Does.call dy (Does.call dx (Does.point (z 0 (by omega)) ?_))
          simp only [q, if_false, Bool.false_eq_true]
          refine Does.call dx (Does.point (z 1 (by omega)) (Does.call (F.assign out x (by omega)) (Does.call (F.next1 (out ++ [x]) A.length (by simp; omega) hA)
            (Does.call (F.out (out ++ [x]) out.length (by simp; omega) (by omega)) ?_))))
          refine Does.cast rfl (by rw [em]; simp only [List.length_cons]; congr 2; omega) (by rw [em]; simp) (X.imp fun k t hk E => ?_)
          obtain ⟨m, h1, h2, h3, E⟩ := E
          exact ⟨m + 1, by omega, by omega, by simp at h3 ⊢; omega, by rw [E, em]; simp⟩

theorem transform2_flow {I : Iter σ ι T} {J : Iter σ κ U} {O : WIter σ ω V} {s1 : Nat → ι} {xs : List T} {s2 : Nat → κ} {ys : List U} {dst : Nat → ω} {cap : Nat}
    {mem : List V → σ} (F : Flow2 I J O s1 xs s2 ys dst cap mem) (hy : xs.length ≤ ys.length) (hc : xs.length ≤ cap) (op : Fn δ (T × U) V) :
    ∀ (R A : List T) (S B : List U) (out : List V) (d : δ), A ++ R = xs → B ++ S = ys → A.length = B.length → A.length = out.length →
    Does (Gen.transform2 I J O op (s1 A.length) (s1 xs.length) (s2 B.length) (dst out.length) d)
      (transform2 I J O op (s1 A.length) (s1 xs.length) (s2 B.length) (dst out.length) d) (mem out) (2 * R.length)
      (dst xs.length, (mapS op d (R.zip S)).2) (mem (out ++ (mapS op d (R.zip S)).1)) (fun k t => t = mem (out ++ (mapS op d (R.zip S)).1.take (k / 2))) := by
  intro R
  induction R with
  | nil =>
    intro A S B out d e1 e2 hab ho; simp only [List.append_nil] at e1; subst e1; rw [Gen.transform2, transform2]; simp only [if_true]
    exact Does.cast rfl (by simp [mapS, ho]) (by simp [mapS]) Does.pure_
  | cons x R ih =>
    intro A S B out d e1 e2 hab ho
    have hA : A.length < xs.length := by rw [← e1]; simp
    cases S with
    | nil => simp only [List.append_nil] at e2; subst e2; omega
    | cons y S =>
      have hB : B.length < ys.length := by rw [← e2]; simp
      have X := ih (A ++ [x]) S (B ++ [y]) (out ++ [(op (x, y) d).1]) (op (x, y) d).2 (by simpa using e1) (by simpa using e2) (by simpa using hab) (by simpa using ho)
      simp only [List.length_append, List.length_singleton] at X
      rw [Gen.transform2, transform2]
      simp only [if_neg (F.ne1 _ hA)]
      refine Does.call (F.deref1 out A.length x (by omega) (by rw [← e1]; simp)) (Does.call (F.next1 out A.length (by omega) hA)
        (Does.call (F.deref2 out B.length y (by omega) (by rw [← e2]; simp)) (Does.call (F.next2 out B.length (by omega) hB)
          (Does.point (by simp) (Does.point (by simp) (Does.call (F.assign out _ (by omega)) (Does.call (F.out (out ++ [(op (x, y) d).1]) out.length (by simp; omega) (by omega)) ?_)))))))
      refine Does.cast rfl (by simp [mapS]) (by simp [mapS]) (X.imp fun k t _ E => ?_)
      rw [E, show (k + 1 + 1) / 2 = k / 2 + 1 by omega]; simp [mapS]
end Two
end Verif.Exc.XAlgo
