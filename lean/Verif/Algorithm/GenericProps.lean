import Verif.Algorithm.Window
import Verif.Algorithm.MutatingProps
import Verif.Algorithm.SortedProps
/-!
# The generic algorithms do what they say, on any iterators, with any functors
-/
set_option linter.unusedVariables false
set_option linter.unusedSimpArgs false
set_option linter.unusedSectionVars false
namespace Verif.Gen
open Verif
variable {σ ι κ ω T U V δ : Type}

/-! ## Reading -/
section Read
variable [DecidableEq ι] {I : Iter σ ι T} {s : σ} {first last : ι}

theorem find_if_any {xs : List T} (h : Iter.Range I s first xs last) (p : Fn δ T Bool) (d : δ) :
    ∃ it, findIf I p first last d s = .ok ((it, (scanS p d xs).2), s) ∧ Iter.Reach I s first (scanS p d xs).1 it ∧ (it = last ↔ (scanS p d xs).1 = xs.length) := by
  induction h generalizing d with
  | nil last => rw [findIf]; exact ⟨last, by simp [scanS], by simpa [scanS] using .zero _, by simp [scanS]⟩
  | @cons first mid last x xs hne hd hn hr ih =>
    rw [findIf]
    simp only [Prog.ite_app, if_neg hne, Prog.bind_app, hd, Res.bind_ok]
    cases q : (p x d).1 with
    | true => exact ⟨first, by simp [scanS, q], by simpa [scanS, q] using .zero _, by simp [scanS, q, hne]⟩
    | false =>
      obtain ⟨it, e, r, f⟩ := ih (p x d).2
      refine ⟨it, by simp [scanS, q, hn, e], ?_, ?_⟩
      · simpa [scanS, q] using .succ hn r
      · simp [scanS, q, f]

theorem find_if_not_any {xs : List T} (h : Iter.Range I s first xs last) (p : Fn δ T Bool) (d : δ) :
    ∃ it, findIfNot I p first last d s = .ok ((it, (scanS (notS p) d xs).2), s) ∧ Iter.Reach I s first (scanS (notS p) d xs).1 it ∧
      (it = last ↔ (scanS (notS p) d xs).1 = xs.length) := by
  induction h generalizing d with
  | nil last => rw [findIfNot]; exact ⟨last, by simp [scanS], by simpa [scanS] using .zero _, by simp [scanS]⟩
  | @cons first mid last x xs hne hd hn hr ih =>
    rw [findIfNot]
    simp only [Prog.ite_app, if_neg hne, Prog.bind_app, hd, Res.bind_ok]
    cases q : (p x d).1 with
    | false => exact ⟨first, by simp [scanS, notS, q], by simpa [scanS, notS, q] using .zero _, by simp [scanS, notS, q, hne]⟩
    | true =>
      obtain ⟨it, e, r, f⟩ := ih (p x d).2
      refine ⟨it, by simp [scanS, notS, q, hn]; simpa [notS] using e, ?_, ?_⟩
      · simpa [scanS, notS, q] using .succ hn r
      · simp [scanS, notS, q]; simpa [notS] using f

/-- `all_of`, `any_of`, `none_of`: the functor is called on the elements in order until the answer is known. -/
theorem quantifiers_any {xs : List T} (h : Iter.Range I s first xs last) (p : Fn δ T Bool) (d : δ) :
    allOf I p first last d s = .ok ((decide ((scanS (notS p) d xs).1 = xs.length), (scanS (notS p) d xs).2), s) ∧
    anyOf I p first last d s = .ok ((decide ((scanS p d xs).1 ≠ xs.length), (scanS p d xs).2), s) ∧
    noneOf I p first last d s = .ok ((decide ((scanS p d xs).1 = xs.length), (scanS p d xs).2), s) := by
  obtain ⟨i1, e1, _, f1⟩ := find_if_not_any h p d
  obtain ⟨i2, e2, _, f2⟩ := find_if_any h p d
  refine ⟨?_, ?_, ?_⟩
  · simp only [allOf, Prog.bind_app, e1, Res.bind_ok, Prog.pure_app, f1]
  · simp only [anyOf, Prog.bind_app, e2, Res.bind_ok, Prog.pure_app, ne_eq, f2]
  · simp only [noneOf, Prog.bind_app, e2, Res.bind_ok, Prog.pure_app, f2]

theorem countLoop_any {xs : List T} (h : Iter.Range I s first xs last) (p : Fn δ T Bool) (d : δ) (c : Int) (hc : 0 ≤ c)
    (hn : c + (filterS p d xs).1.length < 2147483648) :
    countLoop I p first last c d s = .ok ((c + (filterS p d xs).1.length, (filterS p d xs).2), s) := by
  induction h generalizing d c with
  | nil => rw [countLoop]; simp [filterS]
  | @cons first mid last x xs hne hd hx hr ih =>
    rw [countLoop]
    simp only [Prog.ite_app, if_neg hne, Prog.bind_app, hd, Res.bind_ok]
    cases q : (p x d).1 with
    | false =>
      simp only [filterS, q, Bool.false_eq_true, if_false] at hn ⊢
      simp only [Prog.pure_app, Res.bind_ok, hx, ih (p x d).2 c hc hn]
    | true =>
      simp only [filterS, q, if_true, List.length_cons] at hn ⊢
      have := ih (p x d).2 (c + 1) (by omega) (by omega)
      simp only [Algo.incInt, Prog.bind_app, Prog.need_app, Prog.pure_app]
      rw [if_pos (by omega)]
      simp only [Res.bind_ok, hx, this, Res.ok.injEq, Prod.mk.injEq, and_true]
      omega

/-- `count_if` returns the number of `true` answers of one call for each element (if it fits an `int`). -/
theorem count_if_any {xs : List T} (h : Iter.Range I s first xs last) (p : Fn δ T Bool) (d : δ) (hn : (filterS p d xs).1.length < 2147483648) :
    countIf I p first last d s = .ok (((filterS p d xs).1.length, (filterS p d xs).2), s) := by
  have := countLoop_any h p d 0 (by omega) (by omega)
  simpa [countIf] using this
end Read

/-! ## Writing to a sequence -/
section Write
variable [DecidableEq ι] {I : WIter σ ι T} {pos : Nat → ι} {n : Nat} {mem : List T → σ}

theorem fill_tail (W : Window I pos n mem) (v : T) : ∀ (R A : List T), (A ++ R).length = n →
    fill I (pos A.length) (pos n) v (mem (A ++ R)) = .ok ((), mem (A ++ List.replicate R.length v)) := by
  intro R
  induction R with
  | nil => intro A hl; simp only [List.append_nil] at hl ⊢; rw [fill, hl]; simp
  | cons x R ih =>
    intro A hl
    have hl' : A.length < n := by simp at hl; omega
    rw [fill]
    simp only [Prog.ite_app, if_neg (W.ne hl' (Nat.le_refl _)), Prog.bind_app, W.assign_at hl, Res.bind_ok]
    rw [W.next _ (by simpa using hl) _ hl']
    have := ih (A ++ [v]) (by simpa using hl)
    simp only [List.length_append, List.length_singleton, List.append_assoc, List.singleton_append] at this
    simp only [Res.bind_ok, this, List.length_cons, List.replicate_succ]

/-- `fill(first, last, v)` makes every element `v` and changes nothing else. -/
theorem fill_any (W : Window I pos n mem) {xs : List T} (hx : xs.length = n) (v : T) :
    fill I (pos 0) (pos n) v (mem xs) = .ok ((), mem (List.replicate n v)) := by
  have := fill_tail W v xs [] (by simpa using hx)
  simpa [hx] using this

theorem fillN_tail (W : Window I pos n mem) (v : T) : ∀ (k : Nat) (R A : List T), (A ++ R).length = n → k ≤ R.length →
    fillN I (pos A.length) k v (mem (A ++ R)) = .ok (pos (A.length + k), mem (A ++ List.replicate k v ++ R.drop k)) := by
  intro k
  induction k with
  | zero => intro R A hl hk; rw [fillN]; simp
  | succ k ih =>
    intro R A hl hk
    cases R with
    | nil => simp at hk
    | cons x R =>
      have hl' : A.length < n := by simp at hl; omega
      rw [fillN]
      simp only [Prog.ite_app]
      rw [if_pos (by omega)]
      simp only [Prog.bind_app, W.assign_at hl, Res.bind_ok]
      rw [W.next _ (by simpa using hl) _ hl']
      have := ih R (A ++ [v]) (by simpa using hl) (by simpa using hk)
      simp only [List.length_append, List.length_singleton, List.append_assoc, List.singleton_append] at this
      simp only [Res.bind_ok, show ((k + 1 : Nat) : Int) - 1 = (k : Int) by omega, this, List.replicate_succ, List.drop_succ_cons,
        show A.length + 1 + k = A.length + (k + 1) by omega, List.append_assoc, List.cons_append]

/-- `fill_n(first, k, v)` makes the first `k` elements `v`, changes nothing else and returns the position after them; `k <= 0` does nothing. -/
theorem fill_n_any (W : Window I pos n mem) {xs : List T} (hx : xs.length = n) (v : T) (k : Int) (hk : k ≤ n) :
    fillN I (pos 0) k v (mem xs) = .ok (pos k.toNat, mem (List.replicate k.toNat v ++ xs.drop k.toNat)) := by
  by_cases h0 : 0 < k
  · have := fillN_tail W v k.toNat xs [] (by simpa using hx) (by omega)
    rw [show ((k.toNat : Nat) : Int) = k by omega] at this
    simpa using this
  · rw [fillN]
    simp only [Prog.ite_app]
    rw [if_neg (by omega), show k.toNat = 0 by omega]
    simp

theorem replaceIf_tail (W : Window I pos n mem) (p : Fn δ T Bool) (v : T) : ∀ (R A : List T) (d : δ), (A ++ R).length = n →
    replaceIf I p v (pos A.length) (pos n) d (mem (A ++ R)) = .ok ((mapS (replS p v) d R).2, mem (A ++ (mapS (replS p v) d R).1)) := by
  intro R
  induction R with
  | nil => intro A d hl; simp only [List.append_nil] at hl ⊢; rw [replaceIf, hl]; simp [mapS]
  | cons x R ih =>
    intro A d hl
    have hl' : A.length < n := by simp at hl; omega
    rw [replaceIf]
    simp only [Prog.ite_app, if_neg (W.ne hl' (Nat.le_refl _)), Prog.bind_app, W.deref_at hl, Res.bind_ok]
    cases q : (p x d).1 with
    | true =>
      have := ih (A ++ [v]) (p x d).2 (by simpa using hl)
      simp only [List.length_append, List.length_singleton, List.append_assoc, List.singleton_append] at this
      simp only [if_true, Prog.bind_app, W.assign_at hl, Res.bind_ok]
      rw [W.next _ (by simpa using hl) _ hl']
      simp only [Res.bind_ok, this, mapS, replS, q, if_true]
    | false =>
      have := ih (A ++ [x]) (p x d).2 (by simpa using hl)
      simp only [List.length_append, List.length_singleton, List.append_assoc, List.singleton_append] at this
      simp only [Bool.false_eq_true, if_false, Prog.bind_app, Res.bind_ok]
      rw [W.next _ hl _ hl']
      simp only [Res.bind_ok, this, mapS, replS, q, Bool.false_eq_true, if_false]

/-- `replace_if(first, last, p, v)`: one call of `p` for each element in order; the elements for which it is true become `v`. -/
theorem replace_if_any (W : Window I pos n mem) {xs : List T} (hx : xs.length = n) (p : Fn δ T Bool) (v : T) (d : δ) :
    replaceIf I p v (pos 0) (pos n) d (mem xs) = .ok ((mapS (replS p v) d xs).2, mem (mapS (replS p v) d xs).1) := by
  have := replaceIf_tail W p v xs [] d (by simpa using hx)
  simpa using this

/-- The first `n` results of a generator, and its state after them. -/
def genS (g : Fn δ Unit T) : δ → Nat → List T × δ
  | d, 0 => ([], d)
  | d, k + 1 => ((g () d).1 :: (genS g (g () d).2 k).1, (genS g (g () d).2 k).2)

theorem generate_tail (W : Window I pos n mem) (g : Fn δ Unit T) : ∀ (R A : List T) (d : δ), (A ++ R).length = n →
    generate I g (pos A.length) (pos n) d (mem (A ++ R)) = .ok ((genS g d R.length).2, mem (A ++ (genS g d R.length).1)) := by
  intro R
  induction R with
  | nil => intro A d hl; simp only [List.append_nil] at hl ⊢; rw [generate, hl]; simp [genS]
  | cons x R ih =>
    intro A d hl
    have hl' : A.length < n := by simp at hl; omega
    rw [generate]
    have := ih (A ++ [(g () d).1]) (g () d).2 (by simpa using hl)
    simp only [List.length_append, List.length_singleton, List.append_assoc, List.singleton_append] at this
    simp only [Prog.ite_app, if_neg (W.ne hl' (Nat.le_refl _)), Prog.bind_app, W.assign_at hl, Res.bind_ok]
    rw [W.next _ (by simpa using hl) _ hl']
    simp only [Res.bind_ok, this, List.length_cons, genS]

/-- `generate(first, last, g)` assigns the results of successive calls of `g`, one for each element. -/
theorem generate_any (W : Window I pos n mem) {xs : List T} (hx : xs.length = n) (g : Fn δ Unit T) (d : δ) :
    generate I g (pos 0) (pos n) d (mem xs) = .ok ((genS g d n).2, mem (genS g d n).1) := by
  have := generate_tail W g xs [] d (by simpa using hx)
  simpa [hx] using this

theorem generateN_tail (W : Window I pos n mem) (g : Fn δ Unit T) : ∀ (k : Nat) (R A : List T) (d : δ), (A ++ R).length = n → k ≤ R.length →
    generateN I g (pos A.length) k d (mem (A ++ R)) = .ok ((pos (A.length + k), (genS g d k).2), mem (A ++ (genS g d k).1 ++ R.drop k)) := by
  intro k
  induction k with
  | zero => intro R A d hl hk; rw [generateN]; simp [genS]
  | succ k ih =>
    intro R A d hl hk
    cases R with
    | nil => simp at hk
    | cons x R =>
      have hl' : A.length < n := by simp at hl; omega
      rw [generateN]
      simp only [Prog.ite_app]
      rw [if_pos (by omega)]
      simp only [Prog.bind_app, W.assign_at hl, Res.bind_ok]
      rw [W.next _ (by simpa using hl) _ hl']
      have := ih R (A ++ [(g () d).1]) (g () d).2 (by simpa using hl) (by simpa using hk)
      simp only [List.length_append, List.length_singleton, List.append_assoc, List.singleton_append] at this
      simp only [Res.bind_ok, show ((k + 1 : Nat) : Int) - 1 = (k : Int) by omega, this, genS, List.drop_succ_cons,
        show A.length + 1 + k = A.length + (k + 1) by omega, List.append_assoc, List.cons_append]

/-- `generate_n(first, k, g)`. -/
theorem generate_n_any (W : Window I pos n mem) {xs : List T} (hx : xs.length = n) (g : Fn δ Unit T) (d : δ) (k : Int) (hk : k ≤ n) :
    generateN I g (pos 0) k d (mem xs) = .ok ((pos k.toNat, (genS g d k.toNat).2), mem ((genS g d k.toNat).1 ++ xs.drop k.toNat)) := by
  by_cases h0 : 0 < k
  · have := generateN_tail W g k.toNat xs [] d (by simpa using hx) (by omega)
    rw [show ((k.toNat : Nat) : Int) = k by omega] at this
    simpa using this
  · rw [generateN]
    simp only [Prog.ite_app]
    rw [if_neg (by omega), show k.toNat = 0 by omega]
    simp [genS]

theorem iota_tail (W : Window I pos n mem) (succ : T → T) : ∀ (R A : List T) (v : T), (A ++ R).length = n →
    iota I succ (pos A.length) (pos n) v (mem (A ++ R)) = .ok ((), mem (A ++ Algo.iotaSeq succ R.length v)) := by
  intro R
  induction R with
  | nil => intro A v hl; simp only [List.append_nil] at hl ⊢; rw [iota, hl]; simp [Algo.iotaSeq]
  | cons x R ih =>
    intro A v hl
    have hl' : A.length < n := by simp at hl; omega
    rw [iota]
    have := ih (A ++ [v]) (succ v) (by simpa using hl)
    simp only [List.length_append, List.length_singleton, List.append_assoc, List.singleton_append] at this
    simp only [Prog.ite_app, if_neg (W.ne hl' (Nat.le_refl _)), Prog.bind_app, W.assign_at hl, Res.bind_ok]
    rw [W.next _ (by simpa using hl) _ hl']
    simp only [Res.bind_ok, this, List.length_cons, Algo.iotaSeq]

/-- `iota(first, last, v)` assigns `v`, `++v`, … . -/
theorem iota_any (W : Window I pos n mem) {xs : List T} (hx : xs.length = n) (succ : T → T) (v : T) :
    iota I succ (pos 0) (pos n) v (mem xs) = .ok ((), mem (Algo.iotaSeq succ n v)) := by
  have := iota_tail W succ xs [] v (by simpa using hx)
  simpa [hx] using this

theorem removeLoop_tail (W : Window I pos n mem) (residue : T → T) (p : Fn δ T Bool) : ∀ (R K G : List T) (g : T) (d : δ), (K ++ g :: G ++ R).length = n →
    ∃ J, removeLoop I residue p (pos K.length) (pos (K.length + G.length)) (pos n) d (mem (K ++ g :: G ++ R)) =
      .ok ((pos (K.length + (filterS (notS p) d R).1.length), (filterS (notS p) d R).2), mem (K ++ (filterS (notS p) d R).1 ++ J)) ∧
      (K ++ (filterS (notS p) d R).1 ++ J).length = n := by
  intro R
  induction R with
  | nil =>
    intro K G g d hl
    refine ⟨g :: G, ?_, by simpa [filterS] using hl⟩
    have e : K.length + G.length + 1 = n := by simp at hl; omega
    rw [removeLoop]
    simp only [Prog.bind_app, W.next _ hl (K.length + G.length) (by omega), Res.bind_ok, e, Prog.ite_app, if_true, Prog.pure_app, filterS]
    simp
  | cons x R ih =>
    intro K G g d hl
    have e : K.length + G.length + 1 < n := by simp at hl; omega
    have hd := W.deref _ hl (K.length + G.length + 1) x (by
      rw [List.getElem?_append_right (by simp; omega)]
      simp [show K.length + G.length + 1 - (K.length + (G.length + 1)) = 0 by omega])
    rw [removeLoop]
    simp only [Prog.bind_app, W.next _ hl (K.length + G.length) (by omega), Res.bind_ok, Prog.ite_app,
      if_neg (W.ne e (Nat.le_refl _)), hd]
    cases q : (p x d).1 with
    | true =>
      obtain ⟨J, e1, l1⟩ := ih K (G ++ [x]) g (p x d).2 (by simp at hl ⊢; omega)
      refine ⟨J, ?_, by simpa [filterS, notS, q] using l1⟩
      simp only [Bool.not_true, Bool.false_eq_true, if_false]
      have e2 : K ++ g :: (G ++ [x]) ++ R = K ++ g :: G ++ x :: R := by simp
      simp only [e2, List.length_append, List.length_singleton] at e1
      rw [show K.length + (G.length + 1) = K.length + G.length + 1 by omega] at e1
      simpa [filterS, notS, q] using e1
    | false =>
      simp only [Bool.not_false, if_true]
      have ha := W.assign _ hl (K.length + G.length + 1) e (residue x)
      have e3 : (K ++ g :: G ++ x :: R).set (K.length + G.length + 1) (residue x) = K ++ g :: (G ++ residue x :: R) := by
        rw [List.set_append_right _ _ (by simp; omega)]
        simp [show K.length + G.length + 1 - (K.length + (G.length + 1)) = 0 by omega]
      rw [e3] at ha
      have l3 : (K ++ g :: (G ++ residue x :: R)).length = n := by simp at hl ⊢; omega
      have l4 : (K ++ x :: (G ++ residue x :: R)).length = n := by simp at hl ⊢; omega
      simp only [moveFrom, Prog.bind_app, hd, Res.bind_ok, ha, Prog.pure_app, W.assign_at l3]
      rw [W.next _ l4 K.length (by omega)]
      simp only [Res.bind_ok]
      obtain ⟨g', G', eg⟩ : ∃ g' G', G ++ [residue x] = g' :: G' := by cases G <;> simp
      have lg : G'.length = G.length := by have := congrArg List.length eg; simp at this; omega
      have eR : K ++ x :: (G ++ residue x :: R) = (K ++ [x]) ++ g' :: G' ++ R := by rw [← eg]; simp
      obtain ⟨J, e1, l1⟩ := ih (K ++ [x]) G' g' (p x d).2 (by rw [← eR]; exact l4)
      refine ⟨J, ?_, by simpa [filterS, notS, q] using l1⟩
      rw [← eR] at e1
      simp only [List.length_append, List.length_singleton, lg] at e1
      rw [show K.length + 1 + G.length = K.length + G.length + 1 by omega] at e1
      rw [e1]
      simp only [filterS, notS, q, Bool.not_false, if_true, List.length_cons, List.append_assoc, List.singleton_append, Res.ok.injEq, Prod.mk.injEq, and_true]
      congr 1; omega

theorem scan_all (p : Fn δ T Bool) : ∀ (xs : List T) (d : δ), (scanS p d xs).1 = xs.length → filterS (notS p) d xs = (xs, (scanS p d xs).2)
  | [], d, _ => rfl
  | x :: xs, d, h => by
    simp only [scanS] at h ⊢
    cases q : (p x d).1 with
    | true => simp [q] at h
    | false =>
      simp only [q, Bool.false_eq_true, if_false, List.length_cons, Nat.add_right_cancel_iff] at h ⊢
      simp [filterS, notS, q]
      rw [scan_all p xs (p x d).2 h]
      exact ⟨rfl, rfl⟩

theorem scan_split (p : Fn δ T Bool) : ∀ (xs : List T) (d : δ), (scanS p d xs).1 < xs.length → ∃ A x R, xs = A ++ x :: R ∧ A.length = (scanS p d xs).1 ∧
    filterS (notS p) d xs = (A ++ (filterS (notS p) (scanS p d xs).2 R).1, (filterS (notS p) (scanS p d xs).2 R).2)
  | [], d, h => by simp [scanS] at h
  | x :: xs, d, h => by
    cases q : (p x d).1 with
    | true => exact ⟨[], x, xs, rfl, by simp [scanS, q], by simp [scanS, q, filterS, notS]⟩
    | false =>
      simp only [scanS, q, Bool.false_eq_true, if_false, List.length_cons, Nat.add_lt_add_iff_right] at h
      obtain ⟨A, y, R, e, l, f⟩ := scan_split p xs (p x d).2 h
      refine ⟨x :: A, y, R, by simp [e], by simp [scanS, q, l], ?_⟩
      simp only [scanS, q, Bool.false_eq_true, if_false]
      rw [filterS]
      simp only [notS, q, Bool.not_false, if_true, List.cons_append, Prod.mk.injEq]
      rw [f]
      exact ⟨rfl, rfl⟩

/-- `find_if` on a window returns the position. -/
theorem find_if_window (W : Window I pos n mem) {xs : List T} (hx : xs.length = n) (p : Fn δ T Bool) (d : δ) :
    findIf I.toIter p (pos 0) (pos n) d (mem xs) = .ok ((pos (scanS p d xs).1, (scanS p d xs).2), mem xs) := by
  obtain ⟨it, e, r, _⟩ := find_if_any (W.range xs [] (by simpa using hx)) p d
  have := W.reach hx (scanS p d xs).1 0 (by have := scanS_le p xs d; omega)
  rw [Nat.zero_add] at this
  cases r.unique this
  exact e

/-- `remove_if(first, last, p)`: one call of `p` for each element in order; the elements for which it is false come first, in their order,
and the position after them is returned. What is behind is not specified; nothing outside the range changes. -/
theorem remove_if_any (W : Window I pos n mem) {xs : List T} (hx : xs.length = n) (residue : T → T) (p : Fn δ T Bool) (d : δ) :
    ∃ J, removeIf I residue p (pos 0) (pos n) d (mem xs) =
      .ok ((pos (filterS (notS p) d xs).1.length, (filterS (notS p) d xs).2), mem ((filterS (notS p) d xs).1 ++ J)) ∧
      ((filterS (notS p) d xs).1 ++ J).length = n := by
  simp only [removeIf, Prog.bind_app, find_if_window W hx, Res.bind_ok, Prog.ite_app]
  rcases Nat.lt_or_ge (scanS p d xs).1 xs.length with h | h
  · obtain ⟨A, x, R, e, l, f⟩ := scan_split p xs d h
    rw [if_pos (W.ne (by omega) (Nat.le_refl _)), f, ← l]
    obtain ⟨J, e1, l1⟩ := removeLoop_tail W residue p R A [] x (scanS p d xs).2 (by rw [← hx, e]; simp)
    refine ⟨J, ?_, by simpa using l1⟩
    simp only [List.append_assoc, List.cons_append, List.nil_append, ← e, List.length_nil, Nat.add_zero] at e1
    rw [e1]
    simp
  · have hh : (scanS p d xs).1 = xs.length := by have := scanS_le p xs d; omega
    rw [scan_all p xs d hh]
    refine ⟨[], ?_, by simpa using hx⟩
    rw [if_neg (by rw [hh, hx]; simp)]
    simp only [Prog.pure_app, hh, List.append_nil]
end Write

section Turn
variable [DecidableEq ι] {I : WIter σ ι T} {pos : Nat → ι} {n : Nat} {mem : List T → σ}

theorem reverse_inner (W : BiWindow I pos n mem) : ∀ (k : Nat) (A M B : List T), M.length = k → (A ++ M ++ B).length = n →
    reverse I (pos A.length) (pos (A.length + M.length)) (mem (A ++ M ++ B)) = .ok ((), mem (A ++ M.reverse ++ B)) := by
  intro k
  induction k using Nat.strongRecOn with
  | ind k ih =>
    intro A M B hk hl
    rw [reverse]
    cases M with
    | nil => simp
    | cons x M =>
      have hll : A.length + M.length + 1 + B.length = n := by simp at hl; omega
      have ne1 : pos A.length ≠ pos (A.length + (x :: M).length) := W.toWindow.ne (by simp) (by simp; omega)
      have pv := W.prev _ hl (A.length + M.length) (by omega)
      rw [show A.length + M.length + 1 = A.length + (x :: M).length by simp; omega] at pv
      simp only [Prog.ite_app, if_neg ne1, Prog.bind_app, pv, Res.bind_ok]
      rcases List.eq_nil_or_concat M with rfl | ⟨M, y, rfl⟩
      · simp
      · have ne2 : pos A.length ≠ pos (A.length + (M.concat y).length) := W.toWindow.ne (by simp) (by omega)
        have e0 : A ++ x :: M.concat y ++ B = A ++ x :: (M ++ y :: B) := by simp
        have e0' : A ++ x :: (M ++ y :: B) = (A ++ x :: M) ++ y :: B := by simp
        have lA : A.length + (M.concat y).length = (A ++ x :: M).length := by simp
        have e1 : A ++ y :: (M ++ y :: B) = (A ++ y :: M) ++ y :: B := by simp
        have lB : A.length + (M.concat y).length = (A ++ y :: M).length := by simp
        have l0 : (A ++ x :: (M ++ y :: B)).length = n := by rw [← e0]; exact hl
        have l1 : (A ++ y :: (M ++ y :: B)).length = n := by simp at l0 ⊢; omega
        have g1 : I.deref (pos (A.length + (M.concat y).length)) (mem (A ++ x :: (M ++ y :: B))) = .ok (y, mem (A ++ x :: (M ++ y :: B))) := by
          rw [lA, e0']; exact W.toWindow.deref_at (by rw [← e0']; exact l0)
        have g2 : I.assign (pos (A.length + (M.concat y).length)) x (mem (A ++ y :: (M ++ y :: B))) = .ok ((), mem ((A ++ [y]) ++ M ++ x :: B)) := by
          rw [lB, e1, W.toWindow.assign_at (by rw [← e1]; exact l1)]; simp
        rw [if_neg ne2, e0]
        simp only [iterSwap, Prog.bind_app, W.toWindow.deref_at l0, Res.bind_ok, g1, W.toWindow.assign_at l0, g2]
        have l2 : ((A ++ [y]) ++ M ++ x :: B).length = n := by simp at l1 ⊢; omega
        rw [W.next _ l2 A.length (by omega)]
        have := ih M.length (by simp at hk; omega) (A ++ [y]) M (x :: B) rfl l2
        simp only [List.length_append, List.length_singleton] at this
        rw [show A.length + 1 + M.length = A.length + (M.concat y).length by simp; omega] at this
        simp only [Res.bind_ok, this]
        simp

/-- `reverse(first, last)` reverses the sequence. -/
theorem reverse_any (W : BiWindow I pos n mem) {xs : List T} (hx : xs.length = n) :
    reverse I (pos 0) (pos n) (mem xs) = .ok ((), mem xs.reverse) := by
  have := reverse_inner W xs.length [] xs [] rfl (by simpa using hx)
  simpa [hx] using this
end Turn

/-! ## From one sequence to another -/
section Flow
variable [DecidableEq ι] {I : Iter σ ι T} {src : Nat → ι} {xs : List T} {cap : Nat}

theorem copy_flow {J : WIter σ κ T} {dst : Nat → κ} {mem : List T → σ} (F : Flow I J src xs dst cap mem) (hc : xs.length ≤ cap) :
    ∀ (R A : List T), A ++ R = xs → copy I J (src A.length) (src xs.length) (dst A.length) (mem A) = .ok (dst xs.length, mem xs) := by
  intro R
  induction R with
  | nil => intro A e; simp only [List.append_nil] at e; subst e; rw [copy]; simp
  | cons x R ih =>
    intro A e
    have hA : A.length < xs.length := by rw [← e]; simp
    rw [copy]
    have := ih (A ++ [x]) (by simpa using e)
    simp only [List.length_append, List.length_singleton] at this
    simp only [Prog.ite_app, if_neg (F.ne _ hA), Prog.bind_app, F.deref A A.length x (Nat.le_refl _) (by omega) (by rw [← e]; simp), Res.bind_ok,
      F.assign A x (by omega) hA, F.out A x (by omega) hA, F.next (A ++ [x]) A.length (by simp) (by simp; omega) hA, this]

theorem copyIf_flow {J : WIter σ κ T} {dst : Nat → κ} {mem : List T → σ} (F : Flow I J src xs dst cap mem) (p : Fn δ T Bool) :
    ∀ (R A out : List T) (d : δ), A ++ R = xs → out.length ≤ A.length → out.length + (filterS p d R).1.length ≤ cap →
      copyIf I J p (src A.length) (src xs.length) (dst out.length) d (mem out) =
        .ok ((dst (out.length + (filterS p d R).1.length), (filterS p d R).2), mem (out ++ (filterS p d R).1)) := by
  intro R
  induction R with
  | nil => intro A out d e ho hc; simp only [List.append_nil] at e; subst e; rw [copyIf]; simp [filterS]
  | cons x R ih =>
    intro A out d e ho hc
    have hA : A.length < xs.length := by rw [← e]; simp
    rw [copyIf]
    simp only [Prog.ite_app, if_neg (F.ne _ hA), Prog.bind_app, F.deref out A.length x ho (by omega) (by rw [← e]; simp), Res.bind_ok]
    cases q : (p x d).1 with
    | true =>
      simp only [filterS, q, if_true, List.length_cons] at hc ⊢
      have := ih (A ++ [x]) (out ++ [x]) (p x d).2 (by simpa using e) (by simpa using ho) (by simp; omega)
      simp only [List.length_append, List.length_singleton] at this
      simp only [F.assign out x (by omega) (by omega), Res.bind_ok, F.out out x (by omega) (by omega), F.next (out ++ [x]) A.length (by simpa using ho) (by simp; omega) hA, this]
      simp [Nat.add_assoc, Nat.add_comm 1]
    | false =>
      simp only [filterS, q, Bool.false_eq_true, if_false] at hc ⊢
      have := ih (A ++ [x]) out (p x d).2 (by simpa using e) (by simp; omega) hc
      simp only [List.length_append, List.length_singleton] at this
      simp only [F.next out A.length (by omega) (by omega) hA, Res.bind_ok, this]

theorem removeCopyIf_flow {J : WIter σ κ T} {dst : Nat → κ} {mem : List T → σ} (F : Flow I J src xs dst cap mem) (p : Fn δ T Bool) :
    ∀ (R A out : List T) (d : δ), A ++ R = xs → out.length ≤ A.length → out.length + (filterS (notS p) d R).1.length ≤ cap →
      removeCopyIf I J p (src A.length) (src xs.length) (dst out.length) d (mem out) =
        .ok ((dst (out.length + (filterS (notS p) d R).1.length), (filterS (notS p) d R).2), mem (out ++ (filterS (notS p) d R).1)) := by
  intro R
  induction R with
  | nil => intro A out d e ho hc; simp only [List.append_nil] at e; subst e; rw [removeCopyIf]; simp [filterS]
  | cons x R ih =>
    intro A out d e ho hc
    have hA : A.length < xs.length := by rw [← e]; simp
    rw [removeCopyIf]
    simp only [Prog.ite_app, if_neg (F.ne _ hA), Prog.bind_app, F.deref out A.length x ho (by omega) (by rw [← e]; simp), Res.bind_ok]
    cases q : (p x d).1 with
    | false =>
      simp only [filterS, notS, q, Bool.not_false, if_true, List.length_cons] at hc ⊢
      have := ih (A ++ [x]) (out ++ [x]) (p x d).2 (by simpa using e) (by simpa using ho) (by simp [notS]; omega)
      simp only [List.length_append, List.length_singleton] at this
      simp only [F.assign out x (by omega) (by omega), Res.bind_ok, F.out out x (by omega) (by omega), F.next (out ++ [x]) A.length (by simpa using ho) (by simp; omega) hA, this]
      simp [Nat.add_assoc, Nat.add_comm 1, notS]
    | true =>
      simp only [filterS, notS, q, Bool.not_true, Bool.false_eq_true, if_false] at hc ⊢
      have := ih (A ++ [x]) out (p x d).2 (by simpa using e) (by simp; omega) (by simpa [notS] using hc)
      simp only [List.length_append, List.length_singleton] at this
      simp only [F.next out A.length (by omega) (by omega) hA, Res.bind_ok, this]

theorem replaceCopyIf_flow {J : WIter σ κ T} {dst : Nat → κ} {mem : List T → σ} (F : Flow I J src xs dst cap mem) (hc : xs.length ≤ cap) (p : Fn δ T Bool) (v : T) :
    ∀ (R A out : List T) (d : δ), A ++ R = xs → out.length = A.length →
      replaceCopyIf I J p v (src A.length) (src xs.length) (dst out.length) d (mem out) =
        .ok ((dst xs.length, (mapS (replS p v) d R).2), mem (out ++ (mapS (replS p v) d R).1)) := by
  intro R
  induction R with
  | nil => intro A out d e ho; simp only [List.append_nil] at e; subst e; rw [replaceCopyIf]; simp [mapS, ho]
  | cons x R ih =>
    intro A out d e ho
    have hA : A.length < xs.length := by rw [← e]; simp
    rw [replaceCopyIf]
    simp only [Prog.ite_app, if_neg (F.ne _ hA), Prog.bind_app, F.deref out A.length x (by omega) (by omega) (by rw [← e]; simp), Res.bind_ok]
    cases q : (p x d).1 with
    | true =>
      have := ih (A ++ [x]) (out ++ [v]) (p x d).2 (by simpa using e) (by simpa using ho)
      simp only [List.length_append, List.length_singleton] at this
      simp only [mapS, replS, q, if_true, F.assign out v (by omega) (by omega), Res.bind_ok, F.out out v (by omega) (by omega), F.next (out ++ [v]) A.length (by simp; omega) (by simp; omega) hA, this]
      simp [replS]
    | false =>
      have := ih (A ++ [x]) (out ++ [x]) (p x d).2 (by simpa using e) (by simpa using ho)
      simp only [List.length_append, List.length_singleton] at this
      simp only [mapS, replS, q, Bool.false_eq_true, if_false, F.assign out x (by omega) (by omega), Res.bind_ok, F.out out x (by omega) (by omega), F.next (out ++ [x]) A.length (by simp; omega) (by simp; omega) hA, this]
      simp [replS]

theorem transform_flow {J : WIter σ κ U} {dst : Nat → κ} {mem : List U → σ} (F : Flow I J src xs dst cap mem) (hc : xs.length ≤ cap) (op : Fn δ T U) :
    ∀ (R A : List T) (out : List U) (d : δ), A ++ R = xs → out.length = A.length →
      transform I J op (src A.length) (src xs.length) (dst out.length) d (mem out) =
        .ok ((dst xs.length, (mapS op d R).2), mem (out ++ (mapS op d R).1)) := by
  intro R
  induction R with
  | nil => intro A out d e ho; simp only [List.append_nil] at e; subst e; rw [transform]; simp [mapS, ho]
  | cons x R ih =>
    intro A out d e ho
    have hA : A.length < xs.length := by rw [← e]; simp
    have := ih (A ++ [x]) (out ++ [(op x d).1]) (op x d).2 (by simpa using e) (by simpa using ho)
    simp only [List.length_append, List.length_singleton] at this
    rw [transform]
    simp only [Prog.ite_app, if_neg (F.ne _ hA), Prog.bind_app, F.deref out A.length x (by omega) (by omega) (by rw [← e]; simp), Res.bind_ok,
      F.next out A.length (by omega) (by omega) hA, F.assign out _ (by omega) (by omega), F.out out _ (by omega) (by omega), this, mapS]
    simp

theorem copyN_flow {J : WIter σ κ T} {dst : Nat → κ} {mem : List T → σ} (F : Flow I J src xs dst cap mem) :
    ∀ (k : Nat) (R A : List T), A ++ R = xs → k ≤ R.length → A.length + k ≤ cap →
      copyN I J (src A.length) k (dst A.length) (mem A) = .ok (dst (A.length + k), mem (A ++ R.take k)) := by
  intro k
  induction k with
  | zero => intro R A e hk hc; rw [copyN]; simp
  | succ k ih =>
    intro R A e hk hc
    cases R with
    | nil => simp at hk
    | cons x R =>
      have hA : A.length < xs.length := by rw [← e]; simp
      have := ih R (A ++ [x]) (by simpa using e) (by simpa using hk) (by simp; omega)
      simp only [List.length_append, List.length_singleton] at this
      rw [copyN]
      simp only [Prog.ite_app]
      rw [if_pos (by omega)]
      simp only [Prog.bind_app, F.deref A A.length x (Nat.le_refl _) (by omega) (by rw [← e]; simp), Res.bind_ok,
        F.assign A x (by omega) hA, F.next (A ++ [x]) A.length (by simp) (by simp; omega) hA, F.out A x (by omega) hA,
        show ((k + 1 : Nat) : Int) - 1 = (k : Int) by omega, this, show A.length + 1 + k = A.length + (k + 1) by omega]
      simp
end Flow

/-! ### Separate sequences -/
section Two
variable [DecidableEq ι] {I : WIter σ ι T} {pos : Nat → ι} {n : Nat} {pos' : Nat → κ} {n' : Nat}

/-- `copy(first, last, d_first)` to another sequence with room for it. -/
theorem copy_any {J : WIter σ κ T} {mem : List T → List T → σ} (W : Window2 I pos n J pos' n' mem) {xs ys : List T} (hx : xs.length = n) (hy : ys.length = n') (hn : n ≤ n') :
    copy I.toIter J (pos 0) (pos n) (pos' 0) (mem xs ys) = .ok (pos' n, mem xs (xs ++ ys.drop n)) := by
  have := copy_flow (W.flow hx hy) (by omega) xs [] rfl
  simpa [hx] using this

/-- `copy_n(first, k, d_first)`; `k <= 0` does nothing. -/
theorem copy_n_any {J : WIter σ κ T} {mem : List T → List T → σ} (W : Window2 I pos n J pos' n' mem) {xs ys : List T} (hx : xs.length = n) (hy : ys.length = n')
    (k : Int) (hk : k ≤ n) (hk' : k ≤ n') :
    copyN I.toIter J (pos 0) k (pos' 0) (mem xs ys) = .ok (pos' k.toNat, mem xs (xs.take k.toNat ++ ys.drop k.toNat)) := by
  by_cases h0 : 0 < k
  · have := copyN_flow (W.flow hx hy) k.toNat xs [] rfl (by omega) (by simp; omega)
    rw [show ((k.toNat : Nat) : Int) = k by omega] at this
    simpa [show min k.toNat xs.length = k.toNat by omega] using this
  · rw [copyN]
    simp only [Prog.ite_app]
    rw [if_neg (by omega), show k.toNat = 0 by omega]
    simp

/-- `copy_if(first, last, d_first, p)`: one call of `p` for each element in order. -/
theorem copy_if_any {J : WIter σ κ T} {mem : List T → List T → σ} (W : Window2 I pos n J pos' n' mem) {xs ys : List T} (hx : xs.length = n) (hy : ys.length = n')
    (p : Fn δ T Bool) (d : δ) (hn : (filterS p d xs).1.length ≤ n') :
    copyIf I.toIter J p (pos 0) (pos n) (pos' 0) d (mem xs ys) =
      .ok ((pos' (filterS p d xs).1.length, (filterS p d xs).2), mem xs ((filterS p d xs).1 ++ ys.drop (filterS p d xs).1.length)) := by
  have := copyIf_flow (W.flow hx hy) p xs [] [] d rfl (by simp) (by simpa using hn)
  simpa [hx] using this

/-- `remove_copy_if(first, last, d_first, p)`: one call of `p` for each element in order. -/
theorem remove_copy_if_any {J : WIter σ κ T} {mem : List T → List T → σ} (W : Window2 I pos n J pos' n' mem) {xs ys : List T} (hx : xs.length = n) (hy : ys.length = n')
    (p : Fn δ T Bool) (d : δ) (hn : (filterS (notS p) d xs).1.length ≤ n') :
    removeCopyIf I.toIter J p (pos 0) (pos n) (pos' 0) d (mem xs ys) =
      .ok ((pos' (filterS (notS p) d xs).1.length, (filterS (notS p) d xs).2), mem xs ((filterS (notS p) d xs).1 ++ ys.drop (filterS (notS p) d xs).1.length)) := by
  have := removeCopyIf_flow (W.flow hx hy) p xs [] [] d rfl (by simp) (by simpa using hn)
  simpa [hx] using this

/-- `replace_copy_if(first, last, d_first, p, v)`: one call of `p` for each element in order. -/
theorem replace_copy_if_any {J : WIter σ κ T} {mem : List T → List T → σ} (W : Window2 I pos n J pos' n' mem) {xs ys : List T} (hx : xs.length = n) (hy : ys.length = n')
    (p : Fn δ T Bool) (v : T) (d : δ) (hn : n ≤ n') :
    replaceCopyIf I.toIter J p v (pos 0) (pos n) (pos' 0) d (mem xs ys) =
      .ok ((pos' n, (mapS (replS p v) d xs).2), mem xs ((mapS (replS p v) d xs).1 ++ ys.drop n)) := by
  have := replaceCopyIf_flow (W.flow hx hy) (by omega) p v xs [] [] d rfl rfl
  simpa [hx, mapS_length] using this

/-- `transform(first, last, d_first, op)`: one call of `op` for each element in order. -/
theorem transform_any {J : WIter σ κ U} {mem : List T → List U → σ} (W : Window2 I pos n J pos' n' mem) {xs : List T} {ys : List U} (hx : xs.length = n) (hy : ys.length = n')
    (op : Fn δ T U) (d : δ) (hn : n ≤ n') :
    transform I.toIter J op (pos 0) (pos n) (pos' 0) d (mem xs ys) = .ok ((pos' n, (mapS op d xs).2), mem xs ((mapS op d xs).1 ++ ys.drop n)) := by
  have := transform_flow (W.flow hx hy) (by omega) op xs [] [] d rfl rfl
  simpa [hx, mapS_length] using this
end Two

/-! ### In one sequence -/
section Self
variable [DecidableEq ι] {I : WIter σ ι T} {pos : Nat → ι} {n : Nat} {mem : List T → σ}

/-- `transform(first, last, first, op)` in place. -/
theorem transform_in_place (W : Window I pos n mem) {xs : List T} (hx : xs.length = n) (op : Fn δ T T) (d : δ) :
    transform I.toIter I op (pos 0) (pos n) (pos 0) d (mem xs) = .ok ((pos n, (mapS op d xs).2), mem (mapS op d xs).1) := by
  have := transform_flow (W.flow_self (A := []) (B := []) (C := xs) (D := []) (by simpa using hx)) (Nat.le_refl _) op xs [] [] d rfl rfl
  simpa [hx, mapS_length, show List.drop n xs = [] by rw [← hx]; simp] using this

/-- `copy(first, last, d_first)` to an earlier place of the same sequence: `A ++ B ++ C ++ D`, from behind `B` to behind `A`. -/
theorem copy_left (W : Window I pos n mem) {A B C D : List T} (hl : (A ++ B ++ C ++ D).length = n) :
    copy I.toIter I (pos (A.length + B.length)) (pos (A.length + B.length + C.length)) (pos A.length) (mem (A ++ B ++ C ++ D)) =
      .ok (pos (A.length + C.length), mem (A ++ C ++ (B ++ C ++ D).drop C.length)) := by
  have := copy_flow (W.flow_self hl) (Nat.le_refl _) C [] rfl
  simpa using this

/-- `copy_if` to an earlier place of the same sequence. -/
theorem copy_if_left (W : Window I pos n mem) {A B C D : List T} (hl : (A ++ B ++ C ++ D).length = n) (p : Fn δ T Bool) (d : δ) :
    copyIf I.toIter I p (pos (A.length + B.length)) (pos (A.length + B.length + C.length)) (pos A.length) d (mem (A ++ B ++ C ++ D)) =
      .ok ((pos (A.length + (filterS p d C).1.length), (filterS p d C).2),
        mem (A ++ (filterS p d C).1 ++ (B ++ C ++ D).drop (filterS p d C).1.length)) := by
  have := copyIf_flow (W.flow_self hl) p C [] [] d rfl (by simp) (by simpa using filterS_length p C d)
  simpa using this
end Self

/-! ### swap_ranges, copy_backward, reverse_copy -/
section Other
variable [DecidableEq ι] {I : WIter σ ι T} {pos : Nat → ι} {n : Nat} {J : WIter σ κ T} {pos' : Nat → κ} {n' : Nat} {mem : List T → List T → σ}

theorem swapRanges_tail (W : Window2 I pos n J pos' n' mem) : ∀ (R A S B C : List T), (A ++ R).length = n → (B ++ S ++ C).length = n' → A.length = B.length →
    R.length = S.length → swapRanges I J (pos A.length) (pos n) (pos' B.length) (mem (A ++ R) (B ++ S ++ C)) =
      .ok (pos' n, mem (A ++ S) (B ++ R ++ C)) := by
  intro R
  induction R with
  | nil =>
    intro A S B C hA hB hAB hRS
    cases S with
    | nil => simp only [List.append_nil] at hA ⊢; rw [swapRanges, hA]; simp [← hAB, hA]
    | cons => simp at hRS
  | cons x R ih =>
    intro A S B C hA hB hAB hRS
    cases S with
    | nil => simp at hRS
    | cons y S =>
      have hl : A.length < n := by simp at hA; omega
      have hl' : B.length < n' := by simp at hB; omega
      rw [swapRanges]
      have W1 := W.left (B ++ (y :: S) ++ C) hB
      have e : B ++ (y :: S) ++ C = B ++ y :: (S ++ C) := by simp
      have hB1 : (B ++ y :: (S ++ C)).length = n' := by rw [← e]; exact hB
      have hB2 : (B ++ x :: (S ++ C)).length = n' := by simp at hB1 ⊢; omega
      have hA2 : (A ++ y :: R).length = n := by simp at hA ⊢; omega
      have a1 := (W.left _ hB1).deref_at hA
      have a2 := (W.right _ hA).deref_at hB1
      have a3 := (W.left _ hB1).assign_at hA y
      have a4 := (W.right _ hA2).assign_at hB1 x
      have a5 := (W.left _ hB2).next _ hA2 A.length hl
      have a6 := (W.right _ hA2).next _ hB2 B.length hl'
      have := ih (A ++ [y]) S (B ++ [x]) C (by simpa using hA) (by simp at hB ⊢; omega) (by simpa using hAB) (by simpa using hRS)
      simp only [List.length_append, List.length_singleton, List.append_assoc, List.singleton_append] at this
      simp only [Prog.ite_app, if_neg (W1.ne hl (Nat.le_refl _)), Prog.bind_app, iterSwap, e, a1, a2, a3, a4, a5, a6, Res.bind_ok]
      simpa using this

/-- `swap_ranges(first1, last1, first2)` exchanges the values of two separate sequences of one length. -/
theorem swap_ranges_any (W : Window2 I pos n J pos' n' mem) {xs ys zs : List T} (hx : xs.length = n) (hy : (ys ++ zs).length = n') (he : ys.length = n) :
    swapRanges I J (pos 0) (pos n) (pos' 0) (mem xs (ys ++ zs)) = .ok (pos' n, mem ys (xs ++ zs)) := by
  have := swapRanges_tail W xs [] ys [] zs (by simpa using hx) (by simpa using hy) rfl (by omega)
  simpa using this

theorem reverseCopy_tail (mem : List T → List T → σ) (W : ∀ ys, ys.length = n' → BiWindow I pos n (fun xs => mem xs ys)) (W' : ∀ xs, xs.length = n → Window J pos' n' (mem xs)) :
    ∀ (k : Nat) (R A out C : List T), R.length = k → (R ++ A).length = n → (out ++ C).length = n' → R.length ≤ C.length →
    reverseCopy I J (pos 0) (pos R.length) (pos' out.length) (mem (R ++ A) (out ++ C)) =
      .ok (pos' (out.length + R.length), mem (R ++ A) (out ++ R.reverse ++ C.drop R.length)) := by
  intro k
  induction k with
  | zero =>
    intro R A out C hk hA hB hRC
    have : R = [] := List.eq_nil_of_length_eq_zero hk
    subst this
    rw [reverseCopy]; simp
  | succ k ih =>
    intro R A out C hk hA hB hRC
    rcases List.eq_nil_or_concat R with rfl | ⟨R, x, rfl⟩
    · simp at hk
    · cases C with
      | nil => simp at hRC
      | cons c C =>
        have hl : R.length < n := by simp at hA; omega
        have ne : pos 0 ≠ pos (R.length + 1) := (W _ hB).toWindow.ne (by omega) (by omega)
        rw [reverseCopy]
        have pv := (W _ hB).prev _ hA R.length hl
        have e : R.concat x ++ A = R ++ x :: A := by simp
        have hB1 : (out ++ x :: C).length = n' := by simp at hB ⊢; omega
        rw [e] at hA pv ⊢
        have a1 := (W _ hB).toWindow.deref_at hA
        have a2 := (W' _ hA).assign_at hB x
        have a3 := (W' _ hA).next _ hB1 out.length (by simp at hB; omega)
        have := ih R (x :: A) (out ++ [x]) C (by simp at hk; omega) hA (by simpa using hB1) (by simpa using hRC)
        simp only [List.length_append, List.length_singleton, List.append_assoc, List.singleton_append] at this
        simp only [Prog.ite_app, show (R.concat x).length = R.length + 1 by simp, if_neg ne, Prog.bind_app, pv, Res.bind_ok, a1, a2, a3, this]
        simp [Nat.add_assoc, Nat.add_comm 1]

/-- `reverse_copy(first, last, d_first)`. -/
theorem reverse_copy_any (W : ∀ ys, ys.length = n' → BiWindow I pos n (fun xs => mem xs ys)) (W' : ∀ xs, xs.length = n → Window J pos' n' (mem xs)) {xs ys : List T}
    (hx : xs.length = n) (hy : ys.length = n') (hn : n ≤ n') :
    reverseCopy I J (pos 0) (pos n) (pos' 0) (mem xs ys) = .ok (pos' n, mem xs (xs.reverse ++ ys.drop n)) := by
  have := reverseCopy_tail mem W W' n xs [] [] ys hx (by simpa using hx) (by simpa using hy) (by omega)
  simpa [hx] using this

theorem copyBackward_tail (W : ∀ ys, ys.length = n' → BiWindow I pos n (fun xs => mem xs ys)) (W' : ∀ xs, xs.length = n → BiWindow J pos' n' (mem xs)) :
    ∀ (k : Nat) (R A C out : List T), R.length = k → (R ++ A).length = n → (C ++ out).length = n' → R.length ≤ C.length →
    copyBackward I J (pos 0) (pos R.length) (pos' C.length) (mem (R ++ A) (C ++ out)) =
      .ok (pos' (C.length - R.length), mem (R ++ A) (C.take (C.length - R.length) ++ R ++ out)) := by
  intro k
  induction k with
  | zero =>
    intro R A C out hk hA hB hRC
    have : R = [] := List.eq_nil_of_length_eq_zero hk
    subst this
    rw [copyBackward]; simp
  | succ k ih =>
    intro R A C out hk hA hB hRC
    rcases List.eq_nil_or_concat R with rfl | ⟨R, x, rfl⟩
    · simp at hk
    · rcases List.eq_nil_or_concat C with rfl | ⟨C, c, rfl⟩
      · simp at hRC
      · have hl : R.length < n := by simp at hA; omega
        have hl' : C.length < n' := by simp at hB; omega
        have ne : pos 0 ≠ pos (R.length + 1) := (W _ hB).toWindow.ne (by omega) (by omega)
        rw [copyBackward]
        have e : R.concat x ++ A = R ++ x :: A := by simp
        have e' : C.concat c ++ out = C ++ c :: out := by simp
        have hB1 : (C ++ x :: out).length = n' := by simp at hB ⊢; omega
        rw [e'] at hB ⊢
        rw [e] at hA ⊢
        have pv := (W _ hB).prev _ hA R.length hl
        have pv' := (W' _ hA).prev _ hB C.length hl'
        have a1 := (W _ hB).toWindow.deref_at hA
        have a2 := (W' _ hA).toWindow.assign_at hB x
        have := ih R (x :: A) C (x :: out) (by simp at hk; omega) hA hB1 (by simpa using hRC)
        simp only [Prog.ite_app, show (R.concat x).length = R.length + 1 by simp, if_neg ne, Prog.bind_app,
          show (C.concat c).length = C.length + 1 by simp, pv, pv', Res.bind_ok, a1, a2, this]
        have hd : C.length - R.length ≤ C.length := by omega
        simp [show C.length + 1 - (R.length + 1) = C.length - R.length by omega, List.take_append_of_le_length hd]

/-- `copy_backward(first, last, d_last)` to another sequence: the end of the destination gets the values. -/
theorem copy_backward_any (W : ∀ ys, ys.length = n' → BiWindow I pos n (fun xs => mem xs ys)) (W' : ∀ xs, xs.length = n → BiWindow J pos' n' (mem xs)) {xs ys : List T}
    (hx : xs.length = n) (hy : ys.length = n') (hn : n ≤ n') :
    copyBackward I J (pos 0) (pos n) (pos' n') (mem xs ys) = .ok (pos' (n' - n), mem xs (ys.take (n' - n) ++ xs)) := by
  have := copyBackward_tail W W' n xs [] ys [] hx (by simpa using hx) (by simpa using hy) (by omega)
  simpa [hx, hy] using this
end Other
end Verif.Gen
