import Verif.Exc.AlgoProps
/-!
# What an exception leaves behind of an algorithm that writes
-/
set_option linter.unusedVariables false
set_option linter.unusedSimpArgs false
set_option linter.unusedSectionVars false
namespace Verif.Exc.XAlgo
open Verif Verif.Exc Verif.Gen
variable {σ ι κ ω T U V δ α β : Type}

/-! ## Writing to a sequence -/
section Write
variable [DecidableEq ι] {I : WIter σ ι T} {pos : Nat → ι} {n : Nat} {mem : List T → σ}

theorem fill_tail (W : Window I pos n mem) (v : T) : ∀ (R A : List T), (A ++ R).length = n →
    Does (Gen.fill I (pos A.length) (pos n) v) (fill I (pos A.length) (pos n) v) (mem (A ++ R)) R.length () (mem (A ++ List.replicate R.length v))
      (fun k t => t = mem (A ++ List.replicate k v ++ R.drop k)) := by
  intro R
  induction R with
  | nil => intro A hl; simp only [List.append_nil] at hl ⊢; rw [Gen.fill, fill, hl]; simp only [if_true, List.length_nil, List.replicate_zero, List.append_nil]; exact Does.pure_
  | cons x R ih =>
    intro A hl
    have hl' : A.length < n := by simp at hl; omega
    rw [Gen.fill, fill]
    simp only [if_neg (W.ne hl' (Nat.le_refl _))]
    have := ih (A ++ [v]) (by simpa using hl)
    simp only [List.length_append, List.length_singleton, List.append_assoc, List.singleton_append] at this
    refine Does.point (by simp) (Does.call (W.assign_at hl v) (Does.call (W.next _ (by simpa using hl) _ hl') ?_))
    exact Does.cast rfl rfl (by simp [List.replicate_succ]) (this.imp fun k t _ e => by simp [e, List.replicate_succ])

theorem fillN_tail (W : Window I pos n mem) (v : T) : ∀ (k : Nat) (R A : List T), (A ++ R).length = n → k ≤ R.length →
    Does (Gen.fillN I (pos A.length) k v) (fillN I (pos A.length) k v) (mem (A ++ R)) k (pos (A.length + k)) (mem (A ++ List.replicate k v ++ R.drop k))
      (fun j t => t = mem (A ++ List.replicate j v ++ R.drop j)) := by
  intro k
  induction k with
  | zero => intro R A hl hk; rw [Gen.fillN, fillN]; simp only [Int.natCast_zero, gt_iff_lt, Int.lt_irrefl, if_false]; exact Does.cast rfl (by simp) (by simp) Does.pure_
  | succ k ih =>
    intro R A hl hk
    cases R with
    | nil => simp at hk
    | cons x R =>
      have hl' : A.length < n := by simp at hl; omega
      rw [Gen.fillN, fillN]
      simp only [gt_iff_lt, if_pos (show (0 : Int) < ((k + 1 : Nat) : Int) by omega), show ((k + 1 : Nat) : Int) - 1 = (k : Int) by omega]
      have := ih R (A ++ [v]) (by simpa using hl) (by simpa using hk)
      simp only [List.length_append, List.length_singleton, List.append_assoc, List.singleton_append] at this
      refine Does.point (by simp) (Does.call (W.assign_at hl v) (Does.call (W.next _ (by simpa using hl) _ hl') ?_))
      exact Does.cast rfl (by congr 1; omega) (by simp [List.replicate_succ]) (this.imp fun k t _ e => by simp [e, List.replicate_succ])

theorem generate_tail (W : Window I pos n mem) (g : Fn δ Unit T) : ∀ (R A : List T) (d : δ), (A ++ R).length = n →
    Does (Gen.generate I g (pos A.length) (pos n) d) (generate I g (pos A.length) (pos n) d) (mem (A ++ R)) (2 * R.length) (genS g d R.length).2
      (mem (A ++ (genS g d R.length).1)) (fun k t => t = mem (A ++ (genS g d (k / 2)).1 ++ R.drop (k / 2))) := by
  intro R
  induction R with
  | nil => intro A d hl; simp only [List.append_nil] at hl ⊢; rw [Gen.generate, generate, hl]; simp only [if_true, List.length_nil, genS, List.append_nil]; exact Does.pure_
  | cons x R ih =>
    intro A d hl
    have hl' : A.length < n := by simp at hl; omega
    rw [Gen.generate, generate]
    simp only [if_neg (W.ne hl' (Nat.le_refl _))]
    have := ih (A ++ [(g () d).1]) (g () d).2 (by simpa using hl)
    simp only [List.length_append, List.length_singleton, List.append_assoc, List.singleton_append] at this
    refine Does.point (by simp [genS]) (Does.point (by simp [genS]) (Does.call (W.assign_at hl _) (Does.call (W.next _ (by simpa using hl) _ hl') ?_)))
    refine Does.cast rfl rfl rfl (this.imp fun k t _ e => ?_)
    rw [e, show (k + 1 + 1) / 2 = k / 2 + 1 by omega]; simp [genS]

theorem generateN_tail (W : Window I pos n mem) (g : Fn δ Unit T) : ∀ (k : Nat) (R A : List T) (d : δ), (A ++ R).length = n → k ≤ R.length →
    Does (Gen.generateN I g (pos A.length) k d) (generateN I g (pos A.length) k d) (mem (A ++ R)) (2 * k) (pos (A.length + k), (genS g d k).2)
      (mem (A ++ (genS g d k).1 ++ R.drop k)) (fun k t => t = mem (A ++ (genS g d (k / 2)).1 ++ R.drop (k / 2))) := by
  intro k
  induction k with
  | zero => intro R A d hl hk; rw [Gen.generateN, generateN]; simp only [Int.natCast_zero, gt_iff_lt, Int.lt_irrefl, if_false]; exact Does.cast rfl (by simp [genS]) (by simp [genS]) Does.pure_
  | succ k ih =>
    intro R A d hl hk
    cases R with
    | nil => simp at hk
    | cons x R =>
      have hl' : A.length < n := by simp at hl; omega
      rw [Gen.generateN, generateN]
      simp only [gt_iff_lt, if_pos (show (0 : Int) < ((k + 1 : Nat) : Int) by omega), show ((k + 1 : Nat) : Int) - 1 = (k : Int) by omega]
      have := ih R (A ++ [(g () d).1]) (g () d).2 (by simpa using hl) (by simpa using hk)
      simp only [List.length_append, List.length_singleton, List.append_assoc, List.singleton_append] at this
      refine Does.point (by simp [genS]) (Does.point (by simp [genS]) (Does.call (W.assign_at hl _) (Does.call (W.next _ (by simpa using hl) _ hl') ?_)))
      refine Does.cast rfl (by simp only [genS]; congr 2; omega) (by simp [genS]) (this.imp fun k t _ e => ?_)
      rw [e, show (k + 1 + 1) / 2 = k / 2 + 1 by omega]; simp [genS]

theorem iota_tail (W : Window I pos n mem) (succ : T → T) : ∀ (R A : List T) (v : T), (A ++ R).length = n →
    Does (Gen.iota I succ (pos A.length) (pos n) v) (iota I succ (pos A.length) (pos n) v) (mem (A ++ R)) (2 * R.length) () (mem (A ++ Algo.iotaSeq succ R.length v))
      (fun k t => t = mem (A ++ Algo.iotaSeq succ ((k + 1) / 2) v ++ R.drop ((k + 1) / 2))) := by
  intro R
  induction R with
  | nil => intro A v hl; simp only [List.append_nil] at hl ⊢; rw [Gen.iota, iota, hl]; simp only [if_true, List.length_nil, Algo.iotaSeq, List.append_nil]; exact Does.pure_
  | cons x R ih =>
    intro A v hl
    have hl' : A.length < n := by simp at hl; omega
    rw [Gen.iota, iota]
    simp only [if_neg (W.ne hl' (Nat.le_refl _))]
    have := ih (A ++ [v]) (succ v) (by simpa using hl)
    simp only [List.length_append, List.length_singleton, List.append_assoc, List.singleton_append] at this
    refine Does.point (by simp [Algo.iotaSeq]) (Does.call (W.assign_at hl _) (Does.call (W.next _ (by simpa using hl) _ hl') (Does.point (by simp [Algo.iotaSeq]) ?_)))
    refine Does.cast rfl rfl rfl (this.imp fun k t _ e => ?_)
    rw [e, show (k + 1 + 1 + 1) / 2 = (k + 1) / 2 + 1 by omega]; simp [Algo.iotaSeq]

/-- The number of calls and assignments of `replace_if`: one call for each element and one assignment for each that is replaced. -/
theorem replaceIf_tail (W : Window I pos n mem) (p : Fn δ T Bool) (v : T) : ∀ (R A : List T) (d : δ), (A ++ R).length = n →
    Does (Gen.replaceIf I p v (pos A.length) (pos n) d) (replaceIf I p v (pos A.length) (pos n) d) (mem (A ++ R)) (R.length + (filterS p d R).1.length)
      (mapS (replS p v) d R).2 (mem (A ++ (mapS (replS p v) d R).1))
      (fun k t => ∃ m, m ≤ k ∧ k ≤ 2 * m + 1 ∧ m < R.length ∧ t = mem (A ++ (mapS (replS p v) d (R.take m)).1 ++ R.drop m)) := by
  intro R
  induction R with
  | nil => intro A d hl; simp only [List.append_nil] at hl ⊢; rw [Gen.replaceIf, replaceIf, hl]; simp only [if_true, List.length_nil, mapS, filterS, List.append_nil]; exact Does.pure_
  | cons x R ih =>
    intro A d hl
    have hl' : A.length < n := by simp at hl; omega
    rw [Gen.replaceIf, replaceIf]
    simp only [if_neg (W.ne hl' (Nat.le_refl _))]
    cases q : (p x d).1 with
    | true =>
      have := ih (A ++ [v]) (p x d).2 (by simpa using hl)
      simp only [List.length_append, List.length_singleton, List.append_assoc, List.singleton_append] at this
      refine Does.cast (n := R.length + (filterS p (p x d).2 R).1.length + 1 + 1) (by simp [filterS, q]; omega) rfl rfl ?_
      refine Does.call (W.deref_at hl) (Does.point ⟨0, by omega, by omega, by simp, by simp [mapS]⟩ ?_)
      simp only [q, if_true]
      refine Does.point ⟨0, by omega, by omega, by simp, by simp [mapS]⟩ (Does.call (W.assign_at hl _) (Does.call (W.next _ (by simpa using hl) _ hl') ?_))
      refine Does.cast rfl (by simp [mapS, replS]) (by simp [mapS, replS, q]) (this.imp fun k t _ e => ?_)
      obtain ⟨m, h1, h2, h3, e⟩ := e
      exact ⟨m + 1, by omega, by omega, by simpa using h3, by rw [e]; simp [mapS, replS, q]⟩
    | false =>
      have := ih (A ++ [x]) (p x d).2 (by simpa using hl)
      simp only [List.length_append, List.length_singleton, List.append_assoc, List.singleton_append] at this
      refine Does.cast (n := R.length + (filterS p (p x d).2 R).1.length + 1) (by simp [filterS, q]; omega) rfl rfl ?_
      refine Does.call (W.deref_at hl) (Does.point ⟨0, by omega, by omega, by simp, by simp [mapS]⟩ ?_)
      simp only [q, if_false, Bool.false_eq_true]
      refine Does.call (W.next _ hl _ hl') ?_
      refine Does.cast rfl (by simp [mapS, replS]) (by simp [mapS, replS, q]) (this.imp fun k t _ e => ?_)
      obtain ⟨m, h1, h2, h3, e⟩ := e
      exact ⟨m + 1, by omega, by omega, by simpa using h3, by rw [e]; simp [mapS, replS, q]⟩
end Write

/-! ## From one sequence to another -/
section Flow
variable [DecidableEq ι] {I : Iter σ ι T} {src : Nat → ι} {xs : List T} {cap : Nat}

theorem copy_flow {J : WIter σ κ T} {dst : Nat → κ} {mem : List T → σ} (F : Flow I J src xs dst cap mem) (hc : xs.length ≤ cap) :
    ∀ (R A : List T), A ++ R = xs → Does (Gen.copy I J (src A.length) (src xs.length) (dst A.length)) (copy I J (src A.length) (src xs.length) (dst A.length)) (mem A)
      R.length (dst xs.length) (mem xs) (fun k t => t = mem (A ++ R.take k)) := by
  intro R
  induction R with
  | nil => intro A e; simp only [List.append_nil] at e; subst e; rw [Gen.copy, copy]; simp only [if_true]; exact Does.pure_
  | cons x R ih =>
    intro A e
    have hA : A.length < xs.length := by rw [← e]; simp
    rw [Gen.copy, copy]
    have := ih (A ++ [x]) (by simpa using e)
    simp only [List.length_append, List.length_singleton] at this
    simp only [if_neg (F.ne _ hA)]
    refine Does.call (F.deref A A.length x (Nat.le_refl _) (by omega) (by rw [← e]; simp)) (Does.point (by simp) (Does.call (F.assign A x (by omega) hA)
      (Does.call (F.out A x (by omega) hA) (Does.call (F.next (A ++ [x]) A.length (by simp) (by simp; omega) hA) (this.imp fun k t _ e => by simp [e])))))

theorem copyN_flow {J : WIter σ κ T} {dst : Nat → κ} {mem : List T → σ} (F : Flow I J src xs dst cap mem) :
    ∀ (k : Nat) (R A : List T), A ++ R = xs → k ≤ R.length → A.length + k ≤ cap →
      Does (Gen.copyN I J (src A.length) k (dst A.length)) (copyN I J (src A.length) k (dst A.length)) (mem A) k (dst (A.length + k)) (mem (A ++ R.take k))
        (fun j t => t = mem (A ++ R.take j)) := by
  intro k
  induction k with
  | zero => intro R A e hk hc; rw [Gen.copyN, copyN]; simp only [Int.natCast_zero, gt_iff_lt, Int.lt_irrefl, if_false]; exact Does.cast rfl (by simp) (by simp) Does.pure_
  | succ k ih =>
    intro R A e hk hc
    cases R with
    | nil => simp at hk
    | cons x R =>
      have hA : A.length < xs.length := by rw [← e]; simp
      have := ih R (A ++ [x]) (by simpa using e) (by simpa using hk) (by simp; omega)
      simp only [List.length_append, List.length_singleton] at this
      rw [Gen.copyN, copyN]
      simp only [gt_iff_lt, if_pos (show (0 : Int) < ((k + 1 : Nat) : Int) by omega), show ((k + 1 : Nat) : Int) - 1 = (k : Int) by omega]
      refine Does.call (F.deref A A.length x (Nat.le_refl _) (by omega) (by rw [← e]; simp)) (Does.point (by simp) (Does.call (F.assign A x (by omega) hA)
        (Does.call (F.next (A ++ [x]) A.length (by simp) (by simp; omega) hA) (Does.call (F.out A x (by omega) hA) ?_))))
      exact Does.cast rfl (by congr 1; omega) (by simp) (this.imp fun k t _ e => by simp [e])

theorem transform_flow {J : WIter σ κ U} {dst : Nat → κ} {mem : List U → σ} (F : Flow I J src xs dst cap mem) (hc : xs.length ≤ cap) (op : Fn δ T U) :
    ∀ (R A : List T) (out : List U) (d : δ), A ++ R = xs → out.length = A.length →
      Does (Gen.transform I J op (src A.length) (src xs.length) (dst out.length) d) (transform I J op (src A.length) (src xs.length) (dst out.length) d) (mem out)
        (2 * R.length) (dst xs.length, (mapS op d R).2) (mem (out ++ (mapS op d R).1)) (fun k t => t = mem (out ++ (mapS op d R).1.take (k / 2))) := by
  intro R
  induction R with
  | nil => intro A out d e ho; simp only [List.append_nil] at e; subst e; rw [Gen.transform, transform]; simp only [if_true]; exact Does.cast rfl (by simp [mapS, ho]) (by simp [mapS]) Does.pure_
  | cons x R ih =>
    intro A out d e ho
    have hA : A.length < xs.length := by rw [← e]; simp
    have := ih (A ++ [x]) (out ++ [(op x d).1]) (op x d).2 (by simpa using e) (by simpa using ho)
    simp only [List.length_append, List.length_singleton] at this
    rw [Gen.transform, transform]
    simp only [if_neg (F.ne _ hA)]
    refine Does.call (F.deref out A.length x (by omega) (by omega) (by rw [← e]; simp)) (Does.call (F.next out A.length (by omega) (by omega) hA)
      (Does.point (by simp) (Does.point (by simp) (Does.call (F.assign out _ (by omega) (by omega)) (Does.call (F.out out _ (by omega) (by omega)) ?_)))))
    refine Does.cast rfl rfl (by simp [mapS]) (this.imp fun k t _ e => ?_)
    rw [e, show (k + 1 + 1) / 2 = k / 2 + 1 by omega]; simp [mapS]

theorem replaceCopyIf_flow {J : WIter σ κ T} {dst : Nat → κ} {mem : List T → σ} (F : Flow I J src xs dst cap mem) (hc : xs.length ≤ cap) (p : Fn δ T Bool) (v : T) :
    ∀ (R A out : List T) (d : δ), A ++ R = xs → out.length = A.length →
      Does (Gen.replaceCopyIf I J p v (src A.length) (src xs.length) (dst out.length) d) (replaceCopyIf I J p v (src A.length) (src xs.length) (dst out.length) d) (mem out)
        (2 * R.length) (dst xs.length, (mapS (replS p v) d R).2) (mem (out ++ (mapS (replS p v) d R).1))
        (fun k t => t = mem (out ++ (mapS (replS p v) d R).1.take (k / 2))) := by
  intro R
  induction R with
  | nil => intro A out d e ho; simp only [List.append_nil] at e; subst e; rw [Gen.replaceCopyIf, replaceCopyIf]; simp only [if_true]; exact Does.cast rfl (by simp [mapS, ho]) (by simp [mapS]) Does.pure_
  | cons x R ih =>
    intro A out d e ho
    have hA : A.length < xs.length := by rw [← e]; simp
    have hd := F.deref out A.length x (by omega) (by omega) (by rw [← e]; simp)
    rw [Gen.replaceCopyIf, replaceCopyIf]
    simp only [if_neg (F.ne _ hA)]
    refine Does.call hd (Does.point (by simp) ?_)
    cases q : (p x d).1 with
    | true =>
      have := ih (A ++ [x]) (out ++ [v]) (p x d).2 (by simpa using e) (by simpa using ho)
      simp only [List.length_append, List.length_singleton] at this
      simp only [if_true]
      refine Does.point (by simp) (Does.call (F.assign out v (by omega) (by omega)) (Does.call (F.next (out ++ [v]) A.length (by simp; omega) (by simp; omega) hA)
        (Does.call (F.out out v (by omega) (by omega)) ?_)))
      refine Does.cast rfl (by simp [mapS, replS]) (by simp [mapS, replS, q]) (this.imp fun k t _ e => ?_)
      rw [e, show (k + 1 + 1) / 2 = k / 2 + 1 by omega]; simp [mapS, replS, q]
    | false =>
      have := ih (A ++ [x]) (out ++ [x]) (p x d).2 (by simpa using e) (by simpa using ho)
      simp only [List.length_append, List.length_singleton] at this
      simp only [Bool.false_eq_true, if_false]
      refine Does.call hd (Does.point (by simp) (Does.call (F.assign out x (by omega) (by omega)) (Does.call (F.next (out ++ [x]) A.length (by simp; omega) (by simp; omega) hA)
        (Does.call (F.out out x (by omega) (by omega)) ?_))))
      refine Does.cast rfl (by simp [mapS, replS]) (by simp [mapS, replS, q]) (this.imp fun k t _ e => ?_)
      rw [e, show (k + 1 + 1) / 2 = k / 2 + 1 by omega]; simp [mapS, replS, q]

theorem copyIf_flow {J : WIter σ κ T} {dst : Nat → κ} {mem : List T → σ} (F : Flow I J src xs dst cap mem) (p : Fn δ T Bool) :
    ∀ (R A out : List T) (d : δ), A ++ R = xs → out.length ≤ A.length → out.length + (filterS p d R).1.length ≤ cap →
      Does (Gen.copyIf I J p (src A.length) (src xs.length) (dst out.length) d) (copyIf I J p (src A.length) (src xs.length) (dst out.length) d) (mem out)
        (R.length + (filterS p d R).1.length) (dst (out.length + (filterS p d R).1.length), (filterS p d R).2) (mem (out ++ (filterS p d R).1))
        (fun k t => ∃ m, m ≤ k ∧ k ≤ 2 * m + 1 ∧ m < R.length ∧ t = mem (out ++ (filterS p d (R.take m)).1)) := by
  intro R
  induction R with
  | nil => intro A out d e ho hc; simp only [List.append_nil] at e; subst e; rw [Gen.copyIf, copyIf]; simp only [if_true]; exact Does.cast (by simp [filterS]) (by simp [filterS]) (by simp [filterS]) Does.pure_
  | cons x R ih =>
    intro A out d e ho hc
    have hA : A.length < xs.length := by rw [← e]; simp
    have hd := F.deref out A.length x ho (by omega) (by rw [← e]; simp)
    rw [Gen.copyIf, copyIf]
    simp only [if_neg (F.ne _ hA)]
    cases q : (p x d).1 with
    | true =>
      simp only [filterS, q, if_true, List.length_cons] at hc ⊢
      have := ih (A ++ [x]) (out ++ [x]) (p x d).2 (by simpa using e) (by simpa using ho) (by simp; omega)
      simp only [List.length_append, List.length_singleton] at this
      refine Does.cast (n := R.length + (filterS p (p x d).2 R).1.length + 1 + 1) (by omega) rfl rfl ?_
      refine Does.call hd (Does.point ⟨0, by omega, by omega, by simp, by simp [filterS]⟩ ?_)
      simp only [q, if_true]
      refine Does.call hd (Does.point ⟨0, by omega, by omega, by simp, by simp [filterS]⟩ (Does.call (F.assign out x (by omega) (by omega)) (Does.call (F.out out x (by omega) (by omega))
        (Does.call (F.next (out ++ [x]) A.length (by simpa using ho) (by simp; omega) hA) ?_))))
      refine Does.cast rfl (by simp [Nat.add_assoc, Nat.add_comm 1]) (by simp) (this.imp fun k t _ e => ?_)
      obtain ⟨m, h1, h2, h3, e⟩ := e
      exact ⟨m + 1, by omega, by omega, by omega, by rw [e]; simp [filterS, q]⟩
    | false =>
      simp only [filterS, q, Bool.false_eq_true, if_false, List.length_cons] at hc ⊢
      have := ih (A ++ [x]) out (p x d).2 (by simpa using e) (by simp; omega) hc
      simp only [List.length_append, List.length_singleton] at this
      refine Does.cast (n := R.length + (filterS p (p x d).2 R).1.length + 1) (by omega) rfl rfl ?_
      refine Does.call hd (Does.point ⟨0, by omega, by omega, by simp, by simp [filterS]⟩ ?_)
      simp only [q, if_false, Bool.false_eq_true]
      refine Does.call (F.next out A.length (by omega) (by omega) hA) (this.imp fun k t _ e => ?_)
      obtain ⟨m, h1, h2, h3, e⟩ := e
      exact ⟨m + 1, by omega, by omega, by omega, by rw [e]; simp [filterS, q]⟩

theorem removeCopyIf_flow {J : WIter σ κ T} {dst : Nat → κ} {mem : List T → σ} (F : Flow I J src xs dst cap mem) (p : Fn δ T Bool) :
    ∀ (R A out : List T) (d : δ), A ++ R = xs → out.length ≤ A.length → out.length + (filterS (notS p) d R).1.length ≤ cap →
      Does (Gen.removeCopyIf I J p (src A.length) (src xs.length) (dst out.length) d) (removeCopyIf I J p (src A.length) (src xs.length) (dst out.length) d) (mem out)
        (R.length + (filterS (notS p) d R).1.length) (dst (out.length + (filterS (notS p) d R).1.length), (filterS (notS p) d R).2) (mem (out ++ (filterS (notS p) d R).1))
        (fun k t => ∃ m, m ≤ k ∧ k ≤ 2 * m + 1 ∧ m < R.length ∧ t = mem (out ++ (filterS (notS p) d (R.take m)).1)) := by
  intro R
  induction R with
  | nil => intro A out d e ho hc; simp only [List.append_nil] at e; subst e; rw [Gen.removeCopyIf, removeCopyIf]; simp only [if_true]; exact Does.cast (by simp [filterS]) (by simp [filterS]) (by simp [filterS]) Does.pure_
  | cons x R ih =>
    intro A out d e ho hc
    have hA : A.length < xs.length := by rw [← e]; simp
    have hd := F.deref out A.length x ho (by omega) (by rw [← e]; simp)
    rw [Gen.removeCopyIf, removeCopyIf]
    simp only [if_neg (F.ne _ hA)]
    have fT : (p x d).1 = true → (filterS (notS p) d (x :: R)) = filterS (notS p) (p x d).2 R := by intro q; simp [filterS, notS, q]
    have fF : (p x d).1 = false → (filterS (notS p) d (x :: R)) = (x :: (filterS (notS p) (p x d).2 R).1, (filterS (notS p) (p x d).2 R).2) := by intro q; simp [filterS, notS, q]
    cases q : (p x d).1 with
    | false =>
      simp only [fF q, List.length_cons] at hc ⊢
      have := ih (A ++ [x]) (out ++ [x]) (p x d).2 (by simpa using e) (by simpa using ho) (by simp; omega)
      simp only [List.length_append, List.length_singleton] at this
      refine Does.cast (n := R.length + (filterS (notS p) (p x d).2 R).1.length + 1 + 1) (by omega) rfl rfl ?_
      refine Does.call hd (Does.point ⟨0, by omega, by omega, by simp, by simp [filterS]⟩ ?_)
      simp only [q, Bool.not_false, if_true]
      refine Does.call hd (Does.point ⟨0, by omega, by omega, by simp, by simp [filterS]⟩ (Does.call (F.assign out x (by omega) (by omega)) (Does.call (F.out out x (by omega) (by omega))
        (Does.call (F.next (out ++ [x]) A.length (by simpa using ho) (by simp; omega) hA) ?_))))
      refine Does.cast rfl (by simp [Nat.add_assoc, Nat.add_comm 1]) (by simp) (this.imp fun k t _ e => ?_)
      obtain ⟨m, h1, h2, h3, e⟩ := e
      exact ⟨m + 1, by omega, by omega, by omega, by rw [e]; simp [filterS, notS, q]⟩
    | true =>
      simp only [fT q, List.length_cons] at hc ⊢
      have := ih (A ++ [x]) out (p x d).2 (by simpa using e) (by simp; omega) hc
      simp only [List.length_append, List.length_singleton] at this
      refine Does.cast (n := R.length + (filterS (notS p) (p x d).2 R).1.length + 1) (by omega) rfl rfl ?_
      refine Does.call hd (Does.point ⟨0, by omega, by omega, by simp, by simp [filterS]⟩ ?_)
      simp only [q, Bool.not_true, if_false, Bool.false_eq_true]
      refine Does.call (F.next out A.length (by omega) (by omega) hA) (this.imp fun k t _ e => ?_)
      obtain ⟨m, h1, h2, h3, e⟩ := e
      exact ⟨m + 1, by omega, by omega, by omega, by rw [e]; simp [filterS, notS, q]⟩
end Flow
end Verif.Exc.XAlgo
