import Verif.Exc.AlgoWrites2
import Verif.Algorithm.OnContainers
/-!
# The algorithms on containers, when functors or assignments throw

`Does g x h n a h' P`: the call without exceptions, `g`, returns `a` and leaves `h'`; the same call `x` passes `n` points at which the client's code may throw;
if none does it returns `a` and leaves `h'` as well; if the one after the first `k` (`k < n`) throws, the exception leaves the call and the memory has the
property `P k`. `Presents I pos xs h Ok` (of `Verif.Algorithm.Presents`): the iterators `pos 0 … pos xs.length` are `begin() … end()` of a sequence with the values
`xs`; `Ok ys t`: in the memory `t` the sequence has the values `ys` and everything else is as before.
-/
set_option linter.unusedVariables false
set_option linter.unusedSimpArgs false
set_option linter.unusedSectionVars false
namespace Verif.Exc.XAlgo
open Verif Verif.Exc Verif.Gen
variable {σ ι κ ω T U V δ α β : Type}

/-! ## Algorithms that read -/

theorem quantifiers_does [DecidableEq ι] {I : Iter σ ι T} {s : σ} {first last : ι} {xs : List T} (h : Iter.Range I s first xs last) (p : Fn δ T Bool) (d : δ) :
    (∃ r, Reads (Gen.allOf I p first last d) (allOf I p first last d) s (asked (notS p) d xs) r) ∧
    (∃ r, Reads (Gen.anyOf I p first last d) (anyOf I p first last d) s (asked p d xs) r) ∧
    (∃ r, Reads (Gen.noneOf I p first last d) (noneOf I p first last d) s (asked p d xs) r) := by
  obtain ⟨it, _, X⟩ := findIf_does h p d
  obtain ⟨it', _, Y⟩ := findIfNot_does h p d
  exact ⟨⟨(decide (it' = last), (scanS (notS p) d xs).2), Does.map (fun r : ι × δ => (decide (r.1 = last), r.2)) Y⟩,
    ⟨(decide (it ≠ last), (scanS p d xs).2), Does.map (fun r : ι × δ => (decide (r.1 ≠ last), r.2)) X⟩,
    ⟨(decide (it = last), (scanS p d xs).2), Does.map (fun r : ι × δ => (decide (r.1 = last), r.2)) X⟩⟩

section Bounds
variable {I : RIter σ ι T} {s : σ} {pos : Nat → ι} {xs : List T}

theorem lowerBound_does (W : RAt I s pos xs) (hn : xs.length < 2147483648) (comp : Fn δ (T × U) Bool) (v : U) (d : δ) :
    ∃ n k d', n ≤ probes xs.length ∧ k ≤ xs.length ∧
      Reads (Gen.lowerBound I comp (pos 0) (pos xs.length) v d) (lowerBound I comp (pos 0) (pos xs.length) v d) s n (pos k, d') := by
  obtain ⟨n, k, d', h1, h2, h3, X⟩ := boundLoop_does W (fun x d => comp (x, v) d) xs.length 0 d (by omega)
  refine ⟨n, k, d', h1, by omega, ?_⟩
  unfold lowerBound Gen.lowerBound
  rw [W.diff 0 xs.length (by omega) (by omega), Nat.sub_zero, Algo.toInt32_small hn]
  exact X

theorem upperBound_from (W : RAt I s pos xs) (hn : xs.length < 2147483648) (comp : Fn δ (U × T) Bool) (v : U) (d : δ) (lo : Nat) (hlo : lo ≤ xs.length) :
    ∃ n k d', n ≤ probes (xs.length - lo) ∧ lo ≤ k ∧ k ≤ xs.length ∧
      Reads (Gen.upperBound I comp (pos lo) (pos xs.length) v d) (upperBound I comp (pos lo) (pos xs.length) v d) s n (pos k, d') := by
  obtain ⟨n, k, d', h1, h2, h3, X⟩ := boundLoop_does W (fun x d => (!(comp (v, x) d).1, (comp (v, x) d).2)) (xs.length - lo) lo d (by omega)
  refine ⟨n, k, d', h1, h2, by omega, ?_⟩
  unfold upperBound Gen.upperBound
  rw [W.diff lo xs.length (by omega) (by omega), Algo.toInt32_small (by omega)]
  exact X

theorem upperBound_does (W : RAt I s pos xs) (hn : xs.length < 2147483648) (comp : Fn δ (U × T) Bool) (v : U) (d : δ) :
    ∃ n k d', n ≤ probes xs.length ∧ k ≤ xs.length ∧
      Reads (Gen.upperBound I comp (pos 0) (pos xs.length) v d) (upperBound I comp (pos 0) (pos xs.length) v d) s n (pos k, d') := by
  obtain ⟨n, k, d', h1, _, h3, X⟩ := upperBound_from W hn comp v d 0 (by omega)
  exact ⟨n, k, d', h1, h3, X⟩

theorem binarySearch_does [DecidableEq ι] (W : RAt I s pos xs) (hn : xs.length < 2147483648) (comp : Fn δ (T × T) Bool) (v : T) (d : δ) :
    ∃ n r, n ≤ probes xs.length + 1 ∧
      Reads (Gen.binarySearch I comp (pos 0) (pos xs.length) v d) (binarySearch I comp (pos 0) (pos xs.length) v d) s n r := by
  obtain ⟨n, k, d', h1, h3, X⟩ := lowerBound_does W hn comp v d
  rcases Nat.lt_or_ge k xs.length with hk | hk
  · refine ⟨n + (0 + 1), (!(comp (v, xs[k]) d').1, (comp (v, xs[k]) d').2), by omega, Does.seq X ?_⟩
    simp only [if_neg (W.ne k hk)]
    exact Does.call (W.deref k xs[k] (List.getElem?_eq_getElem hk)) (Does.point rfl Does.pure_)
  · have : k = xs.length := by omega
    subst this
    refine ⟨n + 0, (false, d'), by omega, Does.seq X ?_⟩
    simp only [if_true]
    exact Does.pure_

theorem equalRange_does (W : RAt I s pos xs) (hn : xs.length < 2147483648) (comp : Fn δ (T × T) Bool) (v : T) (d : δ) :
    ∃ n r, n ≤ 2 * probes xs.length ∧
      Reads (Gen.equalRange I comp (pos 0) (pos xs.length) v d) (equalRange I comp (pos 0) (pos xs.length) v d) s n r := by
  obtain ⟨n, k, d', h1, h3, X⟩ := lowerBound_does W hn comp v d
  obtain ⟨m, j, d'', g1, _, _, Y⟩ := upperBound_from W hn comp v d' k h3
  have hp : probes (xs.length - k) ≤ probes xs.length := by
    rcases Nat.eq_zero_or_pos (xs.length - k) with h | h
    · simp [h, probes]
    · simp only [probes, if_neg (show ¬ xs.length - k = 0 by omega), if_neg (show ¬ xs.length = 0 by omega)]
      have : Nat.log2 (xs.length - k) ≤ Nat.log2 xs.length := (Nat.le_log2 (by omega)).2 (Nat.le_trans (Nat.log2_self_le (by omega)) (by omega))
      omega
  exact ⟨n + m, ((pos k, pos j), d''), by omega, Does.seq X (Does.map (fun u : ι × δ => ((pos k, u.1), u.2)) Y)⟩
end Bounds

/-! ## Algorithms that write -/
section Write
variable [DecidableEq ι] {I : WIter σ ι T} {pos : Nat → ι} {xs : List T} {h : σ} {Ok : List T → σ → Prop}

theorem genS_length (g : Fn δ Unit T) : ∀ k d, (genS g d k).1.length = k
  | 0, _ => rfl
  | k + 1, d => by simp [genS, genS_length g k]

theorem iotaSeq_length (succ : T → T) : ∀ k v, (Algo.iotaSeq succ k v).length = k
  | 0, _ => rfl
  | k + 1, v => by simp [Algo.iotaSeq, iotaSeq_length succ k]

/-- `fill`: after `k` assignments the first `k` elements are `v`, the others as before. -/
theorem fill_does (P : Presents I pos xs h Ok) (v : T) :
    ∃ h', Ok (List.replicate xs.length v) h' ∧ Does (Gen.fill I (pos 0) (pos xs.length) v) (fill I (pos 0) (pos xs.length) v) h xs.length () h'
      (fun k t => Ok (List.replicate k v ++ xs.drop k) t) := by
  obtain ⟨mem, W, rfl, ok⟩ := P
  have X := fill_tail W v xs [] (by simp)
  simp only [List.length_nil, List.nil_append] at X
  exact ⟨_, ok _ (by simp), X.imp fun k t hk e => by rw [e]; exact ok _ (by simp; omega)⟩

theorem fillN_does (P : Presents I pos xs h Ok) (v : T) (n : Nat) (hn : n ≤ xs.length) :
    ∃ h', Ok (List.replicate n v ++ xs.drop n) h' ∧ Does (Gen.fillN I (pos 0) n v) (fillN I (pos 0) n v) h n (pos n) h'
      (fun k t => Ok (List.replicate k v ++ xs.drop k) t) := by
  obtain ⟨mem, W, rfl, ok⟩ := P
  have X := fillN_tail W v n xs [] (by simp) hn
  simp only [List.length_nil, List.nil_append, Nat.zero_add] at X
  exact ⟨_, ok _ (by simp; omega), X.imp fun k t hk e => by rw [e]; exact ok _ (by simp; omega)⟩

/-- `generate`: a call and an assignment for each element in turn; the elements assigned so far are the generator's first results. -/
theorem generate_does (P : Presents I pos xs h Ok) (g : Fn δ Unit T) (d : δ) :
    ∃ h', Ok (genS g d xs.length).1 h' ∧ Does (Gen.generate I g (pos 0) (pos xs.length) d) (generate I g (pos 0) (pos xs.length) d) h (2 * xs.length)
      (genS g d xs.length).2 h' (fun k t => Ok ((genS g d (k / 2)).1 ++ xs.drop (k / 2)) t) := by
  obtain ⟨mem, W, rfl, ok⟩ := P
  have X := generate_tail W g xs [] d (by simp)
  simp only [List.length_nil, List.nil_append] at X
  exact ⟨_, ok _ (genS_length _ _ _), X.imp fun k t hk e => by rw [e]; exact ok _ (by simp [genS_length]; omega)⟩

theorem generateN_does (P : Presents I pos xs h Ok) (g : Fn δ Unit T) (d : δ) (n : Nat) (hn : n ≤ xs.length) :
    ∃ h', Ok ((genS g d n).1 ++ xs.drop n) h' ∧ Does (Gen.generateN I g (pos 0) n d) (generateN I g (pos 0) n d) h (2 * n) (pos n, (genS g d n).2) h'
      (fun k t => Ok ((genS g d (k / 2)).1 ++ xs.drop (k / 2)) t) := by
  obtain ⟨mem, W, rfl, ok⟩ := P
  have X := generateN_tail W g n xs [] d (by simp) hn
  simp only [List.length_nil, List.nil_append, Nat.zero_add] at X
  exact ⟨_, ok _ (by simp [genS_length]; omega), X.imp fun k t hk e => by rw [e]; exact ok _ (by simp [genS_length]; omega)⟩

/-- `iota`: an assignment and an increment for each element in turn. -/
theorem iota_does (P : Presents I pos xs h Ok) (succ : T → T) (v : T) :
    ∃ h', Ok (Algo.iotaSeq succ xs.length v) h' ∧ Does (Gen.iota I succ (pos 0) (pos xs.length) v) (iota I succ (pos 0) (pos xs.length) v) h (2 * xs.length) () h'
      (fun k t => Ok (Algo.iotaSeq succ ((k + 1) / 2) v ++ xs.drop ((k + 1) / 2)) t) := by
  obtain ⟨mem, W, rfl, ok⟩ := P
  have X := iota_tail W succ xs [] v (by simp)
  simp only [List.length_nil, List.nil_append] at X
  exact ⟨_, ok _ (iotaSeq_length _ _ _), X.imp fun k t hk e => by rw [e]; exact ok _ (by simp [iotaSeq_length]; omega)⟩

/-- `replace_if`: a call for each element and an assignment for each replaced one; the first `m` elements are done, the others as before. -/
theorem replaceIf_does (P : Presents I pos xs h Ok) (p : Fn δ T Bool) (v : T) (d : δ) :
    ∃ h', Ok (mapS (replS p v) d xs).1 h' ∧ Does (Gen.replaceIf I p v (pos 0) (pos xs.length) d) (replaceIf I p v (pos 0) (pos xs.length) d) h
      (xs.length + (filterS p d xs).1.length) (mapS (replS p v) d xs).2 h'
      (fun k t => ∃ m, m ≤ k ∧ k ≤ 2 * m + 1 ∧ m < xs.length ∧ Ok ((mapS (replS p v) d (xs.take m)).1 ++ xs.drop m) t) := by
  obtain ⟨mem, W, rfl, ok⟩ := P
  have X := replaceIf_tail W p v xs [] d (by simp)
  simp only [List.length_nil, List.nil_append] at X
  exact ⟨_, ok _ (mapS_length _ _ _), X.imp fun k t hk ⟨m, h1, h2, h3, e⟩ => ⟨m, h1, h2, h3, by rw [e]; exact ok _ (by simp [mapS_length]; omega)⟩⟩

/-- `transform` in place: a call and an assignment for each element in turn. -/
theorem transform_in_place (P : Presents I pos xs h Ok) (op : Fn δ T T) (d : δ) :
    ∃ h', Ok (mapS op d xs).1 h' ∧ Does (Gen.transform I.toIter I op (pos 0) (pos xs.length) (pos 0) d) (transform I.toIter I op (pos 0) (pos xs.length) (pos 0) d) h
      (2 * xs.length) (pos xs.length, (mapS op d xs).2) h' (fun k t => Ok ((mapS op d xs).1.take (k / 2) ++ xs.drop (k / 2)) t) := by
  obtain ⟨mem, W, rfl, ok⟩ := P
  have X := transform_flow (W.flow_self (A := []) (B := []) (C := xs) (D := []) (by simp)) (Nat.le_refl _) op xs [] [] d rfl rfl
  simp only [List.length_nil, List.nil_append, Nat.zero_add, List.append_nil, List.drop_zero, mapS_length, List.drop_length] at X
  refine ⟨_, ok _ (mapS_length _ _ _), X.imp fun k t hk e => ?_⟩
  rw [e, List.length_take, mapS_length, Nat.min_eq_left (by omega)]
  exact ok _ (by simp [mapS_length]; omega)

/-- `remove_if`: a call for each element and a move for each kept element behind the first removed one. If one throws after `m` elements are done, those of
them to be kept are in front, in their order, and the elements after the first `m` are as before: no element that is to be kept, or not yet tested, is lost. -/
theorem removeIf_does (P : Presents I pos xs h Ok) (residue : T → T) (p : Fn δ T Bool) (d : δ) :
    ∃ h' J, ((filterS (notS p) d xs).1 ++ J).length = xs.length ∧ Ok ((filterS (notS p) d xs).1 ++ J) h' ∧
      Does (Gen.removeIf I residue p (pos 0) (pos xs.length) d) (removeIf I residue p (pos 0) (pos xs.length) d) h
      (xs.length + ((filterS (notS p) d xs).1.length - (scanS p d xs).1)) (pos (filterS (notS p) d xs).1.length, (filterS (notS p) d xs).2) h'
      (fun k t => ∃ m Q, m ≤ k ∧ k ≤ 2 * m + 1 ∧ m < xs.length ∧ ((filterS (notS p) d (xs.take m)).1 ++ Q ++ xs.drop m).length = xs.length ∧
        Ok ((filterS (notS p) d (xs.take m)).1 ++ Q ++ xs.drop m) t) := by
  obtain ⟨mem, W, rfl, ok⟩ := P
  obtain ⟨J, X, l⟩ := removeIf_window W rfl residue p d
  exact ⟨_, J, l, ok _ l, X.imp fun k t hk ⟨m, Q, h1, h2, h3, h4, e⟩ => ⟨m, Q, h1, h2, h3, h4, by rw [e]; exact ok _ h4⟩⟩

/-- `reverse`: three points for each pair exchanged (the copy of the front element, the two assignments). With `i` front and `j` back elements done, the sequence
has the last `i` elements in front, in reverse order, the first `j` at the end, and the elements in between as before; `i = j` except while the second assignment
of an exchange throws. -/
theorem reverse_does (P : BiPresents I pos xs h Ok) :
    ∃ h', Ok xs.reverse h' ∧ Does (Gen.reverse I (pos 0) (pos xs.length)) (reverse I (pos 0) (pos xs.length)) h (3 * (xs.length / 2)) () h'
      (fun k t => Ok (xs.reverse.take ((k + 1) / 3) ++ (xs.take (xs.length - k / 3)).drop ((k + 1) / 3) ++ xs.reverse.drop (xs.length - k / 3)) t) := by
  obtain ⟨mem, W, rfl, ok⟩ := P
  have X := reverse_tail W xs.length [] xs [] rfl (by simp)
  simp only [List.length_nil, List.nil_append, Nat.zero_add, List.append_nil] at X
  exact ⟨_, ok _ (by simp), X.imp fun k t hk e => by rw [e]; exact ok _ (by simp; omega)⟩

theorem turned_perm (xs : List T) (j : Nat) (hj : 2 * j ≤ xs.length) :
    (xs.reverse.take j ++ (xs.take (xs.length - j)).drop j ++ xs.reverse.drop (xs.length - j)).Perm xs := by
  have e : xs = xs.take j ++ (xs.take (xs.length - j)).drop j ++ xs.drop (xs.length - j) := by
    have h1 : xs.take j = (xs.take (xs.length - j)).take j := by rw [List.take_take, Nat.min_eq_left (by omega)]
    rw [h1, List.take_append_drop, List.take_append_drop]
  have a : xs.reverse.take j = (xs.drop (xs.length - j)).reverse := by rw [List.take_reverse]
  have b : xs.reverse.drop (xs.length - j) = (xs.take j).reverse := by
    rw [List.drop_reverse, show xs.length - (xs.length - j) = j by omega]
  rw [a, b]
  refine ((List.reverse_perm _).append_right _ |>.append (List.reverse_perm _)).trans ?_
  conv => rhs; rw [e]
  refine List.perm_append_comm.trans ?_
  rw [List.append_assoc]
  exact (List.perm_append_comm).append_left _

/-- Unless the second assignment of an exchange throws, `reverse` keeps all the elements. -/
theorem reverse_keeps_partial (P : BiPresents I pos xs h Ok) (k : Nat) (hk : k < 3 * (xs.length / 2)) (hm : k % 3 ≠ 2) :
    ∃ ys t, reverse I (pos 0) (pos xs.length) k h = .ok (.thrown, t) ∧ ys.Perm xs ∧ Ok ys t := by
  obtain ⟨h', o, X⟩ := reverse_does P
  obtain ⟨t, e, q⟩ := X.points.throws k hk
  rw [show (k + 1) / 3 = k / 3 by omega] at q
  exact ⟨_, t, e, turned_perm xs (k / 3) (by omega), q⟩

/-- If the second assignment of the first exchange throws, the first element is lost and the last one is there twice. -/
theorem reverse_loses {x y : T} {zs : List T} (P : BiPresents I pos (x :: zs ++ [y]) h Ok) :
    ∃ t, reverse I (pos 0) (pos (zs.length + 2)) 2 h = .ok (.thrown, t) ∧ Ok (y :: zs ++ [y]) t := by
  obtain ⟨h', o, X⟩ := reverse_does P
  obtain ⟨t, e, q⟩ := X.points.throws 2 (by simp; omega)
  refine ⟨t, by simpa using e, ?_⟩
  have e1 : (x :: zs ++ [y]).length - 2 / 3 = (x :: zs ++ [y]).length := by simp
  rw [e1, List.take_of_length_le (Nat.le_refl _), List.drop_of_length_le (l := (x :: zs ++ [y]).reverse) (by simp)] at q
  simpa using q
end Write

section Two
variable [DecidableEq ι] {I : WIter σ ι T} {pos : Nat → ι} {xs : List T} {h : σ} {pos' : Nat → κ}

/-- `transform` to another sequence. -/
theorem transform_does {J : WIter σ κ U} {ys : List U} {Ok : List T → List U → σ → Prop} (P : Presents2 I pos xs J pos' ys h Ok)
    (hn : xs.length ≤ ys.length) (op : Fn δ T U) (d : δ) :
    ∃ h', Ok xs ((mapS op d xs).1 ++ ys.drop xs.length) h' ∧
      Does (Gen.transform I.toIter J op (pos 0) (pos xs.length) (pos' 0) d) (transform I.toIter J op (pos 0) (pos xs.length) (pos' 0) d) h (2 * xs.length)
        (pos' xs.length, (mapS op d xs).2) h' (fun k t => Ok xs ((mapS op d xs).1.take (k / 2) ++ ys.drop (k / 2)) t) := by
  obtain ⟨mem, W, rfl, ok⟩ := P
  have X := transform_flow (W.flow rfl rfl) hn op xs [] [] d rfl rfl
  simp only [List.length_nil, List.nil_append, List.drop_zero, mapS_length] at X
  refine ⟨_, ok _ _ rfl (by simp [mapS_length]; omega), X.imp fun k t hk e => ?_⟩
  rw [e, List.length_take, mapS_length, Nat.min_eq_left (by omega)]
  exact ok _ _ rfl (by simp [mapS_length]; omega)

variable {J : WIter σ κ T} {ys : List T} {Ok : List T → List T → σ → Prop}

theorem copy_does (P : Presents2 I pos xs J pos' ys h Ok) (hn : xs.length ≤ ys.length) :
    ∃ h', Ok xs (xs ++ ys.drop xs.length) h' ∧ Does (Gen.copy I.toIter J (pos 0) (pos xs.length) (pos' 0)) (copy I.toIter J (pos 0) (pos xs.length) (pos' 0)) h xs.length
      (pos' xs.length) h' (fun k t => Ok xs (xs.take k ++ ys.drop k) t) := by
  obtain ⟨mem, W, rfl, ok⟩ := P
  have X := copy_flow (W.flow rfl rfl) hn xs [] rfl
  simp only [List.length_nil, List.nil_append, List.drop_zero] at X
  refine ⟨_, ok _ _ rfl (by simp; omega), X.imp fun k t hk e => ?_⟩
  rw [e, List.length_take, Nat.min_eq_left (by omega)]
  exact ok _ _ rfl (by simp; omega)

theorem copyN_does (P : Presents2 I pos xs J pos' ys h Ok) (n : Nat) (hn : n ≤ xs.length) (hn' : n ≤ ys.length) :
    ∃ h', Ok xs (xs.take n ++ ys.drop n) h' ∧ Does (Gen.copyN I.toIter J (pos 0) n (pos' 0)) (copyN I.toIter J (pos 0) n (pos' 0)) h n
      (pos' n) h' (fun k t => Ok xs (xs.take k ++ ys.drop k) t) := by
  obtain ⟨mem, W, rfl, ok⟩ := P
  have X := copyN_flow (W.flow rfl rfl) n xs [] rfl hn (by simpa using hn')
  simp only [List.length_nil, List.nil_append, List.drop_zero, Nat.zero_add, List.length_take, Nat.min_eq_left hn] at X
  refine ⟨_, ok _ _ rfl (by simp; omega), X.imp fun k t hk e => ?_⟩
  rw [e, Nat.min_eq_left (by omega)]
  exact ok _ _ rfl (by simp; omega)

/-- `copy_if`: a call for each element and an assignment for each copied one; the elements to be copied among the first `m` are in the destination. -/
theorem copyIf_does (P : Presents2 I pos xs J pos' ys h Ok) (p : Fn δ T Bool) (d : δ) (hn : (filterS p d xs).1.length ≤ ys.length) :
    ∃ h', Ok xs ((filterS p d xs).1 ++ ys.drop (filterS p d xs).1.length) h' ∧
      Does (Gen.copyIf I.toIter J p (pos 0) (pos xs.length) (pos' 0) d) (copyIf I.toIter J p (pos 0) (pos xs.length) (pos' 0) d) h
      (xs.length + (filterS p d xs).1.length) (pos' (filterS p d xs).1.length, (filterS p d xs).2) h'
      (fun k t => ∃ m, m ≤ k ∧ k ≤ 2 * m + 1 ∧ m < xs.length ∧ Ok xs ((filterS p d (xs.take m)).1 ++ ys.drop (filterS p d (xs.take m)).1.length) t) := by
  obtain ⟨mem, W, rfl, ok⟩ := P
  have X := copyIf_flow (W.flow rfl rfl) p xs [] [] d rfl (by simp) (by simpa using hn)
  simp only [List.length_nil, List.nil_append, List.drop_zero, Nat.zero_add] at X
  refine ⟨_, ok _ _ rfl (by simp; omega), X.imp fun k t hk ⟨m, h1, h2, h3, e⟩ => ⟨m, h1, h2, h3, ?_⟩⟩
  have := (filterS_append p (xs.take m) (xs.drop m) d).1
  rw [List.take_append_drop] at this
  have hl : (filterS p d (xs.take m)).1.length ≤ (filterS p d xs).1.length := by rw [this]; simp
  rw [e]
  exact ok _ _ rfl (by simp; omega)

theorem removeCopyIf_does (P : Presents2 I pos xs J pos' ys h Ok) (p : Fn δ T Bool) (d : δ) (hn : (filterS (notS p) d xs).1.length ≤ ys.length) :
    ∃ h', Ok xs ((filterS (notS p) d xs).1 ++ ys.drop (filterS (notS p) d xs).1.length) h' ∧
      Does (Gen.removeCopyIf I.toIter J p (pos 0) (pos xs.length) (pos' 0) d) (removeCopyIf I.toIter J p (pos 0) (pos xs.length) (pos' 0) d) h
      (xs.length + (filterS (notS p) d xs).1.length) (pos' (filterS (notS p) d xs).1.length, (filterS (notS p) d xs).2) h'
      (fun k t => ∃ m, m ≤ k ∧ k ≤ 2 * m + 1 ∧ m < xs.length ∧ Ok xs ((filterS (notS p) d (xs.take m)).1 ++ ys.drop (filterS (notS p) d (xs.take m)).1.length) t) := by
  obtain ⟨mem, W, rfl, ok⟩ := P
  have X := removeCopyIf_flow (W.flow rfl rfl) p xs [] [] d rfl (by simp) (by simpa using hn)
  simp only [List.length_nil, List.nil_append, List.drop_zero, Nat.zero_add] at X
  refine ⟨_, ok _ _ rfl (by simp; omega), X.imp fun k t hk ⟨m, h1, h2, h3, e⟩ => ⟨m, h1, h2, h3, ?_⟩⟩
  have := (filterS_append (notS p) (xs.take m) (xs.drop m) d).1
  rw [List.take_append_drop] at this
  have hl : (filterS (notS p) d (xs.take m)).1.length ≤ (filterS (notS p) d xs).1.length := by rw [this]; simp
  rw [e]
  exact ok _ _ rfl (by simp; omega)

theorem replaceCopyIf_does (P : Presents2 I pos xs J pos' ys h Ok) (hn : xs.length ≤ ys.length) (p : Fn δ T Bool) (v : T) (d : δ) :
    ∃ h', Ok xs ((mapS (replS p v) d xs).1 ++ ys.drop xs.length) h' ∧
      Does (Gen.replaceCopyIf I.toIter J p v (pos 0) (pos xs.length) (pos' 0) d) (replaceCopyIf I.toIter J p v (pos 0) (pos xs.length) (pos' 0) d) h (2 * xs.length)
        (pos' xs.length, (mapS (replS p v) d xs).2) h' (fun k t => Ok xs ((mapS (replS p v) d xs).1.take (k / 2) ++ ys.drop (k / 2)) t) := by
  obtain ⟨mem, W, rfl, ok⟩ := P
  have X := replaceCopyIf_flow (W.flow rfl rfl) hn p v xs [] [] d rfl rfl
  simp only [List.length_nil, List.nil_append, List.drop_zero, mapS_length] at X
  refine ⟨_, ok _ _ rfl (by simp [mapS_length]; omega), X.imp fun k t hk e => ?_⟩
  rw [e, List.length_take, mapS_length, Nat.min_eq_left (by omega)]
  exact ok _ _ rfl (by simp [mapS_length]; omega)

/-- `swap_ranges`: three points for each pair (the copy of the first, the two assignments). The first `i` elements of the first sequence are those of the second,
the first `j` elements of the second are those of the first; `i = j` except while the second assignment of an exchange throws, when an element is lost. -/
theorem swapRanges_does (P : Presents2 I pos xs J pos' ys h Ok) (hn : xs.length ≤ ys.length) :
    ∃ h', Ok (ys.take xs.length) (xs ++ ys.drop xs.length) h' ∧
      Does (Gen.swapRanges I J (pos 0) (pos xs.length) (pos' 0)) (swapRanges I J (pos 0) (pos xs.length) (pos' 0)) h (3 * xs.length) (pos' xs.length) h'
        (fun k t => Ok (ys.take ((k + 1) / 3) ++ xs.drop ((k + 1) / 3)) (xs.take (k / 3) ++ ys.drop (k / 3)) t) := by
  obtain ⟨mem, W, rfl, ok⟩ := P
  have X := swapRanges_tail W xs [] (ys.take xs.length) [] (ys.drop xs.length) (by simp) (by simp) rfl (by simp; omega)
  simp only [List.length_nil, List.nil_append, List.take_append_drop] at X
  refine ⟨_, ok _ _ (by simp; omega) (by simp; omega), X.imp fun k t hk e => ?_⟩
  have e1 : (ys.take xs.length).take ((k + 1) / 3) = ys.take ((k + 1) / 3) := by rw [List.take_take, Nat.min_eq_left (by omega)]
  have e2 : xs.take (k / 3) ++ (ys.take xs.length).drop (k / 3) ++ ys.drop xs.length = xs.take (k / 3) ++ ys.drop (k / 3) := by
    have : ys.drop (k / 3) = (ys.take xs.length ++ ys.drop xs.length).drop (k / 3) := by rw [List.take_append_drop]
    rw [this, List.drop_append_of_le_length (by simp; omega), List.append_assoc]
  rw [e, e1, e2]
  exact ok _ _ (by simp; omega) (by simp; omega)

/-- If the second assignment of the first exchange throws, the first element of the first sequence is lost. -/
theorem swapRanges_loses {x y : T} {as bs : List T} (P : Presents2 I pos (x :: as) J pos' (y :: bs) h Ok) (hn : as.length ≤ bs.length) :
    ∃ t, swapRanges I J (pos 0) (pos (as.length + 1)) (pos' 0) 2 h = .ok (.thrown, t) ∧ Ok (y :: as) (y :: bs) t := by
  obtain ⟨h', o, X⟩ := swapRanges_does P (by simpa using hn)
  obtain ⟨t, e, q⟩ := X.points.throws 2 (by simp; omega)
  exact ⟨t, by simpa using e, by simpa using q⟩

theorem reverseCopy_does (P : BiPresents2 I pos xs J pos' ys h Ok) (hn : xs.length ≤ ys.length) :
    ∃ h', Ok xs (xs.reverse ++ ys.drop xs.length) h' ∧ Does (Gen.reverseCopy I J (pos 0) (pos xs.length) (pos' 0)) (reverseCopy I J (pos 0) (pos xs.length) (pos' 0)) h
      xs.length (pos' xs.length) h' (fun k t => Ok xs (xs.reverse.take k ++ ys.drop k) t) := by
  obtain ⟨mem, W, W', rfl, ok⟩ := P
  have X := reverseCopy_tail mem W (fun xs hx => (W' xs hx).toWindow) xs.length xs [] [] ys rfl (by simp) (by simp) hn
  simp only [List.length_nil, List.nil_append, Nat.zero_add, List.append_nil] at X
  exact ⟨_, ok _ _ rfl (by simp; omega), X.imp fun k t hk e => by rw [e]; exact ok _ _ rfl (by simp; omega)⟩

/-- `copy_backward`: the last `k` elements are at the end of the destination. -/
theorem copyBackward_does (P : BiPresents2 I pos xs J pos' ys h Ok) (hn : xs.length ≤ ys.length) :
    ∃ h', Ok xs (ys.take (ys.length - xs.length) ++ xs) h' ∧
      Does (Gen.copyBackward I J (pos 0) (pos xs.length) (pos' ys.length)) (copyBackward I J (pos 0) (pos xs.length) (pos' ys.length)) h
      xs.length (pos' (ys.length - xs.length)) h' (fun k t => Ok xs (ys.take (ys.length - k) ++ xs.drop (xs.length - k)) t) := by
  obtain ⟨mem, W, W', rfl, ok⟩ := P
  have X := copyBackward_tail W W' xs.length xs [] ys [] rfl (by simp) (by simp) hn
  simp only [List.append_nil] at X
  exact ⟨_, ok _ _ rfl (by simp; omega), X.imp fun k t hk e => by rw [e]; exact ok _ _ rfl (by simp; omega)⟩
end Two

/-! ## Two inputs and an output -/
section Three
variable [DecidableEq ι] [DecidableEq κ] {I : Iter σ ι T} {s1 : Nat → ι} {s2 : Nat → κ} {dst : Nat → ω}

theorem mergeS_length (lt : Fn δ (T × T) Bool) : ∀ (k : Nat) (xs ys : List T) (d : δ), xs.length + ys.length = k → (mergeS lt d xs ys).1.length = k
  | k, [], ys, d, h => by simpa [mergeS] using h
  | k, x :: xs, [], d, h => by simpa [mergeS] using h
  | 0, x :: xs, y :: ys, d, h => by simp at h
  | k + 1, x :: xs, y :: ys, d, h => by
    simp only [List.length_cons] at h
    rw [mergeS]
    split
    · simp [mergeS_length lt k (x :: xs) ys _ (by simp; omega)]
    · simp [mergeS_length lt k xs (y :: ys) _ (by simp; omega)]

/-- `merge` to a sequence without objects in common with the inputs: the elements written so far are the first of the merged sequence. -/
theorem merge_does {J : Iter σ κ T} {O : WIter σ ω T} {mem : List T → σ} {xs ys zs : List T} (W : Window O dst zs.length mem)
    (W1 : ∀ ws, ws.length = zs.length → At I (mem ws) s1 xs) (W2 : ∀ ws, ws.length = zs.length → At J (mem ws) s2 ys) (hm : xs.length + ys.length ≤ zs.length)
    (lt : Fn δ (T × T) Bool) (d : δ) :
    Does (Gen.merge I J O lt (s1 0) (s1 xs.length) (s2 0) (s2 ys.length) (dst 0) d) (merge I J O lt (s1 0) (s1 xs.length) (s2 0) (s2 ys.length) (dst 0) d) (mem zs)
      (xs.length + ys.length + comparisons lt d xs ys) (dst (xs.length + ys.length), (mergeS lt d xs ys).2)
      (mem ((mergeS lt d xs ys).1 ++ zs.drop (xs.length + ys.length)))
      (fun k t => ∃ m, m ≤ k ∧ k ≤ 2 * m + 1 ∧ m < xs.length + ys.length ∧ t = mem ((mergeS lt d xs ys).1.take m ++ zs.drop m)) := by
  have X := merge_flow (flow2_of rfl W W1 W2) lt _ xs [] ys [] [] d rfl rfl rfl (by simpa using hm)
  simp only [List.length_nil, List.nil_append, List.drop_zero, Nat.zero_add, mergeS_length lt _ xs ys d rfl] at X
  refine X.imp fun k t hk ⟨m, h1, h2, h3, e⟩ => ⟨m, h1, h2, h3, ?_⟩
  rw [e, List.length_take, mergeS_length lt _ xs ys d rfl, Nat.min_eq_left (by omega)]

theorem transform2_does {J : Iter σ κ U} {O : WIter σ ω V} {mem : List V → σ} {xs : List T} {ys : List U} {zs : List V} (W : Window O dst zs.length mem)
    (W1 : ∀ ws, ws.length = zs.length → At I (mem ws) s1 xs) (W2 : ∀ ws, ws.length = zs.length → At J (mem ws) s2 ys) (hy : xs.length ≤ ys.length)
    (hm : xs.length ≤ zs.length) (op : Fn δ (T × U) V) (d : δ) :
    Does (Gen.transform2 I J O op (s1 0) (s1 xs.length) (s2 0) (dst 0) d) (transform2 I J O op (s1 0) (s1 xs.length) (s2 0) (dst 0) d) (mem zs)
      (2 * xs.length) (dst xs.length, (mapS op d (xs.zip ys)).2) (mem ((mapS op d (xs.zip ys)).1 ++ zs.drop xs.length))
      (fun k t => t = mem ((mapS op d (xs.zip ys)).1.take (k / 2) ++ zs.drop (k / 2))) := by
  have X := transform2_flow (flow2_of rfl W W1 W2) hy hm op xs [] ys [] [] d rfl rfl rfl rfl
  have hz : (xs.zip ys).length = xs.length := by simp; omega
  simp only [List.length_nil, List.nil_append, List.drop_zero, Nat.zero_add, mapS_length, hz] at X
  refine X.imp fun k t hk e => ?_
  rw [e, List.length_take, mapS_length, hz, Nat.min_eq_left (by omega)]
end Three

theorem both_forward {I : WIter σ ι T} {pos : Nat → ι} {xs : List T} {J : WIter σ κ U} {pos' : Nat → κ} {ys : List U} {h : σ} {Ok : List T → List U → σ → Prop}
    (P : BiPresents2 I pos xs J pos' ys h Ok) : Presents2 I pos xs J pos' ys h Ok := by
  obtain ⟨mem, W, W', e, ok⟩ := P
  exact ⟨mem, ⟨fun zs hz => (W zs hz).toWindow, fun zs hz => (W' zs hz).toWindow⟩, e, ok⟩

/-! ## Examples -/

/-- A list `3, 1, 2`: the third call of the generator throws; a `reverse` whose second assignment throws loses the 3. -/
example : ∃ (S : Seq.DList.State Nat) (h : Seq.Heap Nat) (c b : Nat), Seq.DList.Reach S h ∧ Seq.DList.begin c h = .ok (b, h) ∧
    (∃ t es, generate nodeIter (fun _ n => (n, n + 1)) b c 7 4 h = .ok (.thrown, t) ∧ Seq.ListProps.Shows t c es ∧ es.map Prod.snd = [7, 8, 2]) ∧
    ∃ t es, reverse nodeIter b c 2 h = .ok (.thrown, t) ∧ Seq.ListProps.Shows t c es ∧ es.map Prod.snd = [2, 1, 2] := by
  obtain ⟨S, h, c, d, es, fs, R, hc, _, _, hs, _, hv, _⟩ := Seq.ListProps.exists_lists [3, 1, 2] ([] : List Nat)
  obtain ⟨b, e, P⟩ := list_presents R hc hs
  have l : es.length = 3 := by have := congrArg List.length hv; simpa using this
  rw [hv] at P
  have e3 : nodeAt c es 3 = c := by rw [← l]; exact e
  refine ⟨S, h, c, _, R, b, ?_, ?_⟩
  · obtain ⟨h', _, X⟩ := generate_does P.forward (fun _ n => (n, n + 1)) 7
    obtain ⟨t, f, o⟩ := X.points.throws 4 (by simp)
    refine ⟨t, _, by simpa [e3] using f, o.shows', ?_⟩
    rw [List.map_snd_zip (by simp [l, genS])]; rfl
  · obtain ⟨t, f, o⟩ := reverse_loses (x := 3) (y := 2) (zs := [1]) P
    refine ⟨t, _, by simpa [e3] using f, o.shows', ?_⟩
    rw [List.map_snd_zip (by simp [l])]; rfl

/-- Two lists `3, 1` and `5, 6, 7`: `swap_ranges` whose second assignment throws loses the 3; `remove_copy_if` throwing at its fourth operation has copied the 3. -/
example : ∃ (S : Seq.DList.State Nat) (h : Seq.Heap Nat) (c d b b' : Nat), Seq.DList.Reach S h ∧ Seq.DList.begin c h = .ok (b, h) ∧ Seq.DList.begin d h = .ok (b', h) ∧
    (∃ t es fs, swapRanges nodeIter nodeIter b c b' 2 h = .ok (.thrown, t) ∧ Seq.ListProps.Shows t c es ∧ Seq.ListProps.Shows t d fs ∧ es.map Prod.snd = [5, 1] ∧
      fs.map Prod.snd = [5, 6, 7]) ∧
    ∃ t fs, removeCopyIf nodeIter.toIter nodeIter (fun x n => (x == 9, n + 1)) b c b' 0 3 h = .ok (.thrown, t) ∧ Seq.ListProps.Shows t d fs ∧ fs.map Prod.snd = [3, 6, 7] := by
  obtain ⟨S, h, c, d, es, fs, R, hc, hd, hcd, hs, hs', hv, hw⟩ := Seq.ListProps.exists_lists [3, 1] [5, 6, 7]
  obtain ⟨b, e, _⟩ := list_presents R hc hs
  obtain ⟨b', e', _⟩ := list_presents R hd hs'
  have P := list_presents2 R hc hd hcd hs hs'
  have l : es.length = 2 := by have := congrArg List.length hv; simpa using this
  have l' : fs.length = 3 := by have := congrArg List.length hw; simpa using this
  rw [hv, hw] at P
  have e3 : nodeAt c es 2 = c := by rw [← l]; exact e
  have P' := both_forward P
  refine ⟨S, h, c, d, _, _, R, b, b', ?_, ?_⟩
  · obtain ⟨t, f, o⟩ := swapRanges_loses (x := 3) (y := 5) (as := [1]) (bs := [6, 7]) P' (by simp)
    refine ⟨t, _, _, by simpa [e3] using f, o.shows1, o.shows2, ?_, ?_⟩
    · rw [List.map_snd_zip (by simp [l])]
    · rw [List.map_snd_zip (by simp [l'])]
  · obtain ⟨h', _, X⟩ := removeCopyIf_does P' (fun x n => (x == 9, n + 1)) 0 (by simp [filterS, notS])
    obtain ⟨t, f, m, m1, m2, m3, o⟩ := X.points.throws 3 (by simp [filterS, notS])
    have : m = 1 := by simp at m3; omega
    subst this
    refine ⟨t, _, by simpa [e3] using f, o.shows2, ?_⟩
    rw [List.map_snd_zip (by simp [l', filterS, notS])]; simp [filterS, notS]

/-- A vector `5, 6, 7, 8`: a comparison of `binary_search` throws; nothing has changed. -/
example : ∃ (S : Vec.State Nat) (h : Vec.Mem Nat) (c : Nat) (p : Vec.Ptr), Vec.Reach 0 S h ∧ Vec.begin_ c h = .ok (p, h) ∧
    ∃ n ≤ 4, ∀ k < n, binarySearch slotRandom (fun q n => (decide (q.1 < q.2), n + 1)) p (p + 4) 7 0 k h = .ok (.thrown, h) := by
  obtain ⟨c, d, S, h, p, q, R, hc, _, _, o, _⟩ := Vec.VecProps.demo
  obtain ⟨b, e, _, ra, _⟩ := vector_algorithms R hc o
  obtain ⟨n, r, hn, X⟩ := binarySearch_does ra (by simp) (fun (q : Nat × Nat) (n : Nat) => (decide (q.1 < q.2), n + 1)) 7 0
  refine ⟨S, h, c, p, R, b, n, Nat.le_trans hn (by decide), fun k hk => ?_⟩
  obtain ⟨t, f, rfl⟩ := X.points.throws k hk
  exact f
end Verif.Exc.XAlgo
