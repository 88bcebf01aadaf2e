import Verif.Algorithm.GenericProps2
import Verif.Algorithm.SortedProps
/-!
# Generic algorithms, continued: three sequences, and the number of comparisons of the binary searches
-/
set_option linter.unusedVariables false
set_option linter.unusedSimpArgs false
set_option linter.unusedSectionVars false
namespace Verif.Gen
open Verif
variable {σ ι κ ω T U V δ : Type}

/-- In the memory `s` the iterators `pos 0 … pos xs.length` walk along a sequence with the values `xs`. -/
structure At (I : Iter σ ι T) (s : σ) (pos : Nat → ι) (xs : List T) : Prop where
  ne : ∀ i, i < xs.length → pos i ≠ pos xs.length
  deref : ∀ i x, xs[i]? = some x → I.deref (pos i) s = .ok (x, s)
  next : ∀ i, i < xs.length → I.next (pos i) s = .ok (pos (i + 1), s)

theorem Window.at {I : WIter σ ι T} {pos : Nat → ι} {n : Nat} {mem : List T → σ} (W : Window I pos n mem) {xs : List T} (hx : xs.length = n) :
    At I.toIter (mem xs) pos xs :=
  ⟨fun i hi => W.ne hi (by omega), fun i x h => W.deref xs hx i x h, fun i hi => W.next xs hx i (by omega)⟩

theorem At.range {I : Iter σ ι T} {s : σ} {pos : Nat → ι} {xs : List T} (W : At I s pos xs) : ∀ (R A : List T), A ++ R = xs →
    Iter.Range I s (pos A.length) R (pos xs.length) := by
  intro R
  induction R with
  | nil => intro A e; simp only [List.append_nil] at e; subst e; exact .nil _
  | cons x R ih =>
    intro A e
    have hl' : A.length < xs.length := by rw [← e]; simp
    refine .cons (mid := pos (A.length + 1)) (W.ne _ hl') (W.deref _ _ (by rw [← e]; simp)) (W.next _ hl') ?_
    have := ih (A ++ [x]) (by simpa using e)
    simpa using this

section Three
variable {I : Iter σ ι T} {J : Iter σ κ U} {O : WIter σ ω V} {s1 : Nat → ι} {s2 : Nat → κ} {dst : Nat → ω} {m : Nat} {mem : List V → σ}

/-- Three sequences, the output `O` without objects in common with the inputs: writing to it leaves the inputs as they are. -/
theorem flow2_of {xs : List T} {ys : List U} {zs : List V} (hz : zs.length = m) (W : Window O dst m mem)
    (W1 : ∀ zs, zs.length = m → At I (mem zs) s1 xs) (W2 : ∀ zs, zs.length = m → At J (mem zs) s2 ys) :
    Flow2 I J O s1 xs s2 ys dst m (fun out => mem (out ++ zs.drop out.length)) := by
  have len : ∀ out : List V, out.length ≤ m → (out ++ zs.drop out.length).length = m := by intro out h; simp; omega
  refine ⟨(W1 zs hz).ne, (W2 zs hz).ne, ?_, ?_, ?_, ?_, ?_, ?_⟩
  · intro out i x h hx; exact (W1 _ (len out h)).deref i x hx
  · intro out i y h hy; exact (W2 _ (len out h)).deref i y hy
  · intro out i h hi; exact (W1 _ (len out h)).next i hi
  · intro out i h hi; exact (W2 _ (len out h)).next i hi
  · intro out v h
    rw [W.assign _ (len out (by omega)) _ h v]
    have : out.length < zs.length := by omega
    rw [List.set_append_right _ _ (Nat.le_refl _), Nat.sub_self, List.drop_eq_getElem_cons this, List.set_cons_zero]
    simp
  · intro out k h hk; exact W.next _ (len out h) _ hk
end Three

section Three
variable [DecidableEq ι] [DecidableEq κ] {I : Iter σ ι T} {s1 : Nat → ι} {s2 : Nat → κ} {dst : Nat → ω} {m : Nat}

/-- `merge(first1, last1, first2, last2, output)` with separate ranges and room for the result: `mergeS` of the ranges, the rest of the
output and the inputs as before; the comparison is called as `mergeS` says. -/
theorem merge_any {J : Iter σ κ T} {O : WIter σ ω T} {mem : List T → σ} {xs ys zs : List T} (hz : zs.length = m) (W : Window O dst m mem)
    (W1 : ∀ zs, zs.length = m → At I (mem zs) s1 xs) (W2 : ∀ zs, zs.length = m → At J (mem zs) s2 ys) (hm : xs.length + ys.length ≤ m)
    (lt : Fn δ (T × T) Bool) (d : δ) :
    merge I J O lt (s1 0) (s1 xs.length) (s2 0) (s2 ys.length) (dst 0) d (mem zs) =
      .ok ((dst (xs.length + ys.length), (mergeS lt d xs ys).2), mem ((mergeS lt d xs ys).1 ++ zs.drop (mergeS lt d xs ys).1.length)) := by
  have := merge_flow (flow2_of hz W W1 W2) lt _ xs [] ys [] [] d rfl rfl rfl (by simpa using hm)
  simpa using this

/-- Binary `transform` with separate ranges, the second at least as long as the first: one call of `op` for each pair in order. -/
theorem transform2_any {J : Iter σ κ U} {O : WIter σ ω V} {mem : List V → σ} {xs : List T} {ys : List U} {zs : List V} (hz : zs.length = m)
    (W : Window O dst m mem) (W1 : ∀ zs, zs.length = m → At I (mem zs) s1 xs) (W2 : ∀ zs, zs.length = m → At J (mem zs) s2 ys)
    (hy : xs.length ≤ ys.length) (hm : xs.length ≤ m) (op : Fn δ (T × U) V) (d : δ) :
    transform2 I J O op (s1 0) (s1 xs.length) (s2 0) (dst 0) d (mem zs) =
      .ok ((dst xs.length, (mapS op d (xs.zip ys)).2), mem ((mapS op d (xs.zip ys)).1 ++ zs.drop xs.length)) := by
  have := transform2_flow (flow2_of hz W W1 W2) hy hm op xs [] ys [] [] d rfl rfl rfl rfl
  simpa [mapS_length, Nat.min_eq_left hy] using this

/-- `merge` with a pure comparison: the result is the standard merge, with at most `n + m - 1` comparisons (none if a range is empty). -/
theorem merge_comparisons {J : Iter σ κ T} {O : WIter σ ω T} {mem : List T → σ} {xs ys zs : List T} (hz : zs.length = m) (W : Window O dst m mem)
    (W1 : ∀ zs, zs.length = m → At I (mem zs) s1 xs) (W2 : ∀ zs, zs.length = m → At J (mem zs) s2 ys) (hm : xs.length + ys.length ≤ m)
    (lt : T → T → Bool) :
    ∃ log, merge I J O (logged fun p : T × T => lt p.1 p.2) (s1 0) (s1 xs.length) (s2 0) (s2 ys.length) (dst 0) [] (mem zs) =
      .ok ((dst (xs.length + ys.length), log), mem (Algo.mergeSeq lt xs ys ++ zs.drop (xs.length + ys.length))) ∧
      (xs = [] ∨ ys = [] → log = []) ∧ (xs ≠ [] → ys ≠ [] → log.length + 1 ≤ xs.length + ys.length) := by
  obtain ⟨a, b, c⟩ := mergeS_logged lt _ xs ys [] rfl
  have := merge_any hz W W1 W2 hm (logged fun p : T × T => lt p.1 p.2) []
  rw [a] at this
  refine ⟨_, by simpa [Algo.mergeSeq_length] using this, c, by simpa using b⟩
end Three

/-! ## Binary searches -/

/-- Random access: `At`, and `i + k`, `j - i` are right within the sequence. -/
structure RAt (I : RIter σ ι T) (s : σ) (pos : Nat → ι) (xs : List T) : Prop extends At I.toIter s pos xs where
  plus : ∀ i k, i + k ≤ xs.length → I.plus (pos i) k = pos (i + k)
  diff : ∀ i j, i ≤ j → j ≤ xs.length → I.diff (pos j) (pos i) = ((j - i : Nat) : Int)

/-- Comparisons a binary search of `n` elements needs at most. -/
def probes (n : Nat) : Nat := if n = 0 then 0 else Nat.log2 n + 1

theorem probes_half {c k : Nat} (hc : 0 < c) (hk : k ≤ c / 2) : probes k + 1 ≤ probes c := by
  unfold probes
  rw [if_neg (show ¬ c = 0 by omega)]
  by_cases h : k = 0
  · simp [h]
  · rw [if_neg h]
    have h1 : Nat.log2 c = Nat.log2 (c / 2) + 1 := by rw [Nat.log2_def]; rw [if_pos (by omega)]
    have h2 : Nat.log2 k ≤ Nat.log2 (c / 2) := by
      rw [Nat.le_log2 (by omega)]
      exact Nat.le_trans (Nat.log2_self_le h) hk
    omega

theorem boundLoop_any {I : RIter σ ι T} {s : σ} {pos : Nat → ι} {xs : List T} (W : RAt I s pos xs) (q : T → Bool) (arg : T → V) :
    ∀ (c lo : Nat) (log : List V), lo + c ≤ xs.length →
      ∃ k more, boundLoop I (fun x d => (q x, d ++ [arg x])) (pos lo) c log s = .ok ((pos k, log ++ more), s) ∧
        lo ≤ k ∧ k ≤ lo + c ∧ more.length ≤ probes c ∧ (∀ a ∈ more, ∃ x ∈ xs, a = arg x) ∧
        (Algo.Partitioned q xs → (∀ i (hi : i < xs.length), i < lo → q xs[i] = true) →
          (∀ i (hi : i < xs.length), lo + c ≤ i → q xs[i] = false) → Algo.PartitionPoint q xs k) := by
  intro c
  induction c using Nat.strongRecOn with
  | ind c ih =>
    intro lo log hle
    rw [boundLoop]
    by_cases hc : c = 0
    · subst hc
      exact ⟨lo, [], by simp, by omega, by omega, by simp, by simp, fun _ hlo hhi => ⟨by omega, fun i hi hl => hlo i hi hl, fun i hi hl => hhi i hi (by omega)⟩⟩
    · have hpos : (c : Int) > 0 := by omega
      have hstep : ((c : Int).tdiv 2).toNat = c / 2 := by
        rw [Int.tdiv_eq_ediv_of_nonneg (by omega)]; omega
      have hstep' : ((c : Int).tdiv 2) = ((c / 2 : Nat) : Int) := by
        rw [Int.tdiv_eq_ediv_of_nonneg (by omega)]; omega
      have hmid : lo + c / 2 < xs.length := by omega
      have hx := W.deref (lo + c / 2) xs[lo + c / 2] (List.getElem?_eq_getElem hmid)
      simp only [Prog.ite_app]
      rw [if_pos hpos]
      simp only [Prog.bind_app, Prog.ite_app, hstep, W.plus lo (c / 2) (by omega), hx, Res.bind_ok]
      by_cases hg : q xs[lo + c / 2]
      · simp only [hg, if_true]
        obtain ⟨k, more, e, k1, k2, l, a, p⟩ := ih (c - (c / 2 + 1)) (by omega) (lo + c / 2 + 1) (log ++ [arg xs[lo + c / 2]]) (by omega)
        refine ⟨k, arg xs[lo + c / 2] :: more, ?_, by omega, by omega, ?_, ?_, ?_⟩
        · simp only [Prog.bind_app, W.next _ hmid, Res.bind_ok]
          rw [hstep', show (c : Int) - (((c / 2 : Nat) : Int) + 1) = ((c - (c / 2 + 1) : Nat) : Int) by omega, e]
          simp
        · have := probes_half (c := c) (k := c - (c / 2 + 1)) (by omega) (by omega)
          simp; omega
        · intro y hy
          rcases List.mem_cons.1 hy with rfl | hy
          · exact ⟨_, List.getElem_mem hmid, rfl⟩
          · exact a y hy
        · intro hp hlo hhi
          exact p hp (fun i hi hl => hp i (lo + c / 2) hmid (by omega) hg) (fun i hi hl => hhi i hi (by omega))
      · have hg' : q xs[lo + c / 2] = false := by simpa using hg
        simp only [hg', Bool.false_eq_true, if_false]
        obtain ⟨k, more, e, k1, k2, l, a, p⟩ := ih (c / 2) (by omega) lo (log ++ [arg xs[lo + c / 2]]) (by omega)
        refine ⟨k, arg xs[lo + c / 2] :: more, ?_, by omega, by omega, ?_, ?_, ?_⟩
        · rw [hstep', e]; simp
        · have := probes_half (c := c) (k := c / 2) (by omega) (by omega)
          simp; omega
        · intro y hy
          rcases List.mem_cons.1 hy with rfl | hy
          · exact ⟨_, List.getElem_mem hmid, rfl⟩
          · exact a y hy
        · intro hp hlo hhi
          refine p hp hlo (fun i hi hl => ?_)
          cases e : q xs[i]
          · rfl
          · have := hp (lo + c / 2) i hi (by omega) e
            rw [hg'] at this; cases this

section Bounds
variable {I : RIter σ ι T} {s : σ} {pos : Nat → ι} {xs : List T}

/-- `lower_bound` on any random access iterators: it returns whatever the order of the range, with at most `log2 n + 1` calls of
`comp(element, value)` (none on an empty range) on elements of the range; if the range is partitioned with respect to the key, the
position returned is the partition point. -/
theorem lower_bound_any (W : RAt I s pos xs) (hn : xs.length < 2147483648) (comp : T → U → Bool) (v : U) (log : List (T × U)) :
    ∃ k more, lowerBound I (logged fun p : T × U => comp p.1 p.2) (pos 0) (pos xs.length) v log s = .ok ((pos k, log ++ more), s) ∧
      k ≤ xs.length ∧ more.length ≤ probes xs.length ∧ (∀ a ∈ more, ∃ x ∈ xs, a = (x, v)) ∧
      (Algo.Partitioned (fun x => comp x v) xs → Algo.PartitionPoint (fun x => comp x v) xs k) := by
  obtain ⟨k, more, e, _, k2, l, a, p⟩ := boundLoop_any W (fun x => comp x v) (fun x => (x, v)) xs.length 0 log (by omega)
  refine ⟨k, more, ?_, by omega, l, a, fun h => p h (by simp) (fun i hi hl => by omega)⟩
  unfold lowerBound
  rw [W.diff 0 xs.length (by omega) (by omega), Nat.sub_zero, Algo.toInt32_small hn]
  exact e

/-- `upper_bound` from any position of the range. -/
theorem upper_bound_from (W : RAt I s pos xs) (hn : xs.length < 2147483648) (comp : U → T → Bool) (v : U) (log : List (U × T)) (lo : Nat) (hlo : lo ≤ xs.length) :
    ∃ k more, upperBound I (logged fun p : U × T => comp p.1 p.2) (pos lo) (pos xs.length) v log s = .ok ((pos k, log ++ more), s) ∧
      lo ≤ k ∧ k ≤ xs.length ∧ more.length ≤ probes (xs.length - lo) ∧ (∀ a ∈ more, ∃ x ∈ xs, a = (v, x)) ∧
      (Algo.Partitioned (fun x => !comp v x) xs → (∀ i (hi : i < xs.length), i < lo → comp v xs[i] = false) →
        Algo.PartitionPoint (fun x => !comp v x) xs k) := by
  obtain ⟨k, more, e, k1, k2, l, a, p⟩ := boundLoop_any W (fun x => !comp v x) (fun x => (v, x)) (xs.length - lo) lo log (by omega)
  refine ⟨k, more, ?_, by omega, by omega, l, a, fun h hb => p h (fun i hi hl => by simp [hb i hi hl]) (fun i hi hl => by omega)⟩
  unfold upperBound
  rw [W.diff lo xs.length (by omega) (by omega), Algo.toInt32_small (by omega)]
  exact e

/-- `upper_bound` on any random access iterators: at most `log2 n + 1` calls of `comp(value, element)`. -/
theorem upper_bound_any (W : RAt I s pos xs) (hn : xs.length < 2147483648) (comp : U → T → Bool) (v : U) (log : List (U × T)) :
    ∃ k more, upperBound I (logged fun p : U × T => comp p.1 p.2) (pos 0) (pos xs.length) v log s = .ok ((pos k, log ++ more), s) ∧
      k ≤ xs.length ∧ more.length ≤ probes xs.length ∧ (∀ a ∈ more, ∃ x ∈ xs, a = (v, x)) ∧
      (Algo.Partitioned (fun x => !comp v x) xs → Algo.PartitionPoint (fun x => !comp v x) xs k) := by
  obtain ⟨k, more, e, _, k2, l, a, p⟩ := upper_bound_from W hn comp v log 0 (by omega)
  exact ⟨k, more, e, k2, by simpa using l, a, fun h => p h (by simp)⟩

/-- `binary_search` on a sorted range: whether the range has an element equivalent to the value, with at most `log2 n + 2` comparisons. -/
theorem binary_search_any [DecidableEq ι] (W : RAt I s pos xs) (hn : xs.length < 2147483648) {comp : T → T → Bool} (ord : StrictWeakOrder comp)
    (hs : Algo.Sorted comp xs) (v : T) :
    ∃ b log, binarySearch I (logged fun p : T × T => comp p.1 p.2) (pos 0) (pos xs.length) v [] s = .ok ((b, log), s) ∧
      (b = true ↔ ∃ x ∈ xs, comp x v = false ∧ comp v x = false) ∧ log.length ≤ probes xs.length + 1 := by
  obtain ⟨k, more, e, k2, l, a, p⟩ := lower_bound_any W hn comp v []
  obtain ⟨_, p1, p2⟩ := p (hs.partitioned_lt ord v)
  unfold binarySearch
  simp only [Prog.bind_app, e, Res.bind_ok, Prog.ite_app]
  rcases Nat.lt_or_ge k xs.length with hk | hk
  · rw [if_neg (W.ne k hk)]
    simp only [Prog.bind_app, W.deref k xs[k] (List.getElem?_eq_getElem hk), Res.bind_ok]
    refine ⟨_, _, rfl, ?_, by simp [logged]; omega⟩
    simp only [logged, Bool.not_eq_true']
    constructor
    · intro h; exact ⟨_, List.getElem_mem hk, p2 k hk (Nat.le_refl _), h⟩
    · rintro ⟨x, hx, h1, h2⟩
      obtain ⟨j, hj, rfl⟩ := List.mem_iff_getElem.1 hx
      rcases Nat.lt_or_ge j k with hjk | hjk
      · have := p1 j hj hjk; simp only [h1] at this; cases this
      · rcases Nat.lt_or_ge k j with h | h
        · have := (List.pairwise_iff_getElem.1 hs) k j hk hj h
          exact ord.negTrans _ _ _ h2 this
        · have : j = k := by omega
          subst this; exact h2
  · have : k = xs.length := by omega
    subst this
    rw [if_pos rfl]
    refine ⟨_, _, rfl, ?_, by simp; omega⟩
    simp only [Bool.false_eq_true, false_iff]
    rintro ⟨x, hx, h1, h2⟩
    obtain ⟨j, hj, rfl⟩ := List.mem_iff_getElem.1 hx
    have := p1 j hj hj; simp only [h1] at this; cases this

/-- `equal_range` on a sorted range: `[a, b)` are exactly the elements equivalent to the value; at most `2 (log2 n + 1)` comparisons. -/
theorem equal_range_any (W : RAt I s pos xs) (hn : xs.length < 2147483648) {comp : T → T → Bool} (ord : StrictWeakOrder comp)
    (hs : Algo.Sorted comp xs) (v : T) :
    ∃ a b log, equalRange I (logged fun p : T × T => comp p.1 p.2) (pos 0) (pos xs.length) v [] s = .ok (((pos a, pos b), log), s) ∧
      a ≤ b ∧ b ≤ xs.length ∧ (∀ i (hi : i < xs.length), i < a ↔ comp xs[i] v = true) ∧ (∀ i (hi : i < xs.length), b ≤ i ↔ comp v xs[i] = true) ∧
      log.length ≤ 2 * probes xs.length := by
  obtain ⟨k, more, e, k2, l, a, p⟩ := lower_bound_any W hn comp v []
  obtain ⟨_, p1, p2⟩ := p (hs.partitioned_lt ord v)
  obtain ⟨k', more', e', b1, b2, l', _, p'⟩ := upper_bound_from W hn comp v more k k2
  obtain ⟨_, r1, r2⟩ := p' (hs.partitioned_not_gt ord v) (fun i hi hl => by
    cases q : comp v xs[i] with
    | false => rfl
    | true => have := ord.trans _ _ _ q (p1 i hi hl); rw [ord.irrefl] at this; cases this)
  refine ⟨k, k', more ++ more', ?_, b1, b2, ?_, ?_, ?_⟩
  · unfold equalRange
    simp [e, e']
  · intro i hi
    constructor
    · exact p1 i hi
    · intro h
      rcases Nat.lt_or_ge i k with q | q
      · exact q
      · have := p2 i hi q; simp only [h] at this; cases this
  · intro i hi
    constructor
    · intro h; simpa using r2 i hi h
    · intro h
      rcases Nat.lt_or_ge i k' with q | q
      · have := r1 i hi q; simp only [h] at this; cases this
      · exact q
  · have : probes (xs.length - k) ≤ probes xs.length := by
      unfold probes
      split
      · omega
      · rw [if_neg (by omega)]
        have : Nat.log2 (xs.length - k) ≤ Nat.log2 xs.length := by
          rw [Nat.le_log2 (by omega)]
          exact Nat.le_trans (Nat.log2_self_le (by omega)) (by omega)
        omega
    simp; omega
end Bounds
end Verif.Gen
