import Verif.Algorithm.MutatingProps
import Verif.Order
/-!
# Properties of the algorithms on sorted ranges: lower_bound, upper_bound, equal_range,
binary_search, merge
-/
set_option linter.unusedSimpArgs false
namespace Verif.Algo
open Verif Mem
variable {T U : Type}

/-! ## C67: binary searches -/

/-- `n` is the partition point of `xs` for the test `q`: exactly the first `n` elements pass. -/
def PartitionPoint (q : T → Bool) (xs : List T) (n : Nat) : Prop :=
  n ≤ xs.length ∧ (∀ i (h : i < xs.length), i < n → q xs[i] = true) ∧
    (∀ i (h : i < xs.length), n ≤ i → q xs[i] = false)

/-- `xs` is partitioned by `q`: no element passing comes after one failing. -/
def Partitioned (q : T → Bool) (xs : List T) : Prop :=
  ∀ i j (hj : j < xs.length) (hij : i ≤ j), q xs[j] = true → q (xs[i]'(by omega)) = true

theorem boundLoop_spec {m : Mem T} {go : T → Bool} {base : Nat} {xs : List T}
    (h : m.Holds base xs) (hp : Partitioned go xs) :
    ∀ (c lo : Nat), lo + c ≤ xs.length →
      (∀ i (hi : i < xs.length), i < lo → go xs[i] = true) →
      (∀ i (hi : i < xs.length), lo + c ≤ i → go xs[i] = false) →
      ∃ n, boundLoop go (base + lo) c m = .ok (base + n, m) ∧ PartitionPoint go xs n := by
  intro c
  induction c using Nat.strongRecOn with
  | ind c ih =>
    intro lo hle hlo hhi
    rw [boundLoop]
    by_cases hc : c = 0
    · subst hc
      exact ⟨lo, by simp, by omega, fun i hi hl => hlo i hi hl, fun i hi hl => hhi i hi (by omega)⟩
    · have hpos : (c : Int) > 0 := by omega
      have hstep : ((c : Int).tdiv 2).toNat = c / 2 := by
        rw [Int.tdiv_eq_ediv_of_nonneg (by omega)]; omega
      have hstep' : ((c : Int).tdiv 2) = ((c / 2 : Nat) : Int) := by
        rw [Int.tdiv_eq_ediv_of_nonneg (by omega)]; omega
      have hmid : lo + c / 2 < xs.length := by omega
      have hx : m (base + lo + c / 2) = some xs[lo + c / 2] := by
        have := h (lo + c / 2) hmid; rwa [← Nat.add_assoc] at this
      simp only [hpos, if_true, Prog.bind_app, Prog.ite_app, hstep, load_eq hx, Res.bind_ok]
      by_cases hg : go xs[lo + c / 2]
      · simp only [hg, if_true]
        obtain ⟨n, h1, h2⟩ := ih (c - (c / 2 + 1)) (by omega) (lo + c / 2 + 1) (by omega)
          (fun i hi hl => hp i (lo + c / 2) hmid (by omega) hg)
          (fun i hi hl => hhi i hi (by omega))
        refine ⟨n, ?_, h2⟩
        rw [hstep', show (c : Int) - (((c / 2 : Nat) : Int) + 1) = ((c - (c / 2 + 1) : Nat) : Int)
          by omega]
        rw [show base + lo + c / 2 + 1 = base + (lo + c / 2 + 1) by omega]
        exact h1
      · have hg' : go xs[lo + c / 2] = false := by simpa using hg
        simp only [hg', Bool.false_eq_true, if_false]
        obtain ⟨n, h1, h2⟩ := ih (c / 2) (by omega) lo (by omega) hlo
          (fun i hi hl => by
            cases e : go xs[i]
            · rfl
            · have := hp (lo + c / 2) i hi (by omega) e
              rw [hg'] at this; cases this)
        exact ⟨n, by rw [hstep']; exact h1, h2⟩

theorem toInt32_small {n : Nat} (h : n < 2147483648) : toInt32 n = n := by
  unfold toInt32
  rw [Int.bmod_eq_of_le_mul_two] <;> omega

/-- `lower_bound` returns the partition point of "less than the key". -/
theorem lower_bound_partition_point {m : Mem T} {first : Nat} {xs : List T} {lt : T → U → Bool}
    {v : U} (h : m.Holds first xs) (hp : Partitioned (fun x => lt x v) xs)
    (hlen : xs.length < 2147483648) :
    ∃ n, lowerBound lt first (first + xs.length) v m = .ok (first + n, m) ∧
      PartitionPoint (fun x => lt x v) xs n := by
  obtain ⟨n, h1, h2⟩ := boundLoop_spec h hp xs.length 0 (by omega) (by simp)
    (fun i hi hl => by omega)
  refine ⟨n, ?_, h2⟩
  unfold lowerBound
  rw [show ((first + xs.length : Nat) : Int) - (first : Int) = ((xs.length : Nat) : Int) by omega,
    toInt32_small hlen]
  simpa using h1

/-- `upper_bound` returns the partition point of "not greater than the key". -/
theorem upper_bound_partition_point {m : Mem T} {first : Nat} {xs : List T} {lt : U → T → Bool}
    {v : U} (h : m.Holds first xs) (hp : Partitioned (fun x => !lt v x) xs)
    (hlen : xs.length < 2147483648) :
    ∃ n, upperBound lt first (first + xs.length) v m = .ok (first + n, m) ∧
      PartitionPoint (fun x => !lt v x) xs n := by
  obtain ⟨n, h1, h2⟩ := boundLoop_spec h hp xs.length 0 (by omega) (by simp)
    (fun i hi hl => by omega)
  refine ⟨n, ?_, h2⟩
  unfold upperBound
  rw [show ((first + xs.length : Nat) : Int) - (first : Int) = ((xs.length : Nat) : Int) by omega,
    toInt32_small hlen]
  simpa using h1

/-- A range is sorted: no later element is less than an earlier one. -/
def Sorted (lt : T → T → Bool) (xs : List T) : Prop := xs.Pairwise (fun a b => lt b a = false)

theorem Sorted.partitioned_lt {lt : T → T → Bool} (hlt : StrictWeakOrder lt) {xs : List T}
    (h : Sorted lt xs) (v : T) : Partitioned (fun x => lt x v) xs := by
  intro i j hj hij hq
  rcases Nat.lt_or_ge i j with hl | hg
  · have := (List.pairwise_iff_getElem.1 h) i j (by omega) hj hl
    exact hlt.lt_of_not_lt_of_lt this hq
  · have : i = j := by omega
    subst this; exact hq

theorem Sorted.partitioned_not_gt {lt : T → T → Bool} (hlt : StrictWeakOrder lt) {xs : List T}
    (h : Sorted lt xs) (v : T) : Partitioned (fun x => !lt v x) xs := by
  intro i j hj hij hq
  rcases Nat.lt_or_ge i j with hl | hg
  · have := (List.pairwise_iff_getElem.1 h) i j (by omega) hj hl
    have hq' : lt v xs[j] = false := by simpa using hq
    have := hlt.negTrans _ _ _ hq' this
    simp [this]
  · have : i = j := by omega
    subst this; exact hq

/-- On a sorted range, `lower_bound` returns the first position whose element is not less than the
key: everything before is less, nothing from there on is. -/
theorem lower_bound_sorted {m : Mem T} {first : Nat} {xs : List T} {lt : T → T → Bool}
    (hlt : StrictWeakOrder lt) (h : m.Holds first xs) (hs : Sorted lt xs) (v : T)
    (hlen : xs.length < 2147483648) :
    ∃ n, lowerBound lt first (first + xs.length) v m = .ok (first + n, m) ∧ n ≤ xs.length ∧
      (∀ i (h : i < xs.length), i < n → lt xs[i] v = true) ∧
      (∀ i (h : i < xs.length), n ≤ i → lt xs[i] v = false) :=
  lower_bound_partition_point h (hs.partitioned_lt hlt v) hlen

/-- On a sorted range, `upper_bound` returns the first position whose element is greater than the
key. -/
theorem upper_bound_sorted {m : Mem T} {first : Nat} {xs : List T} {lt : T → T → Bool}
    (hlt : StrictWeakOrder lt) (h : m.Holds first xs) (hs : Sorted lt xs) (v : T)
    (hlen : xs.length < 2147483648) :
    ∃ n, upperBound lt first (first + xs.length) v m = .ok (first + n, m) ∧ n ≤ xs.length ∧
      (∀ i (h : i < xs.length), i < n → lt v xs[i] = false) ∧
      (∀ i (h : i < xs.length), n ≤ i → lt v xs[i] = true) := by
  obtain ⟨n, h1, h2, h3, h4⟩ := upper_bound_partition_point h (hs.partitioned_not_gt hlt v) hlen
  refine ⟨n, h1, h2, ?_, ?_⟩
  · intro i hi hl; have := h3 i hi hl; simpa using this
  · intro i hi hl; have := h4 i hi hl; simpa using this

/-- `equal_range` delimits exactly the elements equivalent to the key: those before are less, those
inside are neither less nor greater, those after are greater. -/
theorem equal_range_sorted {m : Mem T} {first : Nat} {xs : List T} {lt : T → T → Bool}
    (hlt : StrictWeakOrder lt) (h : m.Holds first xs) (hs : Sorted lt xs) (v : T)
    (hlen : xs.length < 2147483648) :
    ∃ a b, equalRange lt lt first (first + xs.length) v m = .ok ((first + a, first + b), m) ∧
      a ≤ b ∧ b ≤ xs.length ∧
      (∀ i (h : i < xs.length), i < a → lt xs[i] v = true) ∧
      (∀ i (h : i < xs.length), a ≤ i → i < b → lt xs[i] v = false ∧ lt v xs[i] = false) ∧
      (∀ i (h : i < xs.length), b ≤ i → lt v xs[i] = true) := by
  obtain ⟨a, h1, ha, h2, h3⟩ := lower_bound_sorted hlt h hs v hlen
  have hd : m.Holds (first + a) (xs.drop a) := by
    have := h; rw [← List.take_append_drop a xs] at this
    have := this.append_right
    simpa [Nat.min_eq_left ha] using this
  have hsd : Sorted lt (xs.drop a) := List.Pairwise.sublist (List.drop_sublist _ _) hs
  obtain ⟨n, h4, hn, h5, h6⟩ := upper_bound_sorted hlt hd hsd v (by simp; omega)
  have hl : first + a + (xs.drop a).length = first + xs.length := by simp; omega
  rw [hl] at h4
  simp at hn
  refine ⟨a, a + n, ?_, by omega, by omega, h2, ?_, ?_⟩
  · simp [equalRange, h1, h4, Nat.add_assoc]
  · intro i hi hai hib
    refine ⟨h3 i hi hai, ?_⟩
    have := h5 (i - a) (by simp; omega) (by omega)
    simpa [show a + (i - a) = i by omega] using this
  · intro i hi hib
    have := h6 (i - a) (by simp; omega) (by omega)
    simpa [show a + (i - a) = i by omega] using this

/-- `binary_search` decides whether the range holds an element equivalent to the key. -/
theorem binary_search_sorted {m : Mem T} {first : Nat} {xs : List T} {lt : T → T → Bool}
    (hlt : StrictWeakOrder lt) (h : m.Holds first xs) (hs : Sorted lt xs) (v : T)
    (hlen : xs.length < 2147483648) :
    ∃ b, binarySearch lt lt first (first + xs.length) v m = .ok (b, m) ∧
      (b = true ↔ ∃ x ∈ xs, lt x v = false ∧ lt v x = false) := by
  obtain ⟨n, h1, hn, h2, h3⟩ := lower_bound_sorted hlt h hs v hlen
  by_cases e : n = xs.length
  · subst e
    refine ⟨false, by simp [binarySearch, h1], ?_⟩
    simp only [Bool.false_eq_true, false_iff]
    rintro ⟨x, hx, hx1, hx2⟩
    obtain ⟨i, hi, rfl⟩ := List.mem_iff_getElem.1 hx
    rw [h2 i hi hi] at hx1; cases hx1
  · have hlt' : n < xs.length := by omega
    have hx := h n hlt'
    have hne : ¬ (first + n = first + xs.length) := by omega
    refine ⟨!lt v xs[n], by simp [binarySearch, h1, hne, load_eq hx]; omega, ?_⟩
    constructor
    · intro hb
      exact ⟨xs[n], List.getElem_mem _, h3 n hlt' (Nat.le_refl _), by simpa using hb⟩
    · rintro ⟨x, hx, hx1, hx2⟩
      obtain ⟨i, hi, rfl⟩ := List.mem_iff_getElem.1 hx
      have hni : n ≤ i := by
        apply Classical.byContradiction
        intro hc
        rw [h2 i hi (by omega)] at hx1; cases hx1
      rcases Nat.lt_or_ge n i with hl | hg
      · have := (List.pairwise_iff_getElem.1 hs) n i hlt' hi hl
        have := hlt.negTrans _ _ _ hx2 this
        simp [this]
      · have : i = n := by omega
        subst this; simp [hx2]

/-- The length bound matters: at 2^31 elements the `int` counter of `lower_bound` wraps to a
negative number, the loop does not run and `first` is returned although every element is less than
the key. -/
theorem lower_bound_wrong_at_2_31 :
    ∃ (m : Mem Nat) (xs : List Nat), m.Holds 0 xs ∧ Sorted (fun a b => decide (a < b)) xs ∧
      xs.length = 2147483648 ∧
      lowerBound (fun a b : Nat => decide (a < b)) 0 xs.length 1 m = .ok (0, m) ∧
      (∀ x ∈ xs, x < 1) := by
  obtain ⟨n, hn⟩ : ∃ n : Nat, n = 2147483648 := ⟨_, rfl⟩
  refine ⟨fun _ => some 0, List.replicate n 0, ?_, ?_, ?_, ?_, ?_⟩
  · intro i hi; simp
  · rw [Sorted, List.pairwise_replicate]; simp
  · rw [List.length_replicate, hn]
  · rw [List.length_replicate]
    unfold lowerBound
    have : toInt32 ((n : Int) - ((0 : Nat) : Int)) = -2147483648 := by
      rw [hn]; decide
    rw [this, boundLoop]; rfl
  · intro x hx; have := List.eq_of_mem_replicate hx; omega

/-- Concrete instance: `[1,2,2,5]`, key 2. -/
example : ∃ a b, equalRange (fun a b : Nat => decide (a < b)) (fun a b => decide (a < b)) 0 4 2
    (Mem.ofList [1, 2, 2, 5]) = .ok ((0 + a, 0 + b), Mem.ofList [1, 2, 2, 5]) ∧ a = 1 ∧ b = 3 := by
  obtain ⟨a, b, h1, h2, h3, h4, h5, h6⟩ := equal_range_sorted natOrder.toStrictWeak
    (Mem.holds_ofList [1, 2, 2, 5]) (by simp [Sorted]) 2 (by decide)
  refine ⟨a, b, h1, ?_, ?_⟩
  · have p0 : ¬ a ≤ 0 := fun h => by
      by_cases hb : 0 < b
      · have := (h5 0 (by simp) h hb).1; simp at this
      · have := h6 0 (by simp) (by omega); simp at this
    have p1 : ¬ 1 < a := fun h => by have := h4 1 (by simp) h; simp at this
    omega
  · have p2 : ¬ b ≤ 2 := fun h => by have := h6 2 (by simp) h; simp at this
    have p3 : ¬ 3 < b := fun h => by
      by_cases ha : a ≤ 3
      · have := (h5 3 (by simp) ha h).2; simp at this
      · have := h4 3 (by simp) (by omega); simp at this
    omega

/-! ## C69: merge -/

/-- The sequence `merge` writes. -/
def mergeSeq (lt : T → T → Bool) : List T → List T → List T
  | [], ys => ys
  | x :: xs, [] => x :: xs
  | x :: xs, y :: ys =>
    if lt y x then y :: mergeSeq lt (x :: xs) ys else x :: mergeSeq lt xs (y :: ys)
termination_by xs ys => xs.length + ys.length

theorem mergeSeq_length (lt : T → T → Bool) (xs ys : List T) :
    (mergeSeq lt xs ys).length = xs.length + ys.length := by
  fun_induction mergeSeq lt xs ys <;> simp_all <;> omega

theorem mergeSeq_perm (lt : T → T → Bool) (xs ys : List T) :
    (mergeSeq lt xs ys).Perm (xs ++ ys) := by
  fun_induction mergeSeq lt xs ys with
  | case1 ys => simp
  | case2 x xs => simp
  | case3 x xs y ys h ih => exact (ih.cons y).trans List.perm_middle.symm
  | case4 x xs y ys h ih => exact ih.cons x

theorem mergeSeq_sorted {lt : T → T → Bool} (hlt : StrictWeakOrder lt) {xs ys : List T}
    (hx : Sorted lt xs) (hy : Sorted lt ys) : Sorted lt (mergeSeq lt xs ys) := by
  fun_induction mergeSeq lt xs ys with
  | case1 ys => exact hy
  | case2 x xs => exact hx
  | case3 x xs y ys h ih =>
    have hy' := List.pairwise_cons.1 hy
    refine List.pairwise_cons.2 ⟨?_, ih hx hy'.2⟩
    intro z hz
    have hz := (mergeSeq_perm lt (x :: xs) ys).mem_iff.1 hz
    rcases List.mem_append.1 hz with hz | hz
    · rcases List.mem_cons.1 hz with rfl | hz
      · exact hlt.asymm h
      · have := (List.pairwise_cons.1 hx).1 z hz
        exact hlt.asymm (hlt.lt_of_lt_of_not_lt h this)
    · exact hy'.1 z hz
  | case4 x xs y ys h ih =>
    have hx' := List.pairwise_cons.1 hx
    refine List.pairwise_cons.2 ⟨?_, ih hx'.2 hy⟩
    intro z hz
    have hz := (mergeSeq_perm lt xs (y :: ys)).mem_iff.1 hz
    rcases List.mem_append.1 hz with hz | hz
    · exact hx'.1 z hz
    · rcases List.mem_cons.1 hz with rfl | hz
      · simpa using h
      · have := (List.pairwise_cons.1 hy).1 z hz
        exact hlt.negTrans _ _ _ this (by simpa using h)

/-- Neither less nor greater. -/
def equiv (lt : T → T → Bool) (v x : T) : Bool := !lt v x && !lt x v

theorem mergeSeq_stable {lt : T → T → Bool} (hlt : StrictWeakOrder lt) {xs ys : List T}
    (hx : Sorted lt xs) (v : T) :
    (mergeSeq lt xs ys).filter (equiv lt v) = xs.filter (equiv lt v) ++ ys.filter (equiv lt v) := by
  fun_induction mergeSeq lt xs ys with
  | case1 ys => simp
  | case2 x xs => simp
  | case3 x xs y ys h ih =>
    have ih := ih hx
    by_cases hv : equiv lt v y
    · -- `y` is equivalent to `v` and smaller than `x`, hence than all of `x :: xs`
      have hnone : (x :: xs).filter (equiv lt v) = [] := by
        rw [List.filter_eq_nil_iff]
        intro z hz he
        have hyz : lt y z = true := by
          rcases List.mem_cons.1 hz with rfl | hz
          · exact h
          · exact hlt.lt_of_lt_of_not_lt h ((List.pairwise_cons.1 hx).1 z hz)
        simp [equiv] at he hv
        have := hlt.negTrans _ _ _ hv.2 he.1
        rw [hyz] at this; cases this
      rw [hnone] at ih ⊢
      simp [List.filter_cons, hv, ih]
    · simp only [List.filter_cons (x := y), hv]
      simpa using ih
  | case4 x xs y ys h ih =>
    have ih := ih (List.pairwise_cons.1 hx).2
    by_cases hv : equiv lt v x
    · simp [List.filter_cons (x := x), hv, ih]
    · simp [List.filter_cons (x := x), hv, ih]

theorem merge_writes {m : Mem T} {lt : T → T → Bool} {f1 f2 out : Nat} {xs ys : List T}
    (hx : m.Holds f1 xs) (hy : m.Holds f2 ys) (ha : m.Alloc out (xs.length + ys.length))
    (hd1 : out + (xs.length + ys.length) ≤ f1 ∨ f1 + xs.length ≤ out)
    (hd2 : out + (xs.length + ys.length) ≤ f2 ∨ f2 + ys.length ≤ out) :
    merge lt f1 (f1 + xs.length) f2 (f2 + ys.length) out m =
      .ok (out + (xs.length + ys.length), m.overwrite out (mergeSeq lt xs ys)) := by
  induction hn : xs.length + ys.length generalizing m f1 f2 out xs ys with
  | zero =>
    have h1 : xs = [] := List.length_eq_zero_iff.1 (by omega)
    have h2 : ys = [] := List.length_eq_zero_iff.1 (by omega)
    subst h1 h2
    rw [merge]; simp; rw [copy]; simp [mergeSeq]
  | succ n ih =>
    rw [hn] at ha hd1 hd2
    rw [merge]
    match xs, ys, hx, hy, hn, hd1, hd2 with
    | [], ys, hx, hy, hn, hd1, hd2 =>
      have hl : n + 1 = ys.length := by simpa using hn.symm
      rw [hl] at ha hd2 ⊢
      have := copy_copies hy ha (by omega)
      simp [this, mergeSeq]
    | x :: xs, [], hx, hy, hn, hd1, hd2 =>
      have hl : n + 1 = (x :: xs).length := by simpa using hn.symm
      rw [hl] at ha hd1 ⊢
      have := copy_copies hx ha (by omega)
      have hne : ¬ (f1 = f1 + (x :: xs).length) := by simp
      simp only [hne, ne_eq, not_false_eq_true, if_true, Prog.ite_app, List.length_nil, Nat.add_zero,
        this, mergeSeq]
    | x :: xs, y :: ys, hx, hy, hn, hd1, hd2 =>
      have hne1 : ¬ (f1 = f1 + (x :: xs).length) := by simp
      have hne2 : ¬ (f2 = f2 + (y :: ys).length) := by simp
      obtain ⟨w, hw⟩ := ha.head
      simp only [hne1, hne2, ne_eq, not_false_eq_true, if_true, if_false, Prog.ite_app,
        Prog.bind_app, load_eq hx.head, load_eq hy.head, Res.bind_ok]
      simp only [List.length_cons] at hn hd1 hd2
      by_cases hlt : lt y x
      · simp only [hlt, if_true, Prog.bind_app, store_eq y hw, Res.bind_ok]
        have := ih (m := m.set out y) (f1 := f1) (f2 := f2 + 1) (out := out + 1) (xs := x :: xs)
          (ys := ys) (hx.set_out _ (by simp; omega)) (hy.tail.set_out _ (by omega))
          (by simpa [show xs.length + 1 + ys.length = n by omega] using ha.tail.set y)
          (by simp; omega) (by simp; omega) (by simp; omega)
        rw [overwrite_cons] at this
        rw [show f2 + (y :: ys).length = f2 + 1 + ys.length by simp; omega, this, mergeSeq]
        simp [hlt]; omega
      · simp only [hlt, Bool.false_eq_true, if_false, Prog.bind_app, store_eq x hw, Res.bind_ok]
        have := ih (m := m.set out x) (f1 := f1 + 1) (f2 := f2) (out := out + 1) (xs := xs)
          (ys := y :: ys) (hx.tail.set_out _ (by omega)) (hy.set_out _ (by simp; omega))
          (by simpa [show xs.length + (ys.length + 1) = n by omega] using ha.tail.set x)
          (by simp; omega) (by simp; omega) (by simp; omega)
        rw [overwrite_cons] at this
        rw [show f1 + (x :: xs).length = f1 + 1 + xs.length by simp; omega, this, mergeSeq]
        simp [hlt]; omega

/-- `merge` of two sorted ranges into a disjoint destination: the output is sorted, is a
permutation of the two inputs together, and among equivalent elements all those of the first range
come before those of the second, each in their original order. Nothing else is written. -/
theorem merge_sorted_stable {m : Mem T} {lt : T → T → Bool} (hlt : StrictWeakOrder lt)
    {f1 f2 out : Nat} {xs ys : List T}
    (hx : m.Holds f1 xs) (hy : m.Holds f2 ys) (ha : m.Alloc out (xs.length + ys.length))
    (hd1 : out + (xs.length + ys.length) ≤ f1 ∨ f1 + xs.length ≤ out)
    (hd2 : out + (xs.length + ys.length) ≤ f2 ∨ f2 + ys.length ≤ out)
    (hsx : Sorted lt xs) (hsy : Sorted lt ys) :
    ∃ zs, merge lt f1 (f1 + xs.length) f2 (f2 + ys.length) out m =
        .ok (out + (xs.length + ys.length), m.overwrite out zs) ∧
      Sorted lt zs ∧ zs.Perm (xs ++ ys) ∧
      ∀ v, zs.filter (equiv lt v) = xs.filter (equiv lt v) ++ ys.filter (equiv lt v) :=
  ⟨mergeSeq lt xs ys, merge_writes hx hy ha hd1 hd2, mergeSeq_sorted hlt hsx hsy,
    mergeSeq_perm lt xs ys, mergeSeq_stable hlt hsx⟩

/-- Concrete instance. -/
example : merge (fun a b : Nat => decide (a < b)) 0 2 2 4 4 (Mem.ofList [1, 4, 2, 4, 0, 0, 0, 0]) =
    .ok (8, (Mem.ofList [1, 4, 2, 4, 0, 0, 0, 0]).overwrite 4 [1, 2, 4, 4]) := by
  have h := Mem.holds_ofList [1, 4, 2, 4, 0, 0, 0, 0]
  have hx : (Mem.ofList [1, 4, 2, 4, 0, 0, 0, 0]).Holds 0 [1, 4] := h.append_left (xs := [1, 4])
  have hy : (Mem.ofList [1, 4, 2, 4, 0, 0, 0, 0]).Holds 2 [2, 4] :=
    (h.append_right (xs := [1, 4])).append_left (xs := [2, 4])
  have ha : (Mem.ofList [1, 4, 2, 4, 0, 0, 0, 0]).Alloc 4 4 :=
    (h.append_right (xs := [1, 4, 2, 4])).alloc
  have := merge_writes (lt := fun a b : Nat => decide (a < b)) hx hy ha (by simp) (by simp)
  simpa [mergeSeq] using this

end Verif.Algo
