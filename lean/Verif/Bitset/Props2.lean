import Verif.Bitset.Props
/-! # Properties C52–C54 of `bitset` -/
set_option linter.unusedSimpArgs false
namespace Verif.Bitset
open Verif

/-! ## C52: queries depend only on the `N` logical bits -/

theorem getLsbD_lastBits {N : Nat} (hN : 0 < N) (k : Nat) (hk : k < 64) :
    (lastBits N).getLsbD k = decide (lastSlotIndex N * 64 + k < N) := by
  unfold lastBits lastSlotIndex
  rw [if_neg (by omega : N ≠ 0)]
  by_cases h : nslots N * 64 = N
  · rw [if_pos h, BitVec.getLsbD_allOnes]
    have : (nslots N - 1) * 64 + k < N := by
      have := nslots_pos hN; omega
    simp [hk, this]
  · rw [if_neg h]
    have hm0 : 0 < N % 64 := by unfold nslots at h; omega
    have hm : N % 64 < 64 := Nat.mod_lt _ (by omega)
    have e : (1#64 <<< (N % 64)) - 1#64 = BitVec.ofNat 64 (2 ^ (N % 64) - 1) := by
      apply BitVec.eq_of_toNat_eq
      have h1 : 2 ^ (N % 64) < 2 ^ 64 := Nat.pow_lt_pow_right (by omega) hm
      have h2 : 0 < 2 ^ (N % 64) := Nat.two_pow_pos _
      simp only [BitVec.toNat_sub, BitVec.toNat_shiftLeft, BitVec.toNat_ofNat]
      rw [Nat.shiftLeft_eq]
      omega
    rw [e, BitVec.getLsbD_ofNat, Nat.testBit_two_pow_sub_one]
    have : nslots N = N / 64 + 1 := by unfold nslots; omega
    have : (k < N % 64) ↔ ((nslots N - 1) * 64 + k < N) := by omega
    simp [hk, this]

theorem lastSlot_lt {N : Nat} (hN : 0 < N) : lastSlotIndex N < nslots N := by
  have := nslots_pos hN
  unfold lastSlotIndex; rw [if_neg (by omega)]; omega

theorem lastSlot_succ {N : Nat} (hN : 0 < N) : lastSlotIndex N + 1 = nslots N := by
  have := nslots_pos hN
  unfold lastSlotIndex; rw [if_neg (by omega)]; omega

theorem lastSlot_mul {N : Nat} (hN : 0 < N) : lastSlotIndex N * 64 < N ∧ N ≤ (lastSlotIndex N + 1) * 64 := by
  have := lastSlot_succ hN
  unfold nslots at this; omega

/-- Quantifying over the bits is quantifying over the full slots and the masked last one. -/
theorem forall_bits_iff {N : Nat} (hN : 0 < N) (P : Nat → Nat → Prop) :
    (∀ i < N, P (i / 64) (i % 64)) ↔
      (∀ s < lastSlotIndex N, ∀ k < 64, P s k) ∧
      ∀ k < 64, lastSlotIndex N * 64 + k < N → P (lastSlotIndex N) k := by
  have hl := lastSlot_mul hN
  constructor
  · intro h
    refine ⟨fun s hs k hk => ?_, fun k hk hlt => ?_⟩
    · have := h (s * 64 + k) (by omega)
      rwa [show (s * 64 + k) / 64 = s by omega, show (s * 64 + k) % 64 = k by omega] at this
    · have := h (lastSlotIndex N * 64 + k) hlt
      rwa [show (lastSlotIndex N * 64 + k) / 64 = lastSlotIndex N by omega,
        show (lastSlotIndex N * 64 + k) % 64 = k by omega] at this
  · rintro ⟨h1, h2⟩ i hi
    have hm : i % 64 < 64 := Nat.mod_lt _ (by omega)
    by_cases h : i / 64 < lastSlotIndex N
    · exact h1 _ h _ hm
    · have : i / 64 = lastSlotIndex N := by omega
      rw [this]
      exact h2 _ hm (by omega)

theorem masked_eq_zero {N : Nat} (hN : 0 < N) (w : Word) :
    w &&& lastBits N = 0#64 ↔ ∀ k < 64, lastSlotIndex N * 64 + k < N → w.getLsbD k = false := by
  rw [word_ext]
  constructor
  · intro h k hk hlt
    have := h k hk
    rw [BitVec.getLsbD_and, getLsbD_lastBits hN k hk] at this
    simpa [hlt] using this
  · intro h k hk
    rw [BitVec.getLsbD_and, getLsbD_lastBits hN k hk]
    by_cases hlt : lastSlotIndex N * 64 + k < N
    · simp [h k hk hlt]
    · simp [hlt]

theorem masked_eq_mask {N : Nat} (hN : 0 < N) (w : Word) :
    w &&& lastBits N = lastBits N ↔ ∀ k < 64, lastSlotIndex N * 64 + k < N → w.getLsbD k = true := by
  rw [word_ext]
  constructor
  · intro h k hk hlt
    have := h k hk
    rw [BitVec.getLsbD_and, getLsbD_lastBits hN k hk] at this
    simpa [hlt] using this
  · intro h k hk
    rw [BitVec.getLsbD_and, getLsbD_lastBits hN k hk]
    by_cases hlt : lastSlotIndex N * 64 + k < N
    · simp [h k hk hlt]
    · simp [hlt]

theorem allLoop_spec {b : Bits} {n : Nat} (hn : n ≤ b.length) : ∀ m i, i ≤ n → m = n - i →
    allLoop i n b = .ok (decide (∀ s < n, i ≤ s → b.getD s 0#64 = BitVec.allOnes 64), b) := by
  intro m
  induction m with
  | zero =>
    intro i hi hm
    rw [allLoop]
    have : ∀ s < n, i ≤ s → b.getD s 0#64 = BitVec.allOnes 64 := by intro s h1 h2; omega
    rw [Prog.ite_app, if_neg (by omega), decide_eq_true this]; rfl
  | succ m ih =>
    intro i hi hm
    rw [allLoop]
    rw [Prog.ite_app, if_pos (by omega)]
    simp only [Prog.bind_app, getSlot_eq (show i < b.length by omega), Res.bind_ok, Prog.ite_app]
    by_cases h : b.getD i 0#64 = BitVec.allOnes 64
    · rw [if_neg (by simpa using h), ih (i + 1) (by omega) (by omega)]
      congr 3
      apply propext
      constructor
      · intro h' s h1 h2
        rcases Nat.eq_or_lt_of_le h2 with rfl | h3
        · exact h
        · exact h' s h1 h3
      · intro h' s h1 h2
        exact h' s h1 (by omega)
    · rw [if_pos h, decide_eq_false]
      · rfl
      · intro h'; exact h (h' i (by omega) (Nat.le_refl _))

theorem anyLoop_spec {b : Bits} {n : Nat} (hn : n ≤ b.length) : ∀ m i, i ≤ n → m = n - i →
    anyLoop i n b = .ok (! decide (∀ s < n, i ≤ s → b.getD s 0#64 = 0#64), b) := by
  intro m
  induction m with
  | zero =>
    intro i hi hm
    rw [anyLoop]
    have : ∀ s < n, i ≤ s → b.getD s 0#64 = 0#64 := by intro s h1 h2; omega
    rw [Prog.ite_app, if_neg (by omega), decide_eq_true this]; rfl
  | succ m ih =>
    intro i hi hm
    rw [anyLoop]
    rw [Prog.ite_app, if_pos (by omega)]
    simp only [Prog.bind_app, getSlot_eq (show i < b.length by omega), Res.bind_ok, Prog.ite_app]
    by_cases h : b.getD i 0#64 = 0#64
    · rw [if_neg (by simpa using h), ih (i + 1) (by omega) (by omega)]
      congr 4
      apply propext
      constructor
      · intro h' s h1 h2
        rcases Nat.eq_or_lt_of_le h2 with rfl | h3
        · exact h
        · exact h' s h1 h3
      · intro h' s h1 h2
        exact h' s h1 (by omega)
    · rw [if_pos h, decide_eq_false]
      · rfl
      · intro h'; exact h (h' i (by omega) (Nat.le_refl _))

theorem eqLoop_spec {b o : Bits} {n : Nat} (hn : n ≤ b.length) (ho : n ≤ o.length) :
    ∀ m i, i ≤ n → m = n - i →
    eqLoop o i n b = .ok (decide (∀ s < n, i ≤ s → b.getD s 0#64 = o.getD s 0#64), b) := by
  intro m
  induction m with
  | zero =>
    intro i hi hm
    rw [eqLoop]
    have : ∀ s < n, i ≤ s → b.getD s 0#64 = o.getD s 0#64 := by intro s h1 h2; omega
    rw [Prog.ite_app, if_neg (by omega), decide_eq_true this]; rfl
  | succ m ih =>
    intro i hi hm
    rw [eqLoop]
    rw [Prog.ite_app, if_pos (by omega)]
    simp only [Prog.bind_app, getSlot_eq (show i < b.length by omega),
      otherSlot_eq (show i < o.length by omega), Res.bind_ok, Prog.ite_app]
    by_cases h : b.getD i 0#64 = o.getD i 0#64
    · rw [if_neg (by simpa using h), ih (i + 1) (by omega) (by omega)]
      congr 3
      apply propext
      constructor
      · intro h' s h1 h2
        rcases Nat.eq_or_lt_of_le h2 with rfl | h3
        · exact h
        · exact h' s h1 h3
      · intro h' s h1 h2
        exact h' s h1 (by omega)
    · rw [if_pos h, decide_eq_false]
      · rfl
      · intro h'; exact h (h' i (by omega) (Nat.le_refl _))

/-- `all()` for `N > 0`. (`bitset<0>::all()` is `false` in the code: `all_zero_false`.) -/
theorem all_iff (N : Nat) (b : Bits) (hb : Valid N b) (hN : 0 < N) :
    all N b = .ok (decide (∀ i < N, bit b i = true), b) := by
  have hl : lastSlotIndex N < b.length := by rw [hb]; exact lastSlot_lt hN
  have hiff : (∀ i < N, bit b i = true) ↔ _ :=
    forall_bits_iff hN (fun s k => (b.getD s 0#64).getLsbD k = true)
  unfold all
  rw [if_neg (by omega)]
  simp only [Prog.bind_app, allLoop_spec (by omega : lastSlotIndex N ≤ b.length) _ 0 (by omega) rfl,
    Res.bind_ok, Prog.ite_app, getSlot_eq hl, Prog.pure_app, masked_eq_mask hN, hiff]
  by_cases h1 : ∀ s < lastSlotIndex N, 0 ≤ s → b.getD s 0#64 = BitVec.allOnes 64
  · rw [decide_eq_true h1, if_pos rfl]
    congr 3
    apply propext
    constructor
    · intro h2
      refine ⟨fun s hs k hk => ?_, h2⟩
      rw [h1 s hs (by omega), BitVec.getLsbD_allOnes]; simp [hk]
    · exact fun h => h.2
  · rw [decide_eq_false h1, if_neg (by simp), decide_eq_false]
    rintro ⟨h2, _⟩
    apply h1
    intro s hs _
    rw [word_ext]
    intro k hk
    rw [h2 s hs k hk, BitVec.getLsbD_allOnes]; simp [hk]

/-- `bitset<0>().all()` answers `false`, although every one of its no bits is set. -/
theorem all_zero_false (b : Bits) : all 0 b = .ok (false, b) := rfl

theorem none_aux (N : Nat) (b : Bits) (hN : 0 < N) :
    (∀ i < N, bit b i = false) ↔ (∀ s < lastSlotIndex N, 0 ≤ s → b.getD s 0#64 = 0#64) ∧
      b.getD (lastSlotIndex N) 0#64 &&& lastBits N = 0#64 := by
  have hiff : (∀ i < N, bit b i = false) ↔ _ :=
    forall_bits_iff hN (fun s k => (b.getD s 0#64).getLsbD k = false)
  rw [hiff, masked_eq_zero hN]
  constructor
  · rintro ⟨h1, h2⟩
    refine ⟨fun s hs _ => ?_, h2⟩
    rw [word_ext]; intro k hk; rw [h1 s hs k hk]; simp
  · rintro ⟨h1, h2⟩
    refine ⟨fun s hs k hk => ?_, h2⟩
    rw [h1 s hs (by omega)]; simp

theorem none_iff (N : Nat) (b : Bits) (hb : Valid N b) :
    noneSet N b = .ok (decide (∀ i < N, bit b i = false), b) := by
  by_cases h0 : N = 0
  · subst h0; simp [noneSet]
  have hN : 0 < N := by omega
  have hl : lastSlotIndex N < b.length := by rw [hb]; exact lastSlot_lt hN
  unfold noneSet
  rw [if_neg (by omega)]
  simp only [Prog.bind_app, anyLoop_spec (by omega : lastSlotIndex N ≤ b.length) _ 0 (by omega) rfl,
    Res.bind_ok, Prog.ite_app, getSlot_eq hl, Prog.pure_app, none_aux N b hN]
  by_cases h1 : ∀ s < lastSlotIndex N, 0 ≤ s → b.getD s 0#64 = 0#64
  · rw [decide_eq_true h1]; simp only [Bool.not_true, Bool.false_eq_true, if_false, decide_not, ne_eq, and_iff_right h1]
  · rw [decide_eq_false h1]; simp only [Bool.not_false, if_true, h1, false_and, decide_false]

theorem any_iff (N : Nat) (b : Bits) (hb : Valid N b) :
    any N b = .ok (decide (∃ i < N, bit b i = true), b) := by
  have key : (∃ i < N, bit b i = true) ↔ ¬ ∀ i < N, bit b i = false := by
    constructor
    · rintro ⟨i, hi, h⟩ h'; rw [h' i hi] at h; simp at h
    · intro h
      apply Classical.byContradiction
      intro hn
      apply h
      intro i hi
      cases hbi : bit b i
      · rfl
      · exact absurd ⟨i, hi, hbi⟩ hn
  by_cases h0 : N = 0
  · subst h0; simp [any]
  have hN : 0 < N := by omega
  have hl : lastSlotIndex N < b.length := by rw [hb]; exact lastSlot_lt hN
  unfold any
  rw [if_neg (by omega)]
  simp only [Prog.bind_app, anyLoop_spec (by omega : lastSlotIndex N ≤ b.length) _ 0 (by omega) rfl,
    Res.bind_ok, Prog.ite_app, getSlot_eq hl, Prog.pure_app, key, none_aux N b hN]
  by_cases h1 : ∀ s < lastSlotIndex N, 0 ≤ s → b.getD s 0#64 = 0#64
  · rw [decide_eq_true h1]; simp only [Bool.not_true, Bool.false_eq_true, if_false, decide_not, ne_eq, and_iff_right h1]
  · rw [decide_eq_false h1]; simp only [Bool.not_false, if_true, h1, false_and, not_false_iff, decide_true]

theorem eq_iff (N : Nat) (a b : Bits) (ha : Valid N a) (hb : Valid N b) :
    eq N b a = .ok (decide (∀ i < N, bit a i = bit b i), a) := by
  by_cases h0 : N = 0
  · subst h0; simp [eq]
  have hN : 0 < N := by omega
  have hla : lastSlotIndex N < a.length := by rw [ha]; exact lastSlot_lt hN
  have hlb : lastSlotIndex N < b.length := by rw [hb]; exact lastSlot_lt hN
  have hiff : (∀ i < N, bit a i = bit b i) ↔ _ :=
    forall_bits_iff hN (fun s k => (a.getD s 0#64).getLsbD k = (b.getD s 0#64).getLsbD k)
  unfold eq
  rw [if_neg (by omega)]
  simp only [Prog.bind_app, eqLoop_spec (by omega : lastSlotIndex N ≤ a.length)
      (by omega : lastSlotIndex N ≤ b.length) _ 0 (by omega) rfl,
    Res.bind_ok, Prog.ite_app, getSlot_eq hla, otherSlot_eq hlb, Prog.pure_app, masked_eq_zero hN, hiff,
    BitVec.getLsbD_xor]
  by_cases h1 : ∀ s < lastSlotIndex N, 0 ≤ s → a.getD s 0#64 = b.getD s 0#64
  · rw [decide_eq_true h1, if_pos rfl]
    congr 3
    apply propext
    constructor
    · intro h2
      refine ⟨fun s hs k hk => by rw [h1 s hs (by omega)], fun k hk hlt => ?_⟩
      have := h2 k hk hlt
      simpa using this
    · intro h k hk hlt
      rw [h.2 k hk hlt]; simp
  · rw [decide_eq_false h1, if_neg (by simp), decide_eq_false]
    rintro ⟨h2, _⟩
    exact h1 fun s hs _ => word_ext.2 (h2 s hs)

theorem to_ulong_low_bits (N : Nat) (b : Bits) (hb : Valid N b) :
    ∃ w, toUlong N b = .ok (w, b) ∧ ∀ k < 64, w.getLsbD k = (decide (k < N) && bit b k) := by
  unfold toUlong
  by_cases h0 : N = 0
  · subst h0; exact ⟨0#64, by simp, by simp⟩
  have hN : 0 < N := by omega
  have hl : 0 < b.length := by rw [hb]; exact nslots_pos hN
  refine ⟨(if N < 64 then lastBits N else BitVec.allOnes 64) &&& b.getD 0 0#64, ?_, ?_⟩
  · rw [if_neg h0]; simp only [Prog.bind_app, getSlot_eq hl, Res.bind_ok, Prog.pure_app]
  · intro k hk
    have hbit : bit b k = (b.getD 0 0#64).getLsbD k := by
      unfold bit; rw [show k / 64 = 0 by omega, show k % 64 = k by omega]
    rw [BitVec.getLsbD_and, hbit]
    by_cases h : N < 64
    · have : lastSlotIndex N = 0 := by have := lastSlot_mul hN; omega
      rw [if_pos h, getLsbD_lastBits hN k hk, this]; simp
    · rw [if_neg h, BitVec.getLsbD_allOnes]; simp [hk, show k < N by omega]

theorem countP_range_add (p : Nat → Bool) (m n : Nat) :
    (List.range (m + n)).countP p = (List.range m).countP p + (List.range n).countP fun k => p (m + k) := by
  rw [List.range_add, List.countP_append, List.countP_map]; rfl

theorem countP_range_lt (p : Nat → Bool) {r n : Nat} (h : r ≤ n) :
    (List.range n).countP (fun k => p k && decide (k < r)) = (List.range r).countP p := by
  obtain ⟨d, rfl⟩ : ∃ d, n = r + d := ⟨n - r, by omega⟩
  rw [countP_range_add]
  have h1 : (List.range d).countP (fun k => p (r + k) && decide (r + k < r)) = 0 := by
    rw [List.countP_eq_zero]; intro a _; simp
  have h2 : (List.range r).countP (fun k => p k && decide (k < r)) = (List.range r).countP p := by
    apply List.countP_congr
    intro x hx
    simp only [List.mem_range] at hx
    simp [hx]
  rw [h1, h2, Nat.add_zero]

theorem countLoop_spec (N : Nat) (b : Bits) (hb : Valid N b) (hN : 0 < N) :
    ∀ m i, i ≤ nslots N → m = nslots N - i →
    countLoop N i ((List.range (min N (i * 64))).countP (bit b)) b =
      .ok ((List.range N).countP (bit b), b) := by
  have hlast := lastSlot_mul hN
  have hsucc := lastSlot_succ hN
  intro m
  induction m with
  | zero =>
    intro i hi hm
    rw [countLoop, Prog.ite_app, if_neg (by omega), Nat.min_eq_left (by omega)]; rfl
  | succ m ih =>
    intro i hi hm
    rw [countLoop, Prog.ite_app, if_pos (by omega)]
    simp only [Prog.bind_app, getSlot_eq (show i < b.length by rw [hb]; omega), Res.bind_ok]
    have hstep : (List.range (min N (i * 64))).countP (bit b) + popcount
        (if i = lastSlotIndex N then b.getD i 0#64 &&& lastBits N else b.getD i 0#64) =
        (List.range (min N ((i + 1) * 64))).countP (bit b) := by
      have hbit : ∀ k < 64, bit b (i * 64 + k) = (b.getD i 0#64).getLsbD k := by
        intro k hk
        unfold bit
        rw [show (i * 64 + k) / 64 = i by omega, show (i * 64 + k) % 64 = k by omega]
      by_cases hi' : i = lastSlotIndex N
      · rw [if_pos hi', Nat.min_eq_right (by omega : i * 64 ≤ N),
          Nat.min_eq_left (by omega : N ≤ (i + 1) * 64)]
        have e : (List.range N).countP (bit b) = _ :=
          (by rw [show i * 64 + (N - i * 64) = N by omega] :
            (List.range N).countP (bit b) = (List.range (i * 64 + (N - i * 64))).countP (bit b)).trans
          (countP_range_add (bit b) (i * 64) (N - i * 64))
        rw [e]
        congr 1
        rw [← countP_range_lt (fun k => bit b (i * 64 + k)) (by omega : N - i * 64 ≤ 64)]
        unfold popcount
        apply List.countP_congr
        intro k hk
        simp only [List.mem_range] at hk
        rw [BitVec.getLsbD_and, getLsbD_lastBits hN k hk, hbit k hk, ← hi']
        have : (i * 64 + k < N) ↔ (k < N - i * 64) := by omega
        simp only [this]
      · rw [if_neg hi', Nat.min_eq_right (by omega : i * 64 ≤ N),
          Nat.min_eq_right (by omega : (i + 1) * 64 ≤ N), show (i + 1) * 64 = i * 64 + 64 by omega,
          countP_range_add]
        congr 1
        unfold popcount
        apply List.countP_congr
        intro k hk
        simp only [List.mem_range] at hk
        rw [hbit k hk]
    rw [hstep]
    exact ih (i + 1) (by omega) (by omega)

/-- `count()` is the number of set logical bits. -/
theorem count_counts (N : Nat) (b : Bits) (hb : Valid N b) :
    count N b = .ok ((List.range N).countP (bit b), b) := by
  unfold count
  by_cases h0 : N = 0
  · subst h0; simp
  rw [if_neg h0]
  simpa using countLoop_spec N b hb (by omega) _ 0 (by omega) rfl

/-- Every positive number has a lowest set bit. -/
theorem lowest_bit (n : Nat) (hn : 0 < n) : ∃ m q, n = 2 ^ (m + 1) * q + 2 ^ m := by
  induction n using Nat.strongRecOn with
  | ind n ih =>
    by_cases h : n % 2 = 1
    · exact ⟨0, n / 2, by simp; omega⟩
    · obtain ⟨m, q, e⟩ := ih (n / 2) (by omega) (by omega)
      refine ⟨m + 1, q, ?_⟩
      have : n = 2 * (n / 2) := by omega
      rw [this, e, Nat.mul_add, ← Nat.mul_assoc, Nat.pow_succ 2 (m+1), Nat.pow_succ 2 m]
      rw [Nat.mul_comm 2 (2 ^ m * 2), Nat.mul_comm 2 (2 ^ m)]

theorem countP_remove (p : Nat → Bool) (m : Nat) (hp : p m = true) (L : Nat) :
    (List.range L).countP (fun k => p k && decide (k ≠ m)) + (if m < L then 1 else 0) =
      (List.range L).countP p := by
  induction L with
  | zero => simp
  | succ L ih =>
    rw [List.range_succ, List.countP_append, List.countP_append, ← ih]
    by_cases h : L = m
    · subst h; simp [hp]
    · have : (m < L + 1) ↔ (m < L) := by omega
      simp only [this]
      simp [h]; omega

theorem kernighan_step (w : Word) (h : w ≠ 0#64) : popcount (w &&& (w - 1#64)) + 1 = popcount w := by
  have hpos : 0 < w.toNat := by
    rcases Nat.eq_zero_or_pos w.toNat with h0 | h0
    · exact absurd (BitVec.eq_of_toNat_eq (by simpa using h0)) h
    · exact h0
  obtain ⟨m, q, e⟩ := lowest_bit w.toNat hpos
  have hw := w.isLt
  have hm : m < 64 := by
    apply Classical.byContradiction
    intro hge
    have : 2 ^ 64 ≤ 2 ^ m := Nat.pow_le_pow_right (by omega) (by omega)
    omega
  have hp : 0 < 2 ^ m := Nat.two_pow_pos m
  have e2 : (w - 1#64).toNat = 2 ^ (m + 1) * q + (2 ^ m - 1) := by
    rw [BitVec.toNat_sub]; simp only [BitVec.toNat_ofNat]; omega
  have hlt : 2 ^ m < 2 ^ (m + 1) := Nat.pow_lt_pow_right (by omega) (by omega)
  have b1 : ∀ k, w.getLsbD k = if k < m + 1 then decide (k = m) else q.testBit (k - (m + 1)) := by
    intro k
    rw [BitVec.getLsbD, e, Nat.testBit_two_pow_mul_add _ hlt, Nat.testBit_two_pow]
    congr 1
    simp [eq_comm]
  have b2 : ∀ k, (w - 1#64).getLsbD k = if k < m + 1 then decide (k < m) else q.testBit (k - (m + 1)) := by
    intro k
    rw [BitVec.getLsbD, e2, Nat.testBit_two_pow_mul_add _ (by omega), Nat.testBit_two_pow_sub_one]
  have key := countP_remove (fun k => w.getLsbD k) m (by simp [b1]) 64
  rw [if_pos hm] at key
  unfold popcount
  rw [← key]
  congr 1
  apply List.countP_congr
  intro k _
  rw [BitVec.getLsbD_and, b1, b2]
  by_cases h1 : k < m + 1
  · simp only [h1, if_true]
    by_cases h2 : k = m
    · simp [h2]
    · simp [h2]
  · simp [h1, show k ≠ m by omega]

/-- The portable bit-counting loop computes the same number as the builtin. -/
theorem kernighan_popcount (w : Word) (c : Nat) (b : Bits) :
    kernighan w c b = .ok (c + popcount w, b) := by
  obtain ⟨n, hn⟩ : ∃ n, n = popcount w := ⟨_, rfl⟩
  induction n generalizing w c with
  | zero =>
    rw [kernighan, Prog.ite_app]
    by_cases h : w = 0#64
    · rw [if_neg (by simpa using h), ← hn]; rfl
    · have := kernighan_step w h; omega
  | succ n ih =>
    have h : w ≠ 0#64 := by
      rintro rfl
      have : popcount 0#64 = 0 := by decide
      omega
    have hs := kernighan_step w h
    rw [kernighan, Prog.ite_app, if_pos h, ih _ _ (by omega)]
    congr 2
    omega

example : count 70 [0#64, 0xffffffffffffffff#64] = .ok (6, [0#64, 0xffffffffffffffff#64]) := by
  rw [count_counts 70 _ (show Valid 70 [0#64, 0xffffffffffffffff#64] from rfl)]; decide

/-! ## C53: conversion between widths -/

theorem assign_width_effect (N M : Nat) (b o : Bits) (hb : Valid N b) (ho : Valid M o) :
    ∃ b', assignWidth N M o b = .ok ((), b') ∧ Valid N b' ∧
      ∀ i, bit b' i = if i / 64 < nslots N ∧ i / 64 < nslots M then bit o i else false := by
  have hle : ∀ {a b : Nat}, a ≤ b → nslots a ≤ nslots b := by intro a b h; unfold nslots; omega
  obtain ⟨n, hn, hnN, hnM, hmin⟩ : ∃ n, n = (if N < M then nslots N else nslots M) ∧ n ≤ nslots N ∧
      n ≤ nslots M ∧ (n = nslots N ∨ n = nslots M) := by
    refine ⟨_, rfl, ?_⟩
    by_cases h : N < M
    · rw [if_pos h]; exact ⟨Nat.le_refl _, hle (by omega), .inl rfl⟩
    · rw [if_neg h]; exact ⟨hle (by omega), Nat.le_refl _, .inr rfl⟩
  unfold assignWidth
  rw [← hn]
  obtain ⟨b1, h1, h2, h3⟩ := forLoop_slots (b := b) (i := 0) (n := n)
    (body := fun i => do
      let w ← otherSlot o i
      setSlot i w) (fun i _ => o.getD i 0#64) (by omega) (by rw [hb]; omega)
    (fun j c hlt hc => by
      have h1 : j < c.length := by rw [hc, hb]; omega
      have h2 : j < o.length := by rw [ho]; omega
      simp only [Prog.bind_app, otherSlot_eq h2, Res.bind_ok, setSlot_eq _ h1])
  obtain ⟨b2, g1, g2, g3⟩ := forLoop_slots (b := b1) (i := n) (n := nslots N)
    (body := fun i => setSlot i 0#64) (fun i _ => 0#64) (by omega) (by rw [h2, hb]; omega)
    (fun j c hlt hc => setSlot_eq _ (by rw [hc, h2, hb]; omega))
  refine ⟨b2, by simp only [Prog.bind_app, h1, Res.bind_ok, g1], (g2.trans h2).trans hb, fun i => ?_⟩
  unfold bit
  rw [g3, h3]
  by_cases hc : i / 64 < n
  · rw [if_neg (by omega), if_pos ⟨by omega, hc⟩, if_pos ⟨by omega, by omega⟩]
  · by_cases hd : i / 64 < nslots N
    · rw [if_pos ⟨by omega, hd⟩, if_neg (by omega)]; simp
    · rw [if_neg (by omega), if_neg (by omega), if_neg (by omega)]
      have : b.length ≤ i / 64 := by rw [hb]; omega
      simp [List.getD_eq_getElem?_getD, this]

/-- C53 when the assignment does not widen into the source's last slot, or the source's padding
bits are clear. Missing: widening from a source with stray padding bits (refuted below). -/
theorem assign_width_preserves_partial (N M : Nat) (b o : Bits) (hb : Valid N b) (ho : Valid M o)
    (hpad : N ≤ M ∨ ∀ i, M ≤ i → bit o i = false) :
    ∃ b', assignWidth N M o b = .ok ((), b') ∧ Valid N b' ∧
      ∀ i < N, bit b' i = (decide (i < M) && bit o i) := by
  obtain ⟨b', h1, h2, h3⟩ := assign_width_effect N M b o hb ho
  refine ⟨b', h1, h2, fun i hi => ?_⟩
  rw [h3]
  by_cases hM : i < M
  · rw [if_pos ⟨slot_lt hi, slot_lt hM⟩]; simp [hM]
  · have : bit o i = false := by
      rcases hpad with h | h
      · omega
      · exact h i (by omega)
    simp [this, hM]

example : ∃ b', assignWidth 130 70 sample [1#64, 1#64, 1#64] = .ok ((), b') ∧
    bit b' 65 = true ∧ bit b' 128 = false := by
  obtain ⟨b', h1, h2, h3⟩ := assign_width_preserves_partial 130 70 [1#64, 1#64, 1#64] sample rfl rfl
    (.inr (by
      intro i hi
      unfold bit sample
      by_cases h : i / 64 = 1
      · rw [h]
        have : ∀ m < 64, 6 ≤ m → (List.getD [5#64, 3#64] 1 0#64).getLsbD m = false := by decide
        exact this _ (Nat.mod_lt _ (by omega)) (by omega)
      · have : 2 ≤ i / 64 := by omega
        simp [List.getD_eq_getElem?_getD, this]))
  exact ⟨b', h1, by rw [h3 _ (by decide)]; decide, by rw [h3 _ (by decide)]; decide⟩

/-- C53 is false of the code: `bitset<4>` after `set()` assigned to a `bitset<8>` gives eight ones. -/
theorem assign_width_preserves_false : ∃ o b', setAll 4 [0#64] = .ok ((), o) ∧
    assignWidth 8 4 o [0#64] = .ok ((), b') ∧ bit b' 5 = true := by
  obtain ⟨b', h1, _, h3⟩ := assign_width_effect 8 4 [0#64] [BitVec.allOnes 64] rfl rfl
  refine ⟨[BitVec.allOnes 64], b', ?_, h1, ?_⟩
  · unfold setAll
    rw [if_neg (by decide), forLoop]
    simp only [show nslots 4 = 1 from rfl, Prog.ite_app, Prog.bind_app]
    rw [if_pos (by decide)]
    simp only [setSlot_eq (b := [0#64]) (i := 0) _ (by decide), Res.bind_ok]
    rw [forLoop_ge (by decide)]
    rfl
  · rw [h3]; decide

/-! ## C54: construction -/

/-- `bitset(unsigned long)` for `N > 0`; `junk` is the uninitialised storage. -/
theorem from_ulong_bits (N : Nat) (v : Word) (junk : Bits) (hN : 0 < N) (hj : Valid N junk) :
    ∃ b', fromUlong N v junk = .ok ((), b') ∧ Valid N b' ∧
      ∀ i < N, bit b' i = (decide (i < 64) && v.getLsbD i) := by
  have hl := nslots_pos hN
  unfold fromUlong
  have h0 := setSlot_eq (b := junk) (i := 0) v (by rw [hj]; exact hl)
  obtain ⟨b', h1, h2, h3⟩ := forLoop_slots (b := junk.set 0 v) (i := 1) (n := nslots N)
    (body := fun i => setSlot i 0#64) (fun i _ => 0#64) (by omega) (by simp; rw [hj]; omega)
    (fun j c hlt hc => setSlot_eq _ (by rw [hc]; simp; rw [hj]; omega))
  refine ⟨b', by simp only [Prog.bind_app, h0, Res.bind_ok, h1], ?_, fun i hi => ?_⟩
  · rw [Valid, h2]; simp; exact hj
  · unfold bit
    rw [h3, getD_set _ _ _ (by rw [hj]; exact hl)]
    by_cases h : i < 64
    · rw [if_neg (by omega), if_pos (by omega), show i % 64 = i by omega]; simp [h]
    · rw [if_pos ⟨by omega, slot_lt hi⟩]; simp [h]

/-- C54 is false for `bitset<0>(v)`: the constructor writes `bits_[0]` of an empty array. -/
theorem from_ulong_zero_oob (v : Word) : fromUlong 0 v [] = .ub .access := rfl

/-- Specification of the accepted text: the longest prefix of the first `n` characters made of
`zero`/`one`. -/
def digits (cs : List Char) (n : Nat) (zero one : Char) : List Char :=
  (cs.take n).takeWhile fun c => c == zero || c == one

theorem scanLoop_spec (pre rest : List Char) (zero one : Char) (b : Bits) :
    ∀ n, n ≤ rest.length ∨ (∃ c ∈ rest, c ≠ zero ∧ c ≠ one) →
    scanLoop (pre ++ rest) zero one pre.length (pre.length + n) b =
      .ok (pre.length + (digits rest n zero one).length, b) := by
  induction rest generalizing pre with
  | nil =>
    intro n h
    have : n = 0 := by simpa using h
    subst this
    rw [scanLoop, Prog.ite_app, if_neg (by omega)]; simp [digits]
  | cons c rest ih =>
    intro n h
    rw [scanLoop, Prog.ite_app]
    cases n with
    | zero => rw [if_neg (by omega)]; simp [digits]
    | succ n =>
      rw [if_pos (by omega)]
      have hc : charAt (σ := Bits) (pre ++ c :: rest) pre.length b = .ok (c, b) := by
        simp [charAt]
      simp only [Prog.bind_app, hc, Res.bind_ok, Prog.ite_app]
      by_cases hd : c = zero ∨ c = one
      · rw [if_neg (fun h => h hd)]
        have := ih (pre ++ [c]) n (by
          rcases h with h | ⟨x, hx, h1, h2⟩
          · left; simpa using h
          · right
            rcases List.mem_cons.1 hx with rfl | hx
            · rcases hd with hd | hd
              · exact absurd hd h1
              · exact absurd hd h2
            · exact ⟨x, hx, h1, h2⟩)
        simp only [List.append_assoc, List.singleton_append, List.length_append, List.length_cons,
          List.length_nil] at this
        rw [show pre.length + (n + 1) = pre.length + (0 + 1) + n by omega, this]
        have hd' : (c == zero || c == one) = true := by simpa using hd
        simp [digits, List.takeWhile_cons, hd']; omega
      · rw [if_pos hd]
        have hd' : (c == zero || c == one) = false := by
          simpa using hd
        simp [digits, List.takeWhile_cons, hd']

theorem setBit_cap {N i : Nat} (hN : 0 < N) : setBit N i = setBit (nslots N * 64) i := by
  have := nslots_pos hN
  unfold setBit bitsSlot
  simp [show N ≠ 0 by omega, show nslots N * 64 ≠ 0 by omega]
theorem reset_cap {N i : Nat} (hN : 0 < N) : reset N i = reset (nslots N * 64) i := by
  have := nslots_pos hN
  unfold reset bitsSlot
  simp [show N ≠ 0 by omega, show nslots N * 64 ≠ 0 by omega]
theorem valid_cap {N : Nat} {b : Bits} : Valid N b ↔ Valid (nslots N * 64) b := by
  unfold Valid
  have : nslots (nslots N * 64) = nslots N := by
    generalize nslots N = x
    unfold nslots; omega
  rw [this]

theorem writeLoop_spec (N : Nat) (hN : 0 < N) (ds tail : List Char) (zero one : Char) (hzo : zero ≠ one)
    (hd : ∀ c ∈ ds, c = zero ∨ c = one) (hlen : ds.length ≤ nslots N * 64) :
    ∀ k j (b : Bits), Valid N b → j + k = ds.length →
    ∃ b', writeLoop N (ds ++ tail) zero one k j b = .ok ((), b') ∧ Valid N b' ∧
      ∀ i, bit b' i = if i < k then decide (ds.reverse[i]? = some one) else bit b i := by
  intro k
  induction k with
  | zero =>
    intro j b hb hj
    rw [writeLoop]
    exact ⟨b, by simp, hb, by simp⟩
  | succ k ih =>
    intro j b hb hjk
    have hj : j < ds.length := by omega
    have hc : charAt (σ := Bits) (ds ++ tail) j b = .ok (ds[j], b) := by
      simp [charAt, List.getElem?_append_left hj, hj]
    have hrev : ds.reverse[k]? = some ds[j] := by
      rw [List.getElem?_reverse (by omega), show ds.length - 1 - k = j by omega]
      simp [hj]
    rw [writeLoop, Prog.ite_app, if_neg (by omega)]
    simp only [Prog.bind_app, hc, Res.bind_ok, Prog.ite_app, Nat.add_sub_cancel]
    have fin : ∀ (b1 : Bits) (v : Bool), v = decide (ds[j] = one) → Valid N b1 →
        (∀ i, bit b1 i = if i = k then v else bit b i) →
        ∃ b', writeLoop N (ds ++ tail) zero one k (j + 1) b1 = .ok ((), b') ∧ Valid N b' ∧
          ∀ i, bit b' i = if i < k + 1 then decide (ds.reverse[i]? = some one) else bit b i := by
      intro b1 v hv g2 g3
      obtain ⟨b', h1, h2, h3⟩ := ih (j + 1) b1 g2 (by omega)
      refine ⟨b', h1, h2, fun i => ?_⟩
      rw [h3, g3]
      by_cases h1 : i < k
      · rw [if_pos h1, if_pos (by omega)]
      · by_cases h2 : i = k
        · subst h2; rw [if_neg (by omega), if_pos rfl, if_pos (by omega), hv, hrev]; simp
        · rw [if_neg h1, if_neg h2, if_neg (by omega)]
    by_cases hz : ds[j] = zero
    · obtain ⟨b1, g1, g2, g3⟩ := reset_clears_one_bit (nslots N * 64) k b (valid_cap.1 hb) (by omega)
      rw [← reset_cap hN] at g1
      rw [if_pos hz]
      simp only [Prog.bind_app, g1, Res.bind_ok]
      exact fin b1 false (by simp [hz, hzo]) (valid_cap.2 g2) g3
    · have ho : ds[j] = one := (hd _ (List.getElem_mem hj)).resolve_left hz
      obtain ⟨b1, g1, g2, g3⟩ := set_sets_one_bit (nslots N * 64) k b (valid_cap.1 hb) (by omega)
      rw [← setBit_cap hN] at g1
      rw [if_neg hz, if_pos ho]
      simp only [Prog.bind_app, g1, Res.bind_ok]
      exact fin b1 true (by simp [ho]) (valid_cap.2 g2) g3

theorem writeLoop_zero (cs tail : List Char) (zero one : Char) (b : Bits)
    (hd : ∀ c ∈ cs, c = zero ∨ c = one) :
    ∀ k j, j + k = cs.length → writeLoop 0 (cs ++ tail) zero one k j b = .ok ((), b) := by
  intro k
  induction k with
  | zero => intro j _; rw [writeLoop]; simp
  | succ k ih =>
    intro j hjk
    have hj : j < cs.length := by omega
    have hc : charAt (σ := Bits) (cs ++ tail) j b = .ok (cs[j], b) := by
      simp [charAt, List.getElem?_append_left hj, hj]
    rw [writeLoop, Prog.ite_app, if_neg (by omega)]
    simp only [Prog.bind_app, hc, Res.bind_ok, Prog.ite_app, Nat.add_sub_cancel]
    rcases hd _ (List.getElem_mem hj) with h | h
    · rw [if_pos h]
      simp [reset, ih (j + 1) (by omega)]
    · simp only [h]
      split <;> simp [reset, setBit, ih (j + 1) (by omega)]

theorem digits_prefix (cs : List Char) (n : Nat) (zero one : Char) :
    ∃ tail, cs = digits cs n zero one ++ tail :=
  let ⟨t, h⟩ := (List.takeWhile_prefix (l := cs.take n) fun c => c == zero || c == one).trans
    (List.take_prefix n cs)
  ⟨t, h.symm⟩

theorem digits_mem {cs : List Char} {n : Nat} {zero one c : Char} (h : c ∈ digits cs n zero one) :
    c = zero ∨ c = one := by
  have := List.all_takeWhile (l := cs.take n) (p := fun c => c == zero || c == one)
  rw [List.all_eq_true] at this
  simpa using this c h

/-- C54 for strings whose run of digits fits the storage: bit `i` is set iff the `i`-th digit from
the end is `one`. Missing: longer strings (refuted below). The buffer either has `n` characters or a
terminator. -/
theorem from_string_bits_partial (N n : Nat) (cs : List Char) (zero one : Char) (junk : Bits)
    (hj : Valid N junk) (hzo : zero ≠ one) (hterm : n ≤ cs.length ∨ ∃ c ∈ cs, c ≠ zero ∧ c ≠ one)
    (hlen : (digits cs n zero one).length ≤ nslots N * 64) :
    ∃ b', fromString N cs n zero one junk = .ok ((), b') ∧ Valid N b' ∧
      ∀ i < N, bit b' i = decide ((digits cs n zero one).reverse[i]? = some one) := by
  unfold fromString
  have hs := scanLoop_spec [] cs zero one junk n hterm
  simp only [List.nil_append, List.length_nil, Nat.zero_add] at hs
  obtain ⟨tail, ht⟩ := digits_prefix cs n zero one
  generalize hds : digits cs n zero one = ds at *
  have hmem : ∀ c ∈ ds, c = zero ∨ c = one := by
    intro c hc; rw [← hds] at hc; exact digits_mem hc
  simp only [Prog.bind_app, hs, Res.bind_ok]
  rcases Nat.lt_or_ge (ds.length / 64) (nslots N) with hlt | hge
  · have hN : 0 < N := by
      rcases Nat.eq_zero_or_pos N with h | h
      · subst h; simp [nslots] at hlt
      · exact h
    obtain ⟨b1, g1, g2, g3⟩ := forLoop_slots (b := junk) (i := ds.length / 64) (n := nslots N)
      (body := fun i => setSlot i 0#64) (fun i _ => 0#64) (by omega) (by rw [hj]; omega)
      (fun j c hlt hc => setSlot_eq _ (by rw [hc, hj]; omega))
    obtain ⟨b', h1, h2, h3⟩ := writeLoop_spec N hN ds tail zero one hzo hmem hlen ds.length 0 b1
      (g2.trans hj) (by omega)
    refine ⟨b', by simp only [g1, Res.bind_ok]; rw [ht, h1], h2, fun i hi => ?_⟩
    rw [h3]
    by_cases hil : i < ds.length
    · rw [if_pos hil]
    · rw [if_neg hil, bit, g3, if_pos ⟨by omega, slot_lt hi⟩]
      simp [show ds.length ≤ i by omega]
  · have he : forLoop (fun s => setSlot s 0#64) (ds.length / 64) (nslots N) junk = .ok ((), junk) :=
      forLoop_ge hge _
    simp only [he, Res.bind_ok]
    rcases Nat.eq_zero_or_pos N with h | hN
    · subst h
      refine ⟨junk, ?_, hj, by omega⟩
      rw [ht]; exact writeLoop_zero ds tail zero one junk hmem _ _ (by omega)
    · obtain ⟨b', h1, h2, h3⟩ := writeLoop_spec N hN ds tail zero one hzo hmem hlen ds.length 0 junk
        hj (by omega)
      refine ⟨b', by rw [ht, h1], h2, fun i hi => ?_⟩
      rw [h3, if_pos]
      have := slot_lt hi
      omega

example : ∃ b', fromString 5 ['1', '1', '0', '\x00'] 1000 '0' '1' [77#64] = .ok ((), b') ∧
    bit b' 0 = false ∧ bit b' 2 = true ∧ bit b' 3 = false := by
  obtain ⟨b', h1, _, h3⟩ := from_string_bits_partial 5 1000 ['1', '1', '0', '\x00'] '0' '1' [77#64] rfl
    (by decide) (.inr ⟨'\x00', by decide⟩) (by decide)
  exact ⟨b', h1, by rw [h3 _ (by decide)]; decide, by rw [h3 _ (by decide)]; decide,
    by rw [h3 _ (by decide)]; decide⟩

/-- C54 is false for longer strings: every string with more digits than storage bits makes the
constructor write outside the bitset. -/
theorem from_string_overflow (N n : Nat) (cs : List Char) (zero one : Char) (junk : Bits) (hN : 0 < N)
    (hj : Valid N junk) (hterm : n ≤ cs.length ∨ ∃ c ∈ cs, c ≠ zero ∧ c ≠ one)
    (hlen : nslots N * 64 < (digits cs n zero one).length) :
    fromString N cs n zero one junk = .ub .access := by
  unfold fromString
  have hs := scanLoop_spec [] cs zero one junk n hterm
  simp only [List.nil_append, List.length_nil, Nat.zero_add] at hs
  obtain ⟨tail, ht⟩ := digits_prefix cs n zero one
  generalize hds : digits cs n zero one = ds at *
  have hmem : ∀ c ∈ ds, c = zero ∨ c = one := by
    intro c hc; rw [← hds] at hc; exact digits_mem hc
  simp only [Prog.bind_app, hs, Res.bind_ok]
  have he : forLoop (fun s => setSlot s 0#64) (ds.length / 64) (nslots N) junk = .ok ((), junk) :=
    forLoop_ge (by omega) _
  simp only [he, Res.bind_ok]
  have h0 : 0 < ds.length := by omega
  have hc : charAt (σ := Bits) cs 0 junk = .ok (ds[0], junk) := by
    rw [ht]; simp only [charAt, List.getElem?_append_left h0, List.getElem?_eq_getElem h0]
  have hb : bitsSlot N (ds.length - 1) = (ds.length - 1) / 64 := by
    unfold bitsSlot; rw [if_neg (by omega)]
  have hoob : junk.length ≤ (ds.length - 1) / 64 := by rw [hj]; omega
  rw [writeLoop, Prog.ite_app, if_neg (by omega)]
  simp only [Prog.bind_app, hc, Res.bind_ok, Prog.ite_app]
  rcases hmem _ (List.getElem_mem h0) with h | h
  · rw [if_pos h]
    simp [reset, show N ≠ 0 by omega, hb, getSlot_oob hoob]
  · split
    · simp [reset, show N ≠ 0 by omega, hb, getSlot_oob hoob]
    · simp [setBit, h, show N ≠ 0 by omega, hb, getSlot_oob hoob]

end Verif.Bitset
