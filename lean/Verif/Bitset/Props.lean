import Verif.Bitset.Lemmas
/-!
# Properties C47–C51 of `bitset`

`bit b i` is bit `i` of the storage; `Valid N b` says the storage has the size of a `bitset<N>`.
All theorems hold for arbitrary storage contents, in particular arbitrary padding bits.
-/
set_option linter.unusedSimpArgs false
namespace Verif.Bitset
open Verif

/-- A bitset<70> used as the concrete case of the theorems below. -/
def sample : Bits := [5#64, 3#64]
theorem sample_valid : Valid 70 sample := rfl

/-! ## C47: single-bit operations -/

theorem test_reports (N i : Nat) (b : Bits) (hb : Valid N b) :
    test N i b = .ok (decide (i < N) && bit b i, b) := by
  unfold test
  by_cases h : i < N
  · have hl : bitsSlot N i < b.length := by rw [bitsSlot_eq h, hb]; exact slot_lt h
    simp only [h, if_true, Prog.bind_app, Prog.ite_app, getSlot_eq hl, Res.bind_ok, Prog.pure_app]
    simp only [bitsBit, and_mask_ne_zero _ _ (Nat.mod_lt i (by omega : 64 > 0)), bitsSlot_eq h, bit,
      decide_true, Bool.true_and]
  · simp [h]

/-- Storing a word whose bit `i%64` is `v` and whose other bits are the old ones assigns bit `i`. -/
theorem bit_set_word (b : Bits) (i : Nat) (w : Word) (v : Bool) (h : i / 64 < b.length)
    (hw : ∀ k < 64, w.getLsbD k = if k = i % 64 then v else (b.getD (i / 64) 0#64).getLsbD k)
    (j : Nat) : bit (b.set (i / 64) w) j = if j = i then v else bit b j := by
  unfold bit
  rw [getD_set _ _ _ h]
  by_cases hj : j / 64 = i / 64
  · rw [if_pos hj, hw _ (Nat.mod_lt _ (by omega))]
    by_cases hm : j % 64 = i % 64
    · rw [if_pos hm, if_pos (pos_eq.2 ⟨hj, hm⟩)]
    · rw [if_neg hm, if_neg (fun h => hm (by rw [h])), hj]
  · rw [if_neg hj, if_neg (fun h => hj (by rw [h]))]

theorem set_sets_one_bit (N i : Nat) (b : Bits) (hb : Valid N b) (hi : i < N) :
    ∃ b', setBit N i b = .ok ((), b') ∧ Valid N b' ∧
      ∀ j, bit b' j = if j = i then true else bit b j := by
  have hl : i / 64 < b.length := by rw [hb]; exact slot_lt hi
  refine ⟨b.set (i / 64) ((b.getD (i / 64) 0#64) ||| (1#64 <<< bitsBit i)), ?_, ?_, ?_⟩
  · unfold setBit
    simp only [show N ≠ 0 by omega, if_false, Prog.ite_app, Prog.bind_app, bitsSlot_eq hi,
        getSlot_eq hl, Res.bind_ok, setSlot_eq _ hl]
  · unfold Valid at *; simp [hb]
  · intro j
    refine bit_set_word b i _ true hl ?_ j
    intro k hk
    simp only [BitVec.getLsbD_or, bitsBit, getLsbD_mask _ _ hk]
    by_cases h : k = i % 64 <;> simp [h]

theorem reset_clears_one_bit (N i : Nat) (b : Bits) (hb : Valid N b) (hi : i < N) :
    ∃ b', reset N i b = .ok ((), b') ∧ Valid N b' ∧
      ∀ j, bit b' j = if j = i then false else bit b j := by
  have hl : i / 64 < b.length := by rw [hb]; exact slot_lt hi
  refine ⟨b.set (i / 64) ((b.getD (i / 64) 0#64) &&& ~~~ (1#64 <<< bitsBit i)), ?_, ?_, ?_⟩
  · unfold reset
    simp only [show N ≠ 0 by omega, if_false, Prog.ite_app, Prog.bind_app, bitsSlot_eq hi,
        getSlot_eq hl, Res.bind_ok, setSlot_eq _ hl]
  · unfold Valid at *; simp [hb]
  · intro j
    refine bit_set_word b i _ false hl ?_ j
    intro k hk
    simp only [BitVec.getLsbD_and, BitVec.getLsbD_not, bitsBit, getLsbD_mask _ _ hk]
    by_cases h : k = i % 64 <;> simp [h, hk]

theorem flip_flips_one_bit (N i : Nat) (b : Bits) (hb : Valid N b) (hi : i < N) :
    ∃ b', flip N i b = .ok ((), b') ∧ Valid N b' ∧
      ∀ j, bit b' j = if j = i then !bit b j else bit b j := by
  have hl : i / 64 < b.length := by rw [hb]; exact slot_lt hi
  refine ⟨b.set (i / 64) ((b.getD (i / 64) 0#64) ^^^ (1#64 <<< bitsBit i)), ?_, ?_, ?_⟩
  · unfold flip
    simp only [show N ≠ 0 by omega, if_false, Prog.ite_app, Prog.bind_app, bitsSlot_eq hi,
        getSlot_eq hl, Res.bind_ok, setSlot_eq _ hl]
  · unfold Valid at *; simp [hb]
  · intro j
    rw [bit_set_word b i _ (!bit b i) hl ?_ j]
    · by_cases h : j = i <;> simp [h]
    intro k hk
    simp only [BitVec.getLsbD_xor, bitsBit, getLsbD_mask _ _ hk]
    by_cases h : k = i % 64 <;> simp [h, bit]

example : ∃ b', setBit 70 65 sample = .ok ((), b') ∧ bit b' 65 = true ∧ bit b' 66 = false := by
  obtain ⟨b', h, _, h2⟩ := set_sets_one_bit 70 65 sample sample_valid (by decide)
  exact ⟨b', h, by simp [h2], by rw [h2]; decide⟩

/-! ## C48: `set(pos, value)` -/

/-- `set(i, v)` ORs `v` into bit `i`: it is right for `v = true` but leaves the bit for `false`. -/
theorem set_value_ors (N i : Nat) (v : Bool) (b : Bits) (hb : Valid N b) (hi : i < N) :
    ∃ b', setValue N i v b = .ok ((), b') ∧ Valid N b' ∧
      ∀ j, bit b' j = if j = i then (v || bit b j) else bit b j := by
  have hl : i / 64 < b.length := by rw [hb]; exact slot_lt hi
  refine ⟨b.set (i / 64) (((b.getD (i / 64) 0#64) &&& ~~~ ((if v then 1#64 else 0#64) <<< bitsBit i)) ||| ((if v then 1#64 else 0#64) <<< bitsBit i)), ?_, ?_, ?_⟩
  · unfold setValue
    simp only [show N ≠ 0 by omega, if_false, Prog.ite_app, Prog.bind_app, bitsSlot_eq hi,
        getSlot_eq hl, Res.bind_ok, setSlot_eq _ hl]
  · unfold Valid at *; simp [hb]
  · intro j
    rw [bit_set_word b i _ (v || bit b i) hl ?_ j]
    · by_cases h : j = i <;> simp [h]
    intro k hk
    cases v
    · simp only [Bool.false_eq_true, if_false, BitVec.getLsbD_or, BitVec.getLsbD_and,
        BitVec.getLsbD_not, BitVec.zero_shiftLeft, hk, bit, BitVec.getLsbD_zero]
      by_cases h : k = i % 64 <;> simp [h]
    · simp only [if_true, BitVec.getLsbD_or, BitVec.getLsbD_and, BitVec.getLsbD_not, bitsBit,
        getLsbD_mask _ _ hk]
      by_cases h : k = i % 64 <;> simp [h, hk]

/-- C48 holds when `v = true`. Missing: `v = false` (refuted by `set_false_does_nothing`). -/
theorem set_value_assigns_partial (N i : Nat) (b : Bits) (hb : Valid N b) (hi : i < N) :
    ∃ b', setValue N i true b = .ok ((), b') ∧ Valid N b' ∧
      ∀ j, bit b' j = if j = i then true else bit b j := by
  simpa using set_value_ors N i true b hb hi

/-- C48 is false of the code: `set(i, false)` changes no bit, for any bitset. -/
theorem set_false_does_nothing (N i : Nat) (b : Bits) (hb : Valid N b) (hi : i < N) :
    ∃ b', setValue N i false b = .ok ((), b') ∧ ∀ j, bit b' j = bit b j := by
  obtain ⟨b', h, _, h2⟩ := set_value_ors N i false b hb hi
  exact ⟨b', h, by intro j; simp [h2]⟩

/-- The full C48 is false: a set bit survives `set(i, false)`. -/
theorem set_value_assigns_false : ¬ ∀ (N i : Nat) (v : Bool) (b : Bits), Valid N b → i < N →
    ∃ b', setValue N i v b = .ok ((), b') ∧ bit b' i = v := by
  intro h
  obtain ⟨b', h1, h2⟩ := h 70 0 false sample sample_valid (by decide)
  obtain ⟨b'', h3, h4⟩ := set_false_does_nothing 70 0 sample sample_valid (by decide)
  rw [h1] at h3
  injection h3 with h3; injection h3 with _ h3
  subst h3
  rw [h4] at h2
  exact absurd h2 (by decide)

/-! ## C49: reference proxies -/

theorem getLsbD_negBool (v : Bool) (k : Nat) (hk : k < 64) : (negBool v).getLsbD k = v := by
  cases v
  · simp [negBool]
  · unfold negBool
    rw [if_pos rfl, BitVec.getLsbD_allOnes]; simp [hk]

theorem ref_assign_bool (N i : Nat) (v : Bool) (b : Bits) (hb : Valid N b) (hi : i < N) :
    ∃ b', refAssign (ref N i) v b = .ok ((), b') ∧ Valid N b' ∧
      ∀ j, bit b' j = if j = i then v else bit b j := by
  have hl : i / 64 < b.length := by rw [hb]; exact slot_lt hi
  refine ⟨b.set (i / 64) (((b.getD (i / 64) 0#64) &&& ~~~ (1#64 <<< bitsBit i)) ||| (negBool v &&& (1#64 <<< bitsBit i))), ?_, ?_, ?_⟩
  · unfold refAssign ref
    simp only [hi, if_true, Prog.ite_app, Prog.bind_app, bitsSlot_eq hi,
        getSlot_eq hl, Res.bind_ok, setSlot_eq _ hl]
  · unfold Valid at *; simp [hb]
  · intro j
    refine bit_set_word b i _ v hl ?_ j
    intro k hk
    simp only [BitVec.getLsbD_or, BitVec.getLsbD_and, BitVec.getLsbD_not, bitsBit,
        getLsbD_mask _ _ hk, getLsbD_negBool _ _ hk]
    by_cases h : k = i % 64 <;> cases v <;> simp [h, hk, Nat.mod_lt]

theorem ref_get (N i : Nat) (b : Bits) (hb : Valid N b) (hi : i < N) :
    refGet (ref N i) b = .ok (bit b i, b) := by
  have hl : i / 64 < b.length := by rw [hb]; exact slot_lt hi
  unfold refGet ref
  simp only [hi, if_true, Prog.bind_app, bitsSlot_eq hi, getSlot_eq hl, Res.bind_ok, bitsBit,
    and_mask_ne_zero _ _ (Nat.mod_lt i (by omega : 64 > 0)), bit, Prog.pure_app]

theorem ref_not (N i : Nat) (b : Bits) (hb : Valid N b) (hi : i < N) :
    refNot (ref N i) b = .ok (!bit b i, b) := by
  have hl : i / 64 < b.length := by rw [hb]; exact slot_lt hi
  have := and_mask_ne_zero (b.getD (i / 64) 0#64) (i % 64) (Nat.mod_lt i (by omega : 64 > 0))
  unfold refNot ref
  simp only [hi, if_true, Prog.bind_app, bitsSlot_eq hi, getSlot_eq hl, Res.bind_ok, bitsBit, bit,
    Prog.pure_app, ← this]
  simp

theorem ref_flip (N i : Nat) (b : Bits) (hb : Valid N b) (hi : i < N) :
    ∃ b', refFlip (ref N i) b = .ok ((), b') ∧ Valid N b' ∧
      ∀ j, bit b' j = if j = i then !bit b j else bit b j := by
  have hl : i / 64 < b.length := by rw [hb]; exact slot_lt hi
  refine ⟨b.set (i / 64) ((b.getD (i / 64) 0#64) ^^^ (1#64 <<< bitsBit i)), ?_, ?_, ?_⟩
  · unfold refFlip ref
    simp only [hi, if_true, Prog.ite_app, Prog.bind_app, bitsSlot_eq hi,
        getSlot_eq hl, Res.bind_ok, setSlot_eq _ hl]
  · unfold Valid at *; simp [hb]
  · intro j
    rw [bit_set_word b i _ (!bit b i) hl ?_ j]
    · by_cases h : j = i <;> simp [h]
    intro k hk
    simp only [BitVec.getLsbD_xor, bitsBit, getLsbD_mask _ _ hk]
    by_cases h : k = i % 64 <;> simp [h, bit]

/-- What `b[i] = b[j]` really does: bit `i` becomes `b[i] || b[j]` and every other bit of the same
64-bit slot is cleared. -/
theorem ref_assign_ref_effect (N i j : Nat) (b : Bits) (hb : Valid N b) (hi : i < N) (hj : j < N) :
    ∃ b', refAssignRef (ref N i) (ref N j) b = .ok ((), b') ∧ Valid N b' ∧
      ∀ k, bit b' k =
        if k = i then (bit b i || bit b j) else if k / 64 = i / 64 then false else bit b k := by
  have hl : i / 64 < b.length := by rw [hb]; exact slot_lt hi
  have hg := ref_get N j b hb hj
  refine ⟨b.set (i / 64) (((b.getD (i / 64) 0#64) &&& (1#64 <<< bitsBit i)) |||
    (negBool (bit b j) &&& (1#64 <<< bitsBit i))), ?_, ?_, ?_⟩
  · have e : ref N i = { slot := i / 64, mask := 1#64 <<< bitsBit i } := by
      simp [ref, hi, bitsSlot_eq hi]
    unfold refAssignRef
    simp only [Prog.bind_app, e, getSlot_eq hl, Res.bind_ok, hg, setSlot_eq _ hl]
  · unfold Valid at *; simp [hb]
  · intro k
    unfold bit
    rw [getD_set _ _ _ hl]
    by_cases hs : k / 64 = i / 64
    · rw [if_pos hs]
      have hk := Nat.mod_lt k (by omega : 64 > 0)
      simp only [BitVec.getLsbD_or, BitVec.getLsbD_and, bitsBit, getLsbD_mask _ _ hk, getLsbD_negBool _ _ hk]
      by_cases hm : k % 64 = i % 64
      · have hki : k = i := pos_eq.2 ⟨hs, hm⟩
        subst hki
        rw [if_pos rfl]
        simp [bit]
      · have hki : k ≠ i := fun h => hm (by rw [h])
        simp [hm, hki, hs]
    · have hki : k ≠ i := fun h => hs (by rw [h])
      rw [if_neg hs, if_neg hki, if_neg hs]

/-- C49 for `b[i] = b[j]` holds exactly when the rest of the slot is already clear and bit `i` is
not set while bit `j` is clear. Missing: every other state (refuted below). -/
theorem ref_assign_ref_partial (N i j : Nat) (b : Bits) (hb : Valid N b) (hi : i < N) (hj : j < N)
    (hclear : ∀ k, k ≠ i → k / 64 = i / 64 → bit b k = false) (hle : bit b i = true → bit b j = true) :
    ∃ b', refAssignRef (ref N i) (ref N j) b = .ok ((), b') ∧ Valid N b' ∧
      ∀ k, bit b' k = if k = i then bit b j else bit b k := by
  obtain ⟨b', h1, h2, h3⟩ := ref_assign_ref_effect N i j b hb hi hj
  refine ⟨b', h1, h2, fun k => ?_⟩
  rw [h3]
  by_cases hk : k = i
  · rw [if_pos hk, if_pos hk]
    cases hbi : bit b i <;> simp [hbi] at hle ⊢
    simp [hle]
  · rw [if_neg hk, if_neg hk]
    by_cases hs : k / 64 = i / 64
    · rw [if_pos hs, hclear k hk hs]
    · rw [if_neg hs]

example : ∀ k, k ≠ 65 → k / 64 = 65 / 64 → bit [5#64, 2#64] k = false := by
  intro k h1 h2
  have h3 := Nat.mod_lt k (by omega : 64 > 0)
  have h4 : k % 64 ≠ 1 := by omega
  simp only [bit, h2]
  show (2#64).getLsbD (k % 64) = false
  have : ∀ m < 64, m ≠ 1 → (2#64).getLsbD m = false := by decide
  exact this _ h3 h4

/-- C49 is false of the code: `b[1] = b[0]` also clears bit 2. -/
theorem ref_assign_ref_false : ¬ ∀ (N i j : Nat) (b : Bits), Valid N b → i < N → j < N →
    ∃ b', refAssignRef (ref N i) (ref N j) b = .ok ((), b') ∧
      ∀ k < N, bit b' k = if k = i then bit b j else bit b k := by
  intro h
  obtain ⟨b', h1, h2⟩ := h 70 1 0 sample sample_valid (by decide) (by decide)
  obtain ⟨b'', h3, _, h4⟩ := ref_assign_ref_effect 70 1 0 sample sample_valid (by decide) (by decide)
  rw [h1] at h3
  injection h3 with h3; injection h3 with _ h3
  subst h3
  have := h2 2 (by decide)
  rw [h4] at this
  exact absurd this (by decide)

/-! ## C50: whole-set operations -/

theorem set_all_pointwise (N : Nat) (b : Bits) (hb : Valid N b) :
    ∃ b', setAll N b = .ok ((), b') ∧ Valid N b' ∧ ∀ i < N, bit b' i = true := by
  unfold setAll
  by_cases h0 : N = 0
  · subst h0; exact ⟨b, by simp, hb, by simp⟩
  obtain ⟨b', h1, h2, h3⟩ := forLoop_slots (b := b) (i := 0) (n := nslots N)
    (body := fun i => setSlot i (BitVec.allOnes 64)) (fun _ _ => BitVec.allOnes 64) (by omega)
    (by rw [hb]; omega) (fun j c hj hc => setSlot_eq _ (by rw [hc, hb]; exact hj))
  refine ⟨b', by rw [if_neg h0]; exact h1, h2.trans hb, fun i hi => ?_⟩
  rw [bit, h3, if_pos ⟨by omega, slot_lt hi⟩, BitVec.getLsbD_allOnes]
  simp [Nat.mod_lt]

theorem reset_all_pointwise (N : Nat) (b : Bits) (hb : Valid N b) :
    ∃ b', resetAll N b = .ok ((), b') ∧ Valid N b' ∧ ∀ i, bit b' i = false := by
  unfold resetAll
  by_cases h0 : N = 0
  · subst h0
    refine ⟨b, by simp, hb, fun i => ?_⟩
    have : b = [] := List.eq_nil_of_length_eq_zero hb
    subst this; simp [bit]
  obtain ⟨b', h1, h2, h3⟩ := forLoop_slots (b := b) (i := 0) (n := nslots N)
    (body := fun i => setSlot i 0#64) (fun _ _ => 0#64) (by omega)
    (by rw [hb]; omega) (fun j c hj hc => setSlot_eq _ (by rw [hc, hb]; exact hj))
  refine ⟨b', by simp [h0, h1], h2.trans hb, fun i => ?_⟩
  rw [bit, h3]
  by_cases hi : i / 64 < nslots N
  · simp [hi]
  · have : b.length ≤ i / 64 := by rw [hb]; omega
    simp [hi, List.getD_eq_getElem?_getD, this]

theorem flip_all_pointwise (N : Nat) (b : Bits) (hb : Valid N b) :
    ∃ b', flipAll N b = .ok ((), b') ∧ Valid N b' ∧ ∀ i < N, bit b' i = !bit b i := by
  unfold flipAll
  by_cases h0 : N = 0
  · subst h0; exact ⟨b, by simp, hb, by simp⟩
  obtain ⟨b', h1, h2, h3⟩ := forLoop_slots (b := b) (i := 0) (n := nslots N)
    (body := fun i => do
      let w ← getSlot i
      setSlot i (~~~ w)) (fun _ w => ~~~ w) (by omega)
    (by rw [hb]; omega) (fun j c hj hc => by
      have : j < c.length := by rw [hc, hb]; exact hj
      simp only [Prog.bind_app, getSlot_eq this, Res.bind_ok, setSlot_eq _ this])
  refine ⟨b', by simp [h0, h1], h2.trans hb, fun i hi => ?_⟩
  rw [bit, h3, if_pos ⟨by omega, slot_lt hi⟩]
  simp [Nat.mod_lt, bit]

/-- `~a`; `junk` is the uninitialised storage of the returned object. -/
theorem complement_pointwise (N : Nat) (a junk : Bits) (ha : Valid N a) (hj : Valid N junk) :
    ∃ b', complement N a junk = .ok ((), b') ∧ Valid N b' ∧ ∀ i < N, bit b' i = !bit a i := by
  unfold complement
  by_cases h0 : N = 0
  · subst h0; exact ⟨junk, by simp, hj, by simp⟩
  obtain ⟨b', h1, h2, h3⟩ := forLoop_slots (b := junk) (i := 0) (n := nslots N)
    (body := fun i => do
      let w ← otherSlot a i
      setSlot i (~~~ w)) (fun i _ => ~~~ (a.getD i 0#64)) (by omega)
    (by rw [hj]; omega) (fun j c hlt hc => by
      have h1 : j < c.length := by rw [hc, hj]; exact hlt
      have h2 : j < a.length := by rw [ha]; exact hlt
      simp only [Prog.bind_app, otherSlot_eq h2, Res.bind_ok, setSlot_eq _ h1])
  refine ⟨b', by simp [h0, h1], h2.trans hj, fun i hi => ?_⟩
  rw [bit, h3, if_pos ⟨by omega, slot_lt hi⟩]
  simp [Nat.mod_lt, bit]

/-- The three compound assignments share this shape. -/
theorem binop_slots (N : Nat) (f : Word → Word → Word) (a o : Bits) (ha : Valid N a) (ho : Valid N o) :
    ∃ b', forLoop (fun i => do
      let x ← getSlot i
      let y ← otherSlot o i
      setSlot i (f x y)) 0 (nslots N) a = .ok ((), b') ∧ Valid N b' ∧
      ∀ i < N, b'.getD (i / 64) 0#64 = f (a.getD (i / 64) 0#64) (o.getD (i / 64) 0#64) := by
  obtain ⟨b', h1, h2, h3⟩ := forLoop_slots (b := a) (i := 0) (n := nslots N)
    (body := fun i => do
      let x ← getSlot i
      let y ← otherSlot o i
      setSlot i (f x y)) (fun i w => f w (o.getD i 0#64)) (by omega)
    (by rw [ha]; omega) (fun j c hlt hc => by
      have h1 : j < c.length := by rw [hc, ha]; exact hlt
      have h2 : j < o.length := by rw [ho]; exact hlt
      simp only [Prog.bind_app, otherSlot_eq h2, getSlot_eq h1, Res.bind_ok, setSlot_eq _ h1])
  refine ⟨b', h1, h2.trans ha, fun i hi => ?_⟩
  rw [h3, if_pos ⟨by omega, slot_lt hi⟩]

theorem and_assign_pointwise (N : Nat) (a o : Bits) (ha : Valid N a) (ho : Valid N o) :
    ∃ b', andAssign N o a = .ok ((), b') ∧ Valid N b' ∧ ∀ i < N, bit b' i = (bit a i && bit o i) := by
  unfold andAssign
  by_cases h0 : N = 0
  · subst h0; exact ⟨a, by simp, ha, by simp⟩
  obtain ⟨b', h1, h2, h3⟩ := binop_slots N (· &&& ·) a o ha ho
  exact ⟨b', by simpa [h0] using h1, h2, fun i hi => by simp only [bit, h3 i hi, BitVec.getLsbD_and]⟩

theorem or_assign_pointwise (N : Nat) (a o : Bits) (ha : Valid N a) (ho : Valid N o) :
    ∃ b', orAssign N o a = .ok ((), b') ∧ Valid N b' ∧ ∀ i < N, bit b' i = (bit a i || bit o i) := by
  unfold orAssign
  by_cases h0 : N = 0
  · subst h0; exact ⟨a, by simp, ha, by simp⟩
  obtain ⟨b', h1, h2, h3⟩ := binop_slots N (· ||| ·) a o ha ho
  exact ⟨b', by simpa [h0] using h1, h2, fun i hi => by simp only [bit, h3 i hi, BitVec.getLsbD_or]⟩

theorem xor_assign_pointwise (N : Nat) (a o : Bits) (ha : Valid N a) (ho : Valid N o) :
    ∃ b', xorAssign N o a = .ok ((), b') ∧ Valid N b' ∧ ∀ i < N, bit b' i = (bit a i ^^ bit o i) := by
  unfold xorAssign
  by_cases h0 : N = 0
  · subst h0; exact ⟨a, by simp, ha, by simp⟩
  obtain ⟨b', h1, h2, h3⟩ := binop_slots N (· ^^^ ·) a o ha ho
  exact ⟨b', by simpa [h0] using h1, h2, fun i hi => by simp only [bit, h3 i hi, BitVec.getLsbD_xor]⟩

/-- `operator=(const bitset<N> &)`, also used to return shift results. -/
theorem assign_copies (N : Nat) (a o : Bits) (ha : Valid N a) (ho : Valid N o) :
    assign N o a = .ok ((), o) := by
  unfold assign
  obtain ⟨b', h1, h2, h3⟩ := forLoop_slots (b := a) (i := 0) (n := nslots N)
    (body := fun i => do
      let w ← otherSlot o i
      setSlot i w) (fun i _ => o.getD i 0#64) (by omega)
    (by rw [ha]; omega) (fun j c hlt hc => by
      have h1 : j < c.length := by rw [hc, ha]; exact hlt
      have h2 : j < o.length := by rw [ho]; exact hlt
      simp only [Prog.bind_app, otherSlot_eq h2, Res.bind_ok, setSlot_eq _ h1])
  rw [h1]
  have : b' = o := by
    apply List.ext_getElem
    · rw [h2, ha, ho]
    · intro i hi1 hi2
      have := h3 i
      rw [if_pos ⟨by omega, by rw [← ho]; exact hi2⟩] at this
      simpa [List.getD_eq_getElem?_getD, hi1, hi2] using this
  rw [this]

example : ∃ b', xorAssign 70 [7#64, 1#64] sample = .ok ((), b') ∧ bit b' 1 = true ∧ bit b' 0 = false := by
  obtain ⟨b', h, _, h2⟩ := xor_assign_pointwise 70 sample [7#64, 1#64] rfl rfl
  exact ⟨b', h, by rw [h2 _ (by decide)]; decide, by rw [h2 _ (by decide)]; decide⟩

/-! ## C51: shifts -/

theorem onOther_test (N i : Nat) (self b : Bits) (hs : Valid N self) :
    onOther self (test N i) b = .ok (decide (i < N) && bit self i, b) := by
  simp [onOther, test_reports N i self hs]

theorem shlLoop_spec (N : Nat) (self : Bits) (hs : Valid N self) (d : Nat) :
    ∀ (m i : Nat) (b : Bits), Valid N b → m = N - (i + d) →
    ∃ b', shlLoop N self i (i + d) b = .ok ((), b') ∧ Valid N b' ∧
      ∀ j < N, bit b' j = (bit b j || (decide (i + d ≤ j) && bit self (j - d))) := by
  intro m
  induction m with
  | zero =>
    intro i b hb hm
    rw [shlLoop]
    refine ⟨b, by simp [show ¬ i + d < N by omega], hb, fun j hj => ?_⟩
    simp [show ¬ i + d ≤ j by omega]
  | succ m ih =>
    intro i b hb hm
    have hlt : i + d < N := by omega
    rw [shlLoop]
    simp only [hlt, if_true, Prog.ite_app, Prog.bind_app, onOther_test N i self b hs, Res.bind_ok,
      show i < N by omega, decide_true, Bool.true_and]
    cases hbit : bit self i
    · obtain ⟨b', h1, h2, h3⟩ := ih (i + 1) b hb (by omega)
      refine ⟨b', by simpa [Nat.add_right_comm] using h1, h2, fun j hj => ?_⟩
      rw [h3 j hj]
      by_cases hj : j = i + d
      · subst hj
        simp [hbit, show ¬ (i + 1 + d ≤ i + d) by omega]
      · have : (i + 1 + d ≤ j) ↔ (i + d ≤ j) := by omega
        simp [this]
    · obtain ⟨b1, g1, g2, g3⟩ := set_sets_one_bit N (i + d) b hb hlt
      obtain ⟨b', h1, h2, h3⟩ := ih (i + 1) b1 g2 (by omega)
      refine ⟨b', by simpa [g1, Nat.add_right_comm] using h1, h2, fun j hj => ?_⟩
      rw [h3 j hj, g3 j]
      by_cases hj : j = i + d
      · subst hj
        simp [hbit]
      · have : (i + 1 + d ≤ j) ↔ (i + d ≤ j) := by omega
        simp [this, hj]

/-- `self << k`; `junk` is the storage of the fresh object before its constructor ran. -/
theorem shl_shifts (N k : Nat) (self junk : Bits) (hs : Valid N self) (hj : Valid N junk) :
    ∃ b', shl N self k junk = .ok ((), b') ∧ Valid N b' ∧
      ∀ i < N, bit b' i = (decide (k ≤ i) && bit self (i - k)) := by
  unfold shl
  obtain ⟨b0, g1, g2, g3⟩ := reset_all_pointwise N junk hj
  by_cases h0 : N = 0
  · exact ⟨b0, by rw [Prog.bind_app, g1]; simp [h0], g2, by omega⟩
  obtain ⟨b', h1, h2, h3⟩ := shlLoop_spec N self hs k _ 0 b0 g2 rfl
  refine ⟨b', by simpa [g1, h0] using h1, h2, fun i hi => ?_⟩
  rw [h3 i hi, g3]; simp

theorem shrLoop_spec (N : Nat) (self : Bits) (hs : Valid N self) (d : Nat) :
    ∀ (m i : Nat) (b : Bits), Valid N b → m = N - (i + d) →
    ∃ b', shrLoop N self i (i + d) b = .ok ((), b') ∧ Valid N b' ∧
      ∀ j < N, bit b' j = (bit b j || (decide (i ≤ j) && decide (j + d < N) && bit self (j + d))) := by
  intro m
  induction m with
  | zero =>
    intro i b hb hm
    rw [shrLoop]
    refine ⟨b, by simp [show ¬ i + d < N by omega], hb, fun j hj => ?_⟩
    by_cases h : i ≤ j
    · simp [show ¬ j + d < N by omega]
    · simp [h]
  | succ m ih =>
    intro i b hb hm
    have hlt : i + d < N := by omega
    rw [shrLoop]
    simp only [hlt, if_true, Prog.ite_app, Prog.bind_app, onOther_test N (i+d) self b hs, Res.bind_ok,
      decide_true, Bool.true_and]
    cases hbit : bit self (i + d)
    · obtain ⟨b', h1, h2, h3⟩ := ih (i + 1) b hb (by omega)
      refine ⟨b', by simpa [Nat.add_right_comm] using h1, h2, fun j hj => ?_⟩
      rw [h3 j hj]
      by_cases hj : j = i
      · subst hj
        simp [hbit]
      · have : (i + 1 ≤ j) ↔ (i ≤ j) := by omega
        simp only [this]
    · obtain ⟨b1, g1, g2, g3⟩ := set_sets_one_bit N i b hb (by omega)
      obtain ⟨b', h1, h2, h3⟩ := ih (i + 1) b1 g2 (by omega)
      refine ⟨b', by simpa [g1, Nat.add_right_comm] using h1, h2, fun j hj => ?_⟩
      rw [h3 j hj, g3 j]
      by_cases hj : j = i
      · subst hj
        simp [hbit, hlt]
      · have : (i + 1 ≤ j) ↔ (i ≤ j) := by omega
        simp only [this, hj, if_false]

/-- `self >> k`. -/
theorem shr_shifts (N k : Nat) (self junk : Bits) (hs : Valid N self) (hj : Valid N junk) :
    ∃ b', shr N self k junk = .ok ((), b') ∧ Valid N b' ∧
      ∀ i < N, bit b' i = (decide (i + k < N) && bit self (i + k)) := by
  unfold shr
  obtain ⟨b0, g1, g2, g3⟩ := reset_all_pointwise N junk hj
  by_cases h0 : N = 0
  · exact ⟨b0, by rw [Prog.bind_app, g1]; simp [h0], g2, by omega⟩
  obtain ⟨b', h1, h2, h3⟩ := shrLoop_spec N self hs k _ 0 b0 g2 rfl
  refine ⟨b', by simpa [g1, h0] using h1, h2, fun i hi => ?_⟩
  rw [h3 i hi, g3]; simp

/-- `b <<= k`. -/
theorem shl_assign_shifts (N k : Nat) (b junk : Bits) (hb : Valid N b) (hj : Valid N junk) :
    ∃ b', shlAssign N junk k b = .ok ((), b') ∧ Valid N b' ∧
      ∀ i < N, bit b' i = (decide (k ≤ i) && bit b (i - k)) := by
  obtain ⟨b', h1, h2, h3⟩ := shl_shifts N k b junk hb hj
  exact ⟨b', by simp [shlAssign, h1, assign_copies N b b' hb h2], h2, h3⟩

/-- `b >>= k`. -/
theorem shr_assign_shifts (N k : Nat) (b junk : Bits) (hb : Valid N b) (hj : Valid N junk) :
    ∃ b', shrAssign N junk k b = .ok ((), b') ∧ Valid N b' ∧
      ∀ i < N, bit b' i = (decide (i + k < N) && bit b (i + k)) := by
  obtain ⟨b', h1, h2, h3⟩ := shr_shifts N k b junk hb hj
  exact ⟨b', by simp [shrAssign, h1, assign_copies N b b' hb h2], h2, h3⟩

example : ∃ b', shlAssign 70 [9#64, 9#64] 64 sample = .ok ((), b') ∧ bit b' 64 = true ∧ bit b' 0 = false := by
  obtain ⟨b', h, _, h2⟩ := shl_assign_shifts 70 64 sample [9#64, 9#64] rfl rfl
  exact ⟨b', h, by rw [h2 _ (by decide)]; decide, by rw [h2 _ (by decide)]; decide⟩

end Verif.Bitset
