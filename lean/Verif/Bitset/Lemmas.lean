import Verif.Bitset.Model
/-! # Words, slots and loops of the bitset model: auxiliary lemmas -/
set_option linter.unusedSimpArgs false
namespace Verif.Bitset
open Verif

/-- Specification: bit `i` of the array, independent of the code's masks. -/
def bit (b : Bits) (i : Nat) : Bool := (b.getD (i / 64) 0#64).getLsbD (i % 64)

/-- A storage array of the right size for a `bitset<N>`; its contents are arbitrary. -/
def Valid (N : Nat) (b : Bits) : Prop := b.length = nslots N

theorem nslots_pos {N : Nat} (h : 0 < N) : 0 < nslots N := by unfold nslots; omega
theorem slot_lt {N i : Nat} (h : i < N) : i / 64 < nslots N := by unfold nslots; omega
theorem bitsSlot_eq {N i : Nat} (h : i < N) : bitsSlot N i = i / 64 := by
  unfold bitsSlot; rw [if_neg (by omega)]

theorem getSlot_eq {b : Bits} {i : Nat} (h : i < b.length) :
    getSlot i b = .ok (b.getD i 0#64, b) := by
  simp [getSlot, h, List.getD_eq_getElem?_getD]
theorem otherSlot_eq {o b : Bits} {i : Nat} (h : i < o.length) :
    otherSlot o i b = .ok (o.getD i 0#64, b) := by
  simp [otherSlot, h, List.getD_eq_getElem?_getD]
theorem setSlot_eq {b : Bits} {i : Nat} (w : Word) (h : i < b.length) :
    setSlot i w b = .ok ((), b.set i w) := by
  simp [setSlot, h]
theorem setSlot_oob {b : Bits} {i : Nat} (w : Word) (h : b.length ≤ i) :
    setSlot i w b = .ub .access := by
  simp [setSlot, Nat.not_lt.mpr h]
theorem getSlot_oob {b : Bits} {i : Nat} (h : b.length ≤ i) : getSlot i b = .ub .access := by
  simp [getSlot, h]

theorem getD_set (b : Bits) (i : Nat) (w : Word) (h : i < b.length) (k : Nat) :
    (b.set i w).getD k 0#64 = if k = i then w else b.getD k 0#64 := by
  simp only [List.getD_eq_getElem?_getD, List.getElem?_set]
  by_cases hk : k = i
  · subst hk; simp [h]
  · simp [hk, Ne.symm hk]

theorem pos_eq {i j : Nat} : i = j ↔ i / 64 = j / 64 ∧ i % 64 = j % 64 := by omega

theorem getLsbD_mask (i j : Nat) (hj : j < 64) :
    (1#64 <<< i).getLsbD j = decide (j = i) := by
  simp only [BitVec.getLsbD_shiftLeft, BitVec.getLsbD_one]
  by_cases h : j = i
  · subst h; simp [hj]
  · by_cases h2 : j < i
    · simp [h, h2]
    · have : j - i ≠ 0 := by omega
      simp [h, this]

theorem word_ext {a b : Word} : a = b ↔ ∀ k < 64, a.getLsbD k = b.getLsbD k := by
  constructor
  · intro h; simp [h]
  · intro h; exact BitVec.eq_of_getLsbD_eq fun k hk => h k hk

theorem and_mask_ne_zero (w : Word) (i : Nat) (hi : i < 64) :
    decide (w &&& (1#64 <<< i) ≠ 0#64) = w.getLsbD i := by
  rcases hw : w.getLsbD i with _ | _
  · have : w &&& (1#64 <<< i) = 0#64 := by
      rw [word_ext]; intro k hk
      rw [BitVec.getLsbD_and, getLsbD_mask _ _ hk]
      by_cases h : k = i
      · subst h; simp [hw]
      · simp [h]
    simp [this]
  · have : w &&& (1#64 <<< i) ≠ 0#64 := by
      intro h
      have := congrArg (fun v => v.getLsbD i) h
      simp only [BitVec.getLsbD_and, getLsbD_mask _ _ hi, hw] at this
      simp at this
    simpa using this

/-- Invariant rule for `for (i = from; i < n; ++i)`. -/
theorem forLoop_inv {σ : Type} {body : Nat → Prog σ Unit} (P : Nat → σ → Prop) {n : Nat}
    (hbody : ∀ j s, j < n → P j s → ∃ s', body j s = .ok ((), s') ∧ P (j + 1) s') :
    ∀ {i : Nat} {s : σ}, i ≤ n → P i s → ∃ s', forLoop body i n s = .ok ((), s') ∧ P n s' := by
  intro i s hi hP
  obtain ⟨k, hk⟩ : ∃ k, k = n - i := ⟨_, rfl⟩
  induction k generalizing i s with
  | zero =>
    have : i = n := by omega
    subst this
    rw [forLoop]; simp [hP]
  | succ k ih =>
    rw [forLoop]
    have hlt : i < n := by omega
    obtain ⟨s', h1, h2⟩ := hbody i s hlt hP
    simp only [Prog.ite_app, hlt, if_true, Prog.bind_app, h1, Res.bind_ok]
    exact ih (by omega) h2 (by omega)

theorem forLoop_ge {σ : Type} {body : Nat → Prog σ Unit} {i n : Nat} (h : n ≤ i) (s : σ) :
    forLoop body i n s = .ok ((), s) := by
  rw [forLoop]; simp [Nat.not_lt.mpr h]

/-- A loop whose `i`-th pass stores `g i w` over the word `w` of slot `i`. -/
theorem forLoop_slots {body : Nat → Prog Bits Unit} {i n : Nat} {b : Bits} (g : Nat → Word → Word)
    (hi : i ≤ n) (hn : n ≤ b.length)
    (hbody : ∀ j c, j < n → c.length = b.length →
      body j c = .ok ((), c.set j (g j (c.getD j 0#64)))) :
    ∃ b', forLoop body i n b = .ok ((), b') ∧ b'.length = b.length ∧
      ∀ k, b'.getD k 0#64 = if i ≤ k ∧ k < n then g k (b.getD k 0#64) else b.getD k 0#64 := by
  obtain ⟨b', h1, _, h2, h3⟩ := forLoop_inv (body := body) (n := n)
    (fun j c => i ≤ j ∧ c.length = b.length ∧
      ∀ k, c.getD k 0#64 = if i ≤ k ∧ k < j then g k (b.getD k 0#64) else b.getD k 0#64)
    (i := i) (s := b) (by
      rintro j c hj ⟨hij, hl, hc⟩
      refine ⟨_, hbody j c hj hl, by omega, by simp [hl], ?_⟩
      intro k
      rw [getD_set _ _ _ (by omega)]
      by_cases hk : k = j
      · subst hk
        rw [if_pos rfl, hc k, if_neg (by omega), if_pos (by omega)]
      · rw [if_neg hk, hc k]
        have : (i ≤ k ∧ k < j) ↔ (i ≤ k ∧ k < j + 1) := by omega
        simp only [this])
    hi ⟨Nat.le_refl _, rfl, by intro k; rw [if_neg (by omega)]⟩
  exact ⟨b', h1, h2, h3⟩

end Verif.Bitset
