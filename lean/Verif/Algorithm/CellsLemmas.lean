import Verif.Algorithm.Cells
/-! # Helper lemmas about cell memory -/
set_option linter.unusedSimpArgs false
namespace Verif.Mem
open Verif
variable {T : Type}

theorem set_same (m : Mem T) (p : Nat) (v : T) : (m.set p v) p = some v := by simp [set]
theorem set_other (m : Mem T) {p a : Nat} (v : T) (h : a ≠ p) : (m.set p v) a = m a := by
  simp [set, h]

@[simp] theorem overwrite_nil (m : Mem T) (p : Nat) : m.overwrite p [] = m := by
  funext a; simp [overwrite]

theorem overwrite_cons (m : Mem T) (p : Nat) (y : T) (ys : List T) :
    (m.set p y).overwrite (p + 1) ys = m.overwrite p (y :: ys) := by
  funext a
  by_cases h1 : p + 1 ≤ a
  · obtain ⟨k, rfl⟩ : ∃ k, a = p + 1 + k := ⟨a - (p + 1), by omega⟩
    have e1 : p + 1 + k - (p + 1) = k := by omega
    have e2 : p + 1 + k - p = k + 1 := by omega
    by_cases h2 : k < ys.length
    · simp [overwrite, e1, e2, h2]; omega
    · simp [overwrite, e1, e2, h2, set]; omega
  · by_cases h2 : a = p
    · subst h2; simp [overwrite, set]; omega
    · have : ¬ p ≤ a := by omega
      simp [overwrite, h1, this, set, h2]

theorem overwrite_concat (m : Mem T) (p : Nat) (ys : List T) (y : T) :
    (m.set (p + ys.length) y).overwrite p ys = m.overwrite p (ys ++ [y]) := by
  funext a
  by_cases h1 : p ≤ a
  · obtain ⟨k, rfl⟩ : ∃ k, a = p + k := ⟨a - p, by omega⟩
    have e1 : p + k - p = k := by omega
    by_cases h2 : k < ys.length
    · simp [overwrite, e1, h2, List.getElem_append_left]; omega
    · by_cases h3 : k = ys.length
      · subst h3; simp [overwrite, set]
      · have h4 : ¬ k < ys.length + 1 := by omega
        simp [overwrite, e1, h2, set, h3, h4]
  · simp [overwrite, h1, set]; omega

theorem overwrite_at {m : Mem T} {p : Nat} {ys : List T} (i : Nat) (h : i < ys.length) :
    (m.overwrite p ys) (p + i) = some ys[i] := by
  simp [overwrite, h]

theorem overwrite_out {m : Mem T} {p : Nat} {ys : List T} {a : Nat}
    (h : a < p ∨ p + ys.length ≤ a) : (m.overwrite p ys) a = m a := by
  unfold overwrite
  rw [dif_neg]
  omega

theorem overwrite_holds (m : Mem T) (p : Nat) (ys : List T) : (m.overwrite p ys).Holds p ys :=
  fun i h => overwrite_at i h

/-- A memory that already holds `ys` at `p` is unchanged by overwriting. -/
theorem overwrite_self {m : Mem T} {p : Nat} {ys : List T} (h : m.Holds p ys) :
    m.overwrite p ys = m := by
  funext a
  by_cases h1 : p ≤ a ∧ a - p < ys.length
  · have := h (a - p) h1.2
    rw [show p + (a - p) = a by omega] at this
    simp [overwrite, h1, this]
  · unfold overwrite; rw [dif_neg h1]

theorem Holds.set_out {m : Mem T} {p q : Nat} {xs : List T} (h : m.Holds p xs) (v : T)
    (hq : q < p ∨ p + xs.length ≤ q) : (m.set q v).Holds p xs := by
  intro i hi
  rw [set_other m v (by omega)]
  exact h i hi

theorem Alloc.tail {m : Mem T} {p n : Nat} (h : m.Alloc p (n + 1)) : m.Alloc (p + 1) n := by
  intro i hi
  have := h (i + 1) (by omega)
  rwa [show p + 1 + i = p + (i + 1) by omega]

theorem Alloc.head {m : Mem T} {p n : Nat} (h : m.Alloc p (n + 1)) : ∃ v, m p = some v := by
  simpa using h 0 (by omega)

theorem Alloc.set {m : Mem T} {p n q : Nat} (h : m.Alloc p n) (v : T) : (m.set q v).Alloc p n := by
  intro i hi
  by_cases e : p + i = q
  · exact ⟨v, by simp [Mem.set, e]⟩
  · rw [set_other m v e]; exact h i hi

theorem Alloc.mono {m : Mem T} {p n k : Nat} (h : m.Alloc p n) (hk : k ≤ n) : m.Alloc p k :=
  fun i hi => h i (by omega)

theorem Holds.alloc {m : Mem T} {p : Nat} {xs : List T} (h : m.Holds p xs) :
    m.Alloc p xs.length := fun i hi => ⟨_, h i hi⟩

theorem Holds.append_left {m : Mem T} {p : Nat} {xs ys : List T} (h : m.Holds p (xs ++ ys)) :
    m.Holds p xs := by
  intro i hi
  have := h i (by simp; omega)
  rwa [List.getElem_append_left hi] at this

theorem Holds.append_right {m : Mem T} {p : Nat} {xs ys : List T} (h : m.Holds p (xs ++ ys)) :
    m.Holds (p + xs.length) ys := by
  intro i hi
  have := h (xs.length + i) (by simp; omega)
  rw [List.getElem_append_right (by omega)] at this
  simpa [Nat.add_assoc] using this

theorem holds_append {m : Mem T} {p : Nat} {xs ys : List T} (h1 : m.Holds p xs)
    (h2 : m.Holds (p + xs.length) ys) : m.Holds p (xs ++ ys) := by
  intro i hi
  by_cases h : i < xs.length
  · rw [List.getElem_append_left h]; exact h1 i h
  · rw [List.getElem_append_right (by omega)]
    have := h2 (i - xs.length) (by simp at hi; omega)
    rwa [show p + xs.length + (i - xs.length) = p + i by omega] at this

theorem overwrite_append (m : Mem T) (p : Nat) (xs ys : List T) :
    (m.overwrite p xs).overwrite (p + xs.length) ys = m.overwrite p (xs ++ ys) := by
  induction xs generalizing m p with
  | nil => simp
  | cons x xs ih =>
    rw [← overwrite_cons, List.cons_append, ← overwrite_cons, ← ih]
    simp [Nat.add_assoc, Nat.add_comm 1]

/-- A later overwrite of the same length wins. -/
theorem overwrite_overwrite (m : Mem T) (p : Nat) (xs ys : List T) (h : xs.length = ys.length) :
    (m.overwrite p xs).overwrite p ys = m.overwrite p ys := by
  funext a
  by_cases h1 : p ≤ a ∧ a - p < ys.length
  · simp [overwrite, h1]
  · unfold overwrite; rw [dif_neg h1, dif_neg h1, dif_neg (by omega)]

theorem set_eq_overwrite {m : Mem T} {p i : Nat} {xs : List T} (h : m.Holds p xs)
    (hi : i < xs.length) (v : T) : m.set (p + i) v = m.overwrite p (xs.set i v) := by
  funext a
  by_cases h1 : p ≤ a ∧ a - p < xs.length
  · obtain ⟨k, rfl⟩ : ∃ k, a = p + k := ⟨a - p, by omega⟩
    have hk : k < xs.length := by omega
    rw [overwrite_at k (by simpa using hk), List.getElem_set]
    by_cases e : i = k
    · subst e; simp [set]
    · rw [set_other _ _ (by omega), h k hk]; simp [e]
  · rw [overwrite_out (by simp; omega), set_other _ _ (by omega)]

theorem set_eq_overwrite_mid {m : Mem T} {p : Nat} {as cs : List T} {b : T}
    (h : m.Holds p (as ++ b :: cs)) (v : T) :
    m.set (p + as.length) v = m.overwrite p (as ++ v :: cs) := by
  rw [set_eq_overwrite h (by simp)]; simp

theorem overwrite_set_comm (m : Mem T) {p q : Nat} {ys : List T} (v : T)
    (h : q < p ∨ p + ys.length ≤ q) :
    (m.set q v).overwrite p ys = (m.overwrite p ys).set q v := by
  funext a
  by_cases e : a = q
  · subst e; rw [overwrite_out h, set_same, set_same]
  · rw [set_other _ _ e]
    simp only [overwrite, set_other m v e]

theorem length_filter_add (p : T → Bool) (xs : List T) :
    (xs.filter p).length + (xs.filter fun x => !p x).length = xs.length := by
  induction xs with
  | nil => simp
  | cons x xs ih => by_cases h : p x <;> simp [List.filter_cons, h] <;> omega

end Verif.Mem
