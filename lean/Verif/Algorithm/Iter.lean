import Verif.Base
/-!
# Iterators and ranges

The read-only algorithms of `ttl/algorithm.hpp` are templates over iterator types. An iterator type
is modelled by what `*it` and `++it` do in a given memory; `it == jt` is equality of the model
iterators. `Range` is the C++ notion of a valid range `[first, last)` together with the sequence of
values it designates. `Reach` is "n increments lead from p to q".
-/
namespace Verif

/-- A forward-iterator type: `*it` and `++it` (the incremented iterator is returned). -/
structure Iter (σ ι T : Type) where
  deref : ι → Prog σ T
  next : ι → Prog σ ι

namespace Iter
variable {σ ι κ T U : Type}

/-- `[first, last)` is a valid range in memory `s` and designates the values `xs`: every position
before `last` can be dereferenced and incremented without changing memory. -/
inductive Range (I : Iter σ ι T) (s : σ) : ι → List T → ι → Prop
  | nil (last : ι) : Range I s last [] last
  | cons {first mid last : ι} {x : T} {xs : List T} :
      first ≠ last → I.deref first s = .ok (x, s) → I.next first s = .ok (mid, s) →
      Range I s mid xs last → Range I s first (x :: xs) last

/-- `n` increments of `p` give `q` in memory `s`. -/
inductive Reach (I : Iter σ ι T) (s : σ) : ι → Nat → ι → Prop
  | zero (p : ι) : Reach I s p 0 p
  | succ {p p' q : ι} {n : Nat} :
      I.next p s = .ok (p', s) → Reach I s p' n q → Reach I s p (n + 1) q

theorem Range.reach_end {I : Iter σ ι T} {s : σ} {f l : ι} {xs : List T}
    (h : Range I s f xs l) : Reach I s f xs.length l := by
  induction h with
  | nil => exact .zero _
  | cons _ _ hn _ ih => exact .succ hn ih

theorem Reach.unique {I : Iter σ ι T} {s : σ} {p q r : ι} {n : Nat}
    (h : Reach I s p n q) (h' : Reach I s p n r) : q = r := by
  induction h with
  | zero => cases h'; rfl
  | succ hn _ ih =>
    cases h' with
    | succ hn' h'' =>
      rw [hn] at hn'
      cases hn'
      exact ih h''

theorem Reach.snoc {I : Iter σ ι T} {s : σ} {p q r : ι} {n : Nat}
    (h : Reach I s p n q) (hn : I.next q s = .ok (r, s)) : Reach I s p (n + 1) r := by
  induction h with
  | zero => exact .succ hn (.zero _)
  | succ hn' _ ih => exact .succ hn' (ih hn)

theorem Reach.trans {I : Iter σ ι T} {s : σ} {p q r : ι} {n m : Nat}
    (h : Reach I s p n q) (h' : Reach I s q m r) : Reach I s p (n + m) r := by
  induction h with
  | zero => simpa using h'
  | succ hn' _ ih => rw [Nat.add_right_comm]; exact .succ hn' (ih h')

theorem Range.append {I : Iter σ ι T} {s : σ} {f l : ι} {xs ys : List T}
    (h : Range I s f (xs ++ ys) l) : ∃ m, Range I s m ys l ∧ Reach I s f xs.length m := by
  induction xs generalizing f with
  | nil => exact ⟨f, h, .zero _⟩
  | cons x xs ih =>
    cases h with
    | cons hne hd hn hr =>
      obtain ⟨m, hm, hre⟩ := ih hr
      exact ⟨m, hm, .succ hn hre⟩

/-- In a valid range, the end is reached only after all the increments. -/
theorem Range.ne_end {I : Iter σ ι T} {s : σ} {f l p : ι} {xs : List T} {n : Nat}
    (h : Range I s f xs l) (hn : n < xs.length) (hp : Reach I s f n p) : p ≠ l := by
  induction h generalizing n with
  | nil => simp at hn
  | cons hne hd hx hr ih =>
    cases hp with
    | zero => exact hne
    | succ hx' hp' =>
      rw [hx] at hx'; cases hx'
      exact ih (by simpa using hn) hp'

/-- Each prefix length is reached by exactly one position, and it splits the range. -/
theorem Range.split {I : Iter σ ι T} {s : σ} {f l : ι} {xs : List T} (n : Nat)
    (h : Range I s f xs l) (hn : n ≤ xs.length) :
    ∃ p, Reach I s f n p ∧ Range I s p (xs.drop n) l := by
  induction n generalizing f xs with
  | zero => exact ⟨f, .zero _, h⟩
  | succ n ih =>
    cases h with
    | nil => simp at hn
    | cons hne hd hx hr =>
      obtain ⟨p, h1, h2⟩ := ih hr (by simpa using hn)
      exact ⟨p, .succ hx h1, by simpa using h2⟩

theorem Range.length_unique {I : Iter σ ι T} {s : σ} {q l : ι} {a b : List T}
    (ha : Range I s q a l) (hb : Range I s q b l) : a.length = b.length := by
  induction ha generalizing b with
  | nil =>
    cases hb with
    | nil => rfl
    | cons hne => exact absurd rfl hne
  | cons hne hd hx hr ih =>
    cases hb with
    | nil => exact absurd rfl hne
    | cons hne' hd' hx' hr' =>
      rw [hx] at hx'; cases hx'
      simp [ih hr']

/-- Positions of a valid range are pairwise distinct. -/
theorem Range.reach_inj {I : Iter σ ι T} {s : σ} {f l p : ι} {xs : List T} {n m : Nat}
    (h : Range I s f xs l) (hn : n ≤ xs.length) (hm : m ≤ xs.length)
    (hp : Reach I s f n p) (hq : Reach I s f m p) : n = m := by
  -- from position `p`, `xs.length - n` steps and `xs.length - m` steps both lead to the end
  obtain ⟨p1, h1, r1⟩ := h.split n hn
  obtain ⟨p2, h2, r2⟩ := h.split m hm
  cases hp.unique h1; cases hq.unique h2
  have := r1.length_unique r2
  simp at this
  omega

end Iter
end Verif
