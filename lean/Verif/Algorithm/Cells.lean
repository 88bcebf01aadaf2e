import Verif.Algorithm.Iter
/-!
# Flat memory of cells and pointer iterators

`Mem T` is the memory a pointer iterator (`T*`, `ttl::vector<T>::iterator`, `ttl::array` iterators)
walks over: a cell either exists and holds a value or does not exist. Access to a cell that does not
exist is undefined behaviour.
-/
namespace Verif

/-- Memory cells; a position is an index. -/
def Mem (T : Type) : Type := Nat → Option T

namespace Mem
variable {T : Type}

/-- `*p` as an rvalue. -/
def load (p : Nat) : Prog (Mem T) T := fun m =>
  match m p with
  | some x => .ok (x, m)
  | none => .ub .access

/-- Memory after writing `v` to cell `p`. -/
def set (m : Mem T) (p : Nat) (v : T) : Mem T := fun a => if a = p then some v else m a

/-- `*p = v`. -/
def store (p : Nat) (v : T) : Prog (Mem T) Unit := fun m =>
  match m p with
  | some _ => .ok ((), m.set p v)
  | none => .ub .access

/-- Specification: the cells `p, p+1, …` hold the values `xs`. -/
def Holds (m : Mem T) (p : Nat) (xs : List T) : Prop :=
  ∀ i (h : i < xs.length), m (p + i) = some xs[i]

/-- Specification: `n` cells starting at `p` exist. -/
def Alloc (m : Mem T) (p n : Nat) : Prop := ∀ i, i < n → ∃ v, m (p + i) = some v

/-- Specification: memory `m` with the cells `p, p+1, …` replaced by `ys` and nothing else changed. -/
def overwrite (m : Mem T) (p : Nat) (ys : List T) : Mem T := fun a =>
  if h : p ≤ a ∧ a - p < ys.length then some (ys[a - p]'h.2) else m a

/-- A memory that consists of exactly the list `xs` at cells `0 … xs.length-1`. -/
def ofList (xs : List T) : Mem T := fun a => xs[a]?

/-- Pointer iterators: `*p` loads, `++p` adds one. -/
def ptr : Iter (Mem T) Nat T where
  deref := load
  next p := pure (p + 1)

theorem load_eq {m : Mem T} {p : Nat} {v : T} (h : m p = some v) : load p m = .ok (v, m) := by
  simp [load, h]

theorem store_eq {m : Mem T} {p : Nat} {w : T} (v : T) (h : m p = some w) :
    store p v m = .ok ((), m.set p v) := by
  simp [store, h]

theorem Holds.head {m : Mem T} {p : Nat} {x : T} {xs : List T} (h : m.Holds p (x :: xs)) :
    m p = some x := h 0 (by simp)

theorem Holds.tail {m : Mem T} {p : Nat} {x : T} {xs : List T} (h : m.Holds p (x :: xs)) :
    m.Holds (p + 1) xs := by
  intro i hi
  have := h (i + 1) (by simpa using hi)
  simpa [Nat.add_assoc, Nat.add_comm 1 i] using this

theorem holds_nil (m : Mem T) (p : Nat) : m.Holds p [] := by intro i hi; simp at hi

theorem holds_cons {m : Mem T} {p : Nat} {x : T} {xs : List T} (h : m p = some x)
    (ht : m.Holds (p + 1) xs) : m.Holds p (x :: xs) := by
  intro i hi
  cases i with
  | zero => simpa using h
  | succ i =>
    have := ht i (by simpa using hi)
    simpa [Nat.add_assoc, Nat.add_comm 1 i] using this

theorem Holds.range {m : Mem T} {p : Nat} {xs : List T} (h : m.Holds p xs) :
    Iter.Range ptr m p xs (p + xs.length) := by
  induction xs generalizing p with
  | nil => exact .nil _
  | cons x xs ih =>
    refine .cons (mid := p + 1) (by simp) ?_ rfl ?_
    · exact load_eq h.head
    · have := ih h.tail
      simpa [Nat.add_assoc, Nat.add_comm 1] using this

theorem holds_ofList (xs : List T) : (ofList xs).Holds 0 xs := by
  intro i hi; simp [ofList, hi]

theorem ptr_reach {m : Mem T} {p n q : Nat} (h : Iter.Reach ptr m p n q) : q = p + n := by
  induction h with
  | zero => rfl
  | succ hn _ ih =>
    simp [ptr] at hn
    omega

theorem ptr_reach_iff {m : Mem T} {p n q : Nat} : Iter.Reach ptr m p n q ↔ q = p + n := by
  constructor
  · exact ptr_reach
  · intro h; subst h
    induction n generalizing p with
    | zero => exact .zero _
    | succ n ih =>
      refine .succ (p' := p + 1) rfl ?_
      have := ih (p := p + 1)
      simpa [Nat.add_assoc, Nat.add_comm 1] using this

end Mem
end Verif
