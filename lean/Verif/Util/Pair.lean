import Verif.Algorithm.MutatingProps
/-!
# Model and properties of `ttl::pair`, `ttl::distance`, `ttl::advance` (ttl/utility.hpp)

A `pair<T1, T2>` object is a pair of objects; the pairs of a client live in two memories of cells, one for the `first` and one for the `second` members, at the
address of the pair.
-/
set_option linter.unusedVariables false
namespace Verif.Util
open Verif
variable {T U T1 T2 U1 U2 : Type}

/-- Memory with `pair<T1, T2>` objects. -/
structure PMem (T1 T2 : Type) where
  first : Mem T1
  second : Mem T2

/-- An access to `first` members. -/
def onFirst (f : Prog (Mem T1) α) : Prog (PMem T1 T2) α := fun m => (f m.first).bind fun r => .ok (r.1, ⟨r.2, m.second⟩)
/-- An access to `second` members. -/
def onSecond (f : Prog (Mem T2) α) : Prog (PMem T1 T2) α := fun m => (f m.second).bind fun r => .ok (r.1, ⟨m.first, r.2⟩)

/-- `pair()` (ttl/utility.hpp:56); `d1`, `d2` are `T1()`, `T2()`. -/
def Pair.default (d1 : T1) (d2 : T2) : T1 × T2 := (d1, d2)
/-- `pair(_first, _second)` (ttl/utility.hpp:57) and `make_pair` (ttl/utility.hpp:92-96). -/
def Pair.mk (x : T1) (y : T2) : T1 × T2 := (x, y)

/-- Copying a pair (ttl/utility.hpp:58): the value of the new object. -/
def Pair.copy (p : Nat) : Prog (PMem T1 T2) (T1 × T2) := do
  let x ← onFirst (Mem.load p)
  let y ← onSecond (Mem.load p)
  return (x, y)

/-- Copying a pair of other types (ttl/utility.hpp:59-60); `f`, `g` are the conversions. -/
def Pair.convert (f : U1 → T1) (g : U2 → T2) (q : Nat) : Prog (PMem U1 U2) (T1 × T2) := do
  let x ← onFirst (Mem.load q)
  let y ← onSecond (Mem.load q)
  return (f x, g y)

/-- `operator=(other)` (ttl/utility.hpp:61-66) -/
def Pair.assign (p other : Nat) : Prog (PMem T1 T2) Unit := do
  onFirst (do Mem.store p (← Mem.load other))
  onSecond (do Mem.store p (← Mem.load other))

/-- `operator=(const pair<U1, U2> &)` (ttl/utility.hpp:67-73); the other pair is a value, since it has another type. -/
def Pair.assignConv (f : U1 → T1) (g : U2 → T2) (p : Nat) (other : U1 × U2) : Prog (PMem T1 T2) Unit := do
  onFirst (Mem.store p (f other.1))
  onSecond (Mem.store p (g other.2))

/-- `swap(other)` (ttl/utility.hpp:75-79) -/
def Pair.swap (p other : Nat) : Prog (PMem T1 T2) Unit := do
  onFirst (Algo.swap p other)
  onSecond (Algo.swap p other)

/-- `operator==` (ttl/utility.hpp:81-85) -/
def Pair.eq (e1 : T1 → T1 → Bool) (e2 : T2 → T2 → Bool) (p q : Nat) : Prog (PMem T1 T2) Bool := do
  let x ← onFirst (Mem.load p)
  let y ← onFirst (Mem.load q)
  if e1 x y then
    let x ← onSecond (Mem.load p)
    let y ← onSecond (Mem.load q)
    return e2 x y
  else return false
/-- `operator!=` (ttl/utility.hpp:86-90) -/
def Pair.ne (e1 : T1 → T1 → Bool) (e2 : T2 → T2 → Bool) (p q : Nat) : Prog (PMem T1 T2) Bool := do return !(← Pair.eq e1 e2 p q)

/-- `distance(first, last)` (ttl/utility.hpp:27-31) of pointers: the `ptrdiff_t` difference converted to `int`. -/
def distance (first last : Int) : Int := Algo.toInt32 (last - first)
/-- `advance(i, d)` (ttl/utility.hpp:32-36) -/
def advance (i d : Int) : Int := i + d

namespace UtilProps
variable {m : PMem T1 T2} {p q : Nat} {x : T1} {y : T2} {x' : T1} {y' : T2}

/-- The pair at `p` has the value `v`: what copying it gives. -/
def Shows (m : PMem T1 T2) (p : Nat) (v : T1 × T2) : Prop := Pair.copy p m = .ok (v, m)

theorem shows_iff : Shows m p (x, y) ↔ m.first p = some x ∧ m.second p = some y := by
  obtain ⟨a, b⟩ := m
  simp only [Shows, Pair.copy, Prog.bind_app, onFirst, onSecond, Mem.load]
  cases g : a p with
  | none => simp [Res.bind]
  | some u =>
    simp only [Res.bind_ok]
    cases g' : b p with
    | none => simp [Res.bind]
    | some w => simp

/-- Every other pair keeps its value. -/
def Kept (m m' : PMem T1 T2) (L : List Nat) : Prop := ∀ r, r ∉ L → ∀ v, Shows m r v → Shows m' r v

theorem kept_of {m m' : PMem T1 T2} {L : List Nat} (h : ∀ r, r ∉ L → m'.first r = m.first r ∧ m'.second r = m.second r) : Kept m m' L := by
  rintro r hr ⟨x, y⟩ s
  rw [shows_iff] at s ⊢
  rw [(h r hr).1, (h r hr).2]; exact s

/-- **C107.** `p.swap(q)` exchanges the two pairs (also a pair with itself) and changes no other. -/
theorem pair_swap (hp : Shows m p (x, y)) (hq : Shows m q (x', y')) :
    ∃ m', Pair.swap p q m = .ok ((), m') ∧ Shows m' p (x', y') ∧ Shows m' q (x, y) ∧ Kept m m' [p, q] := by
  rw [shows_iff] at hp hq
  refine ⟨⟨(m.first.set p x').set q x, (m.second.set p y').set q y⟩, ?_, ?_, ?_, kept_of fun r hr => ?_⟩
  · simp only [Pair.swap, Prog.bind_app, onFirst, onSecond, Algo.swap_spec hp.1 hq.1, Res.bind_ok, Algo.swap_spec hp.2 hq.2]
  · rw [shows_iff]
    simp only [Mem.set]
    by_cases e : p = q
    · subst e
      have a := hp.1.symm.trans hq.1
      have b := hp.2.symm.trans hq.2
      simp only [Option.some.injEq] at a b; simp [a, b]
    · simp [e]
  · rw [shows_iff]; simp [Mem.set]
  · simp only [List.mem_cons, List.not_mem_nil, or_false, not_or] at hr
    simp [Mem.set, hr.1, hr.2]

/-- **C107.** `p = q` gives `p` the value of `q` and changes no other pair; `p = p` changes nothing. -/
theorem pair_assign (hp : Shows m p (x, y)) (hq : Shows m q (x', y')) :
    ∃ m', Pair.assign p q m = .ok ((), m') ∧ Shows m' p (x', y') ∧ Kept m m' [p] ∧ (p = q → m' = m) := by
  rw [shows_iff] at hp hq
  refine ⟨⟨m.first.set p x', m.second.set p y'⟩, ?_, ?_, kept_of fun r hr => ?_, ?_⟩
  · simp only [Pair.assign, Prog.bind_app, onFirst, onSecond, Mem.load_eq hq.1, Mem.load_eq hq.2, Res.bind_ok, Mem.store_eq x' hp.1, Mem.store_eq y' hp.2]
  · rw [shows_iff]; simp [Mem.set]
  · simp only [List.mem_cons, List.not_mem_nil, or_false] at hr
    simp [Mem.set, hr]
  · rintro rfl
    obtain ⟨a, b⟩ := m
    congr 1 <;> funext r <;> simp only [Mem.set] <;> split
    · rename_i e; rw [e]; exact hq.1.symm
    · rfl
    · rename_i e; rw [e]; exact hq.2.symm
    · rfl

/-- **C107.** Assignment from a pair of other types converts both members. -/
theorem pair_assign_converts (f : U1 → T1) (g : U2 → T2) (hp : Shows m p (x, y)) (v : U1 × U2) :
    ∃ m', Pair.assignConv f g p v m = .ok ((), m') ∧ Shows m' p (f v.1, g v.2) ∧ Kept m m' [p] := by
  rw [shows_iff] at hp
  refine ⟨⟨m.first.set p (f v.1), m.second.set p (g v.2)⟩, ?_, ?_, kept_of fun r hr => ?_⟩
  · simp only [Pair.assignConv, Prog.bind_app, onFirst, onSecond, Res.bind_ok, Mem.store_eq _ hp.1, Mem.store_eq _ hp.2]
  · rw [shows_iff]; simp [Mem.set]
  · simp only [List.mem_cons, List.not_mem_nil, or_false] at hr
    simp [Mem.set, hr]

/-- **C107.** `p == q` holds iff both members are equal; `!=` is its negation; nothing changes. -/
theorem pair_equal (e1 : T1 → T1 → Bool) (e2 : T2 → T2 → Bool) (hp : Shows m p (x, y)) (hq : Shows m q (x', y')) :
    Pair.eq e1 e2 p q m = .ok (e1 x x' && e2 y y', m) ∧ Pair.ne e1 e2 p q m = .ok (!(e1 x x' && e2 y y'), m) := by
  rw [shows_iff] at hp hq
  have : Pair.eq e1 e2 p q m = .ok (e1 x x' && e2 y y', m) := by
    simp only [Pair.eq, Prog.bind_app, onFirst, onSecond, Mem.load_eq hp.1, Mem.load_eq hq.1, Mem.load_eq hp.2, Mem.load_eq hq.2, Res.bind_ok, Prog.ite_app]
    cases e1 x x' <;> rfl
  exact ⟨this, by simp only [Pair.ne, Prog.bind_app, this, Res.bind_ok, Prog.pure_app]⟩

/-- **C108.** `distance` is the signed number of steps from `first` to `last` if it fits an `int`, and then `advance` leads from `first` to `last`.
Partial: for longer distances see `distance_wraps`. -/
theorem distance_exact_partial (first last : Int) (h1 : -2147483648 ≤ last - first) (h2 : last - first < 2147483648) :
    distance first last = last - first ∧ advance first (distance first last) = last := by
  have : distance first last = last - first := by
    simp only [distance, Algo.toInt32]
    exact Int.bmod_eq_of_le (by omega) (by omega)
  exact ⟨this, by rw [this, advance]; omega⟩

/-- **C108 is false** for every longer range: the result is off by a multiple of 2^32, and is never the number of elements. -/
theorem distance_wraps (first last : Int) (h : 2147483648 ≤ last - first) : distance first last ≠ last - first ∧ (4294967296 : Int) ∣ (last - first) - distance first last ∧ distance first last < 2147483648 := by
  have lt : distance first last < 2147483648 := by
    have := Int.bmod_lt (x := last - first) (m := 4294967296) (by omega)
    simp only [distance, Algo.toInt32]; omega
  refine ⟨by omega, ?_, lt⟩
  simp only [distance, Algo.toInt32]
  exact ⟨(last - first).bdiv 4294967296, by have := Int.bmod_add_bdiv (last - first) 4294967296; omega⟩

example : Pair.swap 0 1 (⟨Mem.ofList [1, 2], Mem.ofList ["a", "b"]⟩ : PMem Nat String) = .ok ((), ⟨((Mem.ofList [1, 2]).set 0 2).set 1 1, ((Mem.ofList ["a", "b"]).set 0 "b").set 1 "a"⟩) := rfl
example : ∃ m', Pair.swap 0 1 (⟨Mem.ofList [1, 2], Mem.ofList ["a", "b"]⟩ : PMem Nat String) = .ok ((), m') ∧ Shows m' 0 (2, "b") ∧ Shows m' 1 (1, "a") := by
  obtain ⟨m', e, a, b, _⟩ := pair_swap (m := ⟨Mem.ofList [1, 2], Mem.ofList ["a", "b"]⟩) (p := 0) (q := 1) (x := 1) (y := "a") (x' := 2) (y' := "b") rfl rfl
  exact ⟨m', e, a, b⟩
example : distance 10 17 = 7 ∧ distance 17 10 = -7 := by decide
example : distance 0 4294967296 ≠ 4294967296 - 0 := (distance_wraps 0 4294967296 (by decide)).1

end UtilProps
end Verif.Util
