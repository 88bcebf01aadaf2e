import Verif.Algorithm.Mutating
import Verif.Algorithm.ReadOnly
/-!
# Model of `ttl::array` (ttl/array.hpp)

An `array<T, N>` is an aggregate of `N ? N : 1` consecutive cells (ttl/array.hpp:30) in the flat memory of `Verif.Algorithm.Cells`; it is named by the
address of `elements_[0]`. All its elements are alive as long as the array is. The model of `fill_n` here reads its `const value_type &` argument through the
reference in every iteration, so that it may refer to an element of the array.
-/
set_option linter.unusedVariables false
namespace Verif.Arr
open Verif
variable {T : Type}

/-- The number of cells of an array (ttl/array.hpp:30): `elements_[N ? N : 1]`. -/
def cells (N : Nat) : Nat := if N = 0 then 1 else N

/-- A `const value_type &` argument: an object outside the modelled memory, or a cell. -/
inductive Arg (T : Type) where
  | ext (v : T)
  | cell (p : Nat)

/-- Use of the reference. -/
def Arg.get : Arg T → Prog (Mem T) T
  | .ext v => pure v
  | .cell p => Mem.load p

/-- `begin()`, `cbegin()`, `data()` (ttl/array.hpp:42-43, 46, 62-63) -/
def begin_ (a : Nat) : Nat := a
/-- `end()`, `cend()` (ttl/array.hpp:44-45, 47) -/
def end_ (N a : Nat) : Nat := a + N
/-- `size()`, `max_size()` (ttl/array.hpp:49-50) -/
def size (N : Nat) : Nat := N
/-- `empty()` (ttl/array.hpp:51) -/
def empty (N : Nat) : Bool := size N == 0

/-- `operator[](i)`, `at(i)` (ttl/array.hpp:53-56): the element referred to. Forming `elements_[i]` outside the cells is undefined behaviour. -/
def at_ (N a i : Nat) : Prog (Mem T) Nat := do
  Prog.need (i < cells N) .access
  pure (a + i)

/-- `front()` (ttl/array.hpp:57-58) -/
def front (a : Nat) : Nat := begin_ a
/-- `back()` (ttl/array.hpp:59-60): `N ? *(end() - 1) : *end()` -/
def back (N a : Nat) : Nat := if N ≠ 0 then end_ N a - 1 else end_ N a

/-- `ttl::fill_n` with the value as a reference (ttl/algorithm.hpp:321-327). -/
def fillNRef (first : Nat) (count : Nat) (value : Arg T) : Prog (Mem T) Nat := do
  if count > 0 then do
    let x ← value.get
    Mem.store first x
    fillNRef (first + 1) (count - 1) value
  else pure first
partial_fixpoint

/-- `fill(v)` (ttl/array.hpp:32-35) -/
def fill (N a : Nat) (v : Arg T) : Prog (Mem T) Unit := do
  let _ ← fillNRef (begin_ a) (size N) v
  pure ()

/-- `swap(other)` (ttl/array.hpp:37-40) -/
def swap (N a other : Nat) : Prog (Mem T) Unit := do
  let _ ← Algo.swapRanges (begin_ a) (end_ N a) (begin_ other)
  pure ()

/-- `operator==` (ttl/array.hpp:66-70) with the `==` of the elements. -/
def eq (elemEq : T → T → Bool) (N a b : Nat) : Prog (Mem T) Bool :=
  Algo.equal4 Mem.ptr Mem.ptr elemEq (begin_ a) (end_ N a) (begin_ b) (end_ N b)

/-- `operator!=` (ttl/array.hpp:71-75) -/
def ne (elemEq : T → T → Bool) (N a b : Nat) : Prog (Mem T) Bool := do return !(← eq elemEq N a b)

/-- The implicit copy assignment of the aggregate (ttl/array.hpp:21-64 declares none): element by element, all cells. -/
def assignFrom (a other : Nat) : Nat → Nat → Prog (Mem T) Unit
  | _, 0 => pure ()
  | i, n + 1 => do
    let x ← Mem.load (other + i)
    Mem.store (a + i) x
    assignFrom a other (i + 1) n
/-- `a = other` -/
def assign (N a other : Nat) : Prog (Mem T) Unit := assignFrom a other 0 (cells N)

end Verif.Arr
