import Verif.Vec.Props2
/-!
# Model of `ttl::vector_map` (ttl/vector_map.hpp)

A `vector_map<KT, T>` is a `vector<pair<KT, T>>` with lookup by key; the model adds its functions to the model of `vector` (`Verif.Vec.Model`) with
elements `K × V`. `==` of the key type is equality. A `const KT &` argument is passed as a value (no function changes the map before its last use of
the key); a `const value_type &` argument is an object outside or inside a container (`Arg`). The constructors and the destructor are those of
`vector` (ttl/vector_map.hpp:45-46), `operator=` is private and not defined.
-/
set_option linter.unusedVariables false
set_option linter.unusedSimpArgs false
namespace Verif.VMap
open Verif Verif.Vec
variable {K V : Type}

/-- Memory with vector maps. -/
abbrev VMem (K V : Type) := Mem (K × V)

section
variable [DecidableEq K]

/-- `find_key(i, key)` (ttl/vector_map.hpp:86-92) -/
def findKey (c : Nat) (key : K) (i : Ptr) : Prog (VMem K V) Ptr := do
  let e ← end_ c
  if i ≠ e then
    let x ← read i
    if key = x.1 then pure i else findKey c key (i + 1)
  else pure i
partial_fixpoint

/-- `find(key)` (ttl/vector_map.hpp:66-67) -/
def find (c : Nat) (key : K) : Prog (VMem K V) Ptr := do findKey c key (← begin_ c)

/-- The loop of `count` (ttl/vector_map.hpp:72-73): `for (i = begin(); (i = find_key(i, key)) != end();) ++n;` -/
def countLoop (c : Nat) (key : K) (i : Ptr) (n : Nat) : Prog (VMem K V) Nat := do
  let i ← findKey c key i
  let e ← end_ c
  if i ≠ e then countLoop c key i (n + 1) else pure n
partial_fixpoint

/-- `count(key)` (ttl/vector_map.hpp:69-75). `size_type` is not bounded in the model. -/
def count (c : Nat) (key : K) : Prog (VMem K V) Nat := do countLoop c key (← begin_ c) 0

/-- `insert(value)` (ttl/vector_map.hpp:77-83) -/
def insert (c : Nat) (value : Arg (K × V)) : Prog (VMem K V) (Ptr × Bool) := do
  let i ← find c (← value.get).1
  if i ≠ (← end_ c) then return (i, false)
  else return (← Vec.insert c i value, true)

/-- `operator[](key)` (ttl/vector_map.hpp:55-61); the result is the element whose `second` is referred to. `dv` is `T()`. -/
def index (dv : V) (c : Nat) (key : K) : Prog (VMem K V) Ptr := do
  let i ← find c key
  if i ≠ (← end_ c) then return i
  else Vec.insert c i (.ext (key, dv))

/-- `at(key)` (ttl/vector_map.hpp:63-64); the result is the element whose `second` is referred to. -/
def atKey (c : Nat) (key : K) : Prog (VMem K V) Ptr := find c key
end

/-- `p->second = v` -/
def wrSecond (p : Ptr) (v : V) : Prog (VMem K V) Unit := do
  let e ← read p
  write p (e.1, v)

end Verif.VMap
