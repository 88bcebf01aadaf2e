import Verif.Exc.VecProps
import Verif.Map.VProps2
/-!
# `ttl::vector_map` when allocation, copies or comparisons throw

The throwing versions of the members of ttl/vector_map.hpp, on top of those of `vector` (`Verif.Exc.VecModel`). The points where an exception may
appear are: the key's `==`, `T()` and the copies of key and value in the pair that `operator[]` makes, the points of `vector::insert`, and the client's
assignment to a value. Each definition is the one of `Verif.Map.VModel` with these points put in. The copy of a pair is one point: at the copy of its
key and at that of its value memory is the same. The assignment of whole pairs, `m.begin()[i] = x` in the client, is taken to change nothing if it throws.
-/
set_option linter.unusedVariables false
namespace Verif.Exc.XVM
open Verif Verif.Vec Verif.VMap Verif.Exc
open Verif.VMap.VMProps (VCall VRet)
variable {K V : Type}

section
variable [DecidableEq K]

/-- `find_key(i, key)` (ttl/vector_map.hpp:86-92): `key == i->first` may throw -/
def findKey (c : Nat) (key : K) (i : Ptr) : Thr (VMem K V) Ptr := do
  let e ← Thr.call (end_ c)
  if i ≠ e then do
    let x ← Thr.call (read i)
    Thr.point
    if key = x.1 then pure i else findKey c key (i + 1)
  else pure i
partial_fixpoint

/-- `find(key)` (ttl/vector_map.hpp:66-67) and `at(key)` (ttl/vector_map.hpp:63-64) -/
def find (c : Nat) (key : K) : Thr (VMem K V) Ptr := do
  let b ← Thr.call (begin_ c)
  findKey c key b

/-- The loop of `count` (ttl/vector_map.hpp:72-73) -/
def countLoop (c : Nat) (key : K) (i : Ptr) (n : Nat) : Thr (VMem K V) Nat := do
  let i ← findKey c key i
  let e ← Thr.call (end_ c)
  if i ≠ e then countLoop c key i (n + 1) else pure n
partial_fixpoint

/-- `count(key)` (ttl/vector_map.hpp:69-75) -/
def count (c : Nat) (key : K) : Thr (VMem K V) Nat := do
  let b ← Thr.call (begin_ c)
  countLoop c key b 0

/-- `insert(value)` (ttl/vector_map.hpp:77-83); `vector::insert(pos, x)` is `insert_values(pos, 1, ...)` (ttl/vector.hpp:128-132) -/
def insert (c : Nat) (value : Arg (K × V)) : Thr (VMem K V) (Ptr × Bool) := do
  let x ← Thr.call value.get
  let i ← find c x.1
  let e ← Thr.call (end_ c)
  if i ≠ e then pure (i, false)
  else do
    let p ← XVec.insertValues c i 1 (.counter value)
    pure (p, true)

/-- `operator[](key)` (ttl/vector_map.hpp:55-61): the temporary `value_type(key, T())` takes four operations that may throw, `T()`, the copy of the key to
the parameter of `pair(T1, T2)` and the copies of both parameters to the members (ttl/utility.hpp:57); then the insertion -/
def index (dv : V) (c : Nat) (key : K) : Thr (VMem K V) Ptr := do
  let i ← find c key
  let e ← Thr.call (end_ c)
  if i ≠ e then pure i
  else do
    Thr.point
    Thr.point
    Thr.point
    Thr.point
    XVec.insertValues c i 1 (.counter (.ext (key, dv)))

/-- A call of the client. In `c[k] = v` and `c.at(k) = v` the assignment may throw. -/
def vexec (dk : K) (dv : V) : VCall K V → Thr (VMem K V) VRet
  | .base q => do let r ← XVec.exec (dk, dv) q; return .base r
  | .insert c a => do
    let a ← Thr.call a.expr
    let r ← insert c a
    return .ins r.1 r.2
  | .index c k => do let p ← index dv c k; return .ref p
  | .put c k v => do
    let p ← index dv c k
    Thr.point
    Thr.call (wrSecond p v)
    return .none
  | .setAt c k v => do
    let p ← find c k
    Thr.point
    Thr.call (wrSecond p v)
    return .none
  | .eraseKey c k => do
    let i ← find c k
    let p ← XVec.eraseRange c i (i + 1)
    return .base (.it p)
end
end Verif.Exc.XVM
