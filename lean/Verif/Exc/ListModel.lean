import Verif.Exc.Base
import Verif.Seq.RunList
/-!
# `ttl::list` when allocation, element copies, comparisons or predicates throw

The throwing versions of the members of ttl/list.hpp. The points where an exception may appear are: `new node` (allocation, or the constructor
of the element), the element's `==` and `<`, and the predicates and comparators passed by the client. Advancing and comparing iterators, linking
and unlinking, and destroying elements throw nothing. Each definition is the one of `Verif.Seq.ListModel` with these points put in.
-/
set_option linter.unusedVariables false
namespace Verif.Exc.XList
open Verif Verif.Seq Verif.Seq.DList Verif.Exc
variable {T : Type}

/-- `new node(v)`, `new node` (ttl/list.hpp:121-126): if the allocation fails nothing happened; if the constructor of the element throws, the
storage is released again. -/
def newNode (v : T) : Thr (Heap T) Addr := do Thr.point; Thr.call (Seq.newNode v)

/-- ttl/list.hpp:252-255 `push_front(value)` -/
def pushFront (c : Addr) (v : T) : Thr (Heap T) Unit := do
  let p ← Thr.call (getNext c)
  let n ← newNode v
  let _ ← Thr.call (insertBefore p n)

/-- ttl/list.hpp:257-260 `push_back(value)` -/
def pushBack (c : Addr) (v : T) : Thr (Heap T) Unit := do
  let n ← newNode v
  let _ ← Thr.call (insertBefore c n)

/-- ttl/list.hpp:294-298 `insert(pos, value)` -/
def insert (pos : Addr) (v : T) : Thr (Heap T) Addr := do
  let n ← newNode v
  Thr.call (insertBefore pos n)

/-- ttl/list.hpp:345-351 `insert(pos, n, value)` -/
def insertN (pos : Addr) (n : Nat) (v : T) : Thr (Heap T) Unit :=
  match n with
  | 0 => pure ()
  | n + 1 => do
      let a ← newNode v
      let _ ← Thr.call (insertBefore pos a)
      insertN pos n v

/-- ttl/list.hpp:352-359 `insert(pos, first, last)` for an input range outside this memory -/
def insertVals (pos : Addr) (vs : List T) : Thr (Heap T) Unit :=
  match vs with
  | [] => pure ()
  | v :: vs => do
      let a ← newNode v
      let _ ← Thr.call (insertBefore pos a)
      insertVals pos vs

/-- ttl/list.hpp:352-359 `insert(pos, first, last)` where `first`, `last` are `list` iterators -/
def insertNodes (pos first last : Addr) : Thr (Heap T) Unit := do
  if first ≠ last then do
    let v ← Thr.call (getVal first)
    let a ← newNode v
    let _ ← Thr.call (insertBefore pos a)
    let next ← Thr.call (getNext first)
    insertNodes pos next last
  else pure ()
partial_fixpoint

/-- ttl/list.hpp:197-201 `list(n, value)`: if an exception leaves a constructor, the destructor of the object does not run and the storage of the
object ends (`list_node` has no destructor) -/
def ctorN (n : Nat) (v : T) : Thr (Heap T) Addr := do
  let c ← Thr.call create
  Thr.unwinding (insertN c n v) (freeRaw c)
  pure c

/-- ttl/list.hpp:202-207 `list(first, last)` -/
def ctorVals (vs : List T) : Thr (Heap T) Addr := do
  let c ← Thr.call create
  Thr.unwinding (insertVals c vs) (freeRaw c)
  pure c

/-- ttl/list.hpp:192-196 copy constructor -/
def copyCtor (other : Addr) : Thr (Heap T) Addr := do
  let c ← Thr.call create
  Thr.unwinding (do
    let pos ← Thr.call (getNext c)
    let first ← Thr.call (getNext other)
    insertNodes pos first other) (freeRaw c)
  pure c

/-- ttl/list.hpp:210-215 `operator=` -/
def opAssign (c other : Addr) : Thr (Heap T) Unit := do
  Thr.call (clear c)
  let pos ← Thr.call (getNext c)
  let first ← Thr.call (getNext other)
  insertNodes pos first other

/-- ttl/list.hpp:239-244 `assign(first, last)` -/
def assignVals (c : Addr) (vs : List T) : Thr (Heap T) Unit := do Thr.call (clear c); insertVals c vs
/-- ttl/list.hpp:246-250 `assign(n, value)` -/
def assignN (c : Addr) (n : Nat) (v : T) : Thr (Heap T) Unit := do Thr.call (clear c); insertN c n v

/-- ttl/list.hpp:365-377 (and 384-396), the loops of `resize` -/
def resizeLoop (c p : Addr) (siz newsize : Nat) (v : T) : Thr (Heap T) Unit := do
  if p ≠ c then
    if siz + 1 = newsize then Thr.call (resizeDrop c p)
    else do
      let next ← Thr.call (getNext p)
      resizeLoop c next (siz + 1) newsize v
  else insertN c (newsize - siz) v
partial_fixpoint

/-- ttl/list.hpp:360-397 `resize` -/
def resize (c : Addr) (newsize : Nat) (v : T) : Thr (Heap T) Unit := do
  let p ← Thr.call (getNext c)
  resizeLoop c p 0 newsize v

/-- ttl/list.hpp:435-440 and 424-429, the loop of `remove_if` / `remove`; `test` (the predicate, or `==`) may throw -/
def removeLoop (c : Addr) (test : T → Bool) (p n : Addr) : Thr (Heap T) Unit := do
  if p ≠ c then do
    let v ← Thr.call (getVal p)
    Thr.point
    if test v then do
      Thr.call (unlink p)
      Thr.call (delete p)
      let n' ← Thr.call (getNext n)
      removeLoop c test n n'
    else do
      let n' ← Thr.call (getNext n)
      removeLoop c test n n'
  else pure ()
partial_fixpoint

/-- ttl/list.hpp:421-441 `remove_if(pred)`; `remove(value)` with `value` outside the list -/
def removeIf (c : Addr) (pred : T → Bool) : Thr (Heap T) Unit := do
  let p ← Thr.call (getNext c)
  let n ← Thr.call (getNext p)
  removeLoop c pred p n

/-- ttl/list.hpp:446-453 and 460-467, the loop of `unique` -/
def uniqueLoop (c : Addr) (pred : T → T → Bool) (prev p n : Addr) : Thr (Heap T) Unit := do
  if p ≠ c then do
    let v ← Thr.call (getVal p)
    let w ← Thr.call (getVal prev)
    Thr.point
    if pred v w then do
      Thr.call (unlink p)
      Thr.call (delete p)
      let n' ← Thr.call (getNext n)
      uniqueLoop c pred prev n n'
    else do
      let n' ← Thr.call (getNext n)
      uniqueLoop c pred p n n'
  else pure ()
partial_fixpoint

/-- ttl/list.hpp:442-468 `unique()` and `unique(pred)` -/
def unique (c : Addr) (pred : T → T → Bool) : Thr (Heap T) Unit := do
  let prev ← Thr.call (getNext c)
  let p ← Thr.call (getNext prev)
  let n ← Thr.call (getNext p)
  uniqueLoop c pred prev p n

/-- ttl/list.hpp:473-487 and 494-508, the loop of `merge` and the final splice -/
def mergeLoop (c other : Addr) (lt : T → T → Bool) (o i : Addr) : Thr (Heap T) Unit := do
  if o ≠ other ∧ i ≠ c then do
    let v ← Thr.call (getVal o)
    let w ← Thr.call (getVal i)
    Thr.point
    if lt v w then do
      let on ← Thr.call (getNext o)
      Thr.call (unlink o)
      let _ ← Thr.call (insertBefore i o)
      mergeLoop c other lt on o
    else do
      let i' ← Thr.call (getNext i)
      mergeLoop c other lt o i'
  else if o ≠ other then do
    let first ← Thr.call (getNext other)
    Thr.call (nodeSplice c first other)
  else pure ()
partial_fixpoint

/-- ttl/list.hpp:469-509 `merge(other)` and `merge(other, cmp)` -/
def merge (c other : Addr) (lt : T → T → Bool) : Thr (Heap T) Unit := do
  let o ← Thr.call (getNext other)
  let i ← Thr.call (getNext c)
  mergeLoop c other lt o i

/-- Execute a call of a client of lists. -/
def exec : Call T → Thr (Heap T) Unit
  | .copyOf s => do let _ ← copyCtor s
  | .ctorN n v => do let _ ← ctorN n v
  | .ctorVals vs => do let _ ← ctorVals vs
  | .pushFront c v => pushFront c v
  | .pushBack c v => pushBack c v
  | .insert c i v => do
      let p ← Thr.call (iterAt c i)
      let _ ← insert p v
  | .insertN c i n v => do
      let p ← Thr.call (iterAt c i)
      insertN p n v
  | .insertVals c i vs => do
      let p ← Thr.call (iterAt c i)
      insertVals p vs
  | .insertList c i d => do
      let p ← Thr.call (iterAt c i)
      let b ← Thr.call (begin d)
      insertNodes p b d
  | .assign c d => opAssign c d
  | .assignN c n v => assignN c n v
  | .assignVals c vs => assignVals c vs
  | .resize c n v => resize c n v
  | .removeIf c p => removeIf c p
  | .remove c eqv v => removeIf c fun w => eqv w v
  | .unique c pred => unique c pred
  | .merge c d lt => merge c d lt
  | c => Thr.call (DList.exec c)

end Verif.Exc.XList
