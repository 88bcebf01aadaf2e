import Verif.Exc.Base
import Verif.Seq.SlistModel
import Verif.Seq.FwdApi
import Verif.Seq.BwdApi
/-!
# `ttl::forward_list` and `ttl::backward_list` when allocation or element copies throw

The throwing versions of the members of ttl/forward_list.hpp and ttl/backward_list.hpp that make nodes. The point where an exception may appear is
`new node(v)` (allocation, or the copy of the value). Iterators, linking and unlinking, and destroying elements throw nothing. Each definition is
the one of `Verif.Seq.SlistModel` with these points put in.
-/
set_option linter.unusedVariables false
namespace Verif.Exc.XSList
open Verif Verif.Seq Verif.Seq.SNode Verif.Exc
open Verif.Seq.DList (Arg readArg)
variable {T : Type}

/-- `new node(v)` (ttl/forward_list.hpp:38-42, ttl/backward_list.hpp:40-44): if the allocation fails nothing happened; if the copy of the value
throws, the storage is released again. -/
def newNode (v : T) : Thr (Heap T) Addr := do Thr.point; Thr.call (Seq.newNode v)

/-- the loop `p = p->insert_after(new node(*first))` over an external range (ttl/forward_list.hpp:225-227, ttl/backward_list.hpp:265-267) -/
def insertVals (p : Addr) : List T → Thr (Heap T) Addr
  | [] => pure p
  | v :: vs => do
      let n ← newNode v
      let p ← Thr.call (insertAfter p n)
      insertVals p vs

/-- the same loop when `first`, `last` are iterators of a list -/
def insertNodes (p first last : Addr) : Thr (Heap T) Addr := do
  if first ≠ last then do
    let v ← Thr.call (getVal first)
    let n ← newNode v
    let p ← Thr.call (insertAfter p n)
    let next ← Thr.call (getNext first)
    insertNodes p next last
  else pure p
partial_fixpoint

/-- the loop `while (n--) p = p->insert_after(new node(value))` (ttl/forward_list.hpp:217-219, ttl/backward_list.hpp:254-256) -/
def insertN (p : Addr) (n : Nat) (value : Arg T) : Thr (Heap T) Addr :=
  match n with
  | 0 => pure p
  | n + 1 => do
      let v ← Thr.call (readArg value)
      let a ← newNode v
      let p ← Thr.call (insertAfter p a)
      insertN p n value

end Verif.Exc.XSList

namespace Verif.Exc.XFwd
open Verif Verif.Seq Verif.Seq.SNode Verif.Seq.FList Verif.Exc
open Verif.Seq.DList (Arg readArg)

variable {T : Type}

/-- ttl/forward_list.hpp:145-148 `push_front(value)` -/
def pushFront (c : Addr) (v : T) : Thr (Heap T) Unit := do
  let n ← XSList.newNode v
  let _ ← Thr.call (insertAfter c n)
/-- ttl/forward_list.hpp:169-172 `insert_after(pos, value)` -/
def insertOne (pos : Addr) (v : T) : Thr (Heap T) Addr := do
  let n ← XSList.newNode v
  Thr.call (insertAfter pos n)
/-- ttl/forward_list.hpp:214-220 `insert_after(pos, n, value)` -/
def insertN (pos : Addr) (n : Nat) (value : Arg T) : Thr (Heap T) Unit := do let _ ← XSList.insertN pos n value
/-- ttl/forward_list.hpp:221-228 `insert_after(pos, first, last)`, external range -/
def insertVals (pos : Addr) (vs : List T) : Thr (Heap T) Unit := do let _ ← XSList.insertVals pos vs
/-- ttl/forward_list.hpp:221-228 `insert_after(pos, first, last)`, range of a list -/
def insertNodes (pos first last : Addr) : Thr (Heap T) Unit := do let _ ← XSList.insertNodes pos first last

/-- ttl/forward_list.hpp:96-100 `forward_list(n, value)`: an exception that leaves a constructor ends the storage of the object; its destructor does
not run, and `slist_node` has none. -/
def ctorN (n : Nat) (value : Arg T) : Thr (Heap T) Addr := do
  let c ← Thr.call create
  Thr.unwinding (insertN c n value) (freeRaw c)
  pure c
/-- ttl/forward_list.hpp:101-106 `forward_list(first, last)` -/
def ctorVals (vs : List T) : Thr (Heap T) Addr := do
  let c ← Thr.call create
  Thr.unwinding (insertVals c vs) (freeRaw c)
  pure c
/-- ttl/forward_list.hpp:91-95 copy constructor -/
def copyCtor (other : Addr) : Thr (Heap T) Addr := do
  let c ← Thr.call create
  Thr.unwinding (do
    let first ← Thr.call (getNext other)
    insertNodes c first 0) (freeRaw c)
  pure c

/-- ttl/forward_list.hpp:109-114 `operator=` -/
def opAssign (c other : Addr) : Thr (Heap T) Unit := do
  Thr.call (clear c)
  let first ← Thr.call (getNext other)
  insertNodes c first 0
/-- ttl/forward_list.hpp:132-137 `assign(first, last)` -/
def assignVals (c : Addr) (vs : List T) : Thr (Heap T) Unit := do Thr.call (clear c); insertVals c vs
/-- ttl/forward_list.hpp:139-143 `assign(n, value)` -/
def assignN (c : Addr) (n : Nat) (value : Arg T) : Thr (Heap T) Unit := do Thr.call (clear c); insertN c n value

/-- Execute a call of a client of forward lists. -/
def exec : Call T → Thr (Heap T) Unit
  | .copyOf s => do let _ ← copyCtor s
  | .ctorN n v => do let _ ← ctorN n v
  | .ctorVals vs => do let _ ← ctorVals vs
  | .pushFront c v => pushFront c v
  | .insert c i v => do
      let p ← Thr.call (SList.posAt c i)
      let _ ← insertOne p v
  | .insertN c i n v => do
      let p ← Thr.call (SList.posAt c i)
      insertN p n v
  | .insertVals c i vs => do
      let p ← Thr.call (SList.posAt c i)
      insertVals p vs
  | .insertList c i d => do
      let p ← Thr.call (SList.posAt c i)
      let b ← Thr.call (getNext d)
      insertNodes p b 0
  | .assign c d => opAssign c d
  | .assignN c n v => assignN c n v
  | .assignVals c vs => assignVals c vs
  | k => Thr.call (FList.exec k)

end Verif.Exc.XFwd

namespace Verif.Exc.XBwd
open Verif Verif.Seq Verif.Seq.SNode Verif.Seq.BList Verif.Exc
open Verif.Seq.DList (Arg readArg)

variable {T : Type}

/-- ttl/backward_list.hpp:162-167 `push_front(value)` -/
def pushFront (c : Addr) (v : T) : Thr (Heap T) Unit := do
  let n ← XSList.newNode v
  let n ← Thr.call (insertAfter c n)
  let t ← Thr.call (getTail c)
  if t = c then Thr.call (setTail c n) else pure ()
/-- ttl/backward_list.hpp:168-171 `push_back(value)` -/
def pushBack (c : Addr) (v : T) : Thr (Heap T) Unit := do
  let t ← Thr.call (getTail c)
  let n ← XSList.newNode v
  let p ← Thr.call (insertAfter t n)
  Thr.call (setTail c p)
/-- ttl/backward_list.hpp:195-202 `insert_after(pos, value)` -/
def insertOne (c pos : Addr) (v : T) : Thr (Heap T) Addr := do
  let n ← XSList.newNode v
  let n ← Thr.call (insertAfter pos n)
  let t ← Thr.call (getTail c)
  if pos = t then do
    Thr.call (setTail c n)
    pure n
  else pure n
/-- ttl/backward_list.hpp:250-259 `insert_after(pos, n, value)` -/
def insertN (c pos : Addr) (n : Nat) (value : Arg T) : Thr (Heap T) Unit := do
  let p ← XSList.insertN pos n value
  let t ← Thr.call (getTail c)
  if pos = t then Thr.call (setTail c p) else pure ()
/-- ttl/backward_list.hpp:260-270 `insert_after(pos, first, last)`, external range -/
def insertVals (c pos : Addr) (vs : List T) : Thr (Heap T) Unit := do
  let _ ← XSList.insertVals pos vs
  let t ← Thr.call (getTail c)
  if pos = t then Thr.call (setTail c pos) else pure ()
/-- ttl/backward_list.hpp:260-270 `insert_after(pos, first, last)`, range of a list -/
def insertNodes (c pos first last : Addr) : Thr (Heap T) Unit := do
  let _ ← XSList.insertNodes pos first last
  let t ← Thr.call (getTail c)
  if pos = t then Thr.call (setTail c pos) else pure ()

/-- ttl/backward_list.hpp:106-111 `backward_list(n, value)`: see `XFwd.ctorN` -/
def ctorN (n : Nat) (value : Arg T) : Thr (Heap T) Addr := do
  let c ← Thr.call create
  Thr.unwinding (insertN c c n value) (freeRaw c)
  pure c
/-- ttl/backward_list.hpp:112-118 `backward_list(first, last)` -/
def ctorVals (vs : List T) : Thr (Heap T) Addr := do
  let c ← Thr.call create
  Thr.unwinding (insertVals c c vs) (freeRaw c)
  pure c
/-- ttl/backward_list.hpp:100-105 copy constructor -/
def copyCtor (other : Addr) : Thr (Heap T) Addr := do
  let c ← Thr.call create
  Thr.unwinding (do
    let first ← Thr.call (getNext other)
    insertNodes c c first 0) (freeRaw c)
  pure c

/-- ttl/backward_list.hpp:121-126 `operator=` -/
def opAssign (c other : Addr) : Thr (Heap T) Unit := do
  Thr.call (clear c)
  let first ← Thr.call (getNext other)
  insertNodes c c first 0
/-- ttl/backward_list.hpp:149-154 `assign(first, last)` -/
def assignVals (c : Addr) (vs : List T) : Thr (Heap T) Unit := do Thr.call (clear c); insertVals c c vs
/-- ttl/backward_list.hpp:156-160 `assign(n, value)` -/
def assignN (c : Addr) (n : Nat) (value : Arg T) : Thr (Heap T) Unit := do Thr.call (clear c); insertN c c n value

/-- Execute a call of a client of backward lists. -/
def exec : Call T → Thr (Heap T) Unit
  | .copyOf s => do let _ ← copyCtor s
  | .ctorN n v => do let _ ← ctorN n v
  | .ctorVals vs => do let _ ← ctorVals vs
  | .pushFront c v => pushFront c v
  | .pushBack c v => pushBack c v
  | .insert c i v => do
      let p ← Thr.call (SList.posAt c i)
      let _ ← insertOne c p v
  | .insertN c i n v => do
      let p ← Thr.call (SList.posAt c i)
      insertN c p n v
  | .insertVals c i vs => do
      let p ← Thr.call (SList.posAt c i)
      insertVals c p vs
  | .insertList c i d => do
      let p ← Thr.call (SList.posAt c i)
      let b ← Thr.call (getNext d)
      insertNodes c p b 0
  | .assign c d => opAssign c d
  | .assignN c n v => assignN c n v
  | .assignVals c vs => assignVals c vs
  | k => Thr.call (BList.exec k)

end Verif.Exc.XBwd
