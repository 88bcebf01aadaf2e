import Verif.Seq.SlistModel
/-!
# Model of `ttl::lazy_queue` (ttl/lazy_queue.hpp)

A queue object at `c` has its `head_` at address `c`, `tail_` in the `tail` field there, and its `dead_` member at address `c + 1`.
Pooled nodes are allocated addresses without a value. `before_begin()` is the iterator `c`, `end()` the null iterator.

The flag `triv` says whether `T` has a trivial destructor. It matters in one place: `~lazy_queue` and `cleanup()` apply `delete` to
pooled nodes, whose value has been destroyed already. For a `T` with a non-trivial destructor that destroys the value a second
time, which is undefined behaviour (`Fault.lifetime`); for a trivial destructor it only releases the storage.

Simplification: `get_node` converts the `void *` from `::operator new` straight to `node *` and constructs only the `value` member;
the storage is treated as a node from then on.
-/
set_option linter.unusedVariables false
namespace Verif.Seq
open Verif
variable {T : Type}

/-- `::new(&n->value) T(v)`: a new object in storage that must not hold one -/
def construct (p : Addr) (v : T) : Prog (Heap T) Unit := fun h =>
  if h.live p then
    (match h.val p with | none => .ok ((), { h with val := upd h.val p (some v) }) | some _ => .ub .lifetime)
  else .ub .access
/-- `n->value.~T()` -/
def destruct (p : Addr) : Prog (Heap T) Unit := fun h =>
  if h.live p then
    (match h.val p with | some _ => .ok ((), { h with val := upd h.val p none }) | none => .ub .lifetime)
  else .ub .access
/-- `delete static_cast<node *>(p)`; with a trivial destructor of `T` it is no matter whether the value is still alive -/
def deleteNode (triv : Bool) (p : Addr) : Prog (Heap T) Unit :=
  if triv then (fun h => if h.live p then .ok ((), { h with val := upd h.val p none, live := upd h.live p false }) else .ub .access)
  else delete p

namespace LQueue
open SNode SList
open DList (Arg readArg)

/-- ttl/lazy_queue.hpp:43, the address of `dead_` -/
def deadOf (c : Addr) : Addr := c + 1

/-- ttl/lazy_queue.hpp:45-50 `get_node(v)` -/
def getNode (c : Addr) (v : T) : Prog (Heap T) Addr := do
  let n ← if (← getNext (deadOf c)) ≠ 0 then unlinkNext (deadOf c) else newRaw
  construct n v
  pure n

/-- ttl/lazy_queue.hpp:51-55 `put_node(n)` -/
def putNode (c n : Addr) : Prog (Heap T) Unit := do
  destruct n
  let _ ← insertAfter (deadOf c) n

/-- ttl/lazy_queue.hpp:112-117 `lazy_queue()`; the object occupies two cells -/
def create : Prog (Heap T) Addr := do
  let c ← newRaw
  let _ ← newRaw
  setNext c 0
  setTail c c
  setNext (deadOf c) 0
  pure c

/-- ttl/lazy_queue.hpp:165 `empty()` -/
def empty (c : Addr) : Prog (Heap T) Bool := do pure (decide ((← getNext c) = 0))

/-- ttl/lazy_queue.hpp:170-171 `back()` -/
def back (c : Addr) : Prog (Heap T) T := do getVal (← getTail c)

/-- ttl/lazy_queue.hpp:155 `before_end()` -/
def beforeEnd (c : Addr) : Prog (Heap T) Addr := getTail c

/-- ttl/lazy_queue.hpp:173-178 `push_front(value)` -/
def pushFront (c : Addr) (v : T) : Prog (Heap T) Unit := do
  let n ← insertAfter c (← getNode c v)
  if (← getTail c) = c then setTail c n else pure ()

/-- ttl/lazy_queue.hpp:179-182 `push_back(value)` -/
def pushBack (c : Addr) (v : T) : Prog (Heap T) Unit := do
  setTail c (← insertAfter (← getTail c) (← getNode c v))

/-- ttl/lazy_queue.hpp:184-189 `pop_front()` -/
def popFront (c : Addr) : Prog (Heap T) Unit := do
  putNode c (← unlinkNext c)
  if (← empty c) then setTail c c else pure ()

/-- ttl/lazy_queue.hpp:191-198 `insert_after(pos, value)` -/
def insertOne (c pos : Addr) (v : T) : Prog (Heap T) Addr := do
  let n ← insertAfter pos (← getNode c v)
  if pos = (← getTail c) then setTail c n else pure ()
  pure n

/-- ttl/lazy_queue.hpp:232-233, the loop `while (n--) p = p->insert_after(get_node(value))`; `value` is read for each node -/
def insertLoopN (c p : Addr) (n : Nat) (value : Arg T) : Prog (Heap T) Addr :=
  match n with
  | 0 => pure p
  | n + 1 => do
      let v ← readArg value
      insertLoopN c (← insertAfter p (← getNode c v)) n value

/-- ttl/lazy_queue.hpp:227-236 `insert_after(pos, n, value)` -/
def insertN (c pos : Addr) (n : Nat) (value : Arg T) : Prog (Heap T) Unit := do
  let p ← insertLoopN c pos n value
  if pos = (← getTail c) then setTail c p else pure ()

/-- ttl/lazy_queue.hpp:243-244, the loop `p = p->insert_after(get_node(*first))` over an external range -/
def insertLoopVals (c p : Addr) : List T → Prog (Heap T) Addr
  | [] => pure p
  | v :: vs => do insertLoopVals c (← insertAfter p (← getNode c v)) vs

/-- ttl/lazy_queue.hpp:237-247 `insert_after(pos, first, last)`, external range -/
def insertVals (c pos : Addr) (vs : List T) : Prog (Heap T) Unit := do
  let p ← insertLoopVals c pos vs
  if pos = (← getTail c) then setTail c p else pure ()

/-- ttl/lazy_queue.hpp:243-244, the same loop when `first`, `last` are iterators of a queue -/
def insertLoopNodes (c p first last : Addr) : Prog (Heap T) Addr := do
  if first ≠ last then do
    let v ← getVal first
    let p ← insertAfter p (← getNode c v)
    insertLoopNodes c p (← getNext first) last
  else pure p
partial_fixpoint

/-- ttl/lazy_queue.hpp:237-247 `insert_after(pos, first, last)`, range of a queue -/
def insertNodes (c pos first last : Addr) : Prog (Heap T) Unit := do
  let p ← insertLoopNodes c pos first last
  if pos = (← getTail c) then setTail c p else pure ()

/-- ttl/lazy_queue.hpp:248-257 `erase_after(pos)` -/
def eraseAfter (c pos : Addr) : Prog (Heap T) Addr := do
  let p ← unlinkNext pos
  if p = (← getTail c) then setTail c pos else pure ()
  putNode c p
  getNext pos

/-- ttl/lazy_queue.hpp:262-263, the loop `while (p->next != last) put_node(p->unlink_next())` -/
def eraseLoop (c p last : Addr) : Prog (Heap T) Unit := do
  if (← getNext p) ≠ last then do
    putNode c (← unlinkNext p)
    eraseLoop c p last
  else pure ()
partial_fixpoint

/-- ttl/lazy_queue.hpp:258-267 `erase_after(pos, last)` -/
def eraseRange (c pos last : Addr) : Prog (Heap T) Addr := do
  eraseLoop c pos last
  if last = 0 then setTail c pos else pure ()
  getNext pos

/-- ttl/lazy_queue.hpp:206-210 `swap(other)` -/
def swap (a b : Addr) : Prog (Heap T) Unit := do
  let tmp ← getNext a
  setNext a (← getNext b)
  setNext b tmp
  let tmp ← getTail a
  setTail a (← getTail b)
  setTail b tmp

/-- ttl/lazy_queue.hpp:271-272, the loop of `clear()` -/
def clearLoop (c : Addr) : Prog (Heap T) Unit := do
  if (← getNext c) ≠ 0 then do
    putNode c (← unlinkNext c)
    clearLoop c
  else pure ()
partial_fixpoint

/-- ttl/lazy_queue.hpp:268-274 `clear()` -/
def clear (c : Addr) : Prog (Heap T) Unit := do
  clearLoop c
  setTail c c

/-- ttl/lazy_queue.hpp:134-135 and 141-142, the loops `while (p->next) delete p->unlink_next()` of the destructor and of `cleanup()` -/
def deleteLoop (triv : Bool) (p : Addr) : Prog (Heap T) Unit := do
  if (← getNext p) ≠ 0 then do
    deleteNode triv (← unlinkNext p)
    deleteLoop triv p
  else pure ()
partial_fixpoint

/-- ttl/lazy_queue.hpp:139-143 `cleanup()` -/
def cleanup (triv : Bool) (c : Addr) : Prog (Heap T) Unit := deleteLoop triv (deadOf c)

/-- ttl/lazy_queue.hpp:132-137 destructor, then the storage of the object ends -/
def destroy (triv : Bool) (c : Addr) : Prog (Heap T) Unit := do
  deleteLoop triv c
  cleanup triv c
  freeRaw c
  freeRaw (deadOf c)

/-- ttl/lazy_queue.hpp:118-124 copy constructor -/
def copyCtor (other : Addr) : Prog (Heap T) Addr := do
  let c ← create
  insertNodes c c (← getNext other) 0
  pure c

/-- ttl/lazy_queue.hpp:125-131 `lazy_queue(n, value)` -/
def ctorN (n : Nat) (value : Arg T) : Prog (Heap T) Addr := do
  let c ← create
  insertN c c n value
  pure c

/-- ttl/lazy_queue.hpp:145-150 `operator=` -/
def opAssign (c other : Addr) : Prog (Heap T) Unit := do
  clear c
  insertNodes c c (← getNext other) 0

/-- ttl/lazy_queue.hpp:218-225 `roll_head()` -/
def rollHead (c : Addr) : Prog (Heap T) Unit := do
  let hn ← getNext c
  if hn ≠ 0 then do
    if hn ≠ (← getTail c) then do
      let n ← unlinkNext c
      setTail c (← insertAfter (← getTail c) n)
    else pure ()
  else pure ()

end LQueue
end Verif.Seq
