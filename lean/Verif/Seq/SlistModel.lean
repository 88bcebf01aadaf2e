import Verif.Seq.ListModel
/-!
# Models of `slist_node` (ttl/slist_node.hpp), `ttl::forward_list` (ttl/forward_list.hpp) and `ttl::backward_list`
(ttl/backward_list.hpp)

A container object at `c` has its `head_` at address `c`; `tail_` is the `tail` field there. `before_begin()` is the
iterator `c`, `end()` the null iterator. An input range outside the containers is the sequence of its values.
-/
set_option linter.unusedVariables false
namespace Verif.Seq
open Verif
variable {T : Type}

/-! ## `slist_node` -/
namespace SNode

/-- ttl/slist_node.hpp:18-23 `p->insert_after(n)` -/
def insertAfter (p n : Addr) : Prog (Heap T) Addr := do
  setNext n (← getNext p)
  setNext p n
  pure n

/-- ttl/slist_node.hpp:24-29 `p->unlink_next()` -/
def unlinkNext (p : Addr) : Prog (Heap T) Addr := do
  let n ← getNext p
  setNext p (← getNext n)
  pure n

/-- ttl/slist_node.hpp:30-36 `p->splice_after(o)` -/
def spliceNext (p o : Addr) : Prog (Heap T) Unit := do
  let n ← getNext o
  setNext o (← getNext n)
  setNext n (← getNext p)
  setNext p n

/-- ttl/slist_node.hpp:42-43, the loop of `splice_after(f, l)` -/
def spliceLoop (o l : Addr) : Prog (Heap T) Addr := do
  let n ← getNext o
  if n ≠ l then spliceLoop n l else pure o
partial_fixpoint

/-- ttl/slist_node.hpp:37-46 `p->splice_after(f, l)` -/
def spliceRange (p f l : Addr) : Prog (Heap T) Unit := do
  let n ← getNext p
  setNext p (← getNext f)
  let o ← spliceLoop f l
  setNext o n
  setNext f l

/-- ttl/slist_node.hpp:51-57, the loop of `reverse` -/
def reverseLoop (orig reversed : Addr) : Prog (Heap T) Addr := do
  if orig ≠ 0 then do
    let n := orig
    let orig ← getNext n
    setNext n reversed
    reverseLoop orig n
  else pure reversed
partial_fixpoint

/-- ttl/slist_node.hpp:47-59 `p->reverse()` -/
def reverse (p : Addr) : Prog (Heap T) Unit := do
  let orig ← getNext p
  setNext p (← reverseLoop orig 0)

end SNode

/-! ## What `forward_list` and `backward_list` share

The two classes contain the same text for the following loops. -/
namespace SList
open SNode
open DList (Arg readArg)

/-- the loop `p = p->insert_after(new node(*first))` over an external range; the result is the final `p`
(ttl/forward_list.hpp:225-227, ttl/backward_list.hpp:265-267) -/
def insertVals (p : Addr) : List T → Prog (Heap T) Addr
  | [] => pure p
  | v :: vs => do insertVals (← insertAfter p (← newNode v)) vs

/-- the same loop when `first`, `last` are iterators of a list -/
def insertNodes (p first last : Addr) : Prog (Heap T) Addr := do
  if first ≠ last then do
    let v ← getVal first
    let p ← insertAfter p (← newNode v)
    insertNodes p (← getNext first) last
  else pure p
partial_fixpoint

/-- the loop `while (n--) p = p->insert_after(new node(value))`; the reference `value` is read for each new node
(ttl/forward_list.hpp:217-219, ttl/backward_list.hpp:254-256) -/
def insertN (p : Addr) (n : Nat) (value : Arg T) : Prog (Heap T) Addr :=
  match n with
  | 0 => pure p
  | n + 1 => do
      let v ← readArg value
      insertN (← insertAfter p (← newNode v)) n value

/-- the loop `while (head_.next) delete head_.unlink_next()` (ttl/forward_list.hpp:232-233, ttl/backward_list.hpp:275-276,
ttl/lazy_queue.hpp:134-135) -/
def clearLoop (c : Addr) : Prog (Heap T) Unit := do
  if (← getNext c) ≠ 0 then do
    delete (← unlinkNext c)
    clearLoop c
  else pure ()
partial_fixpoint

/-- the loop `while (p->next != last) delete p->unlink_next()` (ttl/forward_list.hpp:239-240, ttl/backward_list.hpp:282-283) -/
def eraseLoop (p last : Addr) : Prog (Heap T) Unit := do
  if (← getNext p) ≠ last then do
    delete (← unlinkNext p)
    eraseLoop p last
  else pure ()
partial_fixpoint

/-- the client loop from `begin()` to `end()`: iterators and values -/
def entries (c : Addr) : Prog (Heap T) (List (Addr × T)) := do DList.entriesFrom 0 (← getNext c)

/-- `operator==` (ttl/forward_list.hpp:262-266, ttl/backward_list.hpp:309-313), which is `ttl::equal` (ttl/algorithm.hpp:239-245)
on `[begin, end)` of both; `eqv` is the element's `operator==` -/
def equals (eqv : T → T → Bool) (a b : Addr) : Prog (Heap T) Bool := do
  DList.equalLoop eqv (← getNext a) 0 (← getNext b) 0

/-- `operator!=` (ttl/forward_list.hpp:267-271, ttl/backward_list.hpp:314-318) -/
def notEquals (eqv : T → T → Bool) (a b : Addr) : Prog (Heap T) Bool := do return !(← equals eqv a b)

/-- `it = c.before_begin(); ++it` `i` times -/
def posAt (c : Addr) (i : Nat) : Prog (Heap T) Addr :=
  match i with
  | 0 => pure c
  | i + 1 => do posAt (← getNext c) i

/-- `front()` (ttl/forward_list.hpp:129-130, ttl/backward_list.hpp:144-145, ttl/lazy_queue.hpp:168-169) -/
def front (c : Addr) : Prog (Heap T) T := do getVal (← getNext c)

end SList

/-! ## `forward_list` -/
namespace FList
open SNode SList
open DList (Arg readArg)

/-- ttl/forward_list.hpp:90 `forward_list()` -/
def create : Prog (Heap T) Addr := do
  let c ← newRaw
  setNext c 0
  pure c

/-- ttl/forward_list.hpp:126 `empty()` -/
def empty (c : Addr) : Prog (Heap T) Bool := do pure (decide ((← getNext c) = 0))

/-- ttl/forward_list.hpp:145-148 `push_front(value)` -/
def pushFront (c : Addr) (v : T) : Prog (Heap T) Unit := do
  let _ ← insertAfter c (← newNode v)

/-- ttl/forward_list.hpp:150-153 `pop_front()` -/
def popFront (c : Addr) : Prog (Heap T) Unit := do delete (← unlinkNext c)

/-- ttl/forward_list.hpp:155-158 `splice_after(pos, other)` -/
def spliceAll (pos other : Addr) : Prog (Heap T) Unit := SNode.spliceRange pos other 0

/-- ttl/forward_list.hpp:159-166 `splice_after(pos, other, it)` -/
def spliceOne (pos it : Addr) : Prog (Heap T) Unit := do
  if it = pos then pure () else spliceNext pos it

/-- ttl/forward_list.hpp:248-257 `splice_after(pos, other, first, last)` -/
def spliceRange (pos first last : Addr) : Prog (Heap T) Unit := do
  if first = 0 then pure () else SNode.spliceRange pos first last

/-- ttl/forward_list.hpp:169-172 `insert_after(pos, value)` -/
def insertOne (pos : Addr) (v : T) : Prog (Heap T) Addr := do insertAfter pos (← newNode v)

/-- ttl/forward_list.hpp:214-220 `insert_after(pos, n, value)` -/
def insertN (pos : Addr) (n : Nat) (value : Arg T) : Prog (Heap T) Unit := do let _ ← SList.insertN pos n value

/-- ttl/forward_list.hpp:221-228 `insert_after(pos, first, last)`, external range -/
def insertVals (pos : Addr) (vs : List T) : Prog (Heap T) Unit := do let _ ← SList.insertVals pos vs

/-- ttl/forward_list.hpp:221-228 `insert_after(pos, first, last)`, range of a list -/
def insertNodes (pos first last : Addr) : Prog (Heap T) Unit := do let _ ← SList.insertNodes pos first last

/-- ttl/forward_list.hpp:177-182 `erase_after(pos)` -/
def eraseAfter (pos : Addr) : Prog (Heap T) Addr := do
  delete (← unlinkNext pos)
  getNext pos

/-- ttl/forward_list.hpp:235-242 `erase_after(pos, last)` -/
def eraseRange (pos last : Addr) : Prog (Heap T) Addr := do
  eraseLoop pos last
  getNext pos

/-- ttl/forward_list.hpp:185-188 `swap(other)` with `ttl::swap` (ttl/utility.hpp:39-45) on the two `next` pointers -/
def swap (a b : Addr) : Prog (Heap T) Unit := do
  let tmp ← getNext a
  setNext a (← getNext b)
  setNext b tmp

/-- ttl/forward_list.hpp:229-234 `clear()` -/
def clear (c : Addr) : Prog (Heap T) Unit := clearLoop c

/-- ttl/forward_list.hpp:91-95 copy constructor -/
def copyCtor (other : Addr) : Prog (Heap T) Addr := do
  let c ← create
  insertNodes c (← getNext other) 0
  pure c

/-- ttl/forward_list.hpp:96-100 `forward_list(n, value)` -/
def ctorN (n : Nat) (value : Arg T) : Prog (Heap T) Addr := do
  let c ← create
  insertN c n value
  pure c

/-- ttl/forward_list.hpp:101-106 `forward_list(first, last)` -/
def ctorVals (vs : List T) : Prog (Heap T) Addr := do
  let c ← create
  insertVals c vs
  pure c

/-- ttl/forward_list.hpp:107 destructor, then the storage of the object ends -/
def destroy (c : Addr) : Prog (Heap T) Unit := do clear c; freeRaw c

/-- ttl/forward_list.hpp:109-114 `operator=` -/
def opAssign (c other : Addr) : Prog (Heap T) Unit := do
  clear c
  insertNodes c (← getNext other) 0

/-- ttl/forward_list.hpp:132-137 `assign(first, last)` -/
def assignVals (c : Addr) (vs : List T) : Prog (Heap T) Unit := do clear c; insertVals c vs

/-- ttl/forward_list.hpp:139-143 `assign(n, value)` -/
def assignN (c : Addr) (n : Nat) (value : Arg T) : Prog (Heap T) Unit := do clear c; insertN c n value

/-- ttl/forward_list.hpp:243-247 `reverse()` -/
def reverse (c : Addr) : Prog (Heap T) Unit := SNode.reverse c

end FList

/-! ## `backward_list` -/
namespace BList
open SNode SList
open DList (Arg readArg)

/-- ttl/backward_list.hpp:95-99 `backward_list()` -/
def create : Prog (Heap T) Addr := do
  let c ← newRaw
  setNext c 0
  setTail c c
  pure c

/-- ttl/backward_list.hpp:141 `empty()` -/
def empty (c : Addr) : Prog (Heap T) Bool := do pure (decide (c = (← getTail c)))

/-- ttl/backward_list.hpp:146-147 `back()` -/
def back (c : Addr) : Prog (Heap T) T := do getVal (← getTail c)

/-- ttl/backward_list.hpp:131 `before_end()` -/
def beforeEnd (c : Addr) : Prog (Heap T) Addr := getTail c

/-- ttl/backward_list.hpp:162-167 `push_front(value)` -/
def pushFront (c : Addr) (v : T) : Prog (Heap T) Unit := do
  let n ← insertAfter c (← newNode v)
  if (← getTail c) = c then setTail c n else pure ()

/-- ttl/backward_list.hpp:168-171 `push_back(value)` -/
def pushBack (c : Addr) (v : T) : Prog (Heap T) Unit := do
  setTail c (← insertAfter (← getTail c) (← newNode v))

/-- ttl/backward_list.hpp:173-178 `pop_front()` -/
def popFront (c : Addr) : Prog (Heap T) Unit := do
  delete (← unlinkNext c)
  if (← empty c) then setTail c c else pure ()

/-- ttl/backward_list.hpp:195-202 `insert_after(pos, value)` -/
def insertOne (c pos : Addr) (v : T) : Prog (Heap T) Addr := do
  let n ← insertAfter pos (← newNode v)
  if pos = (← getTail c) then setTail c n else pure ()
  pure n

/-- ttl/backward_list.hpp:250-259 `insert_after(pos, n, value)` -/
def insertN (c pos : Addr) (n : Nat) (value : Arg T) : Prog (Heap T) Unit := do
  let p ← SList.insertN pos n value
  if pos = (← getTail c) then setTail c p else pure ()

/-- ttl/backward_list.hpp:260-270 `insert_after(pos, first, last)`, external range -/
def insertVals (c pos : Addr) (vs : List T) : Prog (Heap T) Unit := do
  let _ ← SList.insertVals pos vs
  if pos = (← getTail c) then setTail c pos else pure ()

/-- ttl/backward_list.hpp:260-270 `insert_after(pos, first, last)`, range of a list -/
def insertNodes (c pos first last : Addr) : Prog (Heap T) Unit := do
  let _ ← SList.insertNodes pos first last
  if pos = (← getTail c) then setTail c pos else pure ()

/-- ttl/backward_list.hpp:207-215 `erase_after(pos)` -/
def eraseAfter (c pos : Addr) : Prog (Heap T) Addr := do
  let p ← unlinkNext pos
  if p = (← getTail c) then setTail c pos else pure ()
  delete p
  getNext pos

/-- ttl/backward_list.hpp:278-287 `erase_after(pos, last)` -/
def eraseRange (c pos last : Addr) : Prog (Heap T) Addr := do
  eraseLoop pos last
  if last = 0 then setTail c pos else pure ()
  getNext pos

/-- ttl/backward_list.hpp:218-222 `swap(other)` -/
def swap (a b : Addr) : Prog (Heap T) Unit := do
  let tmp ← getNext a
  setNext a (← getNext b)
  setNext b tmp
  let tmp ← getTail a
  setTail a (← getTail b)
  setTail b tmp

/-- ttl/backward_list.hpp:271-277 `clear()` -/
def clear (c : Addr) : Prog (Heap T) Unit := do
  setTail c c
  clearLoop c

/-- ttl/backward_list.hpp:100-105 copy constructor -/
def copyCtor (other : Addr) : Prog (Heap T) Addr := do
  let c ← create
  insertNodes c c (← getNext other) 0
  pure c

/-- ttl/backward_list.hpp:106-111 `backward_list(n, value)` -/
def ctorN (n : Nat) (value : Arg T) : Prog (Heap T) Addr := do
  let c ← create
  insertN c c n value
  pure c

/-- ttl/backward_list.hpp:112-118 `backward_list(first, last)` -/
def ctorVals (vs : List T) : Prog (Heap T) Addr := do
  let c ← create
  insertVals c c vs
  pure c

/-- ttl/backward_list.hpp:119 destructor, then the storage of the object ends -/
def destroy (c : Addr) : Prog (Heap T) Unit := do clear c; freeRaw c

/-- ttl/backward_list.hpp:121-126 `operator=` -/
def opAssign (c other : Addr) : Prog (Heap T) Unit := do
  clear c
  insertNodes c c (← getNext other) 0

/-- ttl/backward_list.hpp:149-154 `assign(first, last)` -/
def assignVals (c : Addr) (vs : List T) : Prog (Heap T) Unit := do clear c; insertVals c c vs

/-- ttl/backward_list.hpp:156-160 `assign(n, value)` -/
def assignN (c : Addr) (n : Nat) (value : Arg T) : Prog (Heap T) Unit := do clear c; insertN c c n value

/-- ttl/backward_list.hpp:288-293 `reverse()` -/
def reverse (c : Addr) : Prog (Heap T) Unit := do
  setTail c (← getNext c)
  SNode.reverse c

end BList
end Verif.Seq
