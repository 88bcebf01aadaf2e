import Verif.Seq.Heap
/-!
# Model of `ttl::list` (ttl/list.hpp)

A `list` object is its header node: the container at `c` has `head_` at address `c`; `end()` is the iterator
`c`. Iterators are node addresses. `const T &` parameters are passed by value, which is exact for members
that read the parameter only to construct a node before anything is destroyed; `remove`, which re-reads it
after deletions, takes an `Arg` instead. An input range that does not belong to the list is the sequence of
its values.
-/
set_option linter.unusedVariables false
namespace Verif.Seq.DList
open Verif Verif.Seq
variable {T : Type}

/-! ## `list_node` -/

/-- ttl/list.hpp:19 `init` -/
def init (p : Addr) : Prog (Heap T) Unit := do setPrev p p; setNext p p

/-- ttl/list.hpp:21-28 `p->insert_before(n)` -/
def insertBefore (p n : Addr) : Prog (Heap T) Addr := do
  setNext (← getPrev p) n
  setNext n p
  setPrev n (← getPrev p)
  setPrev p n
  pure n

/-- ttl/list.hpp:30-34 `p->unlink()` -/
def unlink (p : Addr) : Prog (Heap T) Unit := do
  setPrev (← getNext p) (← getPrev p)
  setNext (← getPrev p) (← getNext p)

/-- ttl/list.hpp:36-45 `p->splice(first, last)` -/
def nodeSplice (p first last : Addr) : Prog (Heap T) Unit := do
  setNext (← getPrev last) p
  setNext (← getPrev first) last
  setNext (← getPrev p) first
  let t ← getPrev p
  setPrev p (← getPrev last)
  setPrev last (← getPrev first)
  setPrev first t

/-- ttl/list.hpp:50-57, the body of the do-while loop of `reverse` and its test -/
def reverseLoop (this p : Addr) : Prog (Heap T) Unit := do
  let t ← getNext p
  setNext p (← getPrev p)
  setPrev p t
  if t ≠ this then reverseLoop this t else pure ()
partial_fixpoint

/-- ttl/list.hpp:47-58 `p->reverse()` -/
def nodeReverse (this : Addr) : Prog (Heap T) Unit := reverseLoop this this

/-- ttl/list.hpp:79-82, the common tail of `swap` (also `halfswap`) -/
def halfSwap (a b : Addr) : Prog (Heap T) Unit := do
  setPrev a (← getPrev b)
  setNext a (← getNext b)
  setPrev (← getNext b) a
  setNext (← getPrev b) a
  setNext b b
  setPrev b b

/-- ttl/list.hpp:61-83 `list_node::swap(a, b)` -/
def nodeSwap (a b : Addr) : Prog (Heap T) Unit := do
  if a ≠ (← getNext a) then
    if b ≠ (← getNext b) then do
      let t ← getPrev a
      setPrev a (← getPrev b)
      setPrev b t
      let t ← getNext a
      setNext a (← getNext b)
      setNext b t
      setPrev (← getNext a) a
      setNext (← getPrev a) a
      setPrev (← getNext b) b
      setNext (← getPrev b) b
    else halfSwap b a
  else halfSwap a b

/-! ## `list<T>` -/

/-- ttl/list.hpp:191 `list()`; returns the address of the new object -/
def create : Prog (Heap T) Addr := do
  let c ← newRaw
  init c
  pure c

/-- ttl/list.hpp:217-222 `begin()`, `cbegin()` -/
def begin (c : Addr) : Prog (Heap T) Addr := getNext c

/-- ttl/list.hpp:224 `empty()` -/
def empty (c : Addr) : Prog (Heap T) Bool := do pure (decide ((← getNext c) = c))

/-- ttl/list.hpp:229-230, the loop of `size()` -/
def sizeLoop (c n : Addr) (siz : Nat) : Prog (Heap T) Nat := do
  if n ≠ c then sizeLoop c (← getNext n) (siz + 1) else pure siz
partial_fixpoint

/-- ttl/list.hpp:226-232 `size()` (the counter is a natural number: no wrap-around of `size_t`) -/
def size (c : Addr) : Prog (Heap T) Nat := do sizeLoop c (← getNext c) 0

/-- ttl/list.hpp:234-235 `front()` -/
def front (c : Addr) : Prog (Heap T) T := do getVal (← getNext c)
/-- ttl/list.hpp:236-237 `back()` -/
def back (c : Addr) : Prog (Heap T) T := do getVal (← getPrev c)

/-- ttl/list.hpp:252-255 `push_front(value)` -/
def pushFront (c : Addr) (v : T) : Prog (Heap T) Unit := do
  let p ← getNext c
  let _ ← insertBefore p (← newNode v)

/-- ttl/list.hpp:257-260 `push_back(value)` -/
def pushBack (c : Addr) (v : T) : Prog (Heap T) Unit := do
  let _ ← insertBefore c (← newNode v)

/-- ttl/list.hpp:262-267 `pop_front()` -/
def popFront (c : Addr) : Prog (Heap T) Unit := do
  let p ← getNext c
  unlink p
  delete p

/-- ttl/list.hpp:269-274 `pop_back()` -/
def popBack (c : Addr) : Prog (Heap T) Unit := do
  let p ← getPrev c
  unlink p
  delete p

/-- ttl/list.hpp:276-280 `splice(pos, other)` -/
def spliceAll (pos other : Addr) : Prog (Heap T) Unit := do nodeSplice pos (← getNext other) other

/-- ttl/list.hpp:281-287 `splice(pos, other, it)` -/
def spliceOne (pos it : Addr) : Prog (Heap T) Unit := do
  if it ≠ pos then nodeSplice pos it (← getNext it) else pure ()

/-- ttl/list.hpp:288-292 `splice(pos, other, first, last)` -/
def spliceRange (pos first last : Addr) : Prog (Heap T) Unit := nodeSplice pos first last

/-- ttl/list.hpp:294-298 `insert(pos, value)` -/
def insert (pos : Addr) (v : T) : Prog (Heap T) Addr := do insertBefore pos (← newNode v)

/-- ttl/list.hpp:345-351 `insert(pos, n, value)` -/
def insertN (pos : Addr) (n : Nat) (v : T) : Prog (Heap T) Unit :=
  match n with
  | 0 => pure ()
  | n + 1 => do
      let _ ← insertBefore pos (← newNode v)
      insertN pos n v

/-- ttl/list.hpp:352-359 `insert(pos, first, last)` for an input range that is not part of this memory -/
def insertVals (pos : Addr) (vs : List T) : Prog (Heap T) Unit :=
  match vs with
  | [] => pure ()
  | v :: vs => do
      let _ ← insertBefore pos (← newNode v)
      insertVals pos vs

/-- ttl/list.hpp:352-359 `insert(pos, first, last)` where `first`, `last` are `list` iterators -/
def insertNodes (pos first last : Addr) : Prog (Heap T) Unit := do
  if first ≠ last then do
    let v ← getVal first
    let _ ← insertBefore pos (← newNode v)
    insertNodes pos (← getNext first) last
  else pure ()
partial_fixpoint

/-- ttl/list.hpp:303-310 `erase(pos)` -/
def erase (pos : Addr) : Prog (Heap T) Addr := do
  let next ← getNext pos
  unlink pos
  delete pos
  pure next

/-- ttl/list.hpp:408-420 `erase(pos, last)` -/
def eraseRange (p last : Addr) : Prog (Heap T) Addr := do
  let next ← getNext p
  if next ≠ last then do
    unlink p
    delete p
    eraseRange next last
  else pure next
partial_fixpoint

/-- ttl/list.hpp:313-316 `swap(other)` -/
def swap (a b : Addr) : Prog (Heap T) Unit := nodeSwap a b

/-- ttl/list.hpp:398-407 `clear()` -/
def clear (c : Addr) : Prog (Heap T) Unit := do
  let p ← getNext c
  if p ≠ c then do
    setNext c (← getNext p)
    delete p
    clear c
  else pure ()
partial_fixpoint

/-- ttl/list.hpp:192-196 copy constructor -/
def copyCtor (other : Addr) : Prog (Heap T) Addr := do
  let c ← create
  insertNodes (← getNext c) (← getNext other) other
  pure c

/-- ttl/list.hpp:197-201 `list(n, value)` -/
def ctorN (n : Nat) (v : T) : Prog (Heap T) Addr := do
  let c ← create
  insertN c n v
  pure c

/-- ttl/list.hpp:202-207 `list(first, last)` -/
def ctorVals (vs : List T) : Prog (Heap T) Addr := do
  let c ← create
  insertVals c vs
  pure c

/-- ttl/list.hpp:208 `~list()`, then the storage of the object ends -/
def destroy (c : Addr) : Prog (Heap T) Unit := do clear c; freeRaw c

/-- ttl/list.hpp:210-215 `operator=` -/
def opAssign (c other : Addr) : Prog (Heap T) Unit := do
  clear c
  insertNodes (← getNext c) (← getNext other) other

/-- ttl/list.hpp:239-244 `assign(first, last)` -/
def assignVals (c : Addr) (vs : List T) : Prog (Heap T) Unit := do clear c; insertVals c vs
/-- ttl/list.hpp:246-250 `assign(n, value)`, `value` not referring into the list -/
def assignN (c : Addr) (n : Nat) (v : T) : Prog (Heap T) Unit := do clear c; insertN c n v

/-- ttl/list.hpp:368-373 (and 387-392), the inner loop of `resize`: drop from the back down to `p` -/
def resizeDrop (c p : Addr) : Prog (Heap T) Unit := do
  if (← getNext p) ≠ c then do
    let e ← getPrev c
    unlink e
    delete e
    resizeDrop c p
  else pure ()
partial_fixpoint

/-- ttl/list.hpp:365-375 (and 384-394), the outer loop of `resize`; then 376-377 (395-396) append what is missing.
`resize(n)` appends default-constructed elements: it is `resize(n, v)` with `v` the default value. -/
def resizeLoop (c p : Addr) (siz newsize : Nat) (v : T) : Prog (Heap T) Unit := do
  if p ≠ c then
    if siz + 1 = newsize then resizeDrop c p
    else resizeLoop c (← getNext p) (siz + 1) newsize v
  else insertN c (newsize - siz) v
partial_fixpoint

/-- ttl/list.hpp:360-397 `resize(newsize)` (with `v` a default-constructed value) and `resize(newsize, v)` -/
def resize (c : Addr) (newsize : Nat) (v : T) : Prog (Heap T) Unit := do
  resizeLoop c (← getNext c) 0 newsize v

/-- A `const T &` argument: an object outside the containers, or the element stored in a node. -/
inductive Arg (T : Type) where
  | ext (v : T)
  | elem (a : Addr)

/-- reading a `const T &` argument -/
def readArg : Arg T → Prog (Heap T) T
  | .ext v => pure v
  | .elem a => getVal a

/-- ttl/list.hpp:435-440 and 424-429, the loop of `remove_if` / `remove`: `test v` is the (possibly
memory-reading) condition on an element -/
def removeLoop (c : Addr) (test : T → Prog (Heap T) Bool) (p n : Addr) : Prog (Heap T) Unit := do
  if p ≠ c then do
    if (← test (← getVal p)) then do
      unlink p
      delete p
      removeLoop c test n (← getNext n)
    else removeLoop c test n (← getNext n)
  else pure ()
partial_fixpoint

/-- ttl/list.hpp:431-441 `remove_if(pred)` -/
def removeIf (c : Addr) (pred : T → Bool) : Prog (Heap T) Unit := do
  let p ← getNext c
  removeLoop c (fun v => pure (pred v)) p (← getNext p)

/-- ttl/list.hpp:421-430 `remove(value)`, `eqv` being the element's `operator==` -/
def remove (c : Addr) (eqv : T → T → Bool) (value : Arg T) : Prog (Heap T) Unit := do
  let p ← getNext c
  removeLoop c (fun v => do pure (eqv v (← readArg value))) p (← getNext p)

/-- ttl/list.hpp:446-453 and 460-467, the loop of `unique` -/
def uniqueLoop (c : Addr) (pred : T → T → Bool) (prev p n : Addr) : Prog (Heap T) Unit := do
  if p ≠ c then do
    if pred (← getVal p) (← getVal prev) then do
      unlink p
      delete p
      uniqueLoop c pred prev n (← getNext n)
    else uniqueLoop c pred p n (← getNext n)
  else pure ()
partial_fixpoint

/-- ttl/list.hpp:442-468 `unique()` (with `pred` the element's `operator==`) and `unique(pred)` -/
def unique (c : Addr) (pred : T → T → Bool) : Prog (Heap T) Unit := do
  let prev ← getNext c
  let p ← getNext prev
  uniqueLoop c pred prev p (← getNext p)

/-- ttl/list.hpp:473-487 and 494-508, the loop of `merge` and the final splice -/
def mergeLoop (c other : Addr) (lt : T → T → Bool) (o i : Addr) : Prog (Heap T) Unit := do
  if o ≠ other ∧ i ≠ c then do
    if lt (← getVal o) (← getVal i) then do
      let on ← getNext o
      unlink o
      let _ ← insertBefore i o
      mergeLoop c other lt on o
    else mergeLoop c other lt o (← getNext i)
  else if o ≠ other then nodeSplice c (← getNext other) other
  else pure ()
partial_fixpoint

/-- ttl/list.hpp:469-509 `merge(other)` (with `lt` the element's `operator<`) and `merge(other, cmp)` -/
def merge (c other : Addr) (lt : T → T → Bool) : Prog (Heap T) Unit := do
  let o ← getNext other
  mergeLoop c other lt o (← getNext c)

/-- ttl/list.hpp:340-343 `reverse()` -/
def reverse (c : Addr) : Prog (Heap T) Unit := nodeReverse c

/-- ttl/algorithm.hpp:239-245 `equal(first1, last1, first2, last2)` on list iterators, used by ttl/list.hpp:515-518;
`eqv` is the element's `operator==` -/
def equalLoop (eqv : T → T → Bool) (p e q f : Addr) : Prog (Heap T) Bool := do
  if p ≠ e ∧ q ≠ f then do
    if eqv (← getVal p) (← getVal q) then equalLoop eqv (← getNext p) e (← getNext q) f
    else pure false
  else pure (decide (p = e ∧ q = f))
partial_fixpoint

/-- ttl/list.hpp:514-518 `operator==(a, b)` -/
def equals (eqv : T → T → Bool) (a b : Addr) : Prog (Heap T) Bool := do
  equalLoop eqv (← getNext a) a (← getNext b) b

/-- ttl/list.hpp:519-523 `operator!=(a, b)` -/
def notEquals (eqv : T → T → Bool) (a b : Addr) : Prog (Heap T) Bool := do return !(← equals eqv a b)

/-! ## What a client sees by iterating -/

/-- The client loop `for (it = first; it != last; ++it) collect(it, *it)`. -/
def entriesFrom (last p : Addr) : Prog (Heap T) (List (Addr × T)) := do
  if p ≠ last then do
    let v ← getVal p
    let rest ← entriesFrom last (← getNext p)
    pure ((p, v) :: rest)
  else pure []
partial_fixpoint

/-- Iterators and values of a list in iteration order: `begin()` to `end()` with `++`. -/
def entries (c : Addr) : Prog (Heap T) (List (Addr × T)) := do entriesFrom c (← getNext c)

/-- The client loop `for (it = last; it != first;) { --it; collect(it, *it); }`. -/
def backwardFrom (first p : Addr) : Prog (Heap T) (List (Addr × T)) := do
  if p ≠ first then do
    let q ← getPrev p
    let v ← getVal q
    let rest ← backwardFrom first q
    pure ((q, v) :: rest)
  else pure []
partial_fixpoint

/-- Iterators and values from `end()` back to `begin()` with `--`. -/
def entriesBackward (c : Addr) : Prog (Heap T) (List (Addr × T)) := do backwardFrom (← getNext c) c

end Verif.Seq.DList
