import Verif.Vec.Heap
import Verif.Order
/-!
# Model of `ttl::sorted_vector_map` (ttl/sorted_vector_map.hpp)

The map is a sorted array of pointers to separately allocated `pair` objects. Memory is the memory of `Verif.Vec.Heap`: slots hold either a
pointer (the array) or a pair (a node, which is a block of one slot). A slot of a pointer array that was never written reads as
`Fault.lifetime` (an indeterminate value); writing a pointer needs no object there (pointers are scalars).

Simplifications, besides those of `Verif.Vec.Heap`: `const KT &` and `const value_type &` arguments are passed as values (no member function
modifies a pair before it has used its argument for the last time, so an argument inside a map is read with the value it had); `==` of the key
type is equality; element copies do not throw. `unsigned` has 32 bits. Declared but not defined in the header, hence not modelled: the range
constructor, `operator=`, `insert(iterator, value)`, `insert(first, last)`, all `erase`, `swap`.
-/
set_option linter.unusedVariables false
set_option linter.unusedSimpArgs false
namespace Verif.SVMap
open Verif Verif.Vec

/-- What a slot holds: a `value_type *` or a `value_type`. -/
inductive Cell (K V : Type) where
  | ptr (p : Ptr)
  | pair (k : K) (v : V)

/-- The data members `elements_`, `last_`, `end_of_elements_` (ttl/sorted_vector_map.hpp:218). -/
structure Rec where
  elements : Ptr
  last : Ptr
  eoe : Ptr

/-- Memory with sorted vector maps. -/
abbrev Mem (K V : Type) := Heap Rec (Cell K V)

variable {K V : Type}

/-- `*p` for `value_type **p`, read -/
def rdPtr (p : Ptr) : Prog (Mem K V) Ptr := do
  match ← read p with
  | .ptr q => pure q
  | .pair _ _ => Prog.fail .access
/-- `*p` for `value_type *p`, read -/
def rdPair (p : Ptr) : Prog (Mem K V) (K × V) := do
  match ← read p with
  | .pair k v => pure (k, v)
  | .ptr _ => Prog.fail .access
/-- `*p = q` for `value_type **p` -/
def wrPtr (p q : Ptr) : Prog (Mem K V) Unit := fun h =>
  inBlock h p (.ok ((), { h with slot := upd h.slot p.blk (upd (h.slot p.blk) p.off (some (.ptr q))) }))
/-- `p->second = v` for `value_type *p` -/
def wrSecond (p : Ptr) (v : V) : Prog (Mem K V) Unit := do
  let e ← rdPair p
  write p (.pair e.1 v)
/-- `new value_type *[n]` -/
def newArray (n : Nat) : Prog (Mem K V) Ptr := alloc n
/-- `delete [] p` for an array of pointers -/
def deleteArray (p : Ptr) : Prog (Mem K V) Unit := fun h =>
  if p = Ptr.null then .ok ((), h) else
  match h.size p.blk with
  | some _ => if p.off = 0 then .ok ((), { h with size := upd h.size p.blk none, slot := upd h.slot p.blk fun _ => none }) else .ub .access
  | none => .ub .access
/-- `new value_type(value)` -/
def newPair (e : K × V) : Prog (Mem K V) Ptr := do
  let p ← alloc 1
  construct p (.pair e.1 e.2)
  return p
/-- `delete p` for a pair -/
def deletePair (p : Ptr) : Prog (Mem K V) Unit := do
  if p = Ptr.null then pure () else
  destruct p
  free p

/-- `sorted_vector_map()` (ttl/sorted_vector_map.hpp:91-93). -/
def create : Prog (Mem K V) Nat := newObj ⟨Ptr.null, Ptr.null, Ptr.null⟩

/-- `sorted_vector_map(size_type prealloc)` (ttl/sorted_vector_map.hpp:95-99). -/
def ctor (prealloc : Nat) : Prog (Mem K V) Nat := do
  let c ← newObj ⟨Ptr.null, Ptr.null, Ptr.null⟩
  let a ← newArray prealloc
  setObj c ⟨a, a, a + prealloc⟩
  return c

/-- The loop of the destructor (ttl/sorted_vector_map.hpp:105-106): `for (i = elements_; i != last_; ++i) delete *i;` -/
def destroyLoop (i last : Ptr) : Prog (Mem K V) Unit := do
  if i ≠ last then
    deletePair (← rdPtr i)
    destroyLoop (i + 1) last
  else pure ()
partial_fixpoint

/-- `~sorted_vector_map()` (ttl/sorted_vector_map.hpp:103-108). -/
def destroy (c : Nat) : Prog (Mem K V) Unit := do
  let r ← getObj c
  destroyLoop r.elements r.last
  deleteArray r.elements
  dropObj c

/-- The loop of the copy constructor (ttl/sorted_vector_map.hpp:230-231). -/
def copyLoop (c : Nat) (i last : Ptr) : Prog (Mem K V) Unit := do
  if i ≠ last then
    let e ← rdPair (← rdPtr i)
    let p ← newPair e
    let r ← getObj c
    setObj c { r with last := r.last + 1 }
    wrPtr r.last p
    copyLoop c (i + 1) last
  else pure ()
partial_fixpoint

/-- `sorted_vector_map(const sorted_vector_map &other)` (ttl/sorted_vector_map.hpp:225-232). -/
def copyOf (d : Nat) : Prog (Mem K V) Nat := do
  let c ← newObj ⟨Ptr.null, Ptr.null, Ptr.null⟩
  let o ← getObj d
  let prealloc ← diff o.eoe o.elements
  let a ← newArray prealloc
  setObj c ⟨a, a, a + prealloc⟩
  copyLoop c o.elements o.last
  return c

/-- `begin()` (ttl/sorted_vector_map.hpp:123-124, 127). -/
def begin_ (c : Nat) : Prog (Mem K V) Ptr := do return (← getObj c).elements
/-- `end()` (ttl/sorted_vector_map.hpp:125-126, 128). -/
def end_ (c : Nat) : Prog (Mem K V) Ptr := do return (← getObj c).last
/-- `size()` (ttl/sorted_vector_map.hpp:130). -/
def size (c : Nat) : Prog (Mem K V) Nat := do
  let r ← getObj c
  diff r.last r.elements
/-- `empty()` (ttl/sorted_vector_map.hpp:131). -/
def empty (c : Nat) : Prog (Mem K V) Bool := do
  let r ← getObj c
  return decide (r.last = r.elements)
/-- `*i` of an iterator (ttl/sorted_vector_map.hpp:46, 71). -/
def deref (i : Ptr) : Prog (Mem K V) (K × V) := do rdPair (← rdPtr i)
/-- `++i` of an iterator (ttl/sorted_vector_map.hpp:48, 73). -/
def next (i : Ptr) : Ptr := i + 1
/-- `--i` of an iterator (ttl/sorted_vector_map.hpp:50, 75). -/
def prev (i : Ptr) : Prog (Mem K V) Ptr := dec i

/-- `clear()` (ttl/sorted_vector_map.hpp:134-138). -/
def clear (c : Nat) : Prog (Mem K V) Unit := do
  let r ← getObj c
  if ← less r.elements r.last then
    let l ← dec r.last
    setObj c { r with last := l }
    deletePair (← rdPtr l)
    clear c
  else pure ()
partial_fixpoint

/-- The number of values of `unsigned`. -/
def uintMod : Nat := 4294967296

section
variable [DecidableEq K] (lt : K → K → Bool)

/-- The loop of `bsearch` (ttl/sorted_vector_map.hpp:239-248). -/
def bsearchLoop (elements : Ptr) (key : K) (L H : Nat) : Prog (Mem K V) (Nat × Bool) := do
  if L < H then
    let m := L + (H - L) / 2
    let e ← rdPair (← rdPtr (elements + m))
    if e.1 = key then return (m, true)
    else
      let e ← rdPair (← rdPtr (elements + m))
      if lt e.1 key then bsearchLoop elements key (m + 1) H else bsearchLoop elements key L m
  else return (L, false)
partial_fixpoint

/-- `bsearch(key)` (ttl/sorted_vector_map.hpp:236-250). `unsigned L = 0, H = size();` cuts the size to 32 bits. -/
def bsearch (c : Nat) (key : K) : Prog (Mem K V) (Nat × Bool) := do
  let n ← size c
  let r ← getObj c
  bsearchLoop lt r.elements key 0 (n % uintMod)

/-- `find(key)` (ttl/sorted_vector_map.hpp:254-265). -/
def find (c : Nat) (key : K) : Prog (Mem K V) Ptr := do
  let re ← bsearch lt c key
  if re.2 then return (← getObj c).elements + re.1 else end_ c

/-- `find_insert_pos(key)` (ttl/sorted_vector_map.hpp:268-272). -/
def findInsertPos (c : Nat) (key : K) : Prog (Mem K V) Ptr := do
  let re ← bsearch lt c key
  return (← getObj c).elements + re.1

/-- `for (; i != last;) *o++ = *i++;` (ttl/sorted_vector_map.hpp:286-287, 290-291); returns `o`. -/
def copyPtrs (i last o : Ptr) : Prog (Mem K V) Ptr := do
  if i ≠ last then
    let q ← rdPtr i
    wrPtr o q
    copyPtrs (i + 1) last (o + 1)
  else pure o
partial_fixpoint

/-- `while (o < end_of_elements_) *o++ = (value_type *)0;` (ttl/sorted_vector_map.hpp:296-297). -/
def fillNull (o e : Ptr) : Prog (Mem K V) Unit := do
  if ← less o e then
    wrPtr o Ptr.null
    fillNull (o + 1) e
  else pure ()
partial_fixpoint

/-- `while (i != pos.ptr_) *--o = *--i;` (ttl/sorted_vector_map.hpp:302-303); returns `i`. -/
def shiftPtrs (i pos o : Ptr) : Prog (Mem K V) Ptr := do
  if i ≠ pos then
    let i ← dec i
    let q ← rdPtr i
    let o ← dec o
    wrPtr o q
    shiftPtrs i pos o
  else pure i
partial_fixpoint

/-- `insert_before(pos, value)` (ttl/sorted_vector_map.hpp:275-306). -/
def insertBefore (c : Nat) (pos : Ptr) (value : K × V) : Prog (Mem K V) Ptr := do
  let r ← getObj c
  if (← diff r.eoe r.last) < 1 then
    let n ← diff r.eoe r.elements
    let n := n + n / 2
    let newcapacity := if n = 0 then 2 else n
    let newelements ← newArray newcapacity
    let o ← copyPtrs r.elements pos newelements
    let p ← newPair value
    wrPtr o p
    let pos' := o
    let o ← copyPtrs pos r.last (o + 1)
    deleteArray r.elements
    setObj c ⟨newelements, o, newelements + newcapacity⟩
    fillNull o (newelements + newcapacity)
    return pos'
  else
    let i := r.last
    setObj c { r with last := r.last + 1 }
    let o := r.last + 1
    let i ← shiftPtrs i pos o
    let p ← newPair value
    wrPtr i p
    return i

/-- `insert(value)` (ttl/sorted_vector_map.hpp:140-146). -/
def insert (c : Nat) (value : K × V) : Prog (Mem K V) (Ptr × Bool) := do
  let i ← findInsertPos lt c value.1
  let e ← end_ c
  if i ≠ e then
    let x ← deref i
    if x.1 = value.1 then return (i, false)
    else return (← insertBefore c i value, true)
  else return (← insertBefore c i value, true)

/-- `operator[](key)` (ttl/sorted_vector_map.hpp:112-118); the result is the pair whose `second` is referred to. `dv` is `T()`. -/
def index (dv : V) (c : Nat) (key : K) : Prog (Mem K V) Ptr := do
  let i ← findInsertPos lt c key
  let e ← end_ c
  if i ≠ e then
    let x ← deref i
    if x.1 = key then rdPtr i
    else rdPtr (← insertBefore c i (key, dv))
  else rdPtr (← insertBefore c i (key, dv))

/-- `at(key)` (ttl/sorted_vector_map.hpp:120-121); the result is the pair whose `second` is referred to. -/
def at_ (c : Nat) (key : K) : Prog (Mem K V) Ptr := do rdPtr (← find lt c key)

/-- `count(key)` (ttl/sorted_vector_map.hpp:161): the value of the comparison `find(key) == cend()`. -/
def count (c : Nat) (key : K) : Prog (Mem K V) Nat := do
  let i ← find lt c key
  let e ← end_ c
  return if i = e then 1 else 0

/-- `equal_range(key)` (ttl/sorted_vector_map.hpp:163-178). -/
def equalRange (c : Nat) (key : K) : Prog (Mem K V) (Ptr × Ptr) := do
  let i1 ← find lt c key
  let i2 := i1
  if i2 ≠ (← end_ c) then return (i1, next i2) else return (i1, i2)

/-- `lower_bound(key)` (ttl/sorted_vector_map.hpp:180-181). -/
def lowerBound (c : Nat) (key : K) : Prog (Mem K V) Ptr := findInsertPos lt c key

/-- The loop of `upper_bound` (ttl/sorted_vector_map.hpp:186-187). -/
def upperLoop (c : Nat) (key : K) (i : Ptr) : Prog (Mem K V) Ptr := do
  let e ← end_ c
  if i ≠ e then
    let x ← deref i
    if x.1 = key then upperLoop c key (next i) else pure i
  else pure i
partial_fixpoint

/-- `upper_bound(key)` (ttl/sorted_vector_map.hpp:183-196). -/
def upperBound (c : Nat) (key : K) : Prog (Mem K V) Ptr := do upperLoop c key (← findInsertPos lt c key)
end

/-- A client loop `for (i = m.begin(); i != m.end(); ++i)` that collects `*i`. -/
def walk (i last : Ptr) : Prog (Mem K V) (List (K × V)) := do
  if i ≠ last then
    let e ← deref i
    return e :: (← walk (next i) last)
  else return []
partial_fixpoint

/-- The elements, as a client sees them. -/
def toList (c : Nat) : Prog (Mem K V) (List (K × V)) := do walk (← begin_ c) (← end_ c)

/-- A client loop `for (i = m.end(); i != m.begin();) { --i; … }` that collects `*i`. -/
def walkBack (i first : Ptr) : Prog (Mem K V) (List (K × V)) := do
  if i ≠ first then
    let i ← prev i
    let e ← deref i
    return e :: (← walkBack i first)
  else return []
partial_fixpoint

/-- The elements backwards, as a client sees them. -/
def toListBack (c : Nat) : Prog (Mem K V) (List (K × V)) := do walkBack (← end_ c) (← begin_ c)

end Verif.SVMap
