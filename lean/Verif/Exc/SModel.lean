import Verif.Exc.Cover
import Verif.Map.SAnyProps
/-!
# `ttl::sorted_vector_map` when allocation, copies or comparisons throw

The throwing versions of the members of ttl/sorted_vector_map.hpp. The points where an exception may appear are: `new value_type *[n]`,
`new value_type(value)` (allocation, or the copy of the key or of the value), `T()` and the copies made by `make_pair` in `operator[]`, the key's `==` and
the comparator. Destroying pairs and copying pointers
throw nothing. Each definition is the one of `Verif.Map.SModel` with these points put in.

Assignments `m[k] = v`, `m.at(k) = v`, `i->second = v` are operations of the client; those that throw are not part of a call.
-/
set_option linter.unusedVariables false
namespace Verif.Exc.XSM
open Verif Verif.Vec Verif.SVMap Verif.Exc
variable {K V : Type}

/-- `new value_type *[n]` -/
def newArray (n : Nat) : Thr (Mem K V) Ptr := do Thr.point; Thr.call (SVMap.newArray n)
/-- `new value_type(value)`: if the constructor throws, the storage is released again. -/
def newPair (e : K × V) : Thr (Mem K V) Ptr := do Thr.point; Thr.call (SVMap.newPair e)
/-- `a == b` of keys -/
def same [DecidableEq K] (a b : K) : Thr (Mem K V) Bool := do Thr.point; pure (decide (a = b))
/-- `comp(a, b)` -/
def less (lt : K → K → Bool) (a b : K) : Thr (Mem K V) Bool := do Thr.point; pure (lt a b)

/-- `sorted_vector_map(size_type prealloc)` (ttl/sorted_vector_map.hpp:95-99). An exception ends the storage of the object; its members are
pointers, which have no destructor. -/
def ctor (prealloc : Nat) : Thr (Mem K V) Nat := do
  let c ← Thr.call (newObj ⟨Ptr.null, Ptr.null, Ptr.null⟩)
  let a ← Thr.unwinding (newArray prealloc) (dropObj c)
  Thr.call (setObj c ⟨a, a, a + prealloc⟩)
  pure c

/-- The loop of the copy constructor (ttl/sorted_vector_map.hpp:230-231). -/
def copyLoop (c : Nat) (i last : Ptr) : Thr (Mem K V) Unit := do
  if i ≠ last then do
    let q ← Thr.call (rdPtr i)
    let e ← Thr.call (rdPair q)
    let p ← newPair e
    let r ← Thr.call (getObj c)
    Thr.call (setObj c { r with last := r.last + 1 })
    Thr.call (wrPtr r.last p)
    copyLoop c (i + 1) last
  else pure ()
partial_fixpoint

/-- The body of the copy constructor (ttl/sorted_vector_map.hpp:227-231). -/
def copyBody (c d : Nat) : Thr (Mem K V) Unit := do
  let o ← Thr.call (getObj d)
  let prealloc ← Thr.call (diff o.eoe o.elements)
  let a ← newArray prealloc
  Thr.call (setObj c ⟨a, a, a + prealloc⟩)
  copyLoop c o.elements o.last

/-- `sorted_vector_map(const sorted_vector_map &other)` (ttl/sorted_vector_map.hpp:225-232); see `ctor`. -/
def copyOf (d : Nat) : Thr (Mem K V) Nat := do
  let c ← Thr.call (newObj ⟨Ptr.null, Ptr.null, Ptr.null⟩)
  Thr.unwinding (copyBody c d) (dropObj c)
  pure c

section
variable [DecidableEq K] (lt : K → K → Bool)

/-- The loop of `bsearch` (ttl/sorted_vector_map.hpp:239-248). -/
def bsearchLoop (elements : Ptr) (key : K) (L H : Nat) : Thr (Mem K V) (Nat × Bool) := do
  if L < H then do
    let q ← Thr.call (rdPtr (elements + (L + (H - L) / 2)))
    let e ← Thr.call (rdPair q)
    let b ← same e.1 key
    if b then pure (L + (H - L) / 2, true)
    else do
      let q ← Thr.call (rdPtr (elements + (L + (H - L) / 2)))
      let e ← Thr.call (rdPair q)
      let b ← less lt e.1 key
      if b then bsearchLoop elements key (L + (H - L) / 2 + 1) H else bsearchLoop elements key L (L + (H - L) / 2)
  else pure (L, false)
partial_fixpoint

/-- `bsearch(key)` (ttl/sorted_vector_map.hpp:236-250) -/
def bsearch (c : Nat) (key : K) : Thr (Mem K V) (Nat × Bool) := do
  let n ← Thr.call (size c)
  let r ← Thr.call (getObj c)
  bsearchLoop lt r.elements key 0 (n % uintMod)

/-- `find(key)` (ttl/sorted_vector_map.hpp:254-265) -/
def find (c : Nat) (key : K) : Thr (Mem K V) Ptr := do
  let re ← bsearch lt c key
  if re.2 then do
    let r ← Thr.call (getObj c)
    pure (r.elements + re.1)
  else Thr.call (end_ c)

/-- `find_insert_pos(key)` (ttl/sorted_vector_map.hpp:268-272) -/
def findInsertPos (c : Nat) (key : K) : Thr (Mem K V) Ptr := do
  let re ← bsearch lt c key
  let r ← Thr.call (getObj c)
  pure (r.elements + re.1)

/-- `insert_before(pos, value)` (ttl/sorted_vector_map.hpp:275-306). Where the array is full, the pair is made after the new array; where it is not,
after the element count has been raised and the pointers have been moved. -/
def insertBefore (c : Nat) (pos : Ptr) (value : K × V) : Thr (Mem K V) Ptr := do
  let r ← Thr.call (getObj c)
  let room ← Thr.call (diff r.eoe r.last)
  if room < 1 then do
    let n ← Thr.call (diff r.eoe r.elements)
    let a ← newArray (if n + n / 2 = 0 then 2 else n + n / 2)
    let o ← Thr.call (copyPtrs r.elements pos a)
    let p ← newPair value
    Thr.call (wrPtr o p)
    let o' ← Thr.call (copyPtrs pos r.last (o + 1))
    Thr.call (deleteArray r.elements)
    Thr.call (setObj c ⟨a, o', a + (if n + n / 2 = 0 then 2 else n + n / 2)⟩)
    Thr.call (fillNull o' (a + (if n + n / 2 = 0 then 2 else n + n / 2)))
    pure o
  else do
    Thr.call (setObj c { r with last := r.last + 1 })
    let i ← Thr.call (shiftPtrs r.last pos (r.last + 1))
    let p ← newPair value
    Thr.call (wrPtr i p)
    pure i

/-- `insert(value)` (ttl/sorted_vector_map.hpp:140-146) -/
def insert (c : Nat) (value : K × V) : Thr (Mem K V) (Ptr × Bool) := do
  let i ← findInsertPos lt c value.1
  let e ← Thr.call (end_ c)
  if i ≠ e then do
    let x ← Thr.call (deref i)
    let b ← same x.1 value.1
    if b then pure (i, false)
    else do
      let p ← insertBefore c i value
      pure (p, true)
  else do
    let p ← insertBefore c i value
    pure (p, true)

/-- `insert_before(i, make_pair(key, T()))` (ttl/sorted_vector_map.hpp:117). The temporary takes six operations that may throw: `T()`, the copy of the key to
the parameter of `make_pair` (ttl/utility.hpp:92), the copies of both parameters to those of `pair(T1, T2)` and from there to the members
(ttl/utility.hpp:57, 94). `T()` and the result of `make_pair` are made where they are needed, without a copy. -/
def insertMade (c : Nat) (pos : Ptr) (value : K × V) : Thr (Mem K V) Ptr := do
  Thr.point
  Thr.point
  Thr.point
  Thr.point
  Thr.point
  Thr.point
  insertBefore c pos value

/-- `operator[](key)` (ttl/sorted_vector_map.hpp:112-118) -/
def index (dv : V) (c : Nat) (key : K) : Thr (Mem K V) Ptr := do
  let i ← findInsertPos lt c key
  let e ← Thr.call (end_ c)
  if i ≠ e then do
    let x ← Thr.call (deref i)
    let b ← same x.1 key
    if b then Thr.call (rdPtr i)
    else do
      let p ← insertMade c i (key, dv)
      Thr.call (rdPtr p)
  else do
    let p ← insertMade c i (key, dv)
    Thr.call (rdPtr p)

/-- `at(key)` (ttl/sorted_vector_map.hpp:120-121) -/
def at_ (c : Nat) (key : K) : Thr (Mem K V) Ptr := do
  let i ← find lt c key
  Thr.call (rdPtr i)

/-- `count(key)` (ttl/sorted_vector_map.hpp:161) -/
def count (c : Nat) (key : K) : Thr (Mem K V) Nat := do
  let i ← find lt c key
  let e ← Thr.call (end_ c)
  pure (if i = e then 1 else 0)

/-- `equal_range(key)` (ttl/sorted_vector_map.hpp:163-178) -/
def equalRange (c : Nat) (key : K) : Thr (Mem K V) (Ptr × Ptr) := do
  let i ← find lt c key
  let e ← Thr.call (end_ c)
  if i ≠ e then pure (i, next i) else pure (i, i)

/-- `lower_bound(key)` (ttl/sorted_vector_map.hpp:180-181) -/
def lowerBound (c : Nat) (key : K) : Thr (Mem K V) Ptr := findInsertPos lt c key

/-- The loop of `upper_bound` (ttl/sorted_vector_map.hpp:186-187) -/
def upperLoop (c : Nat) (key : K) (i : Ptr) : Thr (Mem K V) Ptr := do
  let e ← Thr.call (end_ c)
  if i ≠ e then do
    let x ← Thr.call (deref i)
    let b ← same x.1 key
    if b then upperLoop c key (next i) else pure i
  else pure i
partial_fixpoint

/-- `upper_bound(key)` (ttl/sorted_vector_map.hpp:183-196) -/
def upperBound (c : Nat) (key : K) : Thr (Mem K V) Ptr := do
  let i ← findInsertPos lt c key
  upperLoop c key i

/-- Run a call of a client. -/
def exec (dv : V) : SVMap.Call K V → Thr (Mem K V) SVMap.Ret
  | .ctor n => do let c ← ctor n; pure (.obj c)
  | .copyOf d => do let c ← copyOf d; pure (.obj c)
  | .insert c k v => do let r ← insert lt c (k, v); pure (.ins r.1 r.2)
  | .index c k => do let p ← index lt dv c k; pure (.ref p)
  | .put c k v => do
    let p ← index lt dv c k
    Thr.call (wrSecond p v)
    pure .none
  | .setAt c k v => do
    let p ← at_ lt c k
    Thr.call (wrSecond p v)
    pure .none
  | κ => Thr.call (SVMap.exec lt dv κ)
end
end Verif.Exc.XSM
