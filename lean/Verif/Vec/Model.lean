import Verif.Vec.Heap
/-!
# Model of `ttl::vector` (ttl/vector.hpp)

Function by function, statement by statement. A vector is identified by the identity `c` of its object. `value_type()` is the parameter `dv`.
-/
set_option linter.unusedVariables false
namespace Verif.Vec
open Verif
variable {T : Type}

/-- The data members `elements_`, `last_`, `end_of_elements_` (ttl/vector.hpp:33). -/
structure Rep where
  elems : Ptr
  last : Ptr
  eoe : Ptr
  deriving DecidableEq, Repr

/-- Memory with vectors of `T`. -/
abbrev Mem (T : Type) := Heap Rep T

/-! ## Observers -/

/-- `begin()`, `cbegin()`, `data()` (ttl/vector.hpp:87-88, 91, 119-120) -/
def begin_ (c : Nat) : Prog (Mem T) Ptr := do return (← getObj c).elems
/-- `end()`, `cend()` (ttl/vector.hpp:89-90, 92) -/
def end_ (c : Nat) : Prog (Mem T) Ptr := do return (← getObj c).last
/-- `size()` (ttl/vector.hpp:94) -/
def size (c : Nat) : Prog (Mem T) Nat := do
  let r ← getObj c
  diff r.last r.elems
/-- `empty()` (ttl/vector.hpp:95) -/
def empty (c : Nat) : Prog (Mem T) Bool := do return (← size c) == 0
/-- `capacity()` (ttl/vector.hpp:97) -/
def capacity (c : Nat) : Prog (Mem T) Nat := do
  let r ← getObj c
  diff r.eoe r.elems
/-- `operator[](n)`, `at(n)`: the reference (ttl/vector.hpp:111-114) -/
def at_ (c n : Nat) : Prog (Mem T) Ptr := do return (← getObj c).elems + n
/-- `front()`: the reference (ttl/vector.hpp:115-116) -/
def front (c : Nat) : Prog (Mem T) Ptr := begin_ c
/-- `back()`: the reference (ttl/vector.hpp:117-118) -/
def back (c : Nat) : Prog (Mem T) Ptr := do dec (← end_ c)

/-! ## Loops -/

/-- `::new(last_++) T(v)` (ttl/vector.hpp:144, 181, 189, 197, 214, 223, 296) -/
def appendOne (c : Nat) (v : T) : Prog (Mem T) Unit := do
  let r ← getObj c
  setObj c { r with last := r.last + 1 }
  construct r.last v

/-- `while (n--) ::new(last_++) T(value)` (ttl/vector.hpp:188-189, 222-223, also 180-181), `for (o = last_; n-- > 0;) (this->*vc)(last_++, args)`
(ttl/vector.hpp:295-296) -/
def fillBack (c : Nat) : Nat → Src T → Prog (Mem T) Unit
  | 0, _ => pure ()
  | n + 1, s => do
    let (v, s') ← s.next
    appendOne c v
    fillBack c n s'

/-- `for (const_iterator i = other.cbegin(); i != other.cend(); ++i) ::new(last_++) T(*i)` (ttl/vector.hpp:196-197, 213-214) -/
def copyAll (c d : Nat) (i : Ptr) : Prog (Mem T) Unit := do
  if i = (← end_ d) then pure () else do
    let v ← read i
    appendOne c v
    copyAll c d (i + 1)
partial_fixpoint

/-- `clear()` (ttl/vector.hpp:168-172); the loop of `resize` (ttl/vector.hpp:229-230) with `pos` in place of `elements_` -/
def shrinkTo (c : Nat) (pos : Ptr) : Prog (Mem T) Unit := do
  let r ← getObj c
  if (← less pos r.last) then do
    let p ← dec r.last
    setObj c { r with last := p }
    destruct p
    shrinkTo c pos
  else pure ()
partial_fixpoint

/-- `clear()` (ttl/vector.hpp:168-172) -/
def clear (c : Nat) : Prog (Mem T) Unit := do shrinkTo c (← begin_ c)

/-- `for (; i != last; ++i) ::new(o++) T(*i)`; the value is the final `o` (ttl/vector.hpp:241-242, 266-267, 270-271) -/
def copyTo {ρ : Type} (i last o : Ptr) : Prog (Heap ρ T) Ptr := do
  if i = last then pure o else do
    let v ← read i
    construct o v
    copyTo (i + 1) last (o + 1)
partial_fixpoint

/-- `for (; i > lo; ) (--i)->~T()` (ttl/vector.hpp:243-244, 272-273) -/
def destroyDown {ρ : Type} (i lo : Ptr) : Prog (Heap ρ T) Unit := do
  if (← less lo i) then do
    let p ← dec i
    destruct p
    destroyDown p lo
  else pure ()
partial_fixpoint

/-- `while (n-- > 0) (this->*vc)(o++, args)` (ttl/vector.hpp:268-269, 290-291); the value is the final `o` -/
def fillAt {ρ : Type} : Nat → Src T → Ptr → Prog (Heap ρ T) Ptr
  | 0, _, o => pure o
  | n + 1, s, o => do
    let (v, s') ← s.next
    construct o v
    fillAt n s' (o + 1)

/-- `for (o = last_; i != pos; ) { ::new(--o) T(*--i); i->~T(); }` (ttl/vector.hpp:285-289) -/
def shiftUp {ρ : Type} (i pos o : Ptr) : Prog (Heap ρ T) Unit := do
  if i = pos then pure () else do
    let o' ← dec o
    let i' ← dec i
    let v ← read i'
    construct o' v
    destruct i'
    shiftUp i' pos o'
partial_fixpoint

/-- `for (...; f != l;) (--l)->~T()` (ttl/vector.hpp:308-309) -/
def destroyBack {ρ : Type} (f l : Ptr) : Prog (Heap ρ T) Unit := do
  if f = l then pure () else do
    let l' ← dec l
    destruct l'
    destroyBack f l'
partial_fixpoint

/-- `for (...; i != last_; ++i) { ::new(o++) T(*i); i->~T(); }` (ttl/vector.hpp:310-315); the value is the final `o` -/
def shiftDown {ρ : Type} (i last o : Ptr) : Prog (Heap ρ T) Ptr := do
  if i = last then pure o else do
    let v ← read i
    construct o v
    destruct i
    shiftDown (i + 1) last (o + 1)
partial_fixpoint

/-! ## Modifiers -/

/-- `reserve(n)` (ttl/vector.hpp:235-249) -/
def reserve (c n : Nat) : Prog (Mem T) Unit := do
  let r ← getObj c
  if (← less (r.elems + n) r.eoe) then pure () else do
    let p ← alloc n
    let o ← copyTo r.elems r.last p
    destroyDown r.last r.elems
    free r.elems
    setObj c ⟨p, o, p + n⟩

/-- `insert_values(pos, n, vc, args)` (ttl/vector.hpp:252-301); in the copying branch the second copy loop goes on where the first one stopped -/
def insertValues (c : Nat) (pos : Ptr) (n : Nat) (s : Src T) : Prog (Mem T) Ptr := do
  let r ← getObj c
  let dist ← diff pos r.elems
  if 0 < n then do
    if (← diff r.eoe r.last) < n then do
      let newcapacity := (← size c) + n
      let p ← alloc newcapacity
      let o ← copyTo r.elems pos p
      let o ← fillAt n s o
      let o ← copyTo pos r.last o
      destroyDown r.last r.elems
      free r.elems
      setObj c ⟨p, o, p + newcapacity⟩
    else do
      if (← less pos r.last) then do
        setObj c { r with last := r.last + n }
        shiftUp r.last pos (r.last + n)
        let _ ← fillAt n s (r.elems + dist)
        pure ()
      else fillBack c n s
  else pure ()
  return (← begin_ c) + dist

/-- `insert(pos, n, x)` (ttl/vector.hpp:122-126) -/
def insertN (c : Nat) (pos : Ptr) (n : Nat) (x : Arg T) : Prog (Mem T) Ptr := insertValues c pos n (.counter x)
/-- `insert(pos, x)` (ttl/vector.hpp:128-132) -/
def insert (c : Nat) (pos : Ptr) (x : Arg T) : Prog (Mem T) Ptr := insertValues c pos 1 (.counter x)
/-- `insert(pos, first, last)` with `last - first == n` (ttl/vector.hpp:134-139) -/
def insertRange (c : Nat) (pos : Ptr) (n : Nat) (s : Src T) : Prog (Mem T) Ptr := insertValues c pos n s

/-- `push_back(x)` (ttl/vector.hpp:141-147) -/
def pushBack (c : Nat) (x : Arg T) : Prog (Mem T) Unit := do
  let r ← getObj c
  if (← less r.last r.eoe) then do
    let v ← x.get
    appendOne c v
  else do
    let _ ← insertN c (← end_ c) 1 x
    pure ()

/-- `pop_back()` (ttl/vector.hpp:149-152) -/
def popBack (c : Nat) : Prog (Mem T) Unit := do
  let r ← getObj c
  let p ← dec r.last
  setObj c { r with last := p }
  destruct p

/-- `for (; first != last; ++first) push_back(*first)` over a range of `n` elements (ttl/vector.hpp:83-84, 205-206) -/
def pushAll (c : Nat) : Nat → Src T → Prog (Mem T) Unit
  | 0, _ => pure ()
  | n + 1, s => do
    pushBack c (← s.deref)
    pushAll c n s.succ

/-- `assign(n, value)` (ttl/vector.hpp:218-224) -/
def assignN (c n : Nat) (value : Arg T) : Prog (Mem T) Unit := do
  clear c
  reserve c n
  fillBack c n (.counter value)

/-- `assign(first, last)` over a range of `n` elements (ttl/vector.hpp:79-85) -/
def assignRange (c n : Nat) (s : Src T) : Prog (Mem T) Unit := do
  clear c
  pushAll c n s

/-- `operator=` (ttl/vector.hpp:209-216) -/
def assign (c d : Nat) : Prog (Mem T) Unit := do
  clear c
  reserve c (← capacity d)
  copyAll c d (← begin_ d)

/-- `resize(new_size)` (ttl/vector.hpp:226-233) -/
def resize (dv : T) (c n : Nat) : Prog (Mem T) Unit := do
  let sz ← size c
  if n < sz then do
    shrinkTo c ((← begin_ c) + n)
  else do
    let _ ← insertN c (← end_ c) (n - sz) (.ext dv)
    pure ()

/-- `resize(new_size, x)` (ttl/vector.hpp:101-107) -/
def resizeX (dv : T) (c n : Nat) (x : Arg T) : Prog (Mem T) Unit := do
  let sz ← size c
  if n < sz then resize dv c n
  else do
    let _ ← insertN c (← end_ c) (n - sz) x
    pure ()

/-- `erase(first, last)` (ttl/vector.hpp:304-318) -/
def eraseRange (c : Nat) (first last : Ptr) : Prog (Mem T) Ptr := do
  let r ← getObj c
  let off ← diff first r.elems
  let lastoff ← diff last r.elems
  destroyBack (r.elems + off) (r.elems + lastoff)
  let o ← shiftDown (r.elems + lastoff) r.last (r.elems + off)
  setObj c { r with last := o }
  return (← begin_ c) + off

/-- `erase(pos)` (ttl/vector.hpp:156-159) -/
def erase (c : Nat) (pos : Ptr) : Prog (Mem T) Ptr := eraseRange c pos (pos + 1)

/-- `ttl::swap(this->f, x.f)` for one data member (ttl/vector.hpp:163-165, ttl/utility.hpp:40-45) -/
def swapField (c d : Nat) (get : Rep → Ptr) (set : Rep → Ptr → Rep) : Prog (Mem T) Unit := do
  let tmp := get (← getObj c)
  setObj c (set (← getObj c) (get (← getObj d)))
  setObj d (set (← getObj d) tmp)

/-- `swap(x)` (ttl/vector.hpp:161-166) -/
def swap (c d : Nat) : Prog (Mem T) Unit := do
  swapField c d Rep.elems fun r p => { r with elems := p }
  swapField c d Rep.last fun r p => { r with last := p }
  swapField c d Rep.eoe fun r p => { r with eoe := p }

/-! ## Construction and destruction -/

/-- `vector()` (ttl/vector.hpp:63) -/
def create : Prog (Mem T) Nat := newObj ⟨.null, .null, .null⟩

/-- The common start of three constructors: `last_ = elements_ = static_cast<T *>(::operator new(n * sizeof(T))); end_of_elements_ = elements_ + n`
(ttl/vector.hpp:178-179, 186-187, 194-195). The members hold arbitrary values before; here null pointers. -/
def createN (n : Nat) : Prog (Mem T) Nat := do
  let c ← newObj ⟨.null, .null, .null⟩
  let p ← alloc n
  setObj c ⟨p, p, p + n⟩
  return c

/-- `vector(n)` (ttl/vector.hpp:176-182) -/
def ctor (dv : T) (n : Nat) : Prog (Mem T) Nat := do
  let c ← createN n
  fillBack c n (.counter (.ext dv))
  return c

/-- `vector(n, value)` (ttl/vector.hpp:184-190) -/
def ctorN (n : Nat) (value : Arg T) : Prog (Mem T) Nat := do
  let c ← createN n
  fillBack c n (.counter value)
  return c

/-- `vector(const vector &other)` (ttl/vector.hpp:192-198) -/
def copyOf (d : Nat) : Prog (Mem T) Nat := do
  let c ← createN (← size d)
  copyAll c d (← begin_ d)
  return c

/-- `vector(first, last)` over a range of `n` elements (ttl/vector.hpp:201-207) -/
def ctorRange (n : Nat) (s : Src T) : Prog (Mem T) Nat := do
  let c ← create
  reserve c n
  pushAll c n s
  return c

/-- `~vector()` and the end of the storage of the object (ttl/vector.hpp:70-74) -/
def destroy (c : Nat) : Prog (Mem T) Unit := do
  clear c
  free (← begin_ c)
  dropObj c

/-! ## Comparison and client loops -/

/-- `ttl::equal(first1, last1, first2, last2)` on element pointers (ttl/algorithm.hpp:239-245) -/
def equalPtr {ρ : Type} (eq : T → T → Bool) (i1 last1 i2 last2 : Ptr) : Prog (Heap ρ T) Bool := do
  if i1 ≠ last1 ∧ i2 ≠ last2 then do
    if eq (← read i1) (← read i2) then equalPtr eq (i1 + 1) last1 (i2 + 1) last2 else pure false
  else pure (i1 = last1 ∧ i2 = last2)
partial_fixpoint

/-- `operator==` (ttl/vector.hpp:320-323) -/
def equal (eq : T → T → Bool) (c d : Nat) : Prog (Mem T) Bool := do
  equalPtr eq (← begin_ c) (← end_ c) (← begin_ d) (← end_ d)
/-- `operator!=` (ttl/vector.hpp:325-328) -/
def notEqual (eq : T → T → Bool) (c d : Nat) : Prog (Mem T) Bool := do return !(← equal eq c d)

/-- A client loop `for (i = first; i != last; ++i) use(*i)`: the values seen. -/
def walk {ρ : Type} (i last : Ptr) : Prog (Heap ρ T) (List T) := do
  if i = last then pure [] else do
    let v ← read i
    let vs ← walk (i + 1) last
    pure (v :: vs)
partial_fixpoint

/-- The values a client sees iterating from `begin()` to `end()`. -/
def toList (c : Nat) : Prog (Mem T) (List T) := do walk (← begin_ c) (← end_ c)

/-- `v[i] = x` -/
def store (c i : Nat) (x : Arg T) : Prog (Mem T) Unit := do
  let v ← x.get
  write (← at_ c i) v

end Verif.Vec
