import Verif.Vec.Model
/-!
# Model of `ttl::fixed_vector` (ttl/fixed_vector.hpp)

Function by function, statement by statement. The capacity `N` is a parameter. A fixed vector is identified by the identity `c` of its object; its
storage `bytes_` (ttl/fixed_vector.hpp:37) is the block with the same identity, of `N` slots, and its only other data member is `last_`.
-/
set_option linter.unusedVariables false
namespace Verif.Vec.FV
open Verif Verif.Vec
variable {T : Type}

/-- Memory with fixed vectors of `T`; the data member is `last_` (ttl/fixed_vector.hpp:38). -/
abbrev Mem (T : Type) := Heap Ptr T

/-- `elements()` (ttl/fixed_vector.hpp:39) -/
def elements (c : Nat) : Ptr := ⟨c, 0⟩
/-- `end_of_elements()` (ttl/fixed_vector.hpp:40) -/
def eoe (N c : Nat) : Ptr := ⟨c, N⟩

/-- Storage for a fixed vector object, `last_(elements())` (ttl/fixed_vector.hpp:43, 139, 146, 153, 161) -/
def newStore (N : Nat) : Prog (Mem T) Nat := fun h =>
  .ok (h.fresh, { obj := upd h.obj h.fresh (some (elements h.fresh)), size := upd h.size h.fresh (some N), slot := upd h.slot h.fresh (fun _ => none), fresh := h.fresh + 1 })
/-- End of the storage of a fixed vector object. -/
def dropStore (c : Nat) : Prog (Mem T) Unit := fun h =>
  match h.obj c with | some _ => .ok ((), { h with obj := upd h.obj c none, size := upd h.size c none }) | none => .ub .access

/-! ## Observers -/

/-- `begin()`, `cbegin()`, `data()` (ttl/fixed_vector.hpp:66-67, 70, 97-98) -/
def begin_ (c : Nat) : Prog (Mem T) Ptr := do
  let _ ← getObj c
  return elements c
/-- `end()`, `cend()` (ttl/fixed_vector.hpp:68-69, 71) -/
def end_ (c : Nat) : Prog (Mem T) Ptr := getObj c
/-- `size()` (ttl/fixed_vector.hpp:73) -/
def size (c : Nat) : Prog (Mem T) Nat := do diff (← getObj c) (elements c)
/-- `empty()` (ttl/fixed_vector.hpp:74) -/
def empty (c : Nat) : Prog (Mem T) Bool := do return (← getObj c) == elements c
/-- `full()` (ttl/fixed_vector.hpp:75) -/
def full (N c : Nat) : Prog (Mem T) Bool := do return (← getObj c) == eoe N c
/-- `max_size()`, `capacity()` (ttl/fixed_vector.hpp:76-77) -/
def capacity (N c : Nat) : Prog (Mem T) Nat := do
  let _ ← getObj c
  return N
/-- `operator[](n)`, `at(n)`: the reference (ttl/fixed_vector.hpp:89-92) -/
def at_ (c n : Nat) : Prog (Mem T) Ptr := do
  let _ ← getObj c
  return elements c + n
/-- `front()`: the reference (ttl/fixed_vector.hpp:93-94) -/
def front (c : Nat) : Prog (Mem T) Ptr := begin_ c
/-- `back()`: the reference (ttl/fixed_vector.hpp:95-96) -/
def back (c : Nat) : Prog (Mem T) Ptr := do dec (← end_ c)

/-! ## Loops -/

/-- `new(last_++) T(v)` (ttl/fixed_vector.hpp:63, 113, 142, 149, 156, 172, 181, 224, 256) -/
def appendOne (c : Nat) (v : T) : Prog (Mem T) Unit := do
  let l ← getObj c
  setObj c (l + 1)
  construct l v

/-- `while (n-- && !full()) ::new(last_++) T(value)` (ttl/fixed_vector.hpp:141-142, 148-149, 180-181, 223-224); `for (; first != last && !full();
++first) new(last_++) T(*first)` over a range of `n` elements (ttl/fixed_vector.hpp:62-63, 255-256) -/
def fill (N c : Nat) : Nat → Src T → Prog (Mem T) Unit
  | 0, _ => pure ()
  | n + 1, s => do
    if (← full N c) then pure () else do
      let (v, s') ← s.next
      appendOne c v
      fill N c n s'

/-- `for (const_iterator i = other.cbegin(); i != other.cend() && !full(); ++i) ::new(last_++) T(*i)` (ttl/fixed_vector.hpp:155-156) -/
def copyFull (N c d : Nat) (i : Ptr) : Prog (Mem T) Unit := do
  if i = (← end_ d) then pure () else do
    if (← full N c) then pure () else do
      let v ← read i
      appendOne c v
      copyFull N c d (i + 1)
partial_fixpoint

/-- `for (const_iterator i = other.cbegin(); i != other.cend(); ++i) ::new(last_++) T(*i)` (ttl/fixed_vector.hpp:171-172) -/
def copyAll (c d : Nat) (i : Ptr) : Prog (Mem T) Unit := do
  if i = (← end_ d) then pure () else do
    let v ← read i
    appendOne c v
    copyAll c d (i + 1)
partial_fixpoint

/-- `clear()` (ttl/fixed_vector.hpp:130-134) -/
def clear (c : Nat) : Prog (Mem T) Unit := do
  if (← empty c) then pure () else do
    let p ← dec (← getObj c)
    setObj c p
    destruct p
    clear c
partial_fixpoint

/-- `for (T *pos = elements() + new_size; last_ > pos;) (--last_)->~T()` (ttl/fixed_vector.hpp:188-189) -/
def shrinkTo (c : Nat) (pos : Ptr) : Prog (Mem T) Unit := do
  let l ← getObj c
  if (← less pos l) then do
    let p ← dec l
    setObj c p
    destruct p
    shrinkTo c pos
  else pure ()
partial_fixpoint

/-- `for (o = last_ + n; end_of_elements() < o && i != p; --o) (--i)->~T()`; the value are the final `i` and `o` (ttl/fixed_vector.hpp:208-209, 240-241) -/
def dropTail (e p i o : Ptr) : Prog (Mem T) (Ptr × Ptr) := do
  if (← less e o) then
    if i = p then pure (i, o) else do
      let i' ← dec i
      destruct i'
      let o' ← dec o
      dropTail e p i' o'
  else pure (i, o)
partial_fixpoint

/-- `for (o = p; n-- && o < end_of_elements();) ::new(o++) T(x)` (ttl/fixed_vector.hpp:218-219), `for (o = p; first != last && o < end_of_elements();
++first) ::new(o++) T(*first)` (ttl/fixed_vector.hpp:250-251) -/
def fillTo (e : Ptr) : Nat → Src T → Ptr → Prog (Mem T) Unit
  | 0, _, _ => pure ()
  | n + 1, s, o => do
    if (← less o e) then do
      let (v, s') ← s.next
      construct o v
      fillTo e n s' (o + 1)
    else pure ()

/-! ## Modifiers -/

/-- `insert(pos, n, x)` (ttl/fixed_vector.hpp:198-228) and `insert(pos, first, last)` with `last - first == n` (ttl/fixed_vector.hpp:229-260) -/
def insertValues (N c : Nat) (pos : Ptr) (n : Nat) (s : Src T) : Prog (Mem T) Ptr := do
  let dist ← diff pos (← begin_ c)
  if n ≠ 0 then do
    if (← less pos (← end_ c)) then do
      let p := elements c + dist
      let l ← getObj c
      let (i, o) ← dropTail (eoe N c) p l (l + n)
      let o := if (← less (eoe N c) o) then eoe N c else o
      setObj c o
      shiftUp i p o
      fillTo (eoe N c) n s p
    else fill N c n s
  else pure ()
  return (← begin_ c) + dist

/-- `insert(pos, n, x)` (ttl/fixed_vector.hpp:198-228) -/
def insertN (N c : Nat) (pos : Ptr) (n : Nat) (x : Arg T) : Prog (Mem T) Ptr := insertValues N c pos n (.counter x)
/-- `insert(pos, x)` (ttl/fixed_vector.hpp:102-105) -/
def insert (N c : Nat) (pos : Ptr) (x : Arg T) : Prog (Mem T) Ptr := insertN N c pos 1 x
/-- `insert(pos, first, last)` with `last - first == n` (ttl/fixed_vector.hpp:229-260) -/
def insertRange (N c : Nat) (pos : Ptr) (n : Nat) (s : Src T) : Prog (Mem T) Ptr := insertValues N c pos n s

/-- `push_back(x)` (ttl/fixed_vector.hpp:110-114) -/
def pushBack (N c : Nat) (x : Arg T) : Prog (Mem T) Unit := do
  if (← full N c) then pure () else do
    let v ← x.get
    appendOne c v

/-- `pop_back()` (ttl/fixed_vector.hpp:116-119) -/
def popBack (c : Nat) : Prog (Mem T) Unit := do
  let p ← dec (← getObj c)
  setObj c p
  destruct p

/-- `for (; first != last && !full(); ++first) push_back(*first)` over a range of `n` elements (ttl/fixed_vector.hpp:163-164) -/
def pushAll (N c : Nat) : Nat → Src T → Prog (Mem T) Unit
  | 0, _ => pure ()
  | n + 1, s => do
    if (← full N c) then pure () else do
      pushBack N c (← s.deref)
      pushAll N c n s.succ

/-- `assign(n, value)` (ttl/fixed_vector.hpp:176-182) -/
def assignN (N c n : Nat) (value : Arg T) : Prog (Mem T) Unit := do
  clear c
  fill N c n (.counter value)

/-- `assign(first, last)` over a range of `n` elements (ttl/fixed_vector.hpp:58-64) -/
def assignRange (N c n : Nat) (s : Src T) : Prog (Mem T) Unit := do
  clear c
  fill N c n s

/-- `operator=` (ttl/fixed_vector.hpp:167-174) -/
def assign (c d : Nat) : Prog (Mem T) Unit := do
  clear c
  copyAll c d (← begin_ d)

/-- `resize(new_size)` (ttl/fixed_vector.hpp:184-196) -/
def resize (N : Nat) (dv : T) (c n : Nat) : Prog (Mem T) Unit := do
  let sz ← size c
  if n < sz then shrinkTo c (elements c + n)
  else do
    let n := if N < n then N else n
    let _ ← insertN N c (← end_ c) (n - (← size c)) (.ext dv)
    pure ()

/-- `resize(new_size, x)` (ttl/fixed_vector.hpp:81-87) -/
def resizeX (N : Nat) (dv : T) (c n : Nat) (x : Arg T) : Prog (Mem T) Unit := do
  if n < (← size c) then resize N dv c n
  else do
    let _ ← insertN N c (← end_ c) (n - (← size c)) x
    pure ()

/-- `erase(first, last)` (ttl/fixed_vector.hpp:262-277) -/
def eraseRange (c : Nat) (first last : Ptr) : Prog (Mem T) Ptr := do
  let off ← diff first (← begin_ c)
  let lastoff ← diff last (← begin_ c)
  destroyBack (elements c + off) (elements c + lastoff)
  let l ← getObj c
  let o ← shiftDown (elements c + lastoff) l (elements c + off)
  setObj c o
  return (← begin_ c) + off

/-- `erase(pos)` (ttl/fixed_vector.hpp:123-126) -/
def erase (c : Nat) (pos : Ptr) : Prog (Mem T) Ptr := eraseRange c pos (pos + 1)

/-- `ttl::swap_ranges` on element pointers, with `ttl::swap(*a, *b)` (ttl/algorithm.hpp:300-312, ttl/utility.hpp:40-45) -/
def swapRanges {ρ : Type} (i last o : Ptr) : Prog (Heap ρ T) Ptr := do
  if i = last then pure o else do
    let tmp ← read i
    write i (← read o)
    write o tmp
    swapRanges (i + 1) last (o + 1)
partial_fixpoint

/-- `while (e < b.last_) new (a.last_++) T(*e++)`; the value is the final `e` (ttl/fixed_vector.hpp:288-289) -/
def moveTail (a b : Nat) (e : Ptr) : Prog (Mem T) Ptr := do
  if (← less e (← getObj b)) then do
    let v ← read e
    appendOne a v
    moveTail a b (e + 1)
  else pure e
partial_fixpoint

/-- `swap(x)` of `c` with `x` (ttl/fixed_vector.hpp:279-293); `minsiz` is `a.size()` or `b.size()` as in the code -/
def swap (c x : Nat) : Prog (Mem T) Unit := do
  let this_a := decide ((← size c) < (← size x))
  let a := if this_a then c else x
  let b := if this_a then x else c
  let minsiz ← if this_a then size a else size b
  let _ ← swapRanges (elements a) (elements a + minsiz) (elements b)
  let e ← moveTail a b (elements b + minsiz)
  setObj b (elements b + minsiz)
  destroyDown e (← getObj b)

/-! ## Construction and destruction -/

/-- `fixed_vector()` (ttl/fixed_vector.hpp:43) -/
def create (N : Nat) : Prog (Mem T) Nat := newStore N

/-- `fixed_vector(n)` (ttl/fixed_vector.hpp:137-143) -/
def ctor (N : Nat) (dv : T) (n : Nat) : Prog (Mem T) Nat := do
  let c ← newStore N
  fill N c n (.counter (.ext dv))
  return c

/-- `fixed_vector(n, value)` (ttl/fixed_vector.hpp:144-150) -/
def ctorN (N n : Nat) (value : Arg T) : Prog (Mem T) Nat := do
  let c ← newStore N
  fill N c n (.counter value)
  return c

/-- `fixed_vector(const fixed_vector &other)` (ttl/fixed_vector.hpp:151-157) -/
def copyOf (N d : Nat) : Prog (Mem T) Nat := do
  let c ← newStore N
  copyFull N c d (← begin_ d)
  return c

/-- `fixed_vector(first, last)` over a range of `n` elements (ttl/fixed_vector.hpp:158-165) -/
def ctorRange (N n : Nat) (s : Src T) : Prog (Mem T) Nat := do
  let c ← newStore N
  pushAll N c n s
  return c

/-- `~fixed_vector()` and the end of the storage of the object (ttl/fixed_vector.hpp:50-53) -/
def destroy (c : Nat) : Prog (Mem T) Unit := do
  clear c
  dropStore c

/-! ## Comparison and client loops -/

/-- `operator==` (ttl/fixed_vector.hpp:295-299) -/
def equal (eq : T → T → Bool) (c d : Nat) : Prog (Mem T) Bool := do
  equalPtr eq (← begin_ c) (← end_ c) (← begin_ d) (← end_ d)
/-- `operator!=` (ttl/fixed_vector.hpp:300-304) -/
def notEqual (eq : T → T → Bool) (c d : Nat) : Prog (Mem T) Bool := do return !(← equal eq c d)

/-- The values a client sees iterating from `begin()` to `end()`. -/
def toList (c : Nat) : Prog (Mem T) (List T) := do walk (← begin_ c) (← end_ c)

/-- `v[i] = x` -/
def store (c i : Nat) (x : Arg T) : Prog (Mem T) Unit := do
  let v ← x.get
  write (← at_ c i) v

end Verif.Vec.FV
