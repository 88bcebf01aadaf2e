import Verif.Exc.Vec
import Verif.Vec.FApi
/-!
# `ttl::fixed_vector` when element copies throw

The throwing versions of the members of ttl/fixed_vector.hpp. The points where an exception may appear are the constructor in `::new(p) T(v)`, the
constructor and the two assignments in `ttl::swap`, and the element's assignment in the client's `v[i] = x`. An element's constructor or assignment that
throws leaves no object or the old value (what the element's own copy operation does in between is not modelled). Destroying elements and pointer arithmetic
throw nothing, and nothing is allocated. Each definition is the one of `Verif.Vec.FModel` with these points put in; note where `last_` changes.
-/
set_option linter.unusedVariables false
namespace Verif.Exc.XFv
open Verif Verif.Vec.FV Verif.Exc
open Verif.Vec hiding CArg CSrc Call Legal Mem Reach Ret State World appendOne arg_ok assign assignN assignRange at_ at_ok back back_ok begin_ begin_ok capacity capacity_ok clear clear_ok copies_val copyAll copyAll_ok copyOf create ctor ctorN ctorRange destroy empty empty_ok empty₀ end_ end_ok equal erase eraseRange eraseRange_end exec front insert insertN insertRange insertValues notEqual popBack popBack_ok pushAll pushBack put_exists put_other put_put put_same put_self resize resizeX retOf shrinkTo shrinkTo_ok size size_ok spec src_ok step_ok store sub_made swap swap_ok toList vals_some world_start
open Verif.Exc.XVec (construct shiftUp shiftDown)
variable {T ρ : Type}

/-- `new(last_++) T(v)` (ttl/fixed_vector.hpp:63, 113, 142, 149, 156, 172, 181, 224, 256, 289): `last_` is incremented before the constructor runs -/
def appendOne (c : Nat) (v : T) : Thr (Mem T) Unit := do
  let l ← Thr.call (getObj c)
  Thr.call (setObj c (l + 1))
  construct l v

/-- ttl/fixed_vector.hpp:62-63, 141-142, 148-149, 180-181, 223-224, 255-256 -/
def fill (N c : Nat) : Nat → Src T → Thr (Mem T) Unit
  | 0, _ => pure ()
  | n + 1, s => do
    let b ← Thr.call (full N c)
    if b then pure () else do
      let (v, s') ← Thr.call s.next
      appendOne c v
      fill N c n s'

/-- ttl/fixed_vector.hpp:155-156 -/
def copyFull (N c d : Nat) (i : Ptr) : Thr (Mem T) Unit := do
  let e ← Thr.call (end_ d)
  if i = e then pure () else do
    let b ← Thr.call (full N c)
    if b then pure () else do
      let v ← Thr.call (read i)
      appendOne c v
      copyFull N c d (i + 1)
partial_fixpoint

/-- ttl/fixed_vector.hpp:171-172 -/
def copyAll (c d : Nat) (i : Ptr) : Thr (Mem T) Unit := do
  let e ← Thr.call (end_ d)
  if i = e then pure () else do
    let v ← Thr.call (read i)
    appendOne c v
    copyAll c d (i + 1)
partial_fixpoint

/-- ttl/fixed_vector.hpp:218-219, 250-251 -/
def fillTo (e : Ptr) : Nat → Src T → Ptr → Thr (Mem T) Unit
  | 0, _, _ => pure ()
  | n + 1, s, o => do
    let b ← Thr.call (less o e)
    if b then do
      let (v, s') ← Thr.call s.next
      construct o v
      fillTo e n s' (o + 1)
    else pure ()

/-- `insert(pos, n, x)` (ttl/fixed_vector.hpp:198-228), `insert(pos, first, last)` (ttl/fixed_vector.hpp:229-260): the elements that do not fit are destroyed
and `last_` is set (lines 212, 244) before anything is copied -/
def insertValues (N c : Nat) (pos : Ptr) (n : Nat) (s : Src T) : Thr (Mem T) Ptr := do
  let b ← Thr.call (begin_ c)
  let dist ← Thr.call (diff pos b)
  let _ ← if n ≠ 0 then do
      let e ← Thr.call (end_ c)
      let inside ← Thr.call (less pos e)
      if inside then do
        let l ← Thr.call (getObj c)
        let (i, o) ← Thr.call (dropTail (eoe N c) (elements c + dist) l (l + n))
        let over ← Thr.call (less (eoe N c) o)
        let o := if over then eoe N c else o
        Thr.call (setObj c o)
        shiftUp i (elements c + dist) o
        fillTo (eoe N c) n s (elements c + dist)
      else fill N c n s
    else pure ()
  let b ← Thr.call (begin_ c)
  return b + dist

/-- `push_back(x)` (ttl/fixed_vector.hpp:110-114) -/
def pushBack (N c : Nat) (x : Arg T) : Thr (Mem T) Unit := do
  let b ← Thr.call (full N c)
  if b then pure () else do
    let v ← Thr.call x.get
    appendOne c v

/-- ttl/fixed_vector.hpp:163-164 -/
def pushAll (N c : Nat) : Nat → Src T → Thr (Mem T) Unit
  | 0, _ => pure ()
  | n + 1, s => do
    let b ← Thr.call (full N c)
    if b then pure () else do
      let a ← Thr.call s.deref
      pushBack N c a
      pushAll N c n s.succ

/-- `assign(n, value)` (ttl/fixed_vector.hpp:176-182), `assign(first, last)` (ttl/fixed_vector.hpp:58-64) -/
def assignValues (N c n : Nat) (s : Src T) : Thr (Mem T) Unit := do
  Thr.call (clear c)
  fill N c n s

/-- `operator=` (ttl/fixed_vector.hpp:167-174) -/
def assign (c d : Nat) : Thr (Mem T) Unit := do
  Thr.call (clear c)
  let b ← Thr.call (begin_ d)
  copyAll c d b

/-- `resize(new_size)` (ttl/fixed_vector.hpp:184-196): `value_type()` may throw, too -/
def resize (N : Nat) (dv : T) (c n : Nat) : Thr (Mem T) Unit := do
  let sz ← Thr.call (size c)
  if n < sz then Thr.call (shrinkTo c (elements c + n))
  else do
    let e ← Thr.call (end_ c)
    let sz ← Thr.call (size c)
    Thr.point
    let _ ← insertValues N c e ((if N < n then N else n) - sz) (.counter (.ext dv))
    pure ()

/-- `resize(new_size, x)` (ttl/fixed_vector.hpp:81-87) -/
def resizeX (N : Nat) (dv : T) (c n : Nat) (x : Arg T) : Thr (Mem T) Unit := do
  let sz ← Thr.call (size c)
  if n < sz then resize N dv c n
  else do
    let e ← Thr.call (end_ c)
    let sz ← Thr.call (size c)
    let _ ← insertValues N c e (n - sz) (.counter x)
    pure ()

/-- `erase(first, last)` (ttl/fixed_vector.hpp:262-277): `last_` changes at the end -/
def eraseRange (c : Nat) (first last : Ptr) : Thr (Mem T) Ptr := do
  let b ← Thr.call (begin_ c)
  let off ← Thr.call (diff first b)
  let b ← Thr.call (begin_ c)
  let lastoff ← Thr.call (diff last b)
  Thr.call (destroyBack (elements c + off) (elements c + lastoff))
  let l ← Thr.call (getObj c)
  let o ← shiftDown (elements c + lastoff) l (elements c + off)
  Thr.call (setObj c o)
  let b ← Thr.call (begin_ c)
  return b + off

/-- `ttl::swap_ranges` on element pointers, with `ttl::swap(*a, *b)`: `T tmp(a); a = b; b = tmp;` (ttl/algorithm.hpp:300-312, ttl/utility.hpp:40-45) -/
def swapRanges (i last o : Ptr) : Thr (Heap ρ T) Ptr := do
  if i = last then pure o else do
    let tmp ← Thr.call (read i)
    Thr.point
    let v ← Thr.call (read o)
    Thr.point
    Thr.call (write i v)
    Thr.point
    Thr.call (write o tmp)
    swapRanges (i + 1) last (o + 1)
partial_fixpoint

/-- ttl/fixed_vector.hpp:288-289 -/
def moveTail (a b : Nat) (e : Ptr) : Thr (Mem T) Ptr := do
  let l ← Thr.call (getObj b)
  let more ← Thr.call (less e l)
  if more then do
    let v ← Thr.call (read e)
    appendOne a v
    moveTail a b (e + 1)
  else pure e
partial_fixpoint

/-- `swap(x)` (ttl/fixed_vector.hpp:279-293) -/
def swap (c x : Nat) : Thr (Mem T) Unit := do
  let n ← Thr.call (size c)
  let m ← Thr.call (size x)
  let a := if n < m then c else x
  let b := if n < m then x else c
  let minsiz ← Thr.call (if n < m then size a else size b)
  let _ ← swapRanges (elements a) (elements a + minsiz) (elements b)
  let e ← moveTail a b (elements b + minsiz)
  Thr.call (do
    setObj b (elements b + minsiz)
    destroyDown e (← getObj b))

/-- `fixed_vector(n)` (ttl/fixed_vector.hpp:137-143), `fixed_vector(n, value)` (ttl/fixed_vector.hpp:144-150). When an exception leaves a constructor the
destructor `~fixed_vector` does not run, and the storage of the object ends with the elements made in it. -/
def ctorN (N n : Nat) (value : Arg T) : Thr (Mem T) Nat := do
  let c ← Thr.call (newStore N)
  Thr.unwinding (fill N c n (.counter value)) (dropStore c)
  return c

/-- `fixed_vector(const fixed_vector &other)` (ttl/fixed_vector.hpp:151-157) -/
def copyOf (N d : Nat) : Thr (Mem T) Nat := do
  let c ← Thr.call (newStore N)
  Thr.unwinding (do
    let b ← Thr.call (begin_ d)
    copyFull N c d b) (dropStore c)
  return c

/-- `fixed_vector(first, last)` (ttl/fixed_vector.hpp:158-165) -/
def ctorRange (N n : Nat) (s : Src T) : Thr (Mem T) Nat := do
  let c ← Thr.call (newStore N)
  Thr.unwinding (pushAll N c n s) (dropStore c)
  return c

/-- `v[i] = x` in the client -/
def store (c i : Nat) (x : Arg T) : Thr (Mem T) Unit := do
  let v ← Thr.call x.get
  let p ← Thr.call (at_ c i)
  Thr.point
  Thr.call (write p v)

/-- A call of the client; the members not defined above throw nothing. -/
def exec (N : Nat) (dv : T) : Call T → Thr (Mem T) Ret
  | .ctor n => do let c ← ctorN N n (.ext dv); return .obj c
  | .ctorN n a => do let a ← Thr.call a.expr; let c ← ctorN N n a; return .obj c
  | .copyOf d => do let c ← copyOf N d; return .obj c
  | .ctorRange r => do let x ← Thr.call r.expr; let c ← ctorRange N x.2 x.1; return .obj c
  | .assign c d => do assign c d; return .none
  | .assignN c n a => do let a ← Thr.call a.expr; assignValues N c n (.counter a); return .none
  | .assignRange c r => do let x ← Thr.call r.expr; assignValues N c x.2 x.1; return .none
  | .resize c n => do resize N dv c n; return .none
  | .resizeX c n a => do let a ← Thr.call a.expr; resizeX N dv c n a; return .none
  | .insert c i a => do
    let a ← Thr.call a.expr
    let b ← Thr.call (begin_ c)
    let p ← insertValues N c (b + i) 1 (.counter a)
    return .it p
  | .insertN c i n a => do
    let a ← Thr.call a.expr
    let b ← Thr.call (begin_ c)
    let p ← insertValues N c (b + i) n (.counter a)
    return .it p
  | .insertRange c i r => do
    let x ← Thr.call r.expr
    let b ← Thr.call (begin_ c)
    let p ← insertValues N c (b + i) x.2 x.1
    return .it p
  | .pushBack c a => do let a ← Thr.call a.expr; pushBack N c a; return .none
  | .erase c i => do
    let b ← Thr.call (begin_ c)
    let p ← eraseRange c (b + i) (b + i + 1)
    return .it p
  | .eraseRange c i j => do
    let b ← Thr.call (begin_ c)
    let b' ← Thr.call (begin_ c)
    let p ← eraseRange c (b + i) (b' + j)
    return .it p
  | .swap c d => do swap c d; return .none
  | .store c i a => do let a ← Thr.call a.expr; store c i a; return .none
  | k => Thr.call (FV.exec N dv k)

end Verif.Exc.XFv
