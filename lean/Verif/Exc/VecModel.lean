import Verif.Exc.Base
import Verif.Vec.Step
/-!
# `ttl::vector` when allocation or element copies throw

The throwing versions of the members of ttl/vector.hpp. The points where an exception may appear are: `::operator new`, the constructor in
`::new(p) T(v)`, and the element's assignment in the client's `v[i] = x`. Destroying elements, `::operator delete` and pointer arithmetic throw
nothing. Each definition is the one of `Verif.Vec.Model` with these points put in; note where `last_` changes.
-/
set_option linter.unusedVariables false
namespace Verif.Exc.XVec
open Verif Verif.Vec Verif.Exc
variable {T ρ : Type}

/-- `static_cast<T *>(::operator new(n * sizeof(T)))` (ttl/vector.hpp:178, 186, 194, 239, 263) -/
def alloc (n : Nat) : Thr (Heap ρ T) Ptr := do Thr.point; Thr.call (Vec.alloc n)

/-- `::new(p) T(v)`: a constructor that throws leaves no object -/
def construct (p : Ptr) (v : T) : Thr (Heap ρ T) Unit := do Thr.point; Thr.call (Vec.construct p v)

/-- `::new(last_++) T(v)` (ttl/vector.hpp:144, 181, 189, 197, 214, 223, 296): `last_` is incremented when the address is computed, before the
constructor runs -/
def appendOne (c : Nat) (v : T) : Thr (Mem T) Unit := do
  let r ← Thr.call (getObj c)
  Thr.call (setObj c { r with last := r.last + 1 })
  construct r.last v

/-- ttl/vector.hpp:188-189, 222-223, 180-181, 295-296 -/
def fillBack (c : Nat) : Nat → Src T → Thr (Mem T) Unit
  | 0, _ => pure ()
  | n + 1, s => do
    let (v, s') ← Thr.call s.next
    appendOne c v
    fillBack c n s'

/-- ttl/vector.hpp:196-197, 213-214 -/
def copyAll (c d : Nat) (i : Ptr) : Thr (Mem T) Unit := do
  let e ← Thr.call (end_ d)
  if i = e then pure () else do
    let v ← Thr.call (read i)
    appendOne c v
    copyAll c d (i + 1)
partial_fixpoint

/-- ttl/vector.hpp:241-242, 266-267, 270-271 -/
def copyTo (i last o : Ptr) : Thr (Heap ρ T) Ptr := do
  if i = last then pure o else do
    let v ← Thr.call (read i)
    construct o v
    copyTo (i + 1) last (o + 1)
partial_fixpoint

/-- ttl/vector.hpp:268-269, 290-291 -/
def fillAt : Nat → Src T → Ptr → Thr (Heap ρ T) Ptr
  | 0, _, o => pure o
  | n + 1, s, o => do
    let (v, s') ← Thr.call s.next
    construct o v
    fillAt n s' (o + 1)

/-- ttl/vector.hpp:285-289 -/
def shiftUp (i pos o : Ptr) : Thr (Heap ρ T) Unit := do
  if i = pos then pure () else do
    let o' ← Thr.call (dec o)
    let i' ← Thr.call (dec i)
    let v ← Thr.call (read i')
    construct o' v
    Thr.call (destruct i')
    shiftUp i' pos o'
partial_fixpoint

/-- ttl/vector.hpp:310-315 -/
def shiftDown (i last o : Ptr) : Thr (Heap ρ T) Ptr := do
  if i = last then pure o else do
    let v ← Thr.call (read i)
    construct o v
    Thr.call (destruct i)
    shiftDown (i + 1) last (o + 1)
partial_fixpoint

/-- `reserve(n)` (ttl/vector.hpp:235-249): `this` changes when everything has been copied -/
def reserve (c n : Nat) : Thr (Mem T) Unit := do
  let r ← Thr.call (getObj c)
  let b ← Thr.call (less (r.elems + n) r.eoe)
  if b then pure () else do
    let p ← alloc n
    let o ← copyTo r.elems r.last p
    Thr.call (do
      destroyDown r.last r.elems
      free r.elems
      setObj c ⟨p, o, p + n⟩)

/-- The body of `insert_values` (ttl/vector.hpp:258-299, the part under `if (n > 0)`): within capacity `last_` changes first (line 284) -/
def insertBody (c : Nat) (r : Rep) (pos : Ptr) (dist n : Nat) (s : Src T) : Thr (Mem T) Unit := do
  let room ← Thr.call (diff r.eoe r.last)
  if room < n then do
    let sz ← Thr.call (size c)
    let p ← alloc (sz + n)
    let o ← copyTo r.elems pos p
    let o ← fillAt n s o
    let o ← copyTo pos r.last o
    Thr.call (do
      destroyDown r.last r.elems
      free r.elems
      setObj c ⟨p, o, p + (sz + n)⟩)
  else do
    let b ← Thr.call (less pos r.last)
    if b then do
      Thr.call (setObj c ⟨r.elems, r.last + n, r.eoe⟩)
      shiftUp r.last pos (r.last + n)
      let _ ← fillAt n s (r.elems + dist)
      pure ()
    else fillBack c n s

/-- `insert_values(pos, n, vc, args)` (ttl/vector.hpp:252-301) -/
def insertValues (c : Nat) (pos : Ptr) (n : Nat) (s : Src T) : Thr (Mem T) Ptr := do
  let r ← Thr.call (getObj c)
  let dist ← Thr.call (diff pos r.elems)
  let _ ← if 0 < n then insertBody c r pos dist n s else pure ()
  let b ← Thr.call (begin_ c)
  return b + dist

/-- `push_back(x)` (ttl/vector.hpp:141-147) -/
def pushBack (c : Nat) (x : Arg T) : Thr (Mem T) Unit := do
  let r ← Thr.call (getObj c)
  let b ← Thr.call (less r.last r.eoe)
  if b then do
    let v ← Thr.call x.get
    appendOne c v
  else do
    let e ← Thr.call (end_ c)
    let _ ← insertValues c e 1 (.counter x)
    pure ()

/-- ttl/vector.hpp:83-84, 205-206 -/
def pushAll (c : Nat) : Nat → Src T → Thr (Mem T) Unit
  | 0, _ => pure ()
  | n + 1, s => do
    let a ← Thr.call s.deref
    pushBack c a
    pushAll c n s.succ

/-- `assign(n, value)` (ttl/vector.hpp:218-224) -/
def assignN (c n : Nat) (value : Arg T) : Thr (Mem T) Unit := do
  Thr.call (clear c)
  reserve c n
  fillBack c n (.counter value)

/-- `assign(first, last)` (ttl/vector.hpp:79-85) -/
def assignRange (c n : Nat) (s : Src T) : Thr (Mem T) Unit := do
  Thr.call (clear c)
  pushAll c n s

/-- `operator=` (ttl/vector.hpp:209-216) -/
def assign (c d : Nat) : Thr (Mem T) Unit := do
  Thr.call (clear c)
  let n ← Thr.call (capacity d)
  reserve c n
  let b ← Thr.call (begin_ d)
  copyAll c d b

/-- `resize(new_size)` (ttl/vector.hpp:226-233): `value_type()` may throw, too -/
def resize (dv : T) (c n : Nat) : Thr (Mem T) Unit := do
  let sz ← Thr.call (size c)
  if n < sz then Thr.call (Vec.resize dv c n)
  else do
    let e ← Thr.call (end_ c)
    Thr.point
    let _ ← insertValues c e (n - sz) (.counter (.ext dv))
    pure ()

/-- `resize(new_size, x)` (ttl/vector.hpp:101-107) -/
def resizeX (dv : T) (c n : Nat) (x : Arg T) : Thr (Mem T) Unit := do
  let sz ← Thr.call (size c)
  if n < sz then Thr.call (Vec.resize dv c n)
  else do
    let e ← Thr.call (end_ c)
    let _ ← insertValues c e (n - sz) (.counter x)
    pure ()

/-- `erase(first, last)` (ttl/vector.hpp:304-318): `last_` changes at the end -/
def eraseRange (c : Nat) (first last : Ptr) : Thr (Mem T) Ptr := do
  let r ← Thr.call (getObj c)
  let off ← Thr.call (diff first r.elems)
  let lastoff ← Thr.call (diff last r.elems)
  Thr.call (destroyBack (r.elems + off) (r.elems + lastoff))
  let o ← shiftDown (r.elems + lastoff) r.last (r.elems + off)
  Thr.call (setObj c { r with last := o })
  let b ← Thr.call (begin_ c)
  return b + off

/-- The common start of three constructors (ttl/vector.hpp:178-179, 186-187, 194-195). When an exception leaves a constructor the destructor
`~vector` does not run and the storage of the object ends. -/
def createN (c n : Nat) : Thr (Mem T) Unit := do
  let p ← alloc n
  Thr.call (setObj c ⟨p, p, p + n⟩)

/-- `vector(n)` (ttl/vector.hpp:176-182) and `vector(n, value)` (ttl/vector.hpp:184-190) -/
def ctorN (n : Nat) (value : Arg T) : Thr (Mem T) Nat := do
  let c ← Thr.call create
  Thr.unwinding (do createN c n; fillBack c n (.counter value)) (dropObj c)
  return c

/-- `vector(const vector &other)` (ttl/vector.hpp:192-198) -/
def copyOf (d : Nat) : Thr (Mem T) Nat := do
  let n ← Thr.call (size d)
  let c ← Thr.call create
  Thr.unwinding (do
    createN c n
    let b ← Thr.call (begin_ d)
    copyAll c d b) (dropObj c)
  return c

/-- `vector(first, last)` (ttl/vector.hpp:201-207) -/
def ctorRange (n : Nat) (s : Src T) : Thr (Mem T) Nat := do
  let c ← Thr.call create
  Thr.unwinding (do reserve c n; pushAll c n s) (dropObj c)
  return c

/-- `v[i] = x` in the client -/
def store (c i : Nat) (x : Arg T) : Thr (Mem T) Unit := do
  let v ← Thr.call x.get
  let p ← Thr.call (at_ c i)
  Thr.point
  Thr.call (write p v)

/-- A call of the client; the members not defined above throw nothing. -/
def exec (dv : T) : Call T → Thr (Mem T) Ret
  | .ctor n => do let c ← ctorN n (.ext dv); return .obj c
  | .ctorN n a => do let a ← Thr.call a.expr; let c ← ctorN n a; return .obj c
  | .copyOf d => do let c ← copyOf d; return .obj c
  | .ctorRange r => do let x ← Thr.call r.expr; let c ← ctorRange x.2 x.1; return .obj c
  | .assign c d => do assign c d; return .none
  | .assignN c n a => do let a ← Thr.call a.expr; assignN c n a; return .none
  | .assignRange c r => do let x ← Thr.call r.expr; assignRange c x.2 x.1; return .none
  | .resize c n => do resize dv c n; return .none
  | .resizeX c n a => do let a ← Thr.call a.expr; resizeX dv c n a; return .none
  | .reserve c n => do reserve c n; return .none
  | .insert c i a => do
    let a ← Thr.call a.expr
    let b ← Thr.call (begin_ c)
    let p ← insertValues c (b + i) 1 (.counter a)
    return .it p
  | .insertN c i n a => do
    let a ← Thr.call a.expr
    let b ← Thr.call (begin_ c)
    let p ← insertValues c (b + i) n (.counter a)
    return .it p
  | .insertRange c i r => do
    let x ← Thr.call r.expr
    let b ← Thr.call (begin_ c)
    let p ← insertValues c (b + i) x.2 x.1
    return .it p
  | .pushBack c a => do let a ← Thr.call a.expr; pushBack c a; return .none
  | .erase c i => do
    let b ← Thr.call (begin_ c)
    let p ← eraseRange c (b + i) (b + i + 1)
    return .it p
  | .eraseRange c i j => do
    let b ← Thr.call (begin_ c)
    let b' ← Thr.call (begin_ c)
    let p ← eraseRange c (b + i) (b' + j)
    return .it p
  | .store c i a => do let a ← Thr.call a.expr; store c i a; return .none
  | k => Thr.call (Vec.exec dv k)

end Verif.Exc.XVec
