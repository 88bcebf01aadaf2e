import Verif.Vec.Api
/-!
# `ttl::vector` with the numbers of a machine

In the model of `Verif.Vec.Model` sizes are natural numbers. Here `size_type` has the modulus `W`, an element takes `sz` bytes and a block of
storage has an address. Three things differ:

* `::operator new(n * sizeof(T))` gets the product modulo `W`: the block has room for `(n * sz mod W) / sz` elements;
* the number of elements of an insertion is passed as a `difference_type`: from `W / 2` on it is negative and nothing is inserted;
* the test `elements_ + n < end_of_elements_` of `reserve` compares addresses modulo `W`.

Everything else (the loops, the observers, `erase`, `swap`, `clear`, `pop_back`, the destructor) works on pointers that exist and is the model
of `Verif.Vec.Model`. Simplification: allocation does not fail (`Verif.Exc` has the executions in which it does).
-/
set_option linter.unusedVariables false
namespace Verif.Vec
open Verif
variable {T : Type}

/-- `W` is the number of values of `size_type`, `sz` is `sizeof(T)`, `addr b` is the address of block `b`; a null pointer is the address 0. -/
structure Machine where
  W : Nat
  sz : Nat
  addr : Nat → Nat
  pos : 0 < W
  one : 0 < sz
  null : addr 0 = 0

namespace Machine
variable (M : Machine)

/-- `max_size()` (ttl/vector.hpp:96) -/
def maxSize : Nat := (M.W - 1) / M.sz

/-- `static_cast<T *>(::operator new(n * sizeof(T)))` (ttl/vector.hpp:178, 186, 194, 239, 265) -/
def alloc (n : Nat) : Prog (Mem T) Ptr := Vec.alloc (n * M.sz % M.W / M.sz)

/-- The conversion of `size_type` to the parameter `difference_type n` of `insert_values` (ttl/vector.hpp:60, 125); a negative number is given as 0:
`insert_values` does the same with both (ttl/vector.hpp:257). -/
def toDifference (n : Nat) : Nat := if 2 * n < M.W then n else 0

/-- `p < q`, as a comparison of addresses -/
def less (p q : Ptr) : Prog (Mem T) Bool := fun h =>
  if p.blk = q.blk then .ok (decide ((M.addr p.blk + p.off * M.sz) % M.W < (M.addr q.blk + q.off * M.sz) % M.W), h) else .ub .arith

/-- `reserve(n)` (ttl/vector.hpp:235-249) -/
def reserve (c n : Nat) : Prog (Mem T) Unit := do
  let r ← getObj c
  if (← M.less (r.elems + n) r.eoe) then pure () else do
    let p ← M.alloc n
    let o ← copyTo r.elems r.last p
    destroyDown r.last r.elems
    free r.elems
    setObj c ⟨p, o, p + n⟩

/-- `insert_values(pos, n, vc, args)` (ttl/vector.hpp:252-301) with `n` not negative -/
def insertValues (c : Nat) (pos : Ptr) (n : Nat) (s : Src T) : Prog (Mem T) Ptr := do
  let r ← getObj c
  let dist ← diff pos r.elems
  if 0 < n then do
    if (← diff r.eoe r.last) < n then do
      let newcapacity := ((← Vec.size c) + n) % M.W
      let p ← M.alloc newcapacity
      let o ← copyTo r.elems pos p
      let o ← fillAt n s o
      let o ← copyTo pos r.last o
      destroyDown r.last r.elems
      free r.elems
      setObj c ⟨p, o, p + newcapacity⟩
    else do
      if (← Vec.less pos r.last) then do
        setObj c { r with last := r.last + n }
        shiftUp r.last pos (r.last + n)
        let _ ← fillAt n s (r.elems + dist)
        pure ()
      else fillBack c n s
  else pure ()
  return (← begin_ c) + dist

/-- `insert(pos, n, x)` (ttl/vector.hpp:122-126) -/
def insertN (c : Nat) (pos : Ptr) (n : Nat) (x : Arg T) : Prog (Mem T) Ptr := M.insertValues c pos (M.toDifference n) (.counter x)
/-- `insert(pos, x)` (ttl/vector.hpp:128-132) -/
def insert (c : Nat) (pos : Ptr) (x : Arg T) : Prog (Mem T) Ptr := M.insertValues c pos 1 (.counter x)
/-- `insert(pos, first, last)` with `last - first == n`, a `difference_type` (ttl/vector.hpp:134-139) -/
def insertRange (c : Nat) (pos : Ptr) (n : Nat) (s : Src T) : Prog (Mem T) Ptr := M.insertValues c pos n s

/-- `push_back(x)` (ttl/vector.hpp:141-147) -/
def pushBack (c : Nat) (x : Arg T) : Prog (Mem T) Unit := do
  let r ← getObj c
  if (← Vec.less r.last r.eoe) then do
    let v ← x.get
    appendOne c v
  else do
    let _ ← M.insertN c (← end_ c) 1 x
    pure ()

/-- `for (; first != last; ++first) push_back(*first)` over a range of `n` elements (ttl/vector.hpp:83-84, 205-206) -/
def pushAll (c : Nat) : Nat → Src T → Prog (Mem T) Unit
  | 0, _ => pure ()
  | n + 1, s => do
    M.pushBack c (← s.deref)
    pushAll c n s.succ

/-- `assign(n, value)` (ttl/vector.hpp:218-224) -/
def assignN (c n : Nat) (value : Arg T) : Prog (Mem T) Unit := do
  clear c
  M.reserve c n
  fillBack c n (.counter value)

/-- `assign(first, last)` over a range of `n` elements (ttl/vector.hpp:79-85) -/
def assignRange (c n : Nat) (s : Src T) : Prog (Mem T) Unit := do
  clear c
  M.pushAll c n s

/-- `operator=` (ttl/vector.hpp:209-216) -/
def assign (c d : Nat) : Prog (Mem T) Unit := do
  clear c
  M.reserve c (← capacity d)
  copyAll c d (← begin_ d)

/-- `resize(new_size)` (ttl/vector.hpp:226-233) -/
def resize (dv : T) (c n : Nat) : Prog (Mem T) Unit := do
  let sz ← Vec.size c
  if n < sz then do
    shrinkTo c ((← begin_ c) + n)
  else do
    let _ ← M.insertN c (← end_ c) (n - sz) (.ext dv)
    pure ()

/-- `resize(new_size, x)` (ttl/vector.hpp:101-107) -/
def resizeX (dv : T) (c n : Nat) (x : Arg T) : Prog (Mem T) Unit := do
  let sz ← Vec.size c
  if n < sz then M.resize dv c n
  else do
    let _ ← M.insertN c (← end_ c) (n - sz) x
    pure ()

/-- The common start of three constructors (ttl/vector.hpp:178-179, 186-187, 194-195) -/
def createN (n : Nat) : Prog (Mem T) Nat := do
  let c ← newObj ⟨.null, .null, .null⟩
  let p ← M.alloc n
  setObj c ⟨p, p, p + n⟩
  return c

/-- `vector(n)` (ttl/vector.hpp:176-182) -/
def ctor (dv : T) (n : Nat) : Prog (Mem T) Nat := do
  let c ← M.createN n
  fillBack c n (.counter (.ext dv))
  return c

/-- `vector(n, value)` (ttl/vector.hpp:184-190) -/
def ctorN (n : Nat) (value : Arg T) : Prog (Mem T) Nat := do
  let c ← M.createN n
  fillBack c n (.counter value)
  return c

/-- `vector(const vector &other)` (ttl/vector.hpp:192-198) -/
def copyOf (d : Nat) : Prog (Mem T) Nat := do
  let c ← M.createN (← Vec.size d)
  copyAll c d (← begin_ d)
  return c

/-- `vector(first, last)` over a range of `n` elements (ttl/vector.hpp:201-207) -/
def ctorRange (n : Nat) (s : Src T) : Prog (Mem T) Nat := do
  let c ← create
  M.reserve c n
  M.pushAll c n s
  return c

/-- Run the call on the machine. -/
def exec (dv : T) : Call T → Prog (Mem T) Ret
  | .ctor n => do return .obj (← M.ctor dv n)
  | .ctorN n a => do return .obj (← M.ctorN n (← a.expr))
  | .copyOf d => do return .obj (← M.copyOf d)
  | .ctorRange r => do
    let (s, n) ← r.expr
    return .obj (← M.ctorRange n s)
  | .assign c d => do M.assign c d; return .none
  | .assignN c n a => do M.assignN c n (← a.expr); return .none
  | .assignRange c r => do
    let (s, n) ← r.expr
    M.assignRange c n s
    return .none
  | .resize c n => do M.resize dv c n; return .none
  | .resizeX c n a => do M.resizeX dv c n (← a.expr); return .none
  | .reserve c n => do M.reserve c n; return .none
  | .insert c i a => do
    let a ← a.expr
    return .it (← M.insert c ((← begin_ c) + i) a)
  | .insertN c i n a => do
    let a ← a.expr
    return .it (← M.insertN c ((← begin_ c) + i) n a)
  | .insertRange c i r => do
    let (s, n) ← r.expr
    return .it (← M.insertRange c ((← begin_ c) + i) n s)
  | .pushBack c a => do M.pushBack c (← a.expr); return .none
  | k => Vec.exec dv k

end Machine

/-- The number of elements the call wants a vector to have room for. -/
def asks (S : State T) : Call T → Nat
  | .ctor n | .ctorN n _ | .assignN _ n _ | .resize _ n | .resizeX _ n _ | .reserve _ n => n
  | .copyOf d => (S.vals d).length
  | .ctorRange r | .assignRange _ r => (r.vals' S).length
  | .assign _ d => (S.get d).cap
  | .insert c _ _ | .pushBack c _ => (S.vals c).length + 1
  | .insertN c _ n _ => (S.vals c).length + n
  | .insertRange c _ r => (S.vals c).length + (r.vals' S).length
  | _ => 0

/-- The vector the call calls `reserve` for. -/
def reserves : Call T → Option Nat
  | .assign c _ | .assignN c _ _ | .reserve c _ => some c
  | _ => none

/-- `n` elements are at most `max_size()`, and a `difference_type` can count them. (The second follows from the first if `sizeof(T)` is 2 or more.) -/
structure Machine.Room (M : Machine) (n : Nat) : Prop where
  bytes : n * M.sz < M.W
  count : 2 * n < M.W

/-- There can be room for the elements the call asks for; and if the code compares `elements_ + n` with `end_of_elements_`, both are addresses. -/
structure Machine.Fits (M : Machine) (S : State T) (k : Call T) : Prop where
  room : M.Room (asks S k)
  address : ∀ c, reserves k = some c → M.addr (S.get c).blk + max (asks S k) (S.get c).cap * M.sz < M.W

/-- A history on the machine in which every request fits. -/
inductive MReach (M : Machine) (dv : T) : State T → Mem T → Prop where
  | start : MReach M dv (fun _ => none) empty₀
  | step {S : State T} {h h' : Mem T} {r : Ret} (k : Call T) : MReach M dv S h → Legal S k → M.Fits S k → M.exec dv k h = .ok (r, h') →
      MReach M dv (spec dv S h.fresh k) h'

end Verif.Vec
