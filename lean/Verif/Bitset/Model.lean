import Verif.Base
/-!
# Model of `ttl::bitset<N>` (`ttl/bitset.hpp`)

The state is the array `bits_` as a list of 64-bit words (`unsigned long` on an LP64 target).
Access outside the array is undefined behaviour. Simplification: the `unsigned` loop counters are
unbounded naturals (they would wrap only for bitsets of 2^32 or more bits).
`bitset<0>` has its own specialisations (bitset.hpp:374-400), modelled by the `N = 0` branches.
-/
namespace Verif.Bitset
open Verif

/-- `slot_type` -/
abbrev Word := BitVec 64
/-- `bits_` -/
abbrev Bits := List Word

/-- `sizeof(bits_)/sizeof(*bits_)`: the number of slots, bitset.hpp:22. -/
def nslots (N : Nat) : Nat := (N + 64 - 1) / 64

/-- Read of `bits_[i]`. -/
def getSlot (i : Nat) : Prog Bits Word := fun b =>
  match b[i]? with
  | some w => .ok (w, b)
  | none => .ub .access

/-- `bits_[i] = w`. -/
def setSlot (i : Nat) (w : Word) : Prog Bits Unit := fun b =>
  if i < b.length then .ok ((), b.set i w) else .ub .access

/-- `other.bits_[i]` for another bitset. -/
def otherSlot (o : Bits) (i : Nat) : Prog Bits Word := fun b =>
  match o[i]? with
  | some w => .ok (w, b)
  | none => .ub .access

/-- `for (unsigned i = from; i < n; ++i) body` -/
def forLoop {σ : Type} (body : Nat → Prog σ Unit) (i n : Nat) : Prog σ Unit := do
  if i < n then do
    body i
    forLoop body (i + 1) n
  else pure ()
partial_fixpoint

/-- `last_bits()`, bitset.hpp:25-28. -/
def lastBits (N : Nat) : Word :=
  if nslots N * 64 = N then BitVec.allOnes 64 else (1#64 <<< (N % 64)) - 1#64

/-- `last_slot_index()`, bitset.hpp:29. -/
def lastSlotIndex (N : Nat) : Nat := if N = 0 then 0 else nslots N - 1

/-- `bits_bit(pos)`, bitset.hpp:21. -/
def bitsBit (pos : Nat) : Nat := pos % 64

/-- `bits_slot(pos)` as an index into `bits_`, bitset.hpp:19-20; for `bitset<0>` 374. -/
def bitsSlot (N pos : Nat) : Nat := if N = 0 then 0 else pos / 64

/-- `test(pos)`, bitset.hpp:91-94 (and the const `operator[]`, 82-85); `bitset<0>` 375. -/
def test (N pos : Nat) : Prog Bits Bool := do
  if pos < N then do
    let w ← getSlot (bitsSlot N pos)
    pure (decide (w &&& (1#64 <<< bitsBit pos) ≠ 0#64))
  else pure false

/-- `set()`, bitset.hpp:113-118; `bitset<0>` 376. -/
def setAll (N : Nat) : Prog Bits Unit :=
  if N = 0 then pure () else forLoop (fun i => setSlot i (BitVec.allOnes 64)) 0 (nslots N)

/-- `set(pos)`, bitset.hpp:119-123; `bitset<0>` 377. -/
def setBit (N pos : Nat) : Prog Bits Unit :=
  if N = 0 then pure ()
  else do
    let w ← getSlot (bitsSlot N pos)
    setSlot (bitsSlot N pos) (w ||| (1#64 <<< bitsBit pos))

/-- `set(pos, value)`, bitset.hpp:124-129; `bitset<0>` 378. -/
def setValue (N pos : Nat) (value : Bool) : Prog Bits Unit :=
  if N = 0 then pure ()
  else do
    let mask : Word := (if value then 1#64 else 0#64) <<< bitsBit pos
    let w ← getSlot (bitsSlot N pos)
    setSlot (bitsSlot N pos) ((w &&& ~~~ mask) ||| mask)

/-- `reset()`, bitset.hpp:131-136; `bitset<0>` 379. -/
def resetAll (N : Nat) : Prog Bits Unit :=
  if N = 0 then pure () else forLoop (fun i => setSlot i 0#64) 0 (nslots N)

/-- `reset(pos)`, bitset.hpp:137-141; `bitset<0>` 380. -/
def reset (N pos : Nat) : Prog Bits Unit :=
  if N = 0 then pure ()
  else do
    let w ← getSlot (bitsSlot N pos)
    setSlot (bitsSlot N pos) (w &&& ~~~ (1#64 <<< bitsBit pos))

/-- `flip()`, bitset.hpp:143-148; `bitset<0>` 381. -/
def flipAll (N : Nat) : Prog Bits Unit :=
  if N = 0 then pure ()
  else forLoop (fun i => do
    let w ← getSlot i
    setSlot i (~~~ w)) 0 (nslots N)

/-- `flip(pos)`, bitset.hpp:149-153; `bitset<0>` 382. -/
def flip (N pos : Nat) : Prog Bits Unit :=
  if N = 0 then pure ()
  else do
    let w ← getSlot (bitsSlot N pos)
    setSlot (bitsSlot N pos) (w ^^^ (1#64 <<< bitsBit pos))

/-- A `bitset::reference`, bitset.hpp:57-80: the slot pointed to and the mask. -/
structure Ref where
  slot : Nat
  mask : Word

/-- Non-const `operator[]`, bitset.hpp:86-89: forming the proxy does not access memory. -/
def ref (N pos : Nat) : Ref :=
  { slot := bitsSlot N pos, mask := (if pos < N then 1#64 else 0#64) <<< bitsBit pos }

/-- `-v` converted to `slot_type`: all ones or zero. -/
def negBool (v : Bool) : Word := if v then BitVec.allOnes 64 else 0#64

/-- `reference::operator=(bool)`, bitset.hpp:66-70. -/
def refAssign (r : Ref) (v : Bool) : Prog Bits Unit := do
  let w ← getSlot r.slot
  setSlot r.slot ((w &&& ~~~ r.mask) ||| (negBool v &&& r.mask))

/-- `reference::operator bool`, bitset.hpp:77. -/
def refGet (r : Ref) : Prog Bits Bool := do
  let w ← getSlot r.slot
  pure (decide (w &&& r.mask ≠ 0#64))

/-- `reference::operator=(const reference &)`, bitset.hpp:72-76, both proxies into the same
bitset. Note `& mask_` where `operator=(bool)` has `& ~mask_`. -/
def refAssignRef (r other : Ref) : Prog Bits Unit := do
  let w ← getSlot r.slot
  let v ← refGet other
  setSlot r.slot ((w &&& r.mask) ||| (negBool v &&& r.mask))

/-- `reference::operator~`, bitset.hpp:78. -/
def refNot (r : Ref) : Prog Bits Bool := do
  let w ← getSlot r.slot
  pure (decide (w &&& r.mask = 0#64))

/-- `reference::flip`, bitset.hpp:79. -/
def refFlip (r : Ref) : Prog Bits Unit := do
  let w ← getSlot r.slot
  setSlot r.slot (w ^^^ r.mask)

/-- `to_ulong()`, bitset.hpp:155; `bitset<0>` 388. -/
def toUlong (N : Nat) : Prog Bits Word :=
  if N = 0 then pure 0#64
  else do
    let w ← getSlot 0
    pure ((if N < 64 then lastBits N else BitVec.allOnes 64) &&& w)

/-- `bitset(unsigned long)`, bitset.hpp:169-175. The array is uninitialised before (any contents). -/
def fromUlong (N : Nat) (v : Word) : Prog Bits Unit := do
  setSlot 0 v
  forLoop (fun i => setSlot i 0#64) 1 (nslots N)

/-- Loop of `operator==`, bitset.hpp:218-220. -/
def eqLoop (o : Bits) (i n : Nat) : Prog Bits Bool := do
  if i < n then do
    let a ← getSlot i
    let b ← otherSlot o i
    if a ≠ b then pure false else eqLoop o (i + 1) n
  else pure true
partial_fixpoint

/-- `operator==`, bitset.hpp:214-222; `bitset<0>` 400. -/
def eq (N : Nat) (o : Bits) : Prog Bits Bool :=
  if N = 0 then pure true
  else do
    let r ← eqLoop o 0 (lastSlotIndex N)
    if r then do
      let a ← getSlot (lastSlotIndex N)
      let b ← otherSlot o (lastSlotIndex N)
      pure (decide ((a ^^^ b) &&& lastBits N = 0#64))
    else pure false

/-- Loop of `all`, bitset.hpp:228-230. -/
def allLoop (i n : Nat) : Prog Bits Bool := do
  if i < n then do
    let a ← getSlot i
    if a ≠ BitVec.allOnes 64 then pure false else allLoop (i + 1) n
  else pure true
partial_fixpoint

/-- `all()`, bitset.hpp:224-232; `bitset<0>` 383. -/
def all (N : Nat) : Prog Bits Bool :=
  if N = 0 then pure false
  else do
    let r ← allLoop 0 (lastSlotIndex N)
    if r then do
      let a ← getSlot (lastSlotIndex N)
      pure (decide (a &&& lastBits N = lastBits N))
    else pure false

/-- Loop of `any` and `none`, bitset.hpp:237-239 and 246-248: is some slot in `[i, n)` non-zero? -/
def anyLoop (i n : Nat) : Prog Bits Bool := do
  if i < n then do
    let a ← getSlot i
    if a ≠ 0#64 then pure true else anyLoop (i + 1) n
  else pure false
partial_fixpoint

/-- `any()`, bitset.hpp:233-241; `bitset<0>` 384. -/
def any (N : Nat) : Prog Bits Bool :=
  if N = 0 then pure false
  else do
    let r ← anyLoop 0 (lastSlotIndex N)
    if r then pure true
    else do
      let a ← getSlot (lastSlotIndex N)
      pure (decide (a &&& lastBits N ≠ 0#64))

/-- `none()`, bitset.hpp:242-250; `bitset<0>` 385. -/
def noneSet (N : Nat) : Prog Bits Bool :=
  if N = 0 then pure true
  else do
    let r ← anyLoop 0 (lastSlotIndex N)
    if r then pure false
    else do
      let a ← getSlot (lastSlotIndex N)
      pure (decide (a &&& lastBits N = 0#64))

/-- `__builtin_popcountl`: the number of one bits of a word (trusted builtin). -/
def popcount (w : Word) : Nat := (List.range 64).countP fun i => w.getLsbD i

/-- The portable alternative, bitset.hpp:263-267: `while (b) { ++c; b &= b - 1; }`. -/
def kernighan (b : Word) (c : Nat) : Prog Bits Nat := do
  if b ≠ 0#64 then kernighan (b &&& (b - 1#64)) (c + 1)
  else pure c
partial_fixpoint

/-- Loop of `count`, bitset.hpp:255-269 (`__GNUC__` branch). -/
def countLoop (N i c : Nat) : Prog Bits Nat := do
  if i < nslots N then do
    let w ← getSlot i
    let b := if i = lastSlotIndex N then w &&& lastBits N else w
    countLoop N (i + 1) (c + popcount b)
  else pure c
partial_fixpoint

/-- `count()`, bitset.hpp:251-271; `bitset<0>` 386. -/
def count (N : Nat) : Prog Bits Nat := if N = 0 then pure 0 else countLoop N 0 0

/-- `operator=(const bitset &)`, bitset.hpp:272-278. -/
def assign (N : Nat) (o : Bits) : Prog Bits Unit :=
  forLoop (fun i => do
    let w ← otherSlot o i
    setSlot i w) 0 (nslots N)

/-- `operator=(const bitset<M> &)`, bitset.hpp:279-290 (and the converting constructor, 191-196). -/
def assignWidth (N M : Nat) (o : Bits) : Prog Bits Unit := do
  let n := if N < M then nslots N else nslots M
  forLoop (fun i => do
    let w ← otherSlot o i
    setSlot i w) 0 n
  forLoop (fun i => setSlot i 0#64) n (nslots N)

/-- `operator&=`, bitset.hpp:292-298; `bitset<0>` 389. -/
def andAssign (N : Nat) (o : Bits) : Prog Bits Unit :=
  if N = 0 then pure ()
  else forLoop (fun i => do
    let a ← getSlot i
    let b ← otherSlot o i
    setSlot i (a &&& b)) 0 (nslots N)

/-- `operator|=`, bitset.hpp:299-305; `bitset<0>` 391. -/
def orAssign (N : Nat) (o : Bits) : Prog Bits Unit :=
  if N = 0 then pure ()
  else forLoop (fun i => do
    let a ← getSlot i
    let b ← otherSlot o i
    setSlot i (a ||| b)) 0 (nslots N)

/-- `operator^=`, bitset.hpp:306-312; `bitset<0>` 390. -/
def xorAssign (N : Nat) (o : Bits) : Prog Bits Unit :=
  if N = 0 then pure ()
  else forLoop (fun i => do
    let a ← getSlot i
    let b ← otherSlot o i
    setSlot i (a ^^^ b)) 0 (nslots N)

/-- `operator~`, bitset.hpp:313-320: the state is the uninitialised result, `self` is `*this`;
`bitset<0>` 392. -/
def complement (N : Nat) (self : Bits) : Prog Bits Unit :=
  if N = 0 then pure ()
  else forLoop (fun i => do
    let w ← otherSlot self i
    setSlot i (~~~ w)) 0 (nslots N)

/-- Evaluate a read-only call on another bitset. -/
def onOther {α : Type} (o : Bits) (p : Prog Bits α) : Prog Bits α := fun b =>
  (p o).bind fun r => .ok (r.1, b)

/-- Loop of `operator<<`, bitset.hpp:326-328; state is `other`, `self` is `*this`. -/
def shlLoop (N : Nat) (self : Bits) (i pos : Nat) : Prog Bits Unit := do
  if pos < N then do
    let t ← onOther self (test N i)
    if t then setBit N pos
    shlLoop N self (i + 1) (pos + 1)
  else pure ()
partial_fixpoint

/-- `operator<<`, bitset.hpp:322-330: state is the fresh `other`; `bitset<0>` 393. -/
def shl (N : Nat) (self : Bits) (pos : Nat) : Prog Bits Unit := do
  resetAll N
  if N = 0 then pure () else shlLoop N self 0 pos

/-- Loop of `operator>>`, bitset.hpp:343-345. -/
def shrLoop (N : Nat) (self : Bits) (i pos : Nat) : Prog Bits Unit := do
  if pos < N then do
    let t ← onOther self (test N pos)
    if t then setBit N i
    shrLoop N self (i + 1) (pos + 1)
  else pure ()
partial_fixpoint

/-- `operator>>`, bitset.hpp:339-347; `bitset<0>` 394. -/
def shr (N : Nat) (self : Bits) (pos : Nat) : Prog Bits Unit := do
  resetAll N
  if N = 0 then pure () else shrLoop N self 0 pos

/-- `operator<<=`, bitset.hpp:332-337: the temporary starts as `fresh` (uninitialised). -/
def shlAssign (N : Nat) (fresh : Bits) (pos : Nat) : Prog Bits Unit := fun b =>
  (shl N b pos fresh).bind fun r => assign N r.2 b

/-- `operator>>=`, bitset.hpp:349-354. -/
def shrAssign (N : Nat) (fresh : Bits) (pos : Nat) : Prog Bits Unit := fun b =>
  (shr N b pos fresh).bind fun r => assign N r.2 b

/-- `bits[i]` of the constructor's character buffer. -/
def charAt {σ : Type} (cs : List Char) (i : Nat) : Prog σ Char := fun s =>
  match cs[i]? with
  | some c => .ok (c, s)
  | none => .ub .access

/-- First loop of the string constructor, bitset.hpp:201-203: number of leading 0/1 characters,
at most `n`. -/
def scanLoop (cs : List Char) (zero one : Char) (i n : Nat) : Prog Bits Nat := do
  if i < n then do
    let c ← charAt cs i
    if ¬ (c = zero ∨ c = one) then pure i else scanLoop cs zero one (i + 1) n
  else pure i
partial_fixpoint

/-- Last loop of the string constructor, bitset.hpp:206-212: `k` characters remain, `j` is the
index of the current character. -/
def writeLoop (N : Nat) (cs : List Char) (zero one : Char) (k j : Nat) : Prog Bits Unit := do
  if k = 0 then pure ()
  else do
    let i := k - 1
    let c ← charAt cs j
    if c = zero then do
      reset N i
      writeLoop N cs zero one i (j + 1)
    else if c = one then do
      setBit N i
      writeLoop N cs zero one i (j + 1)
    else pure ()
partial_fixpoint

/-- `bitset(const char *, n, zero, one)`, bitset.hpp:197-213. -/
def fromString (N : Nat) (cs : List Char) (n : Nat) (zero one : Char) : Prog Bits Unit := do
  let i ← scanLoop cs zero one 0 n
  forLoop (fun s => setSlot s 0#64) (i / 64) (nslots N)
  writeLoop N cs zero one i 0

end Verif.Bitset
