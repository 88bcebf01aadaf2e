import Verif.Vec.FApi
import Verif.Vec.MachModel
/-!
# `ttl::fixed_vector` with the numbers of a machine

In the model of `Verif.Vec.FModel` sizes are natural numbers. Here `size_type` has the modulus `W`, an element takes `sz` bytes and the storage of the
fixed vector `c` has the address `addr c` (`Verif.Vec.Machine`). One thing differs: an insertion before `end()` computes `last_ + n` and compares it with
`end_of_elements()`, two addresses modulo `W`. Everything else counts `n` down while there is room (`while (n-- && !full())`) or works on pointers that
exist, and is the model of `Verif.Vec.FModel`.

A pointer that is computed outside the storage is kept as `⟨c, offset⟩` with the mathematical offset; comparing it compares addresses, using it to
make an element is undefined behaviour wherever its address modulo `W` happens to lie.
-/
set_option linter.unusedVariables false
namespace Verif.Vec.FV
open Verif Verif.Vec
variable {T : Type}

namespace Mach
variable (M : Machine)

/-- `p < q`, as a comparison of addresses -/
def less (p q : Ptr) : Prog (Mem T) Bool := fun h =>
  if p.blk = q.blk then .ok (decide ((M.addr p.blk + p.off * M.sz) % M.W < (M.addr q.blk + q.off * M.sz) % M.W), h) else .ub .arith

/-- `for (o = last_ + n; end_of_elements() < o && i != p; --o) (--i)->~T()`; the value are the final `i` and `o` (ttl/fixed_vector.hpp:208-209, 240-241) -/
def dropTail (e p i o : Ptr) : Prog (Mem T) (Ptr × Ptr) := do
  if (← less M e o) then
    if i = p then pure (i, o) else do
      let i' ← dec i
      destruct i'
      let o' ← dec o
      dropTail e p i' o'
  else pure (i, o)
partial_fixpoint

/-- `insert(pos, n, x)` (ttl/fixed_vector.hpp:198-228) and `insert(pos, first, last)` with `last - first == n` (ttl/fixed_vector.hpp:229-260) -/
def insertValues (N c : Nat) (pos : Ptr) (n : Nat) (s : Src T) : Prog (Mem T) Ptr := do
  let dist ← diff pos (← begin_ c)
  if n ≠ 0 then do
    if (← Vec.less pos (← end_ c)) then do
      let p := elements c + dist
      let l ← getObj c
      let (i, o) ← dropTail M (eoe N c) p l (l + n)
      let o := if (← less M (eoe N c) o) then eoe N c else o
      setObj c o
      shiftUp i p o
      fillTo (eoe N c) n s p
    else fill N c n s
  else pure ()
  return (← begin_ c) + dist

/-- `resize(new_size)` (ttl/fixed_vector.hpp:184-196) -/
def resize (N : Nat) (dv : T) (c n : Nat) : Prog (Mem T) Unit := do
  let sz ← size c
  if n < sz then shrinkTo c (elements c + n)
  else do
    let n := if N < n then N else n
    let _ ← insertValues M N c (← end_ c) (n - (← size c)) (.counter (.ext dv))
    pure ()

/-- `resize(new_size, x)` (ttl/fixed_vector.hpp:81-87) -/
def resizeX (N : Nat) (dv : T) (c n : Nat) (x : Arg T) : Prog (Mem T) Unit := do
  if n < (← size c) then resize M N dv c n
  else do
    let _ ← insertValues M N c (← end_ c) (n - (← size c)) (.counter x)
    pure ()

/-- Run the call on the machine. -/
def exec (N : Nat) (dv : T) : Call T → Prog (Mem T) Ret
  | .resize c n => do resize M N dv c n; return .none
  | .resizeX c n a => do resizeX M N dv c n (← a.expr); return .none
  | .insert c i a => do
    let a ← a.expr
    return .it (← insertValues M N c ((← begin_ c) + i) 1 (.counter a))
  | .insertN c i n a => do
    let a ← a.expr
    return .it (← insertValues M N c ((← begin_ c) + i) n (.counter a))
  | .insertRange c i r => do
    let (s, n) ← r.expr
    return .it (← insertValues M N c ((← begin_ c) + i) n s)
  | k => FV.exec N dv k

end Mach

/-- The call inserts `n` elements into `c` before an element of it. -/
def Call.Middle (S : State T) (c n : Nat) : Call T → Prop
  | .insert c' i _ => c' = c ∧ n = 1 ∧ i < (S.vals c').length
  | .insertN c' i n' _ => c' = c ∧ n = n' ∧ i < (S.vals c').length
  | .insertRange c' i r => c' = c ∧ n = (r.vals' S).length ∧ i < (S.vals c').length
  | _ => False

/-- The storage is storage: all of it and the address behind it has an address. -/
def Mach.Placed (M : Machine) (N : Nat) : Prop := ∀ c, M.addr c + N * M.sz < M.W

/-- `last_ + n` is an address if the call computes it. -/
def Mach.Fits (M : Machine) (S : State T) (k : Call T) : Prop := ∀ c n, k.Middle S c n → M.addr c + ((S.vals c).length + n) * M.sz < M.W

/-- A history on the machine in which every `last_ + n` is an address. -/
inductive Mach.Reaches (M : Machine) (N : Nat) (dv : T) : State T → Mem T → Prop where
  | start : Reaches M N dv (fun _ => none) empty₀
  | step {S : State T} {h h' : Mem T} {r : Ret} (k : Call T) : Reaches M N dv S h → Legal S k → Mach.Fits M S k → Mach.exec M N dv k h = .ok (r, h') →
      Reaches M N dv (spec N dv S h.fresh k) h'

end Verif.Vec.FV
