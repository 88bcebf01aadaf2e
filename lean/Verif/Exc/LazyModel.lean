import Verif.Exc.SeqFrame
/-!
# `ttl::lazy_queue` when allocation or element copies throw

The throwing versions of the members of ttl/lazy_queue.hpp that take nodes. `get_node` has up to two points where an exception may appear: the
allocation with `::operator new`, if the pool is empty, and the copy of the value into the node (`::new(&n->value) T(v)`). Nothing gives the node back
when the copy throws. Iterators, linking and unlinking, and destroying elements throw nothing. Each definition is the one of `Verif.Seq.LazyModel` with
these points put in.
-/
set_option linter.unusedVariables false
namespace Verif.Exc.XLq
open Verif Verif.Seq Verif.Seq.SNode Verif.Seq.LQueue Verif.Exc
open Verif.Seq.DList (Arg readArg)
variable {T : Type}

/-- ttl/lazy_queue.hpp:47, `dead_.next ? dead_.unlink_next() : ::operator new(sizeof(node))` -/
def takeNode (c : Addr) : Thr (Heap T) Addr := do
  let d ← Thr.call (getNext (deadOf c))
  if d ≠ 0 then Thr.call (unlinkNext (deadOf c))
  else do
    Thr.point
    Thr.call newRaw

/-- ttl/lazy_queue.hpp:45-50 `get_node(v)`; if the copy of `v` throws, the node stays as it is: neither in the pool nor released -/
def getNode (c : Addr) (v : T) : Thr (Heap T) Addr := do
  let n ← takeNode c
  Thr.point
  Thr.call (construct n v)
  pure n

/-- ttl/lazy_queue.hpp:173-178 `push_front(value)` -/
def pushFront (c : Addr) (v : T) : Thr (Heap T) Unit := do
  let n ← getNode c v
  let n ← Thr.call (insertAfter c n)
  let t ← Thr.call (getTail c)
  if t = c then Thr.call (setTail c n) else pure ()

/-- ttl/lazy_queue.hpp:179-182 `push_back(value)` -/
def pushBack (c : Addr) (v : T) : Thr (Heap T) Unit := do
  let t ← Thr.call (getTail c)
  let n ← getNode c v
  let p ← Thr.call (insertAfter t n)
  Thr.call (setTail c p)

/-- ttl/lazy_queue.hpp:191-198 `insert_after(pos, value)` -/
def insertOne (c pos : Addr) (v : T) : Thr (Heap T) Addr := do
  let n ← getNode c v
  let n ← Thr.call (insertAfter pos n)
  let t ← Thr.call (getTail c)
  if pos = t then do
    Thr.call (setTail c n)
    pure n
  else pure n

/-- ttl/lazy_queue.hpp:232-233, the loop `while (n--) p = p->insert_after(get_node(value))` -/
def insertLoopN (c p : Addr) (n : Nat) (value : Arg T) : Thr (Heap T) Addr :=
  match n with
  | 0 => pure p
  | n + 1 => do
      let v ← Thr.call (readArg value)
      let a ← getNode c v
      let p ← Thr.call (insertAfter p a)
      insertLoopN c p n value

/-- ttl/lazy_queue.hpp:227-236 `insert_after(pos, n, value)` -/
def insertN (c pos : Addr) (n : Nat) (value : Arg T) : Thr (Heap T) Unit := do
  let p ← insertLoopN c pos n value
  let t ← Thr.call (getTail c)
  if pos = t then Thr.call (setTail c p) else pure ()

/-- ttl/lazy_queue.hpp:243-244, the loop `p = p->insert_after(get_node(*first))` over an external range -/
def insertLoopVals (c p : Addr) : List T → Thr (Heap T) Addr
  | [] => pure p
  | v :: vs => do
      let a ← getNode c v
      let p ← Thr.call (insertAfter p a)
      insertLoopVals c p vs

/-- ttl/lazy_queue.hpp:237-247 `insert_after(pos, first, last)`, external range -/
def insertVals (c pos : Addr) (vs : List T) : Thr (Heap T) Unit := do
  let p ← insertLoopVals c pos vs
  let t ← Thr.call (getTail c)
  if pos = t then Thr.call (setTail c p) else pure ()

/-- ttl/lazy_queue.hpp:243-244, the same loop when `first`, `last` are iterators of a queue -/
def insertLoopNodes (c p first last : Addr) : Thr (Heap T) Addr := do
  if first ≠ last then do
    let v ← Thr.call (getVal first)
    let a ← getNode c v
    let p ← Thr.call (insertAfter p a)
    let next ← Thr.call (getNext first)
    insertLoopNodes c p next last
  else pure p
partial_fixpoint

/-- ttl/lazy_queue.hpp:237-247 `insert_after(pos, first, last)`, range of a queue -/
def insertNodes (c pos first last : Addr) : Thr (Heap T) Unit := do
  let p ← insertLoopNodes c pos first last
  let t ← Thr.call (getTail c)
  if pos = t then Thr.call (setTail c p) else pure ()

/-- The storage of the object ends: an exception that leaves a constructor does not run the destructor, and `slist_node` has none. -/
def dropObject (c : Addr) : Prog (Heap T) Unit := do freeRaw c; freeRaw (deadOf c)

/-- ttl/lazy_queue.hpp:118-124 copy constructor -/
def copyCtor (other : Addr) : Thr (Heap T) Addr := do
  let c ← Thr.call create
  Thr.unwinding (do
    let first ← Thr.call (getNext other)
    insertNodes c c first 0) (dropObject c)
  pure c

/-- ttl/lazy_queue.hpp:125-131 `lazy_queue(n, value)` -/
def ctorN (n : Nat) (value : Arg T) : Thr (Heap T) Addr := do
  let c ← Thr.call create
  Thr.unwinding (insertN c c n value) (dropObject c)
  pure c

/-- ttl/lazy_queue.hpp:145-150 `operator=` -/
def opAssign (c other : Addr) : Thr (Heap T) Unit := do
  Thr.call (clear c)
  let first ← Thr.call (getNext other)
  insertNodes c c first 0

/-- Execute a call of a client of lazy queues; `triv` as in `LQueue.exec`. -/
def exec (triv : Bool) : Call T → Thr (Heap T) Unit
  | .copyOf s => do let _ ← copyCtor s
  | .ctorN n v => do let _ ← ctorN n v
  | .pushFront c v => pushFront c v
  | .pushBack c v => pushBack c v
  | .insert c i v => do
      let p ← Thr.call (SList.posAt c i)
      let _ ← insertOne c p v
  | .insertN c i n v => do
      let p ← Thr.call (SList.posAt c i)
      insertN c p n v
  | .insertVals c i vs => do
      let p ← Thr.call (SList.posAt c i)
      insertVals c p vs
  | .insertQueue c i d => do
      let p ← Thr.call (SList.posAt c i)
      let b ← Thr.call (getNext d)
      insertNodes c p b 0
  | .assign c d => opAssign c d
  | k => Thr.call (LQueue.exec triv k)

/-! ## Leaked cells do not matter for these either -/
section
open Verif.Exc.XSeq

theorem framedT_takeNode (c : Addr) : FramedT (takeNode c : Thr (Heap T) Addr) :=
  (framedT_call (framed_getNext _)).bind fun _ => framedT_ite (framedT_call (framed_unlinkNext _)) (framedT_point.bind fun _ => framedT_call framed_newRaw)
theorem framedT_getNode (c : Addr) (v : T) : FramedT (getNode c v : Thr (Heap T) Addr) :=
  (framedT_takeNode c).bind fun _ => framedT_point.bind fun _ => (framedT_call (framed_construct _ _)).bind fun _ => framedT_pure _
theorem framedT_tail (c pos : Addr) (p : Addr) :
    FramedT (do let t ← Thr.call (getTail c); if pos = t then Thr.call (setTail c p) else pure () : Thr (Heap T) Unit) :=
  (framedT_call (framed_getTail _)).bind fun _ => framedT_ite (framedT_call (framed_setTail _ _)) (framedT_pure _)
theorem framedT_insertLoopN (c : Addr) (value : Arg T) : ∀ (n : Nat) (p : Addr), FramedT (insertLoopN c p n value : Thr (Heap T) Addr)
  | 0, p => framedT_pure _
  | n + 1, p => (framedT_call (framed_readArg value)).bind fun v => (framedT_getNode c v).bind fun _ =>
      (framedT_call (framed_insertAfter _ _)).bind fun q => framedT_insertLoopN c value n q
theorem framedT_insertLoopVals (c : Addr) : ∀ (vs : List T) (p : Addr), FramedT (insertLoopVals c p vs : Thr (Heap T) Addr)
  | [], p => framedT_pure _
  | v :: vs, p => (framedT_getNode c v).bind fun _ => (framedT_call (framed_insertAfter _ _)).bind fun q => framedT_insertLoopVals c vs q
theorem framedT_insertLoopNodes (c p first last : Addr) : FramedT (insertLoopNodes c p first last : Thr (Heap T) Addr) := by
  refine insertLoopNodes.fixpoint_induct (T := T) c last (motive := fun f => ∀ a b, FramedT (f a b)) framedT_adm2 (fun f ih p i => ?_) p first
  exact framedT_ite ((framedT_call (framed_getVal _)).bind fun v => (framedT_getNode c v).bind fun _ =>
    (framedT_call (framed_insertAfter _ _)).bind fun q => (framedT_call (framed_getNext _)).bind fun _ => ih _ _) (framedT_pure _)
theorem framedT_insertN (c pos : Addr) (n : Nat) (value : Arg T) : FramedT (insertN c pos n value : Thr (Heap T) Unit) :=
  (framedT_insertLoopN _ _ _ _).bind fun _ => framedT_tail _ _ _
theorem framedT_insertVals (c pos : Addr) (vs : List T) : FramedT (insertVals c pos vs : Thr (Heap T) Unit) :=
  (framedT_insertLoopVals _ _ _).bind fun _ => framedT_tail _ _ _
theorem framedT_insertNodes (c pos first last : Addr) : FramedT (insertNodes c pos first last : Thr (Heap T) Unit) :=
  (framedT_insertLoopNodes _ _ _ _).bind fun _ => framedT_tail _ _ _
theorem framed_dropObject (c : Addr) : Framed (dropObject c : Prog (Heap T) Unit) := (framed_freeRaw _).bind fun _ => framed_freeRaw _

/-- Every call, throwing or not, leaves leaked cells alone and is not influenced by them. -/
theorem framedT_exec (triv : Bool) (q : Call T) : FramedT (exec triv q) := by
  have simple : exec triv q = Thr.call (LQueue.exec triv q) → FramedT (exec triv q) := fun e => by rw [e]; exact framedT_call (LQ.framed_exec triv q)
  cases q with
  | copyOf s =>
    exact ((framedT_call LQ.framed_create).bind fun c => (framedT_unwinding ((framedT_call (framed_getNext _)).bind fun _ => framedT_insertNodes _ _ _ _)
      (framed_dropObject _)).bind fun _ => framedT_pure _).bind fun _ => framedT_pure _
  | ctorN n v =>
    exact ((framedT_call LQ.framed_create).bind fun c => (framedT_unwinding (framedT_insertN _ _ _ _)
      (framed_dropObject _)).bind fun _ => framedT_pure _).bind fun _ => framedT_pure _
  | pushFront c v =>
    exact (framedT_getNode _ _).bind fun _ => (framedT_call (framed_insertAfter _ _)).bind fun _ => (framedT_call (framed_getTail _)).bind fun _ =>
      framedT_ite (framedT_call (framed_setTail _ _)) (framedT_pure _)
  | pushBack c v =>
    exact (framedT_call (framed_getTail _)).bind fun _ => (framedT_getNode _ _).bind fun _ => (framedT_call (framed_insertAfter _ _)).bind fun _ =>
      framedT_call (framed_setTail _ _)
  | insert c i v =>
    exact (framedT_call (framed_posAt _ _)).bind fun _ => ((framedT_getNode _ _).bind fun _ => (framedT_call (framed_insertAfter _ _)).bind fun _ =>
      (framedT_call (framed_getTail _)).bind fun _ =>
      framedT_ite ((framedT_call (framed_setTail _ _)).bind fun _ => framedT_pure _) (framedT_pure _)).bind fun _ => framedT_pure _
  | insertN c i n v => exact (framedT_call (framed_posAt _ _)).bind fun _ => framedT_insertN _ _ _ _
  | insertVals c i vs => exact (framedT_call (framed_posAt _ _)).bind fun _ => framedT_insertVals _ _ _
  | insertQueue c i d => exact (framedT_call (framed_posAt _ _)).bind fun _ => (framedT_call (framed_getNext _)).bind fun _ => framedT_insertNodes _ _ _ _
  | assign c d => exact (framedT_call (LQ.framed_clear _)).bind fun _ => (framedT_call (framed_getNext _)).bind fun _ => framedT_insertNodes _ _ _ _
  | _ => exact simple rfl
end

end Verif.Exc.XLq
