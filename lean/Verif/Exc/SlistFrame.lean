import Verif.Exc.ListFrame
import Verif.Exc.FwdModel
/-!
# Leaked nodes do not matter to `ttl::forward_list` and `ttl::backward_list`

Every member, with exceptions or without, does in a memory with leaked cells what it does without them, and leaves them alone (`Framed`, `FramedT`, see
`Verif.Exc.SeqFrame`).
-/
set_option linter.unusedVariables false
set_option linter.unusedSimpArgs false
namespace Verif.Exc.XSeq
open Verif Verif.Seq Verif.Exc
open Verif.Seq.DList (Arg readArg)
variable {T α β : Type}

macro "fframed" : tactic => `(tactic| repeat' (first
  | assumption
  | exact framed_pure _ | exact framed_getNext _ | exact framed_getTail _ | exact framed_getVal _ | exact framed_setNext _ _
  | exact framed_setTail _ _ | exact framed_setVal _ _ | exact framed_delete _
  | exact framed_freeRaw _ | exact framed_newNode _ | exact framed_newRaw | exact framed_readArg _
  | exact framed_insertAfter _ _ | exact framed_unlinkNext _ | exact framed_posAt _ _
  | apply Framed.bind | apply framed_ite | (intro a; try dsimp only)))

namespace SL
open Verif.Seq.SNode Verif.Seq.SList

theorem framed_spliceNext (p o : Addr) : Framed (spliceNext p o : Prog (Heap T) Unit) := by unfold spliceNext; fframed
theorem framed_spliceLoop (o l : Addr) : Framed (spliceLoop o l : Prog (Heap T) Addr) := by
  refine spliceLoop.fixpoint_induct (T := T) l (motive := fun f => ∀ a, Framed (f a)) framed_adm1 (fun f ih i => ?_) o
  fframed
  exact ih _
theorem framed_spliceRange (p f l : Addr) : Framed (SNode.spliceRange p f l : Prog (Heap T) Unit) := by
  unfold SNode.spliceRange; fframed; exact framed_spliceLoop _ _
theorem framed_reverseLoop (o r : Addr) : Framed (SNode.reverseLoop o r : Prog (Heap T) Addr) := by
  refine SNode.reverseLoop.fixpoint_induct (T := T) (motive := fun f => ∀ a b, Framed (f a b)) framed_adm2 (fun f ih i j => ?_) o r
  fframed
  exact ih _ _
theorem framed_reverse (p : Addr) : Framed (SNode.reverse p : Prog (Heap T) Unit) := by
  unfold SNode.reverse; fframed; exact framed_reverseLoop _ _
theorem framed_insertVals : ∀ (vs : List T) (p : Addr), Framed (SList.insertVals p vs)
  | [], p => framed_pure _
  | v :: vs, p => (framed_newNode v).bind fun x => (framed_insertAfter p x).bind fun q => framed_insertVals vs q
theorem framed_insertNodes (p first last : Addr) : Framed (SList.insertNodes p first last : Prog (Heap T) Addr) := by
  refine SList.insertNodes.fixpoint_induct (T := T) last (motive := fun f => ∀ a b, Framed (f a b)) framed_adm2 (fun f ih i j => ?_) p first
  fframed
  exact ih _ _
theorem framed_insertN (value : Arg T) : ∀ (n : Nat) (p : Addr), Framed (SList.insertN p n value)
  | 0, p => framed_pure _
  | n + 1, p => (framed_readArg value).bind fun v => (framed_newNode v).bind fun x => (framed_insertAfter p x).bind fun q => framed_insertN value n q
theorem framed_clearLoop (c : Addr) : Framed (SList.clearLoop c : Prog (Heap T) Unit) := by
  refine SList.clearLoop.fixpoint_induct (T := T) c (motive := fun f => Framed f) framed_adm0 (fun f ih => ?_)
  fframed
theorem framed_eraseLoop (p last : Addr) : Framed (SList.eraseLoop p last : Prog (Heap T) Unit) := by
  refine SList.eraseLoop.fixpoint_induct (T := T) p last (motive := fun f => Framed f) framed_adm0 (fun f ih => ?_)
  fframed

open Verif.Exc in
theorem framedT_newNode (v : T) : FramedT (XSList.newNode v) := framedT_point.bind fun _ => framedT_call (framed_newNode v)
theorem framedT_insertVals : ∀ (vs : List T) (p : Addr), FramedT (XSList.insertVals p vs)
  | [], p => framedT_pure _
  | v :: vs, p => (framedT_newNode v).bind fun x => (framedT_call (framed_insertAfter p x)).bind fun q => framedT_insertVals vs q
theorem framedT_insertN (value : Arg T) : ∀ (n : Nat) (p : Addr), FramedT (XSList.insertN p n value)
  | 0, p => framedT_pure _
  | n + 1, p => (framedT_call (framed_readArg value)).bind fun v => (framedT_newNode v).bind fun x => (framedT_call (framed_insertAfter p x)).bind fun q =>
      framedT_insertN value n q
theorem framedT_insertNodes (p first last : Addr) : FramedT (XSList.insertNodes p first last : Thr (Heap T) Addr) := by
  refine XSList.insertNodes.fixpoint_induct (T := T) last (motive := fun f => ∀ a b, FramedT (f a b)) framedT_adm2 (fun f ih i j => ?_) p first
  refine framedT_ite ((framedT_call (framed_getVal _)).bind fun v => (framedT_newNode v).bind fun x => (framedT_call (framed_insertAfter _ x)).bind fun q =>
    (framedT_call (framed_getNext _)).bind fun n => ih q n) (framedT_pure _)
end SL

/-! ## `forward_list` -/
namespace FL
open SL Verif.Seq.FList

theorem framed_create : Framed (create : Prog (Heap T) Addr) := by unfold create; fframed
theorem framed_empty (c : Addr) : Framed (empty c : Prog (Heap T) Bool) := by unfold empty; fframed
theorem framed_insertNodes (p f l : Addr) : Framed (insertNodes p f l : Prog (Heap T) Unit) := (SL.framed_insertNodes p f l).bind fun _ => framed_pure _
theorem framed_insertN (p : Addr) (n : Nat) (v : Arg T) : Framed (insertN p n v) := (SL.framed_insertN v n p).bind fun _ => framed_pure _
theorem framed_insertVals (p : Addr) (vs : List T) : Framed (insertVals p vs) := (SL.framed_insertVals vs p).bind fun _ => framed_pure _
theorem framed_clear (c : Addr) : Framed (clear c : Prog (Heap T) Unit) := framed_clearLoop c

/-- Every call on forward lists leaves leaked cells alone and is not influenced by them. -/
theorem framed_exec (q : Call T) : Framed (FList.exec q) := by
  cases q with
  | create => exact framed_create.bind fun _ => framed_pure _
  | copyOf s => exact (framed_create.bind fun c => (framed_getNext _).bind fun _ => (framed_insertNodes _ _ _).bind fun _ => framed_pure _).bind fun _ => framed_pure _
  | ctorN n v => exact (framed_create.bind fun c => (framed_insertN _ _ _).bind fun _ => framed_pure _).bind fun _ => framed_pure _
  | ctorVals vs => exact (framed_create.bind fun c => (framed_insertVals _ _).bind fun _ => framed_pure _).bind fun _ => framed_pure _
  | destroy c => exact (framed_clear c).bind fun _ => framed_freeRaw _
  | pushFront c v => simp only [FList.exec, pushFront]; fframed
  | popFront c => simp only [FList.exec, popFront]; fframed
  | insert c i v => simp only [FList.exec, insertOne]; fframed
  | insertN c i n v => exact (framed_posAt _ _).bind fun _ => framed_insertN _ _ _
  | insertVals c i vs => exact (framed_posAt _ _).bind fun _ => framed_insertVals _ _
  | insertList c i d => exact (framed_posAt _ _).bind fun _ => (framed_getNext _).bind fun _ => framed_insertNodes _ _ _
  | erase c i => simp only [FList.exec, eraseAfter]; fframed
  | eraseRange c i j =>
    exact (framed_posAt _ _).bind fun _ => (framed_posAt _ _).bind fun _ => ((framed_eraseLoop _ _).bind fun _ => framed_getNext _).bind fun _ => framed_pure _
  | clear c => exact framed_clear _
  | assign c d => exact (framed_clear _).bind fun _ => (framed_getNext _).bind fun _ => framed_insertNodes _ _ _
  | assignN c n v => exact (framed_clear _).bind fun _ => framed_insertN _ _ _
  | assignVals c vs => exact (framed_clear _).bind fun _ => framed_insertVals _ _
  | reverse c => exact framed_reverse _
  | spliceAll c i d => exact (framed_posAt _ _).bind fun _ => framed_spliceRange _ _ _
  | spliceOne c i d j =>
    exact (framed_posAt _ _).bind fun _ => (framed_posAt _ _).bind fun _ => framed_ite (framed_pure _) (framed_spliceNext _ _)
  | splice c i d j k =>
    exact (framed_posAt _ _).bind fun _ => (framed_posAt _ _).bind fun _ => (framed_posAt _ _).bind fun _ => framed_ite (framed_pure _) (framed_spliceRange _ _ _)
  | swap c d => simp only [FList.exec, FList.swap]; fframed
  | store c i v => exact (framed_posAt _ _).bind fun _ => framed_setVal _ _

/-- Every call on forward lists, left by an exception or not, leaves leaked cells alone and is not influenced by them. -/
theorem framedT_exec (q : Call T) : FramedT (XFwd.exec q) := by
  have iN : ∀ p n (v : Arg T), FramedT (XFwd.insertN p n v) := fun p n v => (framedT_insertN v n p).bind fun _ => framedT_pure _
  have iV : ∀ p (vs : List T), FramedT (XFwd.insertVals p vs) := fun p vs => (framedT_insertVals vs p).bind fun _ => framedT_pure _
  have iS : ∀ p f l, FramedT (XFwd.insertNodes p f l : Thr (Heap T) Unit) := fun p f l => (framedT_insertNodes p f l).bind fun _ => framedT_pure _
  cases q with
  | copyOf s =>
    exact ((framedT_call framed_create).bind fun c => (framedT_unwinding ((framedT_call (framed_getNext _)).bind fun _ => iS _ _ _)
      (framed_freeRaw _)).bind fun _ => framedT_pure _).bind fun _ => framedT_pure _
  | ctorN n v => exact ((framedT_call framed_create).bind fun c => (framedT_unwinding (iN _ _ _) (framed_freeRaw _)).bind fun _ => framedT_pure _).bind fun _ => framedT_pure _
  | ctorVals vs => exact ((framedT_call framed_create).bind fun c => (framedT_unwinding (iV _ _) (framed_freeRaw _)).bind fun _ => framedT_pure _).bind fun _ => framedT_pure _
  | pushFront c v => exact (framedT_newNode v).bind fun _ => (framedT_call (framed_insertAfter _ _)).bind fun _ => framedT_pure _
  | insert c i v => exact (framedT_call (framed_posAt _ _)).bind fun _ => ((framedT_newNode v).bind fun _ => framedT_call (framed_insertAfter _ _)).bind fun _ => framedT_pure _
  | insertN c i n v => exact (framedT_call (framed_posAt _ _)).bind fun _ => iN _ _ _
  | insertVals c i vs => exact (framedT_call (framed_posAt _ _)).bind fun _ => iV _ _
  | insertList c i d => exact (framedT_call (framed_posAt _ _)).bind fun _ => (framedT_call (framed_getNext _)).bind fun _ => iS _ _ _
  | assign c d => exact (framedT_call (framed_clear _)).bind fun _ => (framedT_call (framed_getNext _)).bind fun _ => iS _ _ _
  | assignN c n v => exact (framedT_call (framed_clear _)).bind fun _ => iN _ _ _
  | assignVals c vs => exact (framedT_call (framed_clear _)).bind fun _ => iV _ _
  | _ => exact framedT_call (framed_exec _)
end FL

/-! ## `backward_list` -/
namespace BL
open SL Verif.Seq.BList

theorem framed_create : Framed (create : Prog (Heap T) Addr) := by unfold create; fframed
theorem framed_empty (c : Addr) : Framed (empty c : Prog (Heap T) Bool) := by unfold empty; fframed
theorem framed_back (c : Addr) : Framed (back c : Prog (Heap T) T) := by unfold back; fframed
theorem framed_beforeEnd (c : Addr) : Framed (beforeEnd c : Prog (Heap T) Addr) := framed_getTail c
theorem framed_insertNodes (c p f l : Addr) : Framed (insertNodes c p f l : Prog (Heap T) Unit) :=
  (SL.framed_insertNodes p f l).bind fun _ => (framed_getTail _).bind fun _ => framed_ite (framed_setTail _ _) (framed_pure _)
theorem framed_insertN (c p : Addr) (n : Nat) (v : Arg T) : Framed (insertN c p n v) :=
  (SL.framed_insertN v n p).bind fun _ => (framed_getTail _).bind fun _ => framed_ite (framed_setTail _ _) (framed_pure _)
theorem framed_insertVals (c p : Addr) (vs : List T) : Framed (insertVals c p vs) :=
  (SL.framed_insertVals vs p).bind fun _ => (framed_getTail _).bind fun _ => framed_ite (framed_setTail _ _) (framed_pure _)
theorem framed_clear (c : Addr) : Framed (clear c : Prog (Heap T) Unit) := (framed_setTail _ _).bind fun _ => framed_clearLoop c

/-- Every call on backward lists leaves leaked cells alone and is not influenced by them. -/
theorem framed_exec (q : Call T) : Framed (BList.exec q) := by
  cases q with
  | create => exact framed_create.bind fun _ => framed_pure _
  | copyOf s => exact (framed_create.bind fun c => (framed_getNext _).bind fun _ => (framed_insertNodes _ _ _ _).bind fun _ => framed_pure _).bind fun _ => framed_pure _
  | ctorN n v => exact (framed_create.bind fun c => (framed_insertN _ _ _ _).bind fun _ => framed_pure _).bind fun _ => framed_pure _
  | ctorVals vs => exact (framed_create.bind fun c => (framed_insertVals _ _ _).bind fun _ => framed_pure _).bind fun _ => framed_pure _
  | destroy c => exact (framed_clear c).bind fun _ => framed_freeRaw _
  | pushFront c v => simp only [BList.exec, pushFront]; fframed
  | pushBack c v => simp only [BList.exec, pushBack]; fframed
  | popFront c => simp only [BList.exec, popFront, empty]; fframed
  | insert c i v => simp only [BList.exec, insertOne]; fframed
  | insertN c i n v => exact (framed_posAt _ _).bind fun _ => framed_insertN _ _ _ _
  | insertVals c i vs => exact (framed_posAt _ _).bind fun _ => framed_insertVals _ _ _
  | insertList c i d => exact (framed_posAt _ _).bind fun _ => (framed_getNext _).bind fun _ => framed_insertNodes _ _ _ _
  | erase c i => simp only [BList.exec, eraseAfter]; fframed
  | eraseRange c i j => simp only [BList.exec, eraseRange]; fframed; exact framed_eraseLoop _ _
  | clear c => exact framed_clear _
  | assign c d => exact (framed_clear _).bind fun _ => (framed_getNext _).bind fun _ => framed_insertNodes _ _ _ _
  | assignN c n v => exact (framed_clear _).bind fun _ => framed_insertN _ _ _ _
  | assignVals c vs => exact (framed_clear _).bind fun _ => framed_insertVals _ _ _
  | reverse c => exact (framed_getNext _).bind fun _ => (framed_setTail _ _).bind fun _ => framed_reverse _
  | swap c d => simp only [BList.exec, BList.swap]; fframed
  | store c i v => exact (framed_posAt _ _).bind fun _ => framed_setVal _ _

/-- Every call on backward lists, left by an exception or not, leaves leaked cells alone and is not influenced by them. -/
theorem framedT_exec (q : Call T) : FramedT (XBwd.exec q) := by
  have tail : ∀ c p x, FramedT (do let t ← Thr.call (getTail c); if p = t then Thr.call (setTail c x) else pure () : Thr (Heap T) Unit) :=
    fun c p x => (framedT_call (framed_getTail _)).bind fun _ => framedT_ite (framedT_call (framed_setTail _ _)) (framedT_pure _)
  have iN : ∀ c p n (v : Arg T), FramedT (XBwd.insertN c p n v) := fun c p n v => (framedT_insertN v n p).bind fun _ => tail _ _ _
  have iV : ∀ c p (vs : List T), FramedT (XBwd.insertVals c p vs) := fun c p vs => (framedT_insertVals vs p).bind fun _ => tail _ _ _
  have iS : ∀ c p f l, FramedT (XBwd.insertNodes c p f l : Thr (Heap T) Unit) := fun c p f l => (framedT_insertNodes p f l).bind fun _ => tail _ _ _
  cases q with
  | copyOf s =>
    exact ((framedT_call framed_create).bind fun c => (framedT_unwinding ((framedT_call (framed_getNext _)).bind fun _ => iS _ _ _ _)
      (framed_freeRaw _)).bind fun _ => framedT_pure _).bind fun _ => framedT_pure _
  | ctorN n v => exact ((framedT_call framed_create).bind fun c => (framedT_unwinding (iN _ _ _ _) (framed_freeRaw _)).bind fun _ => framedT_pure _).bind fun _ => framedT_pure _
  | ctorVals vs => exact ((framedT_call framed_create).bind fun c => (framedT_unwinding (iV _ _ _) (framed_freeRaw _)).bind fun _ => framedT_pure _).bind fun _ => framedT_pure _
  | pushFront c v =>
    exact (framedT_newNode v).bind fun _ => (framedT_call (framed_insertAfter _ _)).bind fun _ => (framedT_call (framed_getTail _)).bind fun _ =>
      framedT_ite (framedT_call (framed_setTail _ _)) (framedT_pure _)
  | pushBack c v => exact (framedT_call (framed_getTail _)).bind fun _ => (framedT_newNode v).bind fun _ => (framedT_call (framed_insertAfter _ _)).bind fun _ => framedT_call (framed_setTail _ _)
  | insert c i v =>
    exact (framedT_call (framed_posAt _ _)).bind fun _ => ((framedT_newNode v).bind fun _ => (framedT_call (framed_insertAfter _ _)).bind fun _ =>
      (framedT_call (framed_getTail _)).bind fun _ => framedT_ite ((framedT_call (framed_setTail _ _)).bind fun _ => framedT_pure _) (framedT_pure _)).bind fun _ => framedT_pure _
  | insertN c i n v => exact (framedT_call (framed_posAt _ _)).bind fun _ => iN _ _ _ _
  | insertVals c i vs => exact (framedT_call (framed_posAt _ _)).bind fun _ => iV _ _ _
  | insertList c i d => exact (framedT_call (framed_posAt _ _)).bind fun _ => (framedT_call (framed_getNext _)).bind fun _ => iS _ _ _ _
  | assign c d => exact (framedT_call (framed_clear _)).bind fun _ => (framedT_call (framed_getNext _)).bind fun _ => iS _ _ _ _
  | assignN c n v => exact (framedT_call (framed_clear _)).bind fun _ => iN _ _ _ _
  | assignVals c vs => exact (framedT_call (framed_clear _)).bind fun _ => iV _ _ _
  | _ => exact framedT_call (framed_exec _)
end BL
end Verif.Exc.XSeq
