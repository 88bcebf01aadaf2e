import Verif.Exc.SeqFrame
import Verif.Exc.ListModel
/-!
# Leaked nodes do not matter to `ttl::list`

Every member of `ttl::list`, with exceptions or without, does in a memory with leaked cells what it does without them, and leaves them alone
(`Framed`, `FramedT`, see `Verif.Exc.SeqFrame`).
-/
set_option linter.unusedVariables false
set_option linter.unusedSimpArgs false
namespace Verif.Exc.XSeq
open Verif Verif.Seq Verif.Exc
variable {T α β : Type}

section
open Lean.Order
open Verif.Exc.XVec (flat_fin)
theorem sup_ok3 {σ A B C : Type} {c : (A → B → C → Prog σ α) → Prop} (hc : chain c) {a : A} {b : B} {d : C} {s : σ} {x : α × σ}
    (e : CCPO.csup hc a b d s = .ok x) : ∃ f, c f ∧ f a b d s = .ok x := by
  classical
  apply Decidable.byContradiction
  intro no
  let F := CCPO.csup hc
  let g : A → B → C → Prog σ α := fun a' b' k' m => if a' = a ∧ b' = b ∧ k' = d ∧ m = s then .diverge else F a' b' k' m
  have le : F ⊑ g := csup_le hc fun f hf => by
    intro a' b' k' m
    have hle := le_csup hc hf a' b' k' m
    by_cases q : a' = a ∧ b' = b ∧ k' = d ∧ m = s
    · obtain ⟨rfl, rfl, rfl, rfl⟩ := q
      simp only [g, and_self, if_true]
      rcases flat_fin hle with q | q
      · rw [q]; exact FlatOrder.rel.bot
      · exact absurd ⟨f, hf, q.symm.trans e⟩ no
    · simp only [g, if_neg q]; exact hle
  have := flat_fin (le a b d s)
  simp only [g, and_self, if_true] at this
  rcases this with q | q
  · rw [show F a b d s = _ from e] at q; cases q
  · rw [show F a b d s = _ from e] at q; cases q
theorem sup_le3 {σ A B C : Type} {c : (A → B → C → Prog σ α) → Prop} (hc : chain c) {f : A → B → C → Prog σ α} (hf : c f) {a : A} {b : B} {d : C} {s : σ}
    {x : α × σ} (e : f a b d s = .ok x) : CCPO.csup hc a b d s = .ok x := by
  rcases flat_fin (le_csup hc hf a b d s) with q | q
  · rw [e] at q; cases q
  · exact q.trans e
theorem thr_sup_le1 {σ A : Type} {c : (A → Thr σ α) → Prop} (hc : chain c) {f : A → Thr σ α} (hf : c f) {a : A} {k : Nat} {s : σ} {x : Out α × σ}
    (e : f a k s = .ok x) : CCPO.csup hc a k s = .ok x := by
  rcases flat_fin (le_csup hc hf a k s) with q | q
  · rw [e] at q; cases q
  · exact q.trans e
theorem thr_sup_ok3 {σ A B C : Type} {c : (A → B → C → Thr σ α) → Prop} (hc : chain c) {a : A} {b : B} {d : C} {k : Nat} {s : σ} {x : Out α × σ}
    (e : CCPO.csup hc a b d k s = .ok x) : ∃ f, c f ∧ f a b d k s = .ok x := by
  classical
  apply Decidable.byContradiction
  intro no
  let F := CCPO.csup hc
  let g : A → B → C → Thr σ α := fun a' b' d' k' m => if a' = a ∧ b' = b ∧ d' = d ∧ k' = k ∧ m = s then .diverge else F a' b' d' k' m
  have le : F ⊑ g := csup_le hc fun f hf => by
    intro a' b' d' k' m
    have hle := le_csup hc hf a' b' d' k' m
    by_cases q : a' = a ∧ b' = b ∧ d' = d ∧ k' = k ∧ m = s
    · obtain ⟨rfl, rfl, rfl, rfl, rfl⟩ := q
      simp only [g, and_self, if_true]
      rcases flat_fin hle with q | q
      · rw [q]; exact FlatOrder.rel.bot
      · exact absurd ⟨f, hf, q.symm.trans e⟩ no
    · simp only [g, if_neg q]; exact hle
  have := flat_fin (le a b d k s)
  simp only [g, and_self, if_true] at this
  rcases this with q | q
  · rw [show F a b d k s = _ from e] at q; cases q
  · rw [show F a b d k s = _ from e] at q; cases q
theorem thr_sup_le3 {σ A B C : Type} {c : (A → B → C → Thr σ α) → Prop} (hc : chain c) {f : A → B → C → Thr σ α} (hf : c f) {a : A} {b : B} {d : C} {k : Nat}
    {s : σ} {x : Out α × σ} (e : f a b d k s = .ok x) : CCPO.csup hc a b d k s = .ok x := by
  rcases flat_fin (le_csup hc hf a b d k s) with q | q
  · rw [e] at q; cases q
  · exact q.trans e
open Verif.Exc.XVec (thr_sup_ok1)
theorem framed_adm3 {A B C : Type} : admissible (fun f : A → B → C → Prog (Heap T) α => ∀ a b c, Framed (f a b c)) := by
  intro c hc ih a b d; constructor; intro L h hL r m e
  obtain ⟨f, hf, e'⟩ := sup_ok3 hc e
  obtain ⟨h', q, rest⟩ := (ih f hf a b d).out L h hL r m e'
  exact ⟨h', sup_le3 hc hf q, rest⟩
theorem framedT_adm1 {A : Type} : admissible (fun f : A → Thr (Heap T) α => ∀ a, FramedT (f a)) := by
  intro c hc ih a k; constructor; intro L h hL r m e
  obtain ⟨f, hf, e'⟩ := thr_sup_ok1 hc e
  obtain ⟨h', q, rest⟩ := (ih f hf a k).out L h hL r m e'
  exact ⟨h', thr_sup_le1 hc hf q, rest⟩
theorem framedT_adm3 {A B C : Type} : admissible (fun f : A → B → C → Thr (Heap T) α => ∀ a b c, FramedT (f a b c)) := by
  intro c hc ih a b d k; constructor; intro L h hL r m e
  obtain ⟨f, hf, e'⟩ := thr_sup_ok3 hc e
  obtain ⟨h', q, rest⟩ := (ih f hf a b d k).out L h hL r m e'
  exact ⟨h', thr_sup_le3 hc hf q, rest⟩
end

namespace DL
open Verif.Seq.DList

theorem framed_insertBefore (p n : Addr) : Framed (insertBefore p n : Prog (Heap T) Addr) := by unfold insertBefore; sframed
theorem framed_unlink (p : Addr) : Framed (unlink p : Prog (Heap T) Unit) := by unfold unlink; sframed
theorem framed_nodeSplice (p a b : Addr) : Framed (nodeSplice p a b : Prog (Heap T) Unit) := by unfold nodeSplice; sframed

macro "lframed" : tactic => `(tactic| repeat' (first
  | assumption
  | exact framed_pure _ | exact framed_getNext _ | exact framed_getTail _ | exact framed_getPrev _ | exact framed_getVal _ | exact framed_setNext _ _
  | exact framed_setTail _ _ | exact framed_setPrev _ _ | exact framed_setVal _ _ | exact framed_delete _
  | exact framed_freeRaw _ | exact framed_newNode _ | exact framed_newRaw | exact framed_readArg _
  | exact framed_insertBefore _ _ | exact framed_unlink _ | exact framed_nodeSplice _ _ _
  | apply Framed.bind | apply framed_ite | (intro a; try dsimp only)))

theorem framed_reverseLoop (c p : Addr) : Framed (reverseLoop c p : Prog (Heap T) Unit) := by
  refine reverseLoop.fixpoint_induct (T := T) c (motive := fun f => ∀ a, Framed (f a)) framed_adm1 (fun f ih i => ?_) p
  lframed
  exact ih _
theorem framed_halfSwap (a b : Addr) : Framed (halfSwap a b : Prog (Heap T) Unit) := by unfold halfSwap; lframed
theorem framed_nodeSwap (a b : Addr) : Framed (nodeSwap a b : Prog (Heap T) Unit) := by
  unfold nodeSwap; lframed
  all_goals exact framed_halfSwap _ _
theorem framed_create : Framed (create : Prog (Heap T) Addr) := by unfold create init; lframed
theorem framed_empty (c : Addr) : Framed (empty c : Prog (Heap T) Bool) := by unfold empty; lframed
theorem framed_sizeLoop (c p : Addr) (n : Nat) : Framed (sizeLoop c p n : Prog (Heap T) Nat) := by
  refine sizeLoop.fixpoint_induct (T := T) c (motive := fun f => ∀ a b, Framed (f a b)) framed_adm2 (fun f ih i n => ?_) p n
  lframed
  exact ih _ _
theorem framed_size (c : Addr) : Framed (size c : Prog (Heap T) Nat) := (framed_getNext c).bind fun _ => framed_sizeLoop _ _ _
theorem framed_front (c : Addr) : Framed (front c : Prog (Heap T) T) := by unfold front; lframed
theorem framed_back (c : Addr) : Framed (back c : Prog (Heap T) T) := by unfold back; lframed
theorem framed_entries (c : Addr) : Framed (entries c : Prog (Heap T) (List (Addr × T))) := (framed_getNext c).bind fun _ => framed_entriesFrom _ _
theorem framed_backwardFrom (stop p : Addr) : Framed (backwardFrom stop p : Prog (Heap T) (List (Addr × T))) := by
  refine backwardFrom.fixpoint_induct (T := T) stop (motive := fun f => ∀ a, Framed (f a)) framed_adm1 (fun f ih i => ?_) p
  lframed
  exact ih _
theorem framed_entriesBackward (c : Addr) : Framed (entriesBackward c : Prog (Heap T) (List (Addr × T))) :=
  (framed_getNext c).bind fun _ => framed_backwardFrom _ _
theorem framed_equalLoop (eqv : T → T → Bool) (p e q f : Addr) : Framed (equalLoop eqv p e q f : Prog (Heap T) Bool) := by
  refine equalLoop.fixpoint_induct (T := T) eqv e f (motive := fun f => ∀ a b, Framed (f a b)) framed_adm2 (fun f ih i j => ?_) p q
  lframed
  exact ih _ _
theorem framed_equals (eqv : T → T → Bool) (a b : Addr) : Framed (equals eqv a b : Prog (Heap T) Bool) := by
  unfold equals; lframed; exact framed_equalLoop _ _ _ _ _
theorem framed_pushFront (c : Addr) (v : T) : Framed (pushFront c v) := by unfold pushFront; lframed
theorem framed_pushBack (c : Addr) (v : T) : Framed (pushBack c v) := by unfold pushBack; lframed
theorem framed_popFront (c : Addr) : Framed (popFront c : Prog (Heap T) Unit) := by unfold popFront; lframed
theorem framed_popBack (c : Addr) : Framed (popBack c : Prog (Heap T) Unit) := by unfold popBack; lframed
theorem framed_insert (p : Addr) (v : T) : Framed (DList.insert p v) := by unfold DList.insert; lframed
theorem framed_insertN (p : Addr) (v : T) : ∀ n, Framed (insertN p n v)
  | 0 => framed_pure _
  | n + 1 => (framed_newNode v).bind fun a => (framed_insertBefore p a).bind fun _ => framed_insertN p v n
theorem framed_insertVals (p : Addr) : ∀ vs : List T, Framed (insertVals p vs)
  | [] => framed_pure _
  | v :: vs => (framed_newNode v).bind fun a => (framed_insertBefore p a).bind fun _ => framed_insertVals p vs
theorem framed_insertNodes (p first last : Addr) : Framed (insertNodes p first last : Prog (Heap T) Unit) := by
  refine insertNodes.fixpoint_induct (T := T) p last (motive := fun f => ∀ a, Framed (f a)) framed_adm1 (fun f ih i => ?_) first
  lframed
theorem framed_erase (p : Addr) : Framed (erase p : Prog (Heap T) Addr) := by unfold erase; lframed
theorem framed_eraseRange (p last : Addr) : Framed (eraseRange p last : Prog (Heap T) Addr) := by
  refine eraseRange.fixpoint_induct (T := T) last (motive := fun f => ∀ a, Framed (f a)) framed_adm1 (fun f ih i => ?_) p
  lframed
  exact ih _
theorem framed_clear (c : Addr) : Framed (clear c : Prog (Heap T) Unit) := by
  refine clear.fixpoint_induct (T := T) c (motive := fun f => Framed f) framed_adm0 (fun f ih => ?_)
  lframed
theorem framed_copyCtor (d : Addr) : Framed (copyCtor d : Prog (Heap T) Addr) := by
  unfold copyCtor; exact framed_create.bind fun c => (framed_getNext _).bind fun _ => (framed_getNext _).bind fun _ => (framed_insertNodes _ _ _).bind fun _ => framed_pure _
theorem framed_ctorN (n : Nat) (v : T) : Framed (ctorN n v) := framed_create.bind fun c => (framed_insertN _ _ _).bind fun _ => framed_pure _
theorem framed_ctorVals (vs : List T) : Framed (ctorVals vs) := framed_create.bind fun c => (framed_insertVals _ _).bind fun _ => framed_pure _
theorem framed_destroy (c : Addr) : Framed (destroy c : Prog (Heap T) Unit) := (framed_clear c).bind fun _ => framed_freeRaw c
theorem framed_opAssign (c d : Addr) : Framed (opAssign c d : Prog (Heap T) Unit) :=
  (framed_clear c).bind fun _ => (framed_getNext _).bind fun _ => (framed_getNext _).bind fun _ => framed_insertNodes _ _ _
theorem framed_assignVals (c : Addr) (vs : List T) : Framed (assignVals c vs) := (framed_clear c).bind fun _ => framed_insertVals _ _
theorem framed_assignN (c : Addr) (n : Nat) (v : T) : Framed (assignN c n v) := (framed_clear c).bind fun _ => framed_insertN _ _ _
theorem framed_resizeDrop (c p : Addr) : Framed (resizeDrop c p : Prog (Heap T) Unit) := by
  refine resizeDrop.fixpoint_induct (T := T) c p (motive := fun f => Framed f) framed_adm0 (fun f ih => ?_)
  lframed
theorem framed_resizeLoop (c p : Addr) (siz n : Nat) (v : T) : Framed (resizeLoop c p siz n v : Prog (Heap T) Unit) := by
  refine resizeLoop.fixpoint_induct (T := T) c n v (motive := fun f => ∀ a b, Framed (f a b)) framed_adm2 (fun f ih i s => ?_) p siz
  lframed
  · exact framed_resizeDrop _ _
  · exact ih _ _
  · exact framed_insertN _ _ _
theorem framed_resize (c : Addr) (n : Nat) (v : T) : Framed (resize c n v) := (framed_getNext c).bind fun _ => framed_resizeLoop _ _ _ _ _
theorem framed_removeLoop (c : Addr) {test : T → Prog (Heap T) Bool} (ht : ∀ v, Framed (test v)) (p n : Addr) : Framed (removeLoop c test p n) := by
  refine removeLoop.fixpoint_induct (T := T) c test (motive := fun f => ∀ a b, Framed (f a b)) framed_adm2 (fun f ih i j => ?_) p n
  lframed
  all_goals first | exact ih _ _ | exact ht _
theorem framed_removeIf (c : Addr) (pred : T → Bool) : Framed (removeIf c pred) :=
  (framed_getNext c).bind fun _ => (framed_getNext _).bind fun _ => framed_removeLoop _ (fun _ => framed_pure _) _ _
theorem framed_remove (c : Addr) (eqv : T → T → Bool) (a : Arg T) : Framed (remove c eqv a) :=
  (framed_getNext c).bind fun _ => (framed_getNext _).bind fun _ => framed_removeLoop _ (fun _ => (framed_readArg a).bind fun _ => framed_pure _) _ _
theorem framed_uniqueLoop (c : Addr) (pred : T → T → Bool) (a p n : Addr) : Framed (uniqueLoop c pred a p n) := by
  refine uniqueLoop.fixpoint_induct (T := T) c pred (motive := fun f => ∀ a b c, Framed (f a b c)) framed_adm3 (fun f ih i j k => ?_) a p n
  lframed
  all_goals exact ih _ _ _
theorem framed_unique (c : Addr) (pred : T → T → Bool) : Framed (unique c pred) :=
  (framed_getNext c).bind fun _ => (framed_getNext _).bind fun _ => (framed_getNext _).bind fun _ => framed_uniqueLoop _ _ _ _ _
theorem framed_mergeLoop (c d : Addr) (lt : T → T → Bool) (o i : Addr) : Framed (mergeLoop c d lt o i) := by
  refine mergeLoop.fixpoint_induct (T := T) c d lt (motive := fun f => ∀ a b, Framed (f a b)) framed_adm2 (fun f ih i j => ?_) o i
  lframed
  all_goals exact ih _ _
theorem framed_merge (c d : Addr) (lt : T → T → Bool) : Framed (merge c d lt) :=
  (framed_getNext _).bind fun _ => (framed_getNext _).bind fun _ => framed_mergeLoop _ _ _ _ _
theorem framed_advance : ∀ (n : Nat) (p : Addr), Framed (advance n p : Prog (Heap T) Addr)
  | 0, p => framed_pure _
  | n + 1, p => (framed_getNext p).bind fun _ => framed_advance n _
theorem framed_iterAt (c : Addr) (i : Nat) : Framed (iterAt c i : Prog (Heap T) Addr) := (framed_getNext c).bind fun _ => framed_advance _ _

/-- Every call on lists leaves leaked cells alone and is not influenced by them. -/
theorem framed_exec (q : Call T) : Framed (DList.exec q) := by
  cases q with
  | create => exact framed_create.bind fun _ => framed_pure _
  | copyOf s => exact (framed_copyCtor s).bind fun _ => framed_pure _
  | ctorN n v => exact (framed_ctorN n v).bind fun _ => framed_pure _
  | ctorVals vs => exact (framed_ctorVals vs).bind fun _ => framed_pure _
  | destroy c => exact framed_destroy _
  | pushFront c v => exact framed_pushFront _ _
  | pushBack c v => exact framed_pushBack _ _
  | popFront c => exact framed_popFront _
  | popBack c => exact framed_popBack _
  | insert c i v => exact (framed_iterAt _ _).bind fun _ => (framed_insert _ _).bind fun _ => framed_pure _
  | insertN c i n v => exact (framed_iterAt _ _).bind fun _ => framed_insertN _ _ _
  | insertVals c i vs => exact (framed_iterAt _ _).bind fun _ => framed_insertVals _ _
  | insertList c i d => exact (framed_iterAt _ _).bind fun _ => (framed_getNext _).bind fun _ => framed_insertNodes _ _ _
  | erase c i => exact (framed_iterAt _ _).bind fun _ => (framed_erase _).bind fun _ => framed_pure _
  | eraseRange c i j => exact (framed_iterAt _ _).bind fun _ => (framed_iterAt _ _).bind fun _ => (framed_eraseRange _ _).bind fun _ => framed_pure _
  | clear c => exact framed_clear _
  | assign c d => exact framed_opAssign _ _
  | assignN c n v => exact framed_assignN _ _ _
  | assignVals c vs => exact framed_assignVals _ _
  | resize c n v => exact framed_resize _ _ _
  | removeIf c p => exact framed_removeIf _ _
  | remove c eqv v => exact framed_remove _ _ _
  | unique c pred => exact framed_unique _ _
  | merge c d lt => exact framed_merge _ _ _
  | reverse c => exact framed_reverseLoop _ _
  | spliceAll c i d => exact (framed_iterAt _ _).bind fun _ => (framed_getNext _).bind fun _ => framed_nodeSplice _ _ _
  | spliceOne c i d j =>
    refine (framed_iterAt _ _).bind fun _ => (framed_iterAt _ _).bind fun _ => ?_
    unfold spliceOne; lframed
  | splice c i d j k => exact (framed_iterAt _ _).bind fun _ => (framed_iterAt _ _).bind fun _ => (framed_iterAt _ _).bind fun _ => framed_nodeSplice _ _ _
  | swap c d => exact framed_nodeSwap _ _
  | store c i v => exact (framed_iterAt _ _).bind fun _ => framed_setVal _ _
end DL

/-! ## Calls that may throw -/
namespace DL
open Verif.Exc.XList

theorem framedT_newNode (v : T) : FramedT (XList.newNode v) := framedT_point.bind fun _ => framedT_call (framed_newNode v)

macro "tframed" : tactic => `(tactic| repeat' (first
  | assumption
  | exact framedT_pure _ | exact framedT_point | exact framedT_newNode _
  | exact framedT_call (framed_getNext _) | exact framedT_call (framed_getPrev _) | exact framedT_call (framed_getVal _)
  | exact framedT_call (framed_setNext _ _) | exact framedT_call (framed_setPrev _ _) | exact framedT_call (framed_setVal _ _)
  | exact framedT_call (framed_delete _) | exact framedT_call (framed_insertBefore _ _) | exact framedT_call (framed_unlink _)
  | exact framedT_call (framed_nodeSplice _ _ _) | exact framedT_call (framed_clear _) | exact framedT_call (framed_iterAt _ _)
  | apply FramedT.bind | apply framedT_ite | (intro a; try dsimp only)))

theorem framedT_insertN (p : Addr) (v : T) : ∀ n, FramedT (XList.insertN p n v)
  | 0 => framedT_pure _
  | n + 1 => (framedT_newNode v).bind fun a => (framedT_call (framed_insertBefore p a)).bind fun _ => framedT_insertN p v n
theorem framedT_insertVals (p : Addr) : ∀ vs : List T, FramedT (XList.insertVals p vs)
  | [] => framedT_pure _
  | v :: vs => (framedT_newNode v).bind fun a => (framedT_call (framed_insertBefore p a)).bind fun _ => framedT_insertVals p vs
theorem framedT_insertNodes (p first last : Addr) : FramedT (XList.insertNodes p first last : Thr (Heap T) Unit) := by
  refine XList.insertNodes.fixpoint_induct (T := T) p last (motive := fun f => ∀ a, FramedT (f a)) framedT_adm1 (fun f ih i => ?_) first
  tframed
theorem framedT_resizeLoop (c p : Addr) (siz n : Nat) (v : T) : FramedT (XList.resizeLoop c p siz n v : Thr (Heap T) Unit) := by
  refine XList.resizeLoop.fixpoint_induct (T := T) c n v (motive := fun f => ∀ a b, FramedT (f a b)) framedT_adm2 (fun f ih i s => ?_) p siz
  tframed
  · exact framedT_call (framed_resizeDrop _ _) _
  · exact ih _ _ _
  · exact framedT_insertN _ _ _ _
theorem framedT_removeLoop (c : Addr) (test : T → Bool) (p n : Addr) : FramedT (XList.removeLoop c test p n) := by
  refine XList.removeLoop.fixpoint_induct (T := T) c test (motive := fun f => ∀ a b, FramedT (f a b)) framedT_adm2 (fun f ih i j => ?_) p n
  tframed
  all_goals exact ih _ _ _
theorem framedT_uniqueLoop (c : Addr) (pred : T → T → Bool) (a p n : Addr) : FramedT (XList.uniqueLoop c pred a p n) := by
  refine XList.uniqueLoop.fixpoint_induct (T := T) c pred (motive := fun f => ∀ a b c, FramedT (f a b c)) framedT_adm3 (fun f ih i j k => ?_) a p n
  tframed
  all_goals exact ih _ _ _ _
theorem framedT_mergeLoop (c d : Addr) (lt : T → T → Bool) (o i : Addr) : FramedT (XList.mergeLoop c d lt o i) := by
  refine XList.mergeLoop.fixpoint_induct (T := T) c d lt (motive := fun f => ∀ a b, FramedT (f a b)) framedT_adm2 (fun f ih i j => ?_) o i
  tframed
  all_goals exact ih _ _ _

/-- Every call on lists, left by an exception or not, leaves leaked cells alone and is not influenced by them. -/
theorem framedT_exec (q : DList.Call T) : FramedT (XList.exec q) := by
  cases q with
  | copyOf s =>
    exact ((framedT_call framed_create).bind fun c => (framedT_unwinding ((framedT_call (framed_getNext _)).bind fun _ => (framedT_call (framed_getNext _)).bind fun _ =>
      framedT_insertNodes _ _ _) (framed_freeRaw _)).bind fun _ => framedT_pure _).bind fun _ => framedT_pure _
  | ctorN n v => exact ((framedT_call framed_create).bind fun c => (framedT_unwinding (framedT_insertN _ _ _) (framed_freeRaw _)).bind fun _ => framedT_pure _).bind fun _ => framedT_pure _
  | ctorVals vs => exact ((framedT_call framed_create).bind fun c => (framedT_unwinding (framedT_insertVals _ _) (framed_freeRaw _)).bind fun _ => framedT_pure _).bind fun _ => framedT_pure _
  | pushFront c v => simp only [XList.exec, XList.pushFront]; tframed
  | pushBack c v => simp only [XList.exec, XList.pushBack]; tframed
  | insert c i v => simp only [XList.exec, XList.insert]; tframed
  | insertN c i n v => exact (framedT_call (framed_iterAt _ _)).bind fun _ => framedT_insertN _ _ _
  | insertVals c i vs => exact (framedT_call (framed_iterAt _ _)).bind fun _ => framedT_insertVals _ _
  | insertList c i d => exact (framedT_call (framed_iterAt _ _)).bind fun _ => (framedT_call (framed_getNext _)).bind fun _ => framedT_insertNodes _ _ _
  | assign c d => exact (framedT_call (framed_clear _)).bind fun _ => (framedT_call (framed_getNext _)).bind fun _ => (framedT_call (framed_getNext _)).bind fun _ => framedT_insertNodes _ _ _
  | assignN c n v => exact (framedT_call (framed_clear _)).bind fun _ => framedT_insertN _ _ _
  | assignVals c vs => exact (framedT_call (framed_clear _)).bind fun _ => framedT_insertVals _ _
  | resize c n v => exact (framedT_call (framed_getNext _)).bind fun _ => framedT_resizeLoop _ _ _ _ _
  | removeIf c p => exact (framedT_call (framed_getNext _)).bind fun _ => (framedT_call (framed_getNext _)).bind fun _ => framedT_removeLoop _ _ _ _
  | remove c eqv v => exact (framedT_call (framed_getNext _)).bind fun _ => (framedT_call (framed_getNext _)).bind fun _ => framedT_removeLoop _ _ _ _
  | unique c pred => exact (framedT_call (framed_getNext _)).bind fun _ => (framedT_call (framed_getNext _)).bind fun _ => (framedT_call (framed_getNext _)).bind fun _ => framedT_uniqueLoop _ _ _ _ _
  | merge c d lt => exact (framedT_call (framed_getNext _)).bind fun _ => (framedT_call (framed_getNext _)).bind fun _ => framedT_mergeLoop _ _ _ _ _
  | _ => exact framedT_call (framed_exec _)
end DL
end Verif.Exc.XSeq
