import Verif.Exc.VecSim
import Verif.Seq.LazyApi
/-!
# Leaked nodes do not matter

`without h L` is the memory `h` of the linked containers without the cells of the set `L`. Whatever a member of `ttl::lazy_queue` does in
`without h L` it does in `h`, and the cells of `L` are not touched: a leaked node stays, unchanged, and changes nothing else.
-/
set_option linter.unusedVariables false
set_option linter.unusedSimpArgs false
namespace Verif.Exc.XSeq
open Verif Verif.Seq Verif.Exc
variable {T α β : Type}

/-- Memory without the cells in `L`. -/
def without (h : Heap T) (L : Addr → Bool) : Heap T := { h with live := fun x => !L x && h.live x }

/-- `p` does in `h` what it does in `without h L`, and leaves `L` alone. -/
structure Framed (p : Prog (Heap T) α) : Prop where
  out : ∀ (L : Addr → Bool) (h : Heap T), (∀ x, L x = true → x < h.fresh) → ∀ r m, p (without h L) = .ok (r, m) →
    ∃ h', p h = .ok (r, h') ∧ without h' L = m ∧ h.fresh ≤ h'.fresh ∧ ∀ x, L x = true → Same h h' x

theorem framed_pure (a : α) : Framed (pure a : Prog (Heap T) α) := by
  constructor; intro L h hL r m e
  cases e
  exact ⟨h, rfl, rfl, Nat.le_refl _, fun _ _ => .rfl⟩

theorem Framed.bind {p : Prog (Heap T) α} {f : α → Prog (Heap T) β} (hp : Framed p) (hf : ∀ a, Framed (f a)) : Framed (p >>= f) := by
  constructor; intro L h hL r m e
  simp only [Prog.bind_app] at e ⊢
  cases q : p (without h L) with
  | diverge => rw [q] at e; cases e
  | ub f => rw [q] at e; cases e
  | ok x =>
    rw [q] at e
    obtain ⟨h1, e1, e2, e3, e4⟩ := hp.out L h hL x.1 x.2 q
    obtain ⟨h2, f1, f2, f3, f4⟩ := (hf x.1).out L h1 (fun b l => Nat.lt_of_lt_of_le (hL b l) e3) r m (by rw [e2]; exact e)
    exact ⟨h2, by rw [e1]; exact f1, f2, Nat.le_trans e3 f3, fun x l => (e4 x l).trans (f4 x l)⟩

theorem framed_ite {c : Prop} [Decidable c] {p q : Prog (Heap T) α} (hp : Framed p) (hq : Framed q) : Framed (if c then p else q) := by
  split
  · exact hp
  · exact hq

/-! ## The accesses to memory -/

theorem masked {h : Heap T} {L : Addr → Bool} {p : Addr} (l : (without h L).live p = true) : L p = false ∧ h.live p = true := by
  simp only [without, Bool.and_eq_true, Bool.not_eq_true'] at l; exact l

/-- An access to `p` that needs `p` allocated and changes at most `p`. -/
theorem framed_at {q : Prog (Heap T) α} (p : Addr) (need : ∀ h : Heap T, h.live p = false → ∃ f, q h = .ub f)
    (same : ∀ (h : Heap T) (L : Addr → Bool), L p = false → ∀ r m, q (without h L) = .ok (r, m) →
      ∃ h', q h = .ok (r, h') ∧ without h' L = m ∧ h.fresh = h'.fresh ∧ ∀ x, x ≠ p → Same h h' x) : Framed q := by
  constructor; intro L h hL r m e
  cases l : (without h L).live p with
  | false => obtain ⟨f, g⟩ := need _ l; rw [g] at e; cases e
  | true =>
    obtain ⟨l1, l2⟩ := masked l
    obtain ⟨h', a, b, c, d⟩ := same h L l1 r m e
    refine ⟨h', a, b, Nat.le_of_eq c, fun x hx => d x ?_⟩
    rintro rfl; rw [l1] at hx; cases hx

theorem live_without {h : Heap T} {L : Addr → Bool} {p : Addr} (l : L p = false) : (without h L).live p = h.live p := by simp [without, l]

theorem framed_getNext (p : Addr) : Framed (getNext p : Prog (Heap T) Addr) := by
  refine framed_at p (fun h l => ⟨_, getNext_dead l⟩) fun h L l r m e => ?_
  simp only [getNext, live_without l] at e ⊢
  split at e
  · cases e; rename_i q; rw [if_pos q]; exact ⟨h, rfl, rfl, rfl, fun _ _ => .rfl⟩
  · cases e

theorem framed_getTail (p : Addr) : Framed (getTail p : Prog (Heap T) Addr) := by
  refine framed_at p (fun h l => ⟨.access, by simp [getTail, l]⟩) fun h L l r m e => ?_
  simp only [getTail, live_without l] at e ⊢
  split at e
  · cases e; rename_i q; rw [if_pos q]; exact ⟨h, rfl, rfl, rfl, fun _ _ => .rfl⟩
  · cases e

theorem framed_getPrev (p : Addr) : Framed (getPrev p : Prog (Heap T) Addr) := by
  refine framed_at p (fun h l => ⟨.access, by simp [getPrev, l]⟩) fun h L l r m e => ?_
  simp only [getPrev, live_without l] at e ⊢
  split at e
  · cases e; rename_i q; rw [if_pos q]; exact ⟨h, rfl, rfl, rfl, fun _ _ => .rfl⟩
  · cases e

theorem framed_getVal (p : Addr) : Framed (getVal p : Prog (Heap T) T) := by
  refine framed_at p (fun h l => ⟨.access, by simp [getVal, l]⟩) fun h L l r m e => ?_
  simp only [getVal, live_without l] at e ⊢
  split at e
  · rename_i q
    rw [if_pos q]
    have : (without h L).val = h.val := rfl
    rw [this] at e
    cases g : h.val p with
    | none => rw [g] at e; cases e
    | some v => rw [g] at e; cases e; exact ⟨h, rfl, rfl, rfl, fun _ _ => .rfl⟩
  · cases e

theorem framed_setNext (p q : Addr) : Framed (setNext p q : Prog (Heap T) Unit) := by
  refine framed_at p (fun h l => ⟨_, setNext_dead l q⟩) fun h L l r m e => ?_
  simp only [setNext, live_without l] at e ⊢
  split at e
  · cases e; rename_i g; rw [if_pos g]
    exact ⟨_, rfl, rfl, rfl, fun x hx => ⟨upd_other _ _ hx, rfl, rfl, rfl, rfl⟩⟩
  · cases e

theorem framed_setPrev (p q : Addr) : Framed (setPrev p q : Prog (Heap T) Unit) := by
  refine framed_at p (fun h l => ⟨_, setPrev_dead l q⟩) fun h L l r m e => ?_
  simp only [setPrev, live_without l] at e ⊢
  split at e
  · cases e; rename_i g; rw [if_pos g]
    exact ⟨_, rfl, rfl, rfl, fun x hx => ⟨rfl, upd_other _ _ hx, rfl, rfl, rfl⟩⟩
  · cases e

theorem framed_setTail (p q : Addr) : Framed (setTail p q : Prog (Heap T) Unit) := by
  refine framed_at p (fun h l => ⟨.access, by simp [setTail, l]⟩) fun h L l r m e => ?_
  simp only [setTail, live_without l] at e ⊢
  split at e
  · cases e; rename_i g; rw [if_pos g]
    exact ⟨_, rfl, rfl, rfl, fun x hx => ⟨rfl, rfl, upd_other _ _ hx, rfl, rfl⟩⟩
  · cases e

theorem framed_setVal (p : Addr) (v : T) : Framed (setVal p v : Prog (Heap T) Unit) := by
  refine framed_at p (fun h l => ⟨.access, by simp [setVal, l]⟩) fun h L l r m e => ?_
  simp only [setVal, live_without l] at e ⊢
  split at e
  · rename_i g
    rw [if_pos g]
    have : (without h L).val = h.val := rfl
    rw [this] at e
    cases g : h.val p with
    | none => rw [g] at e; cases e
    | some v => rw [g] at e; cases e; exact ⟨_, rfl, rfl, rfl, fun x hx => ⟨rfl, rfl, rfl, upd_other _ _ hx, rfl⟩⟩
  · cases e

theorem framed_construct (p : Addr) (v : T) : Framed (construct p v : Prog (Heap T) Unit) := by
  refine framed_at p (fun h l => ⟨.access, by simp [construct, l]⟩) fun h L l r m e => ?_
  simp only [construct, live_without l] at e ⊢
  split at e
  · rename_i g
    rw [if_pos g]
    have : (without h L).val = h.val := rfl
    rw [this] at e
    cases g : h.val p with
    | some v => rw [g] at e; cases e
    | none => rw [g] at e; cases e; exact ⟨_, rfl, rfl, rfl, fun x hx => ⟨rfl, rfl, rfl, upd_other _ _ hx, rfl⟩⟩
  · cases e

theorem framed_destruct (p : Addr) : Framed (destruct p : Prog (Heap T) Unit) := by
  refine framed_at p (fun h l => ⟨.access, by simp [destruct, l]⟩) fun h L l r m e => ?_
  simp only [destruct, live_without l] at e ⊢
  split at e
  · rename_i g
    rw [if_pos g]
    have : (without h L).val = h.val := rfl
    rw [this] at e
    cases g : h.val p with
    | none => rw [g] at e; cases e
    | some v => rw [g] at e; cases e; exact ⟨_, rfl, rfl, rfl, fun x hx => ⟨rfl, rfl, rfl, upd_other _ _ hx, rfl⟩⟩
  · cases e

theorem upd_live {h : Heap T} {L : Addr → Bool} {p : Addr} (l : L p = false) (b : Bool) :
    (fun x => !L x && upd h.live p b x) = upd (without h L).live p b := by
  funext x
  simp only [upd, without]
  by_cases q : x = p
  · subst q; simp [l]
  · simp [q]

theorem framed_freeRaw (p : Addr) : Framed (freeRaw p : Prog (Heap T) Unit) := by
  refine framed_at p (fun h l => ⟨.access, by simp [freeRaw, l]⟩) fun h L l r m e => ?_
  simp only [freeRaw, live_without l] at e ⊢
  split at e
  · cases e; rename_i g; rw [if_pos g]
    refine ⟨_, rfl, ?_, rfl, fun x hx => ⟨rfl, rfl, rfl, rfl, upd_other _ _ hx⟩⟩
    rw [← upd_live l]; rfl
  · cases e

theorem framed_delete (p : Addr) : Framed (delete p : Prog (Heap T) Unit) := by
  refine framed_at p (fun h l => ⟨.access, by simp [delete, l]⟩) fun h L l r m e => ?_
  simp only [delete, live_without l] at e ⊢
  split at e
  · rename_i g
    rw [if_pos g]
    have : (without h L).val = h.val := rfl
    rw [this] at e
    cases g : h.val p with
    | none => rw [g] at e; cases e
    | some v =>
      rw [g] at e; cases e
      refine ⟨_, rfl, ?_, rfl, fun x hx => ⟨rfl, rfl, rfl, upd_other _ _ hx, upd_other _ _ hx⟩⟩
      rw [← upd_live l]; rfl
  · cases e

theorem framed_deleteNode (triv : Bool) (p : Addr) : Framed (deleteNode triv p : Prog (Heap T) Unit) := by
  cases triv with
  | false => exact framed_delete p
  | true =>
    refine framed_at p (fun h l => ⟨.access, by simp [deleteNode, l]⟩) fun h L l r m e => ?_
    change (if (without h L).live p then _ else _) = _ at e
    change ∃ h', (if h.live p then _ else _) = _ ∧ _
    rw [live_without l] at e
    split at e
    · cases e; rename_i g; rw [if_pos g]
      refine ⟨_, rfl, ?_, rfl, fun x hx => ⟨rfl, rfl, rfl, upd_other _ _ hx, upd_other _ _ hx⟩⟩
      rw [← upd_live l]; rfl
    · cases e

theorem framed_new {q : Option T} : Framed (fun h : Heap T =>
    .ok (h.fresh, { h with val := upd h.val h.fresh q, live := upd h.live h.fresh true, fresh := h.fresh + 1 }) : Prog (Heap T) Addr) := by
  constructor; intro L h hL r m e
  have l : L h.fresh = false := by
    cases g : L h.fresh with
    | false => rfl
    | true => exact absurd (hL _ g) (Nat.lt_irrefl _)
  cases e
  refine ⟨_, rfl, ?_, Nat.le_succ _, fun x hx => ?_⟩
  · have := upd_live (h := h) l true
    simp only [without] at this ⊢
    rw [← this]
  · have : x ≠ h.fresh := by rintro rfl; rw [l] at hx; cases hx
    exact ⟨rfl, rfl, rfl, upd_other _ _ this, upd_other _ _ this⟩

theorem framed_newNode (v : T) : Framed (newNode v : Prog (Heap T) Addr) := framed_new
theorem framed_newRaw : Framed (newRaw : Prog (Heap T) Addr) := framed_new

/-! ## Loops -/

section
open Lean.Order
open Verif.Exc.XVec (sup_ok0 sup_le0 sup_ok1 sup_le1 sup_ok2 sup_le2)

theorem framed_adm0 : admissible (fun f : Prog (Heap T) α => Framed f) := by
  intro c hc ih; constructor; intro L h hL r m e
  obtain ⟨f, hf, e'⟩ := sup_ok0 hc e
  obtain ⟨h', q, rest⟩ := (ih f hf).out L h hL r m e'
  exact ⟨h', sup_le0 hc hf q, rest⟩
theorem framed_adm1 {A : Type} : admissible (fun f : A → Prog (Heap T) α => ∀ a, Framed (f a)) := by
  intro c hc ih a; constructor; intro L h hL r m e
  obtain ⟨f, hf, e'⟩ := sup_ok1 hc e
  obtain ⟨h', q, rest⟩ := (ih f hf a).out L h hL r m e'
  exact ⟨h', sup_le1 hc hf q, rest⟩
theorem framed_adm2 {A B : Type} : admissible (fun f : A → B → Prog (Heap T) α => ∀ a b, Framed (f a b)) := by
  intro c hc ih a b; constructor; intro L h hL r m e
  obtain ⟨f, hf, e'⟩ := sup_ok2 hc e
  obtain ⟨h', q, rest⟩ := (ih f hf a b).out L h hL r m e'
  exact ⟨h', sup_le2 hc hf q, rest⟩
end

/-- Decompose a program into its steps. -/
macro "sframed" : tactic => `(tactic| repeat' (first
  | assumption
  | exact framed_pure _ | exact framed_getNext _ | exact framed_getTail _ | exact framed_getPrev _ | exact framed_getVal _ | exact framed_setNext _ _
  | exact framed_setTail _ _ | exact framed_setPrev _ _ | exact framed_setVal _ _ | exact framed_construct _ _ | exact framed_destruct _
  | exact framed_freeRaw _ | exact framed_delete _ | exact framed_deleteNode _ _ | exact framed_newNode _ | exact framed_newRaw
  | apply Framed.bind | apply framed_ite | (intro a; try dsimp only)))

theorem framed_insertAfter (p n : Addr) : Framed (SNode.insertAfter p n : Prog (Heap T) Addr) := by unfold SNode.insertAfter; sframed
theorem framed_unlinkNext (p : Addr) : Framed (SNode.unlinkNext p : Prog (Heap T) Addr) := by unfold SNode.unlinkNext; sframed
theorem framed_readArg (a : DList.Arg T) : Framed (DList.readArg a : Prog (Heap T) T) := by
  cases a with
  | ext v => exact framed_pure _
  | elem a => exact framed_getVal _
theorem framed_posAt : ∀ (i : Nat) (c : Addr), Framed (SList.posAt c i : Prog (Heap T) Addr)
  | 0, c => framed_pure _
  | i + 1, c => (framed_getNext c).bind fun a => framed_posAt i a
theorem framed_entriesFrom (stop p : Addr) : Framed (DList.entriesFrom stop p : Prog (Heap T) (List (Addr × T))) := by
  refine DList.entriesFrom.fixpoint_induct (T := T) stop (motive := fun f => ∀ a, Framed (f a)) framed_adm1 (fun f ih i => ?_) p
  sframed
  exact ih _
theorem framed_entries (c : Addr) : Framed (SList.entries c : Prog (Heap T) (List (Addr × T))) :=
  (framed_getNext c).bind fun _ => framed_entriesFrom _ _
theorem framed_front (c : Addr) : Framed (SList.front c : Prog (Heap T) T) := by unfold SList.front; sframed

/-! ## The members of `lazy_queue` -/
namespace LQ
open Verif.Seq.LQueue

macro "qframed" : tactic => `(tactic| repeat' (first
  | assumption
  | exact framed_pure _ | exact framed_getNext _ | exact framed_getTail _ | exact framed_getPrev _ | exact framed_getVal _ | exact framed_setNext _ _
  | exact framed_setTail _ _ | exact framed_setPrev _ _ | exact framed_setVal _ _ | exact framed_construct _ _ | exact framed_destruct _
  | exact framed_freeRaw _ | exact framed_delete _ | exact framed_deleteNode _ _ | exact framed_newNode _ | exact framed_newRaw
  | exact framed_insertAfter _ _ | exact framed_unlinkNext _ | exact framed_readArg _ | exact framed_posAt _ _
  | apply Framed.bind | apply framed_ite | (intro a; try dsimp only)))

theorem framed_getNode (c : Addr) (v : T) : Framed (getNode c v : Prog (Heap T) Addr) := by unfold getNode; qframed
theorem framed_putNode (c n : Addr) : Framed (putNode c n : Prog (Heap T) Unit) := by unfold putNode; qframed
theorem framed_create : Framed (create : Prog (Heap T) Addr) := by unfold create; qframed
theorem framed_empty (c : Addr) : Framed (empty c : Prog (Heap T) Bool) := by unfold empty; qframed
theorem framed_back (c : Addr) : Framed (back c : Prog (Heap T) T) := by unfold back; qframed
theorem framed_beforeEnd (c : Addr) : Framed (beforeEnd c : Prog (Heap T) Addr) := framed_getTail c
theorem framed_insertLoopN (c : Addr) (value : DList.Arg T) : ∀ (n : Nat) (p : Addr), Framed (insertLoopN c p n value : Prog (Heap T) Addr)
  | 0, p => framed_pure _
  | n + 1, p => (framed_readArg value).bind fun v => (framed_getNode c v).bind fun x => (framed_insertAfter p x).bind fun q => framed_insertLoopN c value n q
theorem framed_insertLoopVals (c : Addr) : ∀ (vs : List T) (p : Addr), Framed (insertLoopVals c p vs : Prog (Heap T) Addr)
  | [], p => framed_pure _
  | v :: vs, p => (framed_getNode c v).bind fun x => (framed_insertAfter p x).bind fun q => framed_insertLoopVals c vs q
theorem framed_insertLoopNodes (c p first last : Addr) : Framed (insertLoopNodes c p first last : Prog (Heap T) Addr) := by
  refine insertLoopNodes.fixpoint_induct (T := T) c last (motive := fun f => ∀ a b, Framed (f a b)) framed_adm2 (fun f ih p i => ?_) p first
  qframed
  exact ih _ _
theorem framed_eraseLoop (c p last : Addr) : Framed (eraseLoop c p last : Prog (Heap T) Unit) := by
  refine eraseLoop.fixpoint_induct (T := T) c p last (motive := fun f => Framed f) framed_adm0 (fun f ih => ?_)
  qframed
theorem framed_clearLoop (c : Addr) : Framed (clearLoop c : Prog (Heap T) Unit) := by
  refine clearLoop.fixpoint_induct (T := T) c (motive := fun f => Framed f) framed_adm0 (fun f ih => ?_)
  qframed
theorem framed_deleteLoop (triv : Bool) (p : Addr) : Framed (deleteLoop triv p : Prog (Heap T) Unit) := by
  refine deleteLoop.fixpoint_induct (T := T) triv p (motive := fun f => Framed f) framed_adm0 (fun f ih => ?_)
  qframed
theorem framed_clear (c : Addr) : Framed (clear c : Prog (Heap T) Unit) := (framed_clearLoop c).bind fun _ => framed_setTail _ _
theorem framed_cleanup (triv : Bool) (c : Addr) : Framed (cleanup triv c : Prog (Heap T) Unit) := framed_deleteLoop _ _
theorem framed_destroy (triv : Bool) (c : Addr) : Framed (destroy triv c : Prog (Heap T) Unit) :=
  (framed_deleteLoop _ _).bind fun _ => (framed_cleanup _ _).bind fun _ => (framed_freeRaw _).bind fun _ => framed_freeRaw _
theorem framed_insertN (c pos : Addr) (n : Nat) (value : DList.Arg T) : Framed (insertN c pos n value : Prog (Heap T) Unit) := by
  unfold insertN; qframed; exact framed_insertLoopN _ _ _ _
theorem framed_insertVals (c pos : Addr) (vs : List T) : Framed (insertVals c pos vs : Prog (Heap T) Unit) := by
  unfold insertVals; qframed; exact framed_insertLoopVals _ _ _
theorem framed_insertNodes (c pos first last : Addr) : Framed (insertNodes c pos first last : Prog (Heap T) Unit) := by
  unfold insertNodes; qframed; exact framed_insertLoopNodes _ _ _ _
theorem framed_swap (a b : Addr) : Framed (LQueue.swap a b : Prog (Heap T) Unit) := by unfold LQueue.swap; qframed
theorem framed_rollHead (c : Addr) : Framed (rollHead c : Prog (Heap T) Unit) := by unfold rollHead; qframed
theorem framed_popFront (c : Addr) : Framed (popFront c : Prog (Heap T) Unit) := by
  unfold popFront; qframed
theorem framed_pushFront (c : Addr) (v : T) : Framed (pushFront c v : Prog (Heap T) Unit) := by
  unfold pushFront; qframed
theorem framed_pushBack (c : Addr) (v : T) : Framed (pushBack c v : Prog (Heap T) Unit) := by
  unfold pushBack; qframed
theorem framed_insertOne (c pos : Addr) (v : T) : Framed (insertOne c pos v : Prog (Heap T) Addr) := by
  unfold insertOne; qframed
theorem framed_eraseAfter (c pos : Addr) : Framed (eraseAfter c pos : Prog (Heap T) Addr) := by
  unfold eraseAfter; qframed; all_goals exact framed_putNode _ _
theorem framed_eraseRange (c pos last : Addr) : Framed (eraseRange c pos last : Prog (Heap T) Addr) := by
  unfold eraseRange; qframed; exact framed_eraseLoop _ _ _

/-- Every call on lazy queues leaves leaked cells alone and is not influenced by them. -/
theorem framed_exec (triv : Bool) (q : Call T) : Framed (LQueue.exec triv q) := by
  cases q with
  | create => exact framed_create.bind fun _ => framed_pure _
  | copyOf s => exact (framed_create.bind fun c => (framed_getNext _).bind fun _ => (framed_insertNodes _ _ _ _).bind fun _ => framed_pure _).bind fun _ => framed_pure _
  | ctorN n v => exact (framed_create.bind fun c => (framed_insertN _ _ _ _).bind fun _ => framed_pure _).bind fun _ => framed_pure _
  | destroy c => exact framed_destroy _ _
  | cleanup c => exact framed_cleanup _ _
  | pushFront c v => exact framed_pushFront _ _
  | pushBack c v => exact framed_pushBack _ _
  | popFront c => exact framed_popFront _
  | insert c i v => exact (framed_posAt _ _).bind fun _ => (framed_insertOne _ _ _).bind fun _ => framed_pure _
  | insertN c i n v => exact (framed_posAt _ _).bind fun _ => framed_insertN _ _ _ _
  | insertVals c i vs => exact (framed_posAt _ _).bind fun _ => framed_insertVals _ _ _
  | insertQueue c i d => exact (framed_posAt _ _).bind fun _ => (framed_getNext _).bind fun _ => framed_insertNodes _ _ _ _
  | erase c i => exact (framed_posAt _ _).bind fun _ => (framed_eraseAfter _ _).bind fun _ => framed_pure _
  | eraseRange c i j => exact (framed_posAt _ _).bind fun _ => (framed_posAt _ _).bind fun _ => (framed_eraseRange _ _ _).bind fun _ => framed_pure _
  | clear c => exact framed_clear _
  | assign c d => exact (framed_clear _).bind fun _ => (framed_getNext _).bind fun _ => framed_insertNodes _ _ _ _
  | swap c d => exact framed_swap _ _
  | rollHead c => exact framed_rollHead _
  | store c i v => exact (framed_posAt _ _).bind fun _ => framed_setVal _ _
end LQ

/-! ## Calls that may throw -/

/-- The same for a call that may throw. -/
def FramedT (x : Thr (Heap T) α) : Prop := ∀ k, Framed (α := Out α) (x k)

theorem framedT_pure (a : α) : FramedT (pure a : Thr (Heap T) α) := fun k => framed_pure (α := Out α) (.ret a k)
theorem framedT_call {p : Prog (Heap T) α} (hp : Framed p) : FramedT (Thr.call p) := fun k => hp.bind (fun a => framed_pure (α := Out α) (.ret a k))
theorem framedT_point : FramedT (Thr.point : Thr (Heap T) Unit) := fun k => by
  cases k with
  | zero => exact framed_pure (α := Out Unit) .thrown
  | succ k => exact framed_pure (α := Out Unit) (.ret () k)
theorem FramedT.bind {x : Thr (Heap T) α} {f : α → Thr (Heap T) β} (hx : FramedT x) (hf : ∀ a, FramedT (f a)) : FramedT (x >>= f) := fun k => by
  refine Framed.bind (α := Out α) (β := Out β) (p := x k) (f := fun o h => Thr.after f (o, h)) (hx k) fun o => ?_
  cases o with
  | ret a k => exact hf a k
  | thrown => exact framed_pure (α := Out β) .thrown
theorem framedT_unwinding {x : Thr (Heap T) α} {p : Prog (Heap T) Unit} (hx : FramedT x) (hp : Framed p) : FramedT (Thr.unwinding x p) := fun k => by
  have := Framed.bind (α := Out α) (β := Out α) (p := x k) (f := fun o => match o with
    | .ret a k' => pure (.ret a k')
    | .thrown => do p; pure .thrown) (hx k) fun o => by
      cases o with
      | ret a k => exact framed_pure _
      | thrown => exact hp.bind fun _ => framed_pure _
  constructor
  intro L h hL r m e
  have eq : ∀ h, Thr.unwinding x p k h = (Bind.bind (m := Prog (Heap T)) (α := Out α) (β := Out α) (x k) fun o => match o with
    | .ret a k' => pure (.ret a k')
    | .thrown => do p; pure .thrown) h := by
    intro h
    show (x k h).bind _ = (x k h).bind _
    rcases x k h with _ | _ | ⟨⟨a, k'⟩ | _, s'⟩ <;> rfl
  rw [eq] at e ⊢
  exact this.out L h hL r m e
theorem framedT_ite {c : Prop} [Decidable c] {p q : Thr (Heap T) α} (hp : FramedT p) (hq : FramedT q) : FramedT (if c then p else q) := by
  split
  · exact hp
  · exact hq

section
open Lean.Order
open Verif.Exc.XVec (thr_sup_ok2 thr_sup_le2)
theorem framedT_adm2 {A B : Type} : admissible (fun f : A → B → Thr (Heap T) α => ∀ a b, FramedT (f a b)) := by
  intro c hc ih a b k; constructor; intro L h hL r m e
  obtain ⟨f, hf, e'⟩ := thr_sup_ok2 hc e
  obtain ⟨h', q, rest⟩ := (ih f hf a b k).out L h hL r m e'
  exact ⟨h', thr_sup_le2 hc hf q, rest⟩
end

/-! ## Using it -/

theorem without_live {h : Heap T} {L : Addr → Bool} {x : Addr} : (without h L).live x = true ↔ L x = false ∧ h.live x = true := by
  simp [without]

/-- The rest of the program does with the memory without `L` what it does with the whole memory. -/
theorem env_without {h h' : Heap T} {L : Addr → Bool} (e : Env h h') : Env (without h L) (without h' L) := by
  refine ⟨fun x l => ?_, fun x l => ?_, ⟨e.wf.pos, by simp [without, e.wf.null], fun x l => e.wf.used x (without_live.1 l).2⟩⟩
  · obtain ⟨l1, l2⟩ := without_live.1 l
    have s := e.same x l2
    exact ⟨s.next, s.prev, s.tail, s.val, by simp only [without]; rw [s.live]⟩
  · cases q : L x with
    | true => simp [without, q]
    | false =>
      rw [live_without q] at l ⊢
      exact e.dead x l

theorem without_twice (h : Heap T) (L M : Addr → Bool) : without (without h L) M = without h fun x => L x || M x := by
  simp only [without]
  congr 1
  funext x
  cases L x <;> cases M x <;> rfl

/-- A memory is determined by its part outside `L` and its part in `L`. -/
theorem eq_of {h h' : Heap T} {L : Addr → Bool} (e : without h' L = without h L) (s : ∀ x, L x = true → Same h h' x) : h' = h := by
  have e1 := congrArg Heap.next e
  have e2 := congrArg Heap.prev e
  have e3 := congrArg Heap.tail e
  have e4 := congrArg Heap.val e
  have e5 := congrArg Heap.live e
  have e6 := congrArg Heap.fresh e
  cases h; cases h'
  simp only [without] at e1 e2 e3 e4 e5 e6
  subst e1; subst e2; subst e3; subst e4; subst e6
  congr 1
  funext x
  cases l : L x with
  | true => exact (s x l).live
  | false => have := congrFun e5 x; simpa [l] using this

/-- Reading: what an observer answers without the cells of `L` it answers with them. -/
theorem Framed.reads {p : Prog (Heap T) α} (hp : Framed p) {L : Addr → Bool} {h : Heap T} (hL : ∀ x, L x = true → x < h.fresh) {r : α}
    (e : p (without h L) = .ok (r, without h L)) : p h = .ok (r, h) := by
  obtain ⟨h', q, m, _, s⟩ := hp.out L h hL r _ e
  rw [eq_of m s] at q; exact q

theorem FramedT.points {x : Thr (Heap T) α} (hx : FramedT x) {L : Addr → Bool} {h m : Heap T} (hL : ∀ x, L x = true → x < h.fresh) {n : Nat} {a : α}
    {P : Nat → Heap T → Prop} (X : Points x (without h L) n a m P) :
    ∃ h', without h' L = m ∧ h.fresh ≤ h'.fresh ∧ (∀ x, L x = true → Same h h' x) ∧
      Points x h n a h' fun k t => P k (without t L) ∧ h.fresh ≤ t.fresh ∧ ∀ x, L x = true → Same h t x := by
  obtain ⟨h', q, mm, f, s⟩ := (hx (n + 0)).out L h hL _ _ (X.returns 0)
  refine ⟨h', mm, f, s, fun k => ?_, fun k l => ?_⟩
  · obtain ⟨h2, q2, mm2, f2, s2⟩ := (hx (n + k)).out L h hL _ _ (X.returns k)
    have : h2 = h' := by
      refine eq_of (L := L) (mm2.trans mm.symm) fun x l => ?_
      have a := s x l
      have b := s2 x l
      exact ⟨b.next.trans a.next.symm, b.prev.trans a.prev.symm, b.tail.trans a.tail.symm, b.val.trans a.val.symm, b.live.trans a.live.symm⟩
    rw [q2, this]
  · obtain ⟨t, e, p⟩ := X.throws k l
    obtain ⟨t', q', mm', f', s'⟩ := (hx k).out L h hL _ _ e
    exact ⟨t', q', by rw [mm']; exact p, f', s'⟩

end Verif.Exc.XSeq
