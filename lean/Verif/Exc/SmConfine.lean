import Verif.Exc.VecConfine
import Verif.Map.SProps2
/-!
# C160: calls on different sorted vector maps touch different memory
-/
set_option linter.unusedVariables false
set_option linter.unusedSimpArgs false
namespace Verif.SVMap
open Verif Verif.Vec Verif.Exc.XVec
variable {K V : Type}

/-! ## What the members do in a part of the memory they do in all of it -/

theorem framed_rdPtr (p : Ptr) : Framed (rdPtr p : Prog (Mem K V) Ptr) := by
  unfold rdPtr
  refine (framed_read p).bind fun x => ?_
  cases x with
  | ptr q => exact framed_pure _
  | pair k v => exact framed_fail _
theorem framed_rdPair (p : Ptr) : Framed (rdPair p : Prog (Mem K V) (K × V)) := by
  unfold rdPair
  refine (framed_read p).bind fun x => ?_
  cases x with
  | ptr q => exact framed_fail _
  | pair k v => exact framed_pure _

theorem framed_wrPtr (p q : Ptr) : Framed (wrPtr p q : Prog (Mem K V) Unit) := by
  constructor; intro L h hL r m e
  simp only [wrPtr, inBlock] at e ⊢
  cases l : L.blk p.blk with
  | true => simp [without, l] at e
  | false =>
    have F := framed_set p (some (.ptr q : Cell K V)) (h := h) l
    have s1 : (without h L).size p.blk = h.size p.blk := by simp [without, l]
    have s2 : (without h L).slot p.blk = h.slot p.blk := by simp [without, l]
    rw [s1] at e
    cases g : h.size p.blk with
    | none => simp [g] at e
    | some x =>
      simp only [g] at e ⊢
      by_cases z : p.off < x
      · simp only [if_pos z] at e ⊢
        cases e; exact ⟨_, rfl, by rw [F.1], Nat.le_refl _, F.2⟩
      · simp [if_neg z] at e

theorem framed_deleteArray (p : Ptr) : Framed (deleteArray p : Prog (Mem K V) Unit) := by
  constructor; intro L h hL r m e
  simp only [deleteArray] at e ⊢
  by_cases q : p = Ptr.null
  · rw [if_pos q] at e ⊢; cases e; exact ⟨h, rfl, rfl, Nat.le_refl _, .refl h⟩
  · rw [if_neg q] at e ⊢
    cases l : L.blk p.blk with
    | true => simp [without, l] at e
    | false =>
      simp only [without, l, Bool.false_eq_true, if_false] at e ⊢
      cases g : h.size p.blk with
      | none => simp [g] at e
      | some x =>
        simp only [g] at e ⊢
        by_cases z : p.off = 0
        · simp only [if_pos z] at e ⊢; cases e
          refine ⟨_, rfl, ?_, Nat.le_refl _, ?_⟩
          · simp only [without, upd_without _ _ _ _ l]
          · refine ⟨fun b lb => ?_, fun _ _ => rfl⟩
            have : b ≠ p.blk := by intro q; subst q; rw [l] at lb; cases lb
            exact ⟨upd_other _ _ this, upd_other _ _ this⟩
        · simp [if_neg z] at e

theorem framed_newPair (e : K × V) : Framed (newPair e : Prog (Mem K V) Ptr) :=
  (framed_alloc 1).bind fun p => (framed_construct p _).bind fun _ => framed_pure _
theorem framed_deletePair (p : Ptr) : Framed (deletePair p : Prog (Mem K V) Unit) := by
  unfold deletePair
  exact framed_ite (framed_pure _) ((framed_destruct p).bind fun _ => framed_free p)
theorem framed_wrSecond (p : Ptr) (v : V) : Framed (wrSecond p v : Prog (Mem K V) Unit) := (framed_rdPair p).bind fun e => framed_write p _
theorem framed_end (c : Nat) : Framed (end_ c : Prog (Mem K V) Ptr) := (framed_getObj c).bind fun _ => framed_pure _
theorem framed_begin (c : Nat) : Framed (begin_ c : Prog (Mem K V) Ptr) := (framed_getObj c).bind fun _ => framed_pure _
theorem framed_size (c : Nat) : Framed (size c : Prog (Mem K V) Nat) := (framed_getObj c).bind fun _ => framed_diff _ _
theorem framed_deref (i : Ptr) : Framed (deref i : Prog (Mem K V) (K × V)) := (framed_rdPtr i).bind fun _ => framed_rdPair _

macro "sm_framed" : tactic => `(tactic| repeat' (first
  | assumption
  | exact framed_pure _ | exact framed_getObj _ | exact framed_setObj _ _ | exact framed_dec _ | exact framed_less _ _ | exact framed_diff _ _
  | exact framed_fail _ | exact framed_alloc _ | exact framed_newObj _ | exact framed_dropObj _
  | exact framed_rdPtr _ | exact framed_rdPair _ | exact framed_wrPtr _ _ | exact framed_deleteArray _ | exact framed_newPair _ | exact framed_deletePair _
  | exact framed_end _ | exact framed_begin _ | exact framed_size _ | exact framed_deref _
  | apply Framed.bind | apply framed_ite | (intro a; try dsimp only)))

theorem framed_destroyLoop (i last : Ptr) : Framed (destroyLoop i last : Prog (Mem K V) Unit) := by
  refine destroyLoop.fixpoint_induct (K := K) (V := V) last (motive := fun f => ∀ a, Framed (f a)) framed_adm1 (fun f ih i => ?_) i
  sm_framed
  exact ih _

theorem framed_copyLoop (c : Nat) (i last : Ptr) : Framed (copyLoop c i last : Prog (Mem K V) Unit) := by
  refine copyLoop.fixpoint_induct (K := K) (V := V) c last (motive := fun f => ∀ a, Framed (f a)) framed_adm1 (fun f ih i => ?_) i
  sm_framed
  exact ih _

theorem framed_clear (c : Nat) : Framed (clear c : Prog (Mem K V) Unit) := by
  refine clear.fixpoint_induct (K := K) (V := V) c (motive := fun f => Framed f) framed_adm0 fun f ih => ?_
  sm_framed

theorem framed_copyPtrs (i last o : Ptr) : Framed (copyPtrs i last o : Prog (Mem K V) Ptr) := by
  refine copyPtrs.fixpoint_induct (K := K) (V := V) last (motive := fun f => ∀ a b, Framed (f a b)) framed_adm2 (fun f ih i o => ?_) i o
  sm_framed
  exact ih _ _

theorem framed_shiftPtrs (i pos o : Ptr) : Framed (shiftPtrs i pos o : Prog (Mem K V) Ptr) := by
  refine shiftPtrs.fixpoint_induct (K := K) (V := V) pos (motive := fun f => ∀ a b, Framed (f a b)) framed_adm2 (fun f ih i o => ?_) i o
  sm_framed
  exact ih _ _

theorem framed_fillNull (o e : Ptr) : Framed (fillNull o e : Prog (Mem K V) Unit) := by
  refine fillNull.fixpoint_induct (K := K) (V := V) e (motive := fun f => ∀ a, Framed (f a)) framed_adm1 (fun f ih i => ?_) o
  sm_framed
  exact ih _

section
variable [DecidableEq K] (lt : K → K → Bool)

theorem framed_bsearchLoop (el : Ptr) (key : K) (L H : Nat) : Framed (bsearchLoop lt el key L H : Prog (Mem K V) (Nat × Bool)) := by
  refine bsearchLoop.fixpoint_induct (K := K) (V := V) lt el key (motive := fun f => ∀ a b, Framed (f a b)) framed_adm2 (fun f ih i o => ?_) L H
  sm_framed
  all_goals exact ih _ _

theorem framed_bsearch (c : Nat) (key : K) : Framed (bsearch lt c key : Prog (Mem K V) (Nat × Bool)) :=
  (framed_size c).bind fun n => (framed_getObj c).bind fun r => framed_bsearchLoop lt _ key _ _
theorem framed_find (c : Nat) (key : K) : Framed (find lt c key : Prog (Mem K V) Ptr) :=
  (framed_bsearch lt c key).bind fun re => framed_ite ((framed_getObj c).bind fun _ => framed_pure _) (framed_end c)
theorem framed_findInsertPos (c : Nat) (key : K) : Framed (findInsertPos lt c key : Prog (Mem K V) Ptr) :=
  (framed_bsearch lt c key).bind fun re => (framed_getObj c).bind fun _ => framed_pure _

omit [DecidableEq K] in
theorem framed_insertBefore (c : Nat) (pos : Ptr) (value : K × V) : Framed (insertBefore c pos value : Prog (Mem K V) Ptr) := by
  unfold insertBefore
  refine (framed_getObj c).bind fun r => (framed_diff _ _).bind fun k => framed_ite ?_ ?_
  · exact (framed_diff _ _).bind fun n => (framed_alloc _).bind fun a => (framed_copyPtrs _ _ _).bind fun o => (framed_newPair _).bind fun p =>
      (framed_wrPtr _ _).bind fun _ => (framed_copyPtrs _ _ _).bind fun o => (framed_deleteArray _).bind fun _ => (framed_setObj _ _).bind fun _ =>
      (framed_fillNull _ _).bind fun _ => framed_pure _
  · exact (framed_setObj _ _).bind fun _ => (framed_shiftPtrs _ _ _).bind fun i => (framed_newPair _).bind fun p => (framed_wrPtr _ _).bind fun _ => framed_pure _

theorem framed_insert (c : Nat) (value : K × V) : Framed (insert lt c value : Prog (Mem K V) (Ptr × Bool)) :=
  (framed_findInsertPos lt c _).bind fun i => (framed_end c).bind fun e => framed_ite
    ((framed_deref i).bind fun x => framed_ite (framed_pure _) ((framed_insertBefore c _ _).bind fun _ => framed_pure _))
    ((framed_insertBefore c _ _).bind fun _ => framed_pure _)
theorem framed_index (dv : V) (c : Nat) (key : K) : Framed (index lt dv c key : Prog (Mem K V) Ptr) :=
  (framed_findInsertPos lt c _).bind fun i => (framed_end c).bind fun e => framed_ite
    ((framed_deref i).bind fun x => framed_ite (framed_rdPtr _) ((framed_insertBefore c _ _).bind fun _ => framed_rdPtr _))
    ((framed_insertBefore c _ _).bind fun _ => framed_rdPtr _)

theorem framed_exec (dv : V) (q : Call K V) : Framed (exec lt dv q) := by
  cases q with
  | create => exact (framed_newObj _).bind fun _ => framed_pure _
  | ctor n => exact ((framed_newObj _).bind fun c => (framed_alloc n).bind fun a => (framed_setObj _ _).bind fun _ => framed_pure _).bind fun _ => framed_pure _
  | copyOf d => exact ((framed_newObj _).bind fun c => (framed_getObj d).bind fun o => (framed_diff _ _).bind fun n => (framed_alloc n).bind fun a =>
      (framed_setObj _ _).bind fun _ => (framed_copyLoop _ _ _).bind fun _ => framed_pure _).bind fun _ => framed_pure _
  | destroy c => exact ((framed_getObj c).bind fun r => (framed_destroyLoop _ _).bind fun _ => (framed_deleteArray _).bind fun _ => framed_dropObj c).bind fun _ => framed_pure _
  | clear c => exact (framed_clear c).bind fun _ => framed_pure _
  | insert c k v => exact (framed_insert lt c _).bind fun _ => framed_pure _
  | index c k => exact (framed_index lt dv c k).bind fun _ => framed_pure _
  | put c k v => exact (framed_index lt dv c k).bind fun p => (framed_wrSecond p v).bind fun _ => framed_pure _
  | setAt c k v => exact ((framed_find lt c k).bind fun p => framed_rdPtr p).bind fun p => (framed_wrSecond p v).bind fun _ => framed_pure _
  | store c n v => exact (framed_begin c).bind fun b => (framed_rdPtr _).bind fun p => (framed_wrSecond p v).bind fun _ => framed_pure _

end

/-! ## Confinement -/

open Classical in
/-- The state in which only the maps of `N` exist. -/
noncomputable def onlyState (S : State K V) (N : Nat → Prop) : State K V := fun c => if N c then S c else none

theorem onlyState_of {S : State K V} {N : Nat → Prop} {c : Nat} (hc : N c) : onlyState S N c = S c := by simp [onlyState, hc]
theorem onlyState_some {S : State K V} {N : Nat → Prop} {c : Nat} {s : SS K V} (q : onlyState S N c = some s) : N c ∧ S c = some s := by
  unfold onlyState at q
  split at q
  · exact ⟨by assumption, q⟩
  · cases q
theorem onlyState_own {S : State K V} {N : Nat → Prop} {c b : Nat} (q : b ∈ (onlyState S N).own c) : N c ∧ b ∈ S.own c := by
  by_cases n : N c
  · refine ⟨n, ?_⟩; simpa [State.own, onlyState_of n] using q
  · simp [State.own, onlyState, n] at q

/-- The blocks of the maps of `N`: their arrays and their pairs. -/
def BlocksOf (S : State K V) (N : Nat → Prop) (b : Nat) : Prop := ∃ c, N c ∧ b ∈ S.own c

theorem IsSM.part {h : Mem K V} {c : Nat} {s : SS K V} (v : IsSM h c s) {O B : Nat → Prop} (o : O c) (b : ∀ x ∈ s.blocks, B x) (B0 : ¬ B 0) :
    IsSM (h.part O B) c s := by
  have bb : s.blk ≠ 0 → B s.blk := fun z => b _ (by simp [SS.blocks, z])
  refine ⟨by simp [Heap.part, o, v.obj], v.le, ?_, fun i e q => ?_, fun i x l q => ?_, fun e m => ?_, v.nodup⟩
  · rcases v.arr with a | a
    · exact .inl a
    · exact .inr ⟨a.1, by simp [Heap.part, bb a.1, a.2]⟩
  · rcases v.arr with a | a
    · have := v.le; have := (List.getElem?_eq_some_iff.1 q).1; omega
    · simp [Heap.part, bb a.1, v.slots i e q]
  · simp only [Heap.part] at q
    split at q
    · obtain ⟨p, e1, e2, e3⟩ := v.tail i x l q
      exact ⟨p, e1, by simp [Heap.part, e2], e3⟩
    · cases q
  · have n := v.node e m
    have be : B e.1 := b _ (by simp only [SS.blocks, SS.ids, List.mem_append]; exact .inr (List.mem_map_of_mem m))
    exact ⟨by simp [Heap.part, be, n.1], by simp [Heap.part, be, n.2.1], n.2.2⟩

theorem World.part {h : Mem K V} {S : State K V} (W : World h S) (N : Nat → Prop) : World (h.part N (BlocksOf S N)) (onlyState S N) := by
  have B0 : ¬ BlocksOf S N 0 := fun ⟨c, _, q⟩ => (W.bound c 0 q).2 rfl
  refine ⟨fun c s q => ?_, fun c q _ => ?_, fun c s q => W.lt c s (onlyState_some q).2, fun b q _ => ?_, fun c d b q q' => W.disj c d b (onlyState_own q).2 (onlyState_own q').2,
    fun c b q => W.bound c b (onlyState_own q).2, W.pos, fun b q => q.elim, fun b q => q.elim⟩
  · obtain ⟨n, q⟩ := onlyState_some q
    exact (W.sm c s q).part n (fun x m => ⟨c, n, by rw [own_some q]; exact m⟩) B0
  · by_cases n : N c
    · rw [onlyState_of n] at q
      simp [Heap.part, W.objG c q id]
    · simp [Heap.part, n]
  · have nb : ¬ BlocksOf S N b := fun ⟨c, n, m⟩ => q c (by simpa [State.own, onlyState_of n] using m)
    simp [Heap.part, nb]

/-- The maps a call names. -/
def Call.args : Call K V → List Nat
  | .create => [] | .ctor _ => [] | .copyOf d => [d] | .destroy c => [c] | .clear c => [c] | .insert c _ _ => [c] | .index c _ => [c] | .put c _ _ => [c]
  | .setAt c _ _ => [c] | .store c _ _ => [c]

variable [DecidableEq K]
theorem legal_congr {S S' : State K V} {q : Call K V} (h : ∀ c ∈ q.args, S' c = S c) (lg : Legal S q) : Legal S' q := by
  cases q <;> simp [Call.args] at h <;> simp only [Legal, State.Exists, State.vals, State.get, h] at lg ⊢ <;> exact lg

variable {lt : K → K → Bool} {S : State K V} {h : Mem K V} {dv : V}

omit [DecidableEq K] in
theorem World.gone (W : World h S) : (∀ b, h.fresh ≤ b → h.size b = none ∧ h.slot b = lay [] 0 []) ∧ ∀ c, h.fresh ≤ c → h.obj c = none := by
  refine ⟨fun b l => ?_, fun c l => ?_⟩
  · have := W.ownG b (fun c m => absurd (W.bound c b m).1 (by omega)) id
    exact ⟨this.1, by rw [lay_none]; funext i; exact this.2 i⟩
  · refine W.objG c ?_ id
    cases q : S c with
    | none => rfl
    | some s => exact absurd (W.lt c s q) (by omega)

/-- **C160.** A call accesses only the objects, the arrays and the pairs of the maps it names. -/
theorem call_confined (O : StrictTotalOrder lt) (R : Reach lt dv S h) (q : Call K V) (lg : Legal S q) :
    Confined (exec lt dv q) h (· ∈ q.args) (BlocksOf S (· ∈ q.args)) := by
  have I := R.inv O
  have W := I.world
  have I' : Inv lt (h.part (· ∈ q.args) (BlocksOf S (· ∈ q.args))) (onlyState S (· ∈ q.args)) :=
    ⟨World.part W _, fun c s e => I.sorted c s (onlyState_some e).2, fun c s e => I.cap c s (onlyState_some e).2⟩
  obtain ⟨r, m, e, _⟩ := step_ok (dv := dv) O I' q (legal_congr (fun c hc => onlyState_of hc) lg)
  exact Confined.of_framed (framed_exec lt dv q) (World.gone W).1 (World.gone W).2 e

/-- **C160, two calls.** If they name different maps, what one of them accesses the other does not, and it finds its memory as if the other one had not run. -/
theorem calls_apart (O : StrictTotalOrder lt) (R : Reach lt dv S h) (q1 q2 : Call K V) (l1 : Legal S q1) (d : ∀ c ∈ q1.args, c ∉ q2.args) :
    (∀ b, BlocksOf S (· ∈ q1.args) b → ¬ BlocksOf S (· ∈ q2.args) b) ∧ ∀ r h', exec lt dv q1 h = .ok (r, h') →
      (∀ c ∈ q2.args, S.Exists c → h'.obj c = h.obj c) ∧ ∀ b, BlocksOf S (· ∈ q2.args) b → h'.size b = h.size b ∧ h'.slot b = h.slot b := by
  have W := (R.inv O).world
  have ap : ∀ b, BlocksOf S (· ∈ q1.args) b → ¬ BlocksOf S (· ∈ q2.args) b := by
    rintro b ⟨c, n, m⟩ ⟨c', n', m'⟩
    have := W.disj c c' b m m'; subst this
    exact d c n n'
  refine ⟨ap, fun r h' e => ?_⟩
  obtain ⟨r', m, h2, _, e2, _, f1, f2⟩ := call_confined O R q1 l1
  rw [e] at e2; cases e2
  exact ⟨fun c hc ⟨s, hs⟩ => f1 c (W.lt c s hs) fun m => d c m hc, fun b a => f2 b (by obtain ⟨c, _, m⟩ := a; exact (W.bound c b m).1) fun m => ap b m a⟩

/-- **C160, reading.** All observers of a map answer the same in the memory that has only this map, its array and its pairs, and write nothing. -/
theorem reads_confined (O : StrictTotalOrder lt) (R : Reach lt dv S h) {c : Nat} (hc : S.Exists c) :
    SMProps.Observes lt h c (S.vals c) ∧ SMProps.Observes lt (h.part (· = c) (· ∈ S.own c)) c (S.vals c) := by
  have I := R.inv O
  obtain ⟨s, hs⟩ := hc
  rw [vals_some hs, own_some hs]
  refine ⟨SMProps.isSM_observes O (I.world.sm c s hs) (I.sorted c s hs), SMProps.isSM_observes O ((I.world.sm c s hs).part rfl (fun _ m => m) fun q => ?_) (I.sorted c s hs)⟩
  exact (I.world.bound c 0 (by rw [own_some hs]; exact q)).2 rfl

/-- The hypotheses are met: the map `c` with the keys 3, 5 and 9 and its copy `d`, and the calls `c[4]` and `d.clear()`. -/
example : ∃ (S : State Nat Nat) (h : Mem Nat Nat) (c d : Nat), Reach (fun a b => decide (a < b)) 0 S h ∧ S.Exists d ∧ Legal S (.index c 4) ∧ Legal S (.clear d) ∧
    (∀ x ∈ (Call.index c 4 : Call Nat Nat).args, x ∉ (Call.clear d : Call Nat Nat).args) := by
  obtain ⟨c, S, h, R, ⟨s, hs⟩, o⟩ := SMProps.demo
  have O : StrictTotalOrder fun a b : Nat => decide (a < b) := ⟨by simp, by simp; omega, by intro a b; simp; omega⟩
  have g := (SMProps.isSM_observes O ((R.inv O).world.sm c s hs) ((R.inv O).sorted c s hs)).inj o
  obtain ⟨r, h', e, _⟩ := step_ok (dv := 0) O (R.inv O) (.copyOf c) ⟨s, hs⟩
  have ne : c ≠ h.fresh := fun q => by have := (R.inv O).world.lt c s hs; omega
  refine ⟨_, h', c, h.fresh, .step (.copyOf c) R ⟨s, hs⟩ e, ⟨_, set_same ..⟩, ⟨⟨s, ?_⟩, ?_⟩, ⟨_, set_same ..⟩, by simpa [Call.args] using ne⟩
  · exact (set_other _ ne _).trans hs
  · have : (spec (fun a b : Nat => decide (a < b)) 0 S h.fresh (.copyOf c)).vals c = [(3, 30), (5, 50), (9, 90)] := by
      exact (vals_some (S := spec (fun a b : Nat => decide (a < b)) 0 S h.fresh (.copyOf c)) ((set_other _ ne _).trans hs)).trans g
    rw [this]; decide

end Verif.SVMap
