import Verif.Exc.VecConfine
import Verif.Vec.FProps
/-!
# C159: calls on different fixed vectors touch different memory
-/
set_option linter.unusedVariables false
set_option linter.unusedSimpArgs false
namespace Verif.Vec.FV
open Verif Verif.Vec Verif.Exc.XVec
variable {T α : Type}

/-! ## What the members do in a part of the memory they do in all of it -/

theorem framed_newStore (N : Nat) : Framed (newStore N : Prog (Mem T) Nat) := by
  constructor; intro L h hL r m e
  have ho : L.obj h.fresh = false := by
    cases q : L.obj h.fresh with
    | false => rfl
    | true => exact absurd (hL.obj _ q) (Nat.lt_irrefl _)
  have hb : L.blk h.fresh = false := by
    cases q : L.blk h.fresh with
    | false => rfl
    | true => exact absurd (hL.blk _ q) (Nat.lt_irrefl _)
  cases e
  refine ⟨_, rfl, ?_, Nat.le_succ _, ⟨fun b l => ?_, fun c l => ?_⟩⟩
  · simp only [without, upd_without _ _ _ _ ho, upd_without _ _ _ _ hb]
  · have : b ≠ h.fresh := by rintro rfl; rw [hb] at l; cases l
    exact ⟨upd_other _ _ this, upd_other _ _ this⟩
  · have : c ≠ h.fresh := by rintro rfl; rw [ho] at l; cases l
    exact upd_other _ _ this

macro "fv_framed" : tactic => `(tactic| repeat' (first
  | assumption
  | exact framed_pure _ | exact framed_getObj _ | exact framed_setObj _ _ | exact framed_read _ | exact framed_write _ _
  | exact framed_construct _ _ | exact framed_destruct _ | exact framed_dec _ | exact framed_less _ _ | exact framed_diff _ _ | exact framed_fail _
  | exact framed_destroyDown _ _ | exact framed_destroyBack _ _ | exact framed_shiftUp _ _ _ | exact framed_shiftDown _ _ _ | exact framed_get _
  | exact framed_deref _ | exact framed_next _ | exact framed_newStore _
  | apply Framed.bind | apply framed_ite | (intro a; try dsimp only)))

theorem framed_begin (c : Nat) : Framed (begin_ c : Prog (Mem T) Ptr) := by unfold begin_; fv_framed
theorem framed_end (c : Nat) : Framed (end_ c : Prog (Mem T) Ptr) := by unfold end_; fv_framed
theorem framed_size (c : Nat) : Framed (size c : Prog (Mem T) Nat) := by unfold size; fv_framed
theorem framed_empty (c : Nat) : Framed (empty c : Prog (Mem T) Bool) := by unfold empty; fv_framed
theorem framed_full (N c : Nat) : Framed (full N c : Prog (Mem T) Bool) := by unfold full; fv_framed
theorem framed_at (c i : Nat) : Framed (at_ c i : Prog (Mem T) Ptr) := by unfold at_; fv_framed
theorem framed_appendOne (c : Nat) (v : T) : Framed (appendOne c v : Prog (Mem T) Unit) := by unfold appendOne; fv_framed

theorem framed_fill (N c : Nat) : ∀ (n : Nat) (s : Src T), Framed (fill N c n s : Prog (Mem T) Unit)
  | 0, s => framed_pure _
  | n + 1, s => (framed_full N c).bind fun b => framed_ite (framed_pure _) ((framed_next s).bind fun a => (framed_appendOne c a.1).bind fun _ => framed_fill N c n a.2)

theorem framed_fillTo (e : Ptr) : ∀ (n : Nat) (s : Src T) (o : Ptr), Framed (fillTo e n s o : Prog (Mem T) Unit)
  | 0, s, o => framed_pure _
  | n + 1, s, o => (framed_less o e).bind fun b => framed_ite ((framed_next s).bind fun a => (framed_construct o a.1).bind fun _ => framed_fillTo e n a.2 _) (framed_pure _)

theorem framed_copyFull (N c d : Nat) (i : Ptr) : Framed (copyFull N c d i : Prog (Mem T) Unit) := by
  refine copyFull.fixpoint_induct (T := T) N c d (motive := fun f => ∀ a, Framed (f a)) framed_adm1 (fun f ih i => ?_) i
  unfold end_ full appendOne
  fv_framed
  exact ih _

theorem framed_copyAll (c d : Nat) (i : Ptr) : Framed (copyAll c d i : Prog (Mem T) Unit) := by
  refine copyAll.fixpoint_induct (T := T) c d (motive := fun f => ∀ a, Framed (f a)) framed_adm1 (fun f ih i => ?_) i
  unfold end_ appendOne
  fv_framed
  exact ih _

theorem framed_clear (c : Nat) : Framed (clear c : Prog (Mem T) Unit) := by
  refine clear.fixpoint_induct (T := T) c (motive := fun f => Framed f) framed_adm0 fun f ih => ?_
  unfold empty
  fv_framed

theorem framed_shrinkTo (c : Nat) (pos : Ptr) : Framed (shrinkTo c pos : Prog (Mem T) Unit) := by
  refine shrinkTo.fixpoint_induct (T := T) c pos (motive := fun f => Framed f) framed_adm0 fun f ih => ?_
  fv_framed

theorem framed_dropTail (e p i o : Ptr) : Framed (dropTail e p i o : Prog (Mem T) (Ptr × Ptr)) := by
  refine dropTail.fixpoint_induct (T := T) e p (motive := fun f => ∀ a b, Framed (f a b)) framed_adm2 (fun f ih i o => ?_) i o
  fv_framed
  exact ih _ _

theorem framed_swapRanges (i last o : Ptr) : Framed (swapRanges i last o : Prog (Mem T) Ptr) := by
  refine swapRanges.fixpoint_induct (T := T) (ρ := Ptr) last (motive := fun f => ∀ a b, Framed (f a b)) framed_adm2 (fun f ih i o => ?_) i o
  fv_framed
  exact ih _ _

theorem framed_moveTail (a b : Nat) (e : Ptr) : Framed (moveTail a b e : Prog (Mem T) Ptr) := by
  refine moveTail.fixpoint_induct (T := T) a b (motive := fun f => ∀ a, Framed (f a)) framed_adm1 (fun f ih i => ?_) e
  unfold appendOne
  fv_framed
  exact ih _

macro "fv_framed2" : tactic => `(tactic| repeat' (first
  | assumption
  | exact framed_pure _ | exact framed_getObj _ | exact framed_setObj _ _ | exact framed_read _ | exact framed_write _ _
  | exact framed_construct _ _ | exact framed_destruct _ | exact framed_dec _ | exact framed_less _ _ | exact framed_diff _ _ | exact framed_fail _
  | exact framed_destroyDown _ _ | exact framed_destroyBack _ _ | exact framed_shiftUp _ _ _ | exact framed_shiftDown _ _ _ | exact framed_get _
  | exact framed_deref _ | exact framed_next _ | exact framed_newStore _
  | exact framed_begin _ | exact framed_end _ | exact framed_size _ | exact framed_empty _ | exact framed_full _ _ | exact framed_at _ _
  | exact framed_appendOne _ _ | exact framed_fill _ _ _ _ | exact framed_fillTo _ _ _ _ | exact framed_copyFull _ _ _ _ | exact framed_copyAll _ _ _
  | exact framed_clear _ | exact framed_shrinkTo _ _ | exact framed_dropTail _ _ _ _ | exact framed_swapRanges _ _ _ | exact framed_moveTail _ _ _
  | apply Framed.bind | apply framed_ite | (intro a; try dsimp only)))

theorem framed_insertValues (N c : Nat) (pos : Ptr) (n : Nat) (s : Src T) : Framed (insertValues N c pos n s : Prog (Mem T) Ptr) := by
  unfold insertValues; fv_framed2
theorem framed_pushBack (N c : Nat) (x : Arg T) : Framed (pushBack N c x : Prog (Mem T) Unit) := by unfold pushBack; fv_framed2
theorem framed_pushAll (N c : Nat) : ∀ (n : Nat) (s : Src T), Framed (pushAll N c n s : Prog (Mem T) Unit)
  | 0, s => framed_pure _
  | n + 1, s => (framed_full N c).bind fun b => framed_ite (framed_pure _) ((framed_deref s).bind fun a => (framed_pushBack N c a).bind fun _ => framed_pushAll N c n _)
theorem framed_resize (N : Nat) (dv : T) (c n : Nat) : Framed (resize N dv c n : Prog (Mem T) Unit) := by
  unfold resize insertN; fv_framed2; all_goals exact framed_insertValues _ _ _ _ _
theorem framed_carg (a : CArg T) : Framed (a.expr : Prog (Mem T) (Arg T)) := by
  cases a <;> unfold CArg.expr <;> fv_framed2
theorem framed_csrc (a : CSrc T) : Framed (a.expr : Prog (Mem T) (Src T × Nat)) := by
  cases a <;> unfold CSrc.expr <;> fv_framed2

theorem framed_insertE (N c i n : Nat) (s : Src T) : Framed (do return Ret.it (← insertValues N c ((← begin_ c) + i) n s) : Prog (Mem T) Ret) :=
  (framed_begin c).bind fun p => (framed_insertValues N c _ n s).bind fun _ => framed_pure _
theorem framed_resizeX (N : Nat) (dv : T) (c n : Nat) (x : Arg T) : Framed (resizeX N dv c n x : Prog (Mem T) Unit) := by
  unfold resizeX insertN
  exact (framed_size c).bind fun k => framed_ite (framed_resize N dv c n) ((framed_end c).bind fun p => (framed_size c).bind fun k => (framed_insertValues N c _ _ _).bind fun _ => framed_pure _)
theorem framed_eraseRange (c : Nat) (f l : Ptr) : Framed (eraseRange c f l : Prog (Mem T) Ptr) := by unfold eraseRange; fv_framed2
theorem framed_swap (c d : Nat) : Framed (swap c d : Prog (Mem T) Unit) := by unfold swap; fv_framed2

/-- All calls but the destructor: the end of the storage of an object is the end of its block, which the model writes as one step. -/
theorem framed_exec (N : Nat) (dv : T) (q : Call T) (nd : ∀ c, q ≠ .destroy c) : Framed (exec N dv q) := by
  cases q with
  | destroy c => exact absurd rfl (nd c)
  | create => exact (framed_newStore N).bind fun _ => framed_pure _
  | ctor n => exact ((framed_newStore N).bind fun c => (framed_fill N c n _).bind fun _ => framed_pure _).bind fun _ => framed_pure _
  | ctorN n a => exact (framed_carg a).bind fun a => ((framed_newStore N).bind fun c => (framed_fill N c n _).bind fun _ => framed_pure _).bind fun _ => framed_pure _
  | copyOf d => exact ((framed_newStore N).bind fun c => (framed_begin d).bind fun b => (framed_copyFull N c d b).bind fun _ => framed_pure _).bind fun _ => framed_pure _
  | ctorRange r => exact (framed_csrc r).bind fun x => ((framed_newStore N).bind fun c => (framed_pushAll N c x.2 x.1).bind fun _ => framed_pure _).bind fun _ => framed_pure _
  | assign c d => exact ((framed_clear c).bind fun _ => (framed_begin d).bind fun b => framed_copyAll c d b).bind fun _ => framed_pure _
  | assignN c n a => exact (framed_carg a).bind fun a => ((framed_clear c).bind fun _ => framed_fill N c n _).bind fun _ => framed_pure _
  | assignRange c r => exact (framed_csrc r).bind fun x => ((framed_clear c).bind fun _ => framed_fill N c x.2 x.1).bind fun _ => framed_pure _
  | resize c n => exact (framed_resize N dv c n).bind fun _ => framed_pure _
  | resizeX c n a => exact (framed_carg a).bind fun a => (framed_resizeX N dv c n a).bind fun _ => framed_pure _
  | insert c i a => exact (framed_carg a).bind fun a => framed_insertE N c i 1 _
  | insertN c i n a => exact (framed_carg a).bind fun a => framed_insertE N c i n _
  | insertRange c i r => exact (framed_csrc r).bind fun x => framed_insertE N c i x.2 x.1
  | pushBack c a => exact (framed_carg a).bind fun a => (framed_pushBack N c a).bind fun _ => framed_pure _
  | popBack c => exact ((framed_getObj c).bind fun l => (framed_dec l).bind fun p => (framed_setObj c p).bind fun _ => framed_destruct p).bind fun _ => framed_pure _
  | erase c i => exact (framed_begin c).bind fun p => (framed_eraseRange c _ _).bind fun _ => framed_pure _
  | eraseRange c i j => exact (framed_begin c).bind fun p => (framed_begin c).bind fun p => (framed_eraseRange c _ _).bind fun _ => framed_pure _
  | swap c d => exact (framed_swap c d).bind fun _ => framed_pure _
  | clear c => exact (framed_clear c).bind fun _ => framed_pure _
  | store c i a => exact (framed_carg a).bind fun a => ((framed_get a).bind fun v => (framed_at c i).bind fun p => framed_write p v).bind fun _ => framed_pure _

theorem framed_dropStore (c : Nat) (L : Lost) (le : L.blk = L.obj) (h : Mem T) (r : Unit) (m : Mem T) (e : dropStore c (without h L) = .ok (r, m)) :
    ∃ h', dropStore c h = .ok (r, h') ∧ without h' L = m ∧ h.fresh ≤ h'.fresh ∧ SameIn L h h' := by
  simp only [dropStore] at e ⊢
  cases l : L.obj c with
  | true => simp [without, l] at e
  | false =>
    have lb : L.blk c = false := by rw [le]; exact l
    have o : (without h L).obj c = h.obj c := by simp [without, l]
    rw [o] at e
    cases q : h.obj c with
    | none => simp [q] at e
    | some y =>
      simp only [q] at e ⊢; cases e
      refine ⟨_, rfl, ?_, Nat.le_refl _, ⟨fun b z => ?_, fun b z => ?_⟩⟩
      · simp only [without, upd_without _ _ _ _ l, upd_without _ _ _ _ lb]
      · have : b ≠ c := by rintro rfl; rw [lb] at z; cases z
        exact ⟨upd_other _ _ this, rfl⟩
      · have : b ≠ c := by rintro rfl; rw [l] at z; cases z
        exact upd_other _ _ this

theorem framed_all (N : Nat) (dv : T) (q : Call T) (L : Lost) (h : Mem T) (hL : L.Below h.fresh) (le : L.blk = L.obj) (r : Ret) (m : Mem T)
    (e : exec N dv q (without h L) = .ok (r, m)) : ∃ h', exec N dv q h = .ok (r, h') ∧ without h' L = m ∧ h.fresh ≤ h'.fresh ∧ SameIn L h h' := by
  by_cases nd : ∀ c, q ≠ .destroy c
  · exact (framed_exec N dv q nd).out L h hL r m e
  · have ⟨c, hc⟩ : ∃ c, q = .destroy c := Classical.byContradiction fun no => nd fun c e => no ⟨c, e⟩
    subst hc
    simp only [exec, destroy, Prog.bind_app] at e ⊢
    cases q1 : clear c (without h L) with
    | diverge => rw [q1] at e; cases e
    | ub f => rw [q1] at e; cases e
    | ok x =>
      rw [q1] at e
      obtain ⟨h1, e1, e2, e3, e4⟩ := (framed_clear c).out L h hL x.1 x.2 q1
      simp only [Res.bind_ok] at e
      rw [← e2] at e
      cases q2 : dropStore c (without h1 L) with
      | diverge => rw [q2] at e; cases e
      | ub f => rw [q2] at e; cases e
      | ok y =>
        rw [q2] at e
        obtain ⟨h2, f1, f2, f3, f4⟩ := framed_dropStore c L le h1 y.1 y.2 q2
        simp only [Res.bind_ok, Prog.pure_app] at e
        cases e
        exact ⟨h2, by simp only [e1, Res.bind_ok, f1, Prog.pure_app], f2, Nat.le_trans e3 f3, e4.trans f4⟩

/-! ## Confinement -/

open Classical in
/-- The state in which only the fixed vectors of `P` exist. -/
noncomputable def onlyState (S : State T) (P : Nat → Prop) : State T := fun c => if P c then S c else none

theorem onlyState_of {S : State T} {P : Nat → Prop} {c : Nat} (hc : P c) : onlyState S P c = S c := by simp [onlyState, hc]
theorem onlyState_some {S : State T} {P : Nat → Prop} {c : Nat} {s : List T} (q : onlyState S P c = some s) : P c ∧ S c = some s := by
  unfold onlyState at q
  split at q
  · exact ⟨by assumption, q⟩
  · cases q

theorem IsFV.part {N : Nat} {h : Mem T} {c : Nat} {vs : List T} (v : IsFV N h c vs) {P : Nat → Prop} (o : P c) : IsFV N (h.part P P) c vs :=
  ⟨by simp [Heap.part, o, v.obj], by simp [Heap.part, o, v.slot], by simp [Heap.part, o, v.size], v.le⟩

theorem World.part {N : Nat} {h : Mem T} {S : State T} (W : World N h S) (P : Nat → Prop) : World N (h.part P P) (onlyState S P) := by
  refine ⟨fun c s q => ?_, fun c q _ => ?_, fun c l => ⟨?_, id⟩, fun c q => q.elim⟩
  · obtain ⟨n, q⟩ := onlyState_some q
    exact IsFV.part (W.fv c s q) n
  · by_cases n : P c
    · rw [onlyState_of n] at q
      have := W.only c q id
      simpa [Heap.part, n] using this
    · simp [Heap.part, n]
  · have l : h.fresh ≤ c := l
    simp [onlyState, (W.fresh c l).1]

/-- The fixed vector a reference argument is an element of. -/
def CArg.owner : CArg T → List Nat
  | .ext _ => [] | .elem d _ => [d]
/-- The fixed vector an iterator range belongs to. -/
def CSrc.owner : CSrc T → List Nat
  | .vals _ => [] | .range d _ _ => [d]

/-- The fixed vectors a call names: those it is called on or given, and those that own what it is given by reference or as a range. -/
def Call.args : Call T → List Nat
  | .create => [] | .ctor _ => [] | .ctorN _ a => a.owner | .copyOf d => [d] | .ctorRange r => r.owner | .destroy c => [c] | .assign c d => [c, d]
  | .assignN c _ a => c :: a.owner | .assignRange c r => c :: r.owner | .resize c _ => [c] | .resizeX c _ a => c :: a.owner
  | .insert c _ a => c :: a.owner | .insertN c _ _ a => c :: a.owner | .insertRange c _ r => c :: r.owner | .pushBack c a => c :: a.owner
  | .popBack c => [c] | .erase c _ => [c] | .eraseRange c _ _ => [c] | .swap c d => [c, d] | .clear c => [c] | .store c _ a => c :: a.owner

theorem valid_congr {S S' : State T} (a : CArg T) (e : ∀ c ∈ a.owner, S' c = S c) (v : a.Valid S) : a.Valid S' := by
  cases a with
  | ext v => trivial
  | elem d i =>
    have e := e d (by simp [CArg.owner])
    simp only [CArg.Valid, State.Exists, State.vals, e] at v ⊢; exact v

theorem valid_congr' {S S' : State T} (a : CSrc T) (e : ∀ c ∈ a.owner, S' c = S c) (v : a.Valid S) : a.Valid S' := by
  cases a with
  | vals v => trivial
  | range d i j =>
    have e := e d (by simp [CSrc.owner])
    simp only [CSrc.Valid, State.Exists, State.vals, e] at v ⊢; exact v

theorem legal_congr {S S' : State T} {q : Call T} (h : ∀ c ∈ q.args, S' c = S c) (lg : Legal S q) : Legal S' q := by
  cases q with
  | create => trivial
  | ctor n => trivial
  | ctorN n a => exact valid_congr a h lg
  | ctorRange r => exact valid_congr' r h lg
  | assignN c n a =>
    have hc := h c (by simp [Call.args]); have ha := valid_congr a (fun d m => h d (by simp [Call.args, m]))
    simp only [Legal, State.Exists, State.vals, hc] at lg ⊢; exact ⟨lg.1, ha lg.2.1, lg.2.2⟩
  | assignRange c a =>
    have hc := h c (by simp [Call.args]); have ha := valid_congr' a (fun d m => h d (by simp [Call.args, m]))
    simp only [Legal, State.Exists, State.vals, hc] at lg ⊢; exact ⟨lg.1, ha lg.2.1, lg.2.2⟩
  | resizeX c n a =>
    have hc := h c (by simp [Call.args]); have ha := valid_congr a (fun d m => h d (by simp [Call.args, m]))
    simp only [Legal, State.Exists, State.vals, hc] at lg ⊢; exact ⟨lg.1, ha lg.2⟩
  | pushBack c a =>
    have hc := h c (by simp [Call.args]); have ha := valid_congr a (fun d m => h d (by simp [Call.args, m]))
    simp only [Legal, State.Exists, State.vals, hc] at lg ⊢; exact ⟨lg.1, ha lg.2⟩
  | insert c i a =>
    have hc := h c (by simp [Call.args]); have ha := valid_congr a (fun d m => h d (by simp [Call.args, m]))
    simp only [Legal, State.Exists, State.vals, hc] at lg ⊢; exact ⟨lg.1, lg.2.1, ha lg.2.2.1, lg.2.2.2⟩
  | insertN c i n a =>
    have hc := h c (by simp [Call.args]); have ha := valid_congr a (fun d m => h d (by simp [Call.args, m]))
    simp only [Legal, State.Exists, State.vals, hc] at lg ⊢; exact ⟨lg.1, lg.2.1, ha lg.2.2.1, lg.2.2.2⟩
  | insertRange c i a =>
    have hc := h c (by simp [Call.args]); have ha := valid_congr' a (fun d m => h d (by simp [Call.args, m]))
    simp only [Legal, State.Exists, State.vals, hc] at lg ⊢; exact ⟨lg.1, lg.2.1, ha lg.2.2.1, lg.2.2.2⟩
  | store c i a =>
    have hc := h c (by simp [Call.args]); have ha := valid_congr a (fun d m => h d (by simp [Call.args, m]))
    simp only [Legal, State.Exists, State.vals, hc] at lg ⊢; exact ⟨lg.1, lg.2.1, ha lg.2.2⟩
  | _ => simp [Call.args] at h <;> simp only [Legal, State.Exists, State.vals, h] at lg ⊢ <;> exact lg

variable {N : Nat} {S : State T} {h : Mem T} {dv : T}

/-- **C159, `ttl::fixed_vector`.** A call accesses only the objects and the storage of the fixed vectors it names. -/
theorem call_confined (R : Reach N dv S h) (q : Call T) (lg : Legal S q) : Confined (exec N dv q) h (· ∈ q.args) (· ∈ q.args) := by
  have W := R.world
  obtain ⟨m, e, _⟩ := step_ok (dv := dv) (World.part W (· ∈ q.args)) q (legal_congr (fun c hc => onlyState_of hc) lg)
  have gone : ∀ c, h.fresh ≤ c → h.obj c = none ∧ h.size c = none ∧ ∀ i, h.slot c i = none := fun c l => W.only c (W.fresh c l).1 id
  exact Confined.of_without (fun L b le => framed_all N dv q L h b (le rfl)) (fun b l => ⟨(gone b l).2.1, by rw [lay_none]; funext i; exact (gone b l).2.2 i⟩)
    (fun c l => (gone c l).1) e

/-- **C159, `ttl::fixed_vector`, two calls.** If they name different fixed vectors, one finds its memory as if the other one had not run. -/
theorem calls_apart (R : Reach N dv S h) (q1 q2 : Call T) (l1 : Legal S q1) (d : ∀ c ∈ q1.args, c ∉ q2.args) :
    ∀ r h', exec N dv q1 h = .ok (r, h') → ∀ c ∈ q2.args, S.Exists c → h'.obj c = h.obj c ∧ h'.size c = h.size c ∧ h'.slot c = h.slot c := by
  have W := R.world
  intro r h' e c hc ⟨s, hs⟩
  obtain ⟨r', m, h2, _, e2, _, f1, f2⟩ := call_confined R q1 l1
  rw [e] at e2; cases e2
  have lt := W.lt hs
  have n : ¬ c ∈ q1.args := fun m => d c m hc
  exact ⟨f1 c lt n, f2 c lt n⟩

/-- **C159, `ttl::fixed_vector`, reading.** All observers of a fixed vector answer the same in the memory that has only this one, and write nothing. -/
theorem reads_confined (R : Reach N dv S h) {c : Nat} (hc : S.Exists c) :
    FVProps.Observes N h c (S.vals c) ∧ FVProps.Observes N (h.part (· = c) (· = c)) c (S.vals c) := by
  refine ⟨FVProps.reach_observes R hc, ?_⟩
  obtain ⟨s, hs⟩ := hc
  have : S.vals c = s := by simp [State.vals, hs]
  rw [this]
  exact FVProps.isFV_observes (IsFV.part (R.world.fv c s hs) rfl)

/-- The hypotheses are met: `c` holding 5, 6, 7 and 8 and `d` holding 1 and 2, and the calls `c.erase(begin + 1)` and `d.push_back(d[0])`. -/
example : ∃ (S : State Nat) (h : Mem Nat) (c d : Nat), Reach 6 0 S h ∧ S.Exists d ∧ Legal S (.erase c 1) ∧ Legal S (.pushBack d (.elem d 0)) ∧
    (∀ x ∈ (Call.erase c 1 : Call Nat).args, x ∉ (Call.pushBack d (.elem d 0) : Call Nat).args) := by
  obtain ⟨c, d, S, h, R, xc, xd, ne, o1, o2⟩ := FVProps.demo
  have g1 := (FVProps.reach_observes R xc).inj o1
  have g2 := (FVProps.reach_observes R xd).inj o2
  refine ⟨S, h, c, d, R, xd, ⟨xc, by rw [g1]; decide⟩, ⟨xd, xd, by rw [g2]; decide⟩, by simpa [Call.args, CArg.owner] using ne⟩

end Verif.Vec.FV
