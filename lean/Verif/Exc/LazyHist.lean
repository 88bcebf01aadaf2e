import Verif.Exc.LazyCalls
/-!
# Histories of lazy queues with exceptions
-/
set_option linter.unusedVariables false
set_option linter.unusedSimpArgs false
namespace Verif.Exc.XLq
open Verif Verif.Seq Verif.Seq.SNode Verif.Seq.LQueue Verif.Exc Verif.Exc.XSeq Verif.Seq.LazyProps
open Verif.Seq.DList (Arg readArg posOf posOf_nil posOf_cons Laid insertAt fresh Blank)
variable {T : Type} {h h' t : Heap T} {S S' : State T} {Q Q' : Stales T} {L L' : Addr → Prop} {c d : Addr} {es fs : List (Addr × T)} {ns : List Addr} {triv : Bool}

/-! ## Only one outcome -/

theorem Ins.unique {a : Addr} {k i : Nat} {vs : List T} {S1 S2 : State T} {Q1 Q2 : Stales T} {L1 L2 : Addr → Prop} (x : Ins S a k c i vs S1 Q1 L1)
    (y : Ins S a k c i vs S2 Q2 L2) : S1 = S2 ∧ Q1 = Q2 ∧ L1 = L2 := by
  obtain ⟨j, leak, a1, _, l1, x⟩ := x
  obtain ⟨j', leak', a2, _, l2, y⟩ := y
  obtain ⟨rfl, rfl⟩ := a1.unique a2
  have el : L1 = L2 := funext fun x => propext ((l1 x).trans (l2 x).symm)
  rcases x with ⟨x1, x2, x3, x4⟩ | ⟨x1, x2, x3⟩ <;> rcases y with ⟨y1, y2, y3, y4⟩ | ⟨y1, y2, y3⟩
  · exact ⟨x3.trans y3.symm, x4.trans y4.symm, el⟩
  · exact absurd ⟨x1, x2⟩ y1
  · exact absurd ⟨y1, y2⟩ x1
  · exact ⟨x3.trans y3.symm, x2.trans y2.symm, el⟩

theorem CtorLeak.unique {a : Addr} {k n : Nat} {L1 L2 : Addr → Prop} (x : CtorLeak a k n L1) (y : CtorLeak a k n L2) : L1 = L2 := by
  obtain ⟨j, leak, a1, _, l1⟩ := x
  obtain ⟨j', leak', a2, _, l2⟩ := y
  obtain ⟨rfl, rfl⟩ := a1.unique a2
  exact funext fun x => propext ((l1 x).trans (l2 x).symm)

theorem Interrupted.unique {a : Addr} {k : Nat} {q : Call T} {S1 S2 : State T} {Q1 Q2 : Stales T} {L1 L2 : Addr → Prop}
    (x : Interrupted S a k q S1 Q1 L1) (y : Interrupted S a k q S2 Q2 L2) : S1 = S2 ∧ Q1 = Q2 ∧ L1 = L2 := by
  cases q with
  | copyOf s => exact ⟨x.1.trans y.1.symm, x.2.1.trans y.2.1.symm, x.2.2.unique y.2.2⟩
  | ctorN n v => exact ⟨x.1.trans y.1.symm, x.2.1.trans y.2.1.symm, x.2.2.unique y.2.2⟩
  | pushFront c v => exact Ins.unique x y
  | pushBack c v => exact Ins.unique x y
  | insert c i v => exact Ins.unique x y
  | insertN c i n v => exact Ins.unique x y
  | insertVals c i vs => exact Ins.unique x y
  | insertQueue c i d => exact Ins.unique x y
  | assign c d => exact Ins.unique x y
  | create => exact x.elim
  | destroy c => exact x.elim
  | cleanup c => exact x.elim
  | popFront c => exact x.elim
  | erase c i => exact x.elim
  | eraseRange c i j => exact x.elim
  | clear c => exact x.elim
  | swap c d => exact x.elim
  | rollHead c => exact x.elim
  | store c i v => exact x.elim

/-! ## A call in a memory with leaked cells and queues out of order -/

/-- Every legal call on the queues in order, whatever happened before. -/
theorem XInv.call (X : XInv h S Q L) (q : Call T) (lg : Legal triv S q) :
    ∃ h', XInv h' (spec S h.fresh q) Q L ∧
      Points (exec triv q) h (points S q) () h' fun k t => ∃ S' Q' L', Interrupted S h.fresh k q S' Q' L' ∧ XInv t S' (join Q Q') (fun x => L x ∨ L' x) := by
  obtain ⟨m, _, W', P⟩ := call_points X.world q lg
  obtain ⟨h', em, f, s, P'⟩ := (framedT_exec triv q).points X.masked.used P
  refine ⟨h', ?_, P'.imp fun k t l ⟨⟨S', Q', L', y, z⟩, f, s⟩ => ⟨S', Q', L', y, X.masked.lift f s z⟩⟩
  have := X.masked.lift f s (S' := spec S h.fresh q) (Q' := noQueue) (L' := fun _ => False) (XInv.clean (by rw [em]; exact W'))
  simpa [join_none] using this

/-! ## Queues out of order -/

/-- All but `c`. -/
def drop (Q : Stales T) (c : Addr) : Stales T := fun d => if d = c then none else Q d

theorem drop_some {s : StaleQ T} (e : drop Q c d = some s) : d ≠ c ∧ Q d = some s := by
  unfold drop at e
  split at e
  · cases e
  · rename_i q; exact ⟨q, e⟩

theorem drop_cells (X : Masked h Q L) {s : StaleQ T} (hc : Q c = some s) {x : Addr} : Cells Q x ↔ Cells (drop Q c) x ∨ x ∈ qcells c s.elems s.pool := by
  constructor
  · rintro ⟨d, s', e, hx⟩
    by_cases q : d = c
    · subst q; rw [hc] at e; cases e; exact .inr hx
    · exact .inl ⟨d, s', by simp only [drop, if_neg q, e], hx⟩
  · rintro (⟨d, s', e, hx⟩ | hx)
    · exact ⟨d, s', (drop_some e).2, hx⟩
    · exact ⟨c, s, hc, hx⟩

theorem Masked.drop (X : Masked h Q L) (c : Addr) : Masked h (drop Q c) L :=
  ⟨X.wf, fun d s e => X.stale d s (drop_some e).2, fun d s e => X.ends d s (drop_some e).2, fun d s e => X.apart d s (drop_some e).2,
    fun d s d' s' e e' => X.apart2 d s d' s' (drop_some e).2 (drop_some e').2, X.leaked⟩

/-- From the point of view of the other queues a queue out of order appears when it is put in order. -/
theorem Effect.reveal {C C' : Addr → Prop} {M : Addr → Bool} (ef : Effect C C' h h') (hm : ∀ x, M x = true ↔ C x) :
    Effect (fun _ => False) C' (without h M) h' := by
  refine ⟨?_, ?_, ?_, fun x q => q.elim, ef.wf, ef.mono⟩
  · intro x _ h2 l
    obtain ⟨m, l⟩ := without_live.1 l
    have h1 : ¬ C x := fun q => by rw [(hm x).2 q] at m; cases m
    have s := ef.frame x h1 h2 l
    exact ⟨s.next, s.prev, s.tail, s.val, by rw [s.live, live_without m]⟩
  · intro x _ h2 l
    by_cases h1 : C x
    · exact ef.shrunk x h1 h2
    · refine ef.dead x h1 h2 ?_
      have m : M x = false := by
        cases q : M x with
        | false => rfl
        | true => exact absurd ((hm x).1 q) h1
      rw [live_without m] at l; exact l
  · intro x _ h2
    by_cases h1 : C x
    · simp [without, (hm x).2 h1]
    · have := ef.grown x h1 h2
      simp [without, this]

/-- A call that puts the queue `c` in order, or ends it. -/
theorem XInv.repair (X : XInv h S Q L) {s : StaleQ T} (hc : Q c = some s) {p : Prog (Heap T) Unit} (fp : Framed p) {o : Option (QState T)}
    (H : ∀ g : Heap T, Wf g → Queue g c s.elems s.pool → ∃ g', p g = .ok ((), g') ∧
      Effect (· ∈ qcells c s.elems s.pool) (fun x => ∃ s, o = some s ∧ x ∈ iface.cells c s) g g' ∧ ∀ s, o = some s → iface.own g' c s) :
    ∃ h', p h = .ok ((), h') ∧ XInv h' (upd S c o) (drop Q c) L := by
  have Y := X.masked.drop c
  have notin : ∀ x ∈ qcells c s.elems s.pool, mask (drop Q c) L x = false := by
    intro x hx
    rw [mask_false]
    rintro (l | ⟨d, s', e, hx'⟩)
    · exact X.apart c s hc x hx l
    · obtain ⟨ne, e⟩ := drop_some e
      exact X.apart2 c s d s' hc e (Ne.symm ne) x hx hx'
  have wg : Wf (without h (mask (drop Q c) L)) :=
    ⟨X.wf.pos, by simp [without, X.wf.null], fun x l => X.wf.used x (without_live.1 l).2⟩
  have rg : Queue (without h (mask (drop Q c) L)) c s.elems s.pool :=
    (X.stale c s hc).frame fun x hx => ⟨rfl, rfl, rfl, rfl, live_without (notin x hx)⟩
  obtain ⟨g', e, ef, ow⟩ := H _ wg rg
  obtain ⟨h', e', em, f, sm⟩ := fp.out _ h Y.used _ _ e
  refine ⟨h', e', ?_⟩
  have ef' := Effect.reveal (M := fun x => decide (x ∈ qcells c s.elems s.pool)) ef fun x => by rw [decide_eq_true_iff]
  have eh : without (without h (mask (drop Q c) L)) (fun x => decide (x ∈ qcells c s.elems s.pool)) = without h (mask Q L) := by
    rw [without_twice]
    congr 1
    funext x
    rw [Bool.eq_iff_iff, Bool.or_eq_true, mask_true, mask_true, decide_eq_true_iff, drop_cells X.masked hc, or_assoc]
  rw [eh] at ef'
  have sn : S c = none := by
    cases q : S c with
    | none => rfl
    | some s' =>
      have l := (World.qu X.world q).main.head
      have := (without_live.1 l).1
      rw [mask_false] at this
      exact absurd (.inr ⟨c, s, hc, self_mem⟩) this
  have W' : World iface g' (upd S c o) := by
    refine World.step1 X.world c o (ef'.congr ?_ fun x => Iff.rfl) ow
    intro x
    constructor
    · intro q; exact q.elim
    · rintro ⟨s', e, _⟩; rw [sn] at e; cases e
  have := Y.lift f sm (S' := upd S c o) (Q' := noQueue) (L' := fun _ => False) (XInv.clean (by rw [em]; exact W'))
  simpa [join_none] using this

/-- `clear()` puts it in order. -/
theorem XInv.clear (X : XInv h S Q L) {s : StaleQ T} (hc : Q c = some s) :
    ∃ h', LQueue.clear c h = .ok ((), h') ∧ XInv h' (S.put c [] ((s.elems.map Prod.fst).reverse ++ s.pool)) (drop Q c) L := by
  refine X.repair hc (LQ.framed_clear c) fun g w r => ?_
  obtain ⟨g', q, r', ef, fr, tl⟩ := clearLoop_ok w r
  refine ⟨{ g' with tail := upd g'.tail c c }, ?_, ?_, ?_⟩
  · simp only [LQueue.clear, Prog.bind_app, q, Res.bind_ok, setTail_eq r'.main.head]
  · refine (retail_effect ef self_mem c).congr (fun x => Iff.rfl) fun x => ?_
    constructor
    · intro hx; exact ⟨_, rfl, hx⟩
    · rintro ⟨s', e, hx⟩; cases e; exact hx
  · intro s' e; cases e
    exact ⟨r'.retail, upd_same _ _ _⟩

/-- The destructor works. -/
theorem XInv.destroy (X : XInv h S Q L) {s : StaleQ T} (hc : Q c = some s) (ok : triv = true ∨ s.pool = []) :
    ∃ h', LQueue.destroy triv c h = .ok ((), h') ∧ XInv h' (upd S c none) (drop Q c) L := by
  refine X.repair hc (LQ.framed_destroy triv c) (o := none) fun g w r => ?_
  obtain ⟨h1, q1, r1, ef1, fr1⟩ := drain_heap (triv := triv) w r
  obtain ⟨h2, q2, r2, ef2, fr2, _⟩ := cleanup_heap ef1.wf r1 ok
  obtain ⟨h3, q3, ef3, fr3⟩ := Verif.Seq.freeHead_ok (T := T) ef2.wf r2.main.head
  have hcd : c + 1 ∉ scells c ([] : List (Addr × T)) := fun q => r2.apart _ q (by simp)
  have ld : h3.live (c + 1) = true := (ef3.keeps r2.dead.head hcd).live.trans r2.dead.head
  obtain ⟨h4, q4, ef4, fr4⟩ := Verif.Seq.freeHead_ok (T := T) ef3.wf ld
  have e3 : Effect (· ∈ qcells c ([] : List (Addr × T)) []) (· ∈ scells (c + 1) ([] : List (Addr × T))) h2 h3 := by
    refine (ef3.weaken (F := (· ∈ [c + 1]))).congr ?_ ?_
    · intro x; exact mem_qcells.symm
    · intro x; simp [scells]
  refine ⟨h4, by simp only [LQueue.destroy, deadOf, Prog.bind_app, q1, Res.bind_ok, q2, q3, q4], (((ef1.trans ef2).trans e3).trans ef4).congr (fun x => Iff.rfl) fun x => ?_, ?_⟩
  · simp
  · intro s e; cases e

theorem XInv.none_of (X : XInv h S Q L) {s : StaleQ T} (hc : Q c = some s) : S c = none := by
  cases q : S c with
  | none => rfl
  | some s' =>
    have l := (World.qu X.world q).main.head
    have := (without_live.1 l).1
    rw [mask_false] at this
    exact absurd (.inr ⟨c, s, hc, self_mem⟩) this

/-! ## Histories -/

/-- What the rest of the program does is of no concern, either. -/
theorem XInv.env (X : XInv h S Q L) (e : Env h h') : XInv h' S Q L := by
  refine ⟨e.wf, X.world.env (env_without e), fun c s q => ?_, fun c s q => ?_, X.apart, X.apart2, fun x l => ?_⟩
  · exact (X.stale c s q).frame fun x hx => e.same x ((X.stale c s q).live x hx)
  · have := X.ends c s q
    exact ⟨(e.same c ((X.stale c s q).live c self_mem)).tail.trans this.1, this.2⟩
  · exact (e.same x (X.leaked x l)).live.trans (X.leaked x l)

/-- `XReach S Q L h`: some client program, with exceptions at any points in any of its calls, ends in memory `h`; the queues are as `S` says, except those in `Q`,
whose `tail_` is not at the last element. The cells `L` are lost. After an exception that leaves a queue out of order the client may clear or destroy it. -/
inductive XReach (triv : Bool) : State T → Stales T → (Addr → Prop) → Heap T → Prop where
  | start {h : Heap T} : Blank h → XReach triv (fun _ => none) noQueue (fun _ => False) h
  | returned {S : State T} {Q : Stales T} {L : Addr → Prop} {h h' : Heap T} {k k' : Nat} (q : Call T) : XReach triv S Q L h → Legal triv S q →
      exec triv q k h = .ok (.ret () k', h') → XReach triv (spec S h.fresh q) Q L h'
  | thrown {S S' : State T} {Q Q' : Stales T} {L L' : Addr → Prop} {h t : Heap T} {k : Nat} (q : Call T) : XReach triv S Q L h → Legal triv S q →
      exec triv q k h = .ok (.thrown, t) → Interrupted S h.fresh k q S' Q' L' → XReach triv S' (join Q Q') (fun x => L x ∨ L' x) t
  | cleared {S : State T} {Q : Stales T} {L : Addr → Prop} {h h' : Heap T} {c : Addr} {s : StaleQ T} : XReach triv S Q L h → Q c = some s →
      LQueue.clear c h = .ok ((), h') → XReach triv (S.put c [] ((s.elems.map Prod.fst).reverse ++ s.pool)) (drop Q c) L h'
  | destroyed {S : State T} {Q : Stales T} {L : Addr → Prop} {h h' : Heap T} {c : Addr} {s : StaleQ T} : XReach triv S Q L h → Q c = some s →
      (triv = true ∨ s.pool = []) → LQueue.destroy triv c h = .ok ((), h') → XReach triv S (drop Q c) L h'
  | env {S : State T} {Q : Stales T} {L : Addr → Prop} {h h' : Heap T} : XReach triv S Q L h → Env h h' → XReach triv S Q L h'

theorem upd_none (e : S c = none) : upd S c none = S := by
  funext x
  by_cases q : x = c
  · subst q; exact (upd_same (α := Option (QState T)) _ _ _).trans e.symm
  · exact upd_other (α := Option (QState T)) _ _ q

theorem XReach.inv (X : XReach triv S Q L h) : XInv h S Q L := by
  induction X with
  | start b => exact XInv.clean (blank_world b)
  | returned q _ lg e ih =>
    obtain ⟨h1, Y, P⟩ := ih.call q lg
    rcases P.cases _ with ⟨_, g⟩ | ⟨_, t, g, _⟩
    · rw [e] at g; cases g; exact Y
    · rw [e] at g; cases g
  | thrown q _ lg e it ih =>
    obtain ⟨h1, Y, P⟩ := ih.call q lg
    rcases P.cases _ with ⟨_, g⟩ | ⟨_, t, g, S1, Q1, L1, it1, Z⟩
    · rw [e] at g; cases g
    · rw [e] at g; cases g
      obtain ⟨rfl, rfl, rfl⟩ := it.unique it1
      exact Z
  | cleared _ hc e ih =>
    obtain ⟨h1, g, Y⟩ := ih.clear hc
    rw [e] at g; cases g; exact Y
  | destroyed _ hc ok e ih =>
    obtain ⟨h1, g, Y⟩ := ih.destroy hc ok
    rw [e] at g; cases g
    rw [upd_none (ih.none_of hc)] at Y; exact Y
  | env _ e ih => exact ih.env e

/-- Programs in which nothing threw are among them. -/
theorem reach_xreach (R : Reach triv S h) : XReach triv S noQueue (fun _ => False) h := by
  induction R with
  | start b => exact .start b
  | step q R lg e ih =>
    obtain ⟨h1, e1, _, P⟩ := call_points R.world q lg
    rw [e] at e1; cases e1
    exact .returned q ih lg (P.returns 0)
  | env R e ih => exact .env ih e

end Verif.Exc.XLq
