import Verif.Exc.FwdCtor
import Verif.Exc.SlistFrame
import Verif.Exc.Lost
/-!
# Programs on `ttl::forward_list` in which any call may throw, constructors included (C131, C132)

A constructor that throws at its second or a later element loses nodes (`ctor_throw_leaks`). Here programs go on after that: the lost nodes stay where they
are, never change, and influence nothing; every list is what the specification says; and nothing else is ever lost.
-/
set_option linter.unusedVariables false
set_option linter.unusedSimpArgs false
set_option linter.unusedSectionVars false
namespace Verif.Exc.XFwd
open Verif Verif.Seq Verif.Seq.FList Verif.Seq.FwdProps Verif.Exc
open Verif.Seq.DList (Arg fresh insertAt slice Blank)
open Verif.Exc.XSList (Leaked)
open Verif.Exc.XSeq (without Framed FramedT newly)
variable {T : Type} {S : State T} {h h' t : Heap T} {c d : Addr} {es fs : List (Addr × T)} {L : Addr → Bool}

/-- `LReach S L h`: some client program, in which any calls, constructors included, may have been left by exceptions at any points, ends in memory `h` and, by
the specification, in state `S`; `L` are the cells that its constructors took before they threw and did not give back. -/
inductive LReach : State T → (Addr → Bool) → Heap T → Prop where
  | start {h : Heap T} : Blank h → LReach (fun _ => none) (fun _ => false) h
  | returned {S : State T} {L : Addr → Bool} {h h' : Heap T} (q : Call T) (k k' : Nat) : LReach S L h → Legal S q →
      exec q k h = .ok (.ret () k', h') → LReach (spec S h.fresh q) L h'
  | thrown {S S' : State T} {L : Addr → Bool} {h t : Heap T} (q : Call T) (k : Nat) : LReach S L h → Legal S q → ¬ Constructs q →
      exec q k h = .ok (.thrown, t) → Interrupted S h.fresh k q S' → LReach S' L t
  | lost {S : State T} {L : Addr → Bool} {h t : Heap T} (q : Call T) (k : Nat) : LReach S L h → Legal S q → Constructs q →
      exec q k h = .ok (.thrown, t) → LReach S (fun x => L x || newly h t x) t
  | env {S : State T} {L : Addr → Bool} {h h' : Heap T} : LReach S L h → Env h h' → LReach S L h'

/-- Without the lost cells the memory is one that a program without exceptions reaches. -/
structure LInv (S : State T) (L : Addr → Bool) (h : Heap T) : Prop where
  reach : Reach S (without h L)
  wf : Wf h
  live : ∀ x, L x = true → h.live x = true

theorem LInv.below (I : LInv S L h) : ∀ x, L x = true → x < h.fresh := fun x l => I.wf.used x (I.live x l)

theorem LInv.next (I : LInv S L h) {S' : State T} (R : Reach S' (without t L)) (f : h.fresh ≤ t.fresh) (s : ∀ x, L x = true → Same h t x) : LInv S' L t :=
  ⟨R, XSeq.wf_with I.wf I.live f s R.world.wf, fun x l => by rw [(s x l).live]; exact I.live x l⟩

theorem LInv.env (I : LInv S L h) (e : Env h h') : LInv S L h' :=
  ⟨.env I.reach (XSeq.env_without e), e.wf, fun x l => by rw [(e.same x (I.live x l)).live]; exact I.live x l⟩

/-! ## The constructors -/

/-- The constructor `q` makes elements with the values `vs`. -/
def Makes (S : State T) : Call T → List T → Prop
  | .copyOf d, vs => vs = (S.get d).map Prod.snd
  | .ctorN n value, vs => ∃ v, S.Refers v value ∧ vs = List.replicate n v
  | .ctorVals ws, vs => vs = ws
  | _, _ => False

/-- A constructor does what the constructor from the values of its elements does. -/
theorem ctor_eq (R : Reach S h) {q : Call T} (lg : Legal S q) {vs : List T} (mk : Makes S q vs) :
    (∀ k, exec q k h = exec (.ctorVals vs) k h) ∧ ∀ a, spec S a q = spec S a (.ctorVals vs) := by
  obtain ⟨h1, q1, R1, fr⟩ := create_reach R
  have lf : h1.live h.fresh = true := by simpa using live_pos R1 (put_exists S h.fresh []) 0
  cases q with
  | copyOf d =>
    cases mk
    have ne : h.fresh ≠ d := (R.world.wf.ne_fresh (sl R lg).head).symm
    have hd1 : (S.put h.fresh []).Exists d := put_exists_other _ _ lg
    have ap := other_apart R1 (put_exists S h.fresh []) hd1 ne 0
    have X := XSList.insertNodes_run _ R1.world.wf lf (other_run R1 hd1) (by simpa using ap)
    rw [put_get_other _ _ ne.symm] at X
    refine ⟨fun k => ?_, fun _ => rfl⟩
    simp only [exec, copyCtor, ctorVals, insertNodes, insertVals, Thr.bind_app, Thr.call_app, q1, Res.bind_ok, Thr.after_ret, Thr.unwinding,
      getNext_eq (sl R1 hd1).head, X]
  | ctorN n value =>
    obtain ⟨v, rf, rfl⟩ := mk
    have rf1 : (S.put h.fresh []).Refers v value := by
      cases value with
      | ext w => exact rf
      | elem a =>
        obtain ⟨d, fs, hd, m⟩ := rf
        have : d ≠ h.fresh := R.world.wf.ne_fresh (World.sl R.world hd).head
        exact ⟨d, fs, by rw [put_other _ _ this]; exact hd, m⟩
    have X := XSList.insertN_run n R1.world.wf lf (refers_readable R1.world rf1)
    refine ⟨fun k => ?_, fun a => ?_⟩
    · simp only [exec, ctorN, ctorVals, insertN, insertVals, Thr.bind_app, Thr.call_app, q1, Res.bind_ok, Thr.after_ret, Thr.unwinding, X]
    · simp only [spec, copies_eq R.world rf]
  | ctorVals vs => cases mk; exact ⟨fun _ => rfl, fun _ => rfl⟩
  | _ => exact mk.elim

/-- A constructor from values reads nothing and writes only storage that it takes itself. -/
theorem ctor_vals_anywhere (w : Wf h) (vs : List T) : ∃ h', Points (exec (.ctorVals vs)) h vs.length () h'
    fun k t => Wf t ∧ (∀ x, h.live x = true → Same h t x) ∧ ∀ x, newly h t x = true ↔ ∃ j, j < k ∧ x = h.fresh + 1 + j := by
  have B : Blank (without h h.live) := ⟨fun x => by simp [without], w.pos⟩
  obtain ⟨m, _, X⟩ := ctor_vals_points (Reach.start B) vs
  obtain ⟨h', e1, f, s, Y⟩ := (XSeq.FL.framedT_exec (.ctorVals vs)).points (L := h.live) w.used X
  refine ⟨h', Y.imp fun k t l ⟨y, ft, st⟩ => ?_⟩
  have wt := XSeq.wf_with (L := h.live) w (fun _ => id) ft st y.wf
  refine ⟨wt, st, fun x => ?_⟩
  have := y.live x
  rw [XSeq.without_live, XSeq.without_live] at this
  simp only [List.length_take, Nat.min_eq_left (Nat.le_of_lt l)] at this
  simp only [newly, Bool.and_eq_true, Bool.not_eq_true']
  constructor
  · rintro ⟨a, b⟩
    rcases this.1 ⟨b, a⟩ with ⟨z, z'⟩ | z
    · rw [z] at z'; cases z'
    · exact z
  · intro z
    exact (this.2 (.inr z)).symm

theorem LInv.lost (I : LInv S L h) (wt : Wf t) (st : ∀ x, h.live x = true → Same h t x) : LInv S (fun x => L x || newly h t x) t := by
  refine ⟨.env I.reach (XSeq.env_newly st wt), wt, fun x l => ?_⟩
  rcases Bool.or_eq_true_iff.1 l with l | l
  · rw [(st x (I.live x l)).live]; exact I.live x l
  · exact (Bool.and_eq_true_iff.1 l).1

theorem makes (S : State T) {q : Call T} (lg : Legal S q) (cq : Constructs q) : ∃ vs, Makes S q vs := by
  cases q with
  | copyOf d => exact ⟨_, rfl⟩
  | ctorN n value => obtain ⟨v, rf⟩ := lg; exact ⟨_, v, rf, rfl⟩
  | ctorVals vs => exact ⟨_, rfl⟩
  | _ => exact cq.elim

theorem LInv.ctor_eq (I : LInv S L h) {q : Call T} (lg : Legal S q) {vs : List T} (mk : Makes S q vs) (k : Nat) :
    exec q k h = exec (.ctorVals vs) k h := by
  have e := (XFwd.ctor_eq I.reach lg mk).1 k
  obtain ⟨h', _, X⟩ := ctor_vals_points I.reach vs
  rcases X.cases k with ⟨_, x⟩ | ⟨_, t, x, _⟩
  all_goals exact (XSeq.FL.framedT_exec _).agree (XSeq.FL.framedT_exec _) I.below (e.trans x) x

/-! ## One call, whatever was lost before -/

theorem LInv.returns_or_throws (I : LInv S L h) (q : Call T) (lg : Legal S q) (k : Nat) :
    (∃ h' k', exec q k h = .ok (.ret () k', h') ∧ LInv (spec S h.fresh q) L h' ∧ ∀ x, L x = true → Same h h' x) ∨
    (∃ t S', ¬ Constructs q ∧ exec q k h = .ok (.thrown, t) ∧ Interrupted S h.fresh k q S' ∧ LInv S' L t ∧ ∀ x, L x = true → Same h t x) ∨
    (∃ t, Constructs q ∧ (∃ vs, Makes S q vs ∧ k < vs.length) ∧ exec q k h = .ok (.thrown, t) ∧ LInv S (fun x => L x || newly h t x) t ∧
      (∀ x, h.live x = true → Same h t x) ∧ ∀ x, newly h t x = true ↔ ∃ j, j < k ∧ x = h.fresh + 1 + j) := by
  by_cases cq : Constructs q
  · obtain ⟨vs, mk⟩ := makes S lg cq
    have sp := (XFwd.ctor_eq I.reach lg mk).2
    rw [I.ctor_eq lg mk, sp]
    obtain ⟨h', X⟩ := ctor_vals_anywhere I.wf vs
    obtain ⟨m, e, Y⟩ := ctor_vals_points I.reach vs
    rcases X.cases k with ⟨_, x⟩ | ⟨l, t, x, wt, st, n⟩
    · rcases Y.cases k with ⟨_, y⟩ | ⟨l, t, y, _⟩
      · obtain ⟨h2, q2, e2, f2, s2⟩ := (XSeq.FL.framedT_exec (.ctorVals vs) k).out L h I.below _ _ y
        obtain ⟨m', e', R'⟩ := call_returns I.reach (.ctorVals vs) trivial
        rw [e] at e'; cases e'
        exact .inl ⟨h2, _, q2, I.next (by rw [e2]; exact R') f2 s2, s2⟩
      · obtain ⟨h2, q2, _⟩ := (XSeq.FL.framedT_exec (.ctorVals vs) k).out L h I.below _ _ y
        rw [x] at q2; cases q2
    · exact .inr (.inr ⟨t, cq, ⟨vs, mk, l⟩, x, I.lost wt st, st, n⟩)
  · rcases call_outcome I.reach q lg cq k with ⟨m, k', e, _, R'⟩ | ⟨m, S', e, i, R'⟩
    · obtain ⟨h2, q2, e2, f2, s2⟩ := (XSeq.FL.framedT_exec q k).out L h I.below _ _ e
      exact .inl ⟨h2, k', q2, I.next (by rw [e2]; exact R') f2 s2, s2⟩
    · obtain ⟨h2, q2, e2, f2, s2⟩ := (XSeq.FL.framedT_exec q k).out L h I.below _ _ e
      exact .inr (.inl ⟨h2, S', cq, q2, i, I.next (by rw [e2]; exact R') f2 s2, s2⟩)

/-- **C131, C132.** The invariant of programs that lost nodes. -/
theorem LReach.inv (X : LReach S L h) : LInv S L h := by
  induction X with
  | start b =>
    have e : ∀ h : Heap T, without h (fun _ => false) = h := fun h => by simp [without]
    exact ⟨by rw [e]; exact .start b, ⟨b.fresh, b.nothing 0, fun x l => by rw [b.nothing] at l; cases l⟩, fun x l => by cases l⟩
  | @returned S L h h' q k k' _ lg e ih =>
    rcases ih.returns_or_throws q lg k with ⟨h1, k1, e1, I, _⟩ | ⟨t, S', _, e1, _⟩ | ⟨t, _, _, e1, _⟩
    · rw [e] at e1; cases e1; exact I
    · rw [e] at e1; cases e1
    · rw [e] at e1; cases e1
  | @thrown S S' L h t q k _ lg nc e i ih =>
    rcases ih.returns_or_throws q lg k with ⟨h1, k1, e1, I, _⟩ | ⟨t1, S1, _, e1, i1, I, _⟩ | ⟨t, cq, _⟩
    · rw [e] at e1; cases e1
    · rw [e] at e1; cases e1
      exact interrupted_unique i1 i ▸ I
    · exact absurd cq nc
  | @lost S L h t q k _ lg cq e ih =>
    rcases ih.returns_or_throws q lg k with ⟨h1, k1, e1, I, _⟩ | ⟨t1, S1, nc, _⟩ | ⟨t1, _, _, e1, I, _⟩
    · rw [e] at e1; cases e1
    · exact absurd cq nc
    · rw [e] at e1; cases e1; exact I
  | env _ e ih => exact ih.env e

/-! ## What a client can rely on -/

/-- **C131, C132.** Programs with exceptions never get stuck: every legal call, constructors included, returns or throws, and the program goes on. A
constructor that throws at element `k` loses exactly the `k` nodes it made. -/
theorem LReach.goes_on (X : LReach S L h) (q : Call T) (lg : Legal S q) (k : Nat) :
    (∃ h' k', exec q k h = .ok (.ret () k', h') ∧ LReach (spec S h.fresh q) L h') ∨
    (∃ t S', exec q k h = .ok (.thrown, t) ∧ LReach S' L t ∧ Interrupted S h.fresh k q S') ∨
    (∃ t, exec q k h = .ok (.thrown, t) ∧ Constructs q ∧ LReach S (fun x => L x || newly h t x) t ∧
      ∀ x, newly h t x = true ↔ ∃ j, j < k ∧ x = h.fresh + 1 + j) := by
  rcases X.inv.returns_or_throws q lg k with ⟨h1, k1, e1, I, _⟩ | ⟨t1, S1, nc, e1, i1, I, _⟩ | ⟨t, cq, _, e1, _, _, n⟩
  · exact .inl ⟨h1, k1, e1, .returned q k k1 X lg e1⟩
  · exact .inr (.inl ⟨t1, S1, e1, .thrown q k X lg nc e1 i1, i1⟩)
  · exact .inr (.inr ⟨t, e1, cq, .lost q k X lg cq e1, n⟩)

/-- **C131, C132.** After any history of calls that returned or threw, every list answers every observer as the specification says: the nodes lost by constructors
are seen nowhere. -/
theorem LReach.observes (X : LReach S L h) (hc : S.Exists c) : Observes h c (S.get c) := by
  have I := X.inv
  have o := observes_shown I.reach hc (reach_shows I.reach hc)
  exact ⟨(XSeq.framed_entries c).reads I.below o.forward, (XSeq.FL.framed_empty c).reads I.below o.empty,
    fun e he => (XSeq.framed_front c).reads I.below (o.front e he)⟩

/-- **C131, C132.** After any such history the storage in use is the lists, their elements, and the nodes lost by constructors that threw, and no node is two
of these: nothing but constructors that throw ever loses storage. -/
theorem LReach.storage (X : LReach S L h) (x : Addr) :
    (h.live x = true ↔ L x = true ∨ ∃ c, S.Exists c ∧ (x = c ∨ x ∈ (S.get c).map Prod.fst)) ∧
    (L x = true → ∀ c, S.Exists c → x ≠ c ∧ x ∉ (S.get c).map Prod.fst) := by
  have I := X.inv
  have own : ∀ c, S.Exists c → x = c ∨ x ∈ (S.get c).map Prod.fst → L x = false ∧ h.live x = true := by
    rintro c ⟨s, q⟩ m
    rw [get_some q] at m
    exact XSeq.without_live.1 (iface.live (I.reach.world.own c s q) x (List.mem_cons.2 m))
  refine ⟨⟨fun l => ?_, ?_⟩, fun l c hc => ?_⟩
  · cases g : L x with
    | true => exact .inl rfl
    | false =>
      obtain ⟨c, s, q, m⟩ := I.reach.world.tight x (by rw [XSeq.live_without g]; exact l)
      refine .inr ⟨c, ⟨s, q⟩, ?_⟩
      rw [get_some q]
      exact List.mem_cons.1 m
  · rintro (l | ⟨c, hc, m⟩)
    · exact I.live x l
    · exact (own c hc m).2
  · refine ⟨fun e => ?_, fun m => ?_⟩
    · have := (own c hc (.inl e)).1; rw [l] at this; cases this
    · have := (own c hc (.inr m)).1; rw [l] at this; cases this

/-- When every list is destroyed, what is left in use is exactly what constructors that threw lost; without such constructors, nothing. -/
theorem LReach.all_destroyed (X : LReach S L h) (none : ∀ c, ¬ S.Exists c) (x : Addr) : h.live x = L x := by
  have := (X.storage x).1
  cases g : L x with
  | true => exact this.2 (.inl g)
  | false =>
    cases l : h.live x with
    | false => rfl
    | true =>
      rcases this.1 l with q | ⟨c, hc, _⟩
      · rw [g] at q; cases q
      · exact absurd hc (none c)

/-- A lost node is never touched again: not by a call that returns and not by one that throws. -/
theorem LReach.lost_stay (X : LReach S L h) (q : Call T) (lg : Legal S q) {k : Nat} {o : Out Unit} (e : exec q k h = .ok (o, h')) {x : Addr} (l : L x = true) :
    Same h h' x := by
  have I := X.inv
  rcases I.returns_or_throws q lg k with ⟨h1, k1, e1, _, s⟩ | ⟨t1, S1, nc, e1, i1, _, s⟩ | ⟨t, cq, _, e1, _, s, n⟩
  · rw [e] at e1; cases e1; exact s x l
  · rw [e] at e1; cases e1; exact s x l
  · rw [e] at e1; cases e1; exact s x (I.live x l)

/-- Programs in which no constructor throws lose nothing. -/
theorem XReach.lreach (X : XReach S h) : LReach S (fun _ => false) h := by
  induction X with
  | start b => exact .start b
  | returned q k k' _ lg nc e ih => exact .returned q k k' ih lg e
  | thrown q k _ lg nc e i ih => exact .thrown q k ih lg nc e i
  | env _ e ih => exact .env ih e

/-- The hypotheses are met: a constructor throws at its third element, then a list is built; two nodes are lost and the list is as it should be. -/
example : ∃ (S : State Nat) (L : Addr → Bool) (h : Heap Nat) (c x y : Addr), LReach S L h ∧ S.Exists c ∧ (S.get c).map Prod.snd = [1, 2] ∧
    L x = true ∧ L y = true ∧ x ≠ y := by
  have X := LReach.start (T := Nat) (h := blank Nat) ⟨fun _ => rfl, Nat.zero_lt_one⟩
  obtain ⟨h1, Y⟩ := ctor_vals_anywhere X.inv.wf [4, 5, 6]
  obtain ⟨t, e, _, _, n⟩ := Y.throws 2 (by decide)
  have X1 := LReach.lost (.ctorVals [4, 5, 6]) 2 X trivial trivial e
  rcases X1.goes_on (.ctorVals [1, 2]) trivial 2 with ⟨h', k', _, X2⟩ | ⟨_, _, _, _, i⟩ | ⟨t2, e2, _⟩
  · refine ⟨_, _, h', t.fresh, (blank Nat).fresh + 1 + 0, (blank Nat).fresh + 1 + 1, X2, put_exists _ _ _, ?_, ?_, ?_, ?_⟩
    · exact congrArg (List.map Prod.snd) (put_get (T := Nat) (fun _ => none) t.fresh (fresh (t.fresh + 1) [1, 2]))
    · show (false || _) = true
      rw [(n _).2 ⟨0, by decide, rfl⟩]; rfl
    · show (false || _) = true
      rw [(n _).2 ⟨1, by decide, rfl⟩]; rfl
    · intro e; cases e
  · exact i.elim
  · obtain ⟨h2, Z⟩ := ctor_vals_anywhere X1.inv.wf [1, 2]
    have := Z.returns 0
    rw [show [1, 2].length + 0 = 2 from rfl, e2] at this; cases this

end Verif.Exc.XFwd
