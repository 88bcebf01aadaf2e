import Verif.Exc.ListCtor
import Verif.Exc.ListFrame
import Verif.Exc.Lost
/-!
# Programs on `ttl::list` in which any call may throw, constructors included (C126, C127)

A constructor that throws at its second or a later element loses nodes (`ctor_throw_leaks`). Here programs go on after that: the lost nodes stay where they
are, never change, and influence nothing; every list is what the specification says; and nothing else is ever lost.
-/
set_option linter.unusedVariables false
set_option linter.unusedSimpArgs false
set_option linter.unusedSectionVars false
namespace Verif.Exc.XList
open Verif Verif.Seq Verif.Seq.DList Verif.Seq.ListProps Verif.Exc
open Verif.Exc.XSeq (without Framed FramedT newly)
variable {T : Type} {S : State T} {h h' t : Heap T} {c d : Addr} {es fs : List (Addr × T)} {L : Addr → Bool}

/-- `LReach S L h`: some client program, in which any calls, constructors included, may have been left by exceptions at any points, ends in memory `h` and, by
the specification, in state `S`; `L` are the cells that its constructors took before they threw and did not give back. -/
inductive LReach : State T → (Addr → Bool) → Heap T → Prop where
  | start {h : Heap T} : Blank h → LReach (fun _ => none) (fun _ => false) h
  | returned {S : State T} {L : Addr → Bool} {h h' : Heap T} (q : Call T) (k k' : Nat) : LReach S L h → Legal S q →
      exec q k h = .ok (.ret () k', h') → LReach (spec S h.fresh q) L h'
  | thrown {S S' : State T} {L : Addr → Bool} {h t : Heap T} (q : Call T) (k : Nat) : LReach S L h → Legal S q → ¬ Constructs q →
      exec q k h = .ok (.thrown, t) → Interrupted S h.fresh k q S' → (∀ c, S'.Exists c → Shows t c (S'.get c)) → LReach S' L t
  | lost {S : State T} {L : Addr → Bool} {h t : Heap T} (q : Call T) (k : Nat) : LReach S L h → Legal S q → Constructs q →
      exec q k h = .ok (.thrown, t) → LReach S (fun x => L x || newly h t x) t
  | env {S : State T} {L : Addr → Bool} {h h' : Heap T} : LReach S L h → Env h h' → LReach S L h'

/-- Without the lost cells the memory is one that a program without exceptions reaches. -/
structure LInv (S : State T) (L : Addr → Bool) (h : Heap T) : Prop where
  reach : Reach S (without h L)
  wf : Wf h
  live : ∀ x, L x = true → h.live x = true

theorem LInv.below (I : LInv S L h) : ∀ x, L x = true → x < h.fresh := fun x l => I.wf.used x (I.live x l)

theorem LInv.next (I : LInv S L h) {S' : State T} (R : Reach S' (without t L)) (f : h.fresh ≤ t.fresh) (s : ∀ x, L x = true → Same h t x) : LInv S' L t :=
  ⟨R, XSeq.wf_with I.wf I.live f s R.world.wf, fun x l => by rw [(s x l).live]; exact I.live x l⟩

theorem LInv.env (I : LInv S L h) (e : Env h h') : LInv S L h' :=
  ⟨.env I.reach (XSeq.env_without e), e.wf, fun x l => by rw [(e.same x (I.live x l)).live]; exact I.live x l⟩

/-! ## The constructors -/

theorem ctorN_eq (n : Nat) (v : T) : exec (.ctorN n v) = exec (.ctorVals (List.replicate n v)) := by
  simp only [exec, ctorN, ctorVals, insertN_eq]

/-- The copy constructor does what the constructor from the values of the elements does. -/
theorem copy_eq (R : Reach S h) (hd : S.Exists d) (k : Nat) : exec (.copyOf d) k h = exec (.ctorVals ((S.get d).map Prod.snd)) k h := by
  obtain ⟨h1, q1, R1, fr⟩ := create_reach R
  have ne : d ≠ h.fresh := by
    obtain ⟨s, q⟩ := hd
    exact R.world.wf.ne_fresh (World.laid R.world q).2.1
  have hd1 : (S.put h.fresh []).Exists d := by obtain ⟨s, q⟩ := hd; exact ⟨s, by rw [put_other _ _ ne]; exact q⟩
  have i1 : (S.put h.fresh []).Intact h.fresh := put_intact _ _ _
  have r := World.ring R1.world (put_same S h.fresh [])
  have ld : h1.live d = true := by obtain ⟨s, q⟩ := hd1; exact (World.laid R1.world q).2.1
  have nx : h1.next h.fresh = h.fresh := r.next_head
  have X := (insert_other_eq (i := 0) R1 i1 hd1 (Ne.symm ne) (Nat.zero_le _)).2 k
  rw [put_get, put_get_other _ _ ne] at X
  have X : insertNodes h.fresh (h1.next d) d k h1 = insertVals h.fresh ((S.get d).map Prod.snd) k h1 := X
  simp only [exec, copyCtor, ctorVals, Thr.bind_app, Thr.call_app, q1, Res.bind_ok, Thr.after_ret, Thr.unwinding, getNext_eq r.head, getNext_eq ld, nx, X]

/-- A constructor from values reads nothing and writes only storage that it takes itself. -/
theorem ctor_vals_anywhere (w : Wf h) (vs : List T) : ∃ h', Points (exec (.ctorVals vs)) h vs.length () h'
    fun k t => Wf t ∧ (∀ x, h.live x = true → Same h t x) ∧ ∀ x, newly h t x = true ↔ ∃ j, j < k ∧ x = h.fresh + 1 + j := by
  have B : Blank (without h h.live) := ⟨fun x => by simp [without], w.pos⟩
  obtain ⟨m, _, X⟩ := ctor_vals_points (Reach.start B) vs
  obtain ⟨h', e1, f, s, Y⟩ := (XSeq.DL.framedT_exec (.ctorVals vs)).points (L := h.live) w.used X
  refine ⟨h', Y.imp fun k t l ⟨y, ft, st⟩ => ?_⟩
  have wt := XSeq.wf_with (L := h.live) w (fun _ => id) ft st y.wf
  refine ⟨wt, st, fun x => ?_⟩
  have := y.live x
  rw [XSeq.without_live, XSeq.without_live] at this
  simp only [List.length_take, Nat.min_eq_left (Nat.le_of_lt l)] at this
  simp only [newly, Bool.and_eq_true, Bool.not_eq_true']
  constructor
  · rintro ⟨a, b⟩
    rcases this.1 ⟨b, a⟩ with ⟨z, z'⟩ | z
    · rw [z] at z'; cases z'
    · exact z
  · intro z
    exact (this.2 (.inr z)).symm

theorem ctor_lost (I : LInv S L h) {vs : List T} {k : Nat} (e : exec (.ctorVals vs) k h = .ok (.thrown, t)) :
    LInv S (fun x => L x || newly h t x) t ∧ (∀ x, h.live x = true → Same h t x) ∧ ∀ x, newly h t x = true ↔ ∃ j, j < k ∧ x = h.fresh + 1 + j := by
  obtain ⟨h', X⟩ := ctor_vals_anywhere I.wf vs
  rcases X.cases k with ⟨_, x⟩ | ⟨_, t', x, wt, st, n⟩
  · rw [e] at x; cases x
  · rw [e] at x; cases x
    refine ⟨⟨.env I.reach (XSeq.env_newly st wt), wt, fun x l => ?_⟩, st, n⟩
    rcases Bool.or_eq_true_iff.1 l with l | l
    · rw [(st x (I.live x l)).live]; exact I.live x l
    · exact (Bool.and_eq_true_iff.1 l).1

theorem LInv.copy_eq (I : LInv S L h) (hd : S.Exists d) (k : Nat) : exec (.copyOf d) k h = exec (.ctorVals ((S.get d).map Prod.snd)) k h := by
  have e := XList.copy_eq I.reach hd k
  obtain ⟨h', _, X⟩ := ctor_vals_points I.reach ((S.get d).map Prod.snd)
  rcases X.cases k with ⟨_, x⟩ | ⟨_, t, x, _⟩
  all_goals exact (XSeq.DL.framedT_exec _).agree (XSeq.DL.framedT_exec _) I.below (e.trans x) x

/-- What a constructor constructs from. -/
def ctorVals? (S : State T) : Call T → List T
  | .copyOf d => (S.get d).map Prod.snd
  | .ctorN n v => List.replicate n v
  | .ctorVals vs => vs
  | _ => []

theorem LInv.ctor_eq (I : LInv S L h) {q : Call T} (lg : Legal S q) (cq : Constructs q) (k : Nat) : exec q k h = exec (.ctorVals (ctorVals? S q)) k h := by
  cases q with
  | copyOf d => exact I.copy_eq lg k
  | ctorN n v => rw [ctorN_eq]; rfl
  | ctorVals vs => rfl
  | _ => exact cq.elim

/-! ## One call, whatever was lost before -/

theorem LInv.returns_or_throws (I : LInv S L h) (q : Call T) (lg : Legal S q) (k : Nat) :
    (∃ h' k', exec q k h = .ok (.ret () k', h') ∧ LInv (spec S h.fresh q) L h' ∧ ∀ x, L x = true → Same h h' x) ∨
    (∃ t S', ¬ Constructs q ∧ exec q k h = .ok (.thrown, t) ∧ Interrupted S h.fresh k q S' ∧ LInv S' L t ∧ ∀ x, L x = true → Same h t x) ∨
    (∃ t, Constructs q ∧ k < (ctorVals? S q).length ∧ exec q k h = .ok (.thrown, t) ∧ LInv S (fun x => L x || newly h t x) t ∧
      (∀ x, h.live x = true → Same h t x) ∧ ∀ x, newly h t x = true ↔ ∃ j, j < k ∧ x = h.fresh + 1 + j) := by
  by_cases cq : Constructs q
  · obtain ⟨m, e, R'⟩ := call_returns I.reach q lg
    obtain ⟨h', X⟩ := ctor_vals_anywhere I.wf (ctorVals? S q)
    rcases X.cases k with ⟨_, x⟩ | ⟨l, t, x, _⟩
    · left
      have x' := x
      rw [← I.ctor_eq lg cq k] at x'
      refine ⟨h', _, x', ?_⟩
      -- the same call without the lost cells
      have Z : ∃ k', exec q k (without h L) = .ok (.ret () k', m) ∨ ∃ t, exec q k (without h L) = .ok (.thrown, t) := by
        cases q with
        | copyOf d =>
          obtain ⟨m', e', Y⟩ := copy_ctor_points I.reach lg (reach_shows I.reach lg)
          rw [e] at e'; cases e'
          rcases Y.cases k with ⟨_, y⟩ | ⟨_, t, y, _⟩
          · exact ⟨_, .inl y⟩
          · exact ⟨0, .inr ⟨t, y⟩⟩
        | ctorN n v =>
          obtain ⟨m', e', Y⟩ := ctor_n_points I.reach n v
          rw [e] at e'; cases e'
          rcases Y.cases k with ⟨_, y⟩ | ⟨_, t, y, _⟩
          · exact ⟨_, .inl y⟩
          · exact ⟨0, .inr ⟨t, y⟩⟩
        | ctorVals vs =>
          obtain ⟨m', e', Y⟩ := ctor_vals_points I.reach vs
          rw [e] at e'; cases e'
          rcases Y.cases k with ⟨_, y⟩ | ⟨_, t, y, _⟩
          · exact ⟨_, .inl y⟩
          · exact ⟨0, .inr ⟨t, y⟩⟩
        | _ => exact cq.elim
      obtain ⟨k', z | ⟨t, z⟩⟩ := Z
      · obtain ⟨h2, q2, e2, f2, s2⟩ := (XSeq.DL.framedT_exec q k).out L h I.below _ _ z
        rw [x'] at q2; cases q2
        exact ⟨I.next (by rw [e2]; exact R') f2 s2, s2⟩
      · obtain ⟨h2, q2, _⟩ := (XSeq.DL.framedT_exec q k).out L h I.below _ _ z
        rw [x'] at q2; cases q2
    · obtain ⟨a, b, c⟩ := ctor_lost I x
      exact .inr (.inr ⟨t, cq, l, by rw [I.ctor_eq lg cq k]; exact x, a, b, c⟩)
  · rcases call_outcome I.reach q lg cq k with ⟨m, k', e, _, R'⟩ | ⟨m, S', e, i, R'⟩
    · obtain ⟨h2, q2, e2, f2, s2⟩ := (XSeq.DL.framedT_exec q k).out L h I.below _ _ e
      exact .inl ⟨h2, k', q2, I.next (by rw [e2]; exact R') f2 s2, s2⟩
    · obtain ⟨h2, q2, e2, f2, s2⟩ := (XSeq.DL.framedT_exec q k).out L h I.below _ _ e
      exact .inr (.inl ⟨h2, S', cq, q2, i, I.next (by rw [e2]; exact R') f2 s2, s2⟩)

theorem LInv.shows (I : LInv S L h) (hc : S.Exists c) : Shows h c (S.get c) :=
  (XSeq.DL.framed_entries c).reads I.below (reach_shows I.reach hc)

theorem shows_without (I : LInv S L h) (hc : S.Exists c) (s : Shows h c es) : Shows (without h L) c es := by
  have a := I.shows hc
  have := a.inj s
  subst this
  exact reach_shows I.reach hc

theorem interrupted_exists {S₁ S₂ : State T} {a : Addr} {k : Nat} {q : Call T} (i₁ : Interrupted S a k q S₁) (i₂ : Interrupted S a k q S₂)
    (x : S₂.Exists c) : S₁.Exists c := by
  have eq : S₁ = S₂ → S₁.Exists c := fun e => e ▸ x
  cases q with
  | merge c' d' lt =>
    obtain ⟨j₁, l₁, rfl⟩ := i₁
    obtain ⟨j₂, l₂, rfl⟩ := i₂
    by_cases e : c = d'
    · subst e; exact put_exists _ _ _
    · obtain ⟨s, q⟩ := x
      rw [put_other _ _ e] at q
      by_cases e' : c = c'
      · subst e'; exact ⟨_, by rw [put_other _ _ e]; exact put_same _ _ _⟩
      · rw [put_other _ _ e'] at q
        exact ⟨s, by rw [put_other _ _ e, put_other _ _ e']; exact q⟩
  | pushFront c v => exact eq (i₁.trans i₂.symm)
  | pushBack c v => exact eq (i₁.trans i₂.symm)
  | insert c i v => exact eq (i₁.trans i₂.symm)
  | insertN c i n v => exact eq (i₁.2.trans i₂.2.symm)
  | insertVals c i vs => exact eq (i₁.2.trans i₂.2.symm)
  | insertList c i d => exact eq (i₁.2.trans i₂.2.symm)
  | assign c d => exact eq (i₁.2.trans i₂.2.symm)
  | assignN c n v => exact eq (i₁.2.trans i₂.2.symm)
  | assignVals c vs => exact eq (i₁.2.trans i₂.2.symm)
  | resize c n v => exact eq (i₁.2.trans i₂.2.symm)
  | removeIf c p => exact eq (i₁.2.trans i₂.2.symm)
  | remove c eqv v => exact eq (i₁.2.trans i₂.2.symm)
  | unique c pred => exact eq (i₁.2.trans i₂.2.symm)
  | _ => exact i₁.elim

/-- **C126, C127.** The invariant of programs that lost nodes. -/
theorem LReach.inv (X : LReach S L h) : LInv S L h := by
  induction X with
  | start b =>
    have e : ∀ h : Heap T, without h (fun _ => false) = h := fun h => by simp [without]
    exact ⟨by rw [e]; exact .start b, ⟨b.fresh, b.nothing 0, fun x l => by rw [b.nothing] at l; cases l⟩, fun x l => by cases l⟩
  | @returned S L h h' q k k' _ lg e ih =>
    rcases ih.returns_or_throws q lg k with ⟨h1, k1, e1, I, _⟩ | ⟨t, S', _, e1, _⟩ | ⟨t, _, _, e1, _⟩
    · rw [e] at e1; cases e1; exact I
    · rw [e] at e1; cases e1
    · rw [e] at e1; cases e1
  | @thrown S S' L h t q k _ lg nc e i u ih =>
    rcases ih.returns_or_throws q lg k with ⟨h1, k1, e1, I, _⟩ | ⟨t1, S1, _, e1, i1, I, _⟩ | ⟨t, cq, _⟩
    · rw [e] at e1; cases e1
    · rw [e] at e1; cases e1
      have u' : ∀ c, S'.Exists c → Shows (without t L) c (S'.get c) := by
        intro c hc
        have key : ∀ c, S1.Exists c → Shows t c (S1.get c) := fun c hc => I.shows hc
        by_cases g : S1.Exists c
        · have := (key c g).inj (u c hc)
          rw [← this]; exact reach_shows I.reach g
        · exfalso
          exact g (interrupted_exists i1 i hc)
      have := interrupted_unique i1 i I.reach u'
      rw [← this]; exact I
    · exact absurd cq nc
  | @lost S L h t q k _ lg cq e ih =>
    rcases ih.returns_or_throws q lg k with ⟨h1, k1, e1, I, _⟩ | ⟨t1, S1, nc, _⟩ | ⟨t1, _, _, e1, I, _⟩
    · rw [e] at e1; cases e1
    · exact absurd cq nc
    · rw [e] at e1; cases e1; exact I
  | env _ e ih => exact ih.env e

/-! ## What a client can rely on -/

/-- **C126, C127.** Programs with exceptions never get stuck: every legal call, constructors included, returns or throws, and the program goes on. A
constructor that throws at element `k` loses exactly the `k` nodes it made. -/
theorem LReach.goes_on (X : LReach S L h) (q : Call T) (lg : Legal S q) (k : Nat) :
    (∃ h' k', exec q k h = .ok (.ret () k', h') ∧ LReach (spec S h.fresh q) L h') ∨
    (∃ t S', exec q k h = .ok (.thrown, t) ∧ LReach S' L t ∧ Interrupted S h.fresh k q S') ∨
    (∃ t, exec q k h = .ok (.thrown, t) ∧ Constructs q ∧ LReach S (fun x => L x || newly h t x) t ∧
      ∀ x, newly h t x = true ↔ ∃ j, j < k ∧ x = h.fresh + 1 + j) := by
  rcases X.inv.returns_or_throws q lg k with ⟨h1, k1, e1, I, _⟩ | ⟨t1, S1, nc, e1, i1, I, _⟩ | ⟨t, cq, _, e1, _, _, n⟩
  · exact .inl ⟨h1, k1, e1, .returned q k k1 X lg e1⟩
  · exact .inr (.inl ⟨t1, S1, e1, .thrown q k X lg nc e1 i1 fun c hc => I.shows hc, i1⟩)
  · exact .inr (.inr ⟨t, e1, cq, .lost q k X lg cq e1, n⟩)

/-- **C126, C127.** After any history of calls that returned or threw, every list answers every observer as the specification says: the nodes lost by constructors
are seen nowhere. -/
theorem LReach.observes (X : LReach S L h) (hc : S.Exists c) : Observes h c (S.get c) := by
  have I := X.inv
  have o := observes_shown I.reach hc (reach_shows I.reach hc)
  exact ⟨(XSeq.DL.framed_entries c).reads I.below o.forward, (XSeq.DL.framed_entriesBackward c).reads I.below o.backward,
    (XSeq.DL.framed_size c).reads I.below o.size, (XSeq.DL.framed_empty c).reads I.below o.empty,
    fun e he => (XSeq.DL.framed_front c).reads I.below (o.front e he), fun e he => (XSeq.DL.framed_back c).reads I.below (o.back e he)⟩

/-- **C126, C127.** After any such history the storage in use is the lists, their elements, and the nodes lost by constructors that threw, and no node is two
of these: nothing but constructors that throw ever loses storage. -/
theorem LReach.storage (X : LReach S L h) (x : Addr) :
    (h.live x = true ↔ L x = true ∨ ∃ c, S.Exists c ∧ (x = c ∨ x ∈ (S.get c).map Prod.fst)) ∧
    (L x = true → ∀ c, S.Exists c → x ≠ c ∧ x ∉ (S.get c).map Prod.fst) := by
  have I := X.inv
  have own : ∀ c, S.Exists c → x = c ∨ x ∈ (S.get c).map Prod.fst → L x = false ∧ h.live x = true := by
    rintro c ⟨s, q⟩ m
    rw [get_some q] at m
    exact XSeq.without_live.1 (iface.live (I.reach.world.own c s q) x (List.mem_cons.2 m))
  refine ⟨⟨fun l => ?_, ?_⟩, fun l c hc => ?_⟩
  · cases g : L x with
    | true => exact .inl rfl
    | false =>
      obtain ⟨c, s, q, m⟩ := I.reach.world.tight x (by rw [XSeq.live_without g]; exact l)
      refine .inr ⟨c, ⟨s, q⟩, ?_⟩
      rw [get_some q]
      exact List.mem_cons.1 m
  · rintro (l | ⟨c, hc, m⟩)
    · exact I.live x l
    · exact (own c hc m).2
  · refine ⟨fun e => ?_, fun m => ?_⟩
    · have := (own c hc (.inl e)).1; rw [l] at this; cases this
    · have := (own c hc (.inr m)).1; rw [l] at this; cases this

/-- When every list is destroyed, what is left in use is exactly what constructors that threw lost; without such constructors, nothing. -/
theorem LReach.all_destroyed (X : LReach S L h) (none : ∀ c, ¬ S.Exists c) (x : Addr) : h.live x = L x := by
  have := (X.storage x).1
  cases g : L x with
  | true => exact this.2 (.inl g)
  | false =>
    cases l : h.live x with
    | false => rfl
    | true =>
      rcases this.1 l with q | ⟨c, hc, _⟩
      · rw [g] at q; cases q
      · exact absurd hc (none c)

/-- A lost node is never touched again: not by a call that returns and not by one that throws. -/
theorem LReach.lost_stay (X : LReach S L h) (q : Call T) (lg : Legal S q) {k : Nat} {o : Out Unit} (e : exec q k h = .ok (o, h')) {x : Addr} (l : L x = true) :
    Same h h' x := by
  have I := X.inv
  rcases I.returns_or_throws q lg k with ⟨h1, k1, e1, _, s⟩ | ⟨t1, S1, nc, e1, i1, _, s⟩ | ⟨t, cq, _, e1, _, s, n⟩
  · rw [e] at e1; cases e1; exact s x l
  · rw [e] at e1; cases e1; exact s x l
  · rw [e] at e1; cases e1; exact s x (I.live x l)

/-- Programs in which no constructor throws lose nothing. -/
theorem XReach.lreach (X : XReach S h) : LReach S (fun _ => false) h := by
  induction X with
  | start b => exact .start b
  | returned q k k' _ lg nc e ih => exact .returned q k k' ih lg e
  | thrown q k _ lg nc e i u ih => exact .thrown q k ih lg nc e i u
  | env _ e ih => exact .env ih e

/-- The hypotheses are met: a constructor throws at its third element, then a list is built; two nodes are lost and the list is as it should be. -/
example : ∃ (S : State Nat) (L : Addr → Bool) (h : Heap Nat) (c x y : Addr), LReach S L h ∧ S.Exists c ∧ (S.get c).map Prod.snd = [1, 2] ∧
    L x = true ∧ L y = true ∧ x ≠ y := by
  have X := LReach.start (T := Nat) (h := blank Nat) ⟨fun _ => rfl, Nat.zero_lt_one⟩
  obtain ⟨h1, Y⟩ := ctor_vals_anywhere X.inv.wf [4, 5, 6]
  obtain ⟨t, e, _, _, n⟩ := Y.throws 2 (by decide)
  have X1 := LReach.lost (.ctorVals [4, 5, 6]) 2 X trivial trivial e
  rcases X1.goes_on (.ctorVals [1, 2]) trivial 2 with ⟨h', k', _, X2⟩ | ⟨_, _, _, _, i⟩ | ⟨t2, e2, _⟩
  · refine ⟨_, _, h', t.fresh, (blank Nat).fresh + 1 + 0, (blank Nat).fresh + 1 + 1, X2, put_exists _ _ _, ?_, ?_, ?_, ?_⟩
    · exact congrArg (List.map Prod.snd) (put_get (T := Nat) (fun _ => none) t.fresh (fresh (t.fresh + 1) [1, 2]))
    · show (false || _) = true
      rw [(n _).2 ⟨0, by decide, rfl⟩]; rfl
    · show (false || _) = true
      rw [(n _).2 ⟨1, by decide, rfl⟩]; rfl
    · intro e; cases e
  · exact i.elim
  · obtain ⟨h2, Z⟩ := ctor_vals_anywhere X1.inv.wf [1, 2]
    have := Z.returns 0
    rw [show [1, 2].length + 0 = 2 from rfl, e2] at this; cases this

end Verif.Exc.XList
