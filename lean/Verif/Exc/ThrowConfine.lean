import Verif.Exc.SeqConfine
import Verif.Exc.ListLost
import Verif.Exc.FwdLost
import Verif.Exc.BwdLost
import Verif.Exc.LazyProps
/-!
# C161: also a call that throws accesses only the memory of the containers it names

C158 for the model with exceptions: whichever copy, comparison or allocation of a call throws, and whatever calls threw before.
-/
set_option linter.unusedVariables false
set_option linter.unusedSimpArgs false
namespace Verif.Seq
open Verif Verif.Exc Verif.Exc.XSeq
open Verif.Seq.DList (Arg)
variable {T σ α : Type}

theorem onlyState_congr {S : Addr → Option σ} {N N' : Addr → Prop} {c : Addr} (e : N c ↔ N' c) : onlyState S N c = onlyState S N' c := by
  unfold onlyState
  by_cases a : N c
  · rw [if_pos a, if_pos (e.1 a)]
  · rw [if_neg a, if_neg (fun b => a (e.2 b))]

/-- A program that destroys all containers but those of `N` leaves the memory that has only these. -/
theorem reach_part {I : Iface T σ} {R : (Addr → Option σ) → Heap T → Prop} (world : ∀ {S h}, R S h → World I h S)
    (env : ∀ {S h h'}, R S h → Env h h' → R S h')
    (drop : ∀ {S h c s}, R S h → S c = some s → ∃ h', R (fun x => if x = c then none else S x) h' ∧ ∀ x, x < h.fresh → x ∉ I.cells c s → Same h h' x)
    {S : Addr → Option σ} {h : Heap T} (r : R S h) (N : Addr → Prop) : R (onlyState S N) (h.part (CellsOf I S N)) := by
  classical
  have W := world r
  have main : ∀ n : Nat, ∃ h1, R (onlyState S fun c => N c ∨ n ≤ c) h1 ∧ ∀ x, CellsOf I S (fun c => N c ∨ n ≤ c) x → Same h h1 x := by
    intro n
    induction n with
    | zero =>
      refine ⟨h, ?_, fun x _ => ⟨rfl, rfl, rfl, rfl, rfl⟩⟩
      have : (onlyState S fun c => N c ∨ 0 ≤ c) = S := by funext c; exact onlyState_of (.inr (Nat.zero_le c))
      rw [this]; exact r
    | succ n ih =>
      obtain ⟨h1, r1, sm⟩ := ih
      have sub : ∀ c, N c ∨ n + 1 ≤ c → N c ∨ n ≤ c := fun c a => a.imp id fun b => Nat.le_of_succ_le b
      by_cases tr : N n ∨ S n = none
      · have : (onlyState S fun c => N c ∨ n + 1 ≤ c) = (onlyState S fun c => N c ∨ n ≤ c) := by
          funext c
          by_cases cn : c = n
          · subst cn
            rcases tr with tr | tr
            · rw [onlyState_of (.inl tr), onlyState_of (.inl tr)]
            · unfold onlyState; rw [tr]; simp
          · exact onlyState_congr ⟨sub c, fun a => a.imp id fun b => Nat.lt_of_le_of_ne b (Ne.symm cn)⟩
        rw [this]
        exact ⟨h1, r1, fun x ⟨c, s, nc, q, m⟩ => sm x ⟨c, s, sub c nc, q, m⟩⟩
      · have nn : ¬ N n := fun a => tr (.inl a)
        cases q : S n with
        | none => exact absurd (.inr q) tr
        | some s =>
          have q1 : onlyState S (fun c => N c ∨ n ≤ c) n = some s := (onlyState_of (.inr (Nat.le_refl n))).trans q
          obtain ⟨h2, r2, s2⟩ := drop r1 q1
          have : (onlyState S fun c => N c ∨ n + 1 ≤ c) = (fun x => if x = n then none else onlyState S (fun c => N c ∨ n ≤ c) x) := by
            funext c
            by_cases cn : c = n
            · subst cn
              rw [if_pos rfl]
              unfold onlyState
              rw [if_neg]
              rintro (a | a)
              · exact nn a
              · exact absurd a (Nat.not_succ_le_self c)
            · rw [if_neg cn]
              exact onlyState_congr ⟨sub c, fun a => a.imp id fun b => Nat.lt_of_le_of_ne b (Ne.symm cn)⟩
          rw [this]
          refine ⟨h2, r2, fun x ⟨c, s', nc, q', m⟩ => ?_⟩
          have a := sm x ⟨c, s', sub c nc, q', m⟩
          have cn : c ≠ n := by
            rintro rfl
            rcases nc with b | b
            · exact nn b
            · exact absurd b (Nat.not_succ_le_self c)
          have lx : h1.live x = true := by rw [a.live]; exact I.live (W.own c s' q') x m
          have b := s2 x ((world r1).wf.used x lx) (fun m' => W.disj c s' n s q' q cn x m m')
          exact ⟨b.1.trans a.1, b.2.trans a.2, b.3.trans a.3, b.4.trans a.4, b.5.trans a.5⟩
  obtain ⟨h1, r1, sm⟩ := main h.fresh
  have same : (onlyState S fun c => N c ∨ h.fresh ≤ c) = onlyState S N := by
    funext c
    cases q : S c with
    | none => simp [onlyState, q]
    | some s =>
      have lt : c < h.fresh := W.wf.used c (I.live (W.own c s q) c (I.self c s))
      exact onlyState_congr ⟨fun a => a.elim id fun b => absurd b (Nat.not_le_of_lt lt), .inl⟩
  rw [same] at r1
  refine env r1 ⟨fun x l => ?_, fun x l => ?_, part_wf W.wf _⟩
  · obtain ⟨c, s, q, m⟩ := (world r1).tight x l
    obtain ⟨nc, q⟩ := onlyState_some q
    have a := sm x ⟨c, s, .inl nc, q, m⟩
    have b : Same h (h.part (CellsOf I S N)) x := part_same ⟨c, s, nc, q, m⟩
    exact ⟨b.1.trans a.1.symm, b.2.trans a.2.symm, b.3.trans a.3.symm, b.4.trans a.4.symm, b.5.trans a.5.symm⟩
  · cases z : (h.part (CellsOf I S N)).live x with
    | false => rfl
    | true =>
      simp only [Heap.part, Bool.and_eq_true, decide_eq_true_eq] at z
      obtain ⟨c, s, nc, q, m⟩ := z.2
      have a := sm x ⟨c, s, .inl nc, q, m⟩
      rw [a.live, z.1] at l
      cases l

theorem without_nothing (h : Heap T) : without h (fun _ => false) = h := by simp [without]

/-- Lost cells belong to no container. -/
theorem part_without {I : Iface T σ} {S : Addr → Option σ} {h : Heap T} {L : Addr → Bool} (W : World I (without h L) S) (N : Addr → Prop) :
    (without h L).part (CellsOf I S N) = h.part (CellsOf I S N) := by
  unfold Heap.part without
  congr 1
  funext x
  by_cases m : CellsOf I S N x
  · obtain ⟨c, s, n, q, hx⟩ := m
    have := I.live (W.own c s q) x hx
    simp only [without] at this
    simp [this]
    rcases Bool.and_eq_true_iff.1 this with ⟨a, b⟩
    simp [a, b]
  · simp [m]

/-! ## `ttl::list` -/
namespace DList
theorem Reach.part {S : State T} {h : Heap T} (R : Reach S h) (N : Addr → Prop) : Reach (onlyState S N) (h.part (CellsOf iface S N)) := by
  refine reach_part (R := Reach) (fun r => r.world) (fun r e => .env r e) (fun {S : State T} {h c s} r q => ?_) R N
  obtain ⟨h', e, _⟩ := step_ok r.world (.destroy c) ⟨s, q⟩
  refine ⟨h', ?_, fun x lx nx => ?_⟩
  · exact .step (.destroy c) r ⟨s, q⟩ e
  · obtain ⟨_, _, h2, _, e2, _, ff⟩ := call_confined r (.destroy c) ⟨s, q⟩
    rw [e] at e2; cases e2
    refine ff x lx ?_
    have mi := mine_iff (.destroy c) (S : State T)
    refine fun m' => ?_
    have m' := mi ▸ m'
    obtain ⟨d, s', hd, q', m⟩ := m'
    simp only [Call.args, List.mem_singleton] at hd
    subst hd
    rw [q] at q'; cases q'
    exact nx m

/-- **C161, `ttl::list`.** -/
theorem throw_confined {S : State T} {L : Addr → Bool} {h : Heap T} (X : XList.LReach S L h) (q : Call T) (lg : Legal S q) (k : Nat) :
    Confined (XList.exec q k) h (q.Mine S) := by
  have I := X.inv
  have W := I.reach.world
  rw [mine_iff]
  have P := Reach.part I.reach (· ∈ q.args)
  rw [part_without W] at P
  have lg' := legal_congr (S' := onlyState S (· ∈ q.args)) (fun c hc => onlyState_of hc) lg
  have J : XList.LInv (onlyState S (· ∈ q.args)) (fun _ => false) (h.part (CellsOf iface S (· ∈ q.args))) := ⟨by rw [without_nothing]; exact P, P.world.wf, fun x l => by cases l⟩
  rcases J.returns_or_throws q lg' k with ⟨_, _, e, _⟩ | ⟨_, _, _, e, _⟩ | ⟨_, _, _, e, _⟩
  all_goals exact Confined.of_framed (DL.framedT_exec q k) I.wf e

/-- **C161, `ttl::list`, two calls.** One finds its memory as if the other one, that returned or threw, had not run. -/
theorem throws_apart {S : State T} {L : Addr → Bool} {h : Heap T} (X : XList.LReach S L h) (q1 q2 : Call T) (l1 : Legal S q1)
    (d : ∀ c ∈ q1.args, c ∉ q2.args) :
    (∀ x, q1.Mine S x → ¬ q2.Mine S x) ∧ ∀ k o h', XList.exec q1 k h = .ok (o, h') → ∀ x, q2.Mine S x → Same h h' x := by
  have I := X.inv
  have W := I.reach.world
  refine ⟨fun x a => ?_, fun k o h' e x b => ?_⟩
  · rw [mine_iff] at a ⊢
    exact (World.apart W d a).1
  · obtain ⟨r, m, h2, e1, e2, _, ff⟩ := throw_confined X q1 l1 k
    rw [e] at e2; cases e2
    rw [mine_iff] at b
    have z := World.apart W (fun c n1 n2 => d c n2 n1) b
    refine ff x z.2 ?_
    rw [mine_iff]
    exact z.1

open Verif.Exc.XList Verif.Seq.ListProps in
/-- The hypotheses are met: a constructor throws at its third element and loses two nodes, the list 1, 2 is built, and inserting 8 and 9 throws at the copy
of 9. -/
example : ∃ (S : State Nat) (L : Addr → Bool) (h t : Heap Nat) (c x : Addr), LReach S L h ∧ L x = true ∧ Legal S (.insertVals c 1 [8, 9]) ∧
    XList.exec (.insertVals c 1 [8, 9]) 1 h = .ok (.thrown, t) := by
  have X := LReach.start (T := Nat) (h := blank Nat) ⟨fun _ => rfl, Nat.zero_lt_one⟩
  obtain ⟨h1, Y⟩ := ctor_vals_anywhere X.inv.wf [4, 5, 6]
  obtain ⟨t, e, _, _, n⟩ := Y.throws 2 (by decide)
  have X1 := LReach.lost (.ctorVals [4, 5, 6]) 2 X trivial trivial e
  rcases X1.goes_on (.ctorVals [1, 2]) trivial 2 with ⟨h', k', _, X2⟩ | ⟨_, _, _, _, i⟩ | ⟨t2, e2, _⟩
  · have lg : Legal (spec (fun _ => none) t.fresh (.ctorVals [1, 2])) (.insertVals t.fresh 1 [8, 9]) := by
      refine ⟨⟨_, by simp [spec, State.put, upd]; rfl⟩, ?_⟩
      have := congrArg List.length (put_get (T := Nat) (fun _ => none) t.fresh (fresh (t.fresh + 1) [1, 2]))
      exact Nat.le_of_lt (Nat.lt_of_lt_of_eq (show 1 < 2 by decide) this.symm)
    obtain ⟨_, _, _, Z⟩ := call_points_work X2.inv.reach _ lg (fun a => a)
    obtain ⟨_, _, _, _, Z'⟩ := (XSeq.DL.framedT_exec _).points X2.inv.below Z
    obtain ⟨t3, e3, _⟩ := Z'.throws 1 (by show 1 < 2; decide)
    refine ⟨_, _, h', t3, t.fresh, (blank Nat).fresh + 1 + 0, X2, ?_, lg, e3⟩
    show (false || _) = true
    rw [(n _).2 ⟨0, by decide, rfl⟩]; rfl
  · exact i.elim
  · obtain ⟨h2, Z⟩ := ctor_vals_anywhere X1.inv.wf [1, 2]
    have := Z.returns 0
    rw [show [1, 2].length + 0 = 2 from rfl, e2] at this; cases this
end DList

/-! ## `ttl::forward_list` -/
namespace FList
theorem Reach.part {S : State T} {h : Heap T} (R : Reach S h) (N : Addr → Prop) : Reach (onlyState S N) (h.part (CellsOf iface S N)) := by
  refine reach_part (R := Reach) (fun r => r.world) (fun r e => .env r e) (fun {S : State T} {h c s} r q => ?_) R N
  obtain ⟨h', e, _⟩ := step_ok r.world (.destroy c) ⟨s, q⟩
  refine ⟨h', ?_, fun x lx nx => ?_⟩
  · exact .step (.destroy c) r ⟨s, q⟩ e
  · obtain ⟨_, _, h2, _, e2, _, ff⟩ := call_confined r (.destroy c) ⟨s, q⟩
    rw [e] at e2; cases e2
    refine ff x lx ?_
    have mi := mine_iff (.destroy c) (S : State T)
    refine fun m' => ?_
    have m' := mi ▸ m'
    obtain ⟨d, s', hd, q', m⟩ := m'
    simp only [Call.Names, Call.ref, Call.args, List.mem_singleton] at hd
    obtain rfl : d = c := by simpa using hd
    rw [q] at q'; cases q'
    exact nx m

/-- **C161, `ttl::forward_list`.** -/
theorem throw_confined {S : State T} {L : Addr → Bool} {h : Heap T} (X : XFwd.LReach S L h) (q : Call T) (lg : Legal S q) (k : Nat) :
    Confined (XFwd.exec q k) h (q.Mine S) := by
  have I := X.inv
  have W := I.reach.world
  rw [mine_iff]
  have P := Reach.part I.reach (q.Names S)
  rw [part_without W] at P
  have lg' := legal_congr (S' := onlyState S (q.Names S)) (fun c hc => onlyState_of (.inl hc)) (fun a e v rv => by
    cases a with
    | ext w => exact rv
    | elem a =>
      obtain ⟨c, es, q1, q2⟩ := rv
      exact ⟨c, es, (onlyState_of (.inr ⟨_, e, es, q1, List.mem_map_of_mem (f := Prod.fst) q2⟩)).trans q1, q2⟩) lg
  have J : XFwd.LInv (onlyState S (q.Names S)) (fun _ => false) (h.part (CellsOf iface S (q.Names S))) := ⟨by rw [without_nothing]; exact P, P.world.wf, fun x l => by cases l⟩
  rcases J.returns_or_throws q lg' k with ⟨_, _, e, _⟩ | ⟨_, _, _, e, _⟩ | ⟨_, _, _, e, _⟩
  all_goals exact Confined.of_framed (FL.framedT_exec q k) I.wf e

/-- **C161, `ttl::forward_list`, two calls.** One finds its memory as if the other one, that returned or threw, had not run. -/
theorem throws_apart {S : State T} {L : Addr → Bool} {h : Heap T} (X : XFwd.LReach S L h) (q1 q2 : Call T) (l1 : Legal S q1)
    (d : ∀ c, q1.Names S c → ¬ q2.Names S c) :
    (∀ x, q1.Mine S x → ¬ q2.Mine S x) ∧ ∀ k o h', XFwd.exec q1 k h = .ok (o, h') → ∀ x, q2.Mine S x → Same h h' x := by
  have I := X.inv
  have W := I.reach.world
  refine ⟨fun x a => ?_, fun k o h' e x b => ?_⟩
  · rw [mine_iff] at a ⊢
    exact (World.apart W d a).1
  · obtain ⟨r, m, h2, e1, e2, _, ff⟩ := throw_confined X q1 l1 k
    rw [e] at e2; cases e2
    rw [mine_iff] at b
    have z := World.apart W (fun c n1 n2 => d c n2 n1) b
    refine ff x z.2 ?_
    rw [mine_iff]
    exact z.1

open Verif.Exc.XFwd Verif.Seq.FwdProps in
/-- The hypotheses are met: a constructor throws at its third element and loses two nodes, the list 1, 2 is built, and inserting 8 and 9 throws at the copy
of 9. -/
example : ∃ (S : State Nat) (L : Addr → Bool) (h t : Heap Nat) (c x : Addr), LReach S L h ∧ L x = true ∧ Legal S (.insertVals c 1 [8, 9]) ∧
    XFwd.exec (.insertVals c 1 [8, 9]) 1 h = .ok (.thrown, t) := by
  have X := LReach.start (T := Nat) (h := blank Nat) ⟨fun _ => rfl, Nat.zero_lt_one⟩
  obtain ⟨h1, Y⟩ := ctor_vals_anywhere X.inv.wf [4, 5, 6]
  obtain ⟨t, e, _, _, n⟩ := Y.throws 2 (by decide)
  have X1 := LReach.lost (.ctorVals [4, 5, 6]) 2 X trivial trivial e
  rcases X1.goes_on (.ctorVals [1, 2]) trivial 2 with ⟨h', k', _, X2⟩ | ⟨_, _, _, _, i⟩ | ⟨t2, e2, _⟩
  · have lg : Legal (spec (fun _ => none) t.fresh (.ctorVals [1, 2])) (.insertVals t.fresh 1 [8, 9]) := by
      refine ⟨put_exists _ _ _, ?_⟩
      have := congrArg List.length (put_get (T := Nat) (fun _ => none) t.fresh (DList.fresh (t.fresh + 1) [1, 2]))
      exact Nat.le_of_lt (Nat.lt_of_lt_of_eq (show 1 < 2 by decide) this.symm)
    obtain ⟨_, _, _, Z⟩ := call_points_work X2.inv.reach _ lg (fun a => a)
    obtain ⟨_, _, _, _, Z'⟩ := (XSeq.FL.framedT_exec _).points X2.inv.below Z
    obtain ⟨t3, e3, _⟩ := Z'.throws 1 (by show 1 < 2; decide)
    refine ⟨_, _, h', t3, t.fresh, (blank Nat).fresh + 1 + 0, X2, ?_, lg, e3⟩
    show (false || _) = true
    rw [(n _).2 ⟨0, by decide, rfl⟩]; rfl
  · exact i.elim
  · obtain ⟨h2, Z⟩ := ctor_vals_anywhere X1.inv.wf [1, 2]
    have := Z.returns 0
    rw [show [1, 2].length + 0 = 2 from rfl, e2] at this; cases this
end FList

/-! ## `ttl::backward_list` -/
namespace BList
theorem Reach.part {S : State T} {h : Heap T} (R : Reach S h) (N : Addr → Prop) : Reach (onlyState S N) (h.part (CellsOf iface S N)) := by
  refine reach_part (R := Reach) (fun r => r.world) (fun r e => .env r e) (fun {S : State T} {h c s} r q => ?_) R N
  obtain ⟨h', e, _⟩ := step_ok r.world (.destroy c) ⟨s, q⟩
  refine ⟨h', ?_, fun x lx nx => ?_⟩
  · exact .step (.destroy c) r ⟨s, q⟩ e
  · obtain ⟨_, _, h2, _, e2, _, ff⟩ := call_confined r (.destroy c) ⟨s, q⟩
    rw [e] at e2; cases e2
    refine ff x lx ?_
    have mi := mine_iff (.destroy c) (S : State T)
    refine fun m' => ?_
    have m' := mi ▸ m'
    obtain ⟨d, s', hd, q', m⟩ := m'
    simp only [Call.Names, Call.ref, Call.args, List.mem_singleton] at hd
    obtain rfl : d = c := by simpa using hd
    rw [q] at q'; cases q'
    exact nx m

/-- **C161, `ttl::backward_list`.** -/
theorem throw_confined {S : State T} {L : Addr → Bool} {h : Heap T} (X : XBwd.LReach S L h) (q : Call T) (lg : Legal S q) (k : Nat) :
    Confined (XBwd.exec q k) h (q.Mine S) := by
  have I := X.inv
  have W := I.reach.world
  rw [mine_iff]
  have P := Reach.part I.reach (q.Names S)
  rw [part_without W] at P
  have lg' := legal_congr (S' := onlyState S (q.Names S)) (fun c hc => onlyState_of (.inl hc)) (fun a e v rv => by
    cases a with
    | ext w => exact rv
    | elem a =>
      obtain ⟨c, es, q1, q2⟩ := rv
      exact ⟨c, es, (onlyState_of (.inr ⟨_, e, es, q1, List.mem_map_of_mem (f := Prod.fst) q2⟩)).trans q1, q2⟩) lg
  have J : XBwd.LInv (onlyState S (q.Names S)) (fun _ => false) (h.part (CellsOf iface S (q.Names S))) := ⟨by rw [without_nothing]; exact P, P.world.wf, fun x l => by cases l⟩
  rcases J.returns_or_throws q lg' k with ⟨_, _, e, _⟩ | ⟨_, _, _, e, _⟩ | ⟨_, _, e, _⟩
  all_goals exact Confined.of_framed (BL.framedT_exec q k) I.wf e

/-- **C161, `ttl::backward_list`, two calls.** One finds its memory as if the other one, that returned or threw, had not run. -/
theorem throws_apart {S : State T} {L : Addr → Bool} {h : Heap T} (X : XBwd.LReach S L h) (q1 q2 : Call T) (l1 : Legal S q1)
    (d : ∀ c, q1.Names S c → ¬ q2.Names S c) :
    (∀ x, q1.Mine S x → ¬ q2.Mine S x) ∧ ∀ k o h', XBwd.exec q1 k h = .ok (o, h') → ∀ x, q2.Mine S x → Same h h' x := by
  have I := X.inv
  have W := I.reach.world
  refine ⟨fun x a => ?_, fun k o h' e x b => ?_⟩
  · rw [mine_iff] at a ⊢
    exact (World.apart W d a).1
  · obtain ⟨r, m, h2, e1, e2, _, ff⟩ := throw_confined X q1 l1 k
    rw [e] at e2; cases e2
    rw [mine_iff] at b
    have z := World.apart W (fun c n1 n2 => d c n2 n1) b
    refine ff x z.2 ?_
    rw [mine_iff]
    exact z.1

open Verif.Exc.XBwd Verif.Seq.BwdProps in
/-- The hypotheses are met: a constructor throws at its third element and loses two nodes, the list 1, 2 is built, and inserting 8 and 9 throws at the copy
of 9. -/
example : ∃ (S : State Nat) (L : Addr → Bool) (h t : Heap Nat) (c x : Addr), LReach S L h ∧ L x = true ∧ Legal S (.insertVals c 1 [8, 9]) ∧
    XBwd.exec (.insertVals c 1 [8, 9]) 1 h = .ok (.thrown, t) := by
  have X := LReach.start (T := Nat) (h := blank Nat) ⟨fun _ => rfl, Nat.zero_lt_one⟩
  obtain ⟨h1, Y⟩ := plain_anywhere X.inv.wf (q := .ctorVals [4, 5, 6]) (n := 3) rfl
  obtain ⟨t, e, _, _, n⟩ := Y.throws 2 (by decide)
  have X1 := LReach.lost (.ctorVals [4, 5, 6]) 2 X trivial trivial e
  rcases X1.goes_on (.ctorVals [1, 2]) trivial 2 with ⟨h', k', _, X2⟩ | ⟨_, _, _, _, i⟩ | ⟨t2, e2, _⟩
  · have lg : Legal (spec (fun _ => none) t.fresh (.ctorVals [1, 2])) (.insertVals t.fresh 1 [8, 9]) := by
      refine ⟨put_exists _ _ _ _, ?_⟩
      have := congrArg List.length (put_get (T := Nat) (fun _ => none) t.fresh (DList.fresh (t.fresh + 1) [1, 2]) t.fresh)
      exact Nat.le_of_lt (Nat.lt_of_lt_of_eq (show 1 < 2 by decide) this.symm)
    obtain ⟨_, _, _, Z⟩ := call_points_work X2.inv.reach _ lg (fun a => a)
    obtain ⟨_, _, _, _, Z'⟩ := (XSeq.BL.framedT_exec _).points X2.inv.below Z
    obtain ⟨t3, e3, _⟩ := Z'.throws 1 (by show 1 < 2; decide)
    refine ⟨_, _, h', t3, t.fresh, (blank Nat).fresh + 1 + 0, X2, ?_, lg, e3⟩
    show (false || _) = true
    rw [(n _).2 ⟨0, by decide, rfl⟩]; rfl
  · exact i.elim
  · obtain ⟨h2, Z⟩ := plain_anywhere X1.inv.wf (q := .ctorVals [1, 2]) (n := 2) rfl
    have := Z.returns 0
    rw [show 2 + 0 = 2 from rfl, e2] at this; cases this
end BList

/-! ## `ttl::lazy_queue` -/
namespace LQueue
/-- **C161, `ttl::lazy_queue`.** -/
theorem throw_confined {triv : Bool} {S : State T} {Q : XLq.Stales T} {L : Addr → Prop} {h : Heap T} (X : XLq.XReach triv S Q L h) (q : Call T)
    (lg : Legal triv S q) (k : Nat) : Confined (XLq.exec triv q k) h (q.Mine S) := by
  have I := X.inv
  have W := I.world
  rw [mine_iff]
  have P := World.part W (q.Names S)
  rw [part_without W] at P
  have lg' := legal_congr (S' := onlyState S (q.Names S)) (fun c hc => onlyState_of (.inl hc)) (fun a e v rv => by
    cases a with
    | ext w => exact rv
    | elem a =>
      obtain ⟨c, es, q1, q2⟩ := rv
      exact ⟨c, es, (onlyState_of (.inr ⟨_, e, es, q1, List.mem_map_of_mem (f := Prod.fst) q2⟩)).trans q1, q2⟩) lg
  obtain ⟨_, _, _, Y⟩ := XLq.call_points P q lg'
  rcases Y.cases k with ⟨_, e⟩ | ⟨_, t, e, _⟩
  all_goals exact Confined.of_framed (XLq.framedT_exec triv q k) I.wf e

/-- **C161, `ttl::lazy_queue`, two calls.** One finds its memory as if the other one, that returned or threw, had not run. -/
theorem throws_apart {triv : Bool} {S : State T} {Q : XLq.Stales T} {L : Addr → Prop} {h : Heap T} (X : XLq.XReach triv S Q L h) (q1 q2 : Call T) (l1 : Legal triv S q1)
    (d : ∀ c, q1.Names S c → ¬ q2.Names S c) :
    (∀ x, q1.Mine S x → ¬ q2.Mine S x) ∧ ∀ k o h', XLq.exec triv q1 k h = .ok (o, h') → ∀ x, q2.Mine S x → Same h h' x := by
  have I := X.inv
  have W := I.world
  refine ⟨fun x a => ?_, fun k o h' e x b => ?_⟩
  · rw [mine_iff] at a ⊢
    exact (World.apart W d a).1
  · obtain ⟨r, m, h2, e1, e2, _, ff⟩ := throw_confined X q1 l1 k
    rw [e] at e2; cases e2
    rw [mine_iff] at b
    have z := World.apart W (fun c n1 n2 => d c n2 n1) b
    refine ff x z.2 ?_
    rw [mine_iff]
    exact z.1

/-- The hypotheses are met: a queue holding 1 and 2, and inserting 8 and 9 throws. -/
example : ∃ (S : State Nat) (h t : Heap Nat) (c : Addr), XLq.XReach true S XLq.noQueue (fun _ => False) h ∧ Legal true S (.insertVals c 1 [8, 9]) ∧
    XLq.exec true (.insertVals c 1 [8, 9]) 1 h = .ok (.thrown, t) := by
  obtain ⟨S, h, c, d, es, fs, R, hc, hd, ne, s1, s2, e1, e2⟩ := LazyProps.exists_queues (triv := true) [1, 2] [3]
  have X := XLq.reach_xreach R
  have g : S.get c = es := XLq.got X hc s1
  have lg : Legal true S (.insertVals c 1 [8, 9]) := ⟨hc, by
    have := congrArg List.length e1
    rw [List.length_map] at this
    exact Nat.le_of_lt (Nat.lt_of_lt_of_eq (show 1 < 2 by decide) (g ▸ this.symm))⟩
  rcases XLq.call_outcome X _ lg 1 with ⟨l, _⟩ | ⟨_, t, _, _, _, e, _⟩
  · exact absurd (Nat.le_trans (Nat.le_add_right 2 _) l) (by decide)
  · exact ⟨S, h, t, c, X, lg, e⟩
end LQueue

end Verif.Seq
