import Verif.Exc.VmProps
/-!
# Properties of `ttl::vector_map` under exceptions (C138): histories
-/
set_option linter.unusedVariables false
set_option linter.unusedSimpArgs false
set_option linter.unusedSectionVars false
namespace Verif.Exc.XVM
open Verif Verif.Vec Verif.Vec.VecProps Verif.VMap Verif.Exc
open Verif.VMap.VMProps (VCall VRet vspec VLegal pos Present addKey pos_le pos_lt pos_at absent_pos addKey_some found)
open Verif.Exc.XVec (Fine Readable XSteps XReach Inserted Hurt Unmoved Outcome insertionPoints Broken shows_unique xshown)
variable {K V : Type} [DecidableEq K] {h h' t : VMem K V} {S : State (K × V)} {c d i : Nat} {s : VS (K × V)} {dk : K} {dv : V} {vs ws : List (K × V)}

/-- `VXSteps dk dv S h S' h'`: a client program goes on from memory `h` with vector maps `S`, its calls (of `vector_map` and of `vector`) return or throw, at
any points, and it ends in memory `h'` with vector maps `S'`. After a call has thrown, the program goes on with the maps that can still be read. -/
inductive VXSteps (dk : K) (dv : V) (S : State (K × V)) (h : VMem K V) : State (K × V) → VMem K V → Prop where
  | nil : VXSteps dk dv S h S h
  | returned {S' : State (K × V)} {h' h'' : VMem K V} {r : VRet} {k' : Nat} (k : Nat) (q : VCall K V) : VXSteps dk dv S h S' h' → VLegal S' q →
      vexec dk dv q k h' = .ok (.ret r k', h'') → VXSteps dk dv S h (vspec dk dv S' h'.fresh q) h''
  | thrown {S' S'' : State (K × V)} {h' h'' : VMem K V} (k : Nat) (q : VCall K V) : VXSteps dk dv S h S' h' → VLegal S' q →
      vexec dk dv q k h' = .ok (.thrown, h'') → Readable S' h'' S'' → VXSteps dk dv S h S'' h''

/-- The memories that client programs reach. -/
def VXReach (dk : K) (dv : V) (S : State (K × V)) (h : VMem K V) : Prop := VXSteps dk dv (fun _ => none) empty₀ S h

theorem readable_self (F : Fine S h) : Readable S h S := .of F (fun _ => id) (fun d ⟨s, e⟩ n => by rw [e] at n; cases n)

/-- The map that a call inserts into, erases from or assigns to. -/
def target : VCall K V → Option Nat
  | .base q => XVec.target q
  | .insert c _ | .index c _ | .put c _ _ | .setAt c _ _ | .eraseKey c _ => some c

/-- A throwing call on maps is like nothing, or like a throwing call on vectors, or like an insertion that returns. -/
theorem thrown_steps (F : Fine S h) {q : VCall K V} (lg : VLegal S q) {k : Nat} {S' : State (K × V)} (o : Thrown dk dv S h q k t) (r : Readable S t S') :
    XSteps (dk, dv) S h S' t := by
  have same : t = h → XSteps (dk, dv) S h S' t := by
    rintro rfl
    rw [r.unique (readable_self F)]; exact .nil
  cases q with
  | base q => exact .thrown k q .nil lg o r
  | insert c a =>
    obtain ⟨e, ev, o1, o2⟩ := o
    obtain ⟨⟨s, hc⟩, va⟩ := lg
    by_cases l : k < compared e.1 (S.vals c)
    · exact same (o1 l)
    · have := (o2 (by omega)).2
      rw [vals_some hc] at this
      exact .thrown _ (.insert c s.vals.length a) .nil (legal_append hc va) this r
  | index c key =>
    obtain ⟨s, hc⟩ := lg
    by_cases l : k < compared key (S.vals c) + 4
    · exact same (o.1 l)
    · have := (o.2 (by omega)).2
      rw [vals_some hc] at this
      exact .thrown _ (.insert c s.vals.length (.ext (key, dv))) .nil (legal_append hc trivial) this r
  | put c key v =>
    obtain ⟨s, hc⟩ := lg
    by_cases l : k < compared key (S.vals c) + 4
    · exact same (o.2.1 l)
    · obtain ⟨n, y | ⟨x, y⟩⟩ := o.2.2 (by omega)
      · rw [vals_some hc] at y
        exact .thrown _ (.insert c s.vals.length (.ext (key, dv))) .nil (legal_append hc trivial) y r
      · rw [vals_some hc] at y
        have X : XSteps (dk, dv) S h (spec (dk, dv) S h.fresh (.insert c s.vals.length (.ext (key, dv)))) t :=
          .returned _ (.insert c s.vals.length (.ext (key, dv))) .nil (legal_append hc trivial) y
        obtain ⟨u, hu, _, oth⟩ := addKey_some (dk := dk) (dv := dv) hc h.fresh (k := key) (a := .ext (key, dv)) rfl
        simp only [addKey, if_neg n] at hu oth
        rw [vals_some hc] at hu oth
        have : S' = spec (dk, dv) S h.fresh (.insert c s.vals.length (.ext (key, dv))) := by
          refine r.eq (XSteps.fine F X) ?_ ?_
          · rintro d ⟨w, hw⟩
            by_cases e : d = c
            · subst e; exact ⟨s, hc⟩
            · rw [oth d e] at hw; exact ⟨w, hw⟩
          · rintro d ⟨w, hw⟩ z
            by_cases e : d = c
            · subst e; rw [hu] at z; cases z
            · rw [oth d e, hw] at z; cases z
        rw [this]; exact X
  | setAt c key v => exact same o
  | eraseKey c key =>
    obtain ⟨⟨s, hc⟩, p⟩ := lg
    by_cases l : k < compared key (S.vals c)
    · exact same (o.1 l)
    · exact .thrown _ (.erase c (pos key (S.vals c))) .nil ⟨⟨s, hc⟩, pos_lt.2 p⟩ (o.2 (by omega)) r

/-- Programs over vector maps with exceptions reach only memories that programs over vectors with exceptions reach. -/
theorem VXSteps.vec {S' : State (K × V)} (F : Fine S h) (X : VXSteps dk dv S h S' h') : XSteps (dk, dv) S h S' h' := by
  induction X with
  | nil => exact .nil
  | returned k q _ lg e ih =>
    have F' := XSteps.fine F ih
    obtain ⟨n, r, h2, P, _, R⟩ := call_points (dk := dk) (dv := dv) F' q lg
    rcases P.cases k with ⟨_, x⟩ | ⟨_, t, x, o⟩
    · rw [e] at x; cases x; exact steps_trans ih R
    · rw [e] at x; cases x
  | thrown k q _ lg e r ih =>
    have F' := XSteps.fine F ih
    obtain ⟨n, r', h2, P, _, R⟩ := call_points (dk := dk) (dv := dv) F' q lg
    rcases P.cases k with ⟨_, x⟩ | ⟨_, t, x, o⟩
    · rw [e] at x; cases x
    · rw [e] at x; cases x
      exact steps_trans ih (thrown_steps F' lg o r)

theorem VXReach.vec (R : VXReach dk dv S h) : XReach (dk, dv) S h :=
  VXSteps.vec (XReach.fine (dv := (dk, dv)) .nil) R

/-- **C138.** Whatever may have thrown before, every legal call returns and does what it should, or throws and leaves what `Thrown` says; it is never
undefined. -/
theorem call_outcome (R : VXReach dk dv S h) (q : VCall K V) (lg : VLegal S q) (k : Nat) :
    (∃ r k' h', vexec dk dv q k h = .ok (.ret r k', h') ∧ VMProps.vexec dk dv q h = .ok (r, h') ∧ VXReach dk dv (vspec dk dv S h.fresh q) h') ∨
    (∃ t, vexec dk dv q k h = .ok (.thrown, t) ∧ Thrown dk dv S h q k t) := by
  obtain ⟨n, r, h', P, e, X⟩ := call_points (dk := dk) (dv := dv) R.vec.fine q lg
  rcases P.cases k with ⟨_, x⟩ | ⟨_, t, x, o⟩
  · exact .inl ⟨r, _, h', x, e, .returned k q R lg x⟩
  · exact .inr ⟨t, x, o⟩

theorem thrown_of (R : VXReach dk dv S h) {q : VCall K V} (lg : VLegal S q) {k : Nat} (e : vexec dk dv q k h = .ok (.thrown, t)) : Thrown dk dv S h q k t := by
  rcases call_outcome R q lg k with ⟨_, _, _, x, _⟩ | ⟨t', x, o⟩
  · rw [e] at x; cases x
  · rw [e] at x; cases x; exact o

/-- What a throwing call concerns. -/
theorem thrown_readable (R : XReach (dk, dv) S h) {q : VCall K V} (lg : VLegal S q) {k : Nat} (o : Thrown dk dv S h q k t) :
    ∃ S', Readable S t S' ∧ (∀ d, target q ≠ some d → S' d = S d) ∧ ∀ c, target q = some c → S'.Exists c ∨ destroy c t = .ub .lifetime := by
  have same : t = h → (∀ c, target q = some c → S.Exists c) →
      ∃ S', Readable S t S' ∧ (∀ d, target q ≠ some d → S' d = S d) ∧ ∀ c, target q = some c → S'.Exists c ∨ destroy c t = .ub .lifetime := by
    rintro rfl y
    exact ⟨S, readable_self R.fine, fun _ _ => rfl, fun c e => .inl (y c e)⟩
  have like : ∀ {q' : Call (K × V)} {k' : Nat}, Legal S q' → XVec.exec (dk, dv) q' k' h = .ok (.thrown, t) → XVec.target q' = target q →
      ∃ S', Readable S t S' ∧ (∀ d, target q ≠ some d → S' d = S d) ∧ ∀ c, target q = some c → S'.Exists c ∨ destroy c t = .ub .lifetime := by
    intro q' k' l x y
    obtain ⟨S', _, r, _, z1, z2⟩ := R.goes_on l x
    rw [y] at z1 z2
    exact ⟨S', r, z1, z2⟩
  cases q with
  | base q => exact like lg o rfl
  | insert c a =>
    obtain ⟨e, ev, o1, o2⟩ := o
    obtain ⟨⟨s, hc⟩, va⟩ := lg
    by_cases l : k < compared e.1 (S.vals c)
    · exact same (o1 l) (fun c' e => by cases e; exact ⟨s, hc⟩)
    · have := (o2 (by omega)).2
      rw [vals_some hc] at this
      exact like (q' := .insert c s.vals.length a) (legal_append hc va) this rfl
  | index c key =>
    obtain ⟨s, hc⟩ := lg
    by_cases l : k < compared key (S.vals c) + 4
    · exact same (o.1 l) (fun c' e => by cases e; exact ⟨s, hc⟩)
    · have := (o.2 (by omega)).2
      rw [vals_some hc] at this
      exact like (q' := .insert c s.vals.length (.ext (key, dv))) (legal_append hc trivial) this rfl
  | put c key v =>
    obtain ⟨s, hc⟩ := lg
    by_cases l : k < compared key (S.vals c) + 4
    · exact same (o.2.1 l) (fun c' e => by cases e; exact ⟨s, hc⟩)
    · obtain ⟨n, y | ⟨x, y⟩⟩ := o.2.2 (by omega)
      · rw [vals_some hc] at y
        exact like (q' := .insert c s.vals.length (.ext (key, dv))) (legal_append hc trivial) y rfl
      · rw [vals_some hc] at y
        have X : XSteps (dk, dv) S h (spec (dk, dv) S h.fresh (.insert c s.vals.length (.ext (key, dv)))) t :=
          .returned _ (.insert c s.vals.length (.ext (key, dv))) .nil (legal_append hc trivial) y
        obtain ⟨u, hu, _, oth⟩ := addKey_some (dk := dk) (dv := dv) hc h.fresh (k := key) (a := .ext (key, dv)) rfl
        simp only [addKey, if_neg n] at hu oth
        rw [vals_some hc] at hu oth
        refine ⟨_, .of (XSteps.fine R.fine X) ?_ ?_, ?_, ?_⟩
        · rintro d ⟨w, hw⟩
          by_cases e : d = c
          · subst e; exact ⟨s, hc⟩
          · rw [oth d e] at hw; exact ⟨w, hw⟩
        · rintro d ⟨w, hw⟩ z
          by_cases e : d = c
          · subst e; rw [hu] at z; cases z
          · rw [oth d e, hw] at z; cases z
        · intro d ne
          exact oth d (by rintro rfl; exact ne rfl)
        · intro c' e
          cases e
          exact .inl ⟨u, hu⟩
  | setAt c key v => exact same o (fun c' e => by cases e; exact lg.1)
  | eraseKey c key =>
    obtain ⟨⟨s, hc⟩, p⟩ := lg
    by_cases l : k < compared key (S.vals c)
    · exact same (o.1 l) (fun c' e => by cases e; exact ⟨s, hc⟩)
    · exact like (q' := .erase c (pos key (S.vals c))) ⟨⟨s, hc⟩, pos_lt.2 p⟩ (o.2 (by omega)) rfl

/-- **C138.** A program can go on after every exception: with all maps but the one that the call was for, and with that one too unless the exception has
ruined it. -/
theorem VXReach.goes_on (R : VXReach dk dv S h) {q : VCall K V} (lg : VLegal S q) {k : Nat} (e : vexec dk dv q k h = .ok (.thrown, t)) :
    ∃ S', VXReach dk dv S' t ∧ Readable S t S' ∧ (∀ d, target q ≠ some d → S' d = S d) ∧ ∀ c, target q = some c → S'.Exists c ∨ destroy c t = .ub .lifetime := by
  obtain ⟨S', r, y, z⟩ := thrown_readable R.vec lg (thrown_of R lg e)
  exact ⟨S', .thrown k q R lg e r, r, y, z⟩

/-- **C138.** Whatever call throws, at whatever point, every map that it does not insert into, erase from or assign to answers every observer as before,
and the program can go on with it. -/
theorem throw_others_kept (R : VXReach dk dv S h) {q : VCall K V} (lg : VLegal S q) {k : Nat} (e : vexec dk dv q k h = .ok (.thrown, t)) :
    ∃ S', VXReach dk dv S' t ∧ ∀ d, target q ≠ some d → S.Exists d → S'.Exists d ∧ ∀ vs cap p, Shows h d vs cap p → Shows t d vs cap p := by
  obtain ⟨S', R', _, y, _⟩ := R.goes_on lg e
  refine ⟨S', R', fun d ne hd => ?_⟩
  have z := y d ne
  refine ⟨?_, fun vs cap p o => ?_⟩
  · obtain ⟨s, hs⟩ := hd
    exact ⟨s, z.trans hs⟩
  · obtain ⟨e1, e2⟩ := xshown R.vec hd o
    have := XVec.xreach_shows R'.vec (z.trans e1)
    obtain ⟨x, f⟩ := p
    simp only at e2; subst e2; exact this

/-- Programs without exceptions are among these. -/
theorem reach_xreach (R : VMProps.VReach dk dv S h) : VXReach dk dv S h := by
  induction R with
  | start => exact .nil
  | step q R lg e ih =>
    obtain ⟨n, r, h2, P, e2, _⟩ := call_points (dk := dk) (dv := dv) ih.vec.fine q lg
    rw [e] at e2; cases e2
    exact .returned n q ih lg (P.returns 0)

/-! ## Lookups -/

theorem observed (R : VXReach dk dv S h) (hc : S.Exists c) (o : Observes h c vs) : ∃ s, S c = some s ∧ s.vals = vs ∧ IsVec h c s := by
  obtain ⟨s, hs⟩ := hc
  have v := R.vec.fine.isVec hs
  exact ⟨s, hs, (isVec_observes v).inj o, v⟩

/-- **C138.** `find(k)` and `at(k)`: a comparison that throws leaves everything as it was. Only the comparisons up to the first entry of `k` may throw; if
none does the result is that of `find` without exceptions. -/
theorem find_throw (R : VXReach dk dv S h) (hc : S.Exists c) (o : Observes h c vs) (key : K) :
    ∃ p, VMap.find c key h = .ok (p, h) ∧ Points (find c key) h (min (pos key vs + 1) vs.length) p h (fun _ t => t = h) := by
  obtain ⟨s, hs, rfl, v⟩ := observed R hc o
  exact ⟨_, VMProps.find_ok v key, find_points v key⟩

/-- **C138.** `count(k)` of an absent key. -/
theorem count_absent_throw (R : VXReach dk dv S h) (hc : S.Exists c) (o : Observes h c vs) {key : K} (n : ¬ Present key vs) :
    Points (count c key) h vs.length 0 h (fun _ t => t = h) := by
  obtain ⟨s, hs, rfl, v⟩ := observed R hc o
  refine Points.call_seq (Vec.begin_ok v) ?_
  rw [countLoop]
  have X := findKey_points v key s.vals 0 (List.drop_zero ..) (Nat.zero_le _)
  rw [compared_absent n, absent_pos n, Nat.zero_add] at X
  refine Points.seq (m := 0) X (Points.call_seq (end_ok v) ?_)
  rw [if_neg (by simp)]
  exact Points.pure_

theorem countLoop_throws (v : IsVec h c s) {key : K} {i : Nat} {x : V} (hi : s.vals[i]? = some (key, x)) : ∀ k n, countLoop c key ⟨s.blk, i⟩ n k h = .ok (.thrown, h) := by
  have hl := (List.getElem?_eq_some_iff.1 hi).1
  have e0 : s.vals.drop i = (key, x) :: s.vals.drop (i + 1) := by
    rw [List.drop_eq_getElem_cons hl]
    congr 1
    rw [List.getElem?_eq_getElem hl] at hi; exact Option.some.inj hi
  have X := findKey_points v key _ i e0 (Nat.le_of_lt hl)
  have e1 : pos key ((key, x) :: s.vals.drop (i + 1)) = 0 := by simp [pos, List.findIdx_cons]
  rw [compared_cons, if_pos rfl, e1, Nat.add_zero] at X
  intro k
  induction k with
  | zero =>
    intro n
    obtain ⟨t, y, rfl⟩ := X.throws 0 (by omega)
    rw [countLoop]
    simp only [Thr.bind_app, y, Res.bind_ok, Thr.after_thrown]
  | succ k ih =>
    intro n
    have y := X.returns k
    rw [Nat.add_comm] at y
    rw [countLoop]
    have ne : (⟨s.blk, i⟩ : Ptr) ≠ ⟨s.blk, s.vals.length⟩ := by simp; omega
    simp only [Thr.bind_app, y, Res.bind_ok, Thr.after_ret, Thr.call_app, end_ok v, Thr.ite_app, if_pos ne, ih]

/-- **C138.** `count(k)` of a present key never returns (`Verif.VMap.VMProps.count_present_diverges`), so if ever a comparison throws, it throws - and changes
nothing. -/
theorem count_present_throw (R : VXReach dk dv S h) (hc : S.Exists c) (o : Observes h c vs) {key : K} (p : Present key vs) (k : Nat) :
    count c key k h = .ok (.thrown, h) := by
  obtain ⟨s, hs, rfl, v⟩ := observed R hc o
  obtain ⟨x, hx⟩ := pos_at p
  have X := findKey_points v key s.vals 0 (List.drop_zero ..) (Nat.zero_le _)
  rw [Nat.zero_add, compared_present p] at X
  have hl := pos_lt.2 p
  have ne : (⟨s.blk, pos key s.vals⟩ : Ptr) ≠ ⟨s.blk, s.vals.length⟩ := by simp; omega
  simp only [count, Thr.bind_app, Thr.call_app, Vec.begin_ok v, Res.bind_ok, Thr.after_ret]
  rw [countLoop]
  rcases X.cases k with ⟨_, y⟩ | ⟨_, t, y, rfl⟩
  · simp only [Thr.bind_app, y, Res.bind_ok, Thr.after_ret, Thr.call_app, end_ok v, Thr.ite_app, if_pos ne, countLoop_throws v hx]
  · simp only [Thr.bind_app, y, Res.bind_ok, Thr.after_thrown]

/-! ## Insertion -/

/-- **C138, strong guarantee.** `insert` of a key that is present, `c[k]` and `c[k] = v` with a present key, and `c.at(k) = v`: if they throw, nothing has
changed. -/
theorem present_key_strong (R : VXReach dk dv S h) (hc : S.Exists c) (o : Observes h c vs) {key : K} (p : Present key vs) (v : V) {k : Nat} :
    (vexec dk dv (.insert c (.ext (key, v))) k h = .ok (.thrown, t) → t = h) ∧ (vexec dk dv (.index c key) k h = .ok (.thrown, t) → t = h) ∧
      (vexec dk dv (.put c key v) k h = .ok (.thrown, t) → t = h) ∧ (vexec dk dv (.setAt c key v) k h = .ok (.thrown, t) → t = h) := by
  obtain ⟨s, hs, rfl, _⟩ := observed R hc o
  have pp : Present key (S.vals c) := by rw [vals_some hs]; exact p
  refine ⟨fun e => ?_, fun e => ?_, fun e => ?_, fun e => ?_⟩
  · obtain ⟨e0, ev, o1, o2⟩ := thrown_of R (q := .insert c (.ext (key, v))) ⟨hc, trivial⟩ e
    cases ev
    by_cases l : k < compared key (S.vals c)
    · exact o1 l
    · exact absurd pp (o2 (by show compared key (S.vals c) ≤ k; omega)).1
  · obtain ⟨o1, o2⟩ := thrown_of R (q := .index c key) hc e
    by_cases l : k < compared key (S.vals c) + 4
    · exact o1 l
    · exact absurd pp (o2 (by omega)).1
  · exact (thrown_of R (q := .put c key v) hc e).1 pp
  · exact thrown_of R (q := .setAt c key v) ⟨hc, pp⟩ e

/-- `c` has no room for another element. -/
def Full (S : State (K × V)) (c : Nat) : Prop := S.Moves c 1

/-- A client's call that inserts one entry for `key` into `c`, and the number of operations it does before it starts inserting. -/
inductive Adds (S : State (K × V)) (c : Nat) (key : K) : VCall K V → Nat → Prop where
  | insert (a : CArg (K × V)) (e : K × V) : a.val S = some e → e.1 = key → Adds S c key (.insert c a) (compared key (S.vals c))
  | index : Adds S c key (.index c key) (compared key (S.vals c) + 4)

/-- What an insertion of an absent key does when it throws. -/
theorem adds_thrown (R : VXReach dk dv S h) {q : VCall K V} (lg : VLegal S q) {key : K} {j k : Nat} (ad : Adds S c key q j) (e : vexec dk dv q k h = .ok (.thrown, t)) :
    (k < j → t = h) ∧ (j ≤ k → ¬ Present key (S.vals c) ∧ ∃ a e, a.val S = some e ∧ e.1 = key ∧ Legal S (.insert c (S.vals c).length a) ∧ XVec.exec (dk, dv) (.insert c (S.vals c).length a) (k - j) h = .ok (.thrown, t)) := by
  have o := thrown_of R lg e
  cases ad with
  | insert a x ev ek =>
    obtain ⟨e', ev', o1, o2⟩ := o
    rw [ev] at ev'; cases ev'; subst ek
    obtain ⟨⟨s, hc⟩, va⟩ := lg
    refine ⟨o1, fun l => ⟨(o2 l).1, a, x, ev, rfl, ?_, (o2 l).2⟩⟩
    rw [vals_some hc]; exact legal_append hc va
  | index =>
    obtain ⟨s, hc⟩ := lg
    refine ⟨o.1, fun l => ⟨(o.2 l).1, .ext (key, dv), (key, dv), rfl, rfl, ?_, (o.2 l).2⟩⟩
    rw [vals_some hc]; exact legal_append hc trivial

theorem VXReach.same (R : VXReach dk dv S h) {q : VCall K V} (lg : VLegal S q) {k : Nat} (e : vexec dk dv q k h = .ok (.thrown, t)) (r : Readable S t S) : VXReach dk dv S t :=
  .thrown k q R lg e r

/-- **C138, strong guarantee.** If `insert` or `operator[]` on a full map throws, at any point, every map answers every observer as before, no element
has moved, and the program may go on. -/
theorem full_map_strong_partial (R : VXReach dk dv S h) {q : VCall K V} (lg : VLegal S q) {key : K} {j k : Nat} (ad : Adds S c key q j) (full : Full S c)
    (e : vexec dk dv q k h = .ok (.thrown, t)) : VXReach dk dv S t ∧ ∀ d, S.Exists d → ∀ vs cap p, Shows h d vs cap p → Shows t d vs cap p := by
  obtain ⟨o1, o2⟩ := adds_thrown R lg ad e
  by_cases l : k < j
  · cases o1 l
    exact ⟨R, fun _ _ _ _ _ o => o⟩
  · obtain ⟨_, a, _, _, _, lg', x⟩ := o2 (by omega)
    obtain ⟨S', R', r, st, _⟩ := R.vec.goes_on lg' x
    rw [st full] at r
    obtain ⟨_, k⟩ := XVec.growth_strong_partial R.vec (q := .insert c (S.vals c).length a) lg' full x
    exact ⟨R.same lg e r, k⟩

/-- **C138, what does not hold.** If copying an element into the new block throws, the block is lost: it stays allocated whatever the program does
afterwards. -/
theorem full_map_leaks (R : VXReach dk dv S h) {q : VCall K V} (lg : VLegal S q) {key : K} {j k : Nat} (ad : Adds S c key q j) (full : Full S c) (l : j < k)
    (e : vexec dk dv q k h = .ok (.thrown, t)) :
    ∃ b n, t.size b = some n ∧ ∀ S' h', VXSteps dk dv S t S' h' → h'.size b = some n ∧ ∀ d s, S' d = some s → s.blk ≠ b := by
  obtain ⟨_, a, _, _, _, lg', x⟩ := (adds_thrown R lg ad e).2 (by omega)
  have R' := (full_map_strong_partial R lg ad full e).1
  obtain ⟨b, n, y, z⟩ := XVec.throwing_copy_leaks R.vec (q := .insert c (S.vals c).length a) lg' full (k := k - j) ⟨full, by omega⟩ x
  exact ⟨b, n, y, fun S' h' X => z S' h' (X.vec R'.vec.fine)⟩

/-- **C138, what does not hold.** If `insert` or `operator[]` of an absent key on a map with room throws when it copies the new entry, the map cannot even
be destroyed any more. -/
theorem insert_throw_ruins (R : VXReach dk dv S h) {q : VCall K V} (lg : VLegal S q) {key : K} {j k : Nat} (ad : Adds S c key q j) (room : ¬ Full S c) (l : j ≤ k)
    (e : vexec dk dv q k h = .ok (.thrown, t)) : destroy c t = .ub .lifetime ∧ clear c t = .ub .lifetime ∧ toList c t = .ub .lifetime := by
  obtain ⟨_, a, _, _, _, lg', x⟩ := (adds_thrown R lg ad e).2 l
  obtain ⟨a1, a2, a3, _⟩ := XVec.in_place_throw_ruins (c := c) R.vec (q := .insert c (S.vals c).length a) lg' ⟨rfl, room⟩ x
  exact ⟨a1, a2, a3⟩

/-- Every insertion of an absent key can throw when it starts to insert. -/
theorem adds_can_throw (R : VXReach dk dv S h) {q : VCall K V} (lg : VLegal S q) {key : K} {j : Nat} (ad : Adds S c key q j) (n : ¬ Present key (S.vals c)) :
    ∃ t, vexec dk dv q j h = .ok (.thrown, t) := by
  have F := R.vec.fine
  have pp : ∀ s : VS (K × V), 0 < insertionPoints s s.vals.length 1 := by
    intro s; simp only [insertionPoints]; split <;> (try split) <;> omega
  cases ad with
  | insert a e ev ek =>
    subst ek
    obtain ⟨⟨s, hc⟩, va⟩ := lg
    have v := F.isVec hc
    obtain ⟨x, e', ea, ev', eg⟩ := fine_arg F va
    rw [ev] at ev'; cases ev'
    rw [vals_some hc] at n ⊢
    obtain ⟨h', X, _⟩ := append_points (dk := dk) (dv := dv) F hc va ea
    obtain ⟨t, y, _⟩ := X.throws 0 (pp s)
    have f := (find_points v e.1).returns 0
    rw [absent_pos n, Nat.add_zero] at f
    refine ⟨t, ?_⟩
    simp only [vexec, insert, Thr.bind_app, Thr.call_app, ea, eg, Res.bind_ok, Thr.after_ret, f, end_ok v, Thr.ite_app, ne_eq, not_true_eq_false, if_false, y, Thr.after_thrown]
  | index =>
    obtain ⟨s, hc⟩ := lg
    rw [vals_some hc] at n
    obtain ⟨h', X, _⟩ := index_points (dk := dk) (dv := dv) F hc key
    rw [vals_some hc]
    have := pp s
    rw [if_neg n] at X
    obtain ⟨t, y, _⟩ := X.throws (compared key s.vals + 4) (by omega)
    refine ⟨t, ?_⟩
    simp only [vexec, Thr.bind_app, y, Res.bind_ok, Thr.after_thrown]

/-- **C138, what does not hold: the most common case.** `insert` or `operator[]` of an absent key into a map with room: the copy of the entry may throw, and
then the map cannot be destroyed. -/
theorem insert_never_safe (R : VXReach dk dv S h) {q : VCall K V} (lg : VLegal S q) {key : K} {j : Nat} (ad : Adds S c key q j) (n : ¬ Present key (S.vals c)) (room : ¬ Full S c) :
    ∃ t, vexec dk dv q j h = .ok (.thrown, t) ∧ destroy c t = .ub .lifetime ∧ clear c t = .ub .lifetime ∧ toList c t = .ub .lifetime := by
  obtain ⟨t, e⟩ := adds_can_throw R lg ad n
  exact ⟨t, e, insert_throw_ruins R lg ad room (Nat.le_refl _) e⟩

/-- **C138.** `c[k] = v` of an absent key, if the assignment throws: the entry `(k, T())` is there. -/
theorem put_throw_leaves_default (R : VXReach dk dv S h) (hc : S.Exists c) (o : Observes h c vs) {key : K} (n : ¬ Present key vs) (v : V) :
    ∃ k t S', vexec dk dv (.put c key v) k h = .ok (.thrown, t) ∧ VXReach dk dv S' t ∧ S'.Exists c ∧ Observes t c (vs ++ [(key, dv)]) := by
  obtain ⟨s, hs, rfl, w⟩ := observed R hc o
  obtain ⟨h1, X, e, Y, pr, ab⟩ := index_points (dk := dk) (dv := dv) R.vec.fine hs key
  obtain ⟨u, hu, uv, _⟩ := addKey_some (dk := dk) (dv := dv) hs h.fresh (k := key) (a := .ext (key, dv)) rfl
  rw [if_neg n] at uv
  have y := X.returns 0
  rw [Nat.add_zero] at y
  have e1 : vexec dk dv (.put c key v) (compared key s.vals + (if Present key s.vals then 0 else 4 + insertionPoints s s.vals.length 1)) h = .ok (.thrown, h1) := by
    simp only [vexec, Thr.bind_app, y, Res.bind_ok, Thr.after_ret, Thr.point_zero, Thr.after_thrown]
  have ob : Observes h1 c (s.vals ++ [(key, dv)]) := by
    rw [← uv]; exact isVec_observes ((XSteps.fine R.vec.fine Y).isVec hu)
  obtain ⟨S', R', r, _, z⟩ := R.goes_on (q := .put c key v) ⟨s, hs⟩ e1
  exact ⟨_, h1, S', e1, R', ⟨u, (r c u).2 ⟨⟨s, hs⟩, isVec_shows ((XSteps.fine R.vec.fine Y).isVec hu)⟩⟩, ob⟩

/-- **C138.** What `c[k] = v` leaves when it throws: the map as it was, the entry `(k, T())` at the end, or a ruined map. -/
theorem put_throw (R : VXReach dk dv S h) (hc : S.Exists c) (o : Observes h c vs) {key : K} {v : V} {k : Nat} (e : vexec dk dv (.put c key v) k h = .ok (.thrown, t)) :
    Observes t c vs ∨ (¬ Present key vs ∧ Observes t c (vs ++ [(key, dv)])) ∨ (¬ Present key vs ∧ ¬ Full S c ∧ destroy c t = .ub .lifetime) := by
  obtain ⟨s, hs, rfl, w⟩ := observed R hc o
  have q := thrown_of R (q := .put c key v) hc e
  by_cases l : k < compared key (S.vals c) + 4
  · rw [q.2.1 l]; exact .inl o
  · obtain ⟨n, y | ⟨r, y⟩⟩ := q.2.2 (by omega)
    · have n' : ¬ Present key s.vals := by rw [vals_some hs] at n; exact n
      have lg' : Legal S (.insert c (S.vals c).length (.ext (key, dv))) := by rw [vals_some hs]; exact legal_append hs trivial
      by_cases full : Full S c
      · have := (XVec.growth_strong_partial R.vec (q := .insert c (S.vals c).length (.ext (key, dv))) lg' full y).2 c ⟨s, hs⟩ _ _ _ (isVec_shows w)
        exact .inl this.toObserves
      · exact .inr (.inr ⟨n', full, (XVec.in_place_throw_ruins (c := c) R.vec (q := .insert c (S.vals c).length (.ext (key, dv))) lg' ⟨rfl, full⟩ y).1⟩)
    · rw [vals_some hs] at n y
      have X : XSteps (dk, dv) S h (spec (dk, dv) S h.fresh (.insert c s.vals.length (.ext (key, dv)))) t :=
        .returned _ (.insert c s.vals.length (.ext (key, dv))) .nil (legal_append hs trivial) y
      obtain ⟨u, hu, uv, oth⟩ := addKey_some (dk := dk) (dv := dv) hs h.fresh (k := key) (a := .ext (key, dv)) rfl
      rw [if_neg n] at uv
      simp only [addKey, vals_some hs, if_neg n] at hu
      right; left
      exact ⟨n, by rw [← uv]; exact isVec_observes ((XSteps.fine R.vec.fine X).isVec hu)⟩

/-- **C138, what does not hold: `erase`.** `c.erase(c.find(k))` of an entry that is not the last one: copying the entries behind it down may throw, and then
the map cannot be destroyed. Before that (while keys are compared) an exception changes nothing. -/
theorem erase_throw_ruins (R : VXReach dk dv S h) (hc : S.Exists c) (o : Observes h c vs) {key : K} (p : Present key vs) :
    (∀ k t, vexec dk dv (.eraseKey c key) k h = .ok (.thrown, t) → (k ≤ pos key vs ∧ t = h) ∨ (pos key vs < k ∧ destroy c t = .ub .lifetime ∧ clear c t = .ub .lifetime ∧ toList c t = .ub .lifetime)) ∧
    (pos key vs + 1 < vs.length → ∃ t, vexec dk dv (.eraseKey c key) (pos key vs + 1) h = .ok (.thrown, t)) := by
  obtain ⟨s, hs, rfl, w⟩ := observed R hc o
  have pp : Present key (S.vals c) := by rw [vals_some hs]; exact p
  constructor
  · intro k t e
    obtain ⟨o1, o2⟩ := thrown_of R (q := .eraseKey c key) ⟨⟨s, hs⟩, pp⟩ e
    rw [vals_some hs, compared_present p] at o1 o2
    by_cases l : k ≤ pos key s.vals
    · exact .inl ⟨l, o1 (by omega)⟩
    · obtain ⟨a1, a2, a3, _⟩ := XVec.in_place_throw_ruins (c := c) R.vec (q := .erase c (pos key s.vals)) ⟨⟨s, hs⟩, by rw [vals_some hs]; exact pos_lt.2 p⟩ rfl (o2 (by omega))
      exact .inr ⟨by omega, a1, a2, a3⟩
  · intro l
    obtain ⟨t, x⟩ := XVec.erase_can_throw (dv := (dk, dv)) R.vec (i := pos key s.vals) ⟨s, hs⟩ (by rw [vals_some hs]; exact l)
    refine ⟨t, ?_⟩
    have f := (find_points w key).returns 0
    rw [compared_present p, Nat.add_zero] at f
    simp only [XVec.exec, Thr.bind_app, Thr.call_app, Res.bind_ok, Thr.after_ret, Vec.begin_ok w, ptr_add, Nat.zero_add] at x
    simp only [vexec, Thr.bind_app, f, Res.bind_ok, Thr.after_ret]
    rcases g : XVec.eraseRange c ⟨s.blk, pos key s.vals⟩ (Ptr.mk s.blk (pos key s.vals) + 1) 0 h with _ | _ | ⟨y | _, t2⟩
    · rw [ptr_add] at g; rw [g] at x; cases x
    · rw [ptr_add] at g; rw [g] at x; cases x
    · rw [ptr_add] at g; rw [g] at x; simp at x
    · rw [ptr_add] at g; rw [g] at x
      simp only [Res.bind_ok, Thr.after_thrown, Res.ok.injEq, Prod.mk.injEq, true_and] at x ⊢
      exact x

/-! ## Concrete cases -/

theorem full_iff (hc : S c = some s) : Full S c ↔ s.cap < s.vals.length + 1 := by simp only [Full, State.Moves, vals_some hc, get_some hc]

/-- Programs over vectors of pairs are programs over vector maps. -/
theorem reach_vreach (R : Reach (dk, dv) S h) : VMProps.VReach dk dv S h := by
  induction R with
  | start => exact .start
  | @step S h h' r q R lg e ih =>
    exact .step (.base q) ih lg (r := .base r) (by simp only [VMProps.vexec, Prog.bind_app, e, Res.bind_ok]; rfl)

/-- The map (5, 50), (3, 30), with room for two more, and the full map (1, 10). -/
theorem demo : ∃ (c d : Nat) (S : State (Nat × Nat)) (h : VMem Nat Nat), VXReach 0 0 S h ∧ c ≠ d ∧ S.Exists c ∧ S.Exists d ∧ Observes h c [(5, 50), (3, 30)] ∧ Observes h d [(1, 10)] ∧
    ¬ Full S c ∧ Full S d := by
  obtain ⟨c, h1, S1, p1, _, _, R1, x1, o1, _⟩ := construct_from_values (dv := (0, 0)) Reach.start [(5, 50), (3, 30)]
  obtain ⟨d, h2, S2, p2, _, nd, R2, x2, o2, k2, y2⟩ := construct_from_values (dv := (0, 0)) R1 [(1, 10)]
  have ne : c ≠ d := by rintro rfl; exact nd x1
  obtain ⟨h3, S3, p3, _, R3, x3, o3, k3, _⟩ := reserve_contract R2 (y2 c x1) (k2 c (by simp) x1 _ _ _ o1) 4
  have o3' : Shows h3 c [(5, 50), (3, 30)] 4 p3 := by simpa using o3
  have o4 : Shows h3 d [(1, 10)] 1 p2 := k3 d (by simpa using Ne.symm ne) x2 _ _ _ o2
  have hd : S3.Exists d := by
    cases g : S3 d with
    | some s => exact ⟨s, g⟩
    | none =>
      have := R3.world.only d g
      have t := o4.capacity
      simp [capacity, getObj, this] at t
  have R := reach_xreach (reach_vreach R3)
  have sc := xshown R.vec x3 o3'
  have sd := xshown R.vec hd o4
  refine ⟨c, d, S3, h3, R, ne, x3, hd, o3'.toObserves, o4.toObserves, ?_, ?_⟩
  · rw [full_iff sc.1]; simp
  · rw [full_iff sd.1]; simp

/-- `m[7]` on the map with room: the copy of the new entry throws; the other map is as before, and inserting into it throws, too, without any effect. -/
example : ∃ (c d : Nat) (h t u : VMem Nat Nat) (k : Nat), Observes h c [(5, 50), (3, 30)] ∧ vexec 0 0 (.index c 7) k h = .ok (.thrown, t) ∧ destroy c t = .ub .lifetime ∧
    Observes t d [(1, 10)] ∧ vexec 0 0 (.insert d (.ext (7, 70))) 1 t = .ok (.thrown, u) ∧ Observes u d [(1, 10)] := by
  obtain ⟨c, d, S, h, R, ne, hc, hd, oc, od, room, full⟩ := demo
  obtain ⟨sc, ec, vc, _⟩ := observed R hc oc
  obtain ⟨sd, ed, vd, wd⟩ := observed R hd od
  have n7 : ¬ Present 7 (S.vals c) := by rw [vals_some ec, vc]; simp [Present]
  obtain ⟨t, e, x, _⟩ := insert_never_safe R (q := .index c 7) hc .index n7 room
  obtain ⟨S1, R1, _, k1, _⟩ := R.goes_on (q := .index c 7) hc e
  have e1 : S1 d = some sd := (k1 d (by intro q; cases q; exact ne rfl)).trans ed
  have o1 : Observes t d [(1, 10)] := by rw [← vd]; exact isVec_observes (R1.vec.fine.isVec e1)
  have full1 : Full S1 d := by rw [full_iff e1]; rw [full_iff ed] at full; exact full
  have n8 : ¬ Present 7 (S1.vals d) := by rw [vals_some e1, vd]; simp [Present]
  have ad := Adds.insert (S := S1) (c := d) (key := 7) (.ext (7, 70)) (7, 70) rfl rfl
  have lg : VLegal S1 (.insert d (.ext (7, 70))) := ⟨⟨sd, e1⟩, trivial⟩
  obtain ⟨u, e2⟩ := adds_can_throw R1 lg ad n8
  have cm : compared 7 (S1.vals d) = 1 := by rw [compared_absent n8, vals_some e1, vd]; rfl
  rw [cm] at e2
  have := (full_map_strong_partial R1 lg ad full1 e2).2 d ⟨sd, e1⟩ _ _ _ (isVec_shows (R1.vec.fine.isVec e1))
  rw [vd] at this
  exact ⟨c, d, h, t, u, _, oc, e, x, o1, e2, this.toObserves⟩

/-- `m[7] = 70` whose assignment throws; `m.erase(m.find(5))`; `m.insert({5, 1})` -/
example : ∃ (c : Nat) (h t u : VMem Nat Nat) (k : Nat), Observes h c [(5, 50), (3, 30)] ∧ vexec 0 0 (.put c 7 70) k h = .ok (.thrown, t) ∧ Observes t c [(5, 50), (3, 30), (7, 0)] ∧
    vexec 0 0 (.eraseKey c 5) 1 h = .ok (.thrown, u) ∧ destroy c u = .ub .lifetime ∧ vexec 0 0 (.insert c (.ext (5, 1))) 0 h = .ok (.thrown, h) := by
  obtain ⟨c, d, S, h, R, ne, hc, hd, oc, od, room, full⟩ := demo
  obtain ⟨k, t, S1, e, _, _, o1⟩ := put_throw_leaves_default R hc oc (key := 7) (by simp [Present]) 70
  obtain ⟨y1, y2⟩ := erase_throw_ruins R hc oc (key := 5) ⟨50, by simp⟩
  have p0 : pos 5 [(5, 50), (3, 30)] = 0 := by simp [pos, List.findIdx_cons]
  obtain ⟨u, e2⟩ := y2 (by rw [p0]; decide)
  rw [p0] at e2
  have z : destroy c u = .ub .lifetime := by
    rcases y1 _ _ e2 with ⟨l, _⟩ | ⟨_, x, _⟩
    · rw [p0] at l; omega
    · exact x
  refine ⟨c, h, t, u, k, oc, e, o1, e2, z, ?_⟩
  obtain ⟨p, _, X⟩ := find_throw R hc oc 5
  obtain ⟨t', x, rfl⟩ := X.throws 0 (by simp [p0])
  simp only [vexec, CArg.expr, insert, Arg.get, Thr.bind_app, Thr.call_app, Prog.pure_app, Res.bind_ok, Thr.after_ret, x, Thr.after_thrown]

end Verif.Exc.XVM
