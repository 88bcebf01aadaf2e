import Verif.Map.VModel
/-!
# Properties of `ttl::vector_map`

`VReach dk dv S h`: memory `h` is the result of some client program over any number of vector maps, which may use every member function of `vector` as well
(`push_back`, `erase`, `swap`, ...), so keys need not be unique. `Observes h c vs` (`Verif.Vec.Props`) says that the elements are `vs`.
-/
set_option linter.unusedVariables false
set_option linter.unusedSimpArgs false
set_option linter.unusedSectionVars false
namespace Verif.VMap.VMProps
open Verif Verif.Vec Verif.Vec.VecProps Verif.VMap
variable {K V : Type} [DecidableEq K] {h h' : VMem K V} {S : State (K × V)} {c d i : Nat} {s : VS (K × V)} {dk : K} {dv : V} {vs ws : List (K × V)}

/-! ## Client programs -/

/-- A call: a member function of `vector`, or one of `vector_map`. -/
inductive VCall (K V : Type) where
  | base (k : Call (K × V))
  /-- `c.insert(a)` -/
  | insert (c : Nat) (a : CArg (K × V))
  /-- `c[k]` -/
  | index (c : Nat) (k : K)
  /-- `c[k] = v` -/
  | put (c : Nat) (k : K) (v : V)
  /-- `c.at(k) = v` -/
  | setAt (c : Nat) (k : K) (v : V)
  /-- `c.erase(c.find(k))` -/
  | eraseKey (c : Nat) (k : K)

/-- What a call returns. -/
inductive VRet where
  | base (r : Ret)
  | ins (p : Ptr) (new : Bool)
  | ref (p : Ptr)
  | none

/-- Run the model of the call. -/
def vexec (dk : K) (dv : V) : VCall K V → Prog (VMem K V) VRet
  | .base k => do return .base (← exec (dk, dv) k)
  | .insert c a => do
    let r ← insert c (← a.expr)
    return .ins r.1 r.2
  | .index c k => do return .ref (← index dv c k)
  | .put c k v => do
    wrSecond (← index dv c k) v
    return .none
  | .setAt c k v => do
    wrSecond (← atKey c k) v
    return .none
  | .eraseKey c k => do
    let i ← find c k
    return .base (.it (← erase c i))

/-- The position of the first entry of `k`, or the length. -/
def pos (k : K) (vs : List (K × V)) : Nat := vs.findIdx fun e => decide (k = e.1)
/-- `vs` has an entry for `k`. -/
def Present (k : K) (vs : List (K × V)) : Prop := ∃ v, (k, v) ∈ vs

instance (k : K) (vs : List (K × V)) : Decidable (Present k vs) :=
  decidable_of_iff (vs.any fun e => decide (k = e.1)) (by
    simp only [List.any_eq_true, decide_eq_true_eq, Present]
    constructor
    · rintro ⟨⟨k', v⟩, hm, rfl⟩; exact ⟨v, hm⟩
    · rintro ⟨v, hm⟩; exact ⟨_, hm, rfl⟩)

/-- The states after adding `a` at the end, unless its key is present. -/
def addKey (dk : K) (dv : V) (S : State (K × V)) (f c : Nat) (k : K) (a : CArg (K × V)) : State (K × V) :=
  if Present k (S.vals c) then S else spec (dk, dv) S f (.insert c (S.vals c).length a)

/-- The states after the call. -/
def vspec (dk : K) (dv : V) (S : State (K × V)) (f : Nat) : VCall K V → State (K × V)
  | .base k => spec (dk, dv) S f k
  | .insert c a => match a.val S with | some e => addKey dk dv S f c e.1 a | none => S
  | .index c k => addKey dk dv S f c k (.ext (k, dv))
  | .put c k v => spec (dk, dv) (addKey dk dv S f c k (.ext (k, dv))) f (.store c (pos k (S.vals c)) (.ext (k, v)))
  | .setAt c k v => spec (dk, dv) S f (.store c (pos k (S.vals c)) (.ext (k, v)))
  | .eraseKey c k => spec (dk, dv) S f (.erase c (pos k (S.vals c)))

/-- Preconditions. -/
def VLegal (S : State (K × V)) : VCall K V → Prop
  | .base k => Legal S k
  | .insert c a => S.Exists c ∧ a.Valid S
  | .index c _ => S.Exists c
  | .put c _ _ => S.Exists c
  | .setAt c k _ => S.Exists c ∧ Present k (S.vals c)
  | .eraseKey c k => S.Exists c ∧ Present k (S.vals c)

/-- Memory `h` is the result of a client program that started without vector maps. -/
inductive VReach (dk : K) (dv : V) : State (K × V) → VMem K V → Prop where
  | start : VReach dk dv (fun _ => none) Vec.empty₀
  | step {S : State (K × V)} {h h' : VMem K V} {r : VRet} (k : VCall K V) : VReach dk dv S h → VLegal S k → vexec dk dv k h = .ok (r, h') →
      VReach dk dv (vspec dk dv S h.fresh k) h'

/-! ## Lookup -/

theorem pos_le (k : K) (vs : List (K × V)) : pos k vs ≤ vs.length := List.findIdx_le_length
theorem pos_lt {k : K} {vs : List (K × V)} : pos k vs < vs.length ↔ Present k vs := by
  rw [pos, List.findIdx_lt_length]
  simp only [decide_eq_true_eq, Present]
  constructor
  · rintro ⟨⟨k', v⟩, hm, rfl⟩; exact ⟨v, hm⟩
  · rintro ⟨v, hm⟩; exact ⟨_, hm, rfl⟩
theorem pos_first {k : K} {vs : List (K × V)} {i : Nat} {v : V} (hi : vs[i]? = some (k, v)) (first : ∀ (j : Nat) e, j < i → vs[j]? = some e → e.1 ≠ k) : pos k vs = i := by
  have hl := (List.getElem?_eq_some_iff.1 hi).1
  rw [pos, List.findIdx_eq hl]
  refine ⟨by rw [List.getElem?_eq_some_iff] at hi; rw [hi.2]; simp, fun j hj => ?_⟩
  simp only [decide_eq_false_iff_not]
  exact fun q => first j _ hj (List.getElem?_eq_getElem _) q.symm
theorem pos_at {k : K} {vs : List (K × V)} (p : Present k vs) : ∃ v, vs[pos k vs]? = some (k, v) := by
  have hl := pos_lt.2 p
  have := List.findIdx_getElem (w := hl)
  simp only [decide_eq_true_eq] at this
  exact ⟨(vs[pos k vs]).2, by rw [List.getElem?_eq_getElem hl]; exact congrArg some (Prod.ext this.symm rfl)⟩

theorem findKey_ok (v : IsVec h c s) (k : K) : ∀ (zs : List (K × V)) (i : Nat), s.vals.drop i = zs → i ≤ s.vals.length →
    findKey c k ⟨s.blk, i⟩ h = .ok (⟨s.blk, i + pos k zs⟩, h) := by
  intro zs
  induction zs with
  | nil =>
    intro i q l
    have : i = s.vals.length := by have := congrArg List.length q; simp at this; omega
    subst this
    rw [findKey]; simp only [Prog.bind_app, end_ok v, Res.bind_ok, ne_eq, not_true_eq_false, if_false]; rfl
  | cons z zs ih =>
    intro i q l
    have l1 : i < s.vals.length := by have := congrArg List.length q; simp at this; omega
    rw [List.drop_eq_getElem_cons l1] at q
    simp only [List.cons.injEq] at q
    have hz : s.vals[i]? = some z := by rw [List.getElem?_eq_getElem l1, q.1]
    have ne : (⟨s.blk, i⟩ : Ptr) ≠ ⟨s.blk, s.vals.length⟩ := by simp; omega
    rw [findKey]
    simp only [Prog.bind_app, end_ok v, Res.bind_ok, Prog.ite_app, if_pos ne, (v.holds hz).read]
    by_cases e : k = z.1
    · simp only [if_pos e, Prog.pure_app, pos, List.findIdx_cons, decide_eq_true e, cond_true, Nat.add_zero]
    · simp only [if_neg e, ptr_add, ih (i + 1) q.2 l1, pos, List.findIdx_cons, decide_eq_false e, cond_false, Nat.add_assoc, Nat.add_comm 1]

theorem find_ok (v : IsVec h c s) (k : K) : find c k h = .ok (⟨s.blk, pos k s.vals⟩, h) := by
  simp only [find, Prog.bind_app, Vec.begin_ok v, Res.bind_ok, findKey_ok v k s.vals 0 (List.drop_zero ..) (Nat.zero_le _), Nat.zero_add]

theorem found (k : K) (s : VS (K × V)) : ((⟨s.blk, pos k s.vals⟩ : Ptr) ≠ ⟨s.blk, s.vals.length⟩) ↔ Present k s.vals := by
  rw [← pos_lt]; have := pos_le k s.vals; simp; omega

theorem absent_pos {k : K} (n : ¬ Present k vs) : pos k vs = vs.length := by
  have := pos_le k vs
  have := mt pos_lt.1 n; omega

/-! ## Every call is a sequence of vector calls -/

theorem exec_insert_end (v : IsVec h c s) (a : CArg (K × V)) {x : Arg (K × V)} (ea : a.expr h = .ok (x, h)) :
    exec (dk, dv) (.insert c s.vals.length a) h = (do return Ret.it (← Vec.insert c ⟨s.blk, s.vals.length⟩ x) : Prog (VMem K V) Ret) h := by
  simp only [exec, Prog.bind_app, ea, Res.bind_ok, Vec.begin_ok v, ptr_add, Nat.zero_add]

/-- `insert`, `operator[]`: what they do to the vector. -/
theorem add_ok (R : Reach (dk, dv) S h) (hc : S c = some s) {a : CArg (K × V)} (va : a.Valid S) {e : K × V} (ev : a.val S = some e) :
    ∃ h' x, a.expr h = .ok (x, h) ∧ x.get h = .ok (e, h) ∧ Reach (dk, dv) (addKey dk dv S h.fresh c e.1 a) h' ∧
      (Present e.1 s.vals → h' = h) ∧
      (¬ Present e.1 s.vals → Vec.insert c ⟨s.blk, s.vals.length⟩ x h = .ok (⟨((spec (dk, dv) S h.fresh (.insert c s.vals.length a)).get c).blk, s.vals.length⟩, h')) := by
  obtain ⟨x, e', ea, ev', get, _⟩ := arg_ok R.world va
  rw [ev] at ev'; cases ev'
  have v := R.world.vec c s hc
  simp only [addKey, vals_some hc]
  by_cases p : Present e.1 s.vals
  · exact ⟨h, x, ea, get h (Heap.Sub.refl h), by rw [if_pos p]; exact R, fun _ => rfl, fun q => absurd p q⟩
  · obtain ⟨h', q, R'⟩ := call_returns R (.insert c s.vals.length a) ⟨⟨s, hc⟩, by rw [vals_some hc]; exact Nat.le_refl _, va, .inr (.inr (by rw [vals_some hc]))⟩
    refine ⟨h', x, ea, get h (Heap.Sub.refl h), by rw [if_neg p]; exact R', fun q => absurd q p, fun _ => ?_⟩
    rw [exec_insert_end v a ea] at q
    simp only [Prog.bind_app] at q
    cases g : Vec.insert c ⟨s.blk, s.vals.length⟩ x h with
    | ok y =>
      obtain ⟨y1, y2⟩ := y
      rw [g] at q; simp only [Res.bind_ok, Prog.pure_app, retOf, Res.ok.injEq, Prod.mk.injEq, Ret.it.injEq] at q
      obtain ⟨rfl, rfl⟩ := q; rfl
    | ub f => rw [g] at q; cases q
    | diverge => rw [g] at q; cases q

theorem addKey_some (hc : S c = some s) (f : Nat) {k : K} {a : CArg (K × V)} {e : K × V} (ev : a.val S = some e) :
    ∃ t, addKey dk dv S f c k a c = some t ∧ t.vals = (if Present k s.vals then s.vals else s.vals ++ [e]) ∧ ∀ d, d ≠ c → addKey dk dv S f c k a d = S d := by
  simp only [addKey, vals_some hc]
  by_cases p : Present k s.vals
  · simp only [if_pos p]; exact ⟨s, hc, rfl, fun _ _ => trivial⟩
  · simp only [if_neg p, spec]
    refine ⟨_, put_same .., ?_, fun d q => put_other _ q _⟩
    rw [get_some hc, ins_vals]; simp [State.copies, ev]

theorem insert_ok (R : Reach (dk, dv) S h) (hc : S c = some s) {a : CArg (K × V)} (va : a.Valid S) {e : K × V} (ev : a.val S = some e) :
    ∃ h', (do insert c (← a.expr) : Prog (VMem K V) (Ptr × Bool)) h = .ok ((⟨((addKey dk dv S h.fresh c e.1 a).get c).blk, pos e.1 s.vals⟩, decide (¬ Present e.1 s.vals)), h') ∧
      Reach (dk, dv) (addKey dk dv S h.fresh c e.1 a) h' := by
  obtain ⟨h', x, ea, eg, R', o, n⟩ := add_ok R hc va ev
  have v := R.world.vec c s hc
  refine ⟨h', ?_, R'⟩
  simp only [insert, Prog.bind_app, ea, Res.bind_ok, eg, find_ok v, end_ok v, Prog.ite_app, addKey, vals_some hc]
  by_cases p : Present e.1 s.vals
  · rw [if_pos ((found _ _).2 p), o p, if_pos p, get_some hc]
    simp [p]
  · rw [if_neg (mt (found _ _).1 p), absent_pos p, if_neg p]
    simp only [Prog.bind_app, n p, Res.bind_ok, Prog.pure_app]
    simp [p]

theorem index_ok (R : Reach (dk, dv) S h) (hc : S c = some s) (k : K) :
    ∃ h', index dv c k h = .ok (⟨((addKey dk dv S h.fresh c k (.ext (k, dv))).get c).blk, pos k s.vals⟩, h') ∧ Reach (dk, dv) (addKey dk dv S h.fresh c k (.ext (k, dv))) h' := by
  obtain ⟨h', x, ea, eg, R', o, n⟩ := add_ok R hc (a := .ext (k, dv)) trivial rfl
  have v := R.world.vec c s hc
  refine ⟨h', ?_, R'⟩
  simp only [CArg.expr, Prog.pure_app] at ea
  cases ea
  simp only [index, Prog.bind_app, find_ok v, Res.bind_ok, end_ok v, Prog.ite_app, addKey, vals_some hc]
  by_cases p : Present k s.vals
  · rw [if_pos ((found _ _).2 p), o p, if_pos p, get_some hc]; rfl
  · rw [if_neg (mt (found _ _).1 p), absent_pos p, if_neg p]
    exact n p

theorem store_ok (R : Reach (dk, dv) S h) (hc : S c = some s) {i : Nat} {k : K} {u : V} (hi : s.vals[i]? = some (k, u)) (v : V) (f : Nat) :
    ∃ h', wrSecond ⟨s.blk, i⟩ v h = .ok ((), h') ∧ Reach (dk, dv) (spec (dk, dv) S f (.store c i (.ext (k, v)))) h' := by
  have w := R.world.vec c s hc
  have hl := (List.getElem?_eq_some_iff.1 hi).1
  obtain ⟨h', q, R'⟩ := call_returns R (.store c i (.ext (k, v))) ⟨⟨s, hc⟩, by rw [vals_some hc]; exact hl, trivial⟩
  refine ⟨h', ?_, R'⟩
  simp only [exec, CArg.expr, Prog.bind_app, Prog.pure_app, Res.bind_ok, store, Arg.get, Vec.at_ok w] at q
  simp only [wrSecond, Prog.bind_app, (w.holds hi).read, Res.bind_ok]
  cases g : write ⟨s.blk, i⟩ (k, v) h with
  | ok y => rw [g] at q; simp only [Res.bind_ok] at q; cases q; rfl
  | ub f => rw [g] at q; cases q
  | diverge => rw [g] at q; cases q

/-- Every legal call returns normally; its effect is that of vector calls. -/
theorem vstep (R : Reach (dk, dv) S h) (k : VCall K V) (lg : VLegal S k) : ∃ r h', vexec dk dv k h = .ok (r, h') ∧ Reach (dk, dv) (vspec dk dv S h.fresh k) h' := by
  cases k with
  | base k =>
    obtain ⟨h', q, R'⟩ := call_returns R k lg
    exact ⟨_, h', by simp only [vexec, Prog.bind_app, q, Res.bind_ok]; rfl, R'⟩
  | insert c a =>
    obtain ⟨⟨s, hc⟩, va⟩ := lg
    obtain ⟨_, e, _, ev, _⟩ := arg_ok R.world va
    obtain ⟨h', q, R'⟩ := insert_ok R hc va ev
    refine ⟨.ins ⟨((addKey dk dv S h.fresh c e.1 a).get c).blk, pos e.1 s.vals⟩ (decide (¬ Present e.1 s.vals)), h', ?_, by simp only [vspec, ev]; exact R'⟩
    have : vexec dk dv (.insert c a) = (do let r ← (do insert c (← a.expr)); return .ins r.1 r.2 : Prog (VMem K V) VRet) := by simp only [vexec, bind_assoc]
    rw [this, Prog.bind_app, q]; rfl
  | index c k =>
    obtain ⟨s, hc⟩ := lg
    obtain ⟨h', q, R'⟩ := index_ok R hc k
    exact ⟨_, h', by simp only [vexec, Prog.bind_app, q, Res.bind_ok]; rfl, R'⟩
  | put c k v =>
    obtain ⟨s, hc⟩ := lg
    obtain ⟨h1, q1, R1⟩ := index_ok R hc k
    obtain ⟨t, ht, tv, _⟩ := addKey_some (dk := dk) (dv := dv) hc h.fresh (k := k) (a := .ext (k, dv)) rfl
    have : ∃ u, t.vals[pos k s.vals]? = some (k, u) := by
      rw [tv]; split
      · exact pos_at ‹_›
      · rw [absent_pos ‹_›]; simp
    obtain ⟨u, hu⟩ := this
    obtain ⟨h2, q2, R2⟩ := store_ok R1 ht hu v h.fresh
    exact ⟨_, h2, by simp only [vexec, Prog.bind_app, q1, Res.bind_ok, get_some ht, q2]; rfl, by simp only [vspec, vals_some hc]; exact R2⟩
  | setAt c k v =>
    obtain ⟨⟨s, hc⟩, p⟩ := lg
    rw [vals_some hc] at p
    obtain ⟨u, hu⟩ := pos_at p
    obtain ⟨h2, q2, R2⟩ := store_ok R hc hu v h.fresh
    exact ⟨_, h2, by simp only [vexec, atKey, Prog.bind_app, find_ok (R.world.vec c s hc), Res.bind_ok, q2]; rfl, by simp only [vspec, vals_some hc]; exact R2⟩
  | eraseKey c k =>
    obtain ⟨⟨s, hc⟩, p⟩ := lg
    obtain ⟨h', q, R'⟩ := call_returns R (.erase c (pos k (S.vals c))) ⟨⟨s, hc⟩, pos_lt.2 p⟩
    have v := R.world.vec c s hc
    refine ⟨.base (.it ⟨s.blk, pos k s.vals⟩), h', ?_, R'⟩
    rw [vals_some hc] at q
    simp only [exec, Prog.bind_app, Vec.begin_ok v, Res.bind_ok, ptr_add, Nat.zero_add] at q
    simp only [vexec, Prog.bind_app, find_ok v, Res.bind_ok]
    cases g : erase c ⟨s.blk, pos k s.vals⟩ h with
    | ok y =>
      obtain ⟨y1, y2⟩ := y
      rw [g] at q; simp only [Res.bind_ok, Prog.pure_app, retOf, get_some hc, Res.ok.injEq, Prod.mk.injEq, Ret.it.injEq] at q
      obtain ⟨rfl, rfl⟩ := q; rfl
    | ub f => rw [g] at q; cases q
    | diverge => rw [g] at q; cases q

/-- A client program over vector maps reaches only memories that programs over vectors reach. -/
theorem VReach.vec (R : VReach dk dv S h) : Reach (dk, dv) S h := by
  induction R with
  | start => exact .start
  | step k R lg e ih =>
    obtain ⟨r, h2, e2, R2⟩ := vstep ih k lg
    rw [e] at e2; cases e2; exact R2

theorem vcall_returns (R : VReach dk dv S h) (k : VCall K V) (lg : VLegal S k) : ∃ r h', vexec dk dv k h = .ok (r, h') ∧ VReach dk dv (vspec dk dv S h.fresh k) h' := by
  obtain ⟨r, h', q, _⟩ := vstep R.vec k lg
  exact ⟨r, h', q, .step k R lg q⟩

/-! ## C46 -/

/-- **C46.** `find(k)` and `at(k)` designate the first entry of `k`; `find` of an absent key is `end()`. Nothing changes. -/
theorem find_finds (R : VReach dk dv S h) (hc : S.Exists c) (o : Observes h c vs) (k : K) :
    ∃ b e, begin_ c h = .ok (b, h) ∧ end_ c h = .ok (e, h) ∧ e = b + vs.length ∧
      (∀ (i : Nat) v, vs[i]? = some (k, v) → (∀ (j : Nat) x, j < i → vs[j]? = some x → x.1 ≠ k) →
        find c k h = .ok (b + i, h) ∧ (do read (← atKey c k) : Prog (VMem K V) (K × V)) h = .ok ((k, v), h)) ∧
      (¬ Present k vs → find c k h = .ok (e, h)) := by
  obtain ⟨s, hs, rfl, v⟩ := observed R.vec hc o
  refine ⟨_, _, Vec.begin_ok v, end_ok v, by rw [ptr_add, Nat.zero_add], ?_, ?_⟩
  · intro i x hi first
    have e := pos_first hi first
    refine ⟨by rw [find_ok v, e, ptr_add, Nat.zero_add], ?_⟩
    simp only [atKey, Prog.bind_app, find_ok v, Res.bind_ok, e, (v.holds hi).read]
  · intro n; rw [find_ok v, absent_pos n]

/-- `at(k)` of an absent key refers past the last element; reading it is undefined behaviour. -/
theorem at_absent_ub (R : VReach dk dv S h) (hc : S.Exists c) (o : Observes h c vs) {k : K} (n : ¬ Present k vs) :
    ∃ f, (do read (← atKey c k) : Prog (VMem K V) (K × V)) h = .ub f := by
  obtain ⟨s, hs, rfl, v⟩ := observed R.vec hc o
  simp only [atKey, Prog.bind_app, find_ok v, Res.bind_ok, absent_pos n]
  cases g : h.size s.blk with
  | none => exact ⟨_, read_out (by intro n q; simp only at q; rw [g] at q; cases q)⟩
  | some m =>
    by_cases l : s.vals.length < m
    · exact ⟨_, read_raw g l (by show h.slot s.blk s.vals.length = none; rw [v.slot, lay_nil]; simp)⟩
    · exact ⟨_, read_out (by intro n q; simp only at q; rw [g] at q; cases q; exact Nat.not_lt.1 l)⟩

/-- `count` of an absent key is 0. -/
theorem count_absent_partial (R : VReach dk dv S h) (hc : S.Exists c) (o : Observes h c vs) {k : K} (n : ¬ Present k vs) : count c k h = .ok (0, h) := by
  obtain ⟨s, hs, rfl, v⟩ := observed R.vec hc o
  simp only [count, Prog.bind_app, Vec.begin_ok v, Res.bind_ok]
  rw [countLoop]
  simp only [Prog.bind_app, findKey_ok v k s.vals 0 (List.drop_zero ..) (Nat.zero_le _), absent_pos n, Nat.zero_add, Res.bind_ok, end_ok v, ne_eq, not_true_eq_false, if_false, Prog.pure_app]

open Lean.Order in
theorem countLoop_diverges (v : IsVec h c s) {k : K} {i : Nat} (hi : i ≤ s.vals.length) (p : Present k (s.vals.drop i)) : ∀ n, countLoop c k ⟨s.blk, i⟩ n h = .diverge := by
  have key : ∀ (i n : Nat), i ≤ s.vals.length → Present k (s.vals.drop i) → countLoop c k ⟨s.blk, i⟩ n h = .diverge := by
    refine countLoop.fixpoint_induct (K := K) (V := V) c k
      (motive := fun f => ∀ (i n : Nat), i ≤ s.vals.length → Present k (s.vals.drop i) → f ⟨s.blk, i⟩ n h = .diverge) ?_ ?_
    · intro C chain ih i n hi p
      classical
      let F := CCPO.csup chain
      let g : Ptr → Nat → Prog (VMem K V) Nat := fun q n m => if q = ⟨s.blk, i⟩ ∧ m = h then .diverge else F q n m
      have le : F ⊑ g := csup_le chain fun x hx => by
        intro q n m
        by_cases e : q = ⟨s.blk, i⟩ ∧ m = h
        · obtain ⟨rfl, rfl⟩ := e
          have := ih x hx i n hi p
          simp only [g, and_self, if_true, this]
          exact PartialOrder.rel_refl
        · simp only [g, if_neg e]
          exact le_csup chain hx q n m
      have := le ⟨s.blk, i⟩ n h
      simp only [g, and_self, if_true] at this
      have fin : ∀ x : Res (Nat × VMem K V), FlatOrder.rel (b := Res.diverge) x .diverge → x = .diverge := by
        intro x q; cases q <;> rfl
      exact fin _ this
    · intro f ih i n hi p
      simp only [Prog.bind_app, findKey_ok v k _ i rfl hi, Res.bind_ok, end_ok v, Prog.ite_app]
      have hl := pos_lt.2 p
      rw [List.length_drop] at hl
      rw [if_pos (by simp; omega)]
      refine ih _ _ (by omega) ?_
      obtain ⟨u, hu⟩ := pos_at p
      rw [List.getElem?_drop] at hu
      refine ⟨u, List.mem_iff_getElem?.2 ⟨0, by rw [List.getElem?_drop]; exact hu⟩⟩
  exact fun n => key i n hi p

/-- **C46 is false.** `count(k)` never returns when the key is present: `find_key` returns the same element again and again. For every reachable map. -/
theorem count_present_diverges (R : VReach dk dv S h) (hc : S.Exists c) (o : Observes h c vs) {k : K} (p : Present k vs) : count c k h = .diverge := by
  obtain ⟨s, hs, rfl, v⟩ := observed R.vec hc o
  simp only [count, Prog.bind_app, Vec.begin_ok v, Res.bind_ok]
  exact countLoop_diverges v (Nat.zero_le _) (by rwa [List.drop_zero]) 0

end Verif.VMap.VMProps
