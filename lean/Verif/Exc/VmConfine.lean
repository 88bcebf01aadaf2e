import Verif.Exc.VecConfine
import Verif.Map.VProps2
/-!
# C160: calls on different vector maps touch different memory
-/
set_option linter.unusedVariables false
set_option linter.unusedSimpArgs false
set_option linter.unusedSectionVars false
namespace Verif.VMap
open Verif Verif.Vec Verif.Vec.VecProps Verif.VMap.VMProps
variable {K V : Type} [DecidableEq K] {h h' : VMem K V} {S : State (K × V)} {c d i : Nat} {s : VS (K × V)} {dk : K} {dv : V} {vs ws : List (K × V)}

/-! ## Calls in any memory with vectors (as `VMProps.vstep`, from the invariant instead of a history) -/

theorem call_world {T : Type} {h : Vec.Mem T} {S : State T} {dv : T} (W : World h S) (k : Call T) (lg : Legal S k) :
    ∃ h', exec dv k h = .ok (retOf dv S h.fresh k, h') ∧ World h' (spec dv S h.fresh k) := by
  obtain ⟨h', a, b, _⟩ := step_ok (dv := dv) W k lg
  exact ⟨h', a, b⟩

/-- `insert`, `operator[]`: what they do to the vector. -/
theorem add_okW (R : World h S) (hc : S c = some s) {a : CArg (K × V)} (va : a.Valid S) {e : K × V} (ev : a.val S = some e) :
    ∃ h' x, a.expr h = .ok (x, h) ∧ x.get h = .ok (e, h) ∧ World h' (addKey dk dv S h.fresh c e.1 a) ∧
      (Present e.1 s.vals → h' = h) ∧
      (¬ Present e.1 s.vals → Vec.insert c ⟨s.blk, s.vals.length⟩ x h = .ok (⟨((spec (dk, dv) S h.fresh (.insert c s.vals.length a)).get c).blk, s.vals.length⟩, h')) := by
  obtain ⟨x, e', ea, ev', get, _⟩ := arg_ok R va
  rw [ev] at ev'; cases ev'
  have v := R.vec c s hc
  simp only [addKey, vals_some hc]
  by_cases p : Present e.1 s.vals
  · exact ⟨h, x, ea, get h (Heap.Sub.refl h), by rw [if_pos p]; exact R, fun _ => rfl, fun q => absurd p q⟩
  · obtain ⟨h', q, R'⟩ := call_world (dv := (dk, dv)) R (.insert c s.vals.length a) ⟨⟨s, hc⟩, by rw [vals_some hc]; exact Nat.le_refl _, va, .inr (.inr (by rw [vals_some hc]))⟩
    refine ⟨h', x, ea, get h (Heap.Sub.refl h), by rw [if_neg p]; exact R', fun q => absurd q p, fun _ => ?_⟩
    rw [exec_insert_end v a ea] at q
    simp only [Prog.bind_app] at q
    cases g : Vec.insert c ⟨s.blk, s.vals.length⟩ x h with
    | ok y =>
      obtain ⟨y1, y2⟩ := y
      rw [g] at q; simp only [Res.bind_ok, Prog.pure_app, retOf, Res.ok.injEq, Prod.mk.injEq, Ret.it.injEq] at q
      obtain ⟨rfl, rfl⟩ := q; rfl
    | ub f => rw [g] at q; cases q
    | diverge => rw [g] at q; cases q

theorem insert_okW (R : World h S) (hc : S c = some s) {a : CArg (K × V)} (va : a.Valid S) {e : K × V} (ev : a.val S = some e) :
    ∃ h', (do insert c (← a.expr) : Prog (VMem K V) (Ptr × Bool)) h = .ok ((⟨((addKey dk dv S h.fresh c e.1 a).get c).blk, pos e.1 s.vals⟩, decide (¬ Present e.1 s.vals)), h') ∧
      World h' (addKey dk dv S h.fresh c e.1 a) := by
  obtain ⟨h', x, ea, eg, R', o, n⟩ := add_okW (dk := dk) (dv := dv) R hc va ev
  have v := R.vec c s hc
  refine ⟨h', ?_, R'⟩
  simp only [insert, Prog.bind_app, ea, Res.bind_ok, eg, find_ok v, end_ok v, Prog.ite_app, addKey, vals_some hc]
  by_cases p : Present e.1 s.vals
  · rw [if_pos ((found _ _).2 p), o p, if_pos p, get_some hc]
    simp [p]
  · rw [if_neg (mt (found _ _).1 p), absent_pos p, if_neg p]
    simp only [Prog.bind_app, n p, Res.bind_ok, Prog.pure_app]
    simp [p]

theorem index_okW (R : World h S) (hc : S c = some s) (k : K) :
    ∃ h', index dv c k h = .ok (⟨((addKey dk dv S h.fresh c k (.ext (k, dv))).get c).blk, pos k s.vals⟩, h') ∧ World h' (addKey dk dv S h.fresh c k (.ext (k, dv))) := by
  obtain ⟨h', x, ea, eg, R', o, n⟩ := add_okW (dk := dk) (dv := dv) R hc (a := .ext (k, dv)) trivial rfl
  have v := R.vec c s hc
  refine ⟨h', ?_, R'⟩
  simp only [CArg.expr, Prog.pure_app] at ea
  cases ea
  simp only [index, Prog.bind_app, find_ok v, Res.bind_ok, end_ok v, Prog.ite_app, addKey, vals_some hc]
  by_cases p : Present k s.vals
  · rw [if_pos ((found _ _).2 p), o p, if_pos p, get_some hc]; rfl
  · rw [if_neg (mt (found _ _).1 p), absent_pos p, if_neg p]
    exact n p

theorem store_okW (R : World h S) (hc : S c = some s) {i : Nat} {k : K} {u : V} (hi : s.vals[i]? = some (k, u)) (v : V) (f : Nat) :
    ∃ h', wrSecond ⟨s.blk, i⟩ v h = .ok ((), h') ∧ World h' (spec (dk, dv) S f (.store c i (.ext (k, v)))) := by
  have w := R.vec c s hc
  have hl := (List.getElem?_eq_some_iff.1 hi).1
  obtain ⟨h', q, R'⟩ := call_world (dv := (dk, dv)) R (.store c i (.ext (k, v))) ⟨⟨s, hc⟩, by rw [vals_some hc]; exact hl, trivial⟩
  refine ⟨h', ?_, R'⟩
  simp only [exec, CArg.expr, Prog.bind_app, Prog.pure_app, Res.bind_ok, store, Arg.get, Vec.at_ok w] at q
  simp only [wrSecond, Prog.bind_app, (w.holds hi).read, Res.bind_ok]
  cases g : write ⟨s.blk, i⟩ (k, v) h with
  | ok y => rw [g] at q; simp only [Res.bind_ok] at q; cases q; rfl
  | ub f => rw [g] at q; cases q
  | diverge => rw [g] at q; cases q

/-- Every legal call returns normally; its effect is that of vector calls. -/
theorem vstepW (R : World h S) (k : VCall K V) (lg : VLegal S k) : ∃ r h', vexec dk dv k h = .ok (r, h') ∧ World h' (vspec dk dv S h.fresh k) := by
  cases k with
  | base k =>
    obtain ⟨h', q, R'⟩ := call_world (dv := (dk, dv)) R k lg
    exact ⟨_, h', by simp only [vexec, Prog.bind_app, q, Res.bind_ok]; rfl, R'⟩
  | insert c a =>
    obtain ⟨⟨s, hc⟩, va⟩ := lg
    obtain ⟨_, e, _, ev, _⟩ := arg_ok R va
    obtain ⟨h', q, R'⟩ := insert_okW (dk := dk) (dv := dv) R hc va ev
    refine ⟨.ins ⟨((addKey dk dv S h.fresh c e.1 a).get c).blk, pos e.1 s.vals⟩ (decide (¬ Present e.1 s.vals)), h', ?_, by simp only [vspec, ev]; exact R'⟩
    have : vexec dk dv (.insert c a) = (do let r ← (do insert c (← a.expr)); return .ins r.1 r.2 : Prog (VMem K V) VRet) := by simp only [vexec, bind_assoc]
    rw [this, Prog.bind_app, q]; rfl
  | index c k =>
    obtain ⟨s, hc⟩ := lg
    obtain ⟨h', q, R'⟩ := index_okW (dk := dk) (dv := dv) R hc k
    exact ⟨_, h', by simp only [vexec, Prog.bind_app, q, Res.bind_ok]; rfl, R'⟩
  | put c k v =>
    obtain ⟨s, hc⟩ := lg
    obtain ⟨h1, q1, R1⟩ := index_okW (dk := dk) (dv := dv) R hc k
    obtain ⟨t, ht, tv, _⟩ := addKey_some (dk := dk) (dv := dv) hc h.fresh (k := k) (a := .ext (k, dv)) rfl
    have : ∃ u, t.vals[pos k s.vals]? = some (k, u) := by
      rw [tv]; split
      · exact pos_at ‹_›
      · rw [absent_pos ‹_›]; simp
    obtain ⟨u, hu⟩ := this
    obtain ⟨h2, q2, R2⟩ := store_okW (dk := dk) (dv := dv) R1 ht hu v h.fresh
    exact ⟨_, h2, by simp only [vexec, Prog.bind_app, q1, Res.bind_ok, get_some ht, q2]; rfl, by simp only [vspec, vals_some hc]; exact R2⟩
  | setAt c k v =>
    obtain ⟨⟨s, hc⟩, p⟩ := lg
    rw [vals_some hc] at p
    obtain ⟨u, hu⟩ := pos_at p
    obtain ⟨h2, q2, R2⟩ := store_okW (dk := dk) (dv := dv) R hc hu v h.fresh
    exact ⟨_, h2, by simp only [vexec, atKey, Prog.bind_app, find_ok (R.vec c s hc), Res.bind_ok, q2]; rfl, by simp only [vspec, vals_some hc]; exact R2⟩
  | eraseKey c k =>
    obtain ⟨⟨s, hc⟩, p⟩ := lg
    obtain ⟨h', q, R'⟩ := call_world (dv := (dk, dv)) R (.erase c (pos k (S.vals c))) ⟨⟨s, hc⟩, pos_lt.2 p⟩
    have v := R.vec c s hc
    refine ⟨.base (.it ⟨s.blk, pos k s.vals⟩), h', ?_, R'⟩
    rw [vals_some hc] at q
    simp only [exec, Prog.bind_app, Vec.begin_ok v, Res.bind_ok, ptr_add, Nat.zero_add] at q
    simp only [vexec, Prog.bind_app, find_ok v, Res.bind_ok]
    cases g : erase c ⟨s.blk, pos k s.vals⟩ h with
    | ok y =>
      obtain ⟨y1, y2⟩ := y
      rw [g] at q; simp only [Res.bind_ok, Prog.pure_app, retOf, get_some hc, Res.ok.injEq, Prod.mk.injEq, Ret.it.injEq] at q
      obtain ⟨rfl, rfl⟩ := q; rfl
    | ub f => rw [g] at q; cases q
    | diverge => rw [g] at q; cases q

/-! ## What the members do in a part of the memory they do in all of it -/

open Verif.Exc.XVec

theorem framed_findKey (c : Nat) (key : K) (i : Ptr) : Framed (findKey c key i : Prog (VMem K V) Ptr) := by
  refine findKey.fixpoint_induct (K := K) (V := V) c key (motive := fun f => ∀ a, Framed (f a)) framed_adm1 (fun f ih i => ?_) i
  unfold end_
  framed
  exact ih _
theorem framed_find (c : Nat) (key : K) : Framed (find c key : Prog (VMem K V) Ptr) := (framed_begin c).bind fun p => framed_findKey c key p
theorem framed_vinsert (c : Nat) (x : Arg (K × V)) : Framed (insert c x : Prog (VMem K V) (Ptr × Bool)) :=
  (framed_get x).bind fun v => (framed_find c _).bind fun i => (framed_end c).bind fun e => framed_ite (framed_pure _)
    ((framed_insertValues c _ 1 _).bind fun _ => framed_pure _)
theorem framed_index (dv : V) (c : Nat) (key : K) : Framed (index dv c key : Prog (VMem K V) Ptr) :=
  (framed_find c _).bind fun i => (framed_end c).bind fun e => framed_ite (framed_pure _) (framed_insertValues c _ 1 _)
omit [DecidableEq K] in
theorem framed_wrSecond (p : Ptr) (v : V) : Framed (wrSecond p v : Prog (VMem K V) Unit) := (framed_read p).bind fun e => framed_write p _

theorem framed_vexec (dk : K) (dv : V) (q : VCall K V) : Framed (vexec dk dv q) := by
  cases q with
  | base k => exact (framed_exec _ k).bind fun _ => framed_pure _
  | insert c a => exact (framed_carg a).bind fun x => (framed_vinsert c x).bind fun _ => framed_pure _
  | index c k => exact (framed_index dv c k).bind fun _ => framed_pure _
  | put c k v => exact (framed_index dv c k).bind fun p => (framed_wrSecond p v).bind fun _ => framed_pure _
  | setAt c k v => exact (framed_find c k).bind fun p => (framed_wrSecond p v).bind fun _ => framed_pure _
  | eraseKey c k => exact (framed_find c k).bind fun p => (framed_eraseRange c _ _).bind fun _ => framed_pure _

/-! ## Confinement -/

/-- The vector maps a call names. -/
def _root_.Verif.VMap.VMProps.VCall.args : VCall K V → List Nat
  | .base k => k.args | .insert c a => c :: a.owner | .index c _ => [c] | .put c _ _ => [c] | .setAt c _ _ => [c] | .eraseKey c _ => [c]

theorem vlegal_congr {S S' : State (K × V)} {q : VCall K V} (h : ∀ c ∈ q.args, S' c = S c) (lg : VLegal S q) : VLegal S' q := by
  cases q with
  | base k => exact legal_congr h lg
  | insert c a =>
    have hc := h c (by simp [VCall.args])
    refine ⟨by simpa only [State.Exists, hc] using lg.1, ?_⟩
    cases a with
    | ext v => trivial
    | elem d i =>
      have e := h d (by simp [VCall.args, CArg.owner])
      have v := lg.2
      simp only [CArg.Valid, State.Exists, State.vals, State.get, e] at v ⊢; exact v
  | _ => simp [VCall.args] at h <;> simp only [VLegal, State.Exists, State.vals, State.get, h] at lg ⊢ <;> exact lg

/-- **C160, `ttl::vector_map`.** A call accesses only the objects and the blocks of the maps it names. -/
theorem call_confined (R : VReach dk dv S h) (q : VCall K V) (lg : VLegal S q) :
    Confined (vexec dk dv q) h (· ∈ q.args) (BlocksOf S (· ∈ q.args)) := by
  have W := R.vec.world
  obtain ⟨r, m, e, _⟩ := vstepW (dk := dk) (dv := dv) (World.part W (· ∈ q.args)) q (vlegal_congr (fun c hc => onlyState_of hc) lg)
  exact Confined.of_framed (framed_vexec dk dv q) W.base.gone W.base.objs e

/-- **C160, `ttl::vector_map`, two calls.** If they name different maps, what one of them accesses the other does not, and it finds its memory as if the other
one had not run. -/
theorem calls_apart (R : VReach dk dv S h) (q1 q2 : VCall K V) (l1 : VLegal S q1) (d : ∀ c ∈ q1.args, c ∉ q2.args) :
    (∀ b, BlocksOf S (· ∈ q1.args) b → ¬ BlocksOf S (· ∈ q2.args) b) ∧ ∀ r h', vexec dk dv q1 h = .ok (r, h') →
      (∀ c ∈ q2.args, S.Exists c → h'.obj c = h.obj c) ∧ ∀ b, BlocksOf S (· ∈ q2.args) b → h'.size b = h.size b ∧ h'.slot b = h.slot b := by
  have W := R.vec.world
  refine ⟨fun b a => (W.apart d a).1, fun r h' e => ?_⟩
  obtain ⟨r', m, h2, _, e2, _, f1, f2⟩ := call_confined R q1 l1
  rw [e] at e2; cases e2
  refine ⟨fun c hc ⟨s, hs⟩ => ?_, fun b a => ?_⟩
  · have lt : c < h.fresh := by
      rcases Nat.lt_or_ge c h.fresh with l | l
      · exact l
      · have := (W.vec c s hs).obj; rw [W.base.objs c l] at this; cases this
    exact f1 c lt fun m => d c m hc
  · have z := W.apart (fun c n1 n2 => d c n2 n1) a
    exact f2 b z.2 z.1

/-- **C160, `ttl::vector_map`, reading.** The vector's observers and `find` answer the same in the memory that has only this map and its block, and write nothing. -/
theorem reads_confined (R : VReach dk dv S h) {c : Nat} (hc : S.Exists c) :
    (Shows h c (S.vals c) (S.get c).cap ⟨(S.get c).blk, 0⟩ ∧ ∀ k, find c k h = .ok (⟨(S.get c).blk, pos k (S.vals c)⟩, h)) ∧
    (Shows (h.part (· = c) (fun b => b ≠ 0 ∧ b = (S.get c).blk)) c (S.vals c) (S.get c).cap ⟨(S.get c).blk, 0⟩ ∧
      ∀ k, find c k (h.part (· = c) (fun b => b ≠ 0 ∧ b = (S.get c).blk)) =
        .ok (⟨(S.get c).blk, pos k (S.vals c)⟩, h.part (· = c) (fun b => b ≠ 0 ∧ b = (S.get c).blk))) := by
  obtain ⟨s, hs⟩ := hc
  rw [vals_some hs, get_some hs]
  have v := R.vec.world.vec c s hs
  have v' := v.part (O := (· = c)) (B := fun b => b ≠ 0 ∧ b = s.blk) rfl (fun z => ⟨z, rfl⟩) fun q => q.1 rfl
  exact ⟨⟨isVec_shows v, find_ok v⟩, isVec_shows v', find_ok v'⟩

/-- The hypotheses are met: the map `c` with three entries and a copy `d`, and the calls `c[4]` and `d.insert(c[1])` resp. `d.clear()`. -/
example : ∃ (S : State (Nat × Nat)) (h : VMem Nat Nat) (c d : Nat), VReach 0 0 S h ∧ S.Exists d ∧ VLegal S (.index c 4) ∧ VLegal S (.base (.clear d)) ∧
    VLegal S (.insert d (.elem c 1)) ∧ (∀ x ∈ (VCall.index c 4 : VCall Nat Nat).args, x ∉ (VCall.base (.clear d) : VCall Nat Nat).args) := by
  obtain ⟨c, S, h, R, ⟨s, hs⟩, o⟩ := VMProps.demo
  have g := (reach_observes R.vec ⟨s, hs⟩).inj o
  obtain ⟨r, h', e, R'⟩ := vcall_returns R (.base (.copyOf c)) ⟨s, hs⟩
  have ne : c ≠ h.fresh := fun q => by have := (R.vec.world.vec c s hs).obj; rw [R.vec.world.base.objs c (by omega)] at this; cases this
  have hc : vspec 0 0 S h.fresh (.base (.copyOf c)) c = some s := (put_other _ ne _).trans hs
  have gc : (vspec 0 0 S h.fresh (.base (.copyOf c))).vals c = [(5, 50), (3, 30), (5, 51)] := by
    rw [vals_some hc, ← vals_some hs]; exact g
  have hd : (vspec 0 0 S h.fresh (.base (.copyOf c))).Exists h.fresh := put_exists ..
  exact ⟨_, h', c, h.fresh, R', hd, ⟨s, hc⟩, hd, ⟨hd, ⟨s, hc⟩, by rw [gc]; decide⟩, by simpa [VCall.args, Call.args] using ne⟩

end Verif.VMap
