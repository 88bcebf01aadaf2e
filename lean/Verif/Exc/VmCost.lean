import Verif.Exc.VmHist
import Verif.Exc.VecCost2
/-!
# What the members of `ttl::vector_map` cost

`Verif.Exc.VmModel` counts the operations of a call that may throw: `==` of keys, allocations, copies of entries, the parts of the temporary of `operator[]` and assignments of
values. Here is the exact count for the members of `vector_map`; those inherited from `vector` are counted in `Verif.Exc.VecCost2`.
-/
set_option linter.unusedVariables false
set_option linter.unusedSimpArgs false
set_option linter.unusedSectionVars false
namespace Verif.Exc.XVM
open Verif Verif.Vec Verif.Vec.VecProps Verif.VMap Verif.Exc
open Verif.VMap.VMProps (VCall VRet vspec VLegal pos Present addKey pos_le pos_lt pos_at absent_pos addKey_some found)
open Verif.Exc.XVec (Fine Readable XSteps XReach insertionPoints xshown Takes points)
variable {K V : Type} [DecidableEq K] {h h' t : VMem K V} {S : State (K × V)} {c d i n : Nat} {s : VS (K × V)} {dk : K} {dv : V} {vs ws as bs : List (K × V)} {key : K} {x y : V}
  {cap : Nat} {p : Ptr}

/-- The call returns, with the result and the memory it has when nothing throws (those the theorems about contents speak of), and makes exactly `n` comparisons, allocations,
copies and assignments. -/
def Spends (dk : K) (dv : V) (q : VCall K V) (h : VMem K V) (n : Nat) : Prop := ∃ r h', VMProps.vexec dk dv q h = .ok (r, h') ∧ Costs (vexec dk dv q) h n h'

theorem spends (R : VXReach dk dv S h) {q : VCall K V} (lg : VLegal S q) (X : Takes n (vexec dk dv q) h) : Spends dk dv q h n := by
  obtain ⟨a, h1, X⟩ := X
  obtain ⟨m, r, h', Y, e, _⟩ := call_points (dk := dk) (dv := dv) R.vec.fine q lg
  obtain ⟨rfl, rfl⟩ := X.costs.unique Y.costs
  exact ⟨r, _, e, X.costs⟩

theorem insertion_full (o : s.vals.length = s.cap) : insertionPoints s s.vals.length 1 = s.vals.length + 2 := by
  simp only [insertionPoints]
  rw [if_neg (by omega), if_pos (by omega)]; omega
theorem insertion_room (o : s.vals.length < s.cap) : insertionPoints s s.vals.length 1 = 1 := by
  simp only [insertionPoints]
  rw [if_neg (by omega), if_neg (by omega)]; omega

theorem pos_first (no : ¬ Present key as) : pos key (as ++ (key, x) :: bs) = as.length := by
  induction as with
  | nil => simp [pos, List.findIdx_cons]
  | cons e as ih =>
    have ne : ¬ key = e.1 := fun q => no ⟨e.2, by rw [q]; simp⟩
    have := ih (fun ⟨v, q⟩ => no ⟨v, List.mem_cons_of_mem _ q⟩)
    simp only [pos] at this
    simp [pos, List.findIdx_cons, ne, this]
theorem compared_first (no : ¬ Present key as) : compared key (as ++ (key, x) :: bs) = as.length + 1 := by
  simp only [compared, pos_first no, List.length_append, List.length_cons]; omega

/-- **C151, lookup of a key that is there**: `find(key)` compares with the entries before the first entry of `key` and with that one, and makes nothing else. -/
theorem find_present_cost (R : VXReach dk dv S h) (hc : S.Exists c) (o : Observes h c (as ++ (key, x) :: bs)) (no : ¬ Present key as) :
    Costs (find c key : Thr (VMem K V) Ptr) h (as.length + 1) h := by
  obtain ⟨q, _, X⟩ := find_throw R hc o key
  exact compared_first no ▸ X.costs

/-- **C151, lookup of a key that is not there**: `find(key)` and `count(key)` compare with every entry once and make nothing else. -/
theorem absent_cost (R : VXReach dk dv S h) (hc : S.Exists c) (o : Observes h c vs) (no : ¬ Present key vs) :
    Costs (find c key : Thr (VMem K V) Ptr) h vs.length h ∧ Costs (count c key : Thr (VMem K V) Nat) h vs.length h := by
  obtain ⟨q, _, X⟩ := find_throw R hc o key
  exact ⟨compared_absent no ▸ X.costs, (count_absent_throw R hc o no).costs⟩

/-- **C151, count of a key that is there**: no number of comparisons is enough; the call is never done. -/
theorem count_present_no_cost (R : VXReach dk dv S h) (hc : S.Exists c) (o : Observes h c vs) (pr : Present key vs) (n : Nat) (h' : VMem K V) :
    ¬ Costs (count c key : Thr (VMem K V) Nat) h n h' := by
  rintro ⟨⟨a, r⟩, _⟩
  have := r 0
  rw [count_present_throw R hc o pr] at this
  cases this

theorem takes_insert_present (R : VXReach dk dv S h) (hs : S c = some s) {a : CArg (K × V)} {e : K × V} (va : a.Valid S) (ev : a.val S = some e) (pr : Present e.1 s.vals) :
    Takes (compared e.1 s.vals) (vexec dk dv (.insert c a)) h := by
  have v := R.vec.fine.isVec hs
  obtain ⟨x, e', ea, ev', eg⟩ := fine_arg R.vec.fine va
  have : e' = e := by rw [ev] at ev'; exact (Option.some.inj ev').symm
  subst this
  refine ⟨_, _, Points.call_seq ea (Points.seq_pure (g := fun r : Ptr × Bool => VRet.ins r.1 r.2) (a := (⟨s.blk, pos e'.1 s.vals⟩, false)) (s' := h) (P := fun _ _ => True)
    (Points.call_seq eg (Points.cast (Nat.add_zero _) (Points.seq (m := 0) ((find_points v e'.1).imp fun _ _ _ _ => trivial) (Points.call_seq (end_ok v) ?_)))))⟩
  rw [if_pos ((found _ _).2 pr)]; exact Points.pure_

theorem takes_insert_absent (R : VXReach dk dv S h) (hs : S c = some s) {a : CArg (K × V)} {e : K × V} (va : a.Valid S) (ev : a.val S = some e) (no : ¬ Present e.1 s.vals) :
    Takes (s.vals.length + insertionPoints s s.vals.length 1) (vexec dk dv (.insert c a)) h := by
  have v := R.vec.fine.isVec hs
  obtain ⟨x, e', ea, ev', eg⟩ := fine_arg R.vec.fine va
  have : e' = e := by rw [ev] at ev'; exact (Option.some.inj ev').symm
  subst this
  obtain ⟨h', X, ei, re⟩ := append_points (dk := dk) (dv := dv) R.vec.fine hs va ea
  have FP := find_points v e'.1
  rw [compared_absent no, absent_pos no] at FP
  refine ⟨_, _, Points.call_seq ea (Points.seq_pure (g := fun r : Ptr × Bool => VRet.ins r.1 r.2)
    (a := (⟨((spec (dk, dv) S h.fresh (.insert c s.vals.length a)).get c).blk, s.vals.length⟩, true)) (s' := h') (P := fun _ _ => True)
    (Points.call_seq eg (Points.seq (FP.imp fun _ _ _ _ => trivial) (Points.call_seq (end_ok v) ?_))))⟩
  rw [if_neg (by simp)]
  exact Points.seq_pure (g := fun p : Ptr => (p, true)) (X.imp fun _ _ _ _ => trivial)

/-- **C151, insertion of a key that is there**: `insert(value)` compares as `find` does and makes nothing else; so do `c[key]`, and `c[key] = y` and `c.at(key) = y`, which assign once. -/
theorem present_cost (R : VXReach dk dv S h) (hc : S.Exists c) (o : Observes h c (as ++ (key, x) :: bs)) (no : ¬ Present key as) :
    (∀ a : CArg (K × V), a.Valid S → a.val S = some (key, y) → Spends dk dv (.insert c a) h (as.length + 1)) ∧ Spends dk dv (.index c key) h (as.length + 1) ∧
    Spends dk dv (.put c key y) h (as.length + 1 + 1) ∧ Spends dk dv (.setAt c key y) h (as.length + 1 + 1) := by
  obtain ⟨s, hs, ev, v⟩ := observed R hc o
  have pr : Present key s.vals := ⟨x, by rw [ev]; simp⟩
  have cp : compared key s.vals = as.length + 1 := by rw [ev]; exact compared_first no
  obtain ⟨h1, X, e, Q, pe, ab⟩ := index_points (dk := dk) (dv := dv) R.vec.fine hs key
  rw [cp, if_pos pr, Nat.add_zero] at X
  have lg1 : VLegal S (.setAt c key y : VCall K V) := ⟨hc, by rw [vals_some hs]; exact pr⟩
  have n2 : ∀ q : VCall K V, VLegal S q → ∀ {x0 : Thr (VMem K V) Ptr} {P : Nat → VMem K V → Prop} {a0 : Ptr} {m0 : VMem K V} {n0 : Nat}, Points x0 h n0 a0 m0 P →
      (vexec dk dv q = (do let p ← x0; Thr.point; Thr.call (wrSecond p y); return .none)) → Spends dk dv q h (n0 + 1) := by
    intro q lg x0 P a0 m0 n0 X0 ee
    obtain ⟨m, r, h2, Y, e2, _⟩ := call_points (dk := dk) (dv := dv) R.vec.fine q lg
    refine spends R lg ?_
    have e3 : ∃ h3, (wrSecond a0 y : Prog (VMem K V) Unit) m0 = .ok ((), h3) := by
      have e4 := Y.returns n0
      have e5 := Y.returns (n0 + 1)
      have r1 := X0.returns
      rw [ee] at e5
      simp only [Thr.bind_app] at e5
      rw [show m + (n0 + 1) = n0 + (m + 1) by omega, r1] at e5
      simp only [Res.bind_ok, Thr.after_ret, Thr.bind_app, Thr.point_succ, Thr.call_app] at e5
      cases g : (wrSecond a0 y : Prog (VMem K V) Unit) m0 with
      | diverge => rw [g] at e5; cases e5
      | ub f => rw [g] at e5; cases e5
      | ok w => exact ⟨w.2, rfl⟩
    obtain ⟨h3, e3⟩ := e3
    rw [ee]
    exact Takes.seq X0 ⟨_, _, Points.seq (P := fun _ _ => True) (n := 1) (m := 0) (Points.point_ trivial) (Points.call_seq (a := ()) e3 Points.pure_)⟩
  refine ⟨fun a va ea => spends R ⟨hc, va⟩ (cp ▸ takes_insert_present R hs va ea pr), spends R hc (Takes.pure (g := VRet.ref) (.of X)), n2 (.put c key y) hc X rfl, ?_⟩
  have Z := find_points v key
  rw [cp] at Z
  exact n2 (.setAt c key y) lg1 Z rfl

/-- **C151, insertion of a new key**: `insert(value)` compares with every entry once and then makes one copy if there is room, otherwise one allocation and a copy of every entry and of
the new one. `c[key]` makes `T()`, the copies of key and value in the temporary pair, and the same. -/
theorem new_cost (R : VXReach dk dv S h) (hc : S.Exists c) (o : Shows h c vs cap p) (no : ¬ Present key vs) :
    (∀ a : CArg (K × V), a.Valid S → a.val S = some (key, y) → Spends dk dv (.insert c a) h (vs.length + if vs.length < cap then 1 else 1 + (vs.length + 1))) ∧
    Spends dk dv (.index c key) h (vs.length + (4 + if vs.length < cap then 1 else 1 + (vs.length + 1))) := by
  have hs := (xshown R.vec hc o).1
  have le := (R.vec.fine.isVec hs).le
  have ip : insertionPoints ⟨vs, cap, p.blk⟩ vs.length 1 = if vs.length < cap then 1 else 1 + (vs.length + 1) := by
    by_cases q : vs.length < cap
    · rw [if_pos q]; exact insertion_room (s := ⟨vs, cap, p.blk⟩) q
    · rw [if_neg q]; simp only at le; exact (insertion_full (s := ⟨vs, cap, p.blk⟩) (by simp only; omega)).trans (by simp only; omega)
  refine ⟨fun a va ea => spends R ⟨hc, va⟩ ?_, spends R hc ?_⟩
  · have := takes_insert_absent (dk := dk) (dv := dv) R hs va ea no
    simp only [ip] at this
    exact this
  · obtain ⟨h1, X, _⟩ := index_points (dk := dk) (dv := dv) R.vec.fine hs key
    rw [compared_absent no, if_neg no] at X
    simp only [ip] at X
    exact Takes.pure (g := VRet.ref) (.of X)

/-- **C151, removal**: `c.erase(c.find(key))` of a key that is there compares or copies each entry exactly once, wherever the key is: comparisons up to its entry, copies of those behind it. -/
theorem erase_key_cost (R : VXReach dk dv S h) (hc : S.Exists c) (o : Observes h c vs) (pr : Present key vs) : Spends dk dv (.eraseKey c key) h vs.length := by
  obtain ⟨s, hs, rfl, v⟩ := observed R hc o
  have lp := pos_lt.2 pr
  have lg : VLegal S (.eraseKey c key : VCall K V) := ⟨hc, by rw [vals_some hs]; exact pr⟩
  obtain ⟨h', X, e, F'⟩ := XVec.erase_counted (dv := (dk, dv)) R.vec.fine hs lp
  refine spends R lg ((Takes.seq (find_points v key) (n := compared key s.vals) (m := s.vals.length - (pos key s.vals + 1)) (Takes.pure (g := fun p => VRet.base (.it p)) ?_)).cast ?_)
  · have Y : Points (do let p ← XVec.eraseRange c ⟨s.blk, pos key s.vals⟩ (Ptr.mk s.blk (pos key s.vals) + 1); pure (Ret.it p)) h (s.vals.length - (pos key s.vals + 1))
        (Ret.it ⟨s.blk, pos key s.vals⟩) h' (fun _ _ => True) := by
      refine ⟨fun k => ?_, fun k l => ?_⟩
      · have := X.returns k
        simp only [XVec.exec, Thr.bind_app, Thr.call_app, Res.bind_ok, Thr.after_ret, Vec.begin_ok v, ptr_add, Nat.zero_add] at this
        simp only [Thr.bind_app, ptr_add]
        exact this
      · obtain ⟨t, x, _⟩ := X.throws k l
        simp only [XVec.exec, Thr.bind_app, Thr.call_app, Res.bind_ok, Thr.after_ret, Vec.begin_ok v, ptr_add, Nat.zero_add] at x
        simp only [Thr.bind_app, ptr_add]
        exact ⟨t, x, trivial⟩
    exact .of (points_split (g := Ret.it) (fun a b e => by cases e; rfl) Y)
  · rw [compared_present pr]; omega

/-- **C151, the members of vector**: they cost what they cost for a vector (C150). -/
theorem base_cost (R : VXReach dk dv S h) (q : Call (K × V)) (lg : Legal S q) : Spends dk dv (.base q) h (points S q) := by
  obtain ⟨h', _, C⟩ := XVec.call_cost R.vec q lg
  obtain ⟨a, X⟩ := C.points
  exact spends R (q := .base q) lg (Takes.pure (g := VRet.base) (.of X))

/-- Two entries with room for more, and one entry without: `insert` of a new key costs 2 + 1 in the first and 1 + 3 in the second, `c[3]` one comparison more than `c[5]`. -/
example : ∃ (c d : Nat) (S : State (Nat × Nat)) (h : VMem Nat Nat), VXReach 0 0 S h ∧ Observes h c [(5, 50), (3, 30)] ∧ Observes h d [(1, 10)] ∧
    Costs (find c 3 : Thr (VMem Nat Nat) Ptr) h 2 h ∧ Costs (count c 4 : Thr (VMem Nat Nat) Nat) h 2 h ∧ Spends 0 0 (.insert c (.ext (4, 7))) h 3 ∧
    Spends 0 0 (.insert d (.ext (4, 7))) h 4 ∧ Spends 0 0 (.insert d (.ext (1, 7))) h 1 ∧ Spends 0 0 (.index c 3) h 2 ∧
    Spends 0 0 (.index c 5) h 1 ∧ Spends 0 0 (.eraseKey c 5) h 2 := by
  obtain ⟨c, d, S, h, R, ne, hc, hd, oc, od, fc, fd⟩ := XVM.demo
  refine ⟨c, d, S, h, R, oc, od, find_present_cost (as := [(5, 50)]) R hc oc (by simp [Present]), (absent_cost R hc oc (by simp [Present])).2, ?_, ?_,
    (present_cost (as := []) (y := 7) R hd od (by simp [Present])).1 (.ext (1, 7)) trivial rfl, (present_cost (as := [(5, 50)]) (y := 7) R hc oc (by simp [Present])).2.1,
    (present_cost (as := []) (y := 7) R hc oc (by simp [Present])).2.1, erase_key_cost R hc oc ⟨50, by simp⟩⟩
  · obtain ⟨s, hs, e, v⟩ := observed R hc oc
    rw [full_iff hs] at fc
    have X := (new_cost (y := 7) (key := 4) R hc (isVec_shows v) (by rw [e]; simp [Present])).1 (.ext (4, 7)) trivial rfl
    rw [if_pos (by omega), e] at X
    exact X
  · obtain ⟨s, hs, e, v⟩ := observed R hd od
    rw [full_iff hs] at fd
    have X := (new_cost (y := 7) (key := 4) R hd (isVec_shows v) (by rw [e]; simp [Present])).1 (.ext (4, 7)) trivial rfl
    rw [if_neg (by omega), e] at X
    exact X

end Verif.Exc.XVM
