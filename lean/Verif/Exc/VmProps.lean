import Verif.Exc.VmModel
/-!
# Properties of `ttl::vector_map` under exceptions (C138)
-/
set_option linter.unusedVariables false
set_option linter.unusedSimpArgs false
set_option linter.unusedSectionVars false
namespace Verif.Exc.XVM
open Verif Verif.Vec Verif.Vec.VecProps Verif.VMap Verif.Exc
open Verif.VMap.VMProps (VCall VRet vspec VLegal pos Present addKey pos_le pos_lt pos_at absent_pos addKey_some found)
open Verif.Exc.XVec (Fine Readable XSteps XReach Inserted Hurt Unmoved Outcome insertionPoints Broken shows_unique xshown)
variable {K V : Type} [DecidableEq K] {h h' t : VMem K V} {S : State (K × V)} {c d i : Nat} {s : VS (K × V)} {dk : K} {dv : V} {vs ws : List (K × V)}

/-- How many keys `find(k)` compares with: up to the first entry of `k`, or all. -/
def compared (k : K) (vs : List (K × V)) : Nat := min (pos k vs + 1) vs.length

theorem compared_cons (k : K) (e : K × V) (vs : List (K × V)) : compared k (e :: vs) = if k = e.1 then 1 else 1 + compared k vs := by
  simp only [compared, pos, List.findIdx_cons, List.length_cons]
  by_cases q : k = e.1
  · simp [q]
  · simp only [q, decide_false, cond_false, if_false]; omega

theorem compared_present {k : K} (p : Present k vs) : compared k vs = pos k vs + 1 := by
  have := pos_lt.2 p; simp only [compared]; omega
theorem compared_absent {k : K} (n : ¬ Present k vs) : compared k vs = vs.length := by
  rw [compared, absent_pos n]; omega

/-! ## Lookup -/

theorem findKey_points (v : IsVec h c s) (k : K) : ∀ (zs : List (K × V)) (i : Nat), s.vals.drop i = zs → i ≤ s.vals.length →
    Points (findKey c k ⟨s.blk, i⟩) h (compared k zs) ⟨s.blk, i + pos k zs⟩ h (fun _ t => t = h) := by
  intro zs
  induction zs with
  | nil =>
    intro i q l
    have : i = s.vals.length := by have := congrArg List.length q; simp at this; omega
    subst this
    rw [findKey]
    refine Points.call_seq (end_ok v) ?_
    rw [if_neg (by simp)]
    exact Points.pure_
  | cons z zs ih =>
    intro i q l
    have l1 : i < s.vals.length := by have := congrArg List.length q; simp at this; omega
    rw [List.drop_eq_getElem_cons l1] at q
    simp only [List.cons.injEq] at q
    have hz : s.vals[i]? = some z := by rw [List.getElem?_eq_getElem l1, q.1]
    have ne : (⟨s.blk, i⟩ : Ptr) ≠ ⟨s.blk, s.vals.length⟩ := by simp; omega
    rw [findKey]
    refine Points.call_seq (end_ok v) ?_
    rw [if_pos ne]
    refine Points.call_seq ((v.holds hz).read) ?_
    rw [compared_cons]
    by_cases e : k = z.1
    · simp only [if_pos e]
      have e0 : pos k (z :: zs) = 0 := by simp [pos, List.findIdx_cons, e]
      rw [e0]
      exact Points.seq (m := 0) (Points.point_ rfl) Points.pure_
    · simp only [if_neg e]
      have e0 : pos k (z :: zs) = pos k zs + 1 := by simp [pos, List.findIdx_cons, e]
      rw [e0, show i + (pos k zs + 1) = i + 1 + pos k zs by omega]
      exact Points.seq (Points.point_ rfl) (ih (i + 1) q.2 l1)

theorem find_points (v : IsVec h c s) (k : K) : Points (find c k) h (compared k s.vals) ⟨s.blk, pos k s.vals⟩ h (fun _ t => t = h) := by
  refine Points.call_seq (Vec.begin_ok v) ?_
  have := findKey_points v k s.vals 0 (List.drop_zero ..) (Nat.zero_le _)
  rwa [Nat.zero_add] at this

/-! ## Calls -/

theorem points_split {σ α β : Type} {x : Thr σ α} {g : α → β} (inj : ∀ a b, g a = g b → a = b) {s s' : σ} {n : Nat} {a : α} {P : Nat → σ → Prop}
    (X : Points (x >>= fun a => pure (g a)) s n (g a) s' P) : Points x s n a s' P := by
  constructor
  · intro k
    have := X.returns k
    simp only [Thr.bind_app] at this
    rcases e : x (n + k) s with _ | _ | ⟨o, s2⟩
    · rw [e] at this; cases this
    · rw [e] at this; cases this
    · rw [e] at this
      cases o with
      | ret b k' =>
        simp only [Res.bind_ok, Thr.after_ret, Thr.pure_app, Res.ok.injEq, Prod.mk.injEq, Out.ret.injEq] at this
        obtain ⟨⟨y, rfl⟩, rfl⟩ := this
        rw [inj _ _ y]
      | thrown => simp at this
  · intro k l
    obtain ⟨t, e0, p⟩ := X.throws k l
    refine ⟨t, ?_, p⟩
    simp only [Thr.bind_app] at e0
    rcases e : x k s with _ | _ | ⟨o, s2⟩
    · rw [e] at e0; cases e0
    · rw [e] at e0; cases e0
    · rw [e] at e0
      cases o with
      | ret b k' => simp at e0
      | thrown =>
        simp only [Res.bind_ok, Thr.after_thrown, Res.ok.injEq, Prod.mk.injEq, true_and] at e0
        rw [e0]

theorem legal_append (hc : S c = some s) {a : CArg (K × V)} (va : a.Valid S) : Legal S (.insert c s.vals.length a) :=
  ⟨⟨s, hc⟩, by rw [vals_some hc]; exact Nat.le_refl _, va, .inr (.inr (by rw [vals_some hc]))⟩

theorem fine_arg (F : Fine S h) {a : CArg (K × V)} (va : a.Valid S) : ∃ x e, a.expr h = .ok (x, h) ∧ a.val S = some e ∧ x.get h = .ok (e, h) := by
  cases a with
  | ext v => exact ⟨.ext v, v, rfl, rfl, rfl⟩
  | elem d i =>
    obtain ⟨⟨s, hd⟩, hi⟩ := va
    rw [vals_some hd] at hi
    have v := F.isVec hd
    have hv : s.vals[i]? = some s.vals[i] := List.getElem?_eq_getElem hi
    refine ⟨.slot ⟨s.blk, i⟩, s.vals[i], ?_, ?_, ?_⟩
    · simp only [CArg.expr, Prog.bind_app, Vec.at_ok v, Res.bind_ok]; rfl
    · simp only [CArg.val, vals_some hd, hv]
    · exact (v.holds hv).read

/-- `vector::insert(end(), x)`: the points are those of the client's call. -/
theorem append_points (F : Fine S h) (hc : S c = some s) {a : CArg (K × V)} (va : a.Valid S) {x : Arg (K × V)} (ea : a.expr h = .ok (x, h)) :
    ∃ h', Points (XVec.insertValues c ⟨s.blk, s.vals.length⟩ 1 (.counter x)) h (insertionPoints s s.vals.length 1)
        ⟨((spec (dk, dv) S h.fresh (.insert c s.vals.length a)).get c).blk, s.vals.length⟩ h'
        (fun k t => XVec.exec (dk, dv) (.insert c s.vals.length a) k h = .ok (.thrown, t)) ∧
      Vec.insert c ⟨s.blk, s.vals.length⟩ x h = .ok (⟨((spec (dk, dv) S h.fresh (.insert c s.vals.length a)).get c).blk, s.vals.length⟩, h') ∧
      (∀ k, XVec.exec (dk, dv) (.insert c s.vals.length a) (insertionPoints s s.vals.length 1 + k) h = .ok (.ret (retOf (dk, dv) S h.fresh (.insert c s.vals.length a)) k, h')) := by
  obtain ⟨h', X, e, F'⟩ := XVec.insert_counted (dv := (dk, dv)) F hc (legal_append hc va)
  have v := F.isVec hc
  have X' : Points (XVec.exec (dk, dv) (.insert c s.vals.length a)) h (insertionPoints s s.vals.length 1)
      (Ret.it ⟨((spec (dk, dv) S h.fresh (.insert c s.vals.length a)).get c).blk, s.vals.length⟩) h'
      (fun k t => XVec.exec (dk, dv) (.insert c s.vals.length a) k h = .ok (.thrown, t)) :=
    ⟨X.returns, fun k l => by obtain ⟨t, q, _⟩ := X.throws k l; exact ⟨t, q, q⟩⟩
  refine ⟨h', ?_, ?_, X.returns⟩
  · refine points_split (g := Ret.it) (fun a b e => by cases e; rfl) ⟨fun k => ?_, fun k l => ?_⟩
    · have := X'.returns k
      simp only [XVec.exec, Thr.bind_app, Thr.call_app, ea, Res.bind_ok, Thr.after_ret, Vec.begin_ok v, ptr_add, Nat.zero_add] at this
      exact this
    · obtain ⟨t, q, p⟩ := X'.throws k l
      refine ⟨t, ?_, p⟩
      simp only [XVec.exec, Thr.bind_app, Thr.call_app, ea, Res.bind_ok, Thr.after_ret, Vec.begin_ok v, ptr_add, Nat.zero_add] at q
      exact q
  · rw [VMProps.exec_insert_end v a ea] at e
    simp only [Prog.bind_app] at e
    rcases g : Vec.insert c ⟨s.blk, s.vals.length⟩ x h with _ | _ | ⟨y1, y2⟩
    · rw [g] at e; cases e
    · rw [g] at e; cases e
    · rw [g] at e
      simp only [Res.bind_ok, Prog.pure_app, retOf, Res.ok.injEq, Prod.mk.injEq, Ret.it.injEq] at e
      rw [e.1, e.2]

/-- What call `q` leaves when it throws at point `k`, in terms of the calls on `vector`:
- The comparisons, and `T()` and the copies in `operator[]`: nothing has changed. Calls with a key that is there do nothing else.
- `insert` and `operator[]` of an absent key, after that: what `vector::insert(end(), ...)` leaves when it throws.
- `c[k] = v` of an absent key whose assignment throws: what `vector::insert` leaves when it returns.
- `erase`: what `vector::erase` leaves. -/
def Thrown (dk : K) (dv : V) (S : State (K × V)) (h : VMem K V) : VCall K V → Nat → VMem K V → Prop
  | .base q => fun k t => XVec.exec (dk, dv) q k h = .ok (.thrown, t)
  | .insert c a => fun k t => ∃ e, a.val S = some e ∧ (k < compared e.1 (S.vals c) → t = h) ∧
      (compared e.1 (S.vals c) ≤ k → ¬ Present e.1 (S.vals c) ∧ XVec.exec (dk, dv) (.insert c (S.vals c).length a) (k - compared e.1 (S.vals c)) h = .ok (.thrown, t))
  | .index c key => fun k t => (k < compared key (S.vals c) + 4 → t = h) ∧
      (compared key (S.vals c) + 4 ≤ k → ¬ Present key (S.vals c) ∧
        XVec.exec (dk, dv) (.insert c (S.vals c).length (.ext (key, dv))) (k - (compared key (S.vals c) + 4)) h = .ok (.thrown, t))
  | .put c key v => fun k t => (Present key (S.vals c) → t = h) ∧ (k < compared key (S.vals c) + 4 → t = h) ∧
      (compared key (S.vals c) + 4 ≤ k → ¬ Present key (S.vals c) ∧
        (XVec.exec (dk, dv) (.insert c (S.vals c).length (.ext (key, dv))) (k - (compared key (S.vals c) + 4)) h = .ok (.thrown, t) ∨
         ∃ r, XVec.exec (dk, dv) (.insert c (S.vals c).length (.ext (key, dv))) (k - (compared key (S.vals c) + 4)) h = .ok (.ret r 0, t)))
  | .setAt c key v => fun k t => t = h
  | .eraseKey c key => fun k t => (k < compared key (S.vals c) → t = h) ∧
      (compared key (S.vals c) ≤ k → XVec.exec (dk, dv) (.erase c (pos key (S.vals c))) (k - compared key (S.vals c)) h = .ok (.thrown, t))

theorem index_points (F : Fine S h) (hc : S c = some s) (key : K) :
    ∃ h', Points (index dv c key) h (compared key s.vals + (if Present key s.vals then 0 else 4 + insertionPoints s s.vals.length 1))
        ⟨((addKey dk dv S h.fresh c key (.ext (key, dv))).get c).blk, pos key s.vals⟩ h' (Thrown dk dv S h (.index c key)) ∧
      VMap.index dv c key h = .ok (⟨((addKey dk dv S h.fresh c key (.ext (key, dv))).get c).blk, pos key s.vals⟩, h') ∧
      XSteps (dk, dv) S h (addKey dk dv S h.fresh c key (.ext (key, dv))) h' ∧
      (Present key s.vals → h' = h) ∧
      (¬ Present key s.vals → ∀ k, XVec.exec (dk, dv) (.insert c s.vals.length (.ext (key, dv))) (insertionPoints s s.vals.length 1 + k) h =
        .ok (.ret (retOf (dk, dv) S h.fresh (.insert c s.vals.length (.ext (key, dv)))) k, h')) := by
  have v := F.isVec hc
  have FP := find_points v key
  by_cases p : Present key s.vals
  · have pp : Present key (S.vals c) := by rw [vals_some hc]; exact p
    refine ⟨h, ?_, ?_, ?_, fun _ => rfl, fun n => absurd p n⟩
    · rw [if_pos p]
      refine Points.seq (m := 0) (FP.imp fun k t l q => ?_) (Points.call_seq (end_ok v) ?_)
      · exact ⟨fun _ => q, fun z => by rw [vals_some hc] at z; omega⟩
      · rw [if_pos ((found _ _).2 p)]
        have : Ptr.mk ((addKey dk dv S h.fresh c key (.ext (key, dv))).get c).blk (pos key s.vals) = ⟨s.blk, pos key s.vals⟩ := by
          rw [addKey, if_pos pp, get_some hc]
        rw [this]; exact Points.pure_
    · simp only [VMap.index, Prog.bind_app, VMProps.find_ok v, Res.bind_ok, end_ok v, Prog.ite_app, if_pos ((found _ _).2 p), addKey, if_pos pp, get_some hc]; rfl
    · rw [addKey, if_pos pp]; exact .nil
  · have pp : ¬ Present key (S.vals c) := by rw [vals_some hc]; exact p
    obtain ⟨h', X, e, re⟩ := append_points (dk := dk) (dv := dv) F hc (a := .ext (key, dv)) trivial rfl
    refine ⟨h', ?_, ?_, ?_, fun q => absurd q p, fun _ => re⟩
    · rw [if_neg p]
      refine Points.seq (FP.imp fun k t l q => ?_) (Points.call_seq (end_ok v) ?_)
      · exact ⟨fun _ => q, fun z => by rw [vals_some hc] at z; omega⟩
      · rw [if_neg (mt (found _ _).1 p), absent_pos p]
        have early : ∀ j, j < 4 → Thrown dk dv S h (.index c key) (compared key s.vals + j) h := by
          intro j l
          exact ⟨fun _ => rfl, fun z => by rw [vals_some hc] at z; omega⟩
        have : Ptr.mk ((addKey dk dv S h.fresh c key (.ext (key, dv))).get c).blk s.vals.length =
            ⟨((spec (dk, dv) S h.fresh (.insert c s.vals.length (.ext (key, dv)))).get c).blk, s.vals.length⟩ := by
          rw [addKey, if_neg pp, vals_some hc]
        rw [this]
        refine Points.cast (n := 1 + (1 + (1 + (1 + insertionPoints s s.vals.length 1)))) (by omega)
          (Points.seq (Points.point_ (early 0 (by omega))) (Points.seq (Points.point_ (early 1 (by omega))) (Points.seq (Points.point_ (early 2 (by omega))) (Points.seq (Points.point_ (early 3 (by omega))) (X.imp fun k t l q => ?_)))))
        refine ⟨fun z => by rw [vals_some hc] at z; omega, fun _ => ⟨pp, ?_⟩⟩
        rw [vals_some hc, show compared key s.vals + (1 + (1 + (1 + (1 + k)))) - (compared key s.vals + 4) = k by omega]
        exact q
    · simp only [VMap.index, Prog.bind_app, VMProps.find_ok v, Res.bind_ok, end_ok v, Prog.ite_app, absent_pos p, addKey, vals_some hc, if_neg p, ne_eq, not_true_eq_false, if_false]
      exact e
    · rw [addKey, if_neg pp, vals_some hc]
      exact .returned _ (.insert c s.vals.length (.ext (key, dv))) .nil (legal_append hc trivial) (re 0)

theorem wrSecond_ok (F : Fine S h) (hc : S c = some s) {i : Nat} {k : K} {u : V} (hi : s.vals[i]? = some (k, u)) (v : V) (f : Nat) :
    ∃ h', wrSecond ⟨s.blk, i⟩ v h = .ok ((), h') ∧ XSteps (dk, dv) S h (spec (dk, dv) S f (.store c i (.ext (k, v)))) h' := by
  have w := F.isVec hc
  have hl := (List.getElem?_eq_some_iff.1 hi).1
  have lg : Legal S (.store c i (.ext (k, v))) := ⟨⟨s, hc⟩, by rw [vals_some hc]; exact hl, trivial⟩
  obtain ⟨n, h', P, q, _⟩ := XVec.call_points (dv := (dk, dv)) F _ lg
  refine ⟨h', ?_, .returned n (.store c i (.ext (k, v))) .nil lg (P.returns 0)⟩
  simp only [exec, CArg.expr, Prog.bind_app, Prog.pure_app, Res.bind_ok, store, Arg.get, Vec.at_ok w] at q
  simp only [wrSecond, Prog.bind_app, (w.holds hi).read, Res.bind_ok]
  rcases g : write ⟨s.blk, i⟩ (k, v) h with _ | _ | ⟨y1, y2⟩
  · rw [g] at q; cases q
  · rw [g] at q; cases q
  · rw [g] at q; simp only [Res.bind_ok] at q; cases q; rfl

theorem steps_trans {T : Type} {dv : T} {S S' S'' : State T} {h h' h'' : Mem T} (X : XSteps dv S h S' h') (Y : XSteps dv S' h' S'' h'') : XSteps dv S h S'' h'' := by
  induction Y with
  | nil => exact X
  | returned k q _ lg e ih => exact .returned k q ih lg e
  | thrown k q _ lg e r ih => exact .thrown k q ih lg e r

/-- Every legal call: if nothing throws it does what `vspec` says, and if something throws it leaves what `Thrown` says. -/
theorem call_points (F : Fine S h) (q : VCall K V) (lg : VLegal S q) : ∃ n r h', Points (vexec dk dv q) h n r h' (Thrown dk dv S h q) ∧
    VMProps.vexec dk dv q h = .ok (r, h') ∧ XSteps (dk, dv) S h (vspec dk dv S h.fresh q) h' := by
  cases q with
  | base q =>
    obtain ⟨n, h', P, e, F', _⟩ := XVec.call_points (dv := (dk, dv)) F q lg
    refine ⟨n, .base (retOf (dk, dv) S h.fresh q), h', ?_, ?_, .returned n q .nil lg (P.returns 0)⟩
    · refine Points.seq_pure (g := VRet.base) ⟨P.returns, fun k l => ?_⟩
      obtain ⟨t, x, _⟩ := P.throws k l
      exact ⟨t, x, x⟩
    · simp only [VMProps.vexec, Prog.bind_app, e, Res.bind_ok]; rfl
  | insert c a =>
    obtain ⟨⟨s, hc⟩, va⟩ := lg
    have v := F.isVec hc
    obtain ⟨x, e, ea, ev, eg⟩ := fine_arg F va
    have FP := find_points v e.1
    by_cases p : Present e.1 s.vals
    · have pp : Present e.1 (S.vals c) := by rw [vals_some hc]; exact p
      refine ⟨compared e.1 s.vals, .ins ⟨s.blk, pos e.1 s.vals⟩ false, h, ?_, ?_, ?_⟩
      · refine Points.call_seq ea (Points.seq_pure (g := fun r : Ptr × Bool => VRet.ins r.1 r.2) (a := (⟨s.blk, pos e.1 s.vals⟩, false))
          (Points.call_seq eg (Points.seq (m := 0) (FP.imp fun k t l q => ?_) (Points.call_seq (end_ok v) ?_))))
        · exact ⟨e, ev, fun _ => q, fun z => by rw [vals_some hc] at z; omega⟩
        · rw [if_pos ((found _ _).2 p)]; exact Points.pure_
      · simp only [VMProps.vexec, VMap.insert, Prog.bind_app, ea, Res.bind_ok, eg, VMProps.find_ok v, end_ok v, Prog.ite_app, if_pos ((found _ _).2 p)]; rfl
      · simp only [vspec, ev, addKey, if_pos pp]; exact .nil
    · have pp : ¬ Present e.1 (S.vals c) := by rw [vals_some hc]; exact p
      obtain ⟨h', X, ei, re⟩ := append_points (dk := dk) (dv := dv) F hc va ea
      refine ⟨compared e.1 s.vals + insertionPoints s s.vals.length 1, .ins ⟨((spec (dk, dv) S h.fresh (.insert c s.vals.length a)).get c).blk, s.vals.length⟩ true, h', ?_, ?_, ?_⟩
      · refine Points.call_seq ea (Points.seq_pure (g := fun r : Ptr × Bool => VRet.ins r.1 r.2)
          (a := (⟨((spec (dk, dv) S h.fresh (.insert c s.vals.length a)).get c).blk, s.vals.length⟩, true))
          (Points.call_seq eg (Points.seq (FP.imp fun k t l q => ?_) (Points.call_seq (end_ok v) ?_))))
        · exact ⟨e, ev, fun _ => q, fun z => by rw [vals_some hc] at z; omega⟩
        · rw [if_neg (mt (found _ _).1 p), absent_pos p]
          refine Points.seq_pure (g := fun p : Ptr => (p, true)) (X.imp fun k t l q => ?_)
          refine ⟨e, ev, fun z => by rw [vals_some hc] at z; omega, fun _ => ⟨pp, ?_⟩⟩
          rw [vals_some hc, Nat.add_sub_cancel_left]; exact q
      · simp only [VMProps.vexec, VMap.insert, Prog.bind_app, ea, Res.bind_ok, eg, VMProps.find_ok v, end_ok v, Prog.ite_app, absent_pos p, ne_eq, not_true_eq_false, if_false, ei]; rfl
      · simp only [vspec, ev, addKey, vals_some hc, if_neg p]
        exact .returned _ (.insert c s.vals.length a) .nil (legal_append hc va) (re 0)
  | index c key =>
    obtain ⟨s, hc⟩ := lg
    obtain ⟨h', X, e, R, _⟩ := index_points (dk := dk) (dv := dv) F hc key
    exact ⟨_, _, h', Points.seq_pure (g := VRet.ref) X, by simp only [VMProps.vexec, Prog.bind_app, e, Res.bind_ok]; rfl, R⟩
  | put c key v =>
    obtain ⟨s, hc⟩ := lg
    obtain ⟨h1, X, e, R, pr, ab⟩ := index_points (dk := dk) (dv := dv) F hc key
    obtain ⟨u, hu, uv, _⟩ := addKey_some (dk := dk) (dv := dv) hc h.fresh (k := key) (a := .ext (key, dv)) rfl
    have : ∃ w, u.vals[pos key s.vals]? = some (key, w) := by
      rw [uv]; split
      · exact pos_at ‹_›
      · rw [absent_pos ‹_›]; simp
    obtain ⟨w, hw⟩ := this
    obtain ⟨h2, q2, R2⟩ := wrSecond_ok (dk := dk) (dv := dv) (XSteps.fine F R) hu hw v h.fresh
    rw [get_some hu] at X e
    refine ⟨_, VRet.none, h2, Points.seq (m := 1) (X.imp fun k t l q => ?_) (Points.seq (m := 0) (Points.point_ ?_) (Points.call_seq (a := ()) q2 Points.pure_)), ?_, ?_⟩
    · refine ⟨fun p => q.1 ?_, q.1, fun z => ⟨(q.2 z).1, .inl (q.2 z).2⟩⟩
      rw [vals_some hc] at p ⊢
      rw [if_pos p] at l; omega
    · rw [Nat.add_zero]
      by_cases p : Present key s.vals
      · rw [pr p, if_pos p]
        exact ⟨fun _ => rfl, fun _ => rfl, fun z => by rw [vals_some hc] at z; omega⟩
      · have pp : ¬ Present key (S.vals c) := by rw [vals_some hc]; exact p
        rw [if_neg p]
        refine ⟨fun q => absurd q pp, fun z => by rw [vals_some hc] at z; omega, fun _ => ⟨pp, .inr ⟨retOf (dk, dv) S h.fresh (.insert c s.vals.length (.ext (key, dv))), ?_⟩⟩⟩
        rw [vals_some hc]
        have := ab p 0
        rwa [show compared key s.vals + (4 + insertionPoints s s.vals.length 1) - (compared key s.vals + 4) = insertionPoints s s.vals.length 1 + 0 by omega]
    · simp only [VMProps.vexec, Prog.bind_app, e, Res.bind_ok, q2]; rfl
    · simp only [vspec]; rw [vals_some hc]; exact steps_trans R R2
  | setAt c key v =>
    obtain ⟨⟨s, hc⟩, p⟩ := lg
    rw [vals_some hc] at p
    obtain ⟨u, hu⟩ := pos_at p
    have w := F.isVec hc
    obtain ⟨h2, q2, R2⟩ := wrSecond_ok (dk := dk) (dv := dv) F hc hu v h.fresh
    refine ⟨_, VRet.none, h2, Points.seq (m := 1) (find_points w key) (Points.seq (m := 0) (Points.point_ rfl) (Points.call_seq (a := ()) q2 Points.pure_)), ?_, ?_⟩
    · simp only [VMProps.vexec, atKey, Prog.bind_app, VMProps.find_ok w, Res.bind_ok, q2]; rfl
    · simp only [vspec]; rw [vals_some hc]; exact R2
  | eraseKey c key =>
    obtain ⟨⟨s, hc⟩, p⟩ := lg
    rw [vals_some hc] at p
    have v := F.isVec hc
    have lp := pos_lt.2 p
    obtain ⟨h', X, e, F'⟩ := XVec.erase_counted (dv := (dk, dv)) F hc lp
    have lg : Legal S (.erase c (pos key s.vals)) := ⟨⟨s, hc⟩, by rw [vals_some hc]; exact lp⟩
    refine ⟨compared key s.vals + (s.vals.length - (pos key s.vals + 1)), .base (.it ⟨s.blk, pos key s.vals⟩), h', ?_, ?_, ?_⟩
    · refine Points.seq ((find_points v key).imp fun k t l q => ?_) (Points.seq_pure (g := fun p => VRet.base (.it p)) ?_)
      · exact ⟨fun _ => q, fun z => by rw [vals_some hc] at z; omega⟩
      · refine points_split (g := Ret.it) (fun a b e => by cases e; rfl) ⟨fun k => ?_, fun k l => ?_⟩
        · have := X.returns k
          simp only [XVec.exec, Thr.bind_app, Thr.call_app, Res.bind_ok, Thr.after_ret, Vec.begin_ok v, ptr_add, Nat.zero_add] at this
          exact this
        · obtain ⟨t, x, _⟩ := X.throws k l
          have x0 := x
          simp only [XVec.exec, Thr.bind_app, Thr.call_app, Res.bind_ok, Thr.after_ret, Vec.begin_ok v, ptr_add, Nat.zero_add] at x
          refine ⟨t, x, fun z => by rw [vals_some hc] at z; omega, fun _ => ?_⟩
          rw [vals_some hc, Nat.add_sub_cancel_left]; exact x0
    · simp only [exec, Prog.bind_app, Vec.begin_ok v, Res.bind_ok, ptr_add, Nat.zero_add] at e
      simp only [VMProps.vexec, Prog.bind_app, VMProps.find_ok v, Res.bind_ok]
      rcases g : erase c ⟨s.blk, pos key s.vals⟩ h with _ | _ | ⟨y1, y2⟩
      · rw [g] at e; cases e
      · rw [g] at e; cases e
      · rw [g] at e; simp only [Res.bind_ok, Prog.pure_app, Res.ok.injEq, Prod.mk.injEq, Ret.it.injEq] at e
        obtain ⟨rfl, rfl⟩ := e; rfl
    · simp only [vspec]; rw [vals_some hc]; exact .returned _ (.erase c (pos key s.vals)) .nil lg (X.returns 0)

end Verif.Exc.XVM
