import Verif.Map.VProps
/-!
# Properties of `ttl::vector_map`, continued: what `insert` and `operator[]` return, dictionary histories
-/
set_option linter.unusedVariables false
set_option linter.unusedSimpArgs false
set_option linter.unusedSectionVars false
namespace Verif.VMap.VMProps
open Verif Verif.Vec Verif.Vec.VecProps Verif.VMap
variable {K V : Type} [DecidableEq K] {h h' : VMem K V} {S : State (K × V)} {c d i : Nat} {s : VS (K × V)} {dk : K} {dv : V} {vs ws : List (K × V)}

/-! ## What `insert` and `operator[]` do -/

theorem addKey_kept (R : Reach (dk, dv) S h) (hc : S c = some s) {a : CArg (K × V)} {e : K × V} (ev : a.val S = some e) {k : K} (R' : Reach (dk, dv) (addKey dk dv S f c k a) h') :
    Observes h' c (if Present k s.vals then s.vals else s.vals ++ [e]) ∧ OthersKept S h h' [c] ∧ (addKey dk dv S f c k a).Exists c ∧ ∀ d, S.Exists d → (addKey dk dv S f c k a).Exists d := by
  obtain ⟨t, ht, tv, oth⟩ := addKey_some (dk := dk) (dv := dv) hc f (k := k) ev
  refine ⟨by rw [← tv]; exact isVec_observes (R'.world.vec c t ht), kept_of R R'.world fun d hd _ => oth d (by simpa using hd), ⟨t, ht⟩, ?_⟩
  intro d hd
  by_cases q : d = c
  · subst q; exact ⟨t, ht⟩
  · obtain ⟨u, hu⟩ := hd; exact ⟨u, by rw [oth d q]; exact hu⟩

theorem read_at (R' : Reach (dk, dv) S h') (hc : S.Exists c) (o : Observes h' c vs) (hi : vs[i]? = some e) : read ⟨(S.get c).blk, i⟩ h' = .ok (e, h') := by
  obtain ⟨t, ht, rfl, v⟩ := observed R' hc o
  rw [get_some ht]; exact (v.holds hi).read

/-- `insert` of an argument with value `(k, v)`. -/
theorem insert_core (R : VReach dk dv S h) (hc : S.Exists c) (o : Observes h c vs) {a : CArg (K × V)} (va : a.Valid S) {k : K} {v : V} (ev : a.val S = some (k, v)) (n : ¬ Present k vs) :
    ∃ p h' S', (do insert c (← a.expr) : Prog (VMem K V) (Ptr × Bool)) h = .ok ((p, true), h') ∧ VReach dk dv S' h' ∧ S'.Exists c ∧ Observes h' c (vs ++ [(k, v)]) ∧
      read p h' = .ok ((k, v), h') ∧ find c k h' = .ok (p, h') ∧ OthersKept S h h' [c] ∧ ∀ d, S.Exists d → S'.Exists d := by
  obtain ⟨s, hs, rfl, w⟩ := observed R.vec hc o
  obtain ⟨h', q, R'⟩ := insert_ok R.vec hs va ev
  obtain ⟨o', kept, hx, ex⟩ := addKey_kept R.vec hs ev R'
  rw [if_neg n] at o'
  have ex' : vexec dk dv (.insert c a) h = .ok (.ins ⟨((addKey dk dv S h.fresh c k a).get c).blk, pos k s.vals⟩ (decide (¬ Present k s.vals)), h') := by
    have : vexec dk dv (.insert c a) = (do let r ← (do insert c (← a.expr)); return .ins r.1 r.2 : Prog (VMem K V) VRet) := by simp only [vexec, bind_assoc]
    rw [this, Prog.bind_app, q]; rfl
  have VR := VReach.step (.insert c a) R ⟨⟨s, hs⟩, va⟩ ex'
  simp only [vspec, ev] at VR
  have hi : (s.vals ++ [(k, v)])[pos k s.vals]? = some (k, v) := by rw [absent_pos n]; simp
  refine ⟨_, h', _, by rw [q]; simp [n], VR, hx, o', read_at R' hx o' hi, ?_, kept, ex⟩
  obtain ⟨t, ht, tv, w'⟩ := observed R' hx o'
  rw [find_ok w', get_some ht, tv]
  congr 3
  refine pos_first (v := v) hi fun j x hj hjx e => n ⟨x.2, ?_⟩
  rw [absent_pos n] at hj
  rw [List.getElem?_append_left hj] at hjx
  obtain ⟨x1, x2⟩ := x
  simp only at e; subst e
  exact List.mem_of_getElem? hjx

/-- **C103.** `insert((k, v))` of an absent key appends the entry and returns its position and `true`. The other maps are as before. -/
theorem insert_new (R : VReach dk dv S h) (hc : S.Exists c) (o : Observes h c vs) {k : K} (n : ¬ Present k vs) (v : V) :
    ∃ p h' S', insert c (.ext (k, v)) h = .ok ((p, true), h') ∧ VReach dk dv S' h' ∧ S'.Exists c ∧ Observes h' c (vs ++ [(k, v)]) ∧
      read p h' = .ok ((k, v), h') ∧ find c k h' = .ok (p, h') ∧ OthersKept S h h' [c] ∧ ∀ d, S.Exists d → S'.Exists d :=
  insert_core (a := .ext (k, v)) R hc o trivial rfl n

/-- **C103.** The same if the argument is an entry of any vector map `d`: its value is read before the elements move. -/
theorem insert_element (R : VReach dk dv S h) (hc : S.Exists c) (hd : S.Exists d) (o : Observes h c vs) (od : Observes h d ws) {k : K} {v : V} (hi : ws[i]? = some (k, v)) (n : ¬ Present k vs) :
    ∃ p h' S', (do insert c (.slot (← at_ d i)) : Prog (VMem K V) (Ptr × Bool)) h = .ok ((p, true), h') ∧ VReach dk dv S' h' ∧ S'.Exists c ∧ Observes h' c (vs ++ [(k, v)]) ∧
      read p h' = .ok ((k, v), h') ∧ find c k h' = .ok (p, h') ∧ OthersKept S h h' [c] ∧ ∀ d, S.Exists d → S'.Exists d := by
  obtain ⟨t, ht, rfl, w⟩ := observed R.vec hd od
  have := insert_core (a := .elem d i) R hc o ⟨hd, by rw [vals_some ht]; exact (List.getElem?_eq_some_iff.1 hi).1⟩ (show (S.vals d)[i]? = _ by rw [vals_some ht]; exact hi) n
  simpa only [CArg.expr, bind_assoc, pure_bind] using this

/-- **C103.** `insert((k, v))` of a present key changes nothing, and returns the position of the first entry of `k` and `false`. -/
theorem insert_present (R : VReach dk dv S h) (hc : S.Exists c) (o : Observes h c vs) {k : K} (p : Present k vs) (v : V) :
    ∃ p, insert c (.ext (k, v)) h = .ok ((p, false), h) ∧ find c k h = .ok (p, h) := by
  obtain ⟨s, hs, rfl, w⟩ := observed R.vec hc o
  refine ⟨_, ?_, find_ok w k⟩
  simp only [insert, Arg.get, Prog.bind_app, Prog.pure_app, Res.bind_ok, find_ok w, end_ok w, Prog.ite_app, if_pos ((found _ _).2 p)]

/-- **C103.** `c[k]` refers to the value of the first entry of `k`; if there is none, an entry `(k, T())` is appended first. -/
theorem index_refers (R : VReach dk dv S h) (hc : S.Exists c) (o : Observes h c vs) (k : K) :
    ∃ p h' S', index dv c k h = .ok (p, h') ∧ VReach dk dv S' h' ∧ S'.Exists c ∧ Observes h' c (if Present k vs then vs else vs ++ [(k, dv)]) ∧
      find c k h' = .ok (p, h') ∧ (∃ v, read p h' = .ok ((k, v), h') ∧ (¬ Present k vs → v = dv)) ∧ (Present k vs → h' = h) ∧ OthersKept S h h' [c] ∧ ∀ d, S.Exists d → S'.Exists d := by
  obtain ⟨s, hs, rfl, w⟩ := observed R.vec hc o
  by_cases n : Present k s.vals
  · obtain ⟨u, hu⟩ := pos_at n
    refine ⟨_, h, S, ?_, R, hc, by rw [if_pos n]; exact o, find_ok w k, ⟨u, (w.holds hu).read, fun q => absurd n q⟩, fun _ => rfl, fun _ _ _ _ _ _ o => o, fun _ q => q⟩
    simp only [index, Prog.bind_app, find_ok w, Res.bind_ok, end_ok w, Prog.ite_app, if_pos ((found _ _).2 n)]; rfl
  · obtain ⟨p, h', S', q, VR, hx, o', rd, fd, kept, ex⟩ := insert_new R ⟨s, hs⟩ o n dv
    refine ⟨p, h', S', ?_, VR, hx, by rw [if_neg n]; exact o', fd, ⟨dv, rd, fun _ => rfl⟩, fun q => absurd q n, kept, ex⟩
    simp only [insert, Arg.get, Prog.bind_app, Prog.pure_app, Res.bind_ok, find_ok w, end_ok w, Prog.ite_app, if_neg (mt (found _ _).1 n)] at q
    simp only [index, Prog.bind_app, find_ok w, Res.bind_ok, end_ok w, Prog.ite_app, if_neg (mt (found _ _).1 n)]
    cases g : Vec.insert c ⟨s.blk, pos k s.vals⟩ (.ext (k, dv)) h with
    | ok y =>
      obtain ⟨y1, y2⟩ := y
      rw [g] at q; simp only [Res.bind_ok, Res.ok.injEq, Prod.mk.injEq, and_true] at q
      obtain ⟨rfl, rfl⟩ := q; rfl
    | ub f => rw [g] at q; cases q
    | diverge => rw [g] at q; cases q

/-! ## Dictionary histories -/

/-- The operations of a history. -/
inductive Op (K V : Type) where
  | insert (k : K) (v : V)
  /-- `m[k] = v` -/
  | put (k : K) (v : V)
  /-- `m[k]` -/
  | index (k : K)
  /-- `m.at(k) = v` -/
  | setAt (k : K) (v : V)
  /-- `m.erase(m.find(k))` -/
  | erase (k : K)
  | clear

/-- Dictionary update. -/
def bind1 (D : K → Option V) (k : K) (v : V) : K → Option V := fun x => if x = k then some v else D x

/-- The same operation on a dictionary. -/
def Op.apply (dv : V) : Op K V → (K → Option V) → K → Option V
  | .insert k v, D => if D k = none then bind1 D k v else D
  | .put k v, D => bind1 D k v
  | .index k, D => if D k = none then bind1 D k dv else D
  | .setAt k v, D => bind1 D k v
  | .erase k, D => fun x => if x = k then none else D x
  | .clear, _ => fun _ => none

/-- Its precondition: `at` and `erase` need a present key. -/
def Op.Pre : Op K V → (K → Option V) → Prop
  | .setAt k _, D => D k ≠ none
  | .erase k, D => D k ≠ none
  | _, _ => True

/-- The operation on the map `c`. -/
def Op.call (c : Nat) : Op K V → VCall K V
  | .insert k v => .insert c (.ext (k, v))
  | .put k v => .put c k v
  | .index k => .index c k
  | .setAt k v => .setAt c k v
  | .erase k => .eraseKey c k
  | .clear => .base (.clear c)

/-- Every operation of the history meets its precondition. -/
def OpsOk (dv : V) : List (Op K V) → (K → Option V) → Prop
  | [], _ => True
  | o :: os, D => o.Pre D ∧ OpsOk dv os (o.apply dv D)

/-- The history applied to a dictionary. -/
def applyOps (dv : V) (os : List (Op K V)) (D : K → Option V) : K → Option V := os.foldl (fun D o => o.apply dv D) D

/-- The history on the map `c`. -/
def runOps (dk : K) (dv : V) (c : Nat) : List (Op K V) → Prog (VMem K V) Unit
  | [] => pure ()
  | o :: os => do let _ ← vexec dk dv (o.call c); runOps dk dv c os

/-- The entries `vs` are the dictionary `D`, every key once. -/
def Entries (vs : List (K × V)) (D : K → Option V) : Prop := (vs.map Prod.fst).Nodup ∧ ∀ k v, (k, v) ∈ vs ↔ D k = some v

theorem present_some {D : K → Option V} (e : Entries vs D) (k : K) : Present k vs ↔ D k ≠ none := by
  constructor
  · rintro ⟨v, hv⟩ q; rw [e.2, q] at hv; cases hv
  · intro q
    cases g : D k with
    | none => exact absurd g q
    | some v => exact ⟨v, (e.2 k v).2 g⟩

theorem entries_add {D : K → Option V} (e : Entries vs D) (k : K) (v : V) :
    Entries (if Present k vs then vs else vs ++ [(k, v)]) (if D k = none then bind1 D k v else D) := by
  by_cases g : Present k vs
  · rw [if_pos g, if_neg ((present_some e k).1 g)]; exact e
  · have g' : D k = none := by
      cases q : D k with
      | none => rfl
      | some v => exact absurd ((present_some e k).2 (by rw [q]; simp)) g
    rw [if_neg g, if_pos g']
    refine ⟨?_, fun x y => ?_⟩
    · rw [List.map_append, List.nodup_append]
      refine ⟨e.1, by simp, ?_⟩
      intro a ha b hb q
      simp only [List.map_cons, List.map_nil, List.mem_singleton] at hb
      subst hb; subst q
      obtain ⟨x, hx, rfl⟩ := List.mem_map.1 ha
      exact g ⟨x.2, hx⟩
    · simp only [List.mem_append, List.mem_singleton, Prod.mk.injEq, e.2 x y, bind1]
      by_cases q : x = k
      · subst q; simp [g', eq_comm]
      · simp [q]

theorem nodup_inj {vs : List (K × V)} (nd : (vs.map Prod.fst).Nodup) {i j : Nat} {x y : K × V} (hi : vs[i]? = some x) (hj : vs[j]? = some y) (q : x.1 = y.1) : i = j := by
  have li := (List.getElem?_eq_some_iff.1 hi).1
  have a : (vs.map Prod.fst)[i]? = some x.1 := by rw [List.getElem?_map, hi]; rfl
  have b : (vs.map Prod.fst)[j]? = some y.1 := by rw [List.getElem?_map, hj]; rfl
  exact (List.getElem?_inj (by simpa using li) nd).1 (by rw [a, b, q])

theorem entries_set {D : K → Option V} (e : Entries vs D) {i : Nat} {k : K} {u : V} (hi : vs[i]? = some (k, u)) (w : V) : Entries (vs.set i (k, w)) (bind1 D k w) := by
  have li := (List.getElem?_eq_some_iff.1 hi).1
  constructor
  · have : (vs.set i (k, w)).map Prod.fst = vs.map Prod.fst := by
      refine List.ext_getElem? fun j => ?_
      rw [List.getElem?_map, List.getElem?_set, List.getElem?_map]
      by_cases q : i = j
      · subst q; rw [if_pos rfl, if_pos li, hi]; rfl
      · simp [q]
    rw [this]; exact e.1
  · intro x y
    simp only [bind1]
    constructor
    · intro m
      obtain ⟨j, hj⟩ := List.mem_iff_getElem?.1 m
      rw [List.getElem?_set] at hj
      by_cases q : i = j
      · subst q; simp [li] at hj; obtain ⟨rfl, rfl⟩ := hj; simp
      · simp only [if_neg q] at hj
        rw [if_neg]
        · exact (e.2 x y).1 (List.mem_of_getElem? hj)
        · intro z; exact q (nodup_inj e.1 hi hj z.symm)
    · intro m
      by_cases q : x = k
      · subst q; rw [if_pos rfl] at m; cases m
        exact List.mem_iff_getElem?.2 ⟨i, by rw [List.getElem?_set]; simp [li]⟩
      · rw [if_neg q] at m
        obtain ⟨j, hj⟩ := List.mem_iff_getElem?.1 ((e.2 x y).2 m)
        refine List.mem_iff_getElem?.2 ⟨j, ?_⟩
        rw [List.getElem?_set, if_neg]
        · exact hj
        · rintro rfl; rw [hi] at hj; cases hj; exact q rfl

theorem entries_erase {D : K → Option V} (e : Entries vs D) {i : Nat} {k : K} {u : V} (hi : vs[i]? = some (k, u)) :
    Entries (vs.take i ++ vs.drop (i + 1)) fun x => if x = k then none else D x := by
  have li := (List.getElem?_eq_some_iff.1 hi).1
  rw [← List.eraseIdx_eq_take_drop_succ]
  constructor
  · exact e.1.sublist ((List.eraseIdx_sublist vs i).map Prod.fst)
  · intro x y
    rw [List.mem_eraseIdx_iff_getElem?]
    show _ ↔ (if x = k then none else D x) = some y
    constructor
    · rintro ⟨j, ne, hj⟩
      rw [if_neg]
      · exact (e.2 x y).1 (List.mem_of_getElem? hj)
      · intro z; exact ne (nodup_inj e.1 hj hi z)
    · intro m
      by_cases q : x = k
      · rw [if_pos q] at m; cases m
      · rw [if_neg q] at m
        obtain ⟨j, hj⟩ := List.mem_iff_getElem?.1 ((e.2 x y).2 m)
        exact ⟨j, by rintro rfl; rw [hi] at hj; cases hj; exact q rfl, hj⟩

theorem addKey_put (hc : S c = some s) (f : Nat) {k : K} {v : V} {e : V} :
    ∃ t, addKey dk dv S f c k (.ext (k, e)) = S.put c t ∧ t.vals = if Present k s.vals then s.vals else s.vals ++ [(k, e)] := by
  simp only [addKey, vals_some hc]
  by_cases p : Present k s.vals
  · exact ⟨s, by rw [if_pos p, put_self hc], by rw [if_pos p]⟩
  · exact ⟨_, by rw [if_neg p]; rfl, by rw [get_some hc, ins_vals, if_neg p]; simp [State.copies, CArg.val]⟩

theorem op_spec {D : K → Option V} (hc : S c = some s) (e : Entries s.vals D) (f : Nat) (o : Op K V) (pre : o.Pre D) :
    ∃ t, vspec dk dv S f (o.call c) = S.put c t ∧ Entries t.vals (o.apply dv D) := by
  cases o with
  | insert k v =>
    obtain ⟨t, ht, tv⟩ := addKey_put (dk := dk) (dv := dv) (v := v) hc f (k := k) (e := v)
    exact ⟨t, ht, by rw [tv]; exact entries_add e k v⟩
  | index k =>
    obtain ⟨t, ht, tv⟩ := addKey_put (dk := dk) (dv := dv) (v := dv) hc f (k := k) (e := dv)
    exact ⟨t, ht, by rw [tv]; exact entries_add e k dv⟩
  | put k v =>
    obtain ⟨t, ht, tv⟩ := addKey_put (dk := dk) (dv := dv) (v := dv) hc f (k := k) (e := dv)
    have e1 := entries_add e k dv
    rw [← tv] at e1
    have : ∃ u, t.vals[pos k s.vals]? = some (k, u) := by
      rw [tv]; split
      · exact pos_at ‹_›
      · rw [absent_pos ‹_›]; simp
    obtain ⟨u, hu⟩ := this
    refine ⟨t.become (t.vals.set (pos k s.vals) (k, v)), ?_, ?_⟩
    · simp only [Op.call, vspec, ht, spec, CArg.val, put_get, State.vals, put_put, get_some hc]
    · have := entries_set e1 hu v
      have eq : bind1 (if D k = none then bind1 D k dv else D) k v = bind1 D k v := by
        funext y; simp only [bind1]
        by_cases q : y = k
        · simp [q]
        · simp only [if_neg q]; split
          · simp [bind1, q]
          · rfl
      rw [eq] at this; exact this
  | setAt k v =>
    obtain ⟨u, hu⟩ := pos_at ((present_some e k).2 pre)
    exact ⟨s.become (s.vals.set (pos k s.vals) (k, v)), by simp only [Op.call, vspec, spec, CArg.val, vals_some hc, get_some hc], entries_set e hu v⟩
  | erase k =>
    obtain ⟨u, hu⟩ := pos_at ((present_some e k).2 pre)
    exact ⟨s.become (s.vals.take (pos k s.vals) ++ s.vals.drop (pos k s.vals + 1)), by simp only [Op.call, vspec, spec, vals_some hc, get_some hc], entries_erase e hu⟩
  | clear => exact ⟨_, rfl, by simp [VS.become], by simp [VS.become, Op.apply]⟩

theorem op_legal {D : K → Option V} (hc : S c = some s) (e : Entries s.vals D) (o : Op K V) (p : o.Pre D) : VLegal S (o.call c) := by
  have hx : S.Exists c := ⟨s, hc⟩
  cases o <;> simp only [Op.call, VLegal, vals_some hc, Legal]
  case setAt k v => exact ⟨hx, (present_some e k).2 p⟩
  case erase k => exact ⟨hx, (present_some e k).2 p⟩
  case insert k v => exact ⟨hx, trivial⟩
  all_goals exact hx

theorem history : ∀ (os : List (Op K V)) {h : VMem K V} {S : State (K × V)} {s : VS (K × V)} {D : K → Option V}, VReach dk dv S h → S c = some s → Entries s.vals D → OpsOk dv os D →
    ∃ h' t, runOps dk dv c os h = .ok ((), h') ∧ VReach dk dv (S.put c t) h' ∧ Entries t.vals (applyOps dv os D) ∧ OthersKept S h h' [c]
  | [], h, S, s, D, R, hc, e, ok => ⟨h, s, rfl, by rw [put_self hc]; exact R, e, fun _ _ _ _ _ _ o => o⟩
  | o :: os, h, S, s, D, R, hc, e, ok => by
    obtain ⟨t, ht, et⟩ := op_spec (dk := dk) (dv := dv) hc e h.fresh o ok.1
    obtain ⟨r, h1, q1, R1⟩ := vcall_returns R _ (op_legal hc e o ok.1)
    rw [ht] at R1
    have k1 : OthersKept S h h1 [c] := kept_of R.vec R1.vec.world fun d hd _ => put_other _ (by simpa using hd) _
    obtain ⟨h', t', q, R', e', k⟩ := history os R1 (put_same S c _) et ok.2
    rw [put_put] at R'
    refine ⟨h', t', ?_, R', e', k1.trans k fun d _ hx => put_exists_other _ _ hx⟩
    simp only [runOps, Prog.bind_app, q1, Res.bind_ok, q]

/-- What a client sees of the dictionary `D` in the map `c`: `find` and `at` of every key. -/
def Answers (h : VMem K V) (c : Nat) (D : K → Option V) : Prop :=
  ∀ k, (∀ v, D k = some v → (do read (← find c k) : Prog (VMem K V) (K × V)) h = .ok ((k, v), h) ∧ (do read (← atKey c k) : Prog (VMem K V) (K × V)) h = .ok ((k, v), h)) ∧
    (D k = none → find c k h = end_ c h)

/-- **C104.** Any history of `insert`, `operator[]`, assignment through `operator[]` and `at`, `erase(find(k))` and `clear` on a map with unique keys returns
normally, and is the same history on a dictionary: afterwards iterating gives every entry of the dictionary exactly once, and `find` and `at` answer according to it.
No other map has changed. Without any bound on the number of elements. -/
theorem dictionary_history (os : List (Op K V)) {D : K → Option V} (R : VReach dk dv S h) (hc : S.Exists c) (ob : Observes h c vs) (e : Entries vs D) (ok : OpsOk dv os D) :
    ∃ h' S' ws, runOps dk dv c os h = .ok ((), h') ∧ VReach dk dv S' h' ∧ S'.Exists c ∧ Observes h' c ws ∧ Entries ws (applyOps dv os D) ∧ Answers h' c (applyOps dv os D) ∧
      OthersKept S h h' [c] ∧ ∀ d, S.Exists d → S'.Exists d := by
  obtain ⟨s, hs, rfl, v⟩ := observed R.vec hc ob
  obtain ⟨h', t, q, R', e', k⟩ := history os R hs e ok
  have w := R'.vec.world.vec c t (put_same ..)
  have o' := isVec_observes w
  refine ⟨h', _, t.vals, q, R', put_exists .., o', e', ?_, k, fun d hd => put_exists_other _ _ hd⟩
  intro k
  obtain ⟨b, en, _, e2, _, yes, no⟩ := find_finds R' (put_exists ..) o' k
  refine ⟨fun v hv => ?_, fun n => by rw [no (by rw [present_some e', n]; simp), e2]⟩
  have mem := (e'.2 k v).2 hv
  obtain ⟨i, hi⟩ := List.mem_iff_getElem?.1 mem
  obtain ⟨_, a⟩ := yes i v hi fun j x hj hx z => by have := nodup_inj e'.1 hx hi z; omega
  exact ⟨a, a⟩

/-- C104 from scratch: a new map with any such history is the dictionary that starts empty. -/
theorem new_dictionary_history (dk : K) (dv : V) (os : List (Op K V)) (ok : OpsOk dv os fun _ => none) :
    ∃ h' ws, (do let c ← create; runOps dk dv c os; pure c : Prog (VMem K V) Nat) empty₀ = .ok (1, h') ∧ Observes h' 1 ws ∧ Entries ws (applyOps dv os fun _ => none) ∧
      Answers h' 1 (applyOps dv os fun _ => none) := by
  obtain ⟨r, h1, q1, R1⟩ := vcall_returns (VReach.start (dk := dk) (dv := dv)) (.base .create) trivial
  have hs : (vspec dk dv (fun _ => none) (empty₀ : VMem K V).fresh (.base .create)) 1 = some ⟨[], 0, 0⟩ := put_same (fun _ => none) 1 _
  have o1 := isVec_observes (R1.vec.world.vec 1 _ hs)
  obtain ⟨h', S', ws, q, _, _, ob, e, a, _⟩ := dictionary_history os R1 ⟨_, hs⟩ o1 (D := fun _ => none) ⟨by simp, by simp⟩ ok
  refine ⟨h', ws, ?_, ob, e, a⟩
  have q1' : create (empty₀ : VMem K V) = .ok (1, h1) := by
    simp only [vexec, exec, create_ok, Prog.bind_app, Res.bind_ok, Prog.pure_app] at q1; cases q1; rfl
  simp only [Prog.bind_app, q1', Res.bind_ok, q, Prog.pure_app]

/-! ## Concrete cases -/

example : ∃ h' ws, (do let c ← create; runOps 0 0 c [.put 5 50, .insert 3 30, .index 9, .insert 3 31, .setAt 9 90, .erase 5]; pure c : Prog (VMem Nat Nat) Nat) empty₀ = .ok (1, h') ∧
    Observes h' 1 ws ∧ (3, 30) ∈ ws ∧ (9, 90) ∈ ws ∧ (do read (← atKey 1 9) : Prog (VMem Nat Nat) (Nat × Nat)) h' = .ok ((9, 90), h') ∧ find 1 5 h' = end_ 1 h' := by
  obtain ⟨h', ws, q, o, e, a⟩ := new_dictionary_history (K := Nat) (V := Nat) 0 0 [.put 5 50, .insert 3 30, .index 9, .insert 3 31, .setAt 9 90, .erase 5] (by simp [OpsOk, Op.Pre, Op.apply, bind1])
  exact ⟨h', ws, q, o, (e.2 3 30).2 (by simp [applyOps, Op.apply, bind1]), (e.2 9 90).2 (by simp [applyOps, Op.apply, bind1]), ((a 9).1 90 (by simp [applyOps, Op.apply, bind1])).2, (a 5).2 (by simp [applyOps, Op.apply, bind1])⟩

/-- A new map with the entries 5, 3, and a second entry for 5 that `push_back` adds. -/
theorem demo : ∃ (c : Nat) (S : State (Nat × Nat)) (h : VMem Nat Nat), VReach 0 0 S h ∧ S.Exists c ∧ Observes h c [(5, 50), (3, 30), (5, 51)] := by
  obtain ⟨r1, h1, q1, R1⟩ := vcall_returns (VReach.start (K := Nat) (V := Nat) (dk := 0) (dv := 0)) (.base (.ctorRange (.vals [(5, 50), (3, 30), (5, 51)]))) (by simp [VLegal, Legal, CSrc.Valid])
  have hs : (vspec 0 0 (fun _ => none) (empty₀ : VMem Nat Nat).fresh (.base (.ctorRange (.vals [(5, 50), (3, 30), (5, 51)])))) 1 = some ⟨[(5, 50), (3, 30), (5, 51)], 3, 2⟩ := put_same (fun _ => none) 1 _
  exact ⟨1, _, h1, R1, ⟨_, hs⟩, isVec_observes (R1.vec.world.vec 1 _ hs)⟩

example : ∃ (c : Nat) (h : VMem Nat Nat), Observes h c [(5, 50), (3, 30), (5, 51)] ∧ count c 5 h = .diverge ∧ count c 4 h = .ok (0, h) ∧
    (∃ f, (do read (← atKey c 4) : Prog (VMem Nat Nat) (Nat × Nat)) h = .ub f) ∧ (do read (← atKey c 5) : Prog (VMem Nat Nat) (Nat × Nat)) h = .ok ((5, 50), h) ∧
    (∃ p, insert c (.ext (5, 9)) h = .ok ((p, false), h)) ∧ (∃ p h', insert c (.ext (4, 40)) h = .ok ((p, true), h') ∧ Observes h' c [(5, 50), (3, 30), (5, 51), (4, 40)]) := by
  obtain ⟨c, S, h, R, hc, o⟩ := demo
  have p : Present 5 [(5, 50), (3, 30), (5, 51)] := ⟨50, by simp⟩
  have n : ¬ Present 4 [(5, 50), (3, 30), (5, 51)] := by simp [Present]
  obtain ⟨_, _, _, _, _, yes, _⟩ := find_finds R hc o 5
  obtain ⟨_, e, _⟩ := insert_present R hc o p 9
  obtain ⟨p', h', S', e', _, _, o', _⟩ := insert_new R hc o n 40
  exact ⟨c, h, o, count_present_diverges R hc o p, count_absent_partial R hc o n, at_absent_ub R hc o n, (yes 0 50 rfl (by simp)).2, ⟨_, e⟩, ⟨p', h', e', o'⟩⟩

end Verif.VMap.VMProps
