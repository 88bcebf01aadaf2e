import Verif.Map.SApi
/-!
# Properties of `ttl::sorted_vector_map`

`Reach lt dv S h`: memory `h` is the result of some client program over any number of maps (`Verif.Map.SApi`), and `S` says which ones exist. What
the theorems say about contents is said with client-side observations of `h`: `Observes lt h c vs` means that iterating from `begin()` to `end()` and
back, `size()` and `empty()` of `c` answer according to the sequence `vs` of key-value pairs, that the keys of `vs` are strictly ascending, and
that, as long as there are fewer than 2^32 elements, `find`, `lower_bound`, `upper_bound`, `equal_range` and `at` answer according to `vs`.
`dv` is the value `T()`, `lt` the functor `Compare`.
-/
set_option linter.unusedVariables false
set_option linter.unusedSimpArgs false
set_option linter.unusedSectionVars false
namespace Verif.SVMap.SMProps
open Verif Verif.Vec Verif.SVMap
variable {K V : Type} [DecidableEq K] {h h' : Mem K V} {S : State K V} {c d i : Nat} {s : SS K V} {lt : K → K → Bool} {dv : V} {vs ws : List (K × V)}

/-- `vs` has an entry for `k`. -/
def Present (k : K) (vs : List (K × V)) : Prop := ∃ v, (k, v) ∈ vs

/-- The search functions of `c` answer according to `vs`; `p` is `begin()`, so `p + vs.length` is `end()`. -/
structure Searches (lt : K → K → Bool) (h : Mem K V) (c : Nat) (p : Ptr) (vs : List (K × V)) : Prop where
  /-- `find` of a present key is its position -/
  find_present : ∀ (i : Nat) k v, vs[i]? = some (k, v) → find lt c k h = .ok (p + i, h)
  /-- `find` of an absent key is `end()` -/
  find_absent : ∀ k, ¬ Present k vs → find lt c k h = .ok (p + vs.length, h)
  /-- `lower_bound(k)` has exactly the elements with a smaller key before it -/
  lower : ∀ k, lowerBound lt c k h = .ok (p + vs.countP (fun e => lt e.1 k), h)
  /-- `upper_bound(k)` has exactly the elements whose key is not greater before it -/
  upper : ∀ k, upperBound lt c k h = .ok (p + vs.countP (fun e => !lt k e.1), h)
  /-- `equal_range` of a present key is its position and the next one -/
  range_present : ∀ (i : Nat) k v, vs[i]? = some (k, v) → equalRange lt c k h = .ok ((p + i, p + (i + 1)), h)
  /-- `equal_range` of an absent key is the empty range at the end -/
  range_absent : ∀ k, ¬ Present k vs → equalRange lt c k h = .ok ((p + vs.length, p + vs.length), h)
  /-- `at` of a present key refers to its entry -/
  at_present : ∀ k v, (k, v) ∈ vs → (do rdPair (← at_ lt c k) : Prog (Mem K V) (K × V)) h = .ok ((k, v), h)

/-- Every observer of `c` answers according to `vs`. -/
structure Observes (lt : K → K → Bool) (h : Mem K V) (c : Nat) (vs : List (K × V)) : Prop where
  forward : toList c h = .ok (vs, h)
  backward : toListBack c h = .ok (vs.reverse, h)
  size : size c h = .ok (vs.length, h)
  empty : empty c h = .ok (vs.isEmpty, h)
  /-- the keys are strictly ascending -/
  sorted : vs.Pairwise fun a b => lt a.1 b.1 = true
  bounds : ∃ p, begin_ c h = .ok (p, h) ∧ end_ c h = .ok (p + vs.length, h) ∧
    (∀ (i : Nat) e, vs[i]? = some e → deref (p + i) h = .ok (e, h)) ∧
    (vs.length < 4294967296 → Searches lt h c p vs)

/-- Every map other than those in `L` answers all observers as before. -/
def OthersKept (lt : K → K → Bool) (S : State K V) (h h' : Mem K V) (L : List Nat) : Prop :=
  ∀ d, d ∉ L → S.Exists d → ∀ vs, Observes lt h d vs → Observes lt h' d vs

theorem has_present {k : K} {vs : List (K × V)} : has k vs = true ↔ Present k vs := by
  rw [has_iff]
  constructor
  · rintro ⟨i, ⟨k', v⟩, hi, rfl⟩; exact ⟨v, List.mem_of_getElem? hi⟩
  · rintro ⟨v, hm⟩; obtain ⟨i, hi⟩ := List.mem_iff_getElem?.1 hm; exact ⟨i, _, hi, rfl⟩
theorem has_absent {k : K} {vs : List (K × V)} : has k vs = false ↔ ¬ Present k vs := by
  rw [← has_present]; cases has k vs <;> simp

theorem lb_count (O : StrictTotalOrder lt) (k : K) : ∀ {vs : List (K × V)}, Sorted lt vs → lb lt k vs = vs.countP (fun e => lt e.1 k)
  | [], _ => rfl
  | x :: vs, so => by
    have so' : Sorted lt vs := (List.pairwise_cons.1 so).2
    have ih := lb_count O k so'
    simp only [lb] at ih ⊢
    cases g : lt x.1 k with
    | true => simp only [List.takeWhile, g, List.length_cons, List.countP_cons, if_true]; omega
    | false =>
      simp only [List.takeWhile, g, List.length_nil]
      symm; rw [List.countP_eq_zero]
      intro e he
      rcases List.mem_cons.1 he with rfl | he
      · simp [g]
      · have := (List.pairwise_cons.1 so).1 e he
        cases q : lt e.1 k with
        | false => simp
        | true => rw [O.trans _ _ _ this q] at g; cases g

theorem ub_count (O : StrictTotalOrder lt) (k : K) {vs : List (K × V)} (so : Sorted lt vs) :
    (if has k vs then lb lt k vs + 1 else lb lt k vs) = vs.countP (fun e => !lt k e.1) := by
  induction vs with
  | nil => rfl
  | cons x vs ih =>
    have so' : Sorted lt vs := (List.pairwise_cons.1 so).2
    have ih := ih so'
    have later := (List.pairwise_cons.1 so).1
    rcases O.trichotomy x.1 k with g | g | g
    · have ne : ¬ x.1 = k := by intro q; rw [q, O.irrefl] at g; cases g
      have g' := O.asymm g
      have : has k (x :: vs) = has k vs := by simp [has, ne]
      have e : lb lt k (x :: vs) = lb lt k vs + 1 := by simp [lb, List.takeWhile, g]
      rw [this, e, List.countP_cons, ← ih]
      simp only [g']
      split <;> simp
    · have h1 : has k (x :: vs) = true := by simp [has, g]
      have e : lb lt k (x :: vs) = 0 := by simp [lb, List.takeWhile, g, O.irrefl]
      have z : vs.countP (fun e => !lt k e.1) = 0 := by
        rw [List.countP_eq_zero]; intro e he; have := later e he; rw [g] at this; simp [this]
      rw [h1, e, List.countP_cons, z, if_pos rfl, g, O.irrefl]; rfl
    · have g' := O.asymm g
      have ne : ¬ x.1 = k := by intro q; rw [q, O.irrefl] at g; cases g
      have e : lb lt k (x :: vs) = 0 := by simp [lb, List.takeWhile, g']
      have z : vs.countP (fun e => !lt k e.1) = 0 := by
        rw [List.countP_eq_zero]; intro e he; simp [O.trans _ _ _ g (later e he)]
      have h1 : has k (x :: vs) = false := by
        rw [has_absent]; rintro ⟨v, hm⟩
        rcases List.mem_cons.1 hm with q | q
        · rw [← q] at ne; exact ne rfl
        · have := O.trans _ _ _ g (later _ q); rw [O.irrefl] at this; cases this
      rw [h1, e, List.countP_cons, z, g]; rfl

theorem lb_pos (O : StrictTotalOrder lt) {vs : List (K × V)} (so : Sorted lt vs) {i : Nat} {k : K} {v : V} (hi : vs[i]? = some (k, v)) : has k vs = true ∧ lb lt k vs = i := by
  refine ⟨has_iff.2 ⟨i, _, hi, rfl⟩, ?_⟩
  exact lb_eq (Nat.le_of_lt (List.getElem?_eq_some_iff.1 hi).1) (fun j e q he => sorted_lt so q he hi) (fun e he => by rw [hi] at he; cases he; exact O.irrefl _)

theorem isSM_observes (O : StrictTotalOrder lt) (v : IsSM h c s) (so : Sorted lt s.vals) : Observes lt h c s.vals := by
  refine ⟨toList_ok v, toListBack_ok v, by rw [vals_length]; exact size_ok v, ?_, so, ⟨s.blk, 0⟩, begin_ok v, ?_, ?_, ?_⟩
  · rw [empty_ok v, ← vals_length]; cases s.vals <;> simp
  · rw [end_ok v, vals_length, ptr_add, Nat.zero_add]
  · intro i e he; rw [ptr_add, Nat.zero_add]; exact v.deref he
  · intro l
    have ln := l
    rw [vals_length] at ln
    constructor
    · intro i k x hi
      obtain ⟨a, b⟩ := lb_pos O so hi
      rw [find_ok O v so ln, a, if_pos rfl, b, ptr_add, Nat.zero_add]
    · intro k n
      rw [find_ok O v so ln, has_absent.2 n, vals_length, ptr_add, Nat.zero_add]; rfl
    · intro k
      rw [lowerBound, findInsertPos_ok O v so ln, lb_count O k so, ptr_add, Nat.zero_add]
    · intro k
      rw [upperBound_ok O v so ln, ub_count O k so, ptr_add, Nat.zero_add]
    · intro i k x hi
      obtain ⟨a, b⟩ := lb_pos O so hi
      rw [equalRange_ok O v so ln, a, if_pos rfl, b, ptr_add, Nat.zero_add, ptr_add, Nat.zero_add]
    · intro k n
      rw [equalRange_ok O v so ln, has_absent.2 n, vals_length, ptr_add, Nat.zero_add]; rfl
    · intro k x hm
      obtain ⟨i, hi⟩ := List.mem_iff_getElem?.1 hm
      obtain ⟨a, b⟩ := lb_pos O so hi
      have hi' := hi
      rw [SS.vals, List.getElem?_map, Option.map_eq_some_iff] at hi'
      obtain ⟨y, hy, e⟩ := hi'
      simp only [Prog.bind_app, at_ok O v so ln a (by rw [b]; exact hy), Res.bind_ok, (v.rd hy).2, e]

theorem Observes.inj (a : Observes lt h c vs) (b : Observes lt h c ws) : vs = ws := by
  have := a.forward.symm.trans b.forward; cases this; rfl

/-- **C43.** Every map that exists answers all observers according to one sequence of entries with strictly ascending keys. -/
theorem reach_observes (O : StrictTotalOrder lt) (R : Reach lt dv S h) (hc : S.Exists c) : ∃ vs, Observes lt h c vs := by
  obtain ⟨s, hs⟩ := hc
  have I := R.inv O
  exact ⟨_, isSM_observes O (I.world.sm c s hs) (I.sorted c s hs)⟩

theorem observed (O : StrictTotalOrder lt) (R : Reach lt dv S h) (hc : S.Exists c) (o : Observes lt h c vs) : ∃ s, S c = some s ∧ IsSM h c s ∧ s.vals = vs ∧ Sorted lt s.vals ∧ s.cap ≠ 1 := by
  obtain ⟨s, hs⟩ := hc
  have I := R.inv O
  have v := I.world.sm c s hs
  have so := I.sorted c s hs
  exact ⟨s, hs, v, (isSM_observes O v so).inj o, so, I.cap c s hs⟩

theorem kept_of {S' : State K V} {L : List Nat} (O : StrictTotalOrder lt) (R : Reach lt dv S h) (W' : World h' S') (e : ∀ d, d ∉ L → S.Exists d → S' d = S d) : OthersKept lt S h h' L := by
  intro d hd hx vs o
  obtain ⟨s, hs, v, rfl, so, _⟩ := observed O R hx o
  exact isSM_observes O (W'.sm d _ ((e d hd hx).trans hs)) so

theorem OthersKept.trans {S' : State K V} {h'' : Mem K V} {L : List Nat} (a : OthersKept lt S h h' L) (b : OthersKept lt S' h' h'' L) (e : ∀ d, d ∉ L → S.Exists d → S'.Exists d) :
    OthersKept lt S h h'' L := fun d hd hx vs o => b d hd (e d hd hx) vs (a d hd hx vs o)

theorem set_exists_other (S : State K V) {c d : Nat} (s : SS K V) (hd : S.Exists d) : (S.set c (some s)).Exists d := by
  by_cases q : d = c
  · subst q; exact set_exists _ _ _
  · obtain ⟨t, e⟩ := hd; exact ⟨t, by rw [set_other S q]; exact e⟩

/-- Every legal call returns normally, in a reachable memory again. -/
theorem call_returns (O : StrictTotalOrder lt) (R : Reach lt dv S h) (k : Call K V) (lg : Legal S k) :
    ∃ r h', exec lt dv k h = .ok (r, h') ∧ Reach lt dv (spec lt dv S h.fresh k) h' := by
  obtain ⟨r, h', q, _⟩ := step_ok (dv := dv) O (R.inv O) k lg
  exact ⟨r, h', q, .step k R lg q⟩

/-- A call that only changes the map `c`. -/
theorem one_map (O : StrictTotalOrder lt) (R : Reach lt dv S h) (k : Call K V) (lg : Legal S k) {t : SS K V} (hk : spec lt dv S h.fresh k = S.set c (some t)) :
    ∃ r h', exec lt dv k h = .ok (r, h') ∧ Reach lt dv (S.set c (some t)) h' ∧ Observes lt h' c t.vals ∧ OthersKept lt S h h' [c] := by
  obtain ⟨r, h', q, R'⟩ := call_returns O R k lg
  rw [hk] at R'
  have I := R'.inv O
  refine ⟨r, h', q, R', isSM_observes O (I.world.sm c t (set_same ..)) (I.sorted c t (set_same ..)), kept_of O R I.world ?_⟩
  intro d hd _; exact set_other _ (by simpa using hd) _

/-! ## C43: a map is a dictionary -/

/-- The operations of a history of one map. -/
inductive Op (K V : Type) where
  | insert (k : K) (v : V)
  /-- `m[k] = v` -/
  | put (k : K) (v : V)
  /-- `m[k]` -/
  | index (k : K)
  /-- `m.at(k) = v` -/
  | setAt (k : K) (v : V)
  | clear

/-- Dictionary update. -/
def bind1 (D : K → Option V) (k : K) (v : V) : K → Option V := fun x => if x = k then some v else D x

/-- The same operation on a dictionary. -/
def Op.apply (dv : V) : Op K V → (K → Option V) → K → Option V
  | .insert k v, D => if D k = none then bind1 D k v else D
  | .put k v, D => bind1 D k v
  | .index k, D => if D k = none then bind1 D k dv else D
  | .setAt k v, D => bind1 D k v
  | .clear, _ => fun _ => none

/-- Its precondition: `at` needs a present key. -/
def Op.Pre : Op K V → (K → Option V) → Prop
  | .setAt k _, D => D k ≠ none
  | _, _ => True

/-- The operation on the map `c`. -/
def Op.call (c : Nat) : Op K V → Call K V
  | .insert k v => .insert c k v
  | .put k v => .put c k v
  | .index k => .index c k
  | .setAt k v => .setAt c k v
  | .clear => .clear c

/-- Every operation of the history meets its precondition. -/
def OpsOk (dv : V) : List (Op K V) → (K → Option V) → Prop
  | [], _ => True
  | o :: os, D => o.Pre D ∧ OpsOk dv os (o.apply dv D)

/-- The history applied to a dictionary. -/
def applyOps (dv : V) (os : List (Op K V)) (D : K → Option V) : K → Option V := os.foldl (fun D o => o.apply dv D) D

/-- The history on the map `c`. -/
def runOps (lt : K → K → Bool) (dv : V) (c : Nat) : List (Op K V) → Prog (Mem K V) Unit
  | [] => pure ()
  | o :: os => do let _ ← exec lt dv (o.call c); runOps lt dv c os

/-- The entries `vs` are the dictionary `D`. -/
def Entries (vs : List (K × V)) (D : K → Option V) : Prop := ∀ k v, (k, v) ∈ vs ↔ D k = some v

theorem sorted_unique (O : StrictTotalOrder lt) {vs : List (K × V)} (so : Sorted lt vs) {k : K} {v w : V} (a : (k, v) ∈ vs) (b : (k, w) ∈ vs) : v = w := by
  obtain ⟨i, hi⟩ := List.mem_iff_getElem?.1 a
  obtain ⟨j, hj⟩ := List.mem_iff_getElem?.1 b
  have := (lb_pos O so hi).2.symm.trans (lb_pos O so hj).2
  subst this; rw [hi] at hj; cases hj; rfl

theorem insVals_mem {i : Nat} {e x : K × V} {vs : List (K × V)} : x ∈ insVals i e vs ↔ x = e ∨ x ∈ vs := by
  simp only [insVals, List.mem_append, List.mem_cons]
  conv => rhs; rw [← List.take_append_drop i vs, List.mem_append]
  grind

theorem present_some {vs : List (K × V)} {D : K → Option V} (e : Entries vs D) (k : K) : Present k vs ↔ D k ≠ none := by
  constructor
  · rintro ⟨v, hv⟩ q; rw [e, q] at hv; cases hv
  · intro q
    cases g : D k with
    | none => exact absurd g q
    | some v => exact ⟨v, (e k v).2 g⟩

theorem entries_insert {D : K → Option V} (e : Entries s.vals D) (f : Nat) (k : K) (v : V) :
    Entries (s.insert lt f k v).vals (if D k = none then bind1 D k v else D) := by
  simp only [SS.insert]
  cases g : has k s.vals with
  | true =>
    rw [has_present, present_some e] at g
    rw [if_neg g]; exact e
  | false =>
    rw [has_absent, present_some e] at g
    have g : D k = none := by cases q : D k with | none => rfl | some v => simp [q] at g
    simp only [Bool.false_eq_true, if_false, if_pos g]
    intro x y
    rw [insState_vals, insVals_mem, e x y, bind1]
    by_cases q : x = k
    · subst q; simp [g, eq_comm]
    · simp [q]

theorem mem_modify (O : StrictTotalOrder lt) {vs : List (K × V)} (so : Sorted lt vs) {i : Nat} {k : K} {u : V} (hi : vs[i]? = some (k, u)) (w : V) (x : K) (y : V) :
    (x, y) ∈ (vs.modify i fun e => (e.1, w)) ↔ if x = k then y = w else (x, y) ∈ vs := by
  have hl := (List.getElem?_eq_some_iff.1 hi).1
  simp only [List.mem_iff_getElem?, List.getElem?_modify]
  constructor
  · rintro ⟨j, hj⟩
    cases g : vs[j]? with
    | none => rw [g] at hj; cases hj
    | some e =>
      rw [g] at hj
      by_cases q : i = j
      · subst q; rw [hi] at g; cases g; simp at hj; rw [if_pos hj.1.symm]; exact hj.2.symm
      · simp [q] at hj
        subst hj
        rw [if_neg ?_]
        · exact ⟨j, g⟩
        · rintro rfl
          exact q ((lb_pos O so hi).2.symm.trans (lb_pos O so g).2)
  · split
    · rename_i q; subst q; rintro rfl; exact ⟨i, by rw [hi]; simp⟩
    · rename_i q
      rintro ⟨j, hj⟩
      refine ⟨j, ?_⟩
      rw [hj]
      have : ¬ i = j := by rintro rfl; rw [hi] at hj; cases hj; exact q rfl
      simp [this]

theorem entries_setVal (O : StrictTotalOrder lt) (so : Sorted lt s.vals) {D : K → Option V} (e : Entries s.vals D) {k : K} {u : V} (hi : s.vals[i]? = some (k, u)) (w : V) :
    Entries (s.setVal i w).vals (bind1 D k w) := by
  intro x y
  rw [setVal_vals, mem_modify O so hi, bind1]
  split
  · simp [eq_comm]
  · exact e x y

theorem insert_length (s : SS K V) (f : Nat) (k : K) (v : V) : (s.insert lt f k v).vals.length ≤ s.vals.length + 1 := by
  simp only [SS.insert]; split
  · omega
  · rw [insState_vals, insVals]; simp; omega

theorem setVal_length (s : SS K V) (i : Nat) (w : V) : (s.setVal i w).vals.length = s.vals.length := by rw [setVal_vals]; simp

/-- The state after an operation. -/
def Op.state (lt : K → K → Bool) (dv : V) (f : Nat) (s : SS K V) : Op K V → SS K V
  | .insert k v => s.insert lt f k v
  | .put k v => (s.insert lt f k dv).setVal (lb lt k s.vals) v
  | .index k => s.insert lt f k dv
  | .setAt k v => s.setVal (lb lt k s.vals) v
  | .clear => ⟨s.blk, s.cap, []⟩

theorem op_spec (hc : S c = some s) (f : Nat) (o : Op K V) : spec lt dv S f (o.call c) = S.set c (some (o.state lt dv f s)) := by
  cases o <;> simp only [Op.call, spec, Op.state, get_some hc, vals_some hc]

theorem op_legal {D : K → Option V} (hc : S c = some s) (e : Entries s.vals D) (l : s.vals.length < 4294967296) (o : Op K V) (p : o.Pre D) : Legal S (o.call c) := by
  have hx : S.Exists c := ⟨s, hc⟩
  cases o <;> simp only [Op.call, Legal, vals_some hc]
  case setAt k v => exact ⟨hx, l, has_present.2 ((present_some e k).2 p)⟩
  all_goals first | exact ⟨hx, l⟩ | exact hx

theorem op_entries (O : StrictTotalOrder lt) (so : Sorted lt s.vals) {D : K → Option V} (e : Entries s.vals D) (f : Nat) (o : Op K V) (p : o.Pre D) :
    Entries (o.state lt dv f s).vals (o.apply dv D) ∧ (o.state lt dv f s).vals.length ≤ s.vals.length + 1 := by
  cases o with
  | insert k v => exact ⟨entries_insert e f k v, insert_length ..⟩
  | index k => exact ⟨entries_insert e f k dv, insert_length ..⟩
  | put k v =>
    refine ⟨?_, by rw [Op.state, setVal_length]; exact insert_length ..⟩
    obtain ⟨x, hx, kx, _⟩ := insert_node O so f k dv
    have hx' : (s.insert lt f k dv).vals[lb lt k s.vals]? = some (k, x.2.2) := by rw [SS.vals, List.getElem?_map, hx]; simp [← kx]
    have := entries_setVal O (insert_sorted O so f k dv) (entries_insert (lt := lt) e f k dv) hx' v
    simp only [Op.state, Op.apply]
    have eq : bind1 (if D k = none then bind1 D k dv else D) k v = bind1 D k v := by
      funext y; simp only [bind1]
      by_cases q : y = k
      · simp [q]
      · simp only [if_neg q]; split
        · simp [bind1, q]
        · rfl
    rw [eq] at this; exact this
  | setAt k v =>
    refine ⟨?_, by rw [Op.state, setVal_length]; omega⟩
    have g : has k s.vals = true := has_present.2 ((present_some e k).2 p)
    obtain ⟨u, hu⟩ := (has_at O so).1 g
    exact entries_setVal O so e hu v
  | clear => exact ⟨fun k v => by simp [Op.state, SS.vals, Op.apply], by simp [Op.state, SS.vals]⟩

theorem history (O : StrictTotalOrder lt) : ∀ (os : List (Op K V)) {h : Mem K V} {S : State K V} {s : SS K V} {D : K → Option V}, Reach lt dv S h → S c = some s → Entries s.vals D →
    OpsOk dv os D → s.vals.length + os.length ≤ 4294967296 →
    ∃ h' t, runOps lt dv c os h = .ok ((), h') ∧ Reach lt dv (S.set c (some t)) h' ∧ Entries t.vals (applyOps dv os D) ∧ t.vals.length ≤ s.vals.length + os.length ∧
      OthersKept lt S h h' [c]
  | [], h, S, s, D, R, hc, e, ok, l => ⟨h, s, rfl, by rw [← hc, set_self']; exact R, e, by simp, fun _ _ _ _ o => o⟩
  | o :: os, h, S, s, D, R, hc, e, ok, l => by
    have so := (R.inv O).sorted c s hc
    simp only [List.length_cons] at l
    obtain ⟨r, h1, q1, R1, _, k1⟩ := one_map O R _ (op_legal hc e (by omega) o ok.1) (op_spec hc h.fresh o)
    obtain ⟨e1, l1⟩ := op_entries (dv := dv) O so e h.fresh o ok.1
    obtain ⟨h', t, q, R', e', l', k⟩ := history O os R1 (set_same S c _) e1 ok.2 (by omega)
    rw [set_set] at R'
    refine ⟨h', t, ?_, R', e', by simp only [List.length_cons]; omega, k1.trans k fun d _ hx => set_exists_other _ _ hx⟩
    simp only [runOps, Prog.bind_app, q1, Res.bind_ok, q]

/-- **C43.** Any history of `insert`, `m[k]`, `m[k] = v`, `at` and `clear` on a map, in any reachable memory, returns normally, and
afterwards the map has strictly ascending keys and is the dictionary that the same history makes of the dictionary it was before; no other map has
changed. Partial: the history must not take the map beyond 2^32 elements. -/
theorem dictionary_history_partial (O : StrictTotalOrder lt) (os : List (Op K V)) {D : K → Option V} (R : Reach lt dv S h) (hc : S.Exists c) (ob : Observes lt h c vs) (e : Entries vs D)
    (ok : OpsOk dv os D) (l : vs.length + os.length ≤ 4294967296) :
    ∃ h' S' ws, runOps lt dv c os h = .ok ((), h') ∧ Reach lt dv S' h' ∧ S'.Exists c ∧ Observes lt h' c ws ∧ Entries ws (applyOps dv os D) ∧ OthersKept lt S h h' [c] ∧
      ∀ d, S.Exists d → S'.Exists d := by
  obtain ⟨s, hs, v, rfl, so, _⟩ := observed O R hc ob
  obtain ⟨h', t, q, R', e', _, k⟩ := history O os R hs e ok l
  have I := R'.inv O
  exact ⟨h', _, t.vals, q, R', set_exists .., isSM_observes O (I.world.sm c t (set_same ..)) (I.sorted c t (set_same ..)), e', k, fun d hd => set_exists_other _ _ hd⟩

/-- Memory without maps. -/
def empty₀ : Mem K V := ⟨fun _ => none, fun _ => none, fun _ _ => none, 1⟩

theorem create_empty₀ : create (empty₀ : Mem K V) = .ok (1, ⟨upd (fun _ => none) 1 (some ⟨Ptr.null, Ptr.null, Ptr.null⟩), fun _ => none, fun _ _ => none, 2⟩) := rfl

/-- C43 from scratch: a new map with any history of at most 2^32 operations is the dictionary that starts empty. -/
theorem new_dictionary_history_partial (O : StrictTotalOrder lt) (os : List (Op K V)) (ok : OpsOk dv os fun _ => none) (l : os.length ≤ 4294967296) :
    ∃ h' ws, (do let c ← create; runOps lt dv c os; pure c : Prog (Mem K V) Nat) empty₀ = .ok (1, h') ∧ Observes lt h' 1 ws ∧ Entries ws (applyOps dv os fun _ => none) := by
  obtain ⟨r, h1, q1, R1, o1, _⟩ := one_map (dv := dv) (c := 1) O (Reach.start (lt := lt)) .create trivial rfl
  obtain ⟨h', S', ws, q, _, _, ob, e, _⟩ := dictionary_history_partial O os R1 (set_exists ..) o1 (D := fun _ => none) (fun k v => by simp [SS.vals]) ok (by simpa [SS.vals] using l)
  refine ⟨h', ws, ?_, ob, e⟩
  have q1' : create (empty₀ : Mem K V) = .ok (1, h1) := by
    simp only [exec, Prog.bind_app] at q1
    rw [show (⟨fun _ => none, fun _ => none, fun _ _ => none, 1⟩ : Mem K V) = empty₀ from rfl, create_empty₀] at q1
    rw [create_empty₀]
    simp only [Res.bind_ok, Prog.pure_app] at q1; cases q1; rfl
  simp only [Prog.bind_app, q1', Res.bind_ok, q, Prog.pure_app]

/-! ### What `insert` and `operator[]` return -/

/-- `insert(k, v)` of a new key: the result is an iterator to the new entry and `true`. -/
theorem insert_new (O : StrictTotalOrder lt) (R : Reach lt dv S h) (hc : S.Exists c) (o : Observes lt h c vs) (l : vs.length < 4294967296) {k : K} (n : ¬ Present k vs) (v : V) :
    ∃ p h' S' ws, insert lt c (k, v) h = .ok ((p, true), h') ∧ Reach lt dv S' h' ∧ S'.Exists c ∧ Observes lt h' c ws ∧ ws.Perm ((k, v) :: vs) ∧
      deref p h' = .ok ((k, v), h') ∧ OthersKept lt S h h' [c] := by
  obtain ⟨s, hs, w, rfl, so, cp⟩ := observed O R hc o
  obtain ⟨h', e, W'⟩ := insert_ok O (R.inv O).world hs so (by rwa [← vals_length]) k v (.inr fun q => cp q.2)
  have g := has_absent.2 n
  obtain ⟨x, hx, kx, _, vx⟩ := insert_node O so h.fresh k v
  have ex : exec lt dv (.insert c k v) h = .ok (.ins ⟨(s.insert lt h.fresh k v).blk, lb lt k s.vals⟩ (!has k s.vals), h') := by
    simp only [exec, Prog.bind_app, e, Res.bind_ok]; rfl
  have R' := Reach.step (dv := dv) (.insert c k v) R ⟨hc, by rw [vals_some hs]; exact l⟩ ex
  simp only [spec, get_some hs] at R'
  have v' := W'.sm c _ (set_same ..)
  refine ⟨_, h', _, _, by rw [e, g]; rfl, R', set_exists .., isSM_observes O v' (insert_sorted O so _ _ _), ?_, ?_, kept_of O R W' fun d hd _ => set_other _ (by simpa using hd) _⟩
  · simp only [SS.insert, g, Bool.false_eq_true, if_false, insState_vals, insVals]
    refine List.perm_middle.trans ?_
    rw [List.take_append_drop]
  · refine v'.deref ?_
    rw [SS.vals, List.getElem?_map, hx]
    obtain ⟨x1, x2, x3⟩ := x
    simp only at kx vx
    simp [kx, (vx g).1]

/-- `insert(k, v)` of a present key: nothing changes, the result is an iterator to the old entry and `false`. -/
theorem insert_present (O : StrictTotalOrder lt) (R : Reach lt dv S h) (hc : S.Exists c) (o : Observes lt h c vs) (l : vs.length < 4294967296) {k : K} {u : V} (n : (k, u) ∈ vs) (v : V) :
    ∃ p, insert lt c (k, v) h = .ok ((p, false), h) ∧ deref p h = .ok ((k, u), h) := by
  obtain ⟨s, hs, w, rfl, so, cp⟩ := observed O R hc o
  have g : has k s.vals = true := has_present.2 ⟨u, n⟩
  obtain ⟨i, hi⟩ := List.mem_iff_getElem?.1 n
  have eb := (lb_pos O so hi).2
  have hl := (List.getElem?_eq_some_iff.1 hi).1
  rw [vals_length] at hl
  refine ⟨⟨s.blk, lb lt k s.vals⟩, ?_, by rw [eb]; exact w.deref hi⟩
  have ne : (⟨s.blk, lb lt k s.vals⟩ : Ptr) ≠ ⟨s.blk, s.nodes.length⟩ := by simp; omega
  have hd := w.deref hi
  rw [← eb] at hd
  simp only [insert, Prog.bind_app, findInsertPos_ok O w so (by rwa [← vals_length]), Res.bind_ok, end_ok w, Prog.ite_app, if_pos ne, hd, if_true, Prog.pure_app]

/-- `m[k]` refers to the entry of `k`: the old one if `k` was present, else a new one with value `T()`. -/
theorem index_refers (O : StrictTotalOrder lt) (R : Reach lt dv S h) (hc : S.Exists c) (o : Observes lt h c vs) (l : vs.length < 4294967296) (k : K) :
    ∃ p h' S' ws x, index lt dv c k h = .ok (p, h') ∧ Reach lt dv S' h' ∧ S'.Exists c ∧ Observes lt h' c ws ∧ (k, x) ∈ ws ∧ rdPair p h' = .ok ((k, x), h') ∧
      (∀ v, (k, v) ∈ vs → x = v ∧ ws = vs) ∧ (¬ Present k vs → x = dv ∧ ws.Perm ((k, dv) :: vs)) ∧ OthersKept lt S h h' [c] := by
  obtain ⟨s, hs, w, rfl, so, cp⟩ := observed O R hc o
  obtain ⟨h', x, e, W', hx⟩ := index_ok (dv := dv) O (R.inv O).world hs so (by rwa [← vals_length]) k (.inr fun q => cp q.2)
  obtain ⟨x', hx', kx, ox, nx⟩ := insert_node O so h.fresh k dv
  rw [hx] at hx'; cases hx'
  have ex : exec lt dv (.index c k) h = .ok (.ref ⟨x.1, 0⟩, h') := by
    simp only [exec, Prog.bind_app, e, Res.bind_ok]; rfl
  have R' := Reach.step (dv := dv) (.index c k) R ⟨hc, by rw [vals_some hs]; exact l⟩ ex
  simp only [spec, get_some hs] at R'
  have v' := W'.sm c _ (set_same ..)
  have ee : x.2 = (k, x.2.2) := by rw [← kx]
  refine ⟨_, h', _, _, x.2.2, e, R', set_exists .., isSM_observes O v' (insert_sorted O so _ _ _), ?_, by rw [← ee]; exact (v'.rd hx).2, ?_, ?_,
    kept_of O R W' fun d hd _ => set_other _ (by simpa using hd) _⟩
  · rw [← ee]; exact List.mem_map.2 ⟨x, List.mem_of_getElem? hx, rfl⟩
  · intro v hv
    exact ⟨ox v hv, by simp only [SS.insert, has_present.2 ⟨v, hv⟩, if_true]⟩
  · intro n
    have g := has_absent.2 n
    refine ⟨(nx g).1, ?_⟩
    simp only [SS.insert, g, Bool.false_eq_true, if_false, insState_vals, insVals]
    refine List.perm_middle.trans ?_
    rw [List.take_append_drop]

end Verif.SVMap.SMProps
