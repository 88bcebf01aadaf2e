import Verif.Map.SLife
/-!
# Client programs over sorted vector maps

A client holds any number of maps and calls their member functions. `spec` is what each call does to the states of the maps, `exec` runs the
model of the C++ code. `Legal` lists the preconditions; it excludes `sorted_vector_map(1)` and insertions beyond 2^32 elements, for which the code is
wrong (see `Verif.Map.SProps`).
-/
set_option linter.unusedVariables false
set_option linter.unusedSimpArgs false
set_option linter.unusedSectionVars false
namespace Verif.SVMap
open Verif Verif.Vec
variable {G : Gone} {K V : Type} [DecidableEq K] {h h' : Mem K V} {S : State K V} {c d i : Nat} {s : SS K V} {lt : K → K → Bool} {dv : V}

/-- A call. -/
inductive Call (K V : Type) where
  | create
  | ctor (n : Nat)
  | copyOf (d : Nat)
  | destroy (c : Nat)
  | clear (c : Nat)
  /-- `c.insert(make_pair(k, v))` -/
  | insert (c : Nat) (k : K) (v : V)
  /-- `c[k]` -/
  | index (c : Nat) (k : K)
  /-- `c[k] = v` -/
  | put (c : Nat) (k : K) (v : V)
  /-- `c.at(k) = v` -/
  | setAt (c : Nat) (k : K) (v : V)
  /-- `i->second = v` for the iterator `i` at position `n` -/
  | store (c n : Nat) (v : V)

/-- What a call returns. -/
inductive Ret where
  | none
  | obj (c : Nat)
  | ins (p : Ptr) (new : Bool)
  | ref (p : Ptr)

/-- Run the model of the call. -/
def exec (lt : K → K → Bool) (dv : V) : Call K V → Prog (Mem K V) Ret
  | .create => do return .obj (← create)
  | .ctor n => do return .obj (← ctor n)
  | .copyOf d => do return .obj (← copyOf d)
  | .destroy c => do destroy c; return .none
  | .clear c => do clear c; return .none
  | .insert c k v => do
    let r ← insert lt c (k, v)
    return .ins r.1 r.2
  | .index c k => do return .ref (← index lt dv c k)
  | .put c k v => do
    wrSecond (← index lt dv c k) v
    return .none
  | .setAt c k v => do
    wrSecond (← at_ lt c k) v
    return .none
  | .store c n v => do
    wrSecond (← rdPtr ((← begin_ c) + n)) v
    return .none

/-- The state of the map `c`. -/
def State.get (S : State K V) (c : Nat) : SS K V := (S c).getD ⟨0, 0, []⟩
/-- The key-value pairs of the map `c`. -/
def State.vals (S : State K V) (c : Nat) : List (K × V) := (S.get c).vals
theorem get_some (q : S c = some s) : S.get c = s := by simp [State.get, q]
theorem vals_some (q : S c = some s) : S.vals c = s.vals := by simp [State.vals, get_some q]

/-- The state with the value at position `i` replaced. -/
def SS.setVal (s : SS K V) (i : Nat) (w : V) : SS K V := ⟨s.blk, s.cap, s.nodes.modify i fun x => (x.1, x.2.1, w)⟩
/-- The state after the insertion of `(k, v)`, if `k` is not present. -/
def SS.insert (lt : K → K → Bool) (f : Nat) (k : K) (v : V) (s : SS K V) : SS K V :=
  if has k s.vals then s else insState f (lb lt k s.vals) (k, v) s

/-- What the call does to the states; `f` is the next identity. -/
def spec (lt : K → K → Bool) (dv : V) (S : State K V) (f : Nat) : Call K V → State K V
  | .create => S.set f (some ⟨0, 0, []⟩)
  | .ctor n => S.set f (some ⟨f + 1, n, []⟩)
  | .copyOf d => S.set f (some ⟨f + 1, (S.get d).cap, renum (f + 2) (S.get d).nodes⟩)
  | .destroy c => S.set c none
  | .clear c => S.set c (some ⟨(S.get c).blk, (S.get c).cap, []⟩)
  | .insert c k v => S.set c (some ((S.get c).insert lt f k v))
  | .index c k => S.set c (some ((S.get c).insert lt f k dv))
  | .put c k v => S.set c (some (((S.get c).insert lt f k dv).setVal (lb lt k (S.vals c)) v))
  | .setAt c k v => S.set c (some ((S.get c).setVal (lb lt k (S.vals c)) v))
  | .store c n v => S.set c (some ((S.get c).setVal n v))

/-- Preconditions. -/
def Legal (S : State K V) : Call K V → Prop
  | .create => True
  | .ctor n => n ≠ 1
  | .copyOf d => S.Exists d
  | .destroy c => S.Exists c
  | .clear c => S.Exists c
  | .insert c _ _ => S.Exists c ∧ (S.vals c).length < 4294967296
  | .index c _ => S.Exists c ∧ (S.vals c).length < 4294967296
  | .put c _ _ => S.Exists c ∧ (S.vals c).length < 4294967296
  | .setAt c k _ => S.Exists c ∧ (S.vals c).length < 4294967296 ∧ has k (S.vals c) = true
  | .store c n _ => S.Exists c ∧ n < (S.vals c).length

/-- Memory `h` is the result of a client program that started without maps. -/
inductive Reach (lt : K → K → Bool) (dv : V) : State K V → Mem K V → Prop where
  | start : Reach lt dv (fun _ => none) ⟨fun _ => none, fun _ => none, fun _ _ => none, 1⟩
  | step {S : State K V} {h h' : Mem K V} {r : Ret} (k : Call K V) : Reach lt dv S h → Legal S k → exec lt dv k h = .ok (r, h') →
      Reach lt dv (spec lt dv S h.fresh k) h'

/-- The invariant of memories; see `WorldG`. -/
structure InvG (G : Gone) (lt : K → K → Bool) (h : Mem K V) (S : State K V) : Prop where
  world : WorldG G h S
  sorted : ∀ c s, S c = some s → Sorted lt s.vals
  cap : ∀ c s, S c = some s → s.cap ≠ 1

/-- The invariant of reachable memories. -/
abbrev Inv (lt : K → K → Bool) (h : Mem K V) (S : State K V) : Prop := InvG Nowhere lt h S

/-! ## Sorted sequences -/

/-- `vs` with `(k, v)` before position `i`. -/
def insVals (i : Nat) (e : K × V) (vs : List (K × V)) : List (K × V) := vs.take i ++ e :: vs.drop i

theorem insState_vals (f i : Nat) (e : K × V) (s : SS K V) : (insState f i e s).vals = insVals i e s.vals := by
  simp only [insState, SS.vals, insVals]
  split <;> simp [insNodes, List.map_take, List.map_drop]

theorem lb_split (O : StrictTotalOrder lt) {k : K} {vs : List (K × V)} (so : Sorted lt vs) (n : has k vs = false) :
    (∀ e ∈ vs.take (lb lt k vs), lt e.1 k = true) ∧ ∀ e ∈ vs.drop (lb lt k vs), lt k e.1 = true := by
  constructor
  · intro e he
    obtain ⟨j, hj⟩ := List.mem_iff_getElem?.1 he
    have := (List.getElem?_eq_some_iff.1 hj).1
    rw [List.length_take] at this
    rw [List.getElem?_take_of_lt (by omega)] at hj
    exact lb_before (by omega) hj
  · intro e he
    obtain ⟨j, hj⟩ := List.mem_iff_getElem?.1 he
    rw [List.getElem?_drop] at hj
    have hne : e.1 ≠ k := fun q => by
      have : has k vs = true := has_iff.2 ⟨_, _, hj, q⟩
      rw [n] at this; cases this
    have hl := (List.getElem?_eq_some_iff.1 hj).1
    have nl : lt e.1 k = false := by
      cases j with
      | zero => exact lb_at hj
      | succ j =>
        have h0 : vs[lb lt k vs]? = some vs[lb lt k vs] := List.getElem?_eq_getElem (by omega)
        have q1 := lb_at h0
        have q2 := sorted_lt so (by omega) h0 hj
        cases q3 : lt e.1 k with
        | false => rfl
        | true => rw [O.trans _ _ _ q2 q3] at q1; cases q1
    rcases O.trichotomy e.1 k with q | q | q
    · rw [nl] at q; cases q
    · exact absurd q hne
    · exact q

theorem sorted_ins (O : StrictTotalOrder lt) {k : K} {v : V} {vs : List (K × V)} (so : Sorted lt vs) (n : has k vs = false) : Sorted lt (insVals (lb lt k vs) (k, v) vs) := by
  obtain ⟨a, b⟩ := lb_split O so n
  have so' : Sorted lt (vs.take (lb lt k vs) ++ vs.drop (lb lt k vs)) := by rw [List.take_append_drop]; exact so
  rw [Sorted, List.pairwise_append] at so'
  rw [Sorted, insVals, List.pairwise_append, List.pairwise_cons]
  refine ⟨so'.1, ⟨b, so'.2.1⟩, ?_⟩
  intro x hx y hy
  rcases List.mem_cons.1 hy with rfl | hy
  · exact a x hx
  · exact so'.2.2 x hx y hy

theorem setVal_vals (s : SS K V) (i : Nat) (w : V) : (s.setVal i w).vals = s.vals.modify i fun e => (e.1, w) := by
  simp only [SS.setVal, SS.vals]
  refine List.ext_getElem? fun k => ?_
  rw [List.getElem?_map, List.getElem?_modify, List.getElem?_modify, List.getElem?_map]
  cases s.nodes[k]? with
  | none => simp
  | some x => by_cases q : i = k <;> simp [q]

theorem keys_setVal (vs : List (K × V)) (i : Nat) (w : V) : (vs.modify i fun e => (e.1, w)).map (·.1) = vs.map (·.1) := by
  refine List.ext_getElem? fun k => ?_
  rw [List.getElem?_map, List.getElem?_modify, List.getElem?_map]
  cases vs[k]? with
  | none => simp
  | some x => by_cases q : i = k <;> simp [q]

theorem sorted_keys {vs : List (K × V)} : Sorted lt vs ↔ (vs.map (·.1)).Pairwise fun a b => lt a b = true := by rw [Sorted, List.pairwise_map]

theorem insert_sorted (O : StrictTotalOrder lt) (so : Sorted lt s.vals) (f : Nat) (k : K) (v : V) : Sorted lt (s.insert lt f k v).vals := by
  simp only [SS.insert]
  cases g : has k s.vals with
  | true => exact so
  | false => simp only [Bool.false_eq_true, if_false]; rw [insState_vals]; exact sorted_ins O so g

theorem setVal_sorted (so : Sorted lt s.vals) (i : Nat) (w : V) : Sorted lt (s.setVal i w).vals := by
  rw [setVal_vals, sorted_keys, keys_setVal, ← sorted_keys]; exact so

theorem insState_cap (f i : Nat) (e : K × V) (q : s.cap ≠ 1) : (insState f i e s).cap ≠ 1 := by
  simp only [insState]; split
  · exact q
  · show (if s.cap = 0 then 2 else s.cap + s.cap / 2) ≠ 1
    split <;> omega
theorem insert_cap (f : Nat) (k : K) (v : V) (q : s.cap ≠ 1) : (s.insert lt f k v).cap ≠ 1 := by
  simp only [SS.insert]; split
  · exact q
  · exact insState_cap _ _ _ q

theorem set_mem {S : State K V} {c : Nat} {o : Option (SS K V)} {P : SS K V → Prop} (a : ∀ c s, S c = some s → P s) (b : ∀ s, o = some s → P s) :
    ∀ d s, S.set c o d = some s → P s := by
  intro d s q
  by_cases e : d = c
  · subst e; rw [set_same] at q; exact b s q
  · rw [set_other S e] at q; exact a d s q

theorem InvG.set (I : InvG G lt h S) {o : Option (SS K V)} (W : WorldG G h' (S.set c o)) (so : ∀ s, o = some s → Sorted lt s.vals) (cp : ∀ s, o = some s → s.cap ≠ 1) :
    InvG G lt h' (S.set c o) := ⟨W, set_mem I.sorted so, set_mem I.cap cp⟩

theorem setVal_eq {x : Nat × K × V} (hx : s.nodes[i]? = some x) (w : V) : s.setVal i w = ⟨s.blk, s.cap, s.nodes.set i (x.1, x.2.1, w)⟩ := by
  obtain ⟨hl, rfl⟩ := List.getElem?_eq_some_iff.1 hx
  simp only [SS.setVal]
  congr 1
  refine List.ext_getElem? fun k => ?_
  rw [List.getElem?_modify, List.getElem?_set]
  by_cases q : i = k
  · subst q; rw [hx]; simp [hl]
  · rw [if_neg q]; simp [q]

/-! ## Executions -/

/-- `insert(value)` in every state in which the search works. -/
theorem insert_ok (O : StrictTotalOrder lt) (W : WorldG G h S) (hc : S c = some s) (so : Sorted lt s.vals) (l : s.nodes.length < uintMod) (k : K) (v : V)
    (ok : has k s.vals = true ∨ ¬ (s.nodes.length = 1 ∧ s.cap = 1)) :
    ∃ h', insert lt c (k, v) h = .ok ((⟨(s.insert lt h.fresh k v).blk, lb lt k s.vals⟩, !has k s.vals), h') ∧ WorldG G h' (S.set c (some (s.insert lt h.fresh k v))) := by
  have w := W.sm c s hc
  cases g : has k s.vals with
  | true =>
    obtain ⟨x, hx⟩ := (has_at O so).1 g
    have hl := (List.getElem?_eq_some_iff.1 hx).1
    rw [vals_length] at hl
    refine ⟨h, ?_, ?_⟩
    · have ne : (⟨s.blk, lb lt k s.vals⟩ : Ptr) ≠ ⟨s.blk, s.nodes.length⟩ := by simp; omega
      simp only [insert, Prog.bind_app, findInsertPos_ok O w so l, Res.bind_ok, end_ok w, Prog.ite_app, if_pos ne, w.deref hx, if_true, Prog.pure_app, SS.insert, g, Bool.not_true]
    · simp only [SS.insert, g, if_true]; rw [← hc, set_self']; exact W
  | false =>
    have ok : ¬ (s.nodes.length = 1 ∧ s.cap = 1) := by rcases ok with q | q; rw [g] at q; cases q; exact q
    have hle := lb_le (lt := lt) (k := k) s.vals
    rw [vals_length] at hle
    obtain ⟨h', e, W'⟩ := insertBefore_ok W hc hle (k, v) ok
    refine ⟨h', ?_, by simp only [SS.insert, g, Bool.false_eq_true, if_false]; exact W'⟩
    simp only [insert, Prog.bind_app, findInsertPos_ok O w so l, Res.bind_ok, end_ok w, Prog.ite_app, SS.insert, g, Bool.false_eq_true, if_false, Bool.not_false]
    by_cases q : lb lt k s.vals = s.nodes.length
    · rw [if_neg (by simp [q])]
      simp only [Prog.bind_app, e, Res.bind_ok, Prog.pure_app]
    · rw [if_pos (by simp [q])]
      have hx : s.vals[lb lt k s.vals]? = some (s.vals[lb lt k s.vals]'(by rw [vals_length]; omega)) := List.getElem?_eq_getElem _
      simp only [Prog.bind_app, w.deref hx, Res.bind_ok, Prog.ite_app]
      rw [if_neg ?_]
      · simp only [Prog.bind_app, e, Res.bind_ok, Prog.pure_app]
      · intro z
        have : has k s.vals = true := has_iff.2 ⟨_, _, hx, z⟩
        rw [g] at this; cases this

/-- The node that holds `k` after the insertion of `k`. -/
theorem insert_node (O : StrictTotalOrder lt) (so : Sorted lt s.vals) (f : Nat) (k : K) (v : V) :
    ∃ x, (s.insert lt f k v).nodes[lb lt k s.vals]? = some x ∧ x.2.1 = k ∧
      (∀ w, (k, w) ∈ s.vals → x.2.2 = w) ∧ (has k s.vals = false → x.2.2 = v ∧ f ≤ x.1) := by
  simp only [SS.insert]
  cases g : has k s.vals with
  | true =>
    obtain ⟨w, hw⟩ := (has_at O so).1 g
    have hw' := hw
    rw [SS.vals, List.getElem?_map, Option.map_eq_some_iff] at hw
    obtain ⟨x, hx, e⟩ := hw
    refine ⟨x, hx, by rw [e], ?_, fun q => by cases q⟩
    intro w' hm
    obtain ⟨j, hj⟩ := List.mem_iff_getElem?.1 hm
    rw [e]
    have : j = lb lt k s.vals := by
      rcases Nat.lt_trichotomy j (lb lt k s.vals) with q | q | q
      · have := sorted_lt so q hj hw'; rw [O.irrefl] at this; cases this
      · exact q
      · have := sorted_lt so q hw' hj; rw [O.irrefl] at this; cases this
    rw [this, hw'] at hj; cases hj; rfl
  | false =>
    have hle := lb_le (lt := lt) (k := k) s.vals
    rw [vals_length] at hle
    refine ⟨if s.nodes.length < s.cap then (f, k, v) else (f + 1, k, v), ?_, ?_, ?_, ?_⟩
    · simp only [insState, Bool.false_eq_true, if_false]
      split <;> (rw [insNodes_get hle]; simp)
    · split <;> rfl
    · intro w hw
      obtain ⟨j, hj⟩ := List.mem_iff_getElem?.1 hw
      have : has k s.vals = true := has_iff.2 ⟨_, _, hj, rfl⟩
      rw [g] at this; cases this
    · intro _; split <;> simp

theorem index_ok (O : StrictTotalOrder lt) (W : WorldG G h S) (hc : S c = some s) (so : Sorted lt s.vals) (l : s.nodes.length < uintMod) (k : K)
    (ok : has k s.vals = true ∨ ¬ (s.nodes.length = 1 ∧ s.cap = 1)) :
    ∃ h' x, index lt dv c k h = .ok (⟨x.1, 0⟩, h') ∧ WorldG G h' (S.set c (some (s.insert lt h.fresh k dv))) ∧ (s.insert lt h.fresh k dv).nodes[lb lt k s.vals]? = some x := by
  obtain ⟨h', e, W'⟩ := insert_ok O W hc so l k dv ok
  obtain ⟨x, hx, _⟩ := insert_node O so h.fresh k dv
  refine ⟨h', x, ?_, W', hx⟩
  obtain ⟨r, _⟩ := (W'.sm c _ (set_same ..)).rd hx
  have w := W.sm c s hc
  have key : index lt dv c k h = (do rdPtr (← insert lt c (k, dv)).1 : Prog (Mem K V) Ptr) h := by
    simp only [index, insert, bind_assoc]
    simp only [Prog.bind_app, findInsertPos_ok O w so l, Res.bind_ok, end_ok w, Prog.ite_app]
    split
    · rename_i ne
      cases g : deref ⟨s.blk, lb lt k s.vals⟩ h with
      | diverge => rfl
      | ub f => rfl
      | ok y =>
        simp only [Res.bind_ok, Prog.ite_app]
        split
        · rfl
        · cases insertBefore c ⟨s.blk, lb lt k s.vals⟩ (k, dv) y.2 <;> rfl
    · cases insertBefore c ⟨s.blk, lb lt k s.vals⟩ (k, dv) h <;> rfl
  rw [key]
  simp only [Prog.bind_app, e, Res.bind_ok, r]

theorem put_ok (O : StrictTotalOrder lt) (W : WorldG G h S) (hc : S c = some s) (so : Sorted lt s.vals) (l : s.nodes.length < uintMod) (k : K) (v : V)
    (ok : has k s.vals = true ∨ ¬ (s.nodes.length = 1 ∧ s.cap = 1)) :
    ∃ h', (do wrSecond (← index lt dv c k) v : Prog (Mem K V) Unit) h = .ok ((), h') ∧ WorldG G h' (S.set c (some ((s.insert lt h.fresh k dv).setVal (lb lt k s.vals) v))) := by
  obtain ⟨h1, x, e1, W1, hx⟩ := index_ok (dv := dv) O W hc so l k ok
  obtain ⟨h2, e2, W2, _⟩ := store_ok W1 (set_same ..) hx v
  rw [set_set] at W2
  refine ⟨h2, by simp only [Prog.bind_app, e1, Res.bind_ok, e2], ?_⟩
  rw [setVal_eq hx]; exact W2

theorem at_ok (O : StrictTotalOrder lt) (w : IsSM h c s) (so : Sorted lt s.vals) (l : s.nodes.length < uintMod) {k : K} {x : Nat × K × V} (g : has k s.vals = true)
    (hx : s.nodes[lb lt k s.vals]? = some x) : at_ lt c k h = .ok (⟨x.1, 0⟩, h) := by
  simp only [at_, Prog.bind_app, find_ok O w so l, Res.bind_ok, g, if_true, (w.rd hx).1]

theorem node_at (O : StrictTotalOrder lt) (so : Sorted lt s.vals) {k : K} (g : has k s.vals = true) : ∃ x, s.nodes[lb lt k s.vals]? = some x ∧ x.2.1 = k := by
  obtain ⟨v, hv⟩ := (has_at O so).1 g
  rw [SS.vals, List.getElem?_map, Option.map_eq_some_iff] at hv
  obtain ⟨x, hx, e⟩ := hv
  exact ⟨x, hx, by rw [e]⟩

/-- Every legal call returns normally and has the effect `spec` on the states. -/
theorem step_ok (O : StrictTotalOrder lt) (I : InvG G lt h S) (k : Call K V) (lg : Legal S k) :
    ∃ r h', exec lt dv k h = .ok (r, h') ∧ InvG G lt h' (spec lt dv S h.fresh k) := by
  have W := I.world
  cases k with
  | create =>
    obtain ⟨h', e, W', _⟩ := create_ok W
    exact ⟨_, h', by simp only [exec, Prog.bind_app, e, Res.bind_ok]; rfl, I.set W' (by rintro _ ⟨⟩; exact List.Pairwise.nil) (by rintro _ ⟨⟩; show 0 ≠ 1; omega)⟩
  | ctor n =>
    obtain ⟨h', e, W', _⟩ := ctor_ok W n
    exact ⟨_, h', by simp only [exec, Prog.bind_app, e, Res.bind_ok]; rfl, I.set W' (by rintro _ ⟨⟩; exact List.Pairwise.nil) (by rintro _ ⟨⟩; exact lg)⟩
  | copyOf d =>
    obtain ⟨t, hd⟩ := lg
    obtain ⟨h', e, W'⟩ := copyOf_ok W hd
    refine ⟨_, h', by simp only [exec, Prog.bind_app, e, Res.bind_ok]; rfl, ?_⟩
    simp only [spec, get_some hd]
    refine I.set W' ?_ ?_
    · rintro _ ⟨⟩; simp only [SS.vals, renum_vals]; exact I.sorted d t hd
    · rintro _ ⟨⟩; exact I.cap d t hd
  | destroy c =>
    obtain ⟨s, hc⟩ := lg
    obtain ⟨h', e, W', _⟩ := destroy_ok W hc
    exact ⟨_, h', by simp only [exec, Prog.bind_app, e, Res.bind_ok]; rfl, I.set W' (fun _ q => by cases q) (fun _ q => by cases q)⟩
  | clear c =>
    obtain ⟨⟨blk, cap, ns⟩, hc⟩ := lg
    obtain ⟨h', e, W'⟩ := clear_ok ns h S blk cap W hc
    refine ⟨_, h', by simp only [exec, Prog.bind_app, e, Res.bind_ok]; rfl, ?_⟩
    simp only [spec, get_some hc]
    exact I.set W' (by rintro _ ⟨⟩; exact List.Pairwise.nil) (by rintro _ ⟨⟩; exact (I.cap c ⟨blk, cap, ns⟩ hc : cap ≠ 1))
  | insert c k v =>
    obtain ⟨⟨s, hc⟩, l⟩ := lg
    rw [vals_some hc, vals_length] at l
    have so := I.sorted c s hc
    have cp := I.cap c s hc
    obtain ⟨h', e, W'⟩ := insert_ok O W hc so l k v (.inr fun q => cp q.2)
    refine ⟨_, h', by simp only [exec, Prog.bind_app, e, Res.bind_ok]; rfl, ?_⟩
    simp only [spec, get_some hc]
    exact I.set W' (by rintro _ ⟨⟩; exact insert_sorted O so _ _ _) (by rintro _ ⟨⟩; exact insert_cap _ _ _ cp)
  | index c k =>
    obtain ⟨⟨s, hc⟩, l⟩ := lg
    rw [vals_some hc, vals_length] at l
    have so := I.sorted c s hc
    have cp := I.cap c s hc
    obtain ⟨h', x, e, W', _⟩ := index_ok (dv := dv) O W hc so l k (.inr fun q => cp q.2)
    refine ⟨_, h', by simp only [exec, Prog.bind_app, e, Res.bind_ok]; rfl, ?_⟩
    simp only [spec, get_some hc]
    exact I.set W' (by rintro _ ⟨⟩; exact insert_sorted O so _ _ _) (by rintro _ ⟨⟩; exact insert_cap _ _ _ cp)
  | put c k v =>
    obtain ⟨⟨s, hc⟩, l⟩ := lg
    rw [vals_some hc, vals_length] at l
    have so := I.sorted c s hc
    have cp := I.cap c s hc
    obtain ⟨h', e, W'⟩ := put_ok (dv := dv) O W hc so l k v (.inr fun q => cp q.2)
    refine ⟨.none, h', ?_, ?_⟩
    · have : exec lt dv (.put c k v) = (do (do wrSecond (← index lt dv c k) v); return .none : Prog (Mem K V) Ret) := by simp only [exec, bind_assoc]
      rw [this, Prog.bind_app, e]; rfl
    simp only [spec, get_some hc, vals_some hc]
    exact I.set W' (by rintro _ ⟨⟩; exact setVal_sorted (insert_sorted O so _ _ _) _ _) (by rintro _ ⟨⟩; exact insert_cap _ _ _ cp)
  | setAt c k v =>
    obtain ⟨⟨s, hc⟩, l, g⟩ := lg
    rw [vals_some hc] at l g
    rw [vals_length] at l
    have so := I.sorted c s hc
    obtain ⟨x, hx, _⟩ := node_at O so g
    obtain ⟨h', e, W', _⟩ := store_ok W hc hx v
    refine ⟨.none, h', by simp only [exec, Prog.bind_app, at_ok O (W.sm c s hc) so l g hx, Res.bind_ok, e]; rfl, ?_⟩
    simp only [spec, get_some hc, vals_some hc]
    refine I.set ?_ (by rintro _ ⟨⟩; exact setVal_sorted so _ _) (by rintro _ ⟨⟩; exact I.cap c s hc)
    rw [setVal_eq hx]; exact W'
  | store c n v =>
    obtain ⟨⟨s, hc⟩, l⟩ := lg
    rw [vals_some hc, vals_length] at l
    have hx : s.nodes[n]? = some s.nodes[n] := List.getElem?_eq_getElem l
    obtain ⟨h', e, W', _⟩ := store_ok W hc hx v
    have w := W.sm c s hc
    refine ⟨.none, h', by simp only [exec, Prog.bind_app, begin_ok w, Res.bind_ok, ptr_add, Nat.zero_add, (w.rd hx).1, e]; rfl, ?_⟩
    simp only [spec, get_some hc, vals_some hc]
    refine I.set ?_ (by rintro _ ⟨⟩; exact setVal_sorted (I.sorted c s hc) _ _) (by rintro _ ⟨⟩; exact I.cap c s hc)
    rw [setVal_eq hx]; exact W'

theorem inv_start : Inv lt (⟨fun _ => none, fun _ => none, fun _ _ => none, 1⟩ : Mem K V) (fun _ => none) := by
  refine ⟨⟨fun _ _ q => (by cases q), fun _ _ _ => rfl, fun _ _ q => (by cases q), fun _ _ _ => ⟨rfl, fun _ => rfl⟩, fun c d b q => (by cases q), fun c b q => (by cases q), Nat.zero_lt_one, fun _ g => g.elim, fun _ g => g.elim⟩,
    fun _ _ q => (by cases q), fun _ _ q => (by cases q)⟩

/-- Every reachable memory satisfies the invariant. -/
theorem Reach.inv (O : StrictTotalOrder lt) (R : Reach lt dv S h) : Inv lt h S := by
  induction R with
  | start => exact inv_start
  | step k R lg e ih =>
    obtain ⟨r, h2, e2, W⟩ := step_ok (dv := dv) O ih k lg
    rw [e] at e2; cases e2; exact W

end Verif.SVMap
