import Verif.Exc.RbCost
import Verif.Exc.RbBad
/-!
# `map::operator[]`, assignment through it, and `map::insert(first, last)` with their temporaries (C156)

`ttl::pair(T1 first, T2 second)` takes its parameters by value (ttl/pair.hpp:21): making `value_type(key, T())` is the making of the value, the copy of
the key to the parameter, and the copies of both parameters to the members, four operations that may throw; `value_type(first->first, first->second)`
is the two copies to the parameters and the two to the members. None of them touches the container or its nodes.
-/
set_option linter.unusedVariables false
set_option linter.unusedSimpArgs false
set_option linter.unusedSectionVars false
namespace Verif.Exc.XRb
open Verif Verif.Rb Verif.Exc Tree

section Model
variable {K V T : Type} [DecidableEq K] (lt : K → K → Bool) (keyOf : V → K)

/-- The making of a temporary pair, in ttl/map.hpp:202 and 256 -/
def makePair : Thr (Heap V) Unit := do Thr.point; Thr.point; Thr.point; Thr.point

/-- `map::insert(first, last)` (ttl/map.hpp:251-257) -/
def insertPairs (hd : Addr) : List V → Thr (Heap V) Unit
  | [] => pure ()
  | v :: vs => do
    makePair
    let _ ← insertUnique lt keyOf hd v
    insertPairs hd vs

/-- `map(first, last)` (ttl/map.hpp:177-180): when an exception leaves the body, the member `rbtree_` is destroyed -/
def pairsCtor (vs : List V) : Thr (Heap V) Addr := do
  let hd ← Thr.call newTree
  Thr.unwinding (insertPairs lt keyOf hd vs) (destroy hd)
  pure hd

/-- `operator[]` (ttl/map.hpp:198-204); the answer stands for the reference to the value in that node -/
def subscript (dflt : T) (hd : Addr) (key : K) : Thr (Heap (K × T)) Addr := do
  let n ← find lt Prod.fst hd key
  if n = hd then do
    makePair
    let r ← insertUnique lt Prod.fst hd (key, dflt)
    pure r.1
  else pure n

/-- `m[key] = t` (ttl/map.hpp:198-204); the assignment of the value may throw, and has then assigned nothing -/
def putAt (dflt : T) (hd : Addr) (key : K) (t : T) : Thr (Heap (K × T)) Unit := do
  let n ← subscript lt dflt hd key
  Thr.point
  Thr.call (storeSecond n t)

/-- `m.at(key) = t` (ttl/map.hpp:206) -/
def atPut (hd : Addr) (key : K) (t : T) : Thr (Heap (K × T)) Unit := do
  let n ← find lt Prod.fst hd key
  Thr.point
  Thr.call (storeSecond n t)

end Model

section Points
variable {K V T : Type} [DecidableEq K] {lt : K → K → Bool} {keyOf : V → K}

theorem tick_tick (h : Heap V) (a b : Nat) : (h.tick a).tick b = h.tick (a + b) := by
  unfold Heap.tick
  simp only [Nat.add_assoc]

theorem makePair_points (h : Heap V) : Points (makePair (V := V)) h 4 () h fun _ t => t = h := by
  have P : Points (Thr.point : Thr (Heap V) Unit) h 1 () h fun _ t => t = h := Points.point_ rfl
  exact Points.seq (n := 1) (m := 3) P (Points.seq (n := 1) (m := 2) P (Points.seq (n := 1) (m := 1) P P))

/-- Where the range insertion of the model returns, and what an exception leaves: the first `i` elements inserted. -/
theorem insertPairs_points (hd : Addr) : ∀ (vs : List V) {h h' : Heap V}, Rb.insertRange lt keyOf hd vs h = .ok ((), h') →
    ∃ n, Points (insertPairs lt keyOf hd vs) h n () h' fun _ t =>
      ∃ i h1 j, i < vs.length ∧ Rb.insertRange lt keyOf hd (vs.take i) h = .ok ((), h1) ∧ t = h1.tick j
  | [], h, h', e => by cases e; exact ⟨0, Points.pure_⟩
  | v :: vs, h, h', e => by
    simp only [Rb.insertRange, Prog.bind_app] at e
    cases q : Rb.insertUnique lt keyOf hd v h with
    | diverge => rw [q] at e; cases e
    | ub f => rw [q] at e; cases e
    | ok y =>
      rw [q] at e
      simp only [Res.bind_ok] at e
      obtain ⟨n, X⟩ := insertUnique_points lt keyOf q
      obtain ⟨m, Y⟩ := insertPairs_points hd vs e
      refine ⟨4 + (n + m), Points.seq ((makePair_points h).imp fun k t l e => ⟨0, h, 0, by simp, rfl, e⟩)
        (Points.seq (X.imp fun k t l ⟨j, e⟩ => ⟨0, h, j, by simp, rfl, e⟩) (Y.imp fun k t l ⟨i, h1, j, l', e', q'⟩ => ⟨i + 1, h1, j, by simpa using l', ?_, q'⟩))⟩
      simp only [List.take_succ_cons, Rb.insertRange, Prog.bind_app, q, Res.bind_ok, e']

theorem find_points {hd : Addr} {key : K} {h h' : Heap V} {x : Addr} (e : Rb.find lt keyOf hd key h = .ok (x, h')) :
    ∃ n, Points (find lt keyOf hd key) h n x h' fun _ t => ∃ j, t = h.tick j :=
  (covers_find lt keyOf hd key).points e ((quiet_find lt keyOf hd key).throws h)

theorem subscript_points {dflt : T} {hd : Addr} {key : K} {h h' : Heap (K × T)} {x : Addr} (e : Rb.subscript lt dflt hd key h = .ok (x, h')) :
    ∃ n, Points (subscript lt dflt hd key) h n x h' fun _ t => ∃ j, t = h.tick j := by
  simp only [Rb.subscript, Prog.bind_app] at e
  cases q : Rb.find lt Prod.fst hd key h with
  | diverge => rw [q] at e; cases e
  | ub f => rw [q] at e; cases e
  | ok y =>
    obtain ⟨y, h1⟩ := y
    rw [q] at e
    simp only [Res.bind_ok] at e
    obtain ⟨n, X⟩ := find_points q
    obtain ⟨j, rfl⟩ := (quiet_find lt Prod.fst hd key).out _ _ _ _ (X.returns 0)
    by_cases ne : y = hd
    · subst ne
      simp only [if_true, Prog.bind_app] at e
      cases q2 : Rb.insertUnique lt Prod.fst y (key, dflt) (h.tick j) with
      | diverge => rw [q2] at e; cases e
      | ub f => rw [q2] at e; cases e
      | ok r =>
        obtain ⟨r, h2⟩ := r
        rw [q2] at e
        simp only [Res.bind_ok, Prog.pure_app, Res.ok.injEq, Prod.mk.injEq] at e
        obtain ⟨rfl, rfl⟩ := e
        obtain ⟨m, Y⟩ := insertUnique_points lt Prod.fst q2
        refine ⟨n + (4 + (m + 0)), Points.seq X ?_⟩
        rw [if_pos rfl]
        exact Points.seq ((makePair_points _).imp fun _ _ _ e => ⟨j, e⟩)
          (Points.seq (Y.imp fun _ _ _ ⟨i, e⟩ => ⟨j + i, by rw [e, tick_tick]⟩) Points.pure_)
    · rw [if_neg ne] at e
      simp only [Prog.pure_app, Res.ok.injEq, Prod.mk.injEq] at e
      obtain ⟨rfl, rfl⟩ := e
      refine ⟨n + 0, Points.seq X ?_⟩
      rw [if_neg ne]
      exact Points.pure_

end Points

section Client
variable {K T : Type} [DecidableEq K] {lt : K → K → Bool} {S : St (K × T)} {n : Nat} {h : Heap (K × T)} {c : Addr}

theorem env_tick {V : Type} {h : Heap V} (w : Wf h) (j : Nat) : Env h (h.tick j) := ⟨rfl, rfl, ⟨w.pos, w.unused⟩⟩
theorem env_untick {V : Type} {h : Heap V} (w : Wf h) (i j : Nat) : Env (h.tick i) (h.tick j) := ⟨rfl, rfl, ⟨w.pos, w.unused⟩⟩

theorem put_put (S : St (K × T)) (c : Addr) (a b : Bool) (u v : List (K × T)) : (S.put c a u).put c b v = S.put c b v := by
  simp only [St.put, List.map_map]
  refine List.map_congr_left fun w _ => ?_
  simp only [Function.comp]
  split <;> simp_all

/-- The elements of a map after `m[key]`. -/
abbrev withKey (lt : K → K → Bool) (dflt : T) (key : K) (vals : List (K × T)) : List (K × T) := addVal lt Prod.fst vals (key, dflt)

theorem subscript_step (ho : StrictTotalOrder lt) (X : XReach lt Prod.fst S n h) (hc : c ∈ S.objs) (dflt : T) (key : K) :
    ∃ x h' es', Rb.subscript lt dflt c key h = .ok (x, h') ∧ XReach lt Prod.fst (S.put c (S.get c).ok (withKey lt dflt key (S.get c).vals)) n h' ∧
      entries c h' = .ok (es', h') ∧ ∃ t, (x, (key, t)) ∈ es' := by
  obtain ⟨es, o, ev, a, w⟩ := (X.inv ho).box hc
  obtain ⟨j, qf⟩ := find_holds ho o a key
  have Xj : XReach lt Prod.fst S n (h.tick j) := .env X (env_tick w j)
  have ins : ∀ r h1, Rb.insertUnique lt Prod.fst c (key, dflt) (h.tick j) = .ok (r, h1) →
      XReach lt Prod.fst (S.put c (S.get c).ok (withKey lt dflt key (S.get c).vals)) n h1 := fun r h1 q => by
    obtain ⟨m, P⟩ := insertUnique_points lt Prod.fst q
    refine .returned (objs := S.objs) (.base (.insert c (key, dflt))) (m + 0) 0 Xj ⟨⟨by simpa [Call.args] using hc, by simp⟩, by simp⟩ ?_
    show (do let _ ← insertUnique lt Prod.fst c (key, dflt); pure S.objs : Thr _ _) (m + 0) (h.tick j) = _
    simp only [Thr.bind_app, P.returns 0, Res.bind_ok, Thr.after_ret, Thr.pure_app]
  have irr := ho.irrefl
  cases qe : es.find? (fun e => decide (e.2.1 = key)) with
  | some e =>
    rw [qe] at qf
    have he := List.mem_of_find?_eq_some qe
    have hk : e.2.1 = key := by simpa using List.find?_some qe
    have nc : e.1 ≠ c := fun q => by
      have nd := o.cells_nodup
      simp only [cells, List.nodup_cons] at nd
      exact nd.1 (by rw [← q]; exact List.mem_map.2 ⟨e, he, rfl⟩)
    refine ⟨e.1, h.tick j, es, ?_, ?_, (o.tick j).entries, e.2.2, by rw [← hk]; exact he⟩
    · simp only [Rb.subscript, Prog.bind_app, qf, Res.bind_ok, Option.map_some, Option.getD_some, if_neg nc, Prog.pure_app]
    · obtain ⟨i, ⟨e', he', hk', q⟩ | ⟨A, B, h', rfl, hA, hB, q, _⟩⟩ := insertUnique_holds ho (env_tick w j).wf (o.tick j) a (key, dflt)
      · have := ins _ _ q
        rw [tick_tick] at this
        exact .env this (env_untick w _ _)
      · simp only [List.mem_append] at he
        rcases he with he | he
        · have := hA e he; rw [hk, irr] at this; cases this
        · have := hB e he; rw [hk, irr] at this; cases this
  | none =>
    rw [qe] at qf
    obtain ⟨i, ⟨e', he', hk', q⟩ | ⟨A, B, h', rfl, hA, hB, q, o', _⟩⟩ := insertUnique_holds ho (env_tick w j).wf (o.tick j) a (key, dflt)
    · have := List.find?_eq_none.1 qe e' he'
      exact absurd hk' (by simpa using this)
    · refine ⟨_, h', _, ?_, ins _ _ q, o'.entries, dflt, List.mem_append.2 (.inr (List.mem_cons_self ..))⟩
      simp only [Rb.subscript, Prog.bind_app, qf, Res.bind_ok, Option.map_none, Option.getD_none, if_true, q, Prog.pure_app]

/-- **C156, `operator[]`.** `m[key]`, in whatever state exceptions have left the program, returns or is left by an exception. If it returns, the map has
the elements it had and, if there was none with the key, one more, with the value `T()`, in order; the answer refers to the element with the key. If it
is left by an exception — of the comparator, of `==`, of the temporary pair or of the new node — memory is what it was (the counter of comparisons
apart). The program goes on. -/
theorem subscript_outcome (ho : StrictTotalOrder lt) (X : XReach lt Prod.fst S n h) (hc : c ∈ S.objs) (dflt : T) (key : K) (k : Nat) :
    (∃ x h' k' es', subscript lt dflt c key k h = .ok (.ret x k', h') ∧
      XReach lt Prod.fst (S.put c (S.get c).ok (withKey lt dflt key (S.get c).vals)) n h' ∧ entries c h' = .ok (es', h') ∧ ∃ t, (x, (key, t)) ∈ es') ∨
    (∃ t j, subscript lt dflt c key k h = .ok (.thrown, t) ∧ t = h.tick j ∧ XReach lt Prod.fst S n t) := by
  obtain ⟨x, h', es', q, X', he, m⟩ := subscript_step ho X hc dflt key
  obtain ⟨N, P⟩ := subscript_points q
  obtain ⟨_, _, _, _, w⟩ := (X.inv ho).box hc
  rcases P.cases k with ⟨_, r⟩ | ⟨_, t, r, j, e⟩
  · exact .inl ⟨x, h', _, es', r, X', he, m⟩
  · exact .inr ⟨t, j, r, e, by subst e; exact .env X (env_tick w j)⟩

/-- The elements of a map after `m[key] = t`, or of one that has the key after `m.at(key) = t`. -/
def setVal (key : K) (t : T) (vals : List (K × T)) : List (K × T) := vals.map fun x => if x.1 = key then (key, t) else x

theorem store_step (ho : StrictTotalOrder lt) (X : XReach lt Prod.fst S n h) (hc : c ∈ S.objs) {es : List (Addr × (K × T))} (he : entries c h = .ok (es, h))
    {x : Addr} {key : K} {u : T} (m : (x, (key, u)) ∈ es) (t : T) :
    ∃ h', storeSecond x t h = .ok ((), h') ∧ XReach lt Prod.fst (S.put c (S.get c).ok (setVal key t (S.get c).vals)) n h' := by
  obtain ⟨o, ev, a, w⟩ := holds_of_entries ho X hc he
  have dx : h.data x = some (key, u) := by
    obtain ⟨tr, r, b, i, d⟩ := o
    exact d _ m
  refine ⟨{ h with data := fun y => if y = x then some (key, t) else h.data y }, by unfold storeSecond; rw [dx], ?_⟩
  obtain ⟨j, qf⟩ := find_holds ho o a key
  have qe : es.find? (fun e => decide (e.2.1 = key)) = some (x, (key, u)) := by
    obtain ⟨A, B, rfl⟩ := List.append_of_mem m
    have no : ∀ y ∈ A, y.2.1 ≠ key := fun y hy q => by
      have := (List.pairwise_append.1 a).2.2 y hy _ (List.mem_cons_self ..)
      rw [q, ho.irrefl] at this; cases this
    rw [List.find?_append, List.find?_eq_none.2 fun y hy => by simpa using no y hy]
    simp
  rw [qe] at qf
  have nc : x ≠ c := fun q => by
    have nd := o.cells_nodup
    simp only [cells, List.nodup_cons] at nd
    exact nd.1 (by rw [← q]; exact List.mem_map.2 ⟨_, m, rfl⟩)
  obtain ⟨N, P⟩ := find_points qf
  let h1 : Heap (K × T) := { h.tick j with data := fun y => if y = x then some (key, t) else h.data y }
  have ex : exec lt Prod.fst S.objs (.base (.store c (key, t))) (N + 1) h = .ok (.ret S.objs 0, h1) := by
    have d' : (h.tick j).data x = some (key, u) := dx
    show (do let n ← find lt Prod.fst c key; if n = c then pure S.objs else do Thr.point; Thr.call (storeData n (key, t)); pure S.objs : Thr _ _) (N + 1) h = _
    simp only [Thr.bind_app, P.returns 1, Res.bind_ok, Thr.after_ret, Option.map_some, Option.getD_some, if_neg nc, Thr.point_succ, Thr.call_app, storeData, d',
      Thr.pure_app]
    rfl
  have X1 := XReach.returned (.base (.store c (key, t))) _ _ X ⟨⟨by simpa [Call.args] using hc, by simp⟩, by simp⟩ ex
  have w1 : Wf h1 := (X1.inv ho).box (by simp only [spec]; rw [put_objs]; exact hc) |>.elim fun _ q => q.2.2.2
  exact .env X1 ⟨rfl, rfl, ⟨w1.pos, w1.unused⟩⟩

/-- **C156, `m[key] = t`.** If it returns, the element with the key has the value `t` and the others are as they were. If it is left by an exception,
either memory is what it was, or the assignment itself threw: the map has then the elements it had and, if there was none with the key, one more, with
the value `T()`. The program goes on. -/
theorem putAt_outcome (ho : StrictTotalOrder lt) (X : XReach lt Prod.fst S n h) (hc : c ∈ S.objs) (dflt : T) (key : K) (t : T) (k : Nat) :
    (∃ h' k', putAt lt dflt c key t k h = .ok (.ret () k', h') ∧
      XReach lt Prod.fst (S.put c (S.get c).ok (setVal key t (withKey lt dflt key (S.get c).vals))) n h') ∨
    (∃ t' j, putAt lt dflt c key t k h = .ok (.thrown, t') ∧ t' = h.tick j ∧ XReach lt Prod.fst S n t') ∨
    (∃ t', putAt lt dflt c key t k h = .ok (.thrown, t') ∧
      XReach lt Prod.fst (S.put c (S.get c).ok (withKey lt dflt key (S.get c).vals)) n t') := by
  rcases subscript_outcome ho X hc dflt key k with ⟨x, h1, k1, es', r, X', he, u, m⟩ | ⟨t', j, r, e, X'⟩
  · have hc' : c ∈ (S.put c (S.get c).ok (withKey lt dflt key (S.get c).vals)).objs := by rw [put_objs]; exact hc
    obtain ⟨h', q, X2⟩ := store_step ho X' hc' he m t
    rw [get_put hc, put_put] at X2
    cases k1 with
    | zero => exact .inr (.inr ⟨h1, by simp only [putAt, Thr.bind_app, r, Res.bind_ok, Thr.after_ret, Thr.point_zero, Thr.after_thrown], X'⟩)
    | succ k1 =>
      exact .inl ⟨h', k1, by simp only [putAt, Thr.bind_app, r, Res.bind_ok, Thr.after_ret, Thr.point_succ, Thr.call_app, q], X2⟩
  · exact .inr (.inl ⟨t', j, by simp only [putAt, Thr.bind_app, r, Res.bind_ok, Thr.after_thrown], e, X'⟩)

/-- **C156, the assignment that throws.** An exception of the assignment in `m[key] = t` with a new key always leaves the key in the map. -/
theorem putAt_leaves_key (ho : StrictTotalOrder lt) (X : XReach lt Prod.fst S n h) (hc : c ∈ S.objs) (dflt : T) (key : K) (t : T)
    (new : ∀ e ∈ (S.get c).vals, e.1 ≠ key) : ∃ k t', putAt lt dflt c key t k h = .ok (.thrown, t') ∧
      XReach lt Prod.fst (S.put c (S.get c).ok (withKey lt dflt key (S.get c).vals)) n t' ∧ (key, dflt) ∈ withKey lt dflt key (S.get c).vals := by
  obtain ⟨x, h', es', q, X', he, m⟩ := subscript_step ho X hc dflt key
  obtain ⟨N, P⟩ := subscript_points q
  refine ⟨N + 0, h', by simp only [putAt, Thr.bind_app, P.returns 0, Res.bind_ok, Thr.after_ret, Thr.point_zero, Thr.after_thrown], X', ?_⟩
  simp only [withKey, addVal]
  rw [if_neg]
  · simp
  · simp only [List.any_eq_true, decide_eq_true_eq, not_exists, not_and]
    exact fun e he => new e he

/-- **C156, `m.at(key) = t`** of a key that is there: if it returns, the element has the value `t`; if it is left by an exception, memory is what it was. -/
theorem atPut_outcome (ho : StrictTotalOrder lt) (X : XReach lt Prod.fst S n h) (hc : c ∈ S.objs) (key : K) (t : T)
    (old : ∃ e ∈ (S.get c).vals, e.1 = key) (k : Nat) :
    (∃ h' k', atPut lt c key t k h = .ok (.ret () k', h') ∧ XReach lt Prod.fst (S.put c (S.get c).ok (setVal key t (S.get c).vals)) n h') ∨
    (∃ t' j, atPut lt c key t k h = .ok (.thrown, t') ∧ t' = h.tick j ∧ XReach lt Prod.fst S n t') := by
  obtain ⟨es, o, ev, a, w⟩ := (X.inv ho).box hc
  obtain ⟨j, qf⟩ := find_holds ho o a key
  obtain ⟨N, P⟩ := find_points qf
  cases qe : es.find? (fun e => decide (e.2.1 = key)) with
  | none =>
    obtain ⟨e, he, hk⟩ := old
    rw [← ev] at he
    obtain ⟨y, hy, rfl⟩ := List.mem_map.1 he
    exact absurd hk (by simpa using List.find?_eq_none.1 qe y hy)
  | some e =>
    rw [qe] at P
    have m := List.mem_of_find?_eq_some qe
    have hk : e.2.1 = key := by simpa using List.find?_some qe
    have Xj : XReach lt Prod.fst S n (h.tick j) := .env X (env_tick w j)
    obtain ⟨h', q, X2⟩ := store_step ho Xj hc (o.tick j).entries (x := e.1) (key := key) (u := e.2.2) (by rw [← hk]; exact m) t
    rcases P.cases k with ⟨_, r⟩ | ⟨_, t', r, i, ei⟩
    · generalize k - N = k1 at r
      cases k1 with
      | zero =>
        refine .inr ⟨h.tick j, j, ?_, rfl, Xj⟩
        simp only [atPut, Thr.bind_app, r, Res.bind_ok, Thr.after_ret, Thr.point_zero, Thr.after_thrown]
      | succ k1 =>
        refine .inl ⟨h', k1, ?_, X2⟩
        simp only [atPut, Thr.bind_app, r, Res.bind_ok, Thr.after_ret, Thr.point_succ, Thr.call_app, Option.map_some, Option.getD_some, q]
    · refine .inr ⟨t', i, ?_, ei, by subst ei; exact .env X (env_tick w i)⟩
      simp only [atPut, Thr.bind_app, r, Res.bind_ok, Thr.after_thrown]

end Client

section Range
variable {K V : Type} [DecidableEq K] {lt : K → K → Bool} {keyOf : V → K} {S : St V} {n : Nat} {h : Heap V} {c : Addr}

theorem range_reach (ho : StrictTotalOrder lt) (X : XReach lt keyOf S n h) (hc : c ∈ S.objs) (vs : List V) {h' : Heap V}
    (q : Rb.insertRange lt keyOf c vs h = .ok ((), h')) : XReach lt keyOf (S.put c (S.get c).ok (vs.foldl (addVal lt keyOf) (S.get c).vals)) n h' := by
  obtain ⟨m, P⟩ := insertRange_points lt keyOf c vs q
  refine .returned (objs := S.objs) (.base (.insertRange c vs)) (m + 0) 0 X ⟨⟨by simpa [Call.args] using hc, by simp⟩, by simp⟩ ?_
  show (do insertRange lt keyOf c vs; pure S.objs : Thr _ _) (m + 0) h = _
  simp only [Thr.bind_app, P.returns 0, Res.bind_ok, Thr.after_ret, Thr.pure_app]

/-- **C156, `map::insert(first, last)`.** If it returns, the elements of the range have been inserted one after the other; if it is left by an
exception, the first `i` of them have been. The program goes on. -/
theorem insertPairs_outcome (ho : StrictTotalOrder lt) (X : XReach lt keyOf S n h) (hc : c ∈ S.objs) (vs : List V) (k : Nat) :
    (∃ h' k', insertPairs lt keyOf c vs k h = .ok (.ret () k', h') ∧
      XReach lt keyOf (S.put c (S.get c).ok (vs.foldl (addVal lt keyOf) (S.get c).vals)) n h') ∨
    (∃ t i, insertPairs lt keyOf c vs k h = .ok (.thrown, t) ∧ i < vs.length ∧
      XReach lt keyOf (S.put c (S.get c).ok ((vs.take i).foldl (addVal lt keyOf) (S.get c).vals)) n t) := by
  obtain ⟨es, o, ev, a, w⟩ := (X.inv ho).box hc
  obtain ⟨h', es', q, _, _, _, _⟩ := insertRange_step ho vs w o a
  obtain ⟨N, P⟩ := insertPairs_points c vs q
  rcases P.cases k with ⟨_, r⟩ | ⟨_, t, r, i, h1, j, l, q1, e⟩
  · exact .inl ⟨h', _, r, range_reach ho X hc vs q⟩
  · have X1 := range_reach ho X hc _ q1
    refine .inr ⟨t, i, r, l, ?_⟩
    subst e
    exact .env X1 (env_tick ((X1.inv ho).box (by rw [put_objs]; exact hc) |>.elim fun _ q => q.2.2.2) j)

/-- **C156, `map(first, last)`.** If it returns, there is one more map, with the elements of the range inserted one after the other; if it is left by an
exception, the maps are what they were, and nothing is lost. The program goes on. -/
theorem pairsCtor_outcome (ho : StrictTotalOrder lt) (X : XReach lt keyOf S n h) (vs : List V) (k : Nat) :
    (∃ c h' k', pairsCtor lt keyOf vs k h = .ok (.ret c k', h') ∧ c ∉ S.objs ∧ XReach lt keyOf (S ++ [⟨c, true, vs.foldl (addVal lt keyOf) []⟩]) n h') ∨
    (∃ t, pairsCtor lt keyOf vs k h = .ok (.thrown, t) ∧ XReach lt keyOf S n t) := by
  have W : Wf h ∧ h.next ∉ S.objs := by
    obtain ⟨bs, L, W, rfl, rfl, _⟩ := X.inv ho
    refine ⟨W.wf, fun hm => ?_⟩
    obtain ⟨A, b, B, rfl, e⟩ := box_at hm
    have := (W.holds b (by simp)).lt W.wf (x := b.hd) (by simp [cells])
    exact absurd this (by rw [e]; exact Nat.lt_irrefl _)
  obtain ⟨w, fresh⟩ := W
  obtain ⟨h1, e1, o1, f1, n1, c1⟩ := newTree_holds w
  have X1 : XReach lt keyOf (S ++ [⟨h.next, true, []⟩]) n h1 := by
    refine .returned (objs := S.objs ++ [h.next]) (.base .create) 0 0 X ⟨⟨by simp [Call.args], by simp⟩, by simp⟩ ?_
    show Thr.call (Rb.call lt keyOf S.objs .create) 0 h = _
    simp only [Thr.call_app, Rb.call, Prog.bind_app, e1, Res.bind_ok, Prog.pure_app]
  have hc : h.next ∈ St.objs (S ++ [⟨h.next, true, []⟩]) := by simp [St.objs]
  have ge : St.get (S ++ [⟨h.next, true, []⟩]) h.next = ⟨h.next, true, []⟩ := by
    simp only [St.get]
    rw [List.find?_append, List.find?_eq_none.2 fun w hw => by simpa using fun q => fresh (List.mem_map.2 ⟨w, hw, q⟩)]
    simp
  have pu : ∀ vals, St.put (S ++ [⟨h.next, true, []⟩]) h.next true vals = S ++ [⟨h.next, true, vals⟩] := fun vals => by
    simp only [St.put, List.map_append, List.map_cons, List.map_nil, if_true]
    congr 1
    conv => rhs; rw [← List.map_id S]
    refine List.map_congr_left fun w hw => ?_
    rw [if_neg fun q => fresh (List.mem_map.2 ⟨w, hw, q⟩)]; rfl
  rcases insertPairs_outcome ho X1 hc vs k with ⟨h', k', r, X'⟩ | ⟨t, i, r, _, X'⟩
  · rw [ge, pu] at X'
    refine .inl ⟨h.next, h', k', ?_, fresh, X'⟩
    simp only [pairsCtor, Thr.bind_app, Thr.call_app, e1, Res.bind_ok, Thr.after_ret, unwinding_ret r, Thr.pure_app]
  · rw [ge, pu] at X'
    have hc' : h.next ∈ St.objs (S ++ [⟨h.next, true, (vs.take i).foldl (addVal lt keyOf) []⟩]) := by simp [St.objs]
    have lg : Legal (S ++ [⟨h.next, true, (vs.take i).foldl (addVal lt keyOf) []⟩]) (.base (.destroy h.next) : XCall K V) :=
      ⟨⟨by simp [Call.args, St.objs], by simp⟩, by simp⟩
    obtain ⟨es, o, _, _, w2⟩ := (X'.inv ho).box hc'
    obtain ⟨t2, e2, _⟩ := destroy_holds w2 o
    have ex : exec lt keyOf (St.objs (S ++ [⟨h.next, true, (vs.take i).foldl (addVal lt keyOf) []⟩])) (.base (.destroy h.next)) 0 t =
        .ok (.ret ((St.objs (S ++ [⟨h.next, true, (vs.take i).foldl (addVal lt keyOf) []⟩])).erase h.next) 0, t2) := by
      show Thr.call (Rb.call lt keyOf _ (.destroy h.next)) 0 t = _
      simp only [Thr.call_app, Rb.call, Prog.bind_app, e2, Res.bind_ok, Prog.pure_app]
    have X2 := XReach.returned (.base (.destroy h.next)) _ _ X' lg ex
    have fi : spec lt keyOf (S ++ [⟨h.next, true, (vs.take i).foldl (addVal lt keyOf) []⟩]) t.next (.base (.destroy h.next) : XCall K V) = S := by
      simp only [spec, List.filter_append]
      rw [List.filter_eq_self.2 fun w hw => by simpa using fun q => fresh (List.mem_map.2 ⟨w, hw, q⟩)]
      simp
    rw [fi] at X2
    refine .inr ⟨t2, ?_, X2⟩
    simp only [pairsCtor, Thr.bind_app, Thr.call_app, e1, Res.bind_ok, Thr.after_ret, unwinding_thrown r e2, Thr.after_thrown]

end Range

/-! ## Costs -/

section Cost
variable {K V T : Type} [DecidableEq K] {lt : K → K → Bool} {keyOf : V → K} {objs : List Addr} {c : Addr}

/-- **C156, cost of `operator[]`.** With `n` elements, `m[key]` makes at most `4 * log2 (n + 1)` comparisons if the key is there, counting calls of the
comparator and `==`, and nothing else; otherwise at most `8 * log2 (n + 1)` comparisons, the four operations of the temporary and one node. -/
theorem subscript_cost (ho : StrictTotalOrder lt) {h : Heap (K × T)} {es : List (Addr × (K × T))} (r : Reach lt Prod.fst objs h) (hc : c ∈ objs)
    (he : entries c h = .ok (es, h)) (dflt : T) (key : K) :
    ∃ m h', Costs (subscript lt dflt c key) h m h' ∧
      ((∃ e ∈ es, e.2.1 = key) → m ≤ 4 * Nat.log2 (es.length + 1) ∧ h'.next = h.next) ∧
      ((∀ e ∈ es, e.2.1 ≠ key) → m ≤ 8 * Nat.log2 (es.length + 1) + 5 ∧ h'.next = h.next + 1) := by
  obtain ⟨o, a, w⟩ := Container.owns_of_entries ho r hc he
  obtain ⟨j, lj, qf⟩ := find_owns ho o a key
  obtain ⟨_, m, P, lm⟩ := (spends_find lt Prod.fst c key).out _ _ _ qf
  have ct : (h.tick j).cmps = h.cmps + j := rfl
  have lm : m ≤ 2 * j := by rw [ct] at lm; omega
  by_cases there : ∃ e ∈ es, e.2.1 = key
  · obtain ⟨e, he', hk⟩ := there
    obtain ⟨y, qy⟩ := Option.isSome_iff_exists.1 (List.find?_isSome (p := fun e : Addr × (K × T) => decide (e.2.1 = key)) |>.2 ⟨e, he', by simpa using hk⟩)
    have my := List.mem_of_find?_eq_some qy
    rw [qy] at P
    have nc : y.1 ≠ c := fun q => by
      have nd := o.cells_nodup
      simp only [cells, List.nodup_cons] at nd
      exact nd.1 (by rw [← q]; exact List.mem_map.2 ⟨y, my, rfl⟩)
    refine ⟨m + 0, h.tick j, Points.costs (P := fun _ _ => True) (a := y.1) (Points.seq P ?_), fun _ => ⟨by omega, rfl⟩, fun no => absurd hk (no e he')⟩
    simp only [Option.map_some, Option.getD_some]
    rw [if_neg nc]
    exact Points.pure_
  · have none : es.find? (fun e : Addr × (K × T) => decide (e.2.1 = key)) = none := List.find?_eq_none.2 fun y hy => by
      simpa using fun q => there ⟨y, hy, q⟩
    rw [none] at P
    obtain ⟨i, li, ⟨e, he', hk, q⟩ | ⟨A, B, h', rfl, hA, hB, q, o', ef, nx, cm⟩⟩ := insertUnique_owns ho (env_tick w j).wf (o.tick j) a (key, dflt)
    · exact absurd ⟨e, he', hk⟩ there
    · obtain ⟨m2, P2, l2⟩ := insertUnique_spends lt Prod.fst q
      refine ⟨m + (4 + (m2 + 0)), h', Points.costs (P := fun _ _ => True) (a := (h.tick j).next) (Points.seq P ?_), fun yes => absurd yes there, fun _ => ⟨?_, nx⟩⟩
      · simp only [Option.map_none, Option.getD_none, if_true]
        exact Points.seq ((makePair_points _).imp fun _ _ _ _ => trivial) (Points.seq P2 Points.pure_)
      · simp only [if_true] at l2
        omega

/-- The range insertion with its temporaries makes four operations more for every element. -/
theorem insertPairs_more (hd : Addr) : ∀ (vs : List V) {h h' : Heap V} {m : Nat}, Points (insertRange lt keyOf hd vs) h m () h' (fun _ _ => True) →
    Rb.insertRange lt keyOf hd vs h = .ok ((), h') → Points (insertPairs lt keyOf hd vs) h (m + 4 * vs.length) () h' fun _ _ => True
  | [], h, h', m, P, e => by
    cases e
    have : m = 0 := (P.costs.unique (Costs.nothing () h)).1
    subst this
    exact Points.pure_
  | v :: vs, h, h', m, P, e => by
    simp only [Rb.insertRange, Prog.bind_app] at e
    cases q : Rb.insertUnique lt keyOf hd v h with
    | diverge => rw [q] at e; cases e
    | ub f => rw [q] at e; cases e
    | ok y =>
      rw [q] at e
      simp only [Res.bind_ok] at e
      obtain ⟨a, X⟩ := insertUnique_points lt keyOf q
      obtain ⟨b, Y⟩ := insertRange_points lt keyOf hd vs e
      have Z : Points (insertRange lt keyOf hd (v :: vs)) h (a + b) () h' fun _ _ => True :=
        Points.seq (X.imp fun _ _ _ _ => trivial) (Y.imp fun _ _ _ _ => trivial)
      obtain ⟨rfl, _⟩ := P.costs.unique Z.costs
      have R := insertPairs_more hd vs (Y.imp fun _ _ _ _ => trivial) e
      refine Points.cast (n := 4 + (a + (b + 4 * vs.length))) (by simp only [List.length_cons]; omega) ?_
      exact Points.seq ((makePair_points h).imp fun _ _ _ _ => trivial) (Points.seq (X.imp fun _ _ _ _ => trivial) R)

/-- **C156, cost of `map::insert(first, last)`**: for every element of the range four operations of the temporary, and beyond them what `insert` costs. -/
theorem insertPairs_cost (ho : StrictTotalOrder lt) {h : Heap V} {es : List (Addr × V)} (r : Reach lt keyOf objs h) (hc : c ∈ objs)
    (he : entries c h = .ok (es, h)) (vs : List V) :
    ∃ n h' es', Costs (insertPairs lt keyOf c vs) h n h' ∧ entries c h' = .ok (es', h') ∧ es'.length ≤ es.length + vs.length ∧
      h'.next = h.next + (es'.length - es.length) ∧
      n ≤ vs.length * (4 * Nat.log2 (es.length + vs.length + 1) + 4) + (es'.length - es.length) := by
  obtain ⟨n, h', es', P, e, _, l2, nx, l3⟩ := insertRange_spends ho hc vs r he
  obtain ⟨o, a, w⟩ := Container.owns_of_entries ho r hc he
  obtain ⟨h1, _, q, _⟩ := insertRange_step (f := true) ho vs w (Holds.of_owns o) a
  obtain ⟨N, X⟩ := insertRange_points lt keyOf c vs q
  obtain ⟨_, rfl⟩ := P.costs.unique X.costs
  refine ⟨_, _, es', (insertPairs_more c vs P q).costs, e, l2, nx, ?_⟩
  rw [Nat.mul_add]
  omega

end Cost

/-! ## These cases exist -/

theorem xmap3 : ∃ c h, XReach (fun a b : Nat => decide (a < b)) Prod.fst [⟨c, true, [(2, 20), (5, 50), (7, 70)]⟩] 0 h :=
  exists_xreach natOrder [(5, 50), (2, 20), (7, 70)]

/-- `{2, 5, 7}`: the assignment in `m[6] = 60` throws, and the map has the key 6; then `m[6] = 61` returns. -/
example : ∃ (c : Addr) (h t h' : Heap (Nat × Nat)) (k : Nat), Shows h c [(2, 20), (5, 50), (7, 70)] ∧
    putAt (fun a b : Nat => decide (a < b)) 0 c 6 60 k h = .ok (.thrown, t) ∧ Shows t c [(2, 20), (5, 50), (6, 0), (7, 70)] ∧
    XReach (fun a b : Nat => decide (a < b)) Prod.fst [⟨c, true, [(2, 20), (5, 50), (6, 61), (7, 70)]⟩] 0 h' := by
  obtain ⟨c, h, X⟩ := xmap3
  obtain ⟨k, t, e, X1, _⟩ := putAt_leaves_key natOrder X (c := c) (by simp [St.objs]) 0 6 60 (by simp [St.get])
  have X2 : XReach (fun a b : Nat => decide (a < b)) Prod.fst [⟨c, true, [(2, 20), (5, 50), (6, 0), (7, 70)]⟩] 0 t := by
    simpa [St.put, St.get, withKey, addVal] using X1
  have s0 := (iteration natOrder X (c := c) (by simp [St.objs])).1
  have s1 := (iteration natOrder X2 (c := c) (by simp [St.objs])).1
  obtain ⟨x, h', es', q, X3, he, u, m⟩ := subscript_step natOrder X2 (c := c) (by simp [St.objs]) 0 6
  obtain ⟨h2, _, X4⟩ := store_step natOrder X3 (c := c) (by simp [St.objs, St.put]) he m 61
  exact ⟨c, h, t, h2, k, by simpa [St.get] using s0, e, by simpa [St.get] using s1, by
    simpa [St.put, St.get, withKey, addVal, setVal] using X4⟩

/-- A map of three elements: `m[9]` costs at most 21. -/
example : ∃ c h m h', Reach (fun a b : Nat => decide (a < b)) Prod.fst [c] h ∧ Costs (subscript (fun a b : Nat => decide (a < b)) (0 : Nat) c 9) h m h' ∧ m ≤ 21 := by
  obtain ⟨c, h, es, r, e, v⟩ := Container.exists_reach (keyOf := Prod.fst) natOrder [(2, 20), (5, 50), (7, 70)] (by simp)
  obtain ⟨m, h', C, _, l⟩ := subscript_cost natOrder r (c := c) (by simp) e (0 : Nat) 9
  have len : es.length = 3 := by have := congrArg List.length v; simpa using this
  have abs : ∀ x ∈ es, x.2.1 ≠ 9 := fun x hx q => by
    have : x.2 ∈ [(2, 20), (5, 50), (7, 70)] := by rw [← v]; exact List.mem_map.2 ⟨x, hx, rfl⟩
    simp only [List.mem_cons, List.not_mem_nil, or_false] at this
    rcases this with p | p | p <;> rw [p] at q <;> simp at q
  refine ⟨c, h, m, h', r, C, ?_⟩
  have := (l abs).1
  rw [len] at this
  have : Nat.log2 (3 + 1) = 2 := by decide
  omega

end Verif.Exc.XRb
