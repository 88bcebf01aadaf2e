import Verif.Seq.LazyProps
import Verif.Seq.BwdProps3
/-!
# Properties of `ttl::lazy_queue`, continued: memory, destruction, copies, swap; concrete cases

`S.pool c` are the nodes the queue `c` keeps for reuse. Cells `c` and `c + 1` are the queue object itself (its `head_`/`tail_` and its `dead_`).
-/
set_option linter.unusedVariables false
set_option linter.unusedSimpArgs false
set_option linter.unusedSectionVars false
namespace Verif.Seq.LazyProps
open Verif Verif.Seq.LQueue
open Verif.Seq.DList (Arg fresh insertAt slice cut Blank Relink split_at split_elem posOf posOf_cons posOf_nil)
open Verif.Seq.BwdProps (last_insert last_cut insert_end pos_is_last last_is_head lastOf_indep lastOf_last keeps_getTail keeps_setTail)
open Verif.Seq.FwdProps (Keeps keeps_getNext keeps_setNext Keeps.bind Keeps.ite Keeps.pure)
variable {T : Type} {h : Heap T} {S : State T} {c d : Addr} {es fs : List (Addr × T)} {ns ms : List Addr} {triv : Bool}

/-! ## Which memory is allocated -/

theorem mem_cells {x : Addr} : x ∈ qcells c es ns ↔ x = c ∨ x = c + 1 ∨ x ∈ es.map Prod.fst ∨ x ∈ ns := by
  rw [mem_qcells]; simp only [scells, List.mem_cons]; grind

/-- What is allocated is exactly the existing queues, their elements and the nodes they keep for reuse. -/
theorem no_leak (R : Reach triv S h) (x : Addr) :
    h.live x = true ↔ ∃ c es, S.Exists c ∧ Observes h c es ∧ (x = c ∨ x = c + 1 ∨ x ∈ es.map Prod.fst ∨ x ∈ S.pool c) := by
  constructor
  · intro l
    obtain ⟨c, ⟨gs, t⟩, hs, hx⟩ := R.world.tight x l
    refine ⟨c, gs, ⟨_, hs⟩, world_observes R.world hs, ?_⟩
    rw [pool_some hs]
    exact mem_cells.1 hx
  · rintro ⟨c, es, hc, ob, hx⟩
    obtain ⟨ns, hc', r⟩ := observed R hc ob
    rw [pool_some hc'] at hx
    exact r.live x (mem_cells.2 hx)

/-- No node belongs to two queues, nor twice to one; no element is also kept for reuse. -/
theorem queues_disjoint (R : Reach triv S h) (hc : S.Exists c) (hd : S.Exists d) (oc : Observes h c es) (od : Observes h d fs) :
    (es.map Prod.fst ++ S.pool c).Nodup ∧ (c ≠ d → ∀ x ∈ es.map Prod.fst ++ S.pool c, x ∉ fs.map Prod.fst ++ S.pool d) := by
  obtain ⟨ns, hc', r⟩ := observed R hc oc
  obtain ⟨ms, hd', s⟩ := observed R hd od
  rw [pool_some hc', pool_some hd']
  refine ⟨?_, ?_⟩
  · rw [List.nodup_append]
    refine ⟨(List.nodup_cons.1 r.main.nodup).2, (List.nodup_cons.1 r.dead.nodup).2, ?_⟩
    intro a ha b hb q
    subst q
    exact r.apart a (List.mem_cons_of_mem _ ha) (List.mem_cons_of_mem _ hb)
  · intro hcd x hx hx'
    refine R.world.disj c _ d _ hc' hd' hcd x (mem_cells.2 ?_) (mem_cells.2 ?_)
    · rw [List.mem_append] at hx; exact .inr (.inr hx)
    · rw [List.mem_append] at hx'; exact .inr (.inr hx')

/-- What a call on one queue allocates and releases. -/
theorem live_after {S' : State T} {h' : Heap T} {es' : List (Addr × T)} {ns' : List Addr} (W : World iface h S) (W' : World iface h' S')
    (hc : S c = some ⟨es, ns⟩) (hc' : S' c = some ⟨es', ns'⟩) (he : ∀ d, d ≠ c → S' d = S d) (x : Addr) :
    h'.live x = true ↔ x ∈ qcells c es' ns' ∨ (h.live x = true ∧ x ∉ qcells c es ns) := by
  constructor
  · intro l
    obtain ⟨d, s, hd, hx⟩ := W'.tight x l
    by_cases q : d = c
    · subst q; rw [hc'] at hd; cases hd; exact .inl hx
    · rw [he d q] at hd
      exact .inr ⟨iface.live (W.own _ _ hd) _ hx, W.disj d _ c _ hd hc q x hx⟩
  · rintro (hx | ⟨l, hx⟩)
    · exact iface.live (W'.own _ _ hc') _ hx
    · obtain ⟨d, s, hd, hx'⟩ := W.tight x l
      have q : d ≠ c := by rintro rfl; rw [hc] at hd; cases hd; exact hx hx'
      exact iface.live (W'.own _ _ ((he d q).trans hd)) _ hx'

theorem live_put {h' : Heap T} {es' : List (Addr × T)} {ns' : List Addr} (W : World iface h S) (W' : World iface h' (S.put c es' ns'))
    (hc : S c = some ⟨es, ns⟩) (x : Addr) : h'.live x = true ↔ x ∈ qcells c es' ns' ∨ (h.live x = true ∧ x ∉ qcells c es ns) :=
  live_after W W' hc (put_same _ _ _ _) (fun _ q => put_other _ q _ _) x

theorem live_eq {h' : Heap T} {es' : List (Addr × T)} {ns' : List Addr} (W : World iface h S) (W' : World iface h' (S.put c es' ns'))
    (hc : S c = some ⟨es, ns⟩) (e : ∀ x, x ∈ es'.map Prod.fst ++ ns' ↔ x ∈ es.map Prod.fst ++ ns) : h'.live = h.live := by
  funext x
  have a := live_put W W' hc x
  have b := (World.qu W hc).live x
  have c' := e x
  rw [mem_cells] at a b
  rw [mem_cells] at a
  rw [List.mem_append, List.mem_append] at c'
  rw [Bool.eq_iff_iff, a]
  revert b c'
  generalize (x ∈ es'.map Prod.fst) = p1
  generalize (x ∈ es.map Prod.fst) = p2
  clear a e W W'
  grind

/-! ## C33: nodes are reused -/

/-- After `pop_front()` the next `push_back(v)` uses the node of the element that left: the two calls together allocate and release nothing. -/
theorem pop_then_push_reuses {e : Addr × T} (R : Reach triv S h) (hc : S.Exists c) (ob : Observes h c (e :: es)) (v : T) :
    ∃ h1 h2, exec triv (.popFront c) h = .ok ((), h1) ∧ exec triv (.pushBack c v) h1 = .ok ((), h2) ∧ Observes h1 c es ∧
      Observes h2 c (es ++ [(e.1, v)]) ∧ h1.live = h.live ∧ h2.live = h.live ∧ OthersKept S h h2 [c] := by
  obtain ⟨ns, hc', r⟩ := observed R hc ob
  obtain ⟨h1, q1, R1, o1, k1⟩ := one_queue (c := c) R (.popFront c) ⟨hc, by rw [get_some hc']; simp⟩ rfl
  simp only [get_some hc', pool_some hc', List.tail_cons, List.take_succ_cons, List.take_zero, List.map_cons, List.map_nil, List.cons_append,
    List.nil_append] at R1 o1
  obtain ⟨h2, q2, R2, o2, k2⟩ := one_queue (c := c) R1 (.pushBack c v) (put_exists _ _ _ _) rfl
  simp only [put_get, put_pool, alloc, nodeOf, insert_end, List.length_cons, List.length_nil, List.drop_succ_cons, List.drop_zero, put_put] at R2 o2
  refine ⟨h1, h2, q1, q2, o1, o2, live_eq R.world R1.world hc' ?_, live_eq R.world R2.world hc' ?_, k1.trans k2 fun d _ hx => put_exists_other _ _ _ hx⟩
  · intro x; simp only [List.map_cons, List.mem_append, List.mem_cons]; grind
  · intro x; simp only [List.map_cons, List.map_append, List.map_nil, List.mem_append, List.mem_cons]; grind

theorem length_le_of_subset {α : Type} [DecidableEq α] : ∀ {l m : List α}, l.Nodup → (∀ x ∈ l, x ∈ m) → l.length ≤ m.length
  | [], m, _, _ => Nat.zero_le _
  | a :: l, m, nd, sub => by
    have nd := List.nodup_cons.1 nd
    have ha := sub a (List.mem_cons_self ..)
    have := length_le_of_subset (m := m.erase a) nd.2 fun x hx =>
      (List.mem_erase_of_ne (by rintro rfl; exact nd.1 hx)).2 (sub x (List.mem_cons_of_mem _ hx))
    rw [List.length_erase_of_mem ha] at this
    have p := List.length_pos_of_mem ha
    simp only [List.length_cons]; omega

theorem subset_of_length {α : Type} [DecidableEq α] {l m : List α} (nd : l.Nodup) (sub : ∀ x ∈ l, x ∈ m) (len : m.length ≤ l.length) : ∀ x ∈ m, x ∈ l := by
  intro x hx
  apply Decidable.byContradiction
  intro k
  have := length_le_of_subset (m := m.erase x) nd fun y hy => (List.mem_erase_of_ne (by rintro rfl; exact k hy)).2 (sub y hy)
  rw [List.length_erase_of_mem hx] at this
  have p := List.length_pos_of_mem hx
  omega

/-- **How much memory a queue uses.** After any history of a new queue, the memory allocated for it are the two cells of the object and exactly as many
nodes as the largest number of elements it ever had at a time; nothing else has been allocated or released. -/
theorem memory_high_water (os : List (Op T)) (R : Reach triv S h) (ok : OpsOk os []) :
    ∃ (c : Addr) (h' : Heap T) (L : List Addr),
      (do let c ← create; runOps triv c os; pure c : Prog (Heap T) Addr) h = .ok (c, h') ∧ L.Nodup ∧ L.length = 2 + peak os [] ∧
      (∀ x ∈ L, h.live x = false) ∧ ∀ x, h'.live x = true ↔ h.live x = true ∨ x ∈ L := by
  obtain ⟨h1, q1, R1, o1, _⟩ := create_reach R
  obtain ⟨h', es', ns', q, R', o', e, k, l, _⟩ := history os R1 (put_same _ _ _ _) (by simpa using ok)
  rw [put_put] at R'
  have W := R.world
  have W' := R'.world
  have hn := W.fresh_none
  have r := World.qu W' (put_same _ _ _ _)
  simp only [List.length_nil, List.map_nil, Nat.zero_max] at l
  have lv : ∀ x, h'.live x = true ↔ h.live x = true ∨ x ∈ qcells h.fresh es' ns' := by
    intro x
    constructor
    · intro lx
      obtain ⟨d, s, hd, hx⟩ := W'.tight x lx
      by_cases q : d = h.fresh
      · subst q; rw [put_same] at hd; cases hd; exact .inr hx
      · rw [put_other _ q] at hd; exact .inl (iface.live (W.own _ _ hd) _ hx)
    · rintro (lx | hx)
      · obtain ⟨d, s, hd, hx⟩ := W.tight x lx
        have q : d ≠ h.fresh := by rintro rfl; rw [hn] at hd; cases hd
        exact iface.live (W'.own _ _ ((put_other _ q _ _).trans hd)) _ hx
      · exact r.live x hx
  refine ⟨h.fresh, h', qcells h.fresh es' ns', ?_, ?_, ?_, ?_, lv⟩
  · simp only [Prog.bind_app, q1, Res.bind_ok, q, Prog.pure_app]
  · unfold qcells
    rw [List.nodup_append]
    exact ⟨r.main.nodup, r.dead.nodup, fun a ha b hb q => r.apart a ha (q ▸ hb)⟩
  · simp only [qcells, scells, List.length_append, List.length_cons, List.length_map]; omega
  · intro x hx
    apply Decidable.byContradiction
    intro k
    have k : h.live x = true := by simpa using k
    obtain ⟨d, s, hd, hx'⟩ := W.tight x k
    have q : d ≠ h.fresh := by rintro rfl; rw [hn] at hd; cases hd
    exact W'.disj d _ h.fresh _ ((put_other _ q _ _).trans hd) (put_same _ _ _ _) q x hx' hx

/-- **Steady state.** Once a queue has had `m` elements at a time, any later history that never exceeds `m` elements allocates and releases nothing. -/
theorem steady_state (os ps : List (Op T)) (R : Reach triv S h) (ok : OpsOk os []) (okp : OpsOk ps (applyOps os []))
    (le : peak ps (applyOps os []) ≤ peak os []) :
    ∃ c h1 h2, (do let c ← create; runOps triv c os; pure c : Prog (Heap T) Addr) h = .ok (c, h1) ∧ runOps triv c ps h1 = .ok ((), h2) ∧ h2.live = h1.live := by
  obtain ⟨h0, q0, R0, o0, _⟩ := create_reach R
  obtain ⟨h1, es1, ns1, q1, R1, o1, e1, k1, l1, _⟩ := history os R0 (put_same _ _ _ _) (by simpa using ok)
  obtain ⟨h2, es2, ns2, q2, R2, o2, e2, k2, l2, i2⟩ := history ps R1 (put_same _ _ _ _) (by rw [e1]; exact okp)
  simp only [List.length_nil, List.map_nil, Nat.zero_max] at l1 e1
  refine ⟨h.fresh, h1, h2, ?_, q2, ?_⟩
  · simp only [Prog.bind_app, q0, Res.bind_ok, q1, Prog.pure_app]
  · refine live_eq R1.world R2.world (put_same _ _ _ _) fun x => ⟨?_, i2 x⟩
    have r := World.qu R1.world (put_same _ _ _ _)
    refine subset_of_length ?_ i2 ?_ x
    · rw [List.nodup_append]
      refine ⟨(List.nodup_cons.1 r.main.nodup).2, (List.nodup_cons.1 r.dead.nodup).2, ?_⟩
      intro a ha b hb q
      subst q
      exact r.apart a (List.mem_cons_of_mem _ ha) (List.mem_cons_of_mem _ hb)
    · rw [e1] at l2
      simp only [List.length_append, List.length_map]; omega

/-! ## C34: `cleanup()` and the destructor -/

/-- `cleanup()` releases exactly the nodes kept for reuse and leaves every queue as it is, if `T` has a trivial destructor or no node is kept. -/
theorem cleanup_frees_partial (R : Reach triv S h) (hc : S.Exists c) (ok : triv = true ∨ S.pool c = []) (ob : Observes h c es) :
    ∃ h', exec triv (.cleanup c) h = .ok ((), h') ∧ Observes h' c es ∧ (∀ x, h'.live x = (h.live x && decide (x ∉ S.pool c))) ∧ OthersKept S h h' [c] := by
  obtain ⟨ns, hc', r⟩ := observed R hc ob
  obtain ⟨h1, q1, R1, o1, k1⟩ := one_queue (c := c) R (.cleanup c) ⟨hc, ok⟩ rfl
  rw [get_some hc'] at R1 o1
  refine ⟨h1, q1, o1, ?_, k1⟩
  intro x
  have a := live_put R.world R1.world hc' x
  have b := r.live x
  have ap := fun hx => r.apart x (List.mem_cons_of_mem _ hx) 
  have n1 := (List.nodup_cons.1 r.dead.nodup).1
  have n2 := r.apart c (List.mem_cons_self ..)
  rw [pool_some hc']
  rw [mem_cells] at a b
  rw [mem_cells] at a
  rw [Bool.eq_iff_iff, a, Bool.and_eq_true, decide_eq_true_eq]
  simp only [List.mem_cons] at ap n2
  revert ap b
  generalize (x ∈ es.map Prod.fst) = p1
  clear a R R1 r ob o1 k1 q1
  grind

/-- The destructor releases exactly the object, its elements and the nodes kept for reuse, under the same condition. -/
theorem destroy_frees_partial (R : Reach triv S h) (hc : S.Exists c) (ok : triv = true ∨ S.pool c = []) (ob : Observes h c es) :
    ∃ h', exec triv (.destroy c) h = .ok ((), h') ∧
      (∀ x, h'.live x = (h.live x && decide (x ≠ c ∧ x ≠ c + 1 ∧ x ∉ es.map Prod.fst ∧ x ∉ S.pool c))) ∧ OthersKept S h h' [c] := by
  obtain ⟨ns, hc', r⟩ := observed R hc ob
  obtain ⟨h', q, R'⟩ := call_returns R (.destroy c) ⟨hc, ok⟩
  have same : ∀ d, d ≠ c → spec S h.fresh (.destroy c) d = S d := fun d hd => upd_other _ _ hd
  have gone : spec S h.fresh (.destroy c) c = none := upd_same _ _ _
  refine ⟨h', q, ?_, kept_of R R'.world fun d hd hx => same d (by simpa using hd)⟩
  intro x
  have W := R.world
  have W' := R'.world
  have key : h'.live x = true ↔ h.live x = true ∧ x ∉ qcells c es ns := by
    constructor
    · intro l
      obtain ⟨d, s, hd, hx⟩ := W'.tight x l
      have q : d ≠ c := by rintro rfl; rw [gone] at hd; cases hd
      rw [same d q] at hd
      exact ⟨iface.live (W.own _ _ hd) _ hx, W.disj d _ c _ hd hc' q x hx⟩
    · rintro ⟨l, hx⟩
      obtain ⟨d, s, hd, hx'⟩ := W.tight x l
      have q : d ≠ c := by rintro rfl; rw [hc'] at hd; cases hd; exact hx hx'
      exact iface.live (W'.own _ _ ((same d q).trans hd)) _ hx'
  rw [pool_some hc', Bool.eq_iff_iff, key, mem_cells, Bool.and_eq_true, decide_eq_true_eq]
  simp only [not_or]

theorem pool_first {n : Addr} (w : Wf h) (r : Queue h c es (n :: ns)) :
    h.live (c + 1) = true ∧ h.next (c + 1) = n ∧ n ≠ 0 ∧ h.live n = true ∧ h.val n = none := by
  have ln := r.dead.live n (by simp)
  exact ⟨r.dead.head, r.dead.path.1, w.ne_zero ln, ln, (r.dead.data n (by simp)).2⟩

/-- **C34 fails for every type with a destructor:** as soon as one node is kept for reuse, `cleanup()` destroys its value a second time. -/
theorem cleanup_double_destroys (R : Reach false S h) (hc : S.Exists c) (hp : S.pool c ≠ []) : exec false (.cleanup c) h = .ub .lifetime := by
  obtain ⟨es, ns, hc'⟩ := exists_mk hc
  rw [pool_some hc'] at hp
  cases ns with
  | nil => exact absurd rfl hp
  | cons n ns =>
    obtain ⟨a, b, c0, d, e⟩ := pool_first R.world.wf (World.qu R.world hc')
    exact deleteLoop_ub a b c0 d e

/-- The same for the destructor. -/
theorem destroy_double_destroys (R : Reach false S h) (hc : S.Exists c) (hp : S.pool c ≠ []) : exec false (.destroy c) h = .ub .lifetime := by
  obtain ⟨es, ns, hc'⟩ := exists_mk hc
  rw [pool_some hc'] at hp
  cases ns with
  | nil => exact absurd rfl hp
  | cons n ns =>
    obtain ⟨h1, q1, r1, ef1, _⟩ := drain_heap (triv := false) R.world.wf (World.qu R.world hc')
    obtain ⟨a, b, c0, d, e⟩ := pool_first ef1.wf r1
    have := deleteLoop_ub a b c0 d e
    simp only [exec, destroy, cleanup, deadOf, Prog.bind_app, q1, Res.bind_ok, this]
    rfl

/-- In particular: push one element, pop it, and end the life of the queue. -/
theorem push_pop_destroy_ub (R : Reach false S h) (hc : S.Exists c) (v : T) (ob : Observes h c ([] : List (Addr × T))) :
    (do exec false (.pushBack c v); exec false (.popFront c); exec false (.destroy c) : Prog (Heap T) Unit) h = .ub .lifetime ∧
    (do exec false (.pushBack c v); exec false (.popFront c); exec false (.cleanup c) : Prog (Heap T) Unit) h = .ub .lifetime := by
  obtain ⟨ns, hc', r⟩ := observed R hc ob
  obtain ⟨h1, q1, R1, o1, k1⟩ := one_queue (c := c) R (.pushBack c v) hc rfl
  simp only [get_some hc', pool_some hc', insertAt, List.length_nil, List.take_nil, List.drop_nil, List.nil_append, List.append_nil] at R1 o1
  obtain ⟨h2, q2, R2, o2, k2⟩ := one_queue (c := c) R1 (.popFront c) ⟨put_exists _ _ _ _, by rw [put_get]; simp [alloc]⟩ rfl
  have x2 : ((S.put c (alloc h.fresh ns [v]) (ns.drop [v].length)).put c
      ((S.put c (alloc h.fresh ns [v]) (ns.drop [v].length)).get c).tail
      ((((S.put c (alloc h.fresh ns [v]) (ns.drop [v].length)).get c).take 1).map Prod.fst ++ (S.put c (alloc h.fresh ns [v]) (ns.drop [v].length)).pool c)).pool c ≠ [] := by
    rw [put_pool, put_get]; simp [alloc]
  constructor
  · simp only [Prog.bind_app, q1, q2, Res.bind_ok, destroy_double_destroys R2 (put_exists _ _ _ _) x2]
  · simp only [Prog.bind_app, q1, q2, Res.bind_ok, cleanup_double_destroys R2 (put_exists _ _ _ _) x2]

/-- After `clear()` of a non-empty queue, too. -/
theorem clear_destroy_ub (R : Reach false S h) (hc : S.Exists c) (ob : Observes h c es) (hne : es ≠ []) :
    (do exec false (.clear c); exec false (.destroy c) : Prog (Heap T) Unit) h = .ub .lifetime := by
  obtain ⟨ns, hc', r⟩ := observed R hc ob
  obtain ⟨h1, q1, R1, o1, k1⟩ := one_queue (c := c) R (.clear c) hc rfl
  have x1 : (S.put c [] (((S.get c).map Prod.fst).reverse ++ S.pool c)).pool c ≠ [] := by
    rw [put_pool, get_some hc']; simp [hne]
  simp only [Prog.bind_app, q1, Res.bind_ok, destroy_double_destroys R1 (put_exists _ _ _ _) x1]

/-! ## Return values -/

/-- `insert_after(pos, v)` returns the position of the new element, directly behind `pos`. -/
theorem insert_after_returns_new (R : Reach triv S h) (hc : S.Exists c) (ob : Observes h c es) {i : Nat} (hi : i ≤ es.length) (v : T) :
    ∃ h' n, (do insertOne c (← SList.posAt c i) v : Prog (Heap T) Addr) h = .ok (n, h') ∧
      Observes h' c (es.take i ++ (n, v) :: es.drop i) ∧ n ∉ es.map Prod.fst ∧ OthersKept S h h' [c] := by
  obtain ⟨ns, hc', r⟩ := observed R hc ob
  obtain ⟨h1, q1, _⟩ := insert_good R.world hc' hi v
  obtain ⟨h2, q2, R2, o2, k2⟩ := one_queue (c := c) R (.insert c i v) ⟨hc, by rw [get_some hc']; exact hi⟩ rfl
  have e : h1 = h2 := by
    have : exec triv (.insert c i v) h = .ok ((), h1) := by
      simp only [exec, Prog.bind_app, r.main.posAt hi, Res.bind_ok, q1, Prog.pure_app]
    rw [q2] at this; cases this; rfl
  subst e
  rw [get_some hc', pool_some hc'] at o2
  refine ⟨h1, nodeOf h.fresh ns, ?_, o2, ?_, k2⟩
  · simp only [Prog.bind_app, r.main.posAt hi, Res.bind_ok, q1]
  · intro hx
    cases ns with
    | nil =>
      have := r.main.live h.fresh (List.mem_cons_of_mem _ hx)
      exact R.world.wf.ne_fresh this rfl
    | cons n ns => exact r.apart n (List.mem_cons_of_mem _ hx) (by simp)

/-- `erase_after(pos)` removes exactly the element behind `pos`, keeps its node for reuse and returns the position after it. -/
theorem erase_after_removes (R : Reach triv S h) (hc : S.Exists c) (ob : Observes h c es) {i : Nat} (hi : i < es.length) :
    ∃ h', (do eraseAfter c (← SList.posAt c i) : Prog (Heap T) Addr) h = .ok (((es.drop (i + 1)).map Prod.fst).headD 0, h') ∧
      Observes h' c (es.take i ++ es.drop (i + 1)) ∧ h'.live = h.live ∧ h'.val es[i].1 = none ∧ OthersKept S h h' [c] := by
  obtain ⟨ns, hc', r⟩ := observed R hc ob
  obtain ⟨h1, q1, W1, _⟩ := erase_good R.world hc' hi
  obtain ⟨h2, q2, R2, o2, k2⟩ := one_queue (c := c) R (.erase c i) ⟨hc, by rw [get_some hc']; exact hi⟩ rfl
  have e : h1 = h2 := by
    have : exec triv (.erase c i) h = .ok ((), h1) := by
      simp only [exec, Prog.bind_app, r.main.posAt (Nat.le_of_lt hi), Res.bind_ok, q1, Prog.pure_app]
    rw [q2] at this; cases this; rfl
  subst e
  have hp : posOf 0 ((es.drop (i + 1)).map Prod.fst) = ((es.drop (i + 1)).map Prod.fst).headD 0 := by
    cases (es.drop (i + 1)) <;> rfl
  rw [get_some hc', List.eraseIdx_eq_take_drop_succ] at o2
  refine ⟨h1, ?_, o2, live_eq R.world W1 hc' ?_, ?_, k2⟩
  · rw [← hp]; simp only [Prog.bind_app, r.main.posAt (Nat.le_of_lt hi), Res.bind_ok, q1]
  · intro x
    conv => rhs; rw [split1 hi]
    rw [List.eraseIdx_eq_take_drop_succ]
    simp only [List.map_append, List.map_cons, List.mem_append, List.mem_cons]
    generalize (x ∈ (es.take i).map Prod.fst) = p1
    generalize (x ∈ (es.drop (i + 1)).map Prod.fst) = p2
    grind
  · exact ((World.qu W1 (put_same _ _ _ _)).dead.data _ (by simp)).2

/-- `roll_head()` moves the first element behind the last one, in its node; nothing is allocated or released. -/
theorem roll_head_rolls {e : Addr × T} (R : Reach triv S h) (hc : S.Exists c) (ob : Observes h c (e :: es)) :
    ∃ h', exec triv (.rollHead c) h = .ok ((), h') ∧ Observes h' c (es ++ [e]) ∧ h'.live = h.live ∧ OthersKept S h h' [c] := by
  obtain ⟨ns, hc', r⟩ := observed R hc ob
  obtain ⟨h1, q1, R1, o1, k1⟩ := one_queue (c := c) R (.rollHead c) hc rfl
  simp only [get_some hc', pool_some hc', List.tail_cons, List.take_succ_cons, List.take_zero] at R1 o1
  refine ⟨h1, q1, o1, live_eq R.world R1.world hc' ?_, k1⟩
  intro x; simp only [List.map_cons, List.map_append, List.map_nil, List.mem_append, List.mem_cons, List.not_mem_nil, or_false]
  generalize (x ∈ es.map Prod.fst) = p1
  grind

/-- `roll_head()` of an empty queue does nothing. -/
theorem roll_head_empty (R : Reach triv S h) (hc : S.Exists c) (ob : Observes h c ([] : List (Addr × T))) : exec triv (.rollHead c) h = .ok ((), h) := by
  obtain ⟨ns, hc', r⟩ := observed R hc ob
  have nx : h.next c = 0 := r.main.path
  simp only [exec, rollHead, Prog.bind_app, getNext_eq r.main.head, Res.bind_ok, nx, Prog.ite_app, ne_eq, not_true_eq_false, if_false, Prog.pure_app]

/-! ## Copies -/

theorem not_exists_fresh (R : Reach triv S h) : ¬ S.Exists h.fresh := by
  rintro ⟨s, q⟩
  rw [World.fresh_none R.world] at q; cases q

theorem newNodes (R : Reach triv S h) {a : Addr} (ha : h.fresh ≤ a) (vs : List T) : NewNodes h (fresh a vs) vs :=
  ⟨fresh_values vs a, fun e he => R.world.wf.fresh_dead (Nat.le_trans ha (fresh_addr vs a e he))⟩

/-- The copy constructor: a new queue with the same values in new nodes; the source and every other queue stay as they are. -/
theorem copy_copies (R : Reach triv S h) (hd : S.Exists d) (od : Observes h d fs) :
    ∃ h' c ns S', copyCtor d h = .ok (c, h') ∧ Reach triv S' h' ∧ S'.Exists c ∧ ¬ S.Exists c ∧ Observes h' c ns ∧ NewNodes h ns (fs.map Prod.snd) ∧
      OthersKept S h h' [c] := by
  obtain ⟨ms, hd', s⟩ := observed R hd od
  obtain ⟨h', q, R', ob, k⟩ := one_queue (c := h.fresh) R (.copyOf d) hd rfl
  obtain ⟨h2, q2, _, _⟩ := copyCtor_good R.world hd'
  have e : h' = h2 := by
    have : exec triv (.copyOf d) h = .ok ((), h2) := by simp only [exec, Prog.bind_app, q2, Res.bind_ok, Prog.pure_app]
    rw [q] at this; cases this; rfl
  subst e
  rw [get_some hd'] at ob
  exact ⟨h', h.fresh, _, _, q2, R', put_exists _ _ _ _, not_exists_fresh R, ob, newNodes R (Nat.le_add_right _ _) _, k⟩

/-- `lazy_queue(n, v)`: a new queue of `n` copies of the value `v` refers to (possibly an element of a queue). -/
theorem construct_n (R : Reach triv S h) (n : Nat) {value : Arg T} {v : T} (rf : S.Refers v value) :
    ∃ h' c ns S', ctorN n value h = .ok (c, h') ∧ Reach triv S' h' ∧ S'.Exists c ∧ ¬ S.Exists c ∧ Observes h' c ns ∧ NewNodes h ns (List.replicate n v) ∧
      OthersKept S h h' [c] := by
  obtain ⟨h', q, R', ob, k⟩ := one_queue (c := h.fresh) R (.ctorN n value) ⟨v, rf⟩ rfl
  obtain ⟨h2, q2, _, _⟩ := ctorN_good R.world n rf
  have e : h' = h2 := by
    have : exec triv (.ctorN n value) h = .ok ((), h2) := by simp only [exec, Prog.bind_app, q2, Res.bind_ok, Prog.pure_app]
    rw [q] at this; cases this; rfl
  subst e
  rw [copies_eq R.world rf] at ob
  exact ⟨h', h.fresh, _, _, q2, R', put_exists _ _ _ _, not_exists_fresh R, ob, newNodes R (Nat.le_add_right _ _) _, k⟩

/-- `c = d` for two different queues: `c` holds the values of `d`, `d` and every other queue stay as they are. -/
theorem assign_copies_partial (R : Reach triv S h) (hc : S.Exists c) (hd : S.Exists d) (hcd : c ≠ d) (od : Observes h d fs) :
    ∃ h' ns, exec triv (.assign c d) h = .ok ((), h') ∧ Observes h' c ns ∧ ns.map Prod.snd = fs.map Prod.snd ∧ OthersKept S h h' [c] := by
  obtain ⟨ms, hd', s⟩ := observed R hd od
  obtain ⟨h', q, R', ob, k⟩ := one_queue (c := c) R (.assign c d) ⟨hc, hd, hcd⟩ rfl
  rw [get_some hd'] at ob
  exact ⟨h', _, q, ob, alloc_values _ _ _, k⟩

/-- **Self-assignment empties every queue.** -/
theorem self_assign_empties (R : Reach triv S h) (hc : S.Exists c) :
    ∃ h', exec triv (.assign c c) h = .ok ((), h') ∧ Observes h' c ([] : List (Addr × T)) := by
  obtain ⟨es, t, hc'⟩ := exists_mk hc
  obtain ⟨h1, q1, W1, _, _⟩ := clear_good R.world hc'
  have r1 := World.sl W1 (put_same _ _ _ _)
  have t1 := World.tl W1 (put_same _ _ _ _)
  refine ⟨h1, ?_, observes_of W1.wf r1 t1⟩
  have nh : h1.next c = 0 := r1.path
  have tc : ({ h1 with tail := upd h1.tail c c } : Heap T) = h1 := by
    have : upd h1.tail c c = h1.tail := by
      funext x; unfold upd; split
      · rename_i q; rw [q]; exact t1.symm
      · rfl
    rw [this]
  have t2 : h1.tail c = c := t1
  simp only [exec, opAssign, Prog.bind_app, q1, Res.bind_ok, getNext_eq r1.head, nh, LQueue.insertNodes]
  rw [insertLoopNodes]
  simp only [Prog.ite_app, if_true, ne_eq, not_true_eq_false, if_false, Prog.pure_app, Res.bind_ok, getTail_eq r1.head, t2, setTail_eq r1.head, tc]

/-- `insert_after(pos, n, v)` also works when `v` refers to an element of the queue itself or of another queue. -/
theorem insert_n_own_element (R : Reach triv S h) (hc : S.Exists c) (hd : S.Exists d) (ob : Observes h c es)
    (od : Observes h d fs) {e : Addr × T} (he : e ∈ fs) {i : Nat} (hi : i ≤ es.length) (n : Nat) :
    ∃ h' ns, exec triv (.insertN c i n (.elem e.1)) h = .ok ((), h') ∧ Observes h' c (es.take i ++ (ns ++ es.drop i)) ∧
      ns.map Prod.snd = List.replicate n e.2 ∧ OthersKept S h h' [c] := by
  obtain ⟨ns, hc', r⟩ := observed R hc ob
  obtain ⟨ms, hd', s⟩ := observed R hd od
  have rf : S.Refers e.2 (.elem e.1) := ⟨d, _, hd', he⟩
  obtain ⟨h', q, R', ob', k⟩ := one_queue (c := c) R (.insertN c i n (.elem e.1)) ⟨hc, by rw [get_some hc']; exact hi, _, rf⟩ rfl
  rw [get_some hc', copies_eq R.world rf] at ob'
  exact ⟨h', _, q, ob', alloc_values _ _ _, k⟩

/-! ## Swap -/

theorem swap_keeps (c d : Addr) : Keeps (exec triv (.swap c d) : Prog (Heap T) Unit) := by
  unfold exec LQueue.swap
  repeat' (first | apply Keeps.bind | apply keeps_getNext | apply keeps_setNext | apply keeps_getTail | apply keeps_setTail | intro _)

/-- `a.swap(b)` of two non-empty queues exchanges their elements, in their nodes, without allocating, releasing or copying anything. -/
theorem swap_swaps_partial (R : Reach triv S h) (hc : S.Exists c) (hd : S.Exists d) (hcd : c ≠ d) (oc : Observes h c es) (od : Observes h d fs)
    (he : es ≠ []) (hf : fs ≠ []) :
    ∃ h' S', exec triv (.swap c d) h = .ok ((), h') ∧ Reach triv S' h' ∧ S'.Exists c ∧ S'.Exists d ∧ Observes h' c fs ∧ Observes h' d es ∧ NoAlloc h h' ∧
      OthersKept S h h' [c, d] := by
  obtain ⟨ns, hc', r⟩ := observed R hc oc
  obtain ⟨ms, hd', s⟩ := observed R hd od
  obtain ⟨h1, q1, R1⟩ := call_returns R (.swap c d) ⟨hc, hd, .inr ⟨by rw [get_some hc']; exact he, by rw [get_some hd']; exact hf⟩⟩
  have e : spec S h.fresh (.swap c d) = (S.put c fs ns).put d es ms := by
    simp only [spec, if_neg hcd, get_some hc', get_some hd', pool_some hc', pool_some hd']
  rw [e] at R1
  have ec : ((S.put c fs ns).put d es ms) c = some ⟨fs, ns⟩ := by rw [put_other _ hcd]; exact put_same _ _ _ _
  have ed := put_same (S.put c fs ns) d es ms
  refine ⟨h1, _, q1, R1, ⟨_, ec⟩, ⟨_, ed⟩, world_observes R1.world ec, world_observes R1.world ed, swap_keeps c d h _ _ q1, kept_of R R1.world ?_⟩
  intro x hx _
  simp only [List.mem_cons, List.not_mem_nil, or_false, not_or] at hx
  rw [put_other _ hx.2, put_other _ hx.1]

/-- Swapping a queue with itself changes nothing. -/
theorem swap_self (R : Reach triv S h) (hc : S.Exists c) : exec triv (.swap c c) h = .ok ((), h) := by
  obtain ⟨es, t, hc'⟩ := exists_mk hc
  have l := (World.sl R.world hc').head
  have e1 : ∀ f : Addr → Addr, upd (upd f c (f c)) c (f c) = f := by
    intro f; funext x; unfold upd; split
    · rename_i hx; rw [hx]
    · rfl
  have := swap_eq l l
  unfold BList.bswp swpA at this
  simp only [e1] at this
  exact this

/-- **`swap` with an empty queue:** the elements go to `d`, but `before_end()` of the emptied queue `c` lies inside `d`, and `c.push_back(v)` puts
`v` at the front of `d` while `c` stays empty. -/
theorem swap_with_empty_breaks (R : Reach triv S h) (hc : S.Exists c) (hd : S.Exists d) (hcd : c ≠ d) (oc : Observes h c es)
    (od : Observes h d ([] : List (Addr × T))) :
    ∃ h1, exec triv (.swap c d) h = .ok ((), h1) ∧ SList.entries c h1 = .ok ([], h1) ∧ SList.entries d h1 = .ok (es, h1) ∧
      LQueue.beforeEnd c h1 = .ok (d, h1) ∧
      ∀ v, ∃ h2 n, exec triv (.pushBack c v) h1 = .ok ((), h2) ∧ SList.entries c h2 = .ok ([], h2) ∧ SList.entries d h2 = .ok ((n, v) :: es, h2) := by
  obtain ⟨ns, hc', r⟩ := observed R hc oc
  obtain ⟨ms, hd', s⟩ := observed R hd od
  have W := R.world
  have w := W.wf
  have dj := W.disj c _ d _ hc' hd' hcd
  have td : h.tail d = d := World.tl W hd'
  have nd : h.next d = 0 := s.main.path
  have q1 := swap_eq r.main.head s.main.head
  -- `d` takes over the chain of `c`
  have hde : d ∉ es.map Prod.fst := fun q => dj d (mem_cells.2 (.inr (.inr (.inl q)))) self_mem
  have hce : c ∉ es.map Prod.fst := (List.nodup_cons.1 r.main.nodup).1
  have nx : ∀ x, x ≠ c → x ≠ d → (BList.bswp h c d).next x = h.next x := by
    intro x a b; simp only [BList.bswp, swpA, upd_other _ _ b, upd_other _ _ a]
  have nxd : (BList.bswp h c d).next d = h.next c := by simp only [BList.bswp, swpA, upd_same]
  have nxc : (BList.bswp h c d).next c = 0 := by simp only [BList.bswp, swpA, upd_other _ _ hcd, upd_same, nd]
  have tlc : (BList.bswp h c d).tail c = d := by simp only [BList.bswp, upd_other _ _ hcd, upd_same, td]
  have sc : Slist (BList.bswp h c d) c ([] : List (Addr × T)) := ⟨r.main.head, r.main.bare, nxc, by simp, by simp⟩
  have sd : Slist (BList.bswp h c d) d es := by
    refine ⟨s.main.head, s.main.bare, ?_, List.nodup_cons.2 ⟨hde, (List.nodup_cons.1 r.main.nodup).2⟩, r.main.data⟩
    have pa := r.main.path
    revert pa
    cases hm : es.map Prod.fst with
    | nil => intro pa; exact nxd.trans pa
    | cons a l =>
      intro pa
      rw [hm, List.mem_cons, not_or] at hce hde
      refine ⟨nxd.trans pa.1, pa.2.congr ?_⟩
      intro x hx
      rw [List.mem_cons] at hx
      refine nx x ?_ ?_
      · rintro rfl; rcases hx with q | q
        · exact hce.1 q
        · exact hce.2 q
      · rintro rfl; rcases hx with q | q
        · exact hde.1 q
        · exact hde.2 q
  have w1 : Wf (BList.bswp h c d) := ⟨w.pos, w.null, w.used⟩
  refine ⟨_, q1, sc.entries w1, sd.entries w1, ?_, ?_⟩
  · rw [LQueue.beforeEnd, getTail_eq (by exact r.main.head), tlc]
  · intro v
    -- the node comes from the pool of `c` or is new
    have key : ∃ n h2, getNode c v (BList.bswp h c d) = .ok (n, h2) ∧ h2.live n = true ∧ h2.val n = some v ∧ n ≠ c ∧ n ≠ d ∧ n ∉ es.map Prod.fst ∧ Wf h2 ∧
        (∀ x, x ≠ n → x ≠ c + 1 → Same (BList.bswp h c d) h2 x) := by
      have c1 : c + 1 ≠ c := Nat.succ_ne_self c
      have c2 : c + 1 ≠ d := fun q => dj (c + 1) (mem_cells.2 (.inr (.inl rfl))) (by rw [q]; exact self_mem)
      have nx1 := nx (c + 1) c1 c2
      cases ns with
      | nil =>
        have n0 : h.next (c + 1) = 0 := r.dead.path
        refine ⟨_, _, getNode_new v r.dead.head (nx1.trans n0), ?_, ?_, ?_, ?_, ?_, ?_, ?_⟩
        · exact upd_same _ _ _
        · exact upd_same _ _ _
        · exact (w.ne_fresh r.main.head).symm
        · exact (w.ne_fresh s.main.head).symm
        · intro q
          exact w.ne_fresh (r.main.live _ (List.mem_cons_of_mem _ q)) rfl
        · refine ⟨Nat.succ_pos _, ?_, ?_⟩
          · show upd h.live h.fresh true 0 = false
            rw [upd_other _ _ (Nat.ne_of_lt w.pos)]; exact w.null
          · intro x l
            show x < h.fresh + 1
            by_cases q : x = h.fresh
            · rw [q]; exact Nat.lt_succ_self _
            · have l : upd h.live h.fresh true x = true := l
              rw [upd_other _ _ q] at l
              exact Nat.lt_succ_of_lt (w.used x l)
        · intro x hx _
          exact ⟨rfl, rfl, rfl, upd_other _ _ hx, upd_other _ _ hx⟩
      | cons n ns =>
        obtain ⟨a, b, c0, l, e⟩ := pool_first w r
        have ncx : n ≠ c := fun q => r.apart c (List.mem_cons_self ..) (by rw [← q]; simp)
        have ndx : n ≠ d := fun q => dj n (mem_cells.2 (.inr (.inr (.inr (by simp))))) (by rw [q]; exact self_mem)
        refine ⟨_, _, getNode_pool v a (nx1.trans b) c0 l e, ?_, ?_, ncx, ndx, ?_, ?_, ?_⟩
        · exact l
        · exact upd_same _ _ _
        · intro q; exact r.apart n (List.mem_cons_of_mem _ q) (by simp)
        · exact ⟨w.pos, w.null, w.used⟩
        · intro x hx hx'
          exact ⟨upd_other _ _ hx', rfl, rfl, upd_other _ _ hx, rfl⟩
    obtain ⟨n, h2, q2, ln, vn, nc, nd', ne, w2, sm⟩ := key
    have c1 : c + 1 ∉ scells d es := by
      intro q
      rcases List.mem_cons.1 q with q | q
      · exact dj (c + 1) (mem_cells.2 (.inr (.inl rfl))) (by rw [q]; exact self_mem)
      · exact r.apart (c + 1) (List.mem_cons_of_mem _ q) (by simp)
    have sd2 : Slist h2 d es := sd.frame fun x hx => sm x (by
      rintro rfl
      rcases List.mem_cons.1 hx with q | q
      · exact nd' q
      · exact ne q) (by rintro rfl; exact c1 hx)
    have smc := sm c nc.symm (Nat.succ_ne_self c |>.symm)
    have sc2 : Slist h2 c ([] : List (Addr × T)) := sc.frame fun x hx => by
      rcases List.mem_cons.1 hx with rfl | q
      · exact smc
      · cases q
    have q3 := insertAfter_eq (h := h2) (p := d) (n := n) sd2.head ln
    -- link the node behind `d`
    have sd3 : Slist (insA h2 d n) d ((n, v) :: es) := by
      refine ⟨sd2.head, sd2.bare, ?_, ?_, ?_⟩
      · refine ⟨?_, ?_⟩
        · simp only [insA, upd_other _ _ nd'.symm, upd_same]
        · have pa := sd2.path
          revert pa
          have hde' := hde
          have ne' := ne
          revert hde' ne'
          cases hm : es.map Prod.fst with
          | nil =>
            intro _ _ pa
            have pa : h2.next d = 0 := pa
            show (insA h2 d n).next n = 0
            simp only [insA, upd_same, upd_other _ _ nd', pa]
          | cons a l =>
            intro hde' ne' pa
            refine ⟨?_, pa.2.congr ?_⟩
            · simp only [insA, upd_same, upd_other _ _ nd']; exact pa.1
            · intro x hx
              have h1 : x ≠ d := by rintro rfl; exact hde' hx
              have h2 : x ≠ n := by rintro rfl; exact ne' hx
              simp only [insA, upd_other _ _ h1, upd_other _ _ h2]
      · simp only [List.map_cons, List.nodup_cons, List.mem_cons, not_or]
        exact ⟨⟨nd'.symm, hde⟩, ne, (List.nodup_cons.1 sd2.nodup).2⟩
      · intro e he
        rcases List.mem_cons.1 he with rfl | he
        · exact ⟨ln, vn⟩
        · exact sd2.data e he
    have sc3 : Slist (insA h2 d n) c ([] : List (Addr × T)) := by
      refine ⟨sc2.head, sc2.bare, ?_, by simp, by simp⟩
      have : h2.next c = 0 := sc2.path
      show (insA h2 d n).next c = 0
      simp only [insA, upd_other _ _ nc.symm, upd_other _ _ hcd, this]
    have w3 : Wf ({ insA h2 d n with tail := upd (insA h2 d n).tail c n }) := ⟨w2.pos, w2.null, w2.used⟩
    refine ⟨_, n, ?_, (Slist.retail (t := upd (insA h2 d n).tail c n) sc3).entries w3, (Slist.retail (t := upd (insA h2 d n).tail c n) sd3).entries w3⟩
    simp only [exec, pushBack, Prog.bind_app]
    rw [getTail_eq (by exact r.main.head), tlc]
    simp only [Res.bind_ok, q2, q3]
    exact setTail_eq sc3.head _

/-! ## Elements never move -/

/-- The calls that neither remove nor overwrite elements. -/
def Preserving : Call T → Prop
  | .destroy _ | .popFront _ | .erase _ _ | .eraseRange _ _ _ | .clear _ | .assign _ _ | .store _ _ _ => False
  | _ => True

theorem put_get_other (S : State T) {c d : Addr} (hdc : d ≠ c) (es : List (Addr × T)) (ns : List Addr) : (S.put c es ns).get d = S.get d := by
  unfold State.get; rw [put_other _ hdc]

theorem stay_one {e : Addr × T} {es' : List (Addr × T)} (he : e ∈ S.get d) (hd : S.Exists d) (sub : ∀ x ∈ S.get c, x ∈ es') :
    ∃ d', (S.put c es' ns).Exists d' ∧ e ∈ (S.put c es' ns).get d' := by
  refine ⟨d, put_exists_other _ _ _ hd, ?_⟩
  by_cases hcd : d = c
  · subst hcd; rw [put_get]; exact sub e he
  · rw [put_get_other _ hcd]; exact he

/-- A call that is not a removal leaves every element of every queue at its address with its value, in one of the queues: iterators,
pointers and references to elements stay valid. -/
theorem elements_stay (R : Reach triv S h) (k : Call T) (lg : Legal triv S k) (pr : Preserving k) :
    ∃ h' S', exec triv k h = .ok ((), h') ∧ Reach triv S' h' ∧ ∀ d es, S.Exists d → Observes h d es → ∀ e ∈ es,
      ∃ d' es', S'.Exists d' ∧ Observes h' d' es' ∧ e ∈ es' := by
  obtain ⟨h', q, R'⟩ := call_returns R k lg
  refine ⟨h', _, q, R', ?_⟩
  intro d es hd hs e he
  suffices ∃ d', (spec S h.fresh k).Exists d' ∧ e ∈ (spec S h.fresh k).get d' by
    obtain ⟨d', h1, h2⟩ := this
    exact ⟨d', _, h1, reach_observes R' h1, h2⟩
  rw [← get_observed R hd hs] at he
  have new : ∀ x ∈ S.get h.fresh, False := by
    intro x hx
    rw [State.get, World.fresh_none R.world] at hx; simp at hx
  cases k with
  | create => exact stay_one he hd fun x hx => (new x hx).elim
  | copyOf s => exact stay_one he hd fun x hx => (new x hx).elim
  | ctorN n v => exact stay_one he hd fun x hx => (new x hx).elim
  | cleanup c => exact stay_one he hd fun x hx => hx
  | pushFront c v => exact stay_one he hd fun x hx => mem_insertAt.2 (.inr hx)
  | pushBack c v => exact stay_one he hd fun x hx => mem_insertAt.2 (.inr hx)
  | insert c i v => exact stay_one he hd fun x hx => mem_insertAt.2 (.inr hx)
  | insertN c i n v => exact stay_one he hd fun x hx => mem_insertAt.2 (.inr hx)
  | insertVals c i vs => exact stay_one he hd fun x hx => mem_insertAt.2 (.inr hx)
  | insertQueue c i d => exact stay_one he hd fun x hx => mem_insertAt.2 (.inr hx)
  | rollHead c =>
    refine stay_one he hd fun x hx => ?_
    cases q : S.get c with
    | nil => rw [q] at hx; cases hx
    | cons a l => rw [q] at hx; simp only [List.tail_cons, List.take_succ_cons, List.take_zero, List.mem_append, List.mem_cons, List.not_mem_nil, or_false] at hx ⊢; exact hx.symm
  | swap c b =>
    simp only [spec]
    by_cases hcb : c = b
    · rw [if_pos hcb]; exact ⟨d, hd, he⟩
    · rw [if_neg hcb]
      by_cases h1 : d = c
      · subst h1; exact ⟨b, put_exists _ _ _ _, by rw [put_get]; exact he⟩
      · by_cases h2 : d = b
        · subst h2; exact ⟨c, put_exists_other _ _ _ (put_exists _ _ _ _), by rw [put_get_other _ hcb, put_get]; exact he⟩
        · exact ⟨d, put_exists_other _ _ _ (put_exists_other _ _ _ hd), by rw [put_get_other _ h2, put_get_other _ h1]; exact he⟩
  | _ => exact pr.elim

/-! ## Concrete cases -/

/-- For any two sequences of values there is a reachable memory with two queues holding them: the hypotheses of the theorems above are met by queues
of every length. -/
theorem exists_queues (vs ws : List T) : ∃ (S : State T) (h : Heap T) (c d : Addr) (es fs : List (Addr × T)), Reach triv S h ∧ S.Exists c ∧ S.Exists d ∧ c ≠ d ∧
    Observes h c es ∧ Observes h d fs ∧ es.map Prod.snd = vs ∧ fs.map Prod.snd = ws := by
  have ap : ∀ (vs ws : List T), applyOps (vs.map Op.pushBack) ws = ws ++ vs := by
    intro vs
    induction vs with
    | nil => intro ws; simp [applyOps]
    | cons v vs ih => intro ws; simp only [applyOps, List.map_cons, List.foldl_cons] at ih ⊢; rw [ih]; simp [Op.apply]
  have ok : ∀ (vs ws : List T), OpsOk (vs.map Op.pushBack) ws := by
    intro vs
    induction vs with
    | nil => intro ws; trivial
    | cons v vs ih => intro ws; exact ⟨trivial, ih _⟩
  obtain ⟨h1, q1, R1, o1, _⟩ := create_reach (triv := triv) (Reach.start (blank_blank (T := T)))
  obtain ⟨h2, q2, R2, o2, k2⟩ := create_reach R1
  have n1 : h1.fresh ≠ (blank T).fresh := fun q => not_exists_fresh R1 (by rw [q]; exact put_exists _ _ _ _)
  have o1' := k2 _ (by simpa using n1.symm) (put_exists _ _ _ _) _ o1
  obtain ⟨h3, es, S3, q3, R3, x3, o3, e3, k3, xs3⟩ := queue_history (vs.map Op.pushBack) R2 (put_exists_other _ _ _ (put_exists _ _ _ _)) o1' rfl (ok vs _)
  have o2' := k3 _ (by simpa using n1) (put_exists _ _ _ _) _ o2
  obtain ⟨h4, fs, S4, q4, R4, x4, o4, e4, k4, xs4⟩ := queue_history (ws.map Op.pushBack) R3 (xs3 _ (put_exists _ _ _ _)) o2' rfl (ok ws _)
  refine ⟨S4, h4, _, _, es, fs, R4, xs4 _ x3, x4, n1.symm, k4 _ (by simpa using n1.symm) x3 _ o3, o4, ?_, ?_⟩
  · rw [e3, List.map_nil, ap, List.nil_append]
  · rw [e4, List.map_nil, ap, List.nil_append]

/-- The history theorem applies to a concrete history. -/
example : ∃ c h' es', (do let c ← create; runOps false c [.pushFront 2, .pushBack 3, .pushFront 1, .insertAfterRange 2 [7, 8], .eraseAfter 4, .rollHead,
    .pushBack 9, .popFront, .insertAfterN 3 2 5, .eraseAfterRange 1 3]; pure c : Prog (Heap Nat) Addr) (blank Nat) = .ok (c, h') ∧ Observes h' c es' ∧
    es'.map Prod.snd = [7, 1, 5, 5, 9] := by
  obtain ⟨c, h', es', q, o, e⟩ := new_queue_history (triv := false) (blank_blank (T := Nat))
    [.pushFront 2, .pushBack 3, .pushFront 1, .insertAfterRange 2 [7, 8], .eraseAfter 4, .rollHead,
    .pushBack 9, .popFront, .insertAfterN 3 2 5, .eraseAfterRange 1 3]
    (by simp [OpsOk, Op.Pre, Op.apply])
  exact ⟨c, h', es', q, o, by rw [e]; rfl⟩

/-- Three pushes and then pushing and popping in turn: memory stays at three nodes. -/
example : ∃ c h1 h2, (do let c ← create; runOps false c [.pushBack 1, .pushBack 2, .pushBack 3, .popFront]; pure c : Prog (Heap Nat) Addr) (blank Nat) = .ok (c, h1) ∧
    runOps false c [.pushBack 4, .popFront, .popFront, .pushFront 7, .rollHead] h1 = .ok ((), h2) ∧ h2.live = h1.live := by
  exact steady_state (S := fun _ => none) _ _ (.start (blank_blank (T := Nat))) (by simp [OpsOk, Op.Pre, Op.apply])
    (by simp [OpsOk, Op.Pre, Op.apply, applyOps]) (by simp [peak, Op.apply, applyOps])

/-- The defects on concrete cases. -/
example : ∃ (S : State Nat) (h : Heap Nat) (c d : Addr), Reach false S h ∧ c ≠ d ∧
    (do exec false (.pushBack d 1); exec false (.popFront d); exec false (.destroy d) : Prog (Heap Nat) Unit) h = .ub .lifetime ∧
    ∃ h1 h2 fs, exec false (.swap c d) h = .ok ((), h1) ∧ exec false (.pushBack c 3) h1 = .ok ((), h2) ∧ SList.entries c h2 = .ok ([], h2) ∧
      SList.entries d h2 = .ok (fs, h2) ∧ fs.map Prod.snd = [3, 1, 2] := by
  obtain ⟨S, h, c, d, es, fs, R, hc, hd, hcd, o1, o2, e1, e2⟩ := exists_queues (T := Nat) (triv := false) [1, 2] []
  have : fs = [] := by simpa using e2
  subst this
  obtain ⟨h1, q1, _, _, _, p⟩ := swap_with_empty_breaks R hc hd hcd o1 o2
  obtain ⟨h2, n, q2, s1, s2⟩ := p 3
  exact ⟨S, h, c, d, R, hcd, (push_pop_destroy_ub R hd 1 o2).1, h1, h2, _, q1, q2, s1, s2, by simp [e1]⟩

end Verif.Seq.LazyProps
