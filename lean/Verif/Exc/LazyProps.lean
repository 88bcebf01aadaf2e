import Verif.Exc.LazyHist
/-!
# Properties of `ttl::lazy_queue` under exceptions (C134, C135)

`XLq.exec triv q k` executes the call `q` when the `k`-th allocation or copy of an element (from 0) throws. `XReach triv S Q L h`: some client program, in which
any number of calls may have been left by exceptions, ends in memory `h`. The queues of `S` are in order; those of `Q` were left out of order by an exception;
the cells `L` were lost.
-/
set_option linter.unusedVariables false
set_option linter.unusedSimpArgs false
namespace Verif.Exc.XLq
open Verif Verif.Seq Verif.Seq.SNode Verif.Seq.LQueue Verif.Exc Verif.Exc.XSeq Verif.Seq.LazyProps
open Verif.Seq.DList (Arg readArg posOf posOf_nil posOf_cons Laid insertAt fresh Blank)
open Verif.Seq.BwdProps (lastOf_last)
variable {T : Type} {h h' t : Heap T} {S S' : State T} {Q Q' : Stales T} {L L' : Addr → Prop} {c d : Addr} {es fs : List (Addr × T)} {ns : List Addr} {triv : Bool}

/-- Iterating `c` gives the elements `es`. -/
def Shows (h : Heap T) (c : Addr) (es : List (Addr × T)) : Prop := SList.entries c h = .ok (es, h)

/-! ## What holds after every exception -/

theorem XInv.queue (X : XInv h S Q L) (hc : S c = some ⟨es, ns⟩) : Queue h c es ns ∧ h.tail c = lastOf c (es.map Prod.fst) := by
  have r := World.qu X.world hc
  exact ⟨r.frame fun x hx => ⟨rfl, rfl, rfl, rfl, ((without_live.1 (r.live x hx)).2).trans (r.live x hx).symm⟩, (World.tl X.world hc :)⟩

theorem XInv.observes (X : XInv h S Q L) (hc : S c = some ⟨es, ns⟩) : Observes h c es :=
  observes_of X.wf (X.queue hc).1.main (X.queue hc).2

/-- **C134.** Whatever happened before, every legal call on a queue in order either returns or is left by an exception, never has undefined behaviour, and
returns if its `points S q` allocations and copies succeed. Then everything is in order again, as `spec` or `Interrupted` says. -/
theorem call_outcome (X : XReach triv S Q L h) (q : Call T) (lg : Legal triv S q) (k : Nat) :
    (points S q ≤ k ∧ ∃ h', exec triv q k h = .ok (.ret () (k - points S q), h') ∧ XReach triv (spec S h.fresh q) Q L h') ∨
    (k < points S q ∧ ∃ t S' Q' L', exec triv q k h = .ok (.thrown, t) ∧ Interrupted S h.fresh k q S' Q' L' ∧
      XReach triv S' (join Q Q') (fun x => L x ∨ L' x) t) := by
  obtain ⟨h', _, P⟩ := X.inv.call q lg
  rcases P.cases k with ⟨l, e⟩ | ⟨l, t, e, S', Q', L', it, _⟩
  · exact .inl ⟨l, h', e, .returned q X lg e⟩
  · exact .inr ⟨l, t, S', Q', L', e, it, .thrown q X lg e it⟩

/-- Every queue in order answers every observer as its elements say. -/
theorem queue_observes (X : XReach triv S Q L h) (hc : S.Exists c) : Observes h c (S.get c) := by
  obtain ⟨es, ns, q⟩ := exists_mk hc
  rw [get_some q]; exact X.inv.observes q

theorem got (X : XReach triv S Q L h) (hc : S.Exists c) (o : Observes h c es) : S.get c = es := (queue_observes X hc).inj o

/-- All storage in use belongs to a queue in order, to one out of order, or is lost. -/
theorem memory (X : XReach triv S Q L h) (x : Addr) : h.live x = true ↔
    (∃ c, S.Exists c ∧ (x = c ∨ x = c + 1 ∨ x ∈ (S.get c).map Prod.fst ∨ x ∈ S.pool c)) ∨
    (∃ c s, Q c = some s ∧ (x = c ∨ x = c + 1 ∨ x ∈ s.elems.map Prod.fst ∨ x ∈ s.pool)) ∨ L x := by
  have I := X.inv
  constructor
  · intro l
    cases m : mask Q L x with
    | true =>
      rcases mask_true.1 m with q | ⟨c, s, q, hx⟩
      · exact .inr (.inr q)
      · exact .inr (.inl ⟨c, s, q, mem_cells.1 hx⟩)
    | false =>
      obtain ⟨c, ⟨es, ns⟩, q, hx⟩ := I.world.tight x (without_live.2 ⟨m, l⟩)
      exact .inl ⟨c, ⟨_, q⟩, by rw [get_some q, pool_some q]; exact mem_cells.1 hx⟩
  · rintro (⟨c, ⟨⟨es, ns⟩, q⟩, hx⟩ | ⟨c, s, q, hx⟩ | l)
    · rw [get_some q, pool_some q] at hx
      exact (I.queue q).1.live x (mem_cells.2 hx)
    · exact (I.stale c s q).live x (mem_cells.2 hx)
    · exact I.leaked x l

/-- Lost storage stays lost: it belongs to no queue. -/
theorem lost_forever (X : XReach triv S Q L h) {x : Addr} (l : L x) : h.live x = true ∧
    (∀ c, S.Exists c → x ≠ c ∧ x ≠ c + 1 ∧ x ∉ (S.get c).map Prod.fst ∧ x ∉ S.pool c) ∧
    ∀ c s, Q c = some s → x ≠ c ∧ x ≠ c + 1 ∧ x ∉ s.elems.map Prod.fst ∧ x ∉ s.pool := by
  have I := X.inv
  refine ⟨I.leaked x l, ?_, ?_⟩
  · rintro c ⟨⟨es, ns⟩, q⟩
    have n : x ∉ qcells c es ns := fun hx => by
      have := (without_live.1 ((World.qu I.world q).live x hx)).1
      rw [mask_false] at this
      exact this (.inl l)
    rw [get_some q, pool_some q]
    rw [mem_cells] at n
    exact ⟨fun e => n (.inl e), fun e => n (.inr (.inl e)), fun e => n (.inr (.inr (.inl e))), fun e => n (.inr (.inr (.inr e)))⟩
  · intro c s q
    have n : x ∉ qcells c s.elems s.pool := fun hx => I.apart c s q x hx l
    rw [mem_cells] at n
    exact ⟨fun e => n (.inl e), fun e => n (.inr (.inl e)), fun e => n (.inr (.inr (.inl e))), fun e => n (.inr (.inr (.inr e)))⟩

theorem kept {L : List Addr} {Q2 : Stales T} {L1 L2 : Addr → Prop} (X : XReach triv S Q L1 h) (X' : XInv t S' Q2 L2) (e : ∀ d, d ∉ L → S.Exists d → S' d = S d) :
    OthersKept S h t L := by
  intro d hd hx fs o
  have hg := got X hx o
  obtain ⟨gs, ns, q⟩ := exists_mk hx
  rw [get_some q] at hg; subst hg
  exact X'.observes ((e d hd hx).trans q)

/-! ## Single insertions -/

theorem At.le {m k j : Nat} {leak : Bool} (a : At m k j leak) : j ≤ k := by
  rcases a with ⟨_, a⟩ | ⟨_, _, a⟩ <;> omega

theorem at_one {m k j : Nat} {leak : Bool} (a : At m k j leak) (hj : j < 1) : j = 0 := by omega

theorem single_left (X : XReach triv S Q L h) (hc : S.Exists c) (o : Observes h c es) {i k : Nat} {v : T} {Q2 : Stales T} {L1 : Addr → Prop}
    (it : Ins S h.fresh k c i [v] S' Q' L') (Y : XInv t S' Q2 L1) : Observes t c es ∧ OthersKept S h t [c] ∧ Q' = noQueue ∧ (∀ d, S.Exists d → S'.Exists d) ∧ ∃ n, ∀ x, L' x → x = n := by
  obtain ⟨j, leak, a, hj, hL, it⟩ := it
  have : j = 0 := at_one a hj
  subst this
  rcases it with ⟨_, g, _⟩ | ⟨_, eq, es'⟩
  · exact absurd g (Nat.lt_irrefl _)
  · have e0 : insertAt i (alloc h.fresh (S.pool c) (([v] : List T).take 0)) (S.get c) = S.get c := by simp [alloc, insertAt]
    rw [e0, got X hc o] at es'
    subst es'
    exact ⟨Y.observes (put_same S c _ _), kept X Y fun d hd _ => put_other _ (by simpa using hd) _ _, eq, fun d => put_exists_other _ _ _, _, fun x l => ((hL x).1 l).2⟩

/-- The calls that insert one element. -/
inductive Single (c : Addr) (v : T) (len : Nat) : Call T → Prop where
  | front : Single c v len (.pushFront c v)
  | back : Single c v len (.pushBack c v)
  | after (i : Nat) : i ≤ len → Single c v len (.insert c i v)

/-- **C134, the part that holds.** `push_front`, `push_back` and `insert_after(pos, value)` that throw, whatever throws, leave the queue and all other queues as
they were. The only thing that changed is that at most one node is lost (`n`). -/
theorem single_throw_partial (X : XReach triv S Q L h) (hc : S.Exists c) (o : Observes h c es) {v : T} {q : Call T} (hq : Single c v es.length q) {k : Nat}
    (e : exec triv q k h = .ok (.thrown, t)) :
    Observes t c es ∧ OthersKept S h t [c] ∧ ∃ S' L' n, XReach triv S' Q L' t ∧ (∀ d, S.Exists d → S'.Exists d) ∧ ∀ x, L' x → L x ∨ x = n := by
  have hg := got X hc o
  have lg : Legal triv S q := by
    cases hq with
    | front => exact hc
    | back => exact hc
    | after i hi => exact ⟨hc, by rw [hg]; exact hi⟩
  rcases call_outcome X q lg k with ⟨_, h', e', _⟩ | ⟨_, t', S', Q', L', e', it, Y⟩
  · rw [e] at e'; cases e'
  · rw [e] at e'; cases e'
    have : ∃ i, Ins S h.fresh k c i [v] S' Q' L' := by
      cases hq with
      | front => exact ⟨_, it⟩
      | back => exact ⟨_, it⟩
      | after i hi => exact ⟨_, it⟩
    obtain ⟨i, it⟩ := this
    obtain ⟨y1, y2, rfl, y4, n, y3⟩ := single_left X hc o it Y.inv
    rw [join_none] at Y
    exact ⟨y1, y2, S', _, n, Y, y4, fun x l => l.imp id (y3 x)⟩

/-- **C134 fails.** If copying the value throws in `push_back`, the node for it is lost: the queue has the elements it had, but a node is in use that belongs to
no queue, and never will (`lost_forever`). -/
theorem push_back_throw_leaks (X : XReach triv S Q L h) (hc : S.Exists c) (o : Observes h c es) (v : T) :
    ∃ k t S' L' x, exec triv (.pushBack c v) k h = .ok (.thrown, t) ∧ Observes t c es ∧ XReach triv S' Q L' t ∧ (∀ d, S.Exists d → S'.Exists d) ∧ L' x ∧ ¬ L x ∧
      (S.pool c = [] → h.live x = false) := by
  have hk : (0 + (0 + 1 - (S.pool c).length)) < pts (S.pool c).length 1 := by unfold pts; omega
  rcases call_outcome X (.pushBack c v) hc (0 + (0 + 1 - (S.pool c).length)) with ⟨l, _⟩ | ⟨l, t, S', Q', L', e, it, Y⟩
  · exact absurd hk (Nat.not_lt.2 l)
  · obtain ⟨y1, y2, rfl, y4, n, y3⟩ := single_left X hc o it Y.inv
    rw [join_none] at Y
    obtain ⟨j, leak, a, hj, hL, _⟩ := it
    obtain ⟨rfl, rfl⟩ := a.unique (.inl ⟨rfl, rfl⟩)
    have lx : L' (nodeOf (h.fresh + (0 - (S.pool c).length)) ((S.pool c).drop 0)) := (hL _).2 ⟨rfl, rfl⟩
    refine ⟨_, t, S', _, _, e, y1, Y, y4, .inr lx, fun q => ?_, fun p => ?_⟩
    · obtain ⟨l1, l2, _⟩ := lost_forever X q
      cases p : S.pool c with
      | nil =>
        rw [p] at l1
        simp only [nodeOf, List.length_nil, List.drop_nil] at l1
        have := X.inv.wf.fresh_dead (show h.fresh ≤ h.fresh + (0 - 0) by exact Nat.le_refl _)
        rw [l1] at this; cases this
      | cons a as =>
        have := (l2 c hc).2.2.2
        rw [p] at this
        exact this (by simp [nodeOf])
    · rw [p]
      exact X.inv.wf.fresh_dead (Nat.le_refl _)

/-! ## Insertions of several elements -/

theorem join_one {s : StaleQ T} : join Q (oneQueue c s) c = some s := by simp only [join, oneQueue, if_true]

theorem gone_exists {s : StaleQ T} (e : Q c = some s) (hd : S.Exists d) : State.Exists (upd S c none) d ∨ d = c ∧ ∃ s, Q c = some s := by
  by_cases q : d = c
  · exact .inr ⟨q, s, e⟩
  · obtain ⟨s', g⟩ := hd
    exact .inl ⟨s', (upd_other (α := Option (QState T)) _ _ q).trans g⟩

theorem range_left (X : XReach triv S Q L h) (hc : S.Exists c) (o : Observes h c es) {i k : Nat} {vs : List T} {L1 : Addr → Prop}
    (it : Ins S h.fresh k c i vs S' Q' L') (Y : XInv t S' (join Q Q') L1) :
    ∃ j new, j ≤ k ∧ j < vs.length ∧ new.map Prod.snd = vs.take j ∧ Shows t c (es.take i ++ (new ++ es.drop i)) ∧ OthersKept S h t [c] ∧
      (i < es.length ∨ j = 0 → Observes t c (es.take i ++ (new ++ es.drop i)) ∧ S'.Exists c) ∧
      (∀ d, S.Exists d → S'.Exists d ∨ d = c ∧ ∃ s, join Q Q' c = some s) ∧ ∃ n, ∀ x, L' x → x = n := by
  obtain ⟨j, leak, a, hj, hL, it⟩ := it
  have hg := got X hc o
  rw [hg] at it
  have ev : (alloc h.fresh (S.pool c) (vs.take j)).map Prod.snd = vs.take j := alloc_values _ _ _
  rcases it with ⟨q1, q2, q3, q4⟩ | ⟨q1, q2, q3⟩
  · subst q3 q4
    have r := Y.stale c _ join_one
    refine ⟨j, _, a.le, hj, ev, r.main.entries Y.wf, kept X Y fun d hd _ => upd_other (α := Option (QState T)) _ _ (by simpa using hd), ?_, fun d => gone_exists join_one, _, fun x l => ((hL x).1 l).2⟩
    rintro (g | g)
    · rw [q1] at g; exact absurd g (Nat.lt_irrefl _)
    · rw [g] at q2; exact absurd q2 (Nat.lt_irrefl _)
  · subst q2 q3
    have ob := Y.observes (put_same S c _ _)
    exact ⟨j, _, a.le, hj, ev, ob.forward, kept X Y fun d hd _ => put_other _ (by simpa using hd) _ _, fun _ => ⟨ob, put_exists _ _ _ _⟩, fun d hd => .inl (put_exists_other _ _ _ hd), _, fun x l => ((hL x).1 l).2⟩

/-- **C135, the part that holds.** If `insert_after(pos, first, last)` throws, whatever throws, the values before the one at which it threw have been inserted,
in their order behind `pos`, and all other elements and all other queues are as they were. If `pos` was not the last element, or nothing was inserted, every
observer of the queue is right. At most one node is lost. -/
theorem insert_range_interrupted_partial (X : XReach triv S Q L h) (hc : S.Exists c) (o : Observes h c es) {i : Nat} (hi : i ≤ es.length) (vs : List T) {k : Nat}
    (e : exec triv (.insertVals c i vs) k h = .ok (.thrown, t)) :
    ∃ j new, j ≤ k ∧ j < vs.length ∧ new.map Prod.snd = vs.take j ∧ Shows t c (es.take i ++ (new ++ es.drop i)) ∧ OthersKept S h t [c] ∧
      (i < es.length ∨ j = 0 → Observes t c (es.take i ++ (new ++ es.drop i))) ∧ ∃ S' Q' L' n, XReach triv S' Q' L' t ∧ (∀ d, S.Exists d → S'.Exists d ∨ d = c ∧ ∃ s, Q' c = some s) ∧ ∀ x, L' x → L x ∨ x = n := by
  have hg := got X hc o
  rcases call_outcome X (.insertVals c i vs) ⟨hc, by rw [hg]; exact hi⟩ k with ⟨_, h', e', _⟩ | ⟨_, t', S', Q', L', e', it, Y⟩
  · rw [e] at e'; cases e'
  · rw [e] at e'; cases e'
    obtain ⟨j, new, y0, y1, y2, y3, y4, y5, y7, n, y6⟩ := range_left X hc o it Y.inv
    exact ⟨j, new, y0, y1, y2, y3, y4, fun g => (y5 g).1, S', _, _, n, Y, y7, fun x l => l.imp id (y6 x)⟩

/-- **C135, the part that holds.** The same for `insert_after(pos, n, value)`. -/
theorem insert_n_interrupted_partial (X : XReach triv S Q L h) (hc : S.Exists c) (o : Observes h c es) {i : Nat} (hi : i ≤ es.length) (n : Nat) {value : Arg T} {v : T}
    (rf : S.Refers v value) {k : Nat} (e : exec triv (.insertN c i n value) k h = .ok (.thrown, t)) :
    ∃ j new, j ≤ k ∧ j < n ∧ new.map Prod.snd = List.replicate j v ∧ Shows t c (es.take i ++ (new ++ es.drop i)) ∧ OthersKept S h t [c] ∧
      (i < es.length ∨ j = 0 → Observes t c (es.take i ++ (new ++ es.drop i))) ∧ ∃ S' Q' L' m, XReach triv S' Q' L' t ∧ (∀ d, S.Exists d → S'.Exists d ∨ d = c ∧ ∃ s, Q' c = some s) ∧ ∀ x, L' x → L x ∨ x = m := by
  have hg := got X hc o
  rcases call_outcome X (.insertN c i n value) ⟨hc, by rw [hg]; exact hi, v, rf⟩ k with ⟨_, h', e', _⟩ | ⟨_, t', S', Q', L', e', it, Y⟩
  · rw [e] at e'; cases e'
  · rw [e] at e'; cases e'
    obtain ⟨j, new, y0, y1, y2, y3, y4, y5, y7, m, y6⟩ := range_left X hc o it Y.inv
    rw [copies_eq X.inv.world rf, List.length_replicate] at y1
    rw [copies_eq X.inv.world rf, List.take_replicate, Nat.min_eq_left (Nat.le_of_lt y1)] at y2
    exact ⟨j, new, y0, y1, y2, y3, y4, fun g => (y5 g).1, S', _, _, m, Y, y7, fun x l => l.imp id (y6 x)⟩

/-- **C135, the part that holds.** Copy assignment that throws leaves the queue with copies of the first elements of the other one; all other queues, and the one
assigned from, are as they were. -/
theorem assign_interrupted_partial (X : XReach triv S Q L h) (hc : S.Exists c) (hd : S.Exists d) (hcd : c ≠ d) (od : Observes h d fs) {k : Nat}
    (e : exec triv (.assign c d) k h = .ok (.thrown, t)) :
    ∃ j new, j ≤ k ∧ j < fs.length ∧ new.map Prod.snd = (fs.map Prod.snd).take j ∧ Shows t c new ∧ OthersKept S h t [c] ∧ (j = 0 → Observes t c []) ∧
      ∃ S' Q' L' n, XReach triv S' Q' L' t ∧ (∀ d, S.Exists d → S'.Exists d ∨ d = c ∧ ∃ s, Q' c = some s) ∧ ∀ x, L' x → L x ∨ x = n := by
  have hg := got X hd od
  rcases call_outcome X (.assign c d) ⟨hc, hd, hcd⟩ k with ⟨_, h', e', _⟩ | ⟨_, t', S', Q', L', e', it, Y⟩
  · rw [e] at e'; cases e'
  · rw [e] at e'; cases e'
    have Yi := Y.inv
    obtain ⟨j, leak, a, hj, hL, it⟩ := it
    rw [put_get, hg] at it
    rw [hg, List.length_map] at hj
    simp only [insertAt, List.take_nil, List.drop_nil, List.append_nil, List.nil_append] at it
    have ev := alloc_values ((fs.map Prod.snd).take j) h.fresh ((S.put c [] (((S.get c).map Prod.fst).reverse ++ S.pool c)).pool c)
    rcases it with ⟨q1, q2, q3, q4⟩ | ⟨q1, q2, q3⟩
    · subst q3 q4
      have r := Yi.stale c _ join_one
      refine ⟨j, _, a.le, hj, ev, r.main.entries Yi.wf, kept X Yi fun d hd _ => ?_, ?_, _, _, _, _, Y, fun d hd => gone_exists join_one (put_exists_other _ _ _ hd), fun x l => l.imp id fun l => ((hL x).1 l).2⟩
      · have hd : d ≠ c := by simpa using hd
        exact (upd_other (α := Option (QState T)) _ _ hd).trans (put_other _ hd _ _)
      · intro g; rw [g] at q2; exact absurd q2 (Nat.lt_irrefl _)
    · subst q2 q3
      have ob := Yi.observes (put_same _ c _ _)
      refine ⟨j, _, a.le, hj, ev, ob.forward, kept X Yi fun d hd _ => ?_, fun g => ?_, _, _, _, _, Y, fun d hd => .inl (put_exists_other _ _ _ (put_exists_other _ _ _ hd)), fun x l => l.imp id fun l => ((hL x).1 l).2⟩
      · have hd : d ≠ c := by simpa using hd
        exact (put_other _ hd _ _).trans (put_other _ hd _ _)
      · subst g
        simpa [alloc] using ob

/-- **C135 fails.** Copy assignment is not all-or-nothing: an exception at its first point leaves the queue without its elements. -/
theorem assign_throw_loses (X : XReach triv S Q L h) (hc : S.Exists c) (hd : S.Exists d) (hcd : c ≠ d) (od : Observes h d fs) (hne : fs ≠ []) :
    ∃ t, exec triv (.assign c d) 0 h = .ok (.thrown, t) ∧ Observes t c [] ∧ OthersKept S h t [c] := by
  have hg := got X hd od
  have hp := List.length_pos_iff.2 hne
  rcases call_outcome X (.assign c d) ⟨hc, hd, hcd⟩ 0 with ⟨l, _⟩ | ⟨_, t, S', Q', L', e, it, Y⟩
  · exfalso
    simp only [points, pts, hg] at l; omega
  · obtain ⟨j, new, y0, y1, y2, y3, y4, y5, _⟩ := assign_interrupted_partial X hc hd hcd od e
    exact ⟨t, e, y5 (Nat.le_zero.1 y0), y4⟩

/-! ## Queues out of order -/

/-- A queue an exception left out of order: iteration, `empty()` and `front()` are right, but `before_end()` is the position of an element before the last one (or
`before_begin()`). -/
theorem stale_queue (X : XReach triv S Q L h) {s : StaleQ T} (hc : Q c = some s) : s.stop < s.elems.length ∧ Shows h c s.elems ∧
    LQueue.empty c h = .ok (false, h) ∧ (∀ e, s.elems.head? = some e → SList.front c h = .ok (e.2, h)) ∧
    LQueue.beforeEnd c h = .ok (((s.elems.take s.stop).getLast?.map Prod.fst).getD c, h) ∧ ¬ Observes h c s.elems := by
  have I := X.inv
  have r := (I.stale c s hc).main
  obtain ⟨tl, lt⟩ := I.ends c s hc
  have bt : LQueue.beforeEnd c h = .ok (((s.elems.take s.stop).getLast?.map Prod.fst).getD c, h) := by
    rw [← lastOf_last, ← tl]; exact getTail_eq r.head
  have hne : s.elems ≠ [] := by
    intro q; rw [q] at lt; exact absurd lt (Nat.not_lt_zero _)
  refine ⟨lt, r.entries I.wf, ?_, ?_, bt, fun o => ?_⟩
  · have nx := r.next_head
    cases g : s.elems with
    | nil => exact absurd g hne
    | cons e es =>
      rw [g] at nx
      have e0 : e.1 ≠ 0 := I.wf.ne_zero (r.data e (by rw [g]; simp)).1
      simp only [List.map_cons, posOf_cons] at nx
      simp [LQueue.empty, getNext_eq r.head, nx, e0]
  · intro e he
    cases g : s.elems with
    | nil => rw [g] at he; cases he
    | cons x es =>
      rw [g] at r he
      cases he; exact r.front
  · have e := bt.symm.trans o.beforeEnd
    simp only [Res.ok.injEq, Prod.mk.injEq, and_true] at e
    rw [← lastOf_last, ← lastOf_last] at e
    have sp : s.elems.map Prod.fst = (s.elems.take s.stop).map Prod.fst ++ (s.elems.drop s.stop).map Prod.fst := by
      rw [← List.map_append, List.take_append_drop]
    have dn : (s.elems.drop s.stop).map Prod.fst ≠ [] := by
      intro q
      have := congrArg List.length q
      simp at this; omega
    rw [sp, lastOf_append] at e
    have m1 := lastOf_mem ((s.elems.take s.stop).map Prod.fst) c
    have m2 := lastOf_mem' (lastOf c ((s.elems.take s.stop).map Prod.fst)) dn
    rw [← e] at m2
    have nd := r.nodup
    rw [sp, ← List.cons_append, List.nodup_append] at nd
    exact nd.2.2 _ m1 _ m2 rfl

/-- `push_back` on such a queue puts the value where `before_end()` is: in the middle. -/
theorem stale_push_back (X : XReach triv S Q L h) {s : StaleQ T} (hc : Q c = some s) (v : T) :
    ∃ h' n, LQueue.exec triv (.pushBack c v) h = .ok ((), h') ∧ Shows h' c (s.elems.take s.stop ++ (n, v) :: s.elems.drop s.stop) := by
  have I := X.inv
  have r := I.stale c s hc
  obtain ⟨tl, lt⟩ := I.ends c s hc
  have sp : s.elems = s.elems.take s.stop ++ s.elems.drop s.stop := (List.take_append_drop _ _).symm
  obtain ⟨h1, q, r1, ef, fr, tl1⟩ := grab_ok (A := s.elems.take s.stop) (B := s.elems.drop s.stop) I.wf (by rw [← sp]; exact r) v
  refine ⟨{ h1 with tail := upd h1.tail c (nodeOf h.fresh s.pool) }, nodeOf h.fresh s.pool, ?_, ?_⟩
  · simp only [Prog.bind_app] at q
    simp only [LQueue.exec, LQueue.pushBack, Prog.bind_app, getTail_eq r.main.head, Res.bind_ok, tl]
    cases g : LQueue.getNode c v h with
    | ok x => rw [g] at q; simp only [Res.bind_ok] at q ⊢; rw [q]; simp [setTail_eq r1.main.head]
    | ub f => rw [g] at q; cases q
    | diverge => rw [g] at q; cases q
  · exact (Slist.retail r1.main).entries ⟨ef.wf.pos, ef.wf.null, ef.wf.used⟩

/-- **C135 fails.** An exception in `insert_after(before_end(), first, last)` after `j ≥ 1` values leaves the queue out of order: the values are in the queue but
`before_end()` is still the old one. Then `push_back` inserts before them, and if the queue was empty `back()` has undefined behaviour although the queue
is not empty. -/
theorem insert_end_throw_loses_end (X : XReach triv S Q L h) (hc : S.Exists c) (o : Observes h c es) (vs : List T) {j : Nat} (h0 : 0 < j) (hj : j < vs.length) :
    ∃ k t new, exec triv (.insertVals c es.length vs) k h = .ok (.thrown, t) ∧ Shows t c (es ++ new) ∧ new.map Prod.snd = vs.take j ∧
      ¬ Observes t c (es ++ new) ∧ LQueue.beforeEnd c t = .ok ((es.getLast?.map Prod.fst).getD c, t) ∧
      (∀ w, ∃ t' n, LQueue.exec triv (.pushBack c w) t = .ok ((), t') ∧ Shows t' c (es ++ (n, w) :: new)) ∧
      (es = [] → LQueue.back c t = .ub .lifetime) := by
  have hg := got X hc o
  have at' : At (S.pool c).length (j + (j + 1 - (S.pool c).length)) j true := .inl ⟨rfl, rfl⟩
  have hk := at'.lt hj
  rcases call_outcome X (.insertVals c es.length vs) ⟨hc, by rw [hg]; exact Nat.le_refl _⟩ (j + (j + 1 - (S.pool c).length)) with ⟨l, _⟩ | ⟨_, t, S', Q', L', e, it, Y⟩
  · exact absurd hk (Nat.not_lt.2 l)
  · obtain ⟨j', leak, a, _, hL, it⟩ := it
    obtain ⟨rfl, rfl⟩ := a.unique at'
    rw [hg] at it
    rcases it with ⟨q1, q2, q3, q4⟩ | ⟨q1, _⟩
    · have hQ : join Q Q' c = some ⟨insertAt es.length (alloc h.fresh (S.pool c) (vs.take j')) es,
          (S.pool c).drop (if true = true then j' + 1 else j'), es.length⟩ := by rw [q4]; simp only [join, oneQueue, if_true]
      obtain ⟨_, s1, _, _, s2, s3⟩ := stale_queue Y hQ
      have e1 : insertAt es.length (alloc h.fresh (S.pool c) (vs.take j')) es = es ++ alloc h.fresh (S.pool c) (vs.take j') := by simp [insertAt]
      simp only [e1, List.take_left] at s1 s2 s3
      refine ⟨_, t, _, e, s1, alloc_values _ _ _, s3, s2, fun w => ?_, ?_⟩
      · obtain ⟨t', n, p1, p2⟩ := stale_push_back Y hQ w
        simp only [e1, List.take_left, List.drop_left] at p2
        exact ⟨t', n, p1, p2⟩
      · rintro rfl
        have r := (Y.inv.stale c _ hQ).main
        simp only [List.getLast?_nil, Option.map_none, Option.getD_none] at s2
        have s2 : getTail c t = .ok (c, t) := s2
        simp only [LQueue.back, Prog.bind_app, s2, Res.bind_ok, getVal, r.head, if_true, r.bare]
    · exact absurd ⟨rfl, h0⟩ q1

/-- **C135 fails.** Then `pop_front()` up to the element at `before_end()` and `push_back(w)` lose `w`: it is in no queue. (Here for a queue of one element.) -/
theorem stale_pop_push_loses (X : XReach triv S Q L h) {s : StaleQ T} (hc : Q c = some s) {e : Addr × T} (he : s.elems = e :: es) (h1 : s.stop = 1) (w : T) :
    ∃ h' h'', LQueue.exec triv (.popFront c) h = .ok ((), h') ∧ Shows h' c es ∧ LQueue.exec triv (.pushBack c w) h' = .ok ((), h'') ∧ Shows h'' c es := by
  have I := X.inv
  have r := I.stale c s hc
  obtain ⟨tl, lt⟩ := I.ends c s hc
  rw [he] at r lt tl
  rw [h1] at tl lt
  simp only [List.take_succ_cons, List.take_zero, List.map_cons, List.map_nil, lastOf_cons, lastOf_nil] at tl
  obtain ⟨q, r', ef⟩ := pool_ok (A := []) (B := es) (e := e) I.wf r
  simp only [List.map_nil, lastOf_nil, List.nil_append] at q r' ef
  obtain ⟨la, va⟩ := r.main.data e (by simp)
  have lc := r'.main.head
  have nx := r'.main.next_head
  have q2 : (do LQueue.putNode c (← SNode.unlinkNext c) : Prog (Heap T) Unit) h = .ok ((), putA (unlA h c) c e.1) := by
    simp only [Prog.bind_app, q, Res.bind_ok]
    exact putNode_eq r.dead.head la va
  simp only [Prog.bind_app] at q2
  have tl' : (putA (unlA h c) c e.1).tail c = e.1 := tl
  generalize putA (unlA h c) c e.1 = h' at *
  cases es with
  | nil => simp at lt
  | cons f es =>
    have f0 : f.1 ≠ 0 := I.wf.ne_zero (r.main.data f (by simp)).1
    simp only [List.map_cons, posOf_cons] at nx
    obtain ⟨ln, vn⟩ := r'.dead.data e.1 (by simp)
    have p1 : h'.next (c + 1) = e.1 := r'.dead.path.1
    have n0 : e.1 ≠ 0 := ef.wf.ne_zero ln
    have g := getNode_pool w r'.dead.head p1 n0 ln vn
    have ne : e.1 ∉ scells c (f :: es) := fun q => r'.apart _ q (by simp)
    have nc : c + 1 ∉ scells c (f :: es) := fun q => r'.apart _ q (by simp)
    let h2 : Heap T := { h' with next := upd h'.next (c + 1) (h'.next e.1), val := upd h'.val e.1 (some w) }
    have i2 : SNode.insertAfter e.1 e.1 h2 = .ok (e.1, insA h2 e.1 e.1) := insertAfter_eq (show h2.live e.1 = true from ln) (show h2.live e.1 = true from ln)
    refine ⟨h', { insA h2 e.1 e.1 with tail := upd (insA h2 e.1 e.1).tail c e.1 }, ?_, r'.main.entries ef.wf, ?_, ?_⟩
    · simp only [LQueue.exec, LQueue.popFront, LQueue.empty, Prog.bind_app, q, Res.bind_ok] at q2 ⊢
      rw [q2]
      simp [getNext_eq lc, nx, f0]
    · simp only [LQueue.exec, LQueue.pushBack, Prog.bind_app, getTail_eq lc, Res.bind_ok, tl', g]
      rw [i2]
      simp only [Res.bind_ok]
      exact setTail_eq (show (insA h2 e.1 e.1).live c = true from lc) _
    · have s2 : Slist (insA h2 e.1 e.1) c (f :: es) := by
        refine r'.main.frame fun x hx => ?_
        have n1 : x ≠ e.1 := fun q => ne (q ▸ hx)
        have n2 : x ≠ c + 1 := fun q => nc (q ▸ hx)
        refine ⟨?_, rfl, rfl, ?_, rfl⟩
        · simp [insA, h2, upd, n1, n2]
        · simp [insA, h2, upd, n1]
      exact (Slist.retail s2).entries ⟨ef.wf.pos, ef.wf.null, ef.wf.used⟩

/-- **C135.** `clear()` puts such a queue in order again; the other queues are as they were. -/
theorem stale_clear (X : XReach triv S Q L h) {s : StaleQ T} (hc : Q c = some s) :
    ∃ h' S', LQueue.exec triv (.clear c) h = .ok ((), h') ∧ Observes h' c [] ∧ OthersKept S h h' [c] ∧ XReach triv S' (drop Q c) L h' ∧ S'.Exists c := by
  obtain ⟨h', e, Y⟩ := X.inv.clear hc
  exact ⟨h', _, e, Y.observes (put_same _ _ _ _), kept X Y fun d hd _ => put_other _ (by simpa using hd) _ _, .cleared X hc e, put_exists _ _ _ _⟩

/-- **C135.** Destroying such a queue is fine, too (for elements with a trivial destructor, or if there are no pooled nodes; see C33). -/
theorem stale_destroy (X : XReach triv S Q L h) {s : StaleQ T} (hc : Q c = some s) (ok : triv = true ∨ s.pool = []) :
    ∃ h', LQueue.exec triv (.destroy c) h = .ok ((), h') ∧ OthersKept S h h' [] ∧ XReach triv S (drop Q c) L h' := by
  obtain ⟨h', e, Y⟩ := X.inv.destroy hc ok
  rw [upd_none (X.inv.none_of hc)] at Y
  exact ⟨h', e, kept X Y fun d hd _ => rfl, .destroyed X hc ok e⟩

/-! ## Constructors -/

/-- **C134 fails for constructors.** If the copy of the element `j` (from 0) throws in the copy constructor, or the allocation of its node, the queues are as they
were, and the storage of the `j` nodes made before, and in the first case of the node of the element, is lost: it was free before and is in use. -/
theorem copy_ctor_interrupted (X : XReach triv S Q L h) (hd : S.Exists d) (od : Observes h d fs) {k : Nat} (e : exec triv (.copyOf d) k h = .ok (.thrown, t)) :
    ∃ (L' : Addr → Prop) (lost : List Addr), OthersKept S h t [] ∧ XReach triv S Q L' t ∧ (∀ x, L' x ↔ L x ∨ x ∈ lost) ∧ lost.Nodup ∧ 2 * lost.length = k + k % 2 ∧
      ∀ x ∈ lost, h.live x = false ∧ t.live x = true := by
  have hg := got X hd od
  rcases call_outcome X (.copyOf d) hd k with ⟨_, h', e', _⟩ | ⟨_, t', S', Q', L', e', it, Y⟩
  · rw [e] at e'; cases e'
  · rw [e] at e'; cases e'
    obtain ⟨rfl, rfl, j, leak, a, hj, hL⟩ := it
    rw [join_none] at Y
    have mem : ∀ x, x ∈ (List.range (j + if leak = true then 1 else 0)).map (h.fresh + 2 + ·) ↔ L' x := by
      intro x
      rw [hL x, List.mem_map]
      constructor
      · rintro ⟨i, hi, rfl⟩
        exact ⟨Nat.le_add_right _ _, Nat.add_lt_add_left (List.mem_range.1 hi) _⟩
      · rintro ⟨l1, l2⟩
        refine ⟨x - (h.fresh + 2), List.mem_range.2 ?_, Nat.add_sub_cancel' l1⟩
        exact Nat.sub_lt_left_of_lt_add l1 l2
    refine ⟨_, (List.range (j + if leak = true then 1 else 0)).map (h.fresh + 2 + ·), kept X Y.inv fun d _ _ => rfl, Y, fun x => by rw [mem], ?_, ?_, ?_⟩
    · exact List.Pairwise.map _ (fun a b ne e => ne (Nat.add_left_cancel e)) List.nodup_range
    · rw [List.length_map, List.length_range]
      rcases a with ⟨l, a⟩ | ⟨l, _, a⟩ <;> subst l <;> simp <;> omega
    · intro x hx
      have l := (mem x).1 hx
      exact ⟨X.inv.wf.fresh_dead (Nat.le_trans (Nat.le_add_right _ _) ((hL x).1 l).1), Y.inv.leaked x (.inr l)⟩

/-- **C134 fails for constructors.** The same for `lazy_queue(n, value)`. -/
theorem ctor_n_interrupted (X : XReach triv S Q L h) (n : Nat) {value : Arg T} {v : T} (rf : S.Refers v value) {k : Nat}
    (e : exec triv (.ctorN n value) k h = .ok (.thrown, t)) :
    ∃ (L' : Addr → Prop) (lost : List Addr), OthersKept S h t [] ∧ XReach triv S Q L' t ∧ (∀ x, L' x ↔ L x ∨ x ∈ lost) ∧ lost.Nodup ∧ 2 * lost.length = k + k % 2 ∧
      ∀ x ∈ lost, h.live x = false ∧ t.live x = true := by
  rcases call_outcome X (.ctorN n value) ⟨v, rf⟩ k with ⟨_, h', e', _⟩ | ⟨_, t', S', Q', L', e', it, Y⟩
  · rw [e] at e'; cases e'
  · rw [e] at e'; cases e'
    obtain ⟨rfl, rfl, j, leak, a, hj, hL⟩ := it
    rw [join_none] at Y
    have mem : ∀ x, x ∈ (List.range (j + if leak = true then 1 else 0)).map (h.fresh + 2 + ·) ↔ L' x := by
      intro x
      rw [hL x, List.mem_map]
      constructor
      · rintro ⟨i, hi, rfl⟩
        exact ⟨Nat.le_add_right _ _, Nat.add_lt_add_left (List.mem_range.1 hi) _⟩
      · rintro ⟨l1, l2⟩
        refine ⟨x - (h.fresh + 2), List.mem_range.2 ?_, Nat.add_sub_cancel' l1⟩
        exact Nat.sub_lt_left_of_lt_add l1 l2
    refine ⟨_, (List.range (j + if leak = true then 1 else 0)).map (h.fresh + 2 + ·), kept X Y.inv fun d _ _ => rfl, Y, fun x => by rw [mem], ?_, ?_, ?_⟩
    · exact List.Pairwise.map _ (fun a b ne e => ne (Nat.add_left_cancel e)) List.nodup_range
    · rw [List.length_map, List.length_range]
      rcases a with ⟨l, a⟩ | ⟨l, _, a⟩ <;> subst l <;> simp <;> omega
    · intro x hx
      have l := (mem x).1 hx
      exact ⟨X.inv.wf.fresh_dead (Nat.le_trans (Nat.le_add_right _ _) ((hL x).1 l).1), Y.inv.leaked x (.inr l)⟩

/-- The hypotheses are met: two queues; a `push_back` that loses a node and then an insertion at the end that throws at its third value, in one history; then
`push_back` puts its value in the middle, or `clear()` puts the queue in order; an assignment that throws at once; and a copy constructor that throws at
the copy of its second element and loses two nodes. -/
example : ∃ (S S1 : State Nat) (L1 : Addr → Prop) (h t1 t2 t3 t4 t5 : Heap Nat) (c d x : Addr) (k1 k2 : Nat) (new g3 : List (Addr × Nat)) (es : List (Addr × Nat)),
    XReach true S noQueue (fun _ => False) h ∧ Observes h c es ∧ es.map Prod.snd = [1, 2, 3] ∧
    exec true (.pushBack c 4) k1 h = .ok (.thrown, t1) ∧ Observes t1 c es ∧ XReach true S1 noQueue L1 t1 ∧ L1 x ∧
    exec true (.insertVals c 3 [4, 5, 6, 7]) k2 t1 = .ok (.thrown, t2) ∧ Shows t2 c (es ++ new) ∧ new.map Prod.snd = [4, 5] ∧ ¬ Observes t2 c (es ++ new) ∧
    LQueue.exec true (.pushBack c 9) t2 = .ok ((), t3) ∧ Shows t3 c g3 ∧ g3.map Prod.snd = [1, 2, 3, 9, 4, 5] ∧
    exec true (.assign c d) 0 t1 = .ok (.thrown, t4) ∧ Observes t4 c [] ∧
    exec true (.copyOf c) 3 h = .ok (.thrown, t5) ∧ ∃ y z, y ≠ z ∧ h.live y = false ∧ t5.live y = true ∧ h.live z = false ∧ t5.live z = true := by
  obtain ⟨S, h, c, d, es, fs, R, hc, hd, hcd, hs, ht, e1, e2⟩ := exists_queues (triv := true) [1, 2, 3] [7, 8, 9]
  have l1 : es.length = 3 := by simpa using congrArg List.length e1
  have l2 : fs.length = 3 := by simpa using congrArg List.length e2
  have X := reach_xreach R
  have hg := got X hc hs
  obtain ⟨k1, t1, S1, L1, x, q1, o1, X1, k1e, lx, _⟩ := push_back_throw_leaks X hc hs 4
  obtain ⟨_, o1', _⟩ := single_throw_partial X hc hs .back q1
  have od1 : Observes t1 d fs := o1' d (by simpa using Ne.symm hcd) hd fs ht
  obtain ⟨k2, t2, new, q2, s2, v2, n2, _, p2, _⟩ := insert_end_throw_loses_end X1 (k1e c hc) o1 [4, 5, 6, 7] (j := 2) (by decide) (by decide)
  obtain ⟨t3, n, q3, s3⟩ := p2 9
  obtain ⟨t4, q4, o4, _⟩ := assign_throw_loses X1 (k1e c hc) (k1e d hd) hcd od1 (by intro q; rw [q] at l2; cases l2)
  rcases call_outcome X (.copyOf c) hc 3 with ⟨l, _⟩ | ⟨_, t5, _, _, _, q5, _⟩
  · exfalso
    simp only [points, pts, hg, l1] at l; omega
  obtain ⟨L5, lost, _, _, _, nd, len, hl⟩ := copy_ctor_interrupted X hc hs q5
  have len2 : lost.length = 2 := by omega
  match lost, len2, nd, hl with
  | [y, z], _, nd, hl =>
    have ne : y ≠ z := by simpa using nd
    obtain ⟨y1, y2⟩ := hl y (by simp)
    obtain ⟨z1, z2⟩ := hl z (by simp)
    rw [l1] at q2
    refine ⟨S, S1, L1, h, t1, t2, t3, t4, t5, c, d, x, k1, k2, new, _, es, X, hs, e1, q1, o1, X1, lx, q2, s2, v2, n2, q3, s3, ?_, q4, o4, q5, y, z, ne, y1, y2, z1, z2⟩
    rw [List.map_append, List.map_cons, v2, e1]; rfl

end Verif.Exc.XLq
