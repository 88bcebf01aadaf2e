import Verif.Seq.ListProps4
/-!
# Properties of `ttl::list`, continued: resize, copies, comparison, memory; concrete cases
-/
set_option linter.unusedVariables false
set_option linter.unusedSimpArgs false
set_option linter.unusedSectionVars false
namespace Verif.Seq.ListProps
open Verif Verif.Seq Verif.Seq.DList
variable {T : Type} {h : Heap T} {S : State T} {c d : Addr}

/-! ## C28: resize -/

/-- **C28, the part that holds.** `resize(n, v)` with `n > 0` (or on an empty list) leaves the first `min(n, size)` elements, in their
nodes, followed by new copies of `v` up to `n` elements. -/
theorem resize_resizes_partial (R : Reach S h) (hc : S.Intact c) {es : List (Addr × T)} (hs : Shows h c es) (n : Nat) (v : T)
    (hn : n ≠ 0 ∨ es = []) :
    ∃ h' ns, exec (.resize c n v) h = .ok ((), h') ∧ Shows h' c (es.take n ++ ns) ∧ NewNodes h ns (List.replicate (n - es.length) v) ∧
      DList.size c h' = .ok (n, h') ∧ OthersKept S h h' [c] := by
  have hg := get_shown R (intact_ex hc) hs
  obtain ⟨h', q, R', s, k⟩ := one_list R (.resize c n v) ⟨hc, by rw [hg]; exact hn⟩ rfl
  rw [hg] at s
  have nn := newNodes R (Nat.le_refl _) (List.replicate (n - es.length) v)
  refine ⟨h', _, q, s, nn, ?_, k⟩
  have o := (observes_shown R' (put_exists _ _ _) s).size
  rw [o]
  have : (fresh h.fresh (List.replicate (n - es.length) v)).length = n - es.length := by
    have := congrArg List.length nn.values; simpa using this
  simp only [List.length_append, List.length_take, this]
  congr 2; omega

/-- **C28 fails for every non-empty list:** `resize(0)` removes nothing. -/
theorem resize_zero_keeps (R : Reach S h) (hc : S.Intact c) {es : List (Addr × T)} (hs : Shows h c es) (hne : es ≠ []) (v : T) :
    ∃ h', exec (.resize c 0 v) h = .ok ((), h') ∧ Shows h' c es := by
  obtain ⟨hc', r⟩ := shown_ring R hc hs
  obtain ⟨h', q, r', ef, _⟩ := resizeLoop_ok es (A := []) 0 v R.world.wf (by simpa using r) (.inr rfl)
  refine ⟨h', ?_, ?_⟩
  · simp only [exec, resize, Prog.bind_app, getNext_eq r.head, Res.bind_ok, r.next_head]
    exact q
  · rw [if_pos rfl] at r'; exact r'.entries

/-! ## C72: copies -/

/-- **C72.** The copy constructor makes a new list with the same values in new nodes; the source and every other list stay as they
are. -/
theorem copy_copies (R : Reach S h) (hd : S.Exists d) {fs : List (Addr × T)} (hf : Shows h d fs) :
    ∃ h' c ns S', copyCtor d h = .ok (c, h') ∧ Reach S' h' ∧ S'.Intact c ∧ ¬ S.Exists c ∧ Shows h' c ns ∧ NewNodes h ns (fs.map Prod.snd) ∧
      Shows h' d fs ∧ OthersKept S h h' [c] := by
  have hg := get_shown R hd hf
  have nx : ¬ S.Exists h.fresh := by
    rintro ⟨s, q⟩
    exact R.world.wf.ne_fresh (iface.live (R.world.own _ _ q) _ (iface.self _ _)) rfl
  obtain ⟨h', q, R', s, k⟩ := one_list (c := h.fresh) R (.copyOf d) hd rfl
  obtain ⟨t, ht⟩ := id hd
  obtain ⟨h2, q2, _, _⟩ := copyCtor_good R.world ht
  have e : h' = h2 := by
    have : exec (.copyOf d) h = .ok ((), h2) := by simp only [exec, Prog.bind_app, q2, Res.bind_ok, Prog.pure_app]
    rw [q] at this; cases this; rfl
  subst e
  rw [hg] at s
  refine ⟨h', h.fresh, _, _, q2, R', put_intact _ _ _, nx, s, newNodes R (Nat.le_succ _) _, ?_, k⟩
  exact k d (by simp; exact fun q => nx (q ▸ hd)) hd fs hf

/-- **C72, assignment, the part that holds.** `c = d` on an empty, never cleared `c` makes `c` a copy of `d`. -/
theorem assign_copies_partial (R : Reach S h) (hc : S.Intact c) (hd : S.Exists d) (hcd : c ≠ d) (hs : Shows h c ([] : List (Addr × T)))
    {fs : List (Addr × T)} (hf : Shows h d fs) :
    ∃ h' ns, exec (.assign c d) h = .ok ((), h') ∧ Shows h' c ns ∧ NewNodes h ns (fs.map Prod.snd) ∧ Shows h' d fs ∧ OthersKept S h h' [c] := by
  have hg := get_shown R (intact_ex hc) hs
  have hg' := get_shown R hd hf
  obtain ⟨h', q, R', s, k⟩ := one_list R (.assign c d) ⟨hc, hg, hd, hcd⟩ rfl
  rw [hg'] at s
  exact ⟨h', _, q, s, newNodes R (Nat.le_refl _) _, k d (by simp [hcd.symm]) hd fs hf, k⟩

theorem cleared_prev (R : Reach S h) (hc : S.Intact c) {es : List (Addr × T)} (hs : Shows h c es) (hne : es ≠ []) :
    ∃ h', clear c h = .ok ((), h') ∧ Cleared h' c ∧ Wf h' ∧ h'.live (h'.prev c) = false ∧ h'.prev c < h'.fresh ∧
      Effect (· ∈ cells c es) (· ∈ cells c ([] : List (Addr × T))) h h' := by
  obtain ⟨hc', r⟩ := shown_ring R hc hs
  obtain ⟨h1, q1, _, _, ef, pv, cl⟩ := clear_good R.world hc'
  rcases List.eq_nil_or_concat es with q0 | ⟨A, x, q0⟩
  · exact absurd q0 hne
  · rw [List.concat_eq_append] at q0; subst q0
    have p1 : h1.prev c = x.1 := by rw [pv]; exact r.prev_last
    have lx := (r.data x (by simp)).1
    have nd := (List.nodup_cons.1 r.nodup).1
    have xc : x.1 ≠ c := fun q => nd (by rw [← q]; simp)
    refine ⟨h1, q1, cl, ef.wf, ?_, ?_, ef⟩
    · rw [p1]; exact ef.shrunk x.1 (by simp [cells, elems_ring]) (by simp [cells, xc])
    · rw [p1]; exact Nat.lt_of_lt_of_le (R.world.wf.used _ lx) ef.mono

/-- **C72 fails for every non-empty receiver:** assigning any non-empty list to a non-empty list accesses a released node. -/
theorem assign_nonempty_ub (R : Reach S h) (hc : S.Intact c) (hd : S.Exists d) (hcd : c ≠ d) {es fs : List (Addr × T)}
    (hs : Shows h c es) (hf : Shows h d fs) (he : es ≠ []) (hfe : fs ≠ []) : exec (.assign c d) h = .ub .access := by
  obtain ⟨h1, q1, cl, w1, dd, lt, ef⟩ := cleared_prev R hc hs he
  have hg := get_shown R hd hf
  obtain ⟨t, ht⟩ := hd
  rw [get_some ht] at hg
  obtain ⟨l, lv, _, _⟩ := World.laid R.world ht
  rw [hg] at l
  obtain ⟨hc', r⟩ := shown_ring R hc hs
  have dj : ∀ x ∈ d :: fs.map Prod.fst, x ∉ cells c es := by
    intro x hx
    rw [← hg] at hx
    exact R.world.disj d _ c _ ht hc' (fun q => hcd q.symm) x hx
  have l1 : Laid h1 d fs d := Effect.laid ef l lv dj
  have lv1 : h1.live d = true := by
    have n1 := dj d (by simp)
    rw [(ef.frame d n1 (by simp [cells]; exact hcd.symm) lv).live]; exact lv
  cases fs with
  | nil => exact absurd rfl hfe
  | cons f fs =>
    obtain ⟨d1, d2⟩ := l1.data f (by simp)
    have hne : f.1 ≠ d := fun q => l1.stop (by simp [q])
    have key := insertBefore_dangling (v := f.2) w1 cl.head dd lt
    simp only [exec, opAssign, Prog.bind_app, q1, Res.bind_ok, getNext_eq cl.head, cl.loop, getNext_eq lv1, l1.next, List.map_cons, posOf_cons]
    rw [insertNodes]
    simp only [Prog.ite_app, if_pos hne, Prog.bind_app, getVal_eq d1 d2, Res.bind_ok]
    have k2 : (DList.insert c f.2 >>= fun _ => (do insertNodes c (← getNext f.1) d : Prog (Heap T) Unit)) h1 = .ub .access := by
      rw [Prog.bind_app, key, Res.bind_ub]
    simpa only [DList.insert, bind_assoc, Prog.bind_app, newNode_eq, Res.bind_ok] using k2

/-- Self-assignment empties the list (and leaves it unusable, see `use_after_clear_ub`). -/
theorem self_assign_empties (R : Reach S h) (hc : S.Intact c) {es : List (Addr × T)} (hs : Shows h c es) :
    ∃ h', exec (.assign c c) h = .ok ((), h') ∧ Shows h' c [] := by
  obtain ⟨hc', r⟩ := shown_ring R hc hs
  obtain ⟨h1, q1, _, _, ef, pv, cl⟩ := clear_good R.world hc'
  refine ⟨h1, ?_, cl.entries⟩
  simp only [exec, opAssign, Prog.bind_app, q1, Res.bind_ok, getNext_eq cl.head, cl.loop]
  rw [insertNodes]; simp

/-- `list(first, last)` and `list(n, v)`: a new list with exactly these values. -/
theorem construct_from_range (R : Reach S h) (vs : List T) :
    ∃ h' c ns, ctorVals vs h = .ok (c, h') ∧ ¬ S.Exists c ∧ Shows h' c ns ∧ NewNodes h ns vs ∧ OthersKept S h h' [c] := by
  obtain ⟨h', q, R', s, k⟩ := one_list (c := h.fresh) R (.ctorVals vs) trivial rfl
  obtain ⟨h2, q2, _, _⟩ := ctorVals_good R.world vs
  have e : h' = h2 := by
    have : exec (.ctorVals vs) h = .ok ((), h2) := by simp only [exec, Prog.bind_app, q2, Res.bind_ok, Prog.pure_app]
    rw [q] at this; cases this; rfl
  subst e
  refine ⟨h', h.fresh, _, q2, ?_, s, newNodes R (Nat.le_succ _) _, k⟩
  rintro ⟨t, q⟩
  exact R.world.wf.ne_fresh (iface.live (R.world.own _ _ q) _ (iface.self _ _)) rfl

theorem construct_n (R : Reach S h) (n : Nat) (v : T) :
    ∃ h' c ns, ctorN n v h = .ok (c, h') ∧ ¬ S.Exists c ∧ Shows h' c ns ∧ NewNodes h ns (List.replicate n v) ∧ OthersKept S h h' [c] := by
  have := construct_from_range R (List.replicate n v)
  unfold ctorVals at this
  unfold ctorN
  simpa only [insertN_eq] using this

/-- `assign(first, last)` / `assign(n, v)` on an empty, never cleared list. -/
theorem assign_range_partial (R : Reach S h) (hc : S.Intact c) (hs : Shows h c ([] : List (Addr × T))) (vs : List T) :
    ∃ h' ns, exec (.assignVals c vs) h = .ok ((), h') ∧ Shows h' c ns ∧ NewNodes h ns vs ∧ OthersKept S h h' [c] := by
  have hg := get_shown R (intact_ex hc) hs
  obtain ⟨h', q, R', s, k⟩ := one_list R (.assignVals c vs) ⟨hc, hg⟩ rfl
  exact ⟨h', _, q, s, newNodes R (Nat.le_refl _) _, k⟩

/-- `assign(n, v)` on an empty, never cleared list. -/
theorem assign_n_partial (R : Reach S h) (hc : S.Intact c) (hs : Shows h c ([] : List (Addr × T))) (n : Nat) (v : T) :
    ∃ h' ns, exec (.assignN c n v) h = .ok ((), h') ∧ Shows h' c ns ∧ NewNodes h ns (List.replicate n v) ∧ OthersKept S h h' [c] := by
  have hg := get_shown R (intact_ex hc) hs
  obtain ⟨h', q, R', s, k⟩ := one_list R (.assignN c n v) ⟨hc, hg⟩ rfl
  exact ⟨h', _, q, s, newNodes R (Nat.le_refl _) _, k⟩

/-- **C72 fails for every non-empty receiver:** `assign` of any non-empty range to a non-empty list accesses a released node … -/
theorem assign_range_nonempty_ub (R : Reach S h) (hc : S.Intact c) {es : List (Addr × T)} (hs : Shows h c es) (he : es ≠ [])
    {vs : List T} (hv : vs ≠ []) : exec (.assignVals c vs) h = .ub .access := by
  obtain ⟨h1, q1, cl, w1, dd, lt, ef⟩ := cleared_prev R hc hs he
  cases vs with
  | nil => exact absurd rfl hv
  | cons v vs =>
    have key := insertBefore_dangling (v := v) w1 cl.head dd lt
    have k2 : (DList.insert c v >>= fun _ => (insertVals c vs : Prog (Heap T) Unit)) h1 = .ub .access := by
      rw [Prog.bind_app, key, Res.bind_ub]
    simp only [exec, assignVals, Prog.bind_app, q1, Res.bind_ok, insertVals]
    simpa only [DList.insert, bind_assoc, Prog.bind_app, newNode_eq, Res.bind_ok] using k2

/-- … so does `assign(n, v)` with `0 < n`, … -/
theorem assign_n_nonempty_ub (R : Reach S h) (hc : S.Intact c) {es : List (Addr × T)} (hs : Shows h c es) (he : es ≠ [])
    (n : Nat) (v : T) : exec (.assignN c (n + 1) v) h = .ub .access := by
  have := assign_range_nonempty_ub R hc hs he (vs := List.replicate (n + 1) v) (by simp)
  simpa only [exec, assignVals, assignN, insertN_eq] using this

/-- … and with nothing to assign both empty the list. -/
theorem assign_nothing (R : Reach S h) (hc : S.Intact c) {es : List (Addr × T)} (hs : Shows h c es) (v : T) :
    ∃ h', exec (.assignVals c []) h = .ok ((), h') ∧ exec (.assignN c 0 v) h = .ok ((), h') ∧ Shows h' c [] ∧
      (∀ x, h'.live x = (h.live x && decide (x ∉ es.map Prod.fst))) := by
  obtain ⟨h', _, q, _, _, o, lv, _⟩ := clear_partial R (intact_ex hc) hs
  have q : clear c h = .ok ((), h') := q
  obtain ⟨hc', r⟩ := shown_ring R hc hs
  obtain ⟨h1, q1, _, _, _, _, cl⟩ := clear_good R.world hc'
  have e : h1 = h' := by rw [q1] at q; cases q; rfl
  subst e
  refine ⟨h1, ?_, ?_, cl.entries, lv⟩
  · simp only [exec, assignVals, Prog.bind_app, q, Res.bind_ok, insertVals, Prog.pure_app]
  · simp only [exec, assignN, Prog.bind_app, q, Res.bind_ok, insertN, Prog.pure_app]

/-! ## C73: comparison -/

/-- **C73.** `a == b`, with any `operator==` of the elements, answers whether the two lists have the same length and hold
equal elements at corresponding positions, and changes nothing. -/
theorem equal_compares (eqv : T → T → Bool) (R : Reach S h) (hc : S.Exists c) (hd : S.Exists d) {es fs : List (Addr × T)}
    (hs : Shows h c es) (hf : Shows h d fs) :
    ∃ b, equals eqv c d h = .ok (b, h) ∧
      (b = true ↔ es.length = fs.length ∧ ∀ (i : Nat) x y, es[i]? = some x → fs[i]? = some y → eqv x.2 y.2 = true) := by
  have hg := get_shown R hc hs
  have hg' := get_shown R hd hf
  obtain ⟨s, hs'⟩ := hc
  obtain ⟨t, ht'⟩ := hd
  rw [get_some hs'] at hg
  rw [get_some ht'] at hg'
  obtain ⟨l, lv, _, _⟩ := World.laid R.world hs'
  obtain ⟨m, mv, _, _⟩ := World.laid R.world ht'
  rw [hg] at l
  rw [hg'] at m
  simp only [equals, Prog.bind_app, getNext_eq lv, getNext_eq mv, Res.bind_ok, l.next, m.next]
  exact ⟨_, equalLoop_ok l m, same_iff⟩

/-- C73 for an `operator==` that decides equality: `a == b` decides whether the sequences of values are equal. -/
theorem equal_compares_values [DecidableEq T] (R : Reach S h) (hc : S.Exists c) (hd : S.Exists d) {es fs : List (Addr × T)}
    (hs : Shows h c es) (hf : Shows h d fs) :
    equals (fun x y => decide (x = y)) c d h = .ok (decide (es.map Prod.snd = fs.map Prod.snd), h) := by
  obtain ⟨b, q, i⟩ := equal_compares (fun x y => decide (x = y)) R hc hd hs hf
  rw [q, same_values i]

/-- **C73.** `a != b`, with any `operator==` of the elements, holds iff the lengths differ or some corresponding elements are
not equal; nothing changes. -/
theorem not_equal_compares (eqv : T → T → Bool) (R : Reach S h) (hc : S.Exists c) (hd : S.Exists d) {es fs : List (Addr × T)}
    (hs : Shows h c es) (hf : Shows h d fs) :
    ∃ b, notEquals eqv c d h = .ok (b, h) ∧
      (b = true ↔ es.length ≠ fs.length ∨ ∃ (i : Nat) (x y : Addr × T), es[i]? = some x ∧ fs[i]? = some y ∧ eqv x.2 y.2 = false) := by
  obtain ⟨b, q, i⟩ := equal_compares eqv R hc hd hs hf
  refine ⟨!b, by simp only [notEquals, Prog.bind_app, q, Res.bind_ok, Prog.pure_app], ?_⟩
  exact negated i

/-! ## C74: memory -/

/-- **C74.** What is allocated is exactly the existing lists and their elements: no leaks, and no list element is dangling. -/
theorem no_leak (R : Reach S h) (x : Addr) :
    h.live x = true ↔ ∃ c es, S.Exists c ∧ Shows h c es ∧ (x = c ∨ x ∈ es.map Prod.fst) := by
  constructor
  · intro l
    obtain ⟨c, s, hs, hx⟩ := R.world.tight x l
    refine ⟨c, _, ⟨s, hs⟩, reach_shows R ⟨s, hs⟩, ?_⟩
    rw [get_some hs]
    simpa [iface, cells] using hx
  · rintro ⟨c, es, hc, hs, hx⟩
    have hg := get_shown R hc hs
    obtain ⟨s, hs'⟩ := hc
    rw [get_some hs'] at hg
    refine iface.live (R.world.own _ _ hs') x ?_
    show x ∈ cells c s.elems
    rw [hg]
    simpa [cells] using hx

/-- No node belongs to two lists, nor twice to one list. -/
theorem lists_disjoint (R : Reach S h) (hc : S.Exists c) (hd : S.Exists d) {es fs : List (Addr × T)} (hs : Shows h c es) (hf : Shows h d fs) :
    (es.map Prod.fst).Nodup ∧ (c ≠ d → ∀ e ∈ es, ∀ f ∈ fs, e.1 ≠ f.1) := by
  have hg := get_shown R hc hs
  have hg' := get_shown R hd hf
  obtain ⟨s, hs'⟩ := hc
  obtain ⟨t, ht'⟩ := hd
  rw [get_some hs'] at hg
  rw [get_some ht'] at hg'
  refine ⟨?_, ?_⟩
  · have := (World.laid R.world hs').2.2.2
    rw [hg] at this
    exact (List.nodup_cons.1 this).2
  · intro hcd e he f hf q
    refine R.world.disj c _ d _ hs' ht' hcd e.1 ?_ ?_
    · show e.1 ∈ cells c s.elems
      rw [hg]; simp only [cells, List.mem_cons]; exact .inr (List.mem_map_of_mem he)
    · show e.1 ∈ cells d t.elems
      rw [hg', q]; simp only [cells, List.mem_cons]; exact .inr (List.mem_map_of_mem hf)

/-- The destructor releases exactly the list and its nodes. -/
theorem destroy_frees (R : Reach S h) (hc : S.Exists c) {es : List (Addr × T)} (hs : Shows h c es) :
    ∃ h', exec (.destroy c) h = .ok ((), h') ∧ (∀ x, h'.live x = (h.live x && decide (x ≠ c ∧ x ∉ es.map Prod.fst))) ∧ OthersKept S h h' [c] := by
  obtain ⟨h', q, R'⟩ := call_returns R (.destroy c) hc
  have hg := get_shown R hc hs
  have gone : ¬ (spec S h.fresh (.destroy c)).Exists c := by
    rintro ⟨s, q⟩
    have : (none : Option (LState T)) = some s := (upd_same S c none).symm.trans q
    cases this
  have same : ∀ d, d ≠ c → spec S h.fresh (.destroy c) d = S d := fun d hd => upd_other _ _ hd
  have kept : OthersKept S h h' [c] := by
    intro d hd hx fs hf
    have hd : d ≠ c := by simpa using hd
    have := reach_shows R' (c := d) (by obtain ⟨t, q⟩ := hx; exact ⟨t, by rw [same d hd]; exact q⟩)
    have e2 : (spec S h.fresh (.destroy c)).get d = S.get d := by simp [State.get, same d hd]
    rwa [e2, get_shown R hx hf] at this
  refine ⟨h', q, ?_, kept⟩
  intro x
  have a := no_leak R x
  have b := no_leak R' x
  have own : ∀ d fs, S.Exists d → Shows h d fs → (x = d ∨ x ∈ fs.map Prod.fst) → (x = c ∨ x ∈ es.map Prod.fst) → d = c := by
    intro d fs hd hf h1 h2
    have hg2 := get_shown R hd hf
    obtain ⟨s, hs'⟩ := hc
    obtain ⟨t, ht'⟩ := hd
    rw [get_some hs'] at hg
    rw [get_some ht'] at hg2
    by_cases hcd : d = c
    · exact hcd
    · exfalso
      refine R.world.disj d _ c _ ht' hs' hcd x ?_ ?_
      · show x ∈ cells d t.elems
        rw [hg2]; simpa [cells] using h1
      · show x ∈ cells c s.elems
        rw [hg]; simpa [cells] using h2
  have key : h'.live x = true ↔ h.live x = true ∧ (x ≠ c ∧ x ∉ es.map Prod.fst) := by
    rw [a, b]
    constructor
    · rintro ⟨d, fs, hd, hf, hx⟩
      have hdc : d ≠ c := fun q => gone (q ▸ hd)
      have hd0 : S.Exists d := by obtain ⟨t, q⟩ := hd; exact ⟨t, by rw [← same d hdc]; exact q⟩
      have hf0 : Shows h d (S.get d) := reach_shows R hd0
      have : fs = S.get d := hf.inj (kept d (by simpa using hdc) hd0 _ hf0)
      subst this
      refine ⟨⟨d, _, hd0, hf0, hx⟩, ?_, ?_⟩
      · intro q; exact hdc (own d _ hd0 hf0 hx (.inl q))
      · intro q; exact hdc (own d _ hd0 hf0 hx (.inr q))
    · rintro ⟨⟨d, fs, hd, hf, hx⟩, n1, n2⟩
      have hdc : d ≠ c := by
        intro q; subst q
        rw [hf.inj hs] at hx
        rcases hx with q | q
        · exact n1 q
        · exact n2 q
      refine ⟨d, fs, ?_, kept d (by simpa using hdc) hd fs hf, hx⟩
      obtain ⟨t, q⟩ := hd; exact ⟨t, by rw [same d hdc]; exact q⟩
  cases l : h.live x <;> cases l' : h'.live x <;> simp_all

/-! ## C75: elements never move -/

/-- The calls that neither remove nor overwrite elements. -/
def Preserving : Call T → Prop
  | .destroy _ | .popFront _ | .popBack _ | .erase _ _ | .eraseRange _ _ _ | .clear _ | .resize _ _ _ | .removeIf _ _ | .remove _ _ _
  | .unique _ _ | .store _ _ _ => False
  | _ => True

theorem stay_one {e : Addr × T} {es' : List (Addr × T)} (he : e ∈ S.get d) (hd : S.Exists d) (sub : ∀ x ∈ S.get c, x ∈ es') :
    ∃ d', (S.put c es').Exists d' ∧ e ∈ (S.put c es').get d' := by
  by_cases hcd : d = c
  · subst hcd; exact ⟨d, put_exists _ _ _, by rw [put_get]; exact sub e he⟩
  · obtain ⟨t, ht⟩ := hd
    exact ⟨d, ⟨t, by rw [put_other _ _ hcd]; exact ht⟩, by rw [put_get_other _ _ hcd]; exact he⟩

theorem stay_two {e : Addr × T} {b : Addr} {es' fs' : List (Addr × T)} (hab : c ≠ b) (he : e ∈ S.get d) (hd : S.Exists d)
    (sub : ∀ x, x ∈ S.get c ∨ x ∈ S.get b → x ∈ es' ∨ x ∈ fs') :
    ∃ d', ((S.put c es').put b fs').Exists d' ∧ e ∈ ((S.put c es').put b fs').get d' := by
  have r1 : ((S.put c es').put b fs').Exists c ∧ ((S.put c es').put b fs').get c = es' :=
    ⟨⟨_, by rw [put_other _ _ hab]; exact put_same _ _ _⟩, by rw [put_get_other _ _ hab, put_get]⟩
  have r2 : ((S.put c es').put b fs').Exists b ∧ ((S.put c es').put b fs').get b = fs' := ⟨put_exists _ _ _, put_get _ _ _⟩
  have fin : (e ∈ es' ∨ e ∈ fs') → ∃ d', ((S.put c es').put b fs').Exists d' ∧ e ∈ ((S.put c es').put b fs').get d' := by
    rintro (q | q)
    · exact ⟨c, r1.1, by rw [r1.2]; exact q⟩
    · exact ⟨b, r2.1, by rw [r2.2]; exact q⟩
  by_cases h1 : d = c
  · subst h1; exact fin (sub e (.inl he))
  · by_cases h2 : d = b
    · subst h2; exact fin (sub e (.inr he))
    · obtain ⟨t, ht⟩ := hd
      exact ⟨d, ⟨t, by rw [put_other _ _ h2, put_other _ _ h1]; exact ht⟩, by rw [put_get_other _ _ h2, put_get_other _ _ h1]; exact he⟩

/-- **C75.** A call that is not a removal leaves every element of every list at its address with its value, in one of the lists:
iterators, pointers and references to elements stay valid. -/
theorem elements_stay (R : Reach S h) (k : Call T) (lg : Legal S k) (pr : Preserving k) :
    ∃ h' S', exec k h = .ok ((), h') ∧ Reach S' h' ∧ ∀ d es, S.Exists d → Shows h d es → ∀ e ∈ es,
      ∃ d' es', S'.Exists d' ∧ Shows h' d' es' ∧ e ∈ es' := by
  obtain ⟨h', q, R'⟩ := call_returns R k lg
  refine ⟨h', _, q, R', ?_⟩
  intro d es hd hs e he
  suffices ∃ d', (spec S h.fresh k).Exists d' ∧ e ∈ (spec S h.fresh k).get d' by
    obtain ⟨d', h1, h2⟩ := this
    exact ⟨d', _, h1, reach_shows R' h1, h2⟩
  rw [← get_shown R hd hs] at he
  have new : ∀ x ∈ S.get h.fresh, False := by
    intro x hx
    cases q : S h.fresh with
    | none => simp [State.get, q] at hx
    | some s => exact R.world.wf.ne_fresh (iface.live (R.world.own _ _ q) _ (iface.self _ _)) rfl
  cases k with
  | create => exact stay_one he hd fun x hx => (new x hx).elim
  | copyOf s => exact stay_one he hd fun x hx => (new x hx).elim
  | ctorN n v => exact stay_one he hd fun x hx => (new x hx).elim
  | ctorVals vs => exact stay_one he hd fun x hx => (new x hx).elim
  | pushFront c v => exact stay_one he hd fun x hx => List.mem_cons_of_mem _ hx
  | pushBack c v => exact stay_one he hd fun x hx => List.mem_append_left _ hx
  | insert c i v => exact stay_one he hd fun x hx => mem_insertAt.2 (.inr hx)
  | insertN c i n v => exact stay_one he hd fun x hx => mem_insertAt.2 (.inr hx)
  | insertVals c i vs => exact stay_one he hd fun x hx => mem_insertAt.2 (.inr hx)
  | insertList c i d => exact stay_one he hd fun x hx => mem_insertAt.2 (.inr hx)
  | assign c d => exact stay_one he hd fun x hx => by rw [lg.2.1] at hx; cases hx
  | assignN c n v => exact stay_one he hd fun x hx => by rw [lg.2] at hx; cases hx
  | assignVals c vs => exact stay_one he hd fun x hx => by rw [lg.2] at hx; cases hx
  | merge c b lt =>
    refine stay_two lg.2.2.1 he hd fun x hx => .inl ?_
    exact (List.merge_perm_append (le := fun x y : Addr × T => !lt y.2 x.2)).mem_iff.2 (List.mem_append.2 hx)
  | reverse c => exact stay_one he hd fun x hx => List.mem_reverse.2 hx
  | spliceAll c i b => exact stay_two lg.2.2.1 he hd fun x hx => .inl (mem_insertAt.2 hx.symm)
  | spliceOne c i b j =>
    by_cases hcd : c = b
    · simp only [spec, if_pos hcd]
      exact stay_one he hd fun x hx => mem_insertAt.2 ((mem_slice_cut (Nat.le_succ j)).2 hx)
    · simp only [spec, if_neg hcd]
      refine stay_two hcd he hd fun x hx => ?_
      rcases hx with hx | hx
      · exact .inl (mem_insertAt.2 (.inr hx))
      · rcases (mem_slice_cut (Nat.le_succ j)).2 hx with q | q
        · exact .inl (mem_insertAt.2 (.inl q))
        · exact .inr q
  | splice c i b j k =>
    have hjk : j ≤ k := Nat.le_of_lt lg.2.2.2.1
    by_cases hcd : c = b
    · simp only [spec, if_pos hcd]
      exact stay_one he hd fun x hx => mem_insertAt.2 ((mem_slice_cut hjk).2 hx)
    · simp only [spec, if_neg hcd]
      refine stay_two hcd he hd fun x hx => ?_
      rcases hx with hx | hx
      · exact .inl (mem_insertAt.2 (.inr hx))
      · rcases (mem_slice_cut hjk).2 hx with q | q
        · exact .inl (mem_insertAt.2 (.inl q))
        · exact .inr q
  | swap c b => exact stay_two lg.2.2.1 he hd fun x hx => hx.symm
  | _ => exact pr.elim

/-! ## Concrete cases -/

/-- For any two sequences of values there is a reachable memory with two lists holding them: the hypotheses of the theorems above
are met by lists of every length. -/
theorem exists_lists (vs ws : List T) : ∃ (S : State T) (h : Heap T) (c d : Addr) (es fs : List (Addr × T)), Reach S h ∧ S.Intact c ∧ S.Intact d ∧ c ≠ d ∧
    Shows h c es ∧ Shows h d fs ∧ es.map Prod.snd = vs ∧ fs.map Prod.snd = ws := by
  have R0 := Reach.start (blank_blank (T := T))
  obtain ⟨h1, q1, R1, s1, _⟩ := one_list (c := (blank T).fresh) R0 (.ctorVals vs) trivial rfl
  have n1 : h1.fresh ≠ (blank T).fresh := by
    have := R1.world.wf.ne_fresh (iface.live (R1.world.own _ _ (put_same _ _ _)) _ (iface.self _ _))
    exact this.symm
  obtain ⟨h2, q2, R2, s2, k2⟩ := one_list (c := h1.fresh) R1 (.ctorVals ws) trivial rfl
  refine ⟨_, h2, (blank T).fresh, h1.fresh, _, _, R2, ⟨_, by rw [put_other _ _ n1.symm]; exact put_same _ _ _⟩, put_intact _ _ _, n1.symm,
    k2 _ (by simp; exact n1.symm) (put_exists _ _ _) _ s1, s2, fresh_values _ _, fresh_values _ _⟩

example : ∃ (S : State Nat) (h : Heap Nat) (c d : Addr) (h' : Heap Nat) (gs : List (Addr × Nat)),
    Reach S h ∧ exec (.merge c d fun a b => decide (a < b)) h = .ok ((), h') ∧ Shows h' c gs ∧ gs.map Prod.snd = [1, 2, 3, 3, 5] := by
  obtain ⟨S, h, c, d, es, fs, R, hc, hd, hcd, s1, s2, e1, e2⟩ := exists_lists [1, 3, 5] [2, 3]
  have hlt : StrictWeakOrder (fun a b : Nat => decide (a < b)) :=
    ⟨by simp, by intro a b c; simp; omega, by intro a b c; simp; omega⟩
  have srt : ∀ (es : List (Addr × Nat)), (es.map Prod.snd).Pairwise (· ≤ ·) → SortedBy (fun a b : Nat => decide (a < b)) es := by
    intro es hp
    rw [List.pairwise_map] at hp
    exact hp.imp (by intro a b hab; simp; omega)
  obtain ⟨h', gs, q, s, _, so, pm, _⟩ := merge_merges hlt R hc hd hcd s1 s2 (srt es (by rw [e1]; decide)) (srt fs (by rw [e2]; decide))
  refine ⟨S, h, c, d, h', gs, R, q, s, ?_⟩
  have p2 := pm.map Prod.snd
  rw [List.map_append, e1, e2] at p2
  have p3 : List.Perm (gs.map Prod.snd) [1, 2, 3, 3, 5] := p2.trans (by decide)
  refine p3.eq_of_pairwise (le := (· ≤ ·)) (by intro a b _ _ h1 h2; omega) ?_ (by decide)
  rw [List.pairwise_map]
  exact so.imp (by intro a b hab; simp at hab; omega)

/-- The history theorem applies to a concrete history. -/
example : ∃ c h' es', (do let c ← create; runOps c [.pushBack 1, .pushBack 2, .pushFront 0, .insert 1 7, .erase 2, .popBack]; pure c :
    Prog (Heap Nat) Addr) (blank Nat) = .ok (c, h') ∧ Observes h' c es' ∧ es'.map Prod.snd = [0, 7] := by
  obtain ⟨c, h', es', q, o, e⟩ := new_list_history (blank_blank (T := Nat))
    [.pushBack 1, .pushBack 2, .pushFront 0, .insert 1 7, .erase 2, .popBack] (by simp [OpsOk, Op.Ok, Op.apply])
  exact ⟨c, h', es', q, o, by rw [e]; rfl⟩

end Verif.Seq.ListProps
