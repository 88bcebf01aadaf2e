import Verif.Rb.ContainerProps
/-!
# Properties of `ttl::map` and `ttl::set`, continued: insertion, erasure, copying, iterators, memory
-/
set_option linter.unusedSimpArgs false
set_option linter.unusedSectionVars false
set_option linter.unusedVariables false
namespace Verif.Rb.Container
open Verif Tree
variable {K V : Type} [DecidableEq K] {lt : K → K → Bool} {keyOf : V → K}

/-! ## C07, C09: insertion -/

/-- `insert(v)` when the key is present: nothing changes and the iterator of the existing element comes back with
`false`; when it is absent: exactly `v` is added, at its place in the order, on a new node, and its iterator comes back
with `true`. -/
theorem insert_spec (ho : StrictTotalOrder lt) {objs : List Addr} {h : Heap V} (r : Reach lt keyOf objs h) {c : Addr}
    (hc : c ∈ objs) {es} (he : entries c h = .ok (es, h)) (v : V) :
    ∃ x b h', insertUnique lt keyOf c v h = .ok ((x, b), h') ∧
      ((b = false ∧ (∃ u, (x, u) ∈ es ∧ keyOf u = keyOf v) ∧ entries c h' = .ok (es, h')) ∨
       (b = true ∧ (∀ e ∈ es, keyOf e.2 ≠ keyOf v) ∧ h.node x = none ∧ ∃ A B, es = A ++ B ∧
         entries c h' = .ok (A ++ (x, v) :: B, h') ∧ (∀ e ∈ A, lt (keyOf e.2) (keyOf v) = true) ∧
         (∀ e ∈ B, lt (keyOf v) (keyOf e.2) = true))) := by
  obtain ⟨o, a, w⟩ := owns_of_entries ho r hc he
  obtain ⟨n, hn, ⟨e, he', hk, q⟩ | ⟨A, B, h', rfl, hA, hB, q, o', ef, _, _⟩⟩ := insertUnique_owns ho w o a v
  · exact ⟨_, _, _, q, Or.inl ⟨rfl, ⟨e.2, he', hk⟩, (o.tick n).entries⟩⟩
  · refine ⟨_, _, _, q, Or.inr ⟨rfl, ?_, (w.unused _ (Nat.le_refl _)).1, A, B, rfl, o'.entries, hA, hB⟩⟩
    intro e he' hk
    simp only [List.mem_append] at he'
    rcases he' with he' | he'
    · have := hA e he'; rw [hk, ho.irrefl] at this; cases this
    · have := hB e he'; rw [hk, ho.irrefl] at this; cases this

/-- Iterators and references survive: every element seen before `insert` is still at the same node with the same value,
in this container and in every other one. -/
theorem insert_keeps_elements (ho : StrictTotalOrder lt) {objs : List Addr} {h h' : Heap V} (r : Reach lt keyOf objs h)
    {c : Addr} (hc : c ∈ objs) (v : V) {res} (hi : insertUnique lt keyOf c v h = .ok (res, h')) :
    (∀ es es', entries c h = .ok (es, h) → entries c h' = .ok (es', h') → ∀ e ∈ es, e ∈ es') ∧
    (∀ d ∈ objs, d ≠ c → ∀ es, entries d h = .ok (es, h) → entries d h' = .ok (es, h')) := by
  constructor
  · intro es es' he he' e hm
    obtain ⟨x, b, h2, q, hcase⟩ := insert_spec ho r hc he v
    rw [hi] at q
    simp only [Res.ok.injEq, Prod.mk.injEq] at q
    obtain ⟨rfl, rfl⟩ := q
    rcases hcase with ⟨_, _, q⟩ | ⟨_, _, _, A, B, rfl, q, _⟩
    · rw [he'] at q
      simp only [Res.ok.injEq, Prod.mk.injEq, and_true] at q
      rw [q]; exact hm
    · rw [he'] at q
      simp only [Res.ok.injEq, Prod.mk.injEq, and_true] at q
      rw [q]
      simp only [List.mem_append, List.mem_cons] at hm ⊢
      grind
  · intro d hd hne es he
    obtain ⟨o, a, w⟩ := owns_of_entries ho r hd he
    obtain ⟨objs', h2, q, I, hf⟩ := call_ok ho (r.inv ho) (.insert c v : Call K V) ⟨by simpa [Call.args] using hc, by simp⟩
    simp only [call, Prog.bind_app, hi, Res.bind_ok, Prog.pure_app, Res.ok.injEq, Prod.mk.injEq] at q
    obtain ⟨_, rfl⟩ := q
    exact (hf d es hd (by simpa [Call.changes] using hne) o).2.entries

/-! ## C08, C16: erasure -/

/-- `erase(k)` returns 1 and removes the element with key `k` if there is one, else returns 0 and removes nothing. All
other elements stay at their nodes with their values. -/
theorem erase_spec (ho : StrictTotalOrder lt) {objs : List Addr} {h : Heap V} (r : Reach lt keyOf objs h) {c : Addr}
    (hc : c ∈ objs) {es} (he : entries c h = .ok (es, h)) (k : K) :
    ∃ n h', erase lt keyOf c k h = .ok (n, h') ∧
      ((n = 0 ∧ (∀ e ∈ es, keyOf e.2 ≠ k) ∧ entries c h' = .ok (es, h')) ∨
       (n = 1 ∧ ∃ A e B, es = A ++ e :: B ∧ keyOf e.2 = k ∧ entries c h' = .ok (A ++ B, h'))) ∧
      (∀ d ∈ objs, d ≠ c → ∀ es, entries d h = .ok (es, h) → entries d h' = .ok (es, h')) := by
  obtain ⟨o, a, w⟩ := owns_of_entries ho r hc he
  obtain ⟨h', _, _, hcase⟩ := erase_owns ho w o a k
  have others : ∀ n, erase lt keyOf c k h = .ok (n, h') →
      (∀ d ∈ objs, d ≠ c → ∀ es, entries d h = .ok (es, h) → entries d h' = .ok (es, h')) := by
    intro n hi d hd hne es he
    obtain ⟨o, a, w⟩ := owns_of_entries ho r hd he
    obtain ⟨objs', h2, q, I, hf⟩ := call_ok ho (r.inv ho) (.erase c k : Call K V) ⟨by simpa [Call.args] using hc, by simp⟩
    simp only [call, Prog.bind_app, hi, Res.bind_ok, Prog.pure_app, Res.ok.injEq, Prod.mk.injEq] at q
    obtain ⟨_, rfl⟩ := q
    exact (hf d es hd (by simpa [Call.changes] using hne) o).2.entries
  rcases hcase with ⟨hno, q, o', ef⟩ | ⟨A, e, B, rfl, hk, q, o', ef⟩
  · exact ⟨0, h', q, Or.inl ⟨rfl, hno, o'.entries⟩, others 0 q⟩
  · exact ⟨1, h', q, Or.inr ⟨rfl, A, e, B, rfl, hk, o'.entries⟩, others 1 q⟩

/-- Memory: `erase` of a present key frees exactly the removed node; of an absent key it frees nothing. It never allocates. -/
theorem erase_frees_exactly (ho : StrictTotalOrder lt) {objs : List Addr} {h : Heap V} (r : Reach lt keyOf objs h) {c : Addr}
    (hc : c ∈ objs) {es} (he : entries c h = .ok (es, h)) (k : K) :
    ∃ n h', erase lt keyOf c k h = .ok (n, h') ∧
      ∀ x, (h'.node x).isSome ↔ (h.node x).isSome ∧ ∀ v, (x, v) ∈ es → keyOf v ≠ k := by
  obtain ⟨o, a, w⟩ := owns_of_entries ho r hc he
  obtain ⟨h', _, _, hcase⟩ := erase_owns ho w o a k
  have memc : ∀ {x : Addr} {l : List (Addr × V)}, x ∈ l.map Prod.fst ↔ ∃ v, (x, v) ∈ l := by
    intro x l; simp
  rcases hcase with ⟨hno, q, o', ef⟩ | ⟨A, e, B, rfl, hk, q, o', ef⟩
  · refine ⟨0, h', q, fun x => ?_⟩
    by_cases hx : x ∈ cells c es
    · simp only [o'.cells_live hx, o.cells_live hx, true_and, true_iff]
      intro v hv; exact hno _ hv
    · rw [(ef.frame x hx hx).1]
      constructor
      · exact fun h1 => ⟨h1, fun v hv => hno _ hv⟩
      · exact fun h1 => h1.1
  · refine ⟨1, h', q, fun x => ?_⟩
    have hn := o.cells_nodup
    by_cases hx : x ∈ cells c (A ++ B)
    · have hx' : x ∈ cells c (A ++ e :: B) := by
        simp only [cells, List.map_append, List.map_cons, List.mem_cons, List.mem_append] at hx ⊢; grind
      simp only [o'.cells_live hx, o.cells_live hx', true_and, true_iff]
      intro v hv hkv
      have hxe : (x, v) = e := sorted_inj (kf := fun e : Addr × V => keyOf e.2) ho a hv (by simp) (by rw [hkv, hk])
      have : e.1 ∈ cells c (A ++ B) := by rw [← hxe]; exact hx
      simp only [cells, List.map_append, List.map_cons, List.nodup_cons, List.nodup_append, List.mem_append, List.mem_cons] at hn this
      grind
    · by_cases hx' : x = e.1
      · subst hx'
        have := (ef.freed e.1 (by simp [cells]) hx).1
        simp only [this, Option.isSome_none, Bool.false_eq_true, false_iff, not_and]
        intro _ hall
        exact hall e.2 (by simp) hk
      · have hx2 : x ∉ cells c (A ++ e :: B) := by
          simp only [cells, List.map_append, List.map_cons, List.mem_cons, List.mem_append] at hx ⊢; grind
        rw [(ef.frame x hx2 hx).1]
        constructor
        · intro h1
          refine ⟨h1, fun v hv => absurd ?_ hx2⟩
          simp only [cells, List.mem_cons]; right; exact memc.2 ⟨v, hv⟩
        · exact fun h1 => h1.1

/-! ## C10: copies -/

/-- A copy-constructed container has equal elements on nodes that did not exist before; the source is unchanged. -/
theorem copy_is_deep (ho : StrictTotalOrder lt) {objs : List Addr} {h : Heap V} (r : Reach lt keyOf objs h) {c : Addr}
    (hc : c ∈ objs) {es} (he : entries c h = .ok (es, h)) :
    ∃ d h' es', copyCtor c h = .ok (d, h') ∧ Reach lt keyOf (objs ++ [d]) h' ∧ d ∉ objs ∧
      entries d h' = .ok (es', h') ∧ es'.map Prod.snd = es.map Prod.snd ∧ (∀ x ∈ es', h.node x.1 = none) ∧
      (∀ b ∈ objs, ∀ esb, entries b h = .ok (esb, h) → entries b h' = .ok (esb, h')) := by
  obtain ⟨o, a, w⟩ := owns_of_entries ho r hc he
  obtain ⟨h', es', q, o', s, ef⟩ := copyCtor_owns w o
  have hl : (Call.copyOf c : Call K V).Legal objs := ⟨by simpa [Call.args] using hc, by simp⟩
  refine ⟨_, h', es', q, r.step (.copyOf c) hl (by simp only [call, Prog.bind_app, q, Res.bind_ok, Prog.pure_app]), ?_,
    o'.entries, s, ?_, ?_⟩
  · intro hm
    obtain ⟨es0, o0, _⟩ := r.owns ho hm
    exact Nat.lt_irrefl _ (o0.lt w (x := h.next) (by simp [cells]))
  · intro x hx
    exact (w.unused _ (ef.fresh x.1 (by simp only [cells, List.mem_cons]; exact Or.inr (List.mem_map_of_mem hx)) (by simp))).1
  · intro b hb esb heb
    obtain ⟨ob, _, _⟩ := owns_of_entries ho r hb heb
    exact (ob.frame w ef (by simp)).entries

/-- Copy assignment between two different containers: the target gets equal elements on its own nodes; the source and all
other containers are unchanged. -/
theorem assign_is_deep (ho : StrictTotalOrder lt) {objs : List Addr} {h : Heap V} (r : Reach lt keyOf objs h) {d s : Addr}
    (hd : d ∈ objs) (hs : s ∈ objs) (hne : d ≠ s) {es} (he : entries s h = .ok (es, h)) :
    ∃ h' es', opAssign d s h = .ok ((), h') ∧ Reach lt keyOf objs h' ∧ entries d h' = .ok (es', h') ∧
      es'.map Prod.snd = es.map Prod.snd ∧ (∀ x ∈ es', h.node x.1 = none) ∧
      (∀ b ∈ objs, b ≠ d → ∀ esb, entries b h = .ok (esb, h) → entries b h' = .ok (esb, h')) := by
  obtain ⟨o, a, w⟩ := owns_of_entries ho r hs he
  obtain ⟨es0, o0, a0, _⟩ := r.owns ho hd
  have hl : (Call.assign d s : Call K V).Legal objs :=
    ⟨by simp [Call.args, hd, hs], by intro b q; simp only [Call.assign.injEq] at q; exact hne (q.1.trans q.2.symm)⟩
  obtain ⟨ws, W, rfl, _⟩ := r.inv ho
  obtain ⟨L, es1, R, e⟩ := split_at hd
  have o1 := W.owns (d, es1) (by rw [e]; simp)
  have q0 := o0.entries.symm.trans o1.entries
  simp only [Res.ok.injEq, Prod.mk.injEq, and_true] at q0
  subst q0
  have hsw : (s, es) ∈ ws := by
    obtain ⟨L', es', R', e'⟩ := split_at hs
    have o' := W.owns (s, es') (by rw [e']; simp)
    have q := o.entries.symm.trans o'.entries
    simp only [Res.ok.injEq, Prod.mk.injEq, and_true] at q
    rw [q, e']; simp
  have hdis : ∀ x ∈ cells s es, x ∉ cells d es0 := by
    intro x hx hx'
    have hq := (e ▸ W : World h (L ++ (d, es0) :: R)).disj hx'
    rw [e] at hsw
    simp only [List.mem_append, List.mem_cons, Prod.mk.injEq] at hsw
    rcases hsw with hw | ⟨hw, _⟩ | hw
    · exact hq.1 (List.mem_flatMap.2 ⟨_, hw, hx⟩)
    · exact hne hw.symm
    · exact hq.2 (List.mem_flatMap.2 ⟨_, hw, hx⟩)
  -- the two halves of operator=
  obtain ⟨h1, e1, o1', f1, n1, c1, _⟩ := clear_owns w o0
  have oo1 : Owns h1 s es := o.frame w f1 hdis
  obtain ⟨h', es', e2, o2, s2, f2, c2⟩ := assign_owns f1.wf o1' oo1
  have q : opAssign d s h = .ok ((), h') := by
    unfold opAssign; simp only [Prog.bind_app, e1, Res.bind_ok, e2]
  refine ⟨h', es', q, r.step (.assign d s) hl (by simp only [call, Prog.bind_app, q, Res.bind_ok, Prog.pure_app]),
    o2.entries, s2, ?_, ?_⟩
  · intro x hx
    have hxc : x.1 ∈ cells d es' := by simp only [cells, List.mem_cons]; exact Or.inr (List.mem_map_of_mem hx)
    have hxd : x.1 ≠ d := by
      have := o2.cells_nodup
      simp only [cells, List.nodup_cons] at this
      exact fun q => this.1 (q ▸ List.mem_map_of_mem hx)
    have := f2.fresh x.1 hxc (by simpa [cells] using hxd)
    rw [n1] at this
    exact (w.unused _ this).1
  · intro b hb hbd esb heb
    obtain ⟨ob, _, _⟩ := owns_of_entries ho r hb heb
    obtain ⟨objs', h2, q', I, hf⟩ := call_ok ho (r.inv ho) (.assign d s : Call K V) hl
    simp only [call, Prog.bind_app, q, Res.bind_ok, Prog.pure_app, Res.ok.injEq, Prod.mk.injEq] at q'
    obtain ⟨_, rfl⟩ := q'
    exact (hf b esb hb (by simpa [Call.changes] using hbd) ob).2.entries

/-- A later history none of whose calls is directed at changing `c`. -/
inductive Avoiding (lt : K → K → Bool) (keyOf : V → K) (c : Addr) : List Addr → Heap V → List Addr → Heap V → Prop where
  | done {objs h} : Avoiding lt keyOf c objs h objs h
  | more {objs h objs1 h1 objs2 h2} (k : Call K V) : k.Legal objs → c ∉ k.changes →
      call lt keyOf objs k h = .ok (objs1, h1) → Avoiding lt keyOf c objs1 h1 objs2 h2 → Avoiding lt keyOf c objs h objs2 h2
  | rest {objs h h1 objs2 h2} : Env h h1 → Avoiding lt keyOf c objs h1 objs2 h2 → Avoiding lt keyOf c objs h objs2 h2

/-- Independence: whatever happens to other containers, copies included, `c` keeps its elements, their nodes and values. -/
theorem independent (ho : StrictTotalOrder lt) {objs objs' : List Addr} {h h' : Heap V} {c : Addr}
    (st : Avoiding lt keyOf c objs h objs' h') (r : Reach lt keyOf objs h) (hc : c ∈ objs) {es}
    (he : entries c h = .ok (es, h)) : c ∈ objs' ∧ entries c h' = .ok (es, h') := by
  induction st with
  | done => exact ⟨hc, he⟩
  | more k hl hk q _ ih =>
    obtain ⟨o, a, w⟩ := owns_of_entries ho r hc he
    obtain ⟨objs2, h2, q', I, hf⟩ := call_ok ho (r.inv ho) k hl
    rw [q] at q'
    simp only [Res.ok.injEq, Prod.mk.injEq] at q'
    obtain ⟨rfl, rfl⟩ := q'
    obtain ⟨h1, h2⟩ := hf c es hc hk o
    exact ih (r.step k hl q) h1 h2.entries
  | rest e _ ih =>
    obtain ⟨o, a, w⟩ := owns_of_entries ho r hc he
    exact ih (r.env e) hc (o.env e).entries

/-! ## C11: self-assignment -/

/-- `c = c` destroys every element: C11 fails for every non-empty container. -/
theorem self_assign_empties (ho : StrictTotalOrder lt) {objs : List Addr} {h : Heap V} (r : Reach lt keyOf objs h) {c : Addr}
    (hc : c ∈ objs) : ∃ h', opAssign c c h = .ok ((), h') ∧ entries c h' = .ok ([], h') := by
  obtain ⟨es, o, a, w⟩ := r.owns ho hc
  obtain ⟨h', q, o', _⟩ := opAssign_self w o
  exact ⟨h', q, o'.entries⟩

/-- C11 where it holds: an empty container. Missing: every non-empty one, see `self_assign_empties`. -/
theorem self_assign_keeps_empty_partial (ho : StrictTotalOrder lt) {objs : List Addr} {h : Heap V} (r : Reach lt keyOf objs h)
    {c : Addr} (hc : c ∈ objs) (he : entries c h = .ok ([], h)) :
    ∃ h', opAssign c c h = .ok ((), h') ∧ entries c h' = .ok ([], h') := self_assign_empties ho r hc

theorem self_assign_counterexample : ∃ c h es, Reach (fun a b : Nat => decide (a < b)) id [c] h ∧
    entries c h = .ok (es, h) ∧ es.map Prod.snd = [2, 5, 7] ∧ ∃ h', opAssign c c h = .ok ((), h') ∧ entries c h' = .ok ([], h') := by
  obtain ⟨c, h, es, r, he, hv⟩ := exists_reach_257
  exact ⟨c, h, es, r, he, hv, self_assign_empties natOrder r (by simp)⟩

/-! ## C14: iterators -/

/-- `++` then `--` returns to the same position, and `--` then `++` does too (unless at `begin()`); `--end()` is the
greatest element and `++` of it is `end()`. -/
theorem iterators_inverse (ho : StrictTotalOrder lt) {objs : List Addr} {h : Heap V} (r : Reach lt keyOf objs h) {c : Addr}
    (hc : c ∈ objs) {es} (he : entries c h = .ok (es, h)) :
    (∀ e ∈ es, ∃ n, nextNode e.1 h = .ok (n, h) ∧ iterPrev n h = .ok (e.1, h)) ∧
    (∀ e ∈ es, begin_ c h ≠ .ok (e.1, h) → ∃ p, iterPrev e.1 h = .ok (p, h) ∧ nextNode p h = .ok (e.1, h)) ∧
    (∀ A e, es = A ++ [e] → iterPrev c h = .ok (e.1, h) ∧ nextNode e.1 h = .ok (c, h) ∧
      ∀ x ∈ es, x = e ∨ lt (keyOf x.2) (keyOf e.2) = true) := by
  obtain ⟨o, a, w⟩ := owns_of_entries ho r hc he
  refine ⟨?_, ?_, ?_⟩
  · intro e hm
    obtain ⟨A, B, rfl⟩ := List.append_of_mem hm
    refine ⟨_, o.nextNode, ?_⟩
    cases B with
    | nil =>
      have := o.iterPrev_end
      simpa using this
    | cons b B =>
      have := (show Owns h c ((A ++ [e]) ++ b :: B) by simpa using o).iterPrev
      simpa using this
  · intro e hm hb
    obtain ⟨A, B, rfl⟩ := List.append_of_mem hm
    refine ⟨_, o.iterPrev, ?_⟩
    rcases List.eq_nil_or_concat A with rfl | ⟨A', p, rfl⟩
    · exfalso; apply hb; rw [o.begin_]; rfl
    · have := (show Owns h c (A' ++ p :: (e :: B)) by simpa using o).nextNode
      simpa using this
  · intro A e q
    subst q
    refine ⟨by simpa using o.iterPrev_end, by simpa using o.nextNode, ?_⟩
    intro x hx
    simp only [Ascending, List.pairwise_append] at a
    simp only [List.mem_append, List.mem_cons, List.not_mem_nil, or_false] at hx
    rcases hx with hx | rfl
    · exact Or.inr (a.2.2 x hx e (by simp))
    · exact Or.inl rfl

/-! ## C15: clear and destruction -/

/-- `clear()` frees exactly the elements' nodes (freeing a node twice is undefined in the model, so once each) and leaves an
empty container in a reachable, hence usable, state. -/
theorem clear_frees_exactly (ho : StrictTotalOrder lt) {objs : List Addr} {h : Heap V} (r : Reach lt keyOf objs h) {c : Addr}
    (hc : c ∈ objs) {es} (he : entries c h = .ok (es, h)) :
    ∃ h', clear c h = .ok ((), h') ∧ Reach lt keyOf objs h' ∧ entries c h' = .ok ([], h') ∧
      (∀ x, (h'.node x).isSome ↔ (h.node x).isSome ∧ x ∉ es.map Prod.fst) ∧
      (∀ d ∈ objs, d ≠ c → ∀ esd, entries d h = .ok (esd, h) → entries d h' = .ok (esd, h')) := by
  obtain ⟨o, a, w⟩ := owns_of_entries ho r hc he
  obtain ⟨h', q, o', ef, _⟩ := clear_owns w o
  have hl : (Call.clear c : Call K V).Legal objs := ⟨by simpa [Call.args] using hc, by simp⟩
  refine ⟨h', q, r.step (.clear c) hl (by simp only [call, Prog.bind_app, q, Res.bind_ok, Prog.pure_app]), o'.entries, ?_, ?_⟩
  · intro x
    have hn := o.cells_nodup
    simp only [cells, List.nodup_cons] at hn
    by_cases hx : x = c
    · subst hx
      simp only [o'.cells_live (x := x) (by simp [cells]), o.cells_live (x := x) (by simp [cells]), true_and, true_iff]
      exact hn.1
    · by_cases hx' : x ∈ es.map Prod.fst
      · have := (ef.freed x (by simp only [cells, List.mem_cons]; exact Or.inr hx') (by simpa [cells] using hx)).1
        rw [this]; simp [hx']
      · rw [(ef.frame x (by simp only [cells, List.mem_cons, not_or]; exact ⟨hx, hx'⟩) (by simpa [cells] using hx)).1]
        simp only [hx', not_false_eq_true, and_true]
  · intro d hd hne esd hed
    obtain ⟨od, _, _⟩ := owns_of_entries ho r hd hed
    obtain ⟨objs', h2, q', I, hf⟩ := call_ok ho (r.inv ho) (.clear c : Call K V) hl
    simp only [call, Prog.bind_app, q, Res.bind_ok, Prog.pure_app, Res.ok.injEq, Prod.mk.injEq] at q'
    obtain ⟨_, rfl⟩ := q'
    exact (hf d esd hd (by simpa [Call.changes] using hne) od).2.entries

/-- Destruction frees exactly the container and its elements. -/
theorem destroy_frees_exactly (ho : StrictTotalOrder lt) {objs : List Addr} {h : Heap V} (r : Reach lt keyOf objs h) {c : Addr}
    (hc : c ∈ objs) {es} (he : entries c h = .ok (es, h)) :
    ∃ h', destroy c h = .ok ((), h') ∧
      ∀ x, (h'.node x).isSome ↔ (h.node x).isSome ∧ x ≠ c ∧ x ∉ es.map Prod.fst := by
  obtain ⟨o, a, w⟩ := owns_of_entries ho r hc he
  obtain ⟨h', q, ef⟩ := destroy_owns w o
  refine ⟨h', q, fun x => ?_⟩
  by_cases hx : x ∈ cells c es
  · rw [(ef.freed x hx (by simp)).1]
    simp only [cells, List.mem_cons] at hx
    simp only [Option.isSome_none, Bool.false_eq_true, false_iff, not_and]
    intro _ h1 h2
    rcases hx with hx | hx
    · exact h1 hx
    · exact h2 hx
  · rw [(ef.frame x hx (by simp)).1]
    simp only [cells, List.mem_cons, not_or] at hx
    simp [hx.1, hx.2]

/-- No leak: once every container has been destroyed, no node is alive. -/
theorem no_leak (ho : StrictTotalOrder lt) {h : Heap V} (r : Reach lt keyOf [] h) (x : Addr) : h.node x = none := by
  cases hx : h.node x with
  | none => rfl
  | some n =>
    rcases iteration_covers_memory ho r (x := x) (by rw [hx]; rfl) with h1 | ⟨c, h1, _⟩
    · simp at h1
    · simp at h1

/-- Every legal call on reachable state returns normally: no invalid access, no endless loop. -/
theorem calls_return (ho : StrictTotalOrder lt) {objs : List Addr} {h : Heap V} (r : Reach lt keyOf objs h) (c : Call K V)
    (hl : c.Legal objs) : ∃ objs' h', call lt keyOf objs c h = .ok (objs', h') := by
  obtain ⟨objs', h', q, _⟩ := call_ok ho (r.inv ho) c hl
  exact ⟨objs', h', q⟩

/-- The hypotheses of this file's theorems are met, for instance, by the set `{2, 5, 7}`, and after every legal call. -/
example : ∃ c h es, Reach (fun a b : Nat => decide (a < b)) id [c] h ∧ c ∈ [c] ∧ entries c h = .ok (es, h) ∧
    es.map Prod.snd = [2, 5, 7] := by
  obtain ⟨c, h, es, r, he, hv⟩ := exists_reach_257
  exact ⟨c, h, es, r, by simp, he, hv⟩

end Verif.Rb.Container
