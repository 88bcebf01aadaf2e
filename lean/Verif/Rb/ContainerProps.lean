import Verif.Rb.Reach
/-!
# Properties of `ttl::map` and `ttl::set` in every reachable state

`entries c` and `entriesBackward c` are client code: the iterator positions and elements a loop over the
container sees. All statements below are about what such loops, and the container's own members, return.
-/
set_option linter.unusedSimpArgs false
set_option linter.unusedSectionVars false
set_option linter.unusedVariables false
namespace Verif.Rb.Container
open Verif Tree
variable {K V : Type} [DecidableEq K] {lt : K → K → Bool} {keyOf : V → K}

theorem _root_.Verif.Rb.Reach.owns (ho : StrictTotalOrder lt) {objs : List Addr} {h : Heap V} (r : Reach lt keyOf objs h) {c : Addr}
    (hc : c ∈ objs) : ∃ es, Owns h c es ∧ Ascending lt keyOf es ∧ Wf h := by
  obtain ⟨ws, W, rfl, ha⟩ := r.inv ho
  obtain ⟨L, es, R, e⟩ := split_at hc
  have hw : (c, es) ∈ ws := by rw [e]; simp
  exact ⟨es, W.owns _ hw, ha _ hw, W.wf⟩

/-- What a loop sees determines what the container owns. -/
theorem owns_of_entries (ho : StrictTotalOrder lt) {objs : List Addr} {h h1 : Heap V} (r : Reach lt keyOf objs h) {c : Addr}
    (hc : c ∈ objs) {es} (he : entries c h = .ok (es, h1)) : Owns h c es ∧ Ascending lt keyOf es ∧ Wf h := by
  obtain ⟨es', o, a, w⟩ := r.owns ho hc
  rw [o.entries] at he
  simp only [Res.ok.injEq, Prod.mk.injEq] at he
  obtain ⟨rfl, _⟩ := he
  exact ⟨o, a, w⟩

/-! ## Witnesses: there are reachable containers with any ascending contents -/

/-- Some client program leads to a single container holding exactly `vs`. -/
theorem exists_reach (ho : StrictTotalOrder lt) (vs : List V) (hs : vs.Pairwise fun a b => lt (keyOf a) (keyOf b) = true) :
    ∃ c h es, Reach lt keyOf [c] h ∧ entries c h = .ok (es, h) ∧ es.map Prod.snd = vs := by
  let j : Addr → RbNode := fun _ => ⟨0, 0, 0, false⟩
  have r0 : Reach lt keyOf [] (emptyMemory j : Heap V) := .start j
  obtain ⟨ws, W, hw, _⟩ := r0.inv ho
  obtain ⟨h1, e1, o1, f1, _, _⟩ := newTree_owns W.wf
  have r1 : Reach lt keyOf [1] h1 := r0.step .create ⟨by simp [Call.args], by simp⟩ (by
    simp only [call, Prog.bind_app, e1, Res.bind_ok, Prog.pure_app]; rfl)
  have key : ∀ (vs : List V) (h : Heap V) (es : List (Addr × V)), Wf h → Owns h 1 es → Ascending lt keyOf es →
      (es.map Prod.snd ++ vs).Pairwise (fun a b => lt (keyOf a) (keyOf b) = true) →
      ∃ h' es', insertRange lt keyOf 1 vs h = .ok ((), h') ∧ Owns h' 1 es' ∧ es'.map Prod.snd = es.map Prod.snd ++ vs := by
    intro vs
    induction vs with
    | nil => intro h es w o a _; exact ⟨h, es, rfl, o, by simp⟩
    | cons v vs ih =>
      intro h es w o a hp
      obtain ⟨n, hn, hc⟩ := insertUnique_owns ho w o a v
      have hlast : ∀ e ∈ es, lt (keyOf e.2) (keyOf v) = true := by
        intro e he
        rw [List.pairwise_append] at hp
        exact hp.2.2 e.2 (List.mem_map_of_mem he) v (by simp)
      rcases hc with ⟨e, he, hk, q⟩ | ⟨A, B, h', rfl, hA, hB, q, o', ef, _, _⟩
      · have := hlast e he
        rw [hk, ho.irrefl] at this; cases this
      · have hBnil : B = [] := by
          cases B with
          | nil => rfl
          | cons b B =>
            have h1 := hlast b (by simp)
            have h2 := hB b (by simp)
            rw [ho.asymm h1] at h2; cases h2
        subst hBnil
        simp only [List.append_nil] at hp
        obtain ⟨h2, es2, q2, o2, s2⟩ := ih h' _ ef.wf o' (by
          simp only [Ascending, List.append_nil, List.pairwise_append, List.pairwise_cons, List.mem_cons] at a ⊢
          grind) (by simpa using hp)
        exact ⟨h2, es2, by simp only [insertRange, Prog.bind_app, q, q2, Res.bind_ok, Prog.pure_app], o2, by rw [s2]; simp⟩
  obtain ⟨h2, es2, e2, o2, s2⟩ := key vs h1 [] f1.wf o1 List.Pairwise.nil (by simpa using hs)
  have r2 : Reach lt keyOf [1] h2 := r1.step (.insertRange 1 vs) ⟨by simp [Call.args], by simp⟩ (by
    simp only [call, Prog.bind_app, e2, Res.bind_ok, Prog.pure_app])
  exact ⟨1, h2, es2, r2, o2.entries, by simpa using s2⟩

/-- For instance the set `{2, 5, 7}`. -/
theorem exists_reach_257 : ∃ c h es, Reach (fun a b : Nat => decide (a < b)) id [c] h ∧ entries c h = .ok (es, h) ∧
    es.map Prod.snd = [2, 5, 7] := exists_reach natOrder [2, 5, 7] (by simp)

/-! ## C03: iteration -/

/-- Forward and backward loops see the same elements in opposite orders; forwards the keys are strictly
ascending; no position is visited twice; a key is met iff `find` finds it. -/
theorem iteration (ho : StrictTotalOrder lt) {objs : List Addr} {h : Heap V} (r : Reach lt keyOf objs h) {c : Addr}
    (hc : c ∈ objs) : ∃ es, entries c h = .ok (es, h) ∧ entriesBackward c h = .ok (es.reverse, h) ∧
      es.Pairwise (fun a b => lt (keyOf a.2) (keyOf b.2) = true) ∧ (es.map Prod.fst).Nodup ∧ c ∉ es.map Prod.fst ∧
      ∀ k, ∃ x h', find lt keyOf c k h = .ok (x, h') ∧
        ((x = c ∧ ∀ e ∈ es, keyOf e.2 ≠ k) ∨ ∃ v, (x, v) ∈ es ∧ keyOf v = k) := by
  obtain ⟨es, o, a, w⟩ := r.owns ho hc
  have hn := o.cells_nodup
  simp only [cells, List.nodup_cons] at hn
  refine ⟨es, o.entries, o.entriesBackward, a, hn.2, hn.1, fun k => ?_⟩
  obtain ⟨n, _, q⟩ := find_owns ho o a k
  refine ⟨_, _, q, ?_⟩
  cases hf : es.find? (fun e => decide (keyOf e.2 = k)) with
  | none =>
    left
    rw [List.find?_eq_none] at hf
    exact ⟨rfl, fun e he => by simpa using hf e he⟩
  | some e =>
    right
    have h1 := List.find?_some hf
    exact ⟨e.2, List.mem_of_find?_eq_some hf, by simpa using h1⟩

/-- Nothing stored is missed: every node alive in memory is a container or an element some loop over a living
container visits. -/
theorem iteration_covers_memory (ho : StrictTotalOrder lt) {objs : List Addr} {h : Heap V} (r : Reach lt keyOf objs h)
    {x : Addr} (hx : (h.node x).isSome) :
    x ∈ objs ∨ ∃ c ∈ objs, ∃ es v, entries c h = .ok (es, h) ∧ (x, v) ∈ es := by
  obtain ⟨ws, W, rfl, ha⟩ := r.inv ho
  have := W.tight x hx
  simp only [List.mem_flatMap, cells, List.mem_cons, List.mem_map] at this
  obtain ⟨w, hw, q | ⟨e, he, q⟩⟩ := this
  · left; rw [q]; exact List.mem_map_of_mem hw
  · right; exact ⟨w.1, List.mem_map_of_mem hw, w.2, e.2, (W.owns w hw).entries, by rw [← q]; exact he⟩

/-! ## C04: logarithmic depth -/

/-- `p` is a downward path of nodes starting at `a`. -/
inductive Path (h : Heap V) : Addr → List Addr → Prop where
  | stop {a} : Path h a []
  | left {a n p} : a ≠ 0 → h.node a = some n → Path h n.left p → Path h a (a :: p)
  | right {a n p} : a ≠ 0 → h.node a = some n → Path h n.right p → Path h a (a :: p)

theorem path_le_height {h : Heap V} {t : Tree} : ∀ {par : Addr}, Rep h t par → ∀ {p}, Path h t.addr p → p.length ≤ t.height := by
  induction t with
  | leaf =>
    intro par _ p hp
    cases hp with
    | stop => simp
    | left h0 => exact absurd rfl h0
    | right h0 => exact absurd rfl h0
  | node a c l r ihl ihr =>
    intro par hr p hp
    obtain ⟨h1, h2, h3, h4⟩ := hr
    cases hp with
    | stop => simp
    | left h0 hn hp =>
      rename_i n q
      have hn' : h.node a = some n := hn
      rw [h1] at hn'
      simp only [Option.some.injEq] at hn'
      subst hn'
      have := ihl h3 hp
      simp only [List.length_cons, height]; omega
    | right h0 hn hp =>
      rename_i n q
      have hn' : h.node a = some n := hn
      rw [h1] at hn'
      simp only [Option.some.injEq] at hn'
      subst hn'
      have := ihr h4 hp
      simp only [List.length_cons, height]; omega

/-- No path from the root is longer than `2 * log2 (n + 1)`. -/
theorem depth_logarithmic (ho : StrictTotalOrder lt) {objs : List Addr} {h : Heap V} (r : Reach lt keyOf objs h) {c : Addr}
    (hc : c ∈ objs) {es} (he : entries c h = .ok (es, h)) {root : Addr} (hroot : rootOf c h = .ok (root, h)) {p}
    (hp : Path h root p) : p.length ≤ 2 * Nat.log2 (es.length + 1) := by
  obtain ⟨o, a, w⟩ := owns_of_entries ho r hc he
  obtain ⟨t, rt, b, i, d⟩ := o
  rw [root_of_zip rt] at hroot
  simp only [Res.ok.injEq, Prod.mk.injEq, and_true] at hroot
  subst hroot
  rw [← size_of i]
  exact Nat.le_trans (path_le_height rt.rep hp) b.height

/-- `find`, `lower_bound` and `insert` call the comparator at most `2 * log2 (n + 1)` times, `erase` three times
that. -/
theorem comparisons_logarithmic (ho : StrictTotalOrder lt) {objs : List Addr} {h : Heap V} (r : Reach lt keyOf objs h)
    {c : Addr} (hc : c ∈ objs) {es} (he : entries c h = .ok (es, h)) (k : K) (v : V) :
    (∃ x h', find lt keyOf c k h = .ok (x, h') ∧ h'.cmps ≤ h.cmps + 2 * Nat.log2 (es.length + 1)) ∧
    (∃ x h', lowerBound lt keyOf c k h = .ok (x, h') ∧ h'.cmps ≤ h.cmps + 2 * Nat.log2 (es.length + 1)) ∧
    (∃ x h', insertUnique lt keyOf c v h = .ok (x, h') ∧ h'.cmps ≤ h.cmps + 2 * Nat.log2 (es.length + 1)) ∧
    (∃ x h', erase lt keyOf c k h = .ok (x, h') ∧ h'.cmps ≤ h.cmps + 3 * (2 * Nat.log2 (es.length + 1))) := by
  obtain ⟨o, a, w⟩ := owns_of_entries ho r hc he
  refine ⟨?_, ?_, ?_, ?_⟩
  · obtain ⟨n, hn, q⟩ := find_owns ho o a k
    exact ⟨_, _, q, Nat.add_le_add_left hn _⟩
  · obtain ⟨n, hn, q⟩ := lowerBound_owns ho.toStrictWeak o (a.weak ho) k
    exact ⟨_, _, q, Nat.add_le_add_left hn _⟩
  · obtain ⟨n, hn, ⟨e, _, _, q⟩ | ⟨A, B, h', _, _, _, q, _, _, _, hcm⟩⟩ := insertUnique_owns ho w o a v
    · exact ⟨_, _, q, Nat.add_le_add_left hn _⟩
    · exact ⟨_, _, q, by rw [hcm]; exact Nat.add_le_add_left hn _⟩
  · obtain ⟨h', hn, _, ⟨_, q, _⟩ | ⟨_, _, _, _, _, q, _⟩⟩ := erase_owns ho w o a k
    · exact ⟨_, _, q, hn⟩
    · exact ⟨_, _, q, hn⟩

/-! ## C05, C06: bounds -/

theorem split_find (es : List (Addr × V)) (p : Addr × V → Bool) :
    ∃ A B, es = A ++ B ∧ (∀ e ∈ A, p e = false) ∧ (∀ e, B.head? = some e → p e = true) ∧ es.find? p = B.head? := by
  induction es with
  | nil => exact ⟨[], [], rfl, by simp, by simp, rfl⟩
  | cons x es ih =>
    cases hx : p x with
    | true => exact ⟨[], x :: es, rfl, by simp, by simp [hx], by simp [hx]⟩
    | false =>
      obtain ⟨A, B, rfl, hA, hB, hf⟩ := ih
      refine ⟨x :: A, B, rfl, ?_, hB, by simp [hx, hf]⟩
      intro e he
      simp only [List.mem_cons] at he
      rcases he with rfl | he
      · exact hx
      · exact hA e he

theorem head_getD (B : List (Addr × V)) (c : Addr) : ((B.head?).map Prod.fst).getD c = (B.map Prod.fst).headD c := by
  cases B <;> rfl

/-- `lower_bound(k)` returns the first position whose key is not less than `k` (`c` is `end()`). -/
theorem lower_bound_first (ho : StrictTotalOrder lt) {objs : List Addr} {h : Heap V} (r : Reach lt keyOf objs h)
    {c : Addr} (hc : c ∈ objs) (k : K) : ∃ A B h', entries c h = .ok (A ++ B, h) ∧
      (∀ e ∈ A, lt (keyOf e.2) k = true) ∧ (∀ e ∈ B, lt (keyOf e.2) k = false) ∧
      lowerBound lt keyOf c k h = .ok ((B.map Prod.fst).headD c, h') ∧ entries c h' = .ok (A ++ B, h') := by
  obtain ⟨es, o, a, w⟩ := r.owns ho hc
  obtain ⟨n, hn, q⟩ := lowerBound_owns ho.toStrictWeak o (a.weak ho) k
  obtain ⟨A, B, rfl, hA, hB, hf⟩ := split_find es fun e => !lt (keyOf e.2) k
  rw [hf, head_getD] at q
  refine ⟨A, B, _, o.entries, fun e he => by simpa using hA e he, ?_, q, (o.tick n).entries⟩
  intro e he
  cases B with
  | nil => simp at he
  | cons b B =>
    have h1 : lt (keyOf b.2) k = false := by simpa using hB b rfl
    simp only [List.mem_cons] at he
    rcases he with rfl | he
    · exact h1
    · simp only [Ascending, List.pairwise_append, List.pairwise_cons] at a
      have h2 := a.2.1.1 e he
      cases hlt : lt (keyOf e.2) k with
      | false => rfl
      | true => rw [ho.trans _ _ _ h2 hlt] at h1; cases h1

/-- `rbtree::upper_bound(k)` returns the first position whose key is greater than `k`. -/
theorem rbtree_upper_bound_first (ho : StrictTotalOrder lt) {objs : List Addr} {h : Heap V} (r : Reach lt keyOf objs h)
    {c : Addr} (hc : c ∈ objs) (k : K) : ∃ A B h', entries c h = .ok (A ++ B, h) ∧
      (∀ e ∈ A, lt k (keyOf e.2) = false) ∧ (∀ e ∈ B, lt k (keyOf e.2) = true) ∧
      upperBound lt keyOf c k h = .ok ((B.map Prod.fst).headD c, h') ∧ entries c h' = .ok (A ++ B, h') := by
  obtain ⟨es, o, a, w⟩ := r.owns ho hc
  obtain ⟨n, hn, q⟩ := upperBound_owns ho.toStrictWeak o (a.weak ho) k
  obtain ⟨A, B, rfl, hA, hB, hf⟩ := split_find es fun e => lt k (keyOf e.2)
  rw [hf, head_getD] at q
  refine ⟨A, B, _, o.entries, hA, ?_, q, (o.tick n).entries⟩
  intro e he
  cases B with
  | nil => simp at he
  | cons b B =>
    have h1 : lt k (keyOf b.2) = true := hB b rfl
    simp only [List.mem_cons] at he
    rcases he with rfl | he
    · exact h1
    · simp only [Ascending, List.pairwise_append, List.pairwise_cons] at a
      exact ho.trans _ _ _ h1 (a.2.1.1 e he)

/-- What `map::upper_bound` really computes: the position after `lower_bound`'s. -/
theorem upper_bound_computes (ho : StrictTotalOrder lt) {objs : List Addr} {h : Heap V} (r : Reach lt keyOf objs h)
    {c : Addr} (hc : c ∈ objs) (k : K) : ∃ A B h', entries c h = .ok (A ++ B, h) ∧
      (∀ e ∈ A, lt (keyOf e.2) k = true) ∧ (∀ e ∈ B, lt (keyOf e.2) k = false) ∧
      mapUpperBound lt keyOf c k h = .ok ((B.tail.map Prod.fst).headD c, h') ∧
      mapEqualRange lt keyOf c k h = .ok (((B.map Prod.fst).headD c, (B.tail.map Prod.fst).headD c), h') := by
  obtain ⟨es, o, a, w⟩ := r.owns ho hc
  obtain ⟨A, B, h', he, hA, hB, q, he'⟩ := lower_bound_first ho r hc k
  rw [o.entries] at he
  simp only [Res.ok.injEq, Prod.mk.injEq, and_true] at he
  subst he
  obtain ⟨n, hn, q'⟩ := lowerBound_owns ho.toStrictWeak o (a.weak ho) k
  have hh : h' = h.tick n := by
    rw [q'] at q; simp only [Res.ok.injEq, Prod.mk.injEq] at q; exact q.2.symm
  subst hh
  refine ⟨A, B, h.tick n, o.entries, hA, hB, ?_⟩
  unfold mapUpperBound mapEqualRange
  cases B with
  | nil =>
    simp only [List.map_nil, List.headD_nil] at q
    simp only [Prog.bind_app, q, Res.bind_ok, ne_eq, not_true_eq_false, if_true, if_false, Prog.pure_app, List.tail_nil, List.map_nil, List.headD_nil]
    exact ⟨trivial, trivial⟩
  | cons b B =>
    simp only [List.map_cons, List.headD_cons] at q
    have hne : b.1 ≠ c := by
      have := o.cells_nodup
      simp only [cells, List.nodup_cons] at this
      exact fun q => this.1 (q ▸ List.mem_map_of_mem (by simp))
    have hx := (o.tick n).nextNode
    simp only [Prog.bind_app, q, Res.bind_ok, ne_eq, hne, not_false_eq_true, if_true, if_false, Prog.pure_app, hx,
      List.tail_cons, List.map_cons, List.headD_cons]
    exact ⟨trivial, trivial⟩

/-- C06 where it holds: when `k` is present (or greater than every key), `upper_bound(k)` is the first position with
a greater key and `equal_range(k)` is `(lower_bound(k), upper_bound(k))`. Missing: keys that are absent but less
than some stored key, see `upper_bound_wrong_when_absent`. -/
theorem upper_bound_first_partial (ho : StrictTotalOrder lt) {objs : List Addr} {h : Heap V} (r : Reach lt keyOf objs h)
    {c : Addr} (hc : c ∈ objs) (k : K) {es} (he : entries c h = .ok (es, h))
    (hk : (∃ e ∈ es, keyOf e.2 = k) ∨ ∀ e ∈ es, lt (keyOf e.2) k = true) : ∃ A B h', es = A ++ B ∧
      (∀ e ∈ A, lt k (keyOf e.2) = false) ∧ (∀ e ∈ B, lt k (keyOf e.2) = true) ∧
      mapUpperBound lt keyOf c k h = .ok ((B.map Prod.fst).headD c, h') ∧
      ∃ lo h1, lowerBound lt keyOf c k h = .ok (lo, h1) ∧
        mapEqualRange lt keyOf c k h = .ok ((lo, (B.map Prod.fst).headD c), h') := by
  obtain ⟨A, B, h', he', hA, hB, q, q2⟩ := upper_bound_computes ho r hc k
  obtain ⟨A', B', h1, he'', hA', hB', q3, _⟩ := lower_bound_first ho r hc k
  obtain ⟨o, a, w⟩ := owns_of_entries ho r hc he
  rw [he] at he' he''
  simp only [Res.ok.injEq, Prod.mk.injEq, and_true] at he' he''
  have hBB : B = B' ∧ A = A' := by
    rw [he'] at he''
    have key : ∀ (A B A' B' : List (Addr × V)), A ++ B = A' ++ B' → (∀ e ∈ A, lt (keyOf e.2) k = true) →
        (∀ e ∈ B, lt (keyOf e.2) k = false) → (∀ e ∈ A', lt (keyOf e.2) k = true) →
        (∀ e ∈ B', lt (keyOf e.2) k = false) → B = B' ∧ A = A' := by
      intro A
      induction A with
      | nil =>
        intro B A' B' e h1 h2 h3 h4
        cases A' with
        | nil => simpa using e
        | cons x A' =>
          have h5 := h3 x (by simp)
          rw [h2 x (by rw [List.nil_append] at e; rw [e]; simp)] at h5; cases h5
      | cons y A ih =>
        intro B A' B' e h1 h2 h3 h4
        cases A' with
        | nil =>
          have h5 := h1 y (by simp)
          rw [h4 y (by rw [List.nil_append] at e; rw [← e]; simp)] at h5; cases h5
        | cons x A' =>
          simp only [List.cons_append, List.cons.injEq] at e
          have := ih B A' B' e.2 (fun z hz => h1 z (by simp [hz])) h2 (fun z hz => h3 z (by simp [hz])) h4
          exact ⟨this.1, by rw [e.1, this.2]⟩
    exact key A B A' B' he'' hA hB hA' hB'
  obtain ⟨rfl, rfl⟩ := hBB
  subst he'
  cases B with
  | nil =>
    refine ⟨A, [], h', by simp, fun e he => ho.asymm (hA e he), by simp, q, _, h1, q3, q2⟩
  | cons b B =>
    have hb : keyOf b.2 = k := by
      have hbf := hB b (by simp)
      rcases hk with ⟨e, he, hk⟩ | hk
      · simp only [List.mem_append, List.mem_cons] at he
        rcases he with he | rfl | he
        · have := hA e he; rw [hk, ho.irrefl] at this; cases this
        · exact hk
        · simp only [Ascending, List.pairwise_append, List.pairwise_cons] at a
          have := a.2.1.1 e he
          rw [hk, hbf] at this; cases this
      · have := hk b (by simp); rw [hbf] at this; cases this
    refine ⟨A ++ [b], B, h', by simp, ?_, ?_, q, _, h1, q3, q2⟩
    · intro e he
      simp only [List.mem_append, List.mem_cons, List.not_mem_nil, or_false] at he
      rcases he with he | rfl
      · exact ho.asymm (hA e he)
      · rw [hb]; exact ho.irrefl k
    · intro e he
      simp only [Ascending, List.pairwise_append, List.pairwise_cons] at a
      have := a.2.1.1 e he
      rw [hb] at this; exact this

/-- C06 fails otherwise: whenever `k` is absent and some stored key is greater, `upper_bound(k)` skips the first
greater element `e`, and `equal_range(k)` is the non-empty range `[e, ...)`. -/
theorem upper_bound_wrong_when_absent (ho : StrictTotalOrder lt) {objs : List Addr} {h : Heap V} (r : Reach lt keyOf objs h)
    {c : Addr} (hc : c ∈ objs) (k : K) {es} (he : entries c h = .ok (es, h)) (hno : ∀ e ∈ es, keyOf e.2 ≠ k)
    (hgt : ∃ e ∈ es, lt k (keyOf e.2) = true) : ∃ A e B h', es = A ++ e :: B ∧ (∀ x ∈ A, lt k (keyOf x.2) = false) ∧
      lt k (keyOf e.2) = true ∧ mapUpperBound lt keyOf c k h = .ok ((B.map Prod.fst).headD c, h') ∧
      (B.map Prod.fst).headD c ≠ e.1 ∧
      mapEqualRange lt keyOf c k h = .ok ((e.1, (B.map Prod.fst).headD c), h') := by
  obtain ⟨A, B, h', he', hA, hB, q, q2⟩ := upper_bound_computes ho r hc k
  obtain ⟨o, a, w⟩ := owns_of_entries ho r hc he
  rw [he] at he'
  simp only [Res.ok.injEq, Prod.mk.injEq, and_true] at he'
  subst he'
  cases B with
  | nil =>
    obtain ⟨e, he, hg⟩ := hgt
    simp only [List.append_nil] at he
    rw [ho.asymm (hA e he)] at hg; cases hg
  | cons b B =>
    refine ⟨A, b, B, h', rfl, fun x hx => ho.asymm (hA x hx), ?_, q, ?_, q2⟩
    · rcases ho.trichotomy k (keyOf b.2) with h1 | h1 | h1
      · exact h1
      · exact absurd h1.symm (hno b (by simp))
      · rw [hB b (by simp)] at h1; cases h1
    · intro hq
      have hn := o.cells_nodup
      simp only [cells, List.map_append, List.map_cons, List.nodup_cons, List.nodup_append, List.mem_append, List.mem_cons, not_or] at hn
      cases B with
      | nil => simp only [List.map_nil, List.headD_nil] at hq; exact hn.1.2.1 hq
      | cons b2 B =>
        simp only [List.map_cons, List.headD_cons, List.mem_cons] at hq hn
        exact hn.2.2.1.1 (Or.inl hq.symm)

/-- So C06 is false as stated: `upper_bound(1)` on the set `{2, 5, 7}` is not the first element greater than 1. -/
theorem upper_bound_counterexample : ∃ c h es, Reach (fun a b : Nat => decide (a < b)) id [c] h ∧
    entries c h = .ok (es, h) ∧ es.map Prod.snd = [2, 5, 7] ∧ ∃ x h', mapUpperBound (fun a b : Nat => decide (a < b)) id c 1 h = .ok (x, h') ∧
      ∃ v, (x, v) ∈ es ∧ v = 5 := by
  obtain ⟨c, h, es, r, he, hv⟩ := exists_reach_257
  obtain ⟨A, e, B, h', e1, hA, hg, q, _, _⟩ := upper_bound_wrong_when_absent natOrder r (by simp) 1 he
    (by
      intro e he' hk
      have : e.2 ∈ es.map Prod.snd := List.mem_map_of_mem he'
      rw [hv] at this; simp only [id_eq] at hk; rw [hk] at this; simp at this)
    (by
      have : 2 ∈ es.map Prod.snd := by rw [hv]; simp
      obtain ⟨e, he', q⟩ := List.mem_map.1 this
      exact ⟨e, he', by simp [q]⟩)
  refine ⟨c, h, es, r, he, hv, _, h', q, 5, ?_, rfl⟩
  subst e1
  have hA' : A = [] := by
    cases A with
    | nil => rfl
    | cons a A =>
      simp only [List.cons_append, List.map_cons, List.cons.injEq] at hv
      have := hA a (by simp)
      simp [hv.1] at this
  subst hA'
  cases B with
  | nil => simp at hv
  | cons b B =>
    simp only [List.nil_append, List.map_cons, List.cons.injEq] at hv
    simp only [List.map_cons, List.headD_cons, List.nil_append, List.mem_cons]
    right; left; rw [← hv.2.1]

end Verif.Rb.Container
