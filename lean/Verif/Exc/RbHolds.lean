import Verif.Rb.Reach
/-!
# Containers whose colours may be out of order

An `erase` that an exception leaves has turned the tree on its way down and not repaired the colours. `Holds f h hd es`: the container at `hd` holds the
elements `es`; its tree is balanced if the flag `f` is set. This file says of every member except `erase` that it needs no balanced tree, and that
it keeps the tree balanced if it was.
-/
set_option linter.unusedSimpArgs false
set_option linter.unusedSectionVars false
set_option linter.unusedVariables false
namespace Verif.Exc.XRb
open Verif Verif.Rb Tree
variable {K V T : Type} {f : Bool}

/-- The container at `hd` holds `es`; balanced if `f`. -/
def Holds (f : Bool) (h : Heap V) (hd : Addr) (es : List (Addr × V)) : Prop :=
  ∃ t, RepTree h hd t ∧ (f = true → Balanced t) ∧ t.inorder = es.map Prod.fst ∧ ∀ e ∈ es, h.data e.1 = some e.2

theorem Holds.owns {h : Heap V} {hd : Addr} {es : List (Addr × V)} (o : Holds true h hd es) : Owns h hd es := by
  obtain ⟨t, r, b, i, d⟩ := o
  exact ⟨t, r, b rfl, i, d⟩

theorem Holds.of_owns {h : Heap V} {hd : Addr} {es : List (Addr × V)} (o : Owns h hd es) : Holds f h hd es := by
  obtain ⟨t, r, b, i, d⟩ := o
  exact ⟨t, r, fun _ => b, i, d⟩

theorem Holds.frayed {h : Heap V} {hd : Addr} {es : List (Addr × V)} (o : Holds f h hd es) : Holds false h hd es := by
  obtain ⟨t, r, b, i, d⟩ := o
  exact ⟨t, r, fun q => (by cases q), i, d⟩

theorem Holds.tick {h : Heap V} {hd : Addr} {es : List (Addr × V)} (o : Holds f h hd es) (n : Nat) :
    Holds f (h.tick n) hd es := by
  obtain ⟨t, r, b, i, d⟩ := o
  exact ⟨t, r.tick n, b, i, d⟩

theorem Holds.cells_live {h : Heap V} {hd : Addr} {es : List (Addr × V)} (o : Holds f h hd es) {x : Addr}
    (hx : x ∈ cells hd es) : (h.node x).isSome := by
  obtain ⟨t, r, b, i, d⟩ := o
  simp only [cells, List.mem_cons] at hx
  rcases hx with rfl | hx
  · rw [r.header]; rfl
  · exact r.rep.live (by rw [i]; exact hx)

theorem Holds.cells_nodup {h : Heap V} {hd : Addr} {es : List (Addr × V)} (o : Holds f h hd es) :
    (cells hd es).Nodup := by
  obtain ⟨t, r, b, i, d⟩ := o
  rw [cells, ← i, List.nodup_cons]
  exact ⟨r.hd_not, r.nodup⟩

theorem Holds.zero_not {h : Heap V} {hd : Addr} {es : List (Addr × V)} (o : Holds f h hd es) : 0 ∉ cells hd es := by
  obtain ⟨t, r, b, i, d⟩ := o
  simp only [cells, ← i, List.mem_cons, not_or]
  exact ⟨r.hd_ne.symm, r.rep.zero_not⟩

theorem Holds.congr {h h' : Heap V} {hd : Addr} {es : List (Addr × V)} (o : Holds f h hd es)
    (hn : ∀ x ∈ cells hd es, h'.node x = h.node x ∧ h'.data x = h.data x) : Holds f h' hd es := by
  obtain ⟨t, r, b, i, d⟩ := o
  refine ⟨t, r.congr ?_, b, i, ?_⟩
  · intro x hx
    refine (hn x ?_).1
    rw [cells, ← i]; simpa using hx
  · intro e he
    rw [(hn e.1 (by simp only [cells, List.mem_cons, List.mem_map]; exact Or.inr ⟨e, he, rfl⟩)).2]
    exact d e he

/-- A container not touched by a call keeps its elements. -/
theorem Holds.frame {h h' : Heap V} {hd : Addr} {es : List (Addr × V)} {F F' : List Addr} (o : Holds f h hd es)
    (w : Wf h) (ef : Effect F F' h h') (hdis : ∀ x ∈ cells hd es, x ∉ F) : Holds f h' hd es := by
  refine o.congr fun x hx => ef.frame x (hdis x hx) fun hx' => ?_
  exact Nat.lt_irrefl _ (Nat.lt_of_lt_of_le (w.lt (o.cells_live hx)) (ef.fresh x hx' (hdis x hx)))

section
variable [DecidableEq K] {lt : K → K → Bool} {keyOf : V → K}

theorem find_holds (ho : StrictTotalOrder lt) {h : Heap V} {hd : Addr} {es : List (Addr × V)} (o : Holds f h hd es)
    (ha : Ascending lt keyOf es) (key : K) :
    ∃ n, find lt keyOf hd key h =
      .ok (((es.find? fun e => decide (keyOf e.2 = key)).map Prod.fst).getD hd, h.tick n) := by
  obtain ⟨t, r, b, i, d⟩ := o
  obtain ⟨n, x, hn, e, hx⟩ := findLoop_spec ho key r.rep (by rw [i]; exact keys_of (keyOf := keyOf) (dflt := key) d)
    (by rw [i]; exact sortedBy_of d ha)
  refine ⟨n, ?_⟩
  unfold find
  simp only [Prog.bind_app, root_of_zip r, Res.bind_ok, e, Prog.pure_app]
  congr 2
  rw [← find?_map_congr (p := fun x => decide (kfOf keyOf key h x = key))
    (fun e he => by rw [kfOf_mem (d e he)]), ← i]
  rcases hx with ⟨h1, h2⟩ | ⟨h1, h2⟩
  · have hx0 : x ≠ 0 := fun e => r.rep.zero_not (e ▸ h1)
    rw [if_pos hx0]
    have : t.inorder.find? (fun x => decide (kfOf keyOf key h x = key)) = some x := by
      cases hq : t.inorder.find? (fun x => decide (kfOf keyOf key h x = key)) with
      | none =>
        rw [List.find?_eq_none] at hq
        exact absurd (by simpa using h2) (hq x h1)
      | some y =>
        have hy := List.mem_of_find?_eq_some hq
        have hy2 := List.find?_some hq
        simp only [decide_eq_true_eq] at hy2
        -- both have the key, keys are strictly ascending
        have hs : SortedBy lt (kfOf keyOf key h) t.inorder := by rw [i]; exact sortedBy_of d ha
        by_cases hxy : x = y
        · rw [hxy]
        · exfalso
          exact hxy (sorted_inj ho hs h1 hy (h2.trans hy2.symm))
    rw [this]; rfl
  · rw [h1, if_neg (by simp)]
    have : t.inorder.find? (fun x => decide (kfOf keyOf key h x = key)) = none := by
      rw [List.find?_eq_none]; intro y hy; simpa using h2 y hy
    rw [this]; rfl

theorem lowerBound_holds (ho : StrictWeakOrder lt) {h : Heap V} {hd : Addr} {es : List (Addr × V)}
    (o : Holds f h hd es) (ha : WeakAscending lt keyOf es) (key : K) :
    ∃ n, lowerBound lt keyOf hd key h =
      .ok (((es.find? fun e => !lt (keyOf e.2) key).map Prod.fst).getD hd, h.tick n) := by
  obtain ⟨t, r, b, i, d⟩ := o
  obtain ⟨n, hn, e⟩ := lowerLoop_spec ho key r.rep (by rw [i]; exact keys_of (keyOf := keyOf) (dflt := key) d)
    (by rw [i]; exact weakSortedBy_of d ha) hd
  refine ⟨n, ?_⟩
  unfold lowerBound
  simp only [Prog.bind_app, root_of_zip r, Res.bind_ok, e, Prog.pure_app]
  rw [i, find?_map_congr (p := fun x => !lt (kfOf keyOf key h x) key) (fun e he => by rw [kfOf_mem (d e he)])]

end

theorem Holds.nextNode {h : Heap V} {hd : Addr} {A B : List (Addr × V)} {e : Addr × V}
    (o : Holds f h hd (A ++ e :: B)) : nextNode e.1 h = .ok ((B.map Prod.fst).headD hd, h) := by
  obtain ⟨t, r, b, i, d⟩ := o
  exact nextNode_spec r (by rw [i, List.map_append, List.map_cons])

theorem Holds.begin_ {h : Heap V} {hd : Addr} {es : List (Addr × V)} (o : Holds f h hd es) :
    begin_ hd h = .ok ((es.map Prod.fst).headD hd, h) := by
  obtain ⟨t, r, b, i, d⟩ := o
  unfold Rb.begin_
  simp only [Prog.bind_app, root_of_zip r, Res.bind_ok, Prog.ite_app, Prog.pure_app]
  by_cases ht : t = leaf
  · subst ht; rw [← i]; simp
  · rw [if_pos (fun e => ht (r.rep.addr_eq_zero.1 e)), minNode_spec r.rep ht hd, i]

theorem Holds.empty {h : Heap V} {hd : Addr} {es : List (Addr × V)} (o : Holds f h hd es) :
    empty hd h = .ok (es.isEmpty, h) := by
  obtain ⟨t, r, b, i, d⟩ := o
  unfold Rb.empty
  simp only [Prog.bind_app, root_of_zip r, Res.bind_ok, Prog.pure_app]
  congr 2
  cases t with
  | leaf => cases es <;> simp at i ⊢
  | node a c l rr =>
    cases es with
    | nil => simp at i
    | cons e es => simp [r.rep.addr_ne]

theorem Holds.lt {h : Heap V} {hd : Addr} {es : List (Addr × V)} (o : Holds f h hd es) (w : Wf h) {x : Addr}
    (hx : x ∈ cells hd es) : x < h.next := w.lt (o.cells_live hx)

theorem linkNew_holds {h : Heap V} {hd : Addr} {k : List Frame} {A B : List (Addr × V)} (v : V) (w : Wf h)
    (hr : RepTree h hd (zip k leaf)) (hb : f = true → Balanced (zip k leaf)) (hA : pre k = A.map Prod.fst)
    (hB : post k = B.map Prod.fst) (hd' : ∀ e ∈ A ++ B, h.data e.1 = some e.2) :
    ∃ h', linkNew hd v (ctxEdge k) (ctxParent hd k) h = .ok (h.next, h') ∧
      Holds f h' hd (A ++ (h.next, v) :: B) ∧
      Effect (cells hd (A ++ B)) (cells hd (A ++ (h.next, v) :: B)) h h' ∧ h'.next = h.next + 1 ∧
      h'.cmps = h.cmps := by
  have hmem : ∀ x, x ∈ ctxNodes hd k ↔ x ∈ cells hd (A ++ B) := by
    intro x
    rw [mem_ctxNodes, hA, hB]
    simp only [cells, List.mem_cons, List.map_append, List.mem_append]
  have o : Holds f h hd (A ++ B) := ⟨_, hr, hb, by rw [inorder_zip, hA, hB]; simp, hd'⟩
  have hlt : ∀ x ∈ ctxNodes hd k, x < h.next := fun x hx => o.lt w ((hmem x).1 hx)
  obtain ⟨h', e, r', u⟩ := linkNew_spec v hr hlt
  refine ⟨h', e, ⟨_, r', fun q => rebal_balanced (hb q), ?_, ?_⟩, ⟨?_, ?_, ?_, ?_, ?_⟩, u.next, u.cmps⟩
  · rw [inorder_recolor, inorder_rebal, inorder_zip, hA, hB]; simp
  · intro x hx
    rw [u.data]
    simp only [List.mem_append, List.mem_cons] at hx
    by_cases hxn : x.1 = h.next
    · have : x = (h.next, v) := by
        rcases hx with hx | hx | hx
        · exact absurd hxn (Nat.ne_of_lt (o.lt w (x := x.1) (by simp only [cells, List.mem_cons, List.mem_map]; exact Or.inr ⟨x, by simp [hx], rfl⟩)))
        · exact hx
        · exact absurd hxn (Nat.ne_of_lt (o.lt w (x := x.1) (by simp only [cells, List.mem_cons, List.mem_map]; exact Or.inr ⟨x, by simp [hx], rfl⟩)))
      rw [this]; simp [Heap.alloc]
    · simp only [Heap.alloc, if_neg hxn]
      apply hd'
      simp only [List.mem_append]
      rcases hx with hx | hx | hx
      · exact Or.inl hx
      · rw [hx] at hxn; exact absurd rfl hxn
      · exact Or.inr hx
  · intro x hx hx'
    have hxn : x ≠ h.next := by rintro rfl; exact hx' (by simp [cells])
    rw [u.node x (by simp only [List.mem_cons, not_or]; exact ⟨hxn, fun q => hx ((hmem x).1 q)⟩), u.data]
    simp only [Heap.alloc, if_neg hxn, and_self]
  · intro x hx hx'
    by_cases hxn : x = h.next
    · rw [hxn]; exact Nat.le_refl _
    · exfalso
      apply hx'
      simp only [cells, List.mem_cons, List.map_append, List.map_cons, List.mem_append, hxn, false_or] at hx ⊢
      exact hx
  · intro x hx hx'
    exfalso
    apply hx'
    simp only [cells, List.mem_cons, List.map_append, List.map_cons, List.mem_append] at hx ⊢
    grind
  · exact (w.alloc v).upd (u.toN 0)
  · rw [u.next]; exact Nat.le_succ _

section
variable [DecidableEq K] {lt : K → K → Bool} {keyOf : V → K}

/-- `insert_unique`. -/
theorem insertUnique_holds (ho : StrictTotalOrder lt) {h : Heap V} {hd : Addr} {es : List (Addr × V)} (w : Wf h)
    (o : Holds f h hd es) (ha : Ascending lt keyOf es) (v : V) :
    ∃ n,
    ((∃ e ∈ es, keyOf e.2 = keyOf v ∧ insertUnique lt keyOf hd v h = .ok ((e.1, false), h.tick n)) ∨
     (∃ A B h', es = A ++ B ∧ (∀ e ∈ A, lt (keyOf e.2) (keyOf v) = true) ∧
       (∀ e ∈ B, lt (keyOf v) (keyOf e.2) = true) ∧
       insertUnique lt keyOf hd v h = .ok ((h.next, true), h') ∧ Holds f h' hd (A ++ (h.next, v) :: B) ∧
       Effect (cells hd es) (cells hd (A ++ (h.next, v) :: B)) h h' ∧ h'.next = h.next + 1 ∧
       h'.cmps = h.cmps + n)) := by
  obtain ⟨t, r, b, i, d⟩ := o
  have hk : Keys keyOf h t.inorder (kfOf keyOf (keyOf v) h) := by rw [i]; exact keys_of d
  have hs : SortedBy lt (kfOf keyOf (keyOf v) h) t.inorder := by rw [i]; exact sortedBy_of d ha
  obtain ⟨n, hn, hcase⟩ := insUqLoop_spec ho (key := keyOf v) (k := []) (t := t)
    ⟨r, hk, by simp [pre], by simp [post]⟩ hs
  refine ⟨n, ?_⟩
  rcases hcase with ⟨x, hx, hkx, e⟩ | ⟨k, hz, hat, e⟩
  · left
    rw [i, List.mem_map] at hx
    obtain ⟨y, hy, rfl⟩ := hx
    rw [kfOf_mem (d y hy)] at hkx
    refine ⟨y, hy, hkx, ?_⟩
    unfold insertUnique
    simp only [ctxEdge, ctxParent] at e
    simp only [Prog.bind_app, e, Res.bind_ok, Prog.pure_app]
  · right
    have hz' : zip k leaf = t := hz
    have hsplit : pre k ++ post k = es.map Prod.fst := by
      rw [← i, ← hz', inorder_zip]; simp
    obtain ⟨A, B, rfl, hA, hB⟩ := List.map_eq_append_iff.1 hsplit.symm
    obtain ⟨h', e', o', ef, hnx, hcm⟩ := linkNew_holds (h := h.tick n) v (w.tick n) (hr := hat.rep)
      (by rw [hz']; exact b) hA.symm hB.symm (fun e he => d e he)
    refine ⟨A, B, h', rfl, ?_, ?_, ?_, o', ef.of_tick, hnx, hcm⟩
    · intro y hy
      have := hat.lo y.1 (by rw [← hA]; exact List.mem_map_of_mem hy)
      rwa [kfOf_mem (d y (by simp [hy]))] at this
    · intro y hy
      have := hat.hi y.1 (by rw [← hB]; exact List.mem_map_of_mem hy)
      rwa [kfOf_mem (d y (by simp [hy]))] at this
    · unfold insertUnique
      have e0 : insUqLoop lt keyOf hd (keyOf v) .root hd h = .ok (.inr (ctxEdge k, ctxParent hd k), h.tick n) := e
      simp only [Prog.bind_app, e0, Res.bind_ok, e', Prog.pure_app]
      rfl

end

/-- `clear()`. -/
theorem clear_holds {h : Heap V} {hd : Addr} {es : List (Addr × V)} (w : Wf h) (o : Holds f h hd es) :
    ∃ h', clear hd h = .ok ((), h') ∧ Holds true h' hd [] ∧ Effect (cells hd es) (cells hd ([] : List (Addr × V))) h h' ∧
      h'.next = h.next ∧ h'.cmps = h.cmps ∧ h'.data hd = h.data hd := by
  have o0 := o
  obtain ⟨t, r, b, i, d⟩ := o
  obtain ⟨h', e, r', f⟩ := clear_spec r
  rw [i] at f
  refine ⟨h', e, ⟨leaf, r', fun _ => ⟨rfl, 0, rfl⟩, rfl, by simp⟩, ⟨?_, ?_, ?_, ?_, ?_⟩, f.next, f.cmps, ?_⟩
  · intro x hx hx'
    simp only [cells, List.mem_cons, not_or] at hx
    have := f.kept x hx.2
    rw [setNode_node_ne _ _ hx.1] at this
    exact this
  · intro x hx hx'
    exfalso; apply hx'
    simp only [cells, List.map_nil, List.mem_cons, List.not_mem_nil, or_false] at hx ⊢
    exact Or.inl hx
  · intro x hx hx'
    simp only [cells, List.map_nil, List.mem_cons, List.not_mem_nil, or_false] at hx hx'
    exact f.gone x (hx.resolve_left hx')
  · refine ⟨by rw [f.next]; exact w.pos, fun x hx => ?_⟩
    rw [f.next] at hx
    by_cases hm : x ∈ es.map Prod.fst
    · exact f.gone x hm
    · have hne : x ≠ hd := by
        rintro rfl
        exact Nat.lt_irrefl _ (Nat.lt_of_lt_of_le (o0.lt w (by simp [cells])) hx)
      have := f.kept x hm
      rw [setNode_node_ne _ _ hne] at this
      rw [this.1, this.2]
      exact w.unused x hx
  · rw [f.next]; exact Nat.le_refl _
  · exact (f.kept hd (by rw [← i]; exact r.hd_not)).2

/-- A default-constructed container. -/
theorem newTree_holds {h : Heap V} (w : Wf h) :
    ∃ h', newTree h = .ok (h.next, h') ∧ Holds true h' h.next [] ∧
      Effect [] (cells h.next ([] : List (Addr × V))) h h' ∧ h'.next = h.next + 1 ∧ h'.cmps = h.cmps := by
  refine ⟨_, rfl, ⟨leaf, ⟨trivial, by simp, Nat.ne_of_gt w.pos, by simp, by simp⟩, fun _ => ⟨rfl, 0, rfl⟩, rfl, by simp⟩,
    ⟨?_, ?_, by simp, ⟨Nat.succ_pos _, ?_⟩, Nat.le_succ _⟩, rfl, rfl⟩
  · intro x _ hx
    simp only [cells, List.map_nil, List.mem_cons, List.not_mem_nil, or_false] at hx
    simp [hx]
  · intro x hx _
    simp only [cells, List.map_nil, List.mem_cons, List.not_mem_nil, or_false] at hx
    rw [hx]; exact Nat.le_refl _
  · intro x hx
    have hx' : h.next + 1 ≤ x := hx
    have : x ≠ h.next := Nat.ne_of_gt hx'
    simp only [if_neg this]
    exact w.unused x (Nat.le_of_succ_le hx')

/-- `assign` into an empty container. -/
theorem assign_holds {h : Heap V} {hd other : Addr} {es : List (Addr × V)} (w : Wf h)
    (o : Holds true h hd []) (oo : Holds f h other es) :
    ∃ h' es', assign hd other h = .ok ((), h') ∧ Holds f h' hd es' ∧ es'.map Prod.snd = es.map Prod.snd ∧
      Effect (cells hd ([] : List (Addr × V))) (cells hd es') h h' ∧ h'.cmps = h.cmps := by
  obtain ⟨t0, r0, b0, i0, _⟩ := o
  have : t0 = leaf := by
    cases t0 with
    | leaf => rfl
    | node a c l r => simp at i0
  subst this
  have hlt := fun x hx => oo.lt w (x := x) hx
  have oo' := oo
  obtain ⟨t, r, b, i, d⟩ := oo
  have hroot0 := root_of_zip r0
  have hroot := root_of_zip r
  have hhd : h.node hd = some ⟨0, 0, 0, RED⟩ := r0.header
  have hdlt : hd < h.next := w.lt (by rw [hhd]; rfl)
  by_cases ht : t = leaf
  · subst ht
    have hes : es = [] := by cases es with
      | nil => rfl
      | cons e es => simp at i
    subst hes
    refine ⟨h, [], ?_, ⟨leaf, r0, fun _ => b0 rfl, rfl, by simp⟩, rfl, ⟨fun _ _ _ => ⟨rfl, rfl⟩, fun _ h1 h2 => absurd h1 h2,
      fun _ h1 h2 => absurd h1 h2, w, Nat.le_refl _⟩, rfl⟩
    unfold assign
    simp only [Prog.bind_app, hroot0, hroot, Res.bind_ok, addr_leaf, ne_eq, not_true_eq_false, if_false,
      Prog.ite_app, Prog.pure_app]
  · obtain ⟨h1, t', e1, ⟨q, r1⟩, C⟩ := preorderCopy_spec r.rep r.nodup
      (fun x hx => by
        rw [i, List.mem_map] at hx
        obtain ⟨e, he, rfl⟩ := hx
        rw [d e he]; rfl)
      (fun x hx => hlt x (by rw [i] at hx; simp only [cells, List.mem_cons]; exact Or.inr hx)) w.pos ht
    have ht' : t' ≠ leaf := fun e => ht (C.shape.leaf_iff.2 e)
    have hdn : hd ∉ t'.inorder := fun hm => Nat.lt_irrefl _ (Nat.lt_of_lt_of_le hdlt ((C.range hd).1 hm).1)
    have hhd1 : h1.node hd = some ⟨0, 0, 0, RED⟩ := (C.old hd hdn).1.trans hhd
    cases t' with
    | leaf => exact absurd rfl ht'
    | node a c l rr =>
      obtain ⟨g1, g2, g3, g4⟩ := r1
      have hane : a ≠ hd := fun e => hdn (by simp [e])
      let h2 := h1.setNode hd ⟨a, 0, 0, RED⟩
      have hd2 : h2.node hd = some ⟨a, 0, 0, RED⟩ := by simp [h2]
      have ha2 : h2.node a = some ⟨q, l.addr, rr.addr, c⟩ := by rw [setNode_node_ne _ _ hane]; exact g1
      let h3 := h2.setNode a ⟨hd, l.addr, rr.addr, c⟩
      let es' := (Tree.node a c l rr).inorder.zip (es.map Prod.snd)
      have hdata : (Tree.node a c l rr).inorder.map h1.data = es.map fun e => some e.2 := by
        rw [C.data, i]; exact map_data_some d
      have hlen : (Tree.node a c l rr).inorder.length = (es.map Prod.snd).length := by
        have := congrArg List.length hdata
        simpa using this
      have hf : es'.map Prod.fst = (Tree.node a c l rr).inorder := by
        rw [List.map_fst_zip]; exact Nat.le_of_eq hlen
      have hs : es'.map Prod.snd = es.map Prod.snd := by
        rw [List.map_snd_zip]; exact Nat.le_of_eq hlen.symm
      have hda : ∀ e ∈ es', h1.data e.1 = some e.2 := by
        have : es'.map (fun e => h1.data e.1) = es'.map (fun e => some e.2) := by
          have e1 : es'.map (fun e => h1.data e.1) = (es'.map Prod.fst).map h1.data := by rw [List.map_map]; rfl
          have e2 : es'.map (fun e => some e.2) = (es'.map Prod.snd).map some := by rw [List.map_map]; rfl
          rw [e1, e2, hf, hs, hdata, List.map_map]; rfl
        intro e he
        exact List.map_inj_left.1 this e he
      refine ⟨h3, es', ?_, ⟨.node a c l rr, ⟨?_, ?_, r0.hd_ne, hdn, C.nodup⟩, fun q => C.shape.balanced (b q), hf.symm, ?_⟩, hs,
        ⟨?_, ?_, ?_, ?_, ?_⟩, C.cmps⟩
      · unfold assign
        simp only [Prog.bind_app, hroot0, Res.bind_ok, addr_leaf, ne_eq, not_true_eq_false, if_false,
          Prog.ite_app, Prog.pure_app]
        rw [hroot]
        simp only [Res.bind_ok]
        rw [if_pos (fun e => ht (r.rep.addr_eq_zero.1 e)), e1]
        simp only [Res.bind_ok, wrE, setParent, addr_node]
        rw [upd_eq _ hhd1]
        simp only [Res.bind_ok, rdE, Prog.bind_app, Prog.pure_app]
        rw [nd_eq hd2]
        simp only [Res.bind_ok]
        rw [upd_eq _ ha2]
      · refine Rep.reparent (h := h1) (p := q) ⟨g1, g2, g3, g4⟩ C.nodup ?_ ?_
        · rintro a' c' l' r' e
          simp only [Tree.node.injEq] at e
          obtain ⟨rfl, rfl, rfl, rfl⟩ := e
          simp [h3]
        · intro x hx hxa
          simp only [addr_node] at hxa
          rw [setNode_node_ne _ _ hxa, setNode_node_ne _ _ (fun e => hdn (by rw [← e]; exact hx))]
      · rw [setNode_node_ne _ _ hane.symm]; exact hd2
      · intro e he; exact hda e he
      · intro x hx hx'
        simp only [cells, List.mem_cons, not_or, hf] at hx'
        have hxa : x ≠ a := fun e => hx'.2 (by simp [e])
        rw [setNode_node_ne _ _ hxa, setNode_node_ne _ _ hx'.1]
        exact C.old x hx'.2
      · intro x hx hx'
        simp only [cells, List.map_nil, List.mem_cons, List.not_mem_nil, or_false] at hx'
        simp only [cells, List.mem_cons, hf, hx', false_or] at hx
        exact ((C.range x).1 (by simpa using hx)).1
      · intro x hx hx'
        simp only [cells, List.map_nil, List.mem_cons, List.not_mem_nil, or_false] at hx
        exact absurd (by simp [cells, hx]) hx'
      · refine ⟨Nat.lt_of_lt_of_le w.pos C.le, fun x hx => ?_⟩
        have hx1 : h1.next ≤ x := hx
        have hxn : x ∉ (Tree.node a c l rr).inorder := fun hm =>
          Nat.lt_irrefl _ (Nat.lt_of_lt_of_le ((C.range x).1 hm).2 hx1)
        have hxa : x ≠ a := fun e => hxn (by simp [e])
        have hxd : x ≠ hd := fun e =>
          Nat.lt_irrefl _ (Nat.lt_of_lt_of_le (Nat.lt_of_lt_of_le hdlt C.le) (e ▸ hx1))
        rw [setNode_node_ne _ _ hxa, setNode_node_ne _ _ hxd]
        have := C.old x hxn
        rw [this.1]
        refine ⟨(w.unused x (Nat.le_trans C.le hx1)).1, ?_⟩
        exact this.2.trans (w.unused x (Nat.le_trans C.le hx1)).2
      · exact C.le

/-- `operator=` between different containers. -/
theorem opAssign_holds {h : Heap V} {hd other : Addr} {es es0 : List (Addr × V)} (w : Wf h)
    {g : Bool} (o : Holds g h hd es0) (oo : Holds f h other es) (hdis : ∀ x ∈ cells other es, x ∉ cells hd es0) :
    ∃ h' es', opAssign hd other h = .ok ((), h') ∧ Holds f h' hd es' ∧ es'.map Prod.snd = es.map Prod.snd ∧
      Effect (cells hd es0) (cells hd es') h h' := by
  obtain ⟨h1, e1, o1, f1, n1, c1, _⟩ := clear_holds w o
  have oo1 : Holds f h1 other es := oo.frame w f1 hdis
  obtain ⟨h2, es', e2, o2, s2, f2, c2⟩ := assign_holds f1.wf o1 oo1
  refine ⟨h2, es', ?_, o2, s2, f1.trans w f2⟩
  unfold opAssign
  simp only [Prog.bind_app, e1, Res.bind_ok, e2]

/-- Copy construction. -/
theorem copyCtor_holds {h : Heap V} {other : Addr} {es : List (Addr × V)} (w : Wf h) (oo : Holds f h other es) :
    ∃ h' es', copyCtor other h = .ok (h.next, h') ∧ Holds f h' h.next es' ∧ es'.map Prod.snd = es.map Prod.snd ∧
      Effect [] (cells h.next es') h h' := by
  obtain ⟨h1, e1, o1, f1, n1, c1⟩ := newTree_holds w
  have oo1 : Holds f h1 other es := oo.frame w f1 (by simp)
  obtain ⟨h2, es', e2, o2, s2, f2, c2⟩ := assign_holds f1.wf o1 oo1
  refine ⟨h2, es', ?_, o2, s2, f1.trans w f2⟩
  unfold copyCtor
  simp only [Prog.bind_app, e1, Res.bind_ok, e2, Prog.pure_app]

/-- Destruction. -/
theorem destroy_holds {h : Heap V} {hd : Addr} {es : List (Addr × V)} (w : Wf h) (o : Holds f h hd es) :
    ∃ h', destroy hd h = .ok ((), h') ∧ Effect (cells hd es) [] h h' := by
  obtain ⟨h1, e1, o1, f1, n1, c1, _⟩ := clear_holds w o
  have hl := o1.cells_live (x := hd) (by simp [cells])
  have h0 : hd ≠ 0 := fun e => o1.zero_not (by simp [cells, e])
  obtain ⟨m, hm⟩ := Option.isSome_iff_exists.1 hl
  refine ⟨h1.free hd, ?_, f1.trans w ⟨?_, by simp, ?_, ?_, Nat.le_refl _⟩⟩
  · unfold destroy freeHeader
    simp only [Prog.bind_app, e1, Res.bind_ok, delNode, if_neg h0, hm]
  · intro x hx _
    simp only [cells, List.map_nil, List.mem_cons, List.not_mem_nil, or_false] at hx
    simp [Heap.free, hx]
  · intro x hx _
    simp only [cells, List.map_nil, List.mem_cons, List.not_mem_nil, or_false] at hx
    simp [Heap.free, hx]
  · refine ⟨f1.wf.pos, fun x hx => ?_⟩
    simp only [Heap.free]
    split
    · simp
    · exact f1.wf.unused x hx

theorem walkFwd_holds {h : Heap V} {hd : Addr} {es : List (Addr × V)} (o : Holds f h hd es) (A B : List (Addr × V))
    (e : es = A ++ B) : walkFwd hd ((B.map Prod.fst).headD hd) A h = .ok (es, h) := by
  induction B generalizing A with
  | nil => rw [walkFwd]; simp [e]
  | cons x B ih =>
    have hx : x.1 ≠ hd := by
      have := o.cells_nodup
      rw [e] at this
      simp only [cells, List.map_append, List.map_cons, List.nodup_cons, List.mem_append, List.mem_cons, not_or] at this
      exact fun q => this.1.2.1 q.symm
    have hn := (e ▸ o : Holds f h hd (A ++ x :: B)).nextNode
    obtain ⟨t, r, b, i, d⟩ := o
    rw [walkFwd]
    simp only [List.map_cons, List.headD_cons]
    rw [if_neg hx]
    simp only [Prog.bind_app, dataOf_eq (d x (by rw [e]; simp)), Res.bind_ok, hn]
    exact ih (A ++ [(x.1, x.2)]) (by rw [e]; simp)

theorem Holds.entries {h : Heap V} {hd : Addr} {es : List (Addr × V)} (o : Holds f h hd es) :
    entries hd h = .ok (es, h) := by
  unfold Rb.entries
  simp only [Prog.bind_app, o.begin_, Res.bind_ok]
  exact walkFwd_holds o [] es rfl

theorem storeData_holds {h : Heap V} {hd : Addr} {A B : List (Addr × V)} {e : Addr × V}
    (w : Wf h) (o : Holds f h hd (A ++ e :: B)) (v : V) :
    ∃ h', storeData e.1 v h = .ok ((), h') ∧ Holds f h' hd (A ++ (e.1, v) :: B) ∧
      Effect (cells hd (A ++ e :: B)) (cells hd (A ++ (e.1, v) :: B)) h h' ∧ h'.next = h.next ∧
      h'.cmps = h.cmps := by
  have hcells : ∀ x, x ∈ cells hd (A ++ (e.1, v) :: B) ↔ x ∈ cells hd (A ++ e :: B) := by
    intro x; simp [cells]
  have hnd := o.cells_nodup
  have hl := o.lt w (x := e.1) (by simp [cells])
  obtain ⟨tr, r, b, i, d⟩ := o
  have he := d e (by simp)
  refine ⟨{ h with data := fun x => if x = e.1 then some v else h.data x }, ?_, ⟨tr, ?_, b, ?_, ?_⟩,
    ⟨?_, ?_, ?_, ⟨w.pos, ?_⟩, Nat.le_refl _⟩, rfl, rfl⟩
  · unfold storeData; rw [he]
  · exact r.congr (fun x _ => rfl)
  · rw [i]; simp
  · intro x hx
    simp only [cells, List.map_append, List.map_cons, List.nodup_cons, List.nodup_append, List.mem_cons, List.mem_map] at hnd
    simp only [List.mem_append, List.mem_cons] at hx
    rcases hx with hx | rfl | hx
    · have hne : x.1 ≠ e.1 := fun q => hnd.2.2.2 x.1 ⟨x, hx, rfl⟩ e.1 (Or.inl rfl) q
      simp only [if_neg hne]; exact d x (by simp [hx])
    · simp
    · have hne : x.1 ≠ e.1 := fun q => hnd.2.2.1.1 ⟨x, hx, q⟩
      simp only [if_neg hne]; exact d x (by simp [hx])
  · intro x hx _
    have hne : x ≠ e.1 := fun q => hx (by simp [cells, q])
    simp [hne]
  · intro x hx hx'; exact absurd ((hcells x).1 hx) hx'
  · intro x hx hx'; exact absurd ((hcells x).2 hx) hx'
  · intro x hx
    have hne : x ≠ e.1 := fun q => Nat.lt_irrefl _ (Nat.lt_of_lt_of_le (q ▸ hl) hx)
    simp only [if_neg hne]
    exact w.unused x hx

/-! ### Worlds -/

/-- A container: its header, whether its tree is balanced, its elements. -/
structure Box (V : Type) where
  hd : Addr
  ok : Bool
  es : List (Addr × V)

/-- Memory holds exactly the containers `ws`, the leaked nodes `L` and nothing else. -/
structure World (h : Heap V) (ws : List (Box V)) (L : List Addr) : Prop where
  wf : Wf h
  holds : ∀ w ∈ ws, Holds w.ok h w.hd w.es
  leaked : ∀ x ∈ L, (h.node x).isSome
  zero : 0 ∉ L
  nodup : ((ws.flatMap fun w => cells w.hd w.es) ++ L).Nodup
  tight : ∀ x, (h.node x).isSome → x ∈ (ws.flatMap fun w => cells w.hd w.es) ++ L

abbrev boxCells (ws : List (Box V)) : List Addr := ws.flatMap fun w => cells w.hd w.es

theorem World.live {h : Heap V} {ws : List (Box V)} {L : List Addr} (W : World h ws L) {x : Addr} (hx : x ∈ boxCells ws ++ L) : (h.node x).isSome := by
  simp only [boxCells, List.mem_append, List.mem_flatMap] at hx
  rcases hx with ⟨w, hw, hx⟩ | hx
  · exact (W.holds w hw).cells_live hx
  · exact W.leaked x hx

theorem World.null {h : Heap V} {ws : List (Box V)} {L : List Addr} (W : World h ws L) : h.node 0 = none := by
  cases e : h.node 0 with
  | none => rfl
  | some n =>
    have := W.tight 0 (by rw [e]; rfl)
    simp only [List.mem_append, List.mem_flatMap] at this
    rcases this with ⟨w, hw, q⟩ | q
    · exact absurd q (W.holds w hw).zero_not
    · exact absurd q W.zero

/-- What is not live in `h` and what is not part of the changed containers stays. -/
theorem World.change {h h' : Heap V} {ws ws' A : List (Box V)} {L L' F F' : List Addr} (W : World h ws L)
    (frame : ∀ x, x ∉ F → x ∉ F' → h'.node x = h.node x ∧ h'.data x = h.data x) (fresh : ∀ x ∈ F', x ∉ F → h.next ≤ x)
    (freed : ∀ x ∈ F, x ∉ F' → h'.node x = none) (wf : Wf h')
    (old : ∀ x, x ∈ boxCells ws ++ L ↔ x ∈ boxCells A ∨ x ∈ F ∨ x ∈ L) (sub : ∀ w ∈ A, w ∈ ws) (dis : ∀ x ∈ F, x ∉ boxCells A ∧ x ∉ L)
    (ndA : (boxCells A).Nodup) (ndF : F'.Nodup)
    (new : ∀ x, x ∈ boxCells ws' ++ L' ↔ x ∈ boxCells A ∨ x ∈ F' ∨ x ∈ L)
    (perm : ((boxCells A ++ L) ++ F').Nodup → (boxCells ws' ++ L').Nodup)
    (holds : (∀ w ∈ A, Holds w.ok h' w.hd w.es) → ∀ w ∈ ws', Holds w.ok h' w.hd w.es)
    (leaked : (∀ x ∈ L, (h'.node x).isSome) → ∀ x ∈ L', (h'.node x).isSome) (zero : 0 ∉ L') : World h' ws' L' := by
  have hl : ∀ x, x ∈ boxCells A ∨ x ∈ L → x ∉ F ∧ x ∉ F' ∧ (h.node x).isSome := by
    intro x hx
    have lv : (h.node x).isSome := W.live ((old x).2 (hx.elim .inl fun q => .inr (.inr q)))
    have nF : x ∉ F := fun q => hx.elim (dis x q).1 (dis x q).2
    exact ⟨nF, fun q => Nat.lt_irrefl _ (Nat.lt_of_lt_of_le (W.wf.lt lv) (fresh x q nF)), lv⟩
  refine ⟨wf, holds fun w hw => (W.holds w (sub w hw)).congr fun x hx => ?_, leaked fun x hx => ?_, zero, perm ?_, fun x hx => ?_⟩
  · have := hl x (.inl (List.mem_flatMap.2 ⟨w, hw, hx⟩))
    exact frame x this.1 this.2.1
  · have := hl x (.inr hx)
    rw [(frame x this.1 this.2.1).1]; exact this.2.2
  · have nd := W.nodup
    rw [List.nodup_append] at nd
    refine List.nodup_append.2 ⟨List.nodup_append.2 ⟨ndA, nd.2.1, fun x hx y hy q => ?_⟩, ndF, fun x hx y hy q => ?_⟩
    · subst q
      refine nd.2.2 x ?_ x hy rfl
      obtain ⟨w, hw, hx⟩ := List.mem_flatMap.1 hx
      exact List.mem_flatMap.2 ⟨w, sub w hw, hx⟩
    · subst q
      exact (hl x (List.mem_append.1 hx)).2.1 hy
  · rw [new]
    by_cases h1 : x ∈ F'
    · exact .inr (.inl h1)
    · by_cases h2 : x ∈ F
      · rw [freed x h2 h1] at hx; simp at hx
      · rw [(frame x h2 h1).1] at hx
        rcases (old x).1 (W.tight x hx) with q | q | q
        · exact .inl q
        · exact absurd q h2
        · exact .inr (.inr q)

theorem World.split {h : Heap V} {A B : List (Box V)} {w : Box V} {L : List Addr} (W : World h (A ++ w :: B) L) :
    (∀ x ∈ cells w.hd w.es, x ∉ boxCells (A ++ B) ∧ x ∉ L) ∧ (boxCells (A ++ B)).Nodup := by
  have nd := W.nodup
  simp only [List.flatMap_append, List.flatMap_cons, List.nodup_append, List.mem_append] at nd
  refine ⟨fun x hx => ⟨fun q => ?_, fun q => nd.2.2 x (.inr (.inl hx)) x q rfl⟩, ?_⟩
  · simp only [boxCells, List.flatMap_append, List.mem_append] at q
    rcases q with q | q
    · exact nd.1.2.2 x q x (.inl hx) rfl
    · exact nd.1.2.1.2.2 x hx x q rfl
  · simp only [boxCells, List.flatMap_append, List.nodup_append]
    exact ⟨nd.1.1, nd.1.2.1.2.1, fun x hx y hy => nd.1.2.2 x hx y (.inr hy)⟩

/-- One container changed, nodes may have been leaked. -/
theorem World.step {h h' : Heap V} {A B : List (Box V)} {L M : List Addr} {w w' : Box V} (W : World h (A ++ w :: B) L) (e : w'.hd = w.hd)
    (ef : Effect (cells w.hd w.es) (cells w'.hd w'.es ++ M) h h') (o : Holds w'.ok h' w'.hd w'.es) (nd : (cells w'.hd w'.es ++ M).Nodup)
    (lv : ∀ x ∈ M, (h'.node x).isSome) : World h' (A ++ w' :: B) (L ++ M) := by
  obtain ⟨dis, ndA⟩ := W.split
  refine W.change (A := A ++ B) ef.frame ef.fresh (fun x h1 h2 => (ef.freed x h1 h2).1) ef.wf ?_ ?_ dis ndA nd ?_ ?_ ?_ ?_ (fun q => (List.mem_append.1 q).elim W.zero fun q => ?_)
  · intro x
    simp only [boxCells, List.flatMap_append, List.flatMap_cons, List.mem_append]; grind
  · intro w hw
    simp only [List.mem_append, List.mem_cons] at hw ⊢; grind
  · intro x
    simp only [boxCells, List.flatMap_append, List.flatMap_cons, List.mem_append]; grind
  · intro q
    simp only [boxCells, List.flatMap_append, List.flatMap_cons, List.nodup_append, List.mem_append] at q ⊢
    grind
  · intro q w hw
    simp only [List.mem_append, List.mem_cons] at hw
    rcases hw with hw | rfl | hw
    · exact q w (by simp [hw])
    · exact o
    · exact q w (by simp [hw])
  · intro q x hx
    rcases List.mem_append.1 hx with hx | hx
    · exact q x hx
    · exact lv x hx
  · refine Nat.lt_irrefl _ (Nat.lt_of_lt_of_le W.wf.pos (ef.fresh 0 (by simp [q]) fun q' => ?_))
    exact (W.holds w (by simp)).zero_not q'

/-- A container was created. -/
theorem World.add {h h' : Heap V} {ws : List (Box V)} {L : List Addr} {w' : Box V} (W : World h ws L)
    (ef : Effect [] (cells w'.hd w'.es) h h') (o : Holds w'.ok h' w'.hd w'.es) : World h' (ws ++ [w']) L := by
  have nd := W.nodup
  refine W.change (A := ws) ef.frame ef.fresh (fun x h1 h2 => by simp at h1) ef.wf ?_ (fun w hw => hw) (by simp) (List.nodup_append.1 nd).1 o.cells_nodup ?_ ?_ ?_ ?_ W.zero
  · intro x; simp
  · intro x
    simp only [boxCells, List.flatMap_append, List.flatMap_cons, List.flatMap_nil, List.append_nil, List.mem_append]; grind
  · intro q
    simp only [boxCells, List.flatMap_append, List.flatMap_cons, List.flatMap_nil, List.append_nil, List.nodup_append, List.mem_append] at q ⊢
    grind
  · intro q w hw
    simp only [List.mem_append, List.mem_cons, List.not_mem_nil, or_false] at hw
    rcases hw with hw | rfl
    · exact q w hw
    · exact o
  · exact fun q => q

/-- Nothing happened but that nodes were leaked. -/
theorem World.leak {h h' : Heap V} {ws : List (Box V)} {L M : List Addr} (W : World h ws L)
    (ef : Effect [] M h h') (nd : M.Nodup) (lv : ∀ x ∈ M, (h'.node x).isSome) : World h' ws (L ++ M) := by
  refine W.change (A := ws) ef.frame ef.fresh (fun x h1 h2 => by simp at h1) ef.wf ?_ (fun w hw => hw) (by simp) (List.nodup_append.1 W.nodup).1 nd ?_ ?_ ?_ ?_ (fun q => (List.mem_append.1 q).elim W.zero fun q =>
    Nat.lt_irrefl _ (Nat.lt_of_lt_of_le W.wf.pos (ef.fresh 0 q (by simp))))
  · intro x; simp
  · intro x
    simp only [boxCells, List.mem_append]; grind
  · intro q
    simp only [boxCells, List.nodup_append, List.mem_append] at q ⊢
    grind
  · exact fun q => q
  · intro q x hx
    rcases List.mem_append.1 hx with hx | hx
    · exact q x hx
    · exact lv x hx

/-- A container was destroyed. -/
theorem World.drop {h h' : Heap V} {A B : List (Box V)} {L : List Addr} {w : Box V} (W : World h (A ++ w :: B) L)
    (ef : Effect (cells w.hd w.es) [] h h') : World h' (A ++ B) L := by
  obtain ⟨dis, ndA⟩ := W.split
  refine W.change (A := A ++ B) ef.frame ef.fresh (fun x h1 h2 => (ef.freed x h1 h2).1) ef.wf ?_ ?_ dis ndA List.nodup_nil ?_ ?_ ?_ ?_ W.zero
  · intro x
    simp only [boxCells, List.flatMap_append, List.flatMap_cons, List.mem_append]; grind
  · intro w hw
    simp only [List.mem_append, List.mem_cons] at hw ⊢; grind
  · intro x; simp only [List.mem_append, List.not_mem_nil, false_or]
  · intro q; simpa only [List.append_nil] using q
  · exact fun q => q
  · exact fun q => q

/-- Only comparisons were counted. -/
theorem World.tick {h : Heap V} {ws : List (Box V)} {L : List Addr} (W : World h ws L) (n : Nat) : World (h.tick n) ws L :=
  ⟨W.wf.tick n, fun w hw => (W.holds w hw).tick n, W.leaked, W.zero, W.nodup, W.tight⟩

end Verif.Exc.XRb
