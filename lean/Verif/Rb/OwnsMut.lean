import Verif.Rb.Owns
/-!
# Mutating operations of containers, on sequences of elements
-/
set_option linter.unusedSimpArgs false
set_option linter.unusedSectionVars false
namespace Verif.Rb
open Verif Tree
variable {K V T : Type}

theorem Owns.lt {h : Heap V} {hd : Addr} {es : List (Addr × V)} (o : Owns h hd es) (w : Wf h) {x : Addr}
    (hx : x ∈ cells hd es) : x < h.next := w.lt (o.cells_live hx)

theorem Wf.alloc {h : Heap V} (w : Wf h) (v : V) : Wf (h.alloc v) := by
  refine ⟨Nat.succ_pos _, fun x hx => ?_⟩
  have hx' : h.next + 1 ≤ x := hx
  have hne : x ≠ h.next := Nat.ne_of_gt hx'
  simp only [Heap.alloc, if_neg hne]
  exact w.unused x (Nat.le_of_succ_le hx')

theorem Wf.upd {h h' : Heap V} {c : Nat} {S : List Addr} (w : Wf h) (u : UpdN c S h h') : Wf h' := by
  refine ⟨by rw [u.next]; exact w.pos, fun x hx => ?_⟩
  rw [u.next] at hx
  refine ⟨?_, by rw [u.data]; exact (w.unused x hx).2⟩
  have := u.live x
  rw [(w.unused x hx).1] at this
  simpa using this

theorem linkNew_owns {h : Heap V} {hd : Addr} {k : List Frame} {A B : List (Addr × V)} (v : V) (w : Wf h)
    (hr : RepTree h hd (zip k leaf)) (hb : Balanced (zip k leaf)) (hA : pre k = A.map Prod.fst)
    (hB : post k = B.map Prod.fst) (hd' : ∀ e ∈ A ++ B, h.data e.1 = some e.2) :
    ∃ h', linkNew hd v (ctxEdge k) (ctxParent hd k) h = .ok (h.next, h') ∧
      Owns h' hd (A ++ (h.next, v) :: B) ∧
      Effect (cells hd (A ++ B)) (cells hd (A ++ (h.next, v) :: B)) h h' ∧ h'.next = h.next + 1 ∧
      h'.cmps = h.cmps := by
  have hmem : ∀ x, x ∈ ctxNodes hd k ↔ x ∈ cells hd (A ++ B) := by
    intro x
    rw [mem_ctxNodes, hA, hB]
    simp only [cells, List.mem_cons, List.map_append, List.mem_append]
  have o : Owns h hd (A ++ B) := ⟨_, hr, hb, by rw [inorder_zip, hA, hB]; simp, hd'⟩
  have hlt : ∀ x ∈ ctxNodes hd k, x < h.next := fun x hx => o.lt w ((hmem x).1 hx)
  obtain ⟨h', e, r', u⟩ := linkNew_spec v hr hlt
  refine ⟨h', e, ⟨_, r', rebal_balanced hb, ?_, ?_⟩, ⟨?_, ?_, ?_, ?_, ?_⟩, u.next, u.cmps⟩
  · rw [inorder_recolor, inorder_rebal, inorder_zip, hA, hB]; simp
  · intro x hx
    rw [u.data]
    simp only [List.mem_append, List.mem_cons] at hx
    by_cases hxn : x.1 = h.next
    · have : x = (h.next, v) := by
        rcases hx with hx | hx | hx
        · exact absurd hxn (Nat.ne_of_lt (o.lt w (x := x.1) (by simp only [cells, List.mem_cons, List.mem_map]; exact Or.inr ⟨x, by simp [hx], rfl⟩)))
        · exact hx
        · exact absurd hxn (Nat.ne_of_lt (o.lt w (x := x.1) (by simp only [cells, List.mem_cons, List.mem_map]; exact Or.inr ⟨x, by simp [hx], rfl⟩)))
      rw [this]; simp [Heap.alloc]
    · simp only [Heap.alloc, if_neg hxn]
      apply hd'
      simp only [List.mem_append]
      rcases hx with hx | hx | hx
      · exact Or.inl hx
      · rw [hx] at hxn; exact absurd rfl hxn
      · exact Or.inr hx
  · intro x hx hx'
    have hxn : x ≠ h.next := by rintro rfl; exact hx' (by simp [cells])
    rw [u.node x (by simp only [List.mem_cons, not_or]; exact ⟨hxn, fun q => hx ((hmem x).1 q)⟩), u.data]
    simp only [Heap.alloc, if_neg hxn, and_self]
  · intro x hx hx'
    by_cases hxn : x = h.next
    · rw [hxn]; exact Nat.le_refl _
    · exfalso
      apply hx'
      simp only [cells, List.mem_cons, List.map_append, List.map_cons, List.mem_append, hxn, false_or] at hx ⊢
      exact hx
  · intro x hx hx'
    exfalso
    apply hx'
    simp only [cells, List.mem_cons, List.map_append, List.map_cons, List.mem_append] at hx ⊢
    grind
  · exact (w.alloc v).upd (u.toN 0)
  · rw [u.next]; exact Nat.le_succ _

theorem Effect.of_tick {F F' : List Addr} {h h' : Heap V} {n : Nat} (e : Effect F F' (h.tick n) h') :
    Effect F F' h h' := ⟨e.frame, e.fresh, e.freed, e.wf, e.next⟩

section
variable [DecidableEq K] {lt : K → K → Bool} {keyOf : V → K}

/-- `insert_unique`. -/
theorem insertUnique_owns (ho : StrictTotalOrder lt) {h : Heap V} {hd : Addr} {es : List (Addr × V)} (w : Wf h)
    (o : Owns h hd es) (ha : Ascending lt keyOf es) (v : V) :
    ∃ n, n ≤ 2 * Nat.log2 (es.length + 1) ∧
    ((∃ e ∈ es, keyOf e.2 = keyOf v ∧ insertUnique lt keyOf hd v h = .ok ((e.1, false), h.tick n)) ∨
     (∃ A B h', es = A ++ B ∧ (∀ e ∈ A, lt (keyOf e.2) (keyOf v) = true) ∧
       (∀ e ∈ B, lt (keyOf v) (keyOf e.2) = true) ∧
       insertUnique lt keyOf hd v h = .ok ((h.next, true), h') ∧ Owns h' hd (A ++ (h.next, v) :: B) ∧
       Effect (cells hd es) (cells hd (A ++ (h.next, v) :: B)) h h' ∧ h'.next = h.next + 1 ∧
       h'.cmps = h.cmps + n)) := by
  obtain ⟨t, r, b, i, d⟩ := o
  have hk : Keys keyOf h t.inorder (kfOf keyOf (keyOf v) h) := by rw [i]; exact keys_of d
  have hs : SortedBy lt (kfOf keyOf (keyOf v) h) t.inorder := by rw [i]; exact sortedBy_of d ha
  obtain ⟨n, hn, hcase⟩ := insUqLoop_spec ho (key := keyOf v) (k := []) (t := t)
    ⟨r, hk, by simp [pre], by simp [post]⟩ hs
  refine ⟨n, by rw [← size_of i]; exact Nat.le_trans hn b.height, ?_⟩
  rcases hcase with ⟨x, hx, hkx, e⟩ | ⟨k, hz, hat, e⟩
  · left
    rw [i, List.mem_map] at hx
    obtain ⟨y, hy, rfl⟩ := hx
    rw [kfOf_mem (d y hy)] at hkx
    refine ⟨y, hy, hkx, ?_⟩
    unfold insertUnique
    simp only [ctxEdge, ctxParent] at e
    simp only [Prog.bind_app, e, Res.bind_ok, Prog.pure_app]
  · right
    have hz' : zip k leaf = t := hz
    have hsplit : pre k ++ post k = es.map Prod.fst := by
      rw [← i, ← hz', inorder_zip]; simp
    obtain ⟨A, B, rfl, hA, hB⟩ := List.map_eq_append_iff.1 hsplit.symm
    obtain ⟨h', e', o', ef, hnx, hcm⟩ := linkNew_owns (h := h.tick n) v (w.tick n) (hr := hat.rep)
      (by rw [hz']; exact b) hA.symm hB.symm (fun e he => d e he)
    refine ⟨A, B, h', rfl, ?_, ?_, ?_, o', ef.of_tick, hnx, hcm⟩
    · intro y hy
      have := hat.lo y.1 (by rw [← hA]; exact List.mem_map_of_mem hy)
      rwa [kfOf_mem (d y (by simp [hy]))] at this
    · intro y hy
      have := hat.hi y.1 (by rw [← hB]; exact List.mem_map_of_mem hy)
      rwa [kfOf_mem (d y (by simp [hy]))] at this
    · unfold insertUnique
      have e0 : insUqLoop lt keyOf hd (keyOf v) .root hd h = .ok (.inr (ctxEdge k, ctxParent hd k), h.tick n) := e
      simp only [Prog.bind_app, e0, Res.bind_ok, e', Prog.pure_app]
      rfl

/-- `insert_equal`. -/
theorem insertEqual_owns (ho : StrictWeakOrder lt) {h : Heap V} {hd : Addr} {es : List (Addr × V)} (w : Wf h)
    (o : Owns h hd es) (ha : WeakAscending lt keyOf es) (v : V) :
    ∃ n A B h', n ≤ 2 * Nat.log2 (es.length + 1) ∧ es = A ++ B ∧
       (∀ e ∈ A, lt (keyOf v) (keyOf e.2) = false) ∧ (∀ e ∈ B, lt (keyOf v) (keyOf e.2) = true) ∧
       insertEqual lt keyOf hd v h = .ok (h.next, h') ∧ Owns h' hd (A ++ (h.next, v) :: B) ∧
       Effect (cells hd es) (cells hd (A ++ (h.next, v) :: B)) h h' ∧ h'.next = h.next + 1 ∧
       h'.cmps = h.cmps + n := by
  obtain ⟨t, r, b, i, d⟩ := o
  have hk : Keys keyOf h t.inorder (kfOf keyOf (keyOf v) h) := by rw [i]; exact keys_of d
  have hs : WeakSortedBy lt (kfOf keyOf (keyOf v) h) t.inorder := by rw [i]; exact weakSortedBy_of d ha
  obtain ⟨n, k, hn, hz, hlo, hhi, e⟩ := insEqLoop_spec ho (key := keyOf v) (k := []) (t := t) r hk
    (by simp [pre]) (by simp [post]) hs
  have hz' : zip k leaf = t := hz
  have hsplit : pre k ++ post k = es.map Prod.fst := by
    rw [← i, ← hz', inorder_zip]; simp
  obtain ⟨A, B, rfl, hA, hB⟩ := List.map_eq_append_iff.1 hsplit.symm
  obtain ⟨h', e', o', ef, hnx, hcm⟩ := linkNew_owns (h := h.tick n) v (w.tick n)
    (hr := by rw [hz']; exact r.tick n) (by rw [hz']; exact b) hA.symm hB.symm (fun e he => d e he)
  refine ⟨n, A, B, h', by rw [← size_of i]; exact Nat.le_trans hn b.height, rfl, ?_, ?_, ?_, o', ef.of_tick,
    hnx, hcm⟩
  · intro y hy
    have := hlo y.1 (by rw [← hA]; exact List.mem_map_of_mem hy)
    rwa [kfOf_mem (d y (by simp [hy]))] at this
  · intro y hy
    have := hhi y.1 (by rw [← hB]; exact List.mem_map_of_mem hy)
    rwa [kfOf_mem (d y (by simp [hy]))] at this
  · unfold insertEqual
    have e0 : insEqLoop lt keyOf hd (keyOf v) .root hd h = .ok ((ctxEdge k, ctxParent hd k), h.tick n) := e
    simp only [Prog.bind_app, e0, Res.bind_ok, e', Prog.pure_app]
    rfl

/-- `erase(key)`. -/
theorem erase_owns (ho : StrictTotalOrder lt) {h : Heap V} {hd : Addr} {es : List (Addr × V)} (w : Wf h)
    (o : Owns h hd es) (ha : Ascending lt keyOf es) (key : K) :
    ∃ h', h'.cmps ≤ h.cmps + 3 * (2 * Nat.log2 (es.length + 1)) ∧ h'.next = h.next ∧
    (((∀ e ∈ es, keyOf e.2 ≠ key) ∧ erase lt keyOf hd key h = .ok (0, h') ∧ Owns h' hd es ∧
        Effect (cells hd es) (cells hd es) h h') ∨
     (∃ A e B, es = A ++ e :: B ∧ keyOf e.2 = key ∧ erase lt keyOf hd key h = .ok (1, h') ∧
        Owns h' hd (A ++ B) ∧ Effect (cells hd es) (cells hd (A ++ B)) h h')) := by
  have o0 := o
  obtain ⟨t, r, b, i, d⟩ := o
  have hk : Keys keyOf h t.inorder (kfOf keyOf key h) := by rw [i]; exact keys_of d
  have hs : SortedBy lt (kfOf keyOf key h) t.inorder := by rw [i]; exact sortedBy_of d ha
  obtain ⟨h1, t1, x, e1, r1, b1, u1, hcase⟩ := remove_spec ho key r b hk hs
  rw [size_of i, i] at u1
  rcases hcase with ⟨hx, hno, hi⟩ | ⟨hkx, A, B, hi, hi'⟩
  · refine ⟨h1, u1.cmps, u1.next, Or.inl ⟨?_, ?_, ?_, ?_⟩⟩
    · intro e he
      have := hno e.1 (by rw [i]; exact List.mem_map_of_mem he)
      rwa [kfOf_mem (d e he)] at this
    · unfold erase
      simp [e1, hx, delNode]
    · exact ⟨t1, r1, b1, hi.trans i, fun e he => by rw [u1.data]; exact d e he⟩
    · exact ⟨fun x hx _ => ⟨u1.node x hx, by rw [u1.data]⟩, fun _ h1 h2 => absurd h1 h2,
        fun _ h1 h2 => absurd h1 h2, w.upd u1, Nat.le_of_eq u1.next.symm⟩
  · rw [i] at hi
    obtain ⟨A, C, rfl, rfl, hC⟩ := List.map_eq_append_iff.1 hi
    obtain ⟨e, B, rfl, rfl, rfl⟩ := List.map_eq_cons_iff.1 hC
    have hx0 : e.1 ≠ 0 := fun e0 => o0.zero_not (by rw [← e0]; simp [cells])
    have hlive : (h1.node e.1).isSome := by rw [u1.live]; exact o0.cells_live (by simp [cells])
    have hnd := o0.cells_nodup
    have hnm : e.1 ∉ cells hd (A ++ B) := by
      simp only [cells, List.map_append, List.map_cons, List.nodup_cons, List.mem_append, List.mem_cons, not_or,
        List.nodup_append] at hnd ⊢
      refine ⟨fun q => hnd.1.2.1 q.symm, fun q => hnd.2.2.2 e.1 q e.1 (Or.inl rfl) rfl, hnd.2.2.1.1⟩
    have hsub : ∀ x, x ∈ cells hd (A ++ B) → x ∈ cells hd (A ++ e :: B) := by
      intro x hx
      simp only [cells, List.map_append, List.map_cons, List.mem_append, List.mem_cons] at hx ⊢; grind
    have hsub' : ∀ x, x ∈ cells hd (A ++ e :: B) → x ≠ e.1 → x ∈ cells hd (A ++ B) := by
      intro x hx hne
      simp only [cells, List.map_append, List.map_cons, List.mem_append, List.mem_cons] at hx ⊢; grind
    rw [kfOf_mem (d e (by simp))] at hkx
    refine ⟨h1.free e.1, u1.cmps, u1.next, Or.inr ⟨A, e, B, rfl, hkx, ?_, ?_, ?_, ?_, ?_, ?_, ?_⟩⟩
    · unfold erase
      obtain ⟨m, hm⟩ := Option.isSome_iff_exists.1 hlive
      simp [e1, hx0, delNode, hm]
    · refine Owns.congr (h := h1) ⟨t1, r1, b1, by rw [hi', List.map_append], ?_⟩ ?_
      · intro y hy; rw [u1.data]; exact d y (by simp at hy ⊢; grind)
      · intro y hy
        have : y ≠ e.1 := fun q => hnm (q ▸ hy)
        simp [Heap.free, this]
    · intro x hx hx'
      have : x ≠ e.1 := by rintro rfl; exact hx (by simp [cells])
      simp only [Heap.free, if_neg this]
      exact ⟨u1.node x hx, by rw [u1.data]⟩
    · intro x hx hx'; exact absurd (hsub x hx) hx'
    · intro x hx hx'
      by_cases hxe : x = e.1
      · subst hxe; simp [Heap.free]
      · exact absurd (hsub' x hx hxe) hx'
    · have w1 := w.upd u1
      refine ⟨w1.pos, fun x hx => ?_⟩
      simp only [Heap.free]
      split
      · simp
      · exact w1.unused x hx
    · exact Nat.le_of_eq u1.next.symm

end

/-- `clear()`. -/
theorem clear_owns {h : Heap V} {hd : Addr} {es : List (Addr × V)} (w : Wf h) (o : Owns h hd es) :
    ∃ h', clear hd h = .ok ((), h') ∧ Owns h' hd [] ∧ Effect (cells hd es) (cells hd ([] : List (Addr × V))) h h' ∧
      h'.next = h.next ∧ h'.cmps = h.cmps ∧ h'.data hd = h.data hd := by
  have o0 := o
  obtain ⟨t, r, b, i, d⟩ := o
  obtain ⟨h', e, r', f⟩ := clear_spec r
  rw [i] at f
  refine ⟨h', e, ⟨leaf, r', ⟨rfl, 0, rfl⟩, rfl, by simp⟩, ⟨?_, ?_, ?_, ?_, ?_⟩, f.next, f.cmps, ?_⟩
  · intro x hx hx'
    simp only [cells, List.mem_cons, not_or] at hx
    have := f.kept x hx.2
    rw [setNode_node_ne _ _ hx.1] at this
    exact this
  · intro x hx hx'
    exfalso; apply hx'
    simp only [cells, List.map_nil, List.mem_cons, List.not_mem_nil, or_false] at hx ⊢
    exact Or.inl hx
  · intro x hx hx'
    simp only [cells, List.map_nil, List.mem_cons, List.not_mem_nil, or_false] at hx hx'
    exact f.gone x (hx.resolve_left hx')
  · refine ⟨by rw [f.next]; exact w.pos, fun x hx => ?_⟩
    rw [f.next] at hx
    by_cases hm : x ∈ es.map Prod.fst
    · exact f.gone x hm
    · have hne : x ≠ hd := by
        rintro rfl
        exact Nat.lt_irrefl _ (Nat.lt_of_lt_of_le (o0.lt w (by simp [cells])) hx)
      have := f.kept x hm
      rw [setNode_node_ne _ _ hne] at this
      rw [this.1, this.2]
      exact w.unused x hx
  · rw [f.next]; exact Nat.le_refl _
  · exact (f.kept hd (by rw [← i]; exact r.hd_not)).2

/-- A default-constructed container. -/
theorem newTree_owns {h : Heap V} (w : Wf h) :
    ∃ h', newTree h = .ok (h.next, h') ∧ Owns h' h.next [] ∧
      Effect [] (cells h.next ([] : List (Addr × V))) h h' ∧ h'.next = h.next + 1 ∧ h'.cmps = h.cmps := by
  refine ⟨_, rfl, ⟨leaf, ⟨trivial, by simp, Nat.ne_of_gt w.pos, by simp, by simp⟩, ⟨rfl, 0, rfl⟩, rfl, by simp⟩,
    ⟨?_, ?_, by simp, ⟨Nat.succ_pos _, ?_⟩, Nat.le_succ _⟩, rfl, rfl⟩
  · intro x _ hx
    simp only [cells, List.map_nil, List.mem_cons, List.not_mem_nil, or_false] at hx
    simp [hx]
  · intro x hx _
    simp only [cells, List.map_nil, List.mem_cons, List.not_mem_nil, or_false] at hx
    rw [hx]; exact Nat.le_refl _
  · intro x hx
    have hx' : h.next + 1 ≤ x := hx
    have : x ≠ h.next := Nat.ne_of_gt hx'
    simp only [if_neg this]
    exact w.unused x (Nat.le_of_succ_le hx')

theorem map_data_some {h : Heap V} {es : List (Addr × V)} (d : ∀ e ∈ es, h.data e.1 = some e.2) :
    (es.map Prod.fst).map h.data = es.map fun e => some e.2 := by
  rw [List.map_map]; exact List.map_congr_left d

/-- `assign` into an empty container. -/
theorem assign_owns {h : Heap V} {hd other : Addr} {es : List (Addr × V)} (w : Wf h)
    (o : Owns h hd []) (oo : Owns h other es) :
    ∃ h' es', assign hd other h = .ok ((), h') ∧ Owns h' hd es' ∧ es'.map Prod.snd = es.map Prod.snd ∧
      Effect (cells hd ([] : List (Addr × V))) (cells hd es') h h' ∧ h'.cmps = h.cmps := by
  obtain ⟨t0, r0, b0, i0, _⟩ := o
  have : t0 = leaf := by
    cases t0 with
    | leaf => rfl
    | node a c l r => simp at i0
  subst this
  have hlt := fun x hx => oo.lt w (x := x) hx
  have oo' := oo
  obtain ⟨t, r, b, i, d⟩ := oo
  have hroot0 := root_of_zip r0
  have hroot := root_of_zip r
  have hhd : h.node hd = some ⟨0, 0, 0, RED⟩ := r0.header
  have hdlt : hd < h.next := w.lt (by rw [hhd]; rfl)
  by_cases ht : t = leaf
  · subst ht
    have hes : es = [] := by cases es with
      | nil => rfl
      | cons e es => simp at i
    subst hes
    refine ⟨h, [], ?_, ⟨leaf, r0, b0, rfl, by simp⟩, rfl, ⟨fun _ _ _ => ⟨rfl, rfl⟩, fun _ h1 h2 => absurd h1 h2,
      fun _ h1 h2 => absurd h1 h2, w, Nat.le_refl _⟩, rfl⟩
    unfold assign
    simp only [Prog.bind_app, hroot0, hroot, Res.bind_ok, addr_leaf, ne_eq, not_true_eq_false, if_false,
      Prog.ite_app, Prog.pure_app]
  · obtain ⟨h1, t', e1, ⟨q, r1⟩, C⟩ := preorderCopy_spec r.rep r.nodup
      (fun x hx => by
        rw [i, List.mem_map] at hx
        obtain ⟨e, he, rfl⟩ := hx
        rw [d e he]; rfl)
      (fun x hx => hlt x (by rw [i] at hx; simp only [cells, List.mem_cons]; exact Or.inr hx)) w.pos ht
    have ht' : t' ≠ leaf := fun e => ht (C.shape.leaf_iff.2 e)
    have hdn : hd ∉ t'.inorder := fun hm => Nat.lt_irrefl _ (Nat.lt_of_lt_of_le hdlt ((C.range hd).1 hm).1)
    have hhd1 : h1.node hd = some ⟨0, 0, 0, RED⟩ := (C.old hd hdn).1.trans hhd
    cases t' with
    | leaf => exact absurd rfl ht'
    | node a c l rr =>
      obtain ⟨g1, g2, g3, g4⟩ := r1
      have hane : a ≠ hd := fun e => hdn (by simp [e])
      let h2 := h1.setNode hd ⟨a, 0, 0, RED⟩
      have hd2 : h2.node hd = some ⟨a, 0, 0, RED⟩ := by simp [h2]
      have ha2 : h2.node a = some ⟨q, l.addr, rr.addr, c⟩ := by rw [setNode_node_ne _ _ hane]; exact g1
      let h3 := h2.setNode a ⟨hd, l.addr, rr.addr, c⟩
      let es' := (Tree.node a c l rr).inorder.zip (es.map Prod.snd)
      have hdata : (Tree.node a c l rr).inorder.map h1.data = es.map fun e => some e.2 := by
        rw [C.data, i]; exact map_data_some d
      have hlen : (Tree.node a c l rr).inorder.length = (es.map Prod.snd).length := by
        have := congrArg List.length hdata
        simpa using this
      have hf : es'.map Prod.fst = (Tree.node a c l rr).inorder := by
        rw [List.map_fst_zip]; exact Nat.le_of_eq hlen
      have hs : es'.map Prod.snd = es.map Prod.snd := by
        rw [List.map_snd_zip]; exact Nat.le_of_eq hlen.symm
      have hda : ∀ e ∈ es', h1.data e.1 = some e.2 := by
        have : es'.map (fun e => h1.data e.1) = es'.map (fun e => some e.2) := by
          have e1 : es'.map (fun e => h1.data e.1) = (es'.map Prod.fst).map h1.data := by rw [List.map_map]; rfl
          have e2 : es'.map (fun e => some e.2) = (es'.map Prod.snd).map some := by rw [List.map_map]; rfl
          rw [e1, e2, hf, hs, hdata, List.map_map]; rfl
        intro e he
        exact List.map_inj_left.1 this e he
      refine ⟨h3, es', ?_, ⟨.node a c l rr, ⟨?_, ?_, r0.hd_ne, hdn, C.nodup⟩, C.shape.balanced b, hf.symm, ?_⟩, hs,
        ⟨?_, ?_, ?_, ?_, ?_⟩, C.cmps⟩
      · unfold assign
        simp only [Prog.bind_app, hroot0, Res.bind_ok, addr_leaf, ne_eq, not_true_eq_false, if_false,
          Prog.ite_app, Prog.pure_app]
        rw [hroot]
        simp only [Res.bind_ok]
        rw [if_pos (fun e => ht (r.rep.addr_eq_zero.1 e)), e1]
        simp only [Res.bind_ok, wrE, setParent, addr_node]
        rw [upd_eq _ hhd1]
        simp only [Res.bind_ok, rdE, Prog.bind_app, Prog.pure_app]
        rw [nd_eq hd2]
        simp only [Res.bind_ok]
        rw [upd_eq _ ha2]
      · refine Rep.reparent (h := h1) (p := q) ⟨g1, g2, g3, g4⟩ C.nodup ?_ ?_
        · rintro a' c' l' r' e
          simp only [Tree.node.injEq] at e
          obtain ⟨rfl, rfl, rfl, rfl⟩ := e
          simp [h3]
        · intro x hx hxa
          simp only [addr_node] at hxa
          rw [setNode_node_ne _ _ hxa, setNode_node_ne _ _ (fun e => hdn (by rw [← e]; exact hx))]
      · rw [setNode_node_ne _ _ hane.symm]; exact hd2
      · intro e he; exact hda e he
      · intro x hx hx'
        simp only [cells, List.mem_cons, not_or, hf] at hx'
        have hxa : x ≠ a := fun e => hx'.2 (by simp [e])
        rw [setNode_node_ne _ _ hxa, setNode_node_ne _ _ hx'.1]
        exact C.old x hx'.2
      · intro x hx hx'
        simp only [cells, List.map_nil, List.mem_cons, List.not_mem_nil, or_false] at hx'
        simp only [cells, List.mem_cons, hf, hx', false_or] at hx
        exact ((C.range x).1 (by simpa using hx)).1
      · intro x hx hx'
        simp only [cells, List.map_nil, List.mem_cons, List.not_mem_nil, or_false] at hx
        exact absurd (by simp [cells, hx]) hx'
      · refine ⟨Nat.lt_of_lt_of_le w.pos C.le, fun x hx => ?_⟩
        have hx1 : h1.next ≤ x := hx
        have hxn : x ∉ (Tree.node a c l rr).inorder := fun hm =>
          Nat.lt_irrefl _ (Nat.lt_of_lt_of_le ((C.range x).1 hm).2 hx1)
        have hxa : x ≠ a := fun e => hxn (by simp [e])
        have hxd : x ≠ hd := fun e =>
          Nat.lt_irrefl _ (Nat.lt_of_lt_of_le (Nat.lt_of_lt_of_le hdlt C.le) (e ▸ hx1))
        rw [setNode_node_ne _ _ hxa, setNode_node_ne _ _ hxd]
        have := C.old x hxn
        rw [this.1]
        refine ⟨(w.unused x (Nat.le_trans C.le hx1)).1, ?_⟩
        exact this.2.trans (w.unused x (Nat.le_trans C.le hx1)).2
      · exact C.le

end Verif.Rb
