import Verif.Exc.RbErase
/-!
# Copying containers and exceptions
-/
set_option linter.unusedVariables false
set_option linter.unusedSimpArgs false
set_option linter.unusedSectionVars false
set_option linter.constructorNameAsVariable false
namespace Verif.Exc.XRb
open Verif Verif.Rb Verif.Exc Tree Lean.Order
variable {K V : Type} {α β σ : Type} {f : Bool}

theorem mem_made {a k x : Nat} : x ∈ List.range' a k ↔ a ≤ x ∧ x < a + k := by simp [List.mem_range'_1]

/-- The nodes made by an interrupted copy. -/
theorem Grew.effect {h t : Heap V} (w : Wf h) (g : Grew h t) {k : Nat} (e : t.next = h.next + k) : Effect [] (List.range' h.next k) h t := by
  refine ⟨fun x _ hx => ?_, fun x hx _ => (mem_made.1 hx).1, fun x hx => by simp at hx, ⟨Nat.lt_of_lt_of_le w.pos g.next, fun x hx => ?_⟩, g.next⟩
  · by_cases l : x < h.next
    · exact g.old x l
    · have l := Nat.le_of_not_lt l
      have l2 : t.next ≤ x := Nat.le_of_not_lt fun q => hx (mem_made.2 ⟨l, by rw [← e]; exact q⟩)
      have u := w.unused x l
      have := g.none x l2 l u.1 u.2
      rw [this.1, this.2, u.1, u.2]; exact ⟨rfl, rfl⟩
  · have u := w.unused x (Nat.le_trans g.next hx)
    exact g.none x hx (Nat.le_trans g.next hx) u.1 u.2

theorem Grew.live {h t : Heap V} (g : Grew h t) {k : Nat} (e : t.next = h.next + k) : ∀ x ∈ List.range' h.next k, (t.node x).isSome := fun x hx => by
  have := mem_made.1 hx
  exact g.made x this.1 (by rw [e]; exact this.2)

/-- A copy of a tree passes one point for every element. -/
theorem preorderCopy_points {h : Heap V} {t : Tree} {p : Addr} (hr : Rep h t p) (hnd : t.inorder.Nodup)
    (hd : ∀ x ∈ t.inorder, (h.data x).isSome) (hlt : ∀ x ∈ t.inorder, x < h.next) (h0 : 0 < h.next) (ht : t ≠ leaf) :
    ∃ a h', Rb.preorderCopy t.addr h = .ok (a, h') ∧
      Points (preorderCopy t.addr) h t.inorder.length a h' fun k u => Grew h u ∧ u.next = h.next + k := by
  obtain ⟨h', t', e, q, C⟩ := preorderCopy_spec hr hnd hd hlt h0 ht
  refine ⟨t'.addr, h', e, ?_⟩
  obtain ⟨n, X⟩ := (covers_preorderCopy t.addr).out _ _ _ e
  have G := preorderCopy_grows t.addr h h
  have l1 : h'.next = h.next + n := (G.out _ _ _ (.refl h) (X.returns 0)).2.1
  have l2 : t'.inorder.length = n := by
    have : t'.inorder.Perm (List.range' h.next n) := (List.perm_ext_iff_of_nodup C.nodup List.nodup_range').2 fun x => by
      rw [C.range, mem_made, l1]
    rw [this.length_eq, List.length_range']
  have l3 : t'.inorder.length = t.inorder.length := by
    have := congrArg List.length C.data
    simpa using this
  rw [← l3, l2]
  refine ⟨X.returns, fun k l => ?_⟩
  obtain ⟨u, e, _⟩ := X.throws k l
  have := G.out _ _ _ (.refl h) e
  exact ⟨u, e, this.1, this.2.1⟩

/-- `assign` into an empty container: one point for every element of the other container. -/
theorem assign_points {h : Heap V} {hd other : Addr} {es : List (Addr × V)} (w : Wf h) (o : Holds true h hd []) (oo : Holds f h other es) :
    ∃ h' es', Rb.assign hd other h = .ok ((), h') ∧ Holds f h' hd es' ∧ es'.map Prod.snd = es.map Prod.snd ∧
      Effect (cells hd ([] : List (Addr × V))) (cells hd es') h h' ∧
      Points (assign hd other) h es.length () h' fun k t => Grew h t ∧ t.next = h.next + k := by
  obtain ⟨h', es', e, o', v', ef, _⟩ := assign_holds w o oo
  refine ⟨h', es', e, o', v', ef, ?_⟩
  have hlt := fun x hx => oo.lt w (x := x) hx
  obtain ⟨t0, r0, b0, i0, _⟩ := o
  obtain ⟨t, r, b, i, d⟩ := oo
  have t0l : t0 = leaf := by
    cases t0 with
    | leaf => rfl
    | node a c l r => simp at i0
  subst t0l
  have e1 : rootOf hd h = .ok (0, h) := root_of_zip r0
  have e2 : rootOf other h = .ok (t.addr, h) := root_of_zip r
  simp only [Rb.assign, Prog.bind_app, e1, Res.bind_ok, ne_eq, not_true, if_false, Prog.ite_app, Prog.pure_app, e2] at e
  unfold assign
  refine Points.call_seq e1 ?_
  simp only [ne_eq, not_true, if_false]
  refine Points.call_seq e2 ?_
  have hlen : es.length = t.inorder.length := by rw [i]; simp
  rw [hlen]
  by_cases ht : t = leaf
  · subst ht
    simp only [addr_leaf, not_true, if_false] at e ⊢
    cases e
    exact Points.pure_
  · have ha : t.addr ≠ 0 := fun q => ht (r.rep.addr_eq_zero.1 q)
    obtain ⟨a, h1, e3, X⟩ := preorderCopy_points r.rep r.nodup (fun x hx => by
      rw [i] at hx
      obtain ⟨y, hy, rfl⟩ := List.mem_map.1 hx
      rw [d y hy]; rfl) (fun x hx => hlt x (by rw [i] at hx; simp only [cells, List.mem_cons]; exact .inr hx)) w.pos ht
    simp only [ha, not_false_eq_true, if_true, e3, Res.bind_ok] at e ⊢
    refine Points.seq (m := 0) X ?_
    cases q1 : wrE hd .root a h1 with
    | diverge => rw [q1] at e; cases e
    | ub f => rw [q1] at e; cases e
    | ok y1 =>
      rw [q1] at e
      simp only [Res.bind_ok] at e
      refine Points.call_seq (a := ()) (s' := y1.2) q1 ?_
      cases q2 : rdE hd .root y1.2 with
      | diverge => rw [q2] at e; cases e
      | ub f => rw [q2] at e; cases e
      | ok y2 =>
        rw [q2] at e
        simp only [Res.bind_ok] at e
        exact Points.call_seq (a := y2.1) (s' := y2.2) q2 (Points.call_ e)

/-- `operator=`: if it throws with the countdown `k`, the destination is empty and `k` nodes are lost. -/
theorem opAssign_points {h : Heap V} {hd other : Addr} {es es0 : List (Addr × V)} (w : Wf h)
    {g : Bool} (o : Holds g h hd es0) (oo : Holds f h other es) (hdis : ∀ x ∈ cells other es, x ∉ cells hd es0) :
    ∃ h' es', Rb.opAssign hd other h = .ok ((), h') ∧ Holds f h' hd es' ∧ es'.map Prod.snd = es.map Prod.snd ∧
      Effect (cells hd es0) (cells hd es') h h' ∧
      Points (opAssign hd other) h es.length () h' fun k t => Holds true t hd [] ∧
        Effect (cells hd es0) (cells hd ([] : List (Addr × V)) ++ List.range' h.next k) h t ∧ ∀ x ∈ List.range' h.next k, (t.node x).isSome := by
  obtain ⟨h1, e1, o1, f1, n1, c1, _⟩ := clear_holds w o
  have oo1 : Holds f h1 other es := oo.frame w f1 hdis
  obtain ⟨h2, es', e2, o2, s2, f2, X⟩ := assign_points f1.wf o1 oo1
  refine ⟨h2, es', ?_, o2, s2, f1.trans w f2, ?_⟩
  · unfold Rb.opAssign
    simp only [Prog.bind_app, e1, Res.bind_ok, e2]
  · refine Points.call_seq (a := ()) (s' := h1) e1 (X.imp fun k t l ⟨gr, nx⟩ => ?_)
    have ef := gr.effect f1.wf nx
    have lv := gr.live nx
    rw [n1] at ef lv
    have ho : Holds true t hd [] := o1.frame f1.wf ef (by simp)
    refine ⟨ho, ⟨?_, ?_, ?_, ef.wf, Nat.le_trans f1.next ef.next⟩, lv⟩
    · intro x hx hx'
      simp only [List.mem_append, not_or] at hx'
      have a1 := f1.frame x hx hx'.1
      have a2 := ef.frame x (by simp) hx'.2
      rw [a2.1, a2.2]; exact a1
    · intro x hx hx'
      rcases List.mem_append.1 hx with q | q
      · exact f1.fresh x q hx'
      · exact (mem_made.1 q).1
    · intro x hx hx'
      simp only [List.mem_append, not_or] at hx'
      have a1 := f1.freed x hx hx'.1
      have a2 := ef.frame x (by simp) hx'.2
      rw [a2.1, a2.2]; exact a1

/-- Copy construction: if it throws with the countdown `k`, the storage of the new object is free again and `k` nodes are lost. -/
theorem copyCtor_points {h : Heap V} {other : Addr} {es : List (Addr × V)} (w : Wf h) (oo : Holds f h other es) :
    ∃ h' es', Rb.copyCtor other h = .ok (h.next, h') ∧ Holds f h' h.next es' ∧ es'.map Prod.snd = es.map Prod.snd ∧
      Effect [] (cells h.next es') h h' ∧
      Points (copyCtor other) h es.length h.next h' fun k t =>
        Effect [] (List.range' (h.next + 1) k) h t ∧ ∀ x ∈ List.range' (h.next + 1) k, (t.node x).isSome := by
  obtain ⟨h1, e1, o1, f1, n1, c1⟩ := newTree_holds w
  have oo1 : Holds f h1 other es := oo.frame w f1 (by simp)
  obtain ⟨h2, es', e2, o2, s2, f2, X⟩ := assign_points f1.wf o1 oo1
  refine ⟨h2, es', ?_, o2, s2, f1.trans w f2, ?_⟩
  · unfold Rb.copyCtor
    simp only [Prog.bind_app, e1, Res.bind_ok, e2, Prog.pure_app]
  · refine Points.call_seq (a := h.next) (s' := h1) e1 (Points.seq (m := 0) (unwinding_points X fun k t l ⟨gr, nx⟩ => ?_) Points.pure_)
    have ef := gr.effect f1.wf nx
    have lv := gr.live nx
    rw [n1] at ef lv
    have ho : Holds true t h.next [] := o1.frame f1.wf ef (by simp)
    obtain ⟨t', e', ef'⟩ := destroy_holds ef.wf ho
    have nd : ∀ x ∈ List.range' (h.next + 1) k, x ∉ cells h.next ([] : List (Addr × V)) := by
      intro x hx q
      simp only [cells, List.map_nil, List.mem_cons, List.not_mem_nil, or_false] at q
      rw [q] at hx
      exact Nat.lt_irrefl _ (mem_made.1 hx).1
    refine ⟨t', e', ⟨?_, ?_, by simp, ef'.wf, Nat.le_trans f1.next (Nat.le_trans ef.next ef'.next)⟩, fun x hx => ?_⟩
    · intro x _ hx
      by_cases q : x ∈ cells h.next ([] : List (Addr × V))
      · have a := ef'.freed x q (by simp)
        simp only [cells, List.map_nil, List.mem_cons, List.not_mem_nil, or_false] at q
        have u := w.unused x (by rw [q]; exact Nat.le_refl _)
        rw [a.1, a.2, u.1, u.2]; exact ⟨rfl, rfl⟩
      · have a1 := f1.frame x (by simp) q
        have a2 := ef.frame x (by simp) hx
        have a3 := ef'.frame x q (by simp)
        rw [a3.1, a3.2, a2.1, a2.2]; exact a1
    · intro x hx _
      exact Nat.le_of_succ_le (mem_made.1 hx).1
    · rw [(ef'.frame x (nd x hx) (by simp)).1]; exact lv x hx

end Verif.Exc.XRb
