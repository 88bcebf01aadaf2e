import Verif.Rb.Walk
/-!
# Copying and destroying trees, on the heap
-/
set_option linter.unusedSimpArgs false
set_option linter.unusedSectionVars false
namespace Verif.Rb
open Verif Tree
variable {K V : Type}

/-- Equal trees up to the addresses. -/
def SameShape : Tree → Tree → Prop
  | .leaf, .leaf => True
  | .node _ c l r, .node _ c' l' r' => c = c' ∧ SameShape l l' ∧ SameShape r r'
  | _, _ => False

theorem SameShape.leaf_iff {t t' : Tree} (h : SameShape t t') : t = leaf ↔ t' = leaf := by
  cases t <;> cases t' <;> simp_all [SameShape]

theorem SameShape.red {t t' : Tree} (h : SameShape t t') : t'.red = t.red := by
  cases t <;> cases t' <;> simp_all [SameShape]

theorem SameShape.bal {t t' : Tree} {n : Nat} (h : SameShape t t') (hb : Bal t n) : Bal t' n := by
  induction t generalizing t' n with
  | leaf => cases t' <;> simp_all [SameShape]
  | node a c l r ihl ihr =>
    cases t' with
    | leaf => simp [SameShape] at h
    | node a' c' l' r' =>
      obtain ⟨rfl, hl, hr⟩ := h
      cases c
      · obtain ⟨m, rfl, b1, b2, b3⟩ := hb
        exact ⟨m, rfl, ihl hl b1, ihr hr b2, hr.red.trans b3⟩
      · obtain ⟨b1, b2, b3, b4⟩ := hb
        exact ⟨ihl hl b1, ihr hr b2, hl.red.trans b3, hr.red.trans b4⟩

theorem SameShape.balanced {t t' : Tree} (h : SameShape t t') (hb : Balanced t) : Balanced t' :=
  ⟨h.red.trans hb.1, hb.2.imp fun _ => h.bal⟩

/-- `h'` is `h` with a fresh copy `t'` of `t` added. -/
structure Copied (h h' : Heap V) (t t' : Tree) : Prop where
  shape : SameShape t t'
  data : t'.inorder.map h'.data = t.inorder.map h.data
  range : ∀ x, x ∈ t'.inorder ↔ h.next ≤ x ∧ x < h'.next
  nodup : t'.inorder.Nodup
  le : h.next ≤ h'.next
  old : ∀ x, x ∉ t'.inorder → h'.node x = h.node x ∧ h'.data x = h.data x
  cmps : h'.cmps = h.cmps

theorem map_data_congr {h h' : Heap V} {l : List Addr} (e : ∀ x ∈ l, h'.data x = h.data x) :
    l.map h'.data = l.map h.data := List.map_congr_left e

/-- The copy of one child: the shared part of the two halves of `preorder_copy`. -/
theorem copyKid (setKid : Addr → Addr → Prog (Heap V) Unit) (kid : RbNode → Addr) (put : Addr → RbNode → RbNode)
    (hset : ∀ a x, setKid a x = upd a (put x)) (hkp : ∀ x n, kid (put x n) = x)
    {h : Heap V} {l : Tree} {nc : Addr} {n : RbNode} (hnc : h.node nc = some n) (hlt : nc < h.next)
    (hl0 : l.addr = 0 ↔ l = leaf)
    (ih : l ≠ leaf → ∃ h' l', preorderCopy l.addr h = .ok (l'.addr, h') ∧ (∃ q, Rep h' l' q) ∧ Copied h h' l l') :
    ∃ h' l', (∀ {α : Type} (M : Heap V → Res α),
        (if l.addr ≠ 0 then
          (preorderCopy l.addr h).bind fun r4 => (setKid nc r4.1 r4.2).bind fun r5 =>
            (nd nc r5.2).bind fun r6 => (setParent (kid r6.1) nc r6.2).bind fun r7 => M r7.2
         else (setKid nc 0 h).bind fun r4 => M r4.2) = M h') ∧
      Rep h' l' nc ∧ SameShape l l' ∧ l'.inorder.map h'.data = l.inorder.map h.data ∧
      (∀ x, x ∈ l'.inorder ↔ h.next ≤ x ∧ x < h'.next) ∧ l'.inorder.Nodup ∧ h.next ≤ h'.next ∧
      h'.node nc = some (put l'.addr n) ∧
      (∀ x, x ∉ l'.inorder → h'.data x = h.data x) ∧
      (∀ x, x ∉ l'.inorder → x ≠ nc → h'.node x = h.node x) ∧ h'.cmps = h.cmps := by
  by_cases hl : l = leaf
  · subst hl
    refine ⟨h.setNode nc (put 0 n), leaf, ?_, trivial, trivial, rfl, ?_, by simp, Nat.le_refl _, by simp,
      fun _ _ => rfl, fun x _ hx => setNode_node_ne _ _ hx, rfl⟩
    · intro α M
      simp only [addr_leaf, ne_eq, not_true_eq_false, if_false, hset, upd_eq _ hnc, Res.bind_ok]
    · intro x
      simp only [inorder_leaf, List.not_mem_nil, false_iff, not_and]
      exact fun h1 h2 => absurd (Nat.lt_of_le_of_lt h1 h2) (Nat.lt_irrefl _)
  · obtain ⟨h1, l', e1, ⟨q, r1⟩, C⟩ := ih hl
    have hl' : l' ≠ leaf := fun e => hl (C.shape.leaf_iff.2 e)
    have hncn : nc ∉ l'.inorder := fun hm => Nat.lt_irrefl _ (Nat.lt_of_lt_of_le hlt ((C.range nc).1 hm).1)
    have hnc1 : h1.node nc = some n := (C.old nc hncn).1.trans hnc
    let h2 := h1.setNode nc (put l'.addr n)
    have hnc2 : h2.node nc = some (put l'.addr n) := by simp [h2]
    cases l' with
    | leaf => exact absurd rfl hl'
    | node b c bl br =>
      obtain ⟨g1, g2, g3, g4⟩ := r1
      have hbn : b ≠ nc := fun e => hncn (by simp [e])
      have hb2 : h2.node b = some ⟨q, bl.addr, br.addr, c⟩ := by
        rw [setNode_node_ne _ _ hbn]; exact g1
      let h3 := h2.setNode b ⟨nc, bl.addr, br.addr, c⟩
      refine ⟨h3, .node b c bl br, ?_, ?_, C.shape, ?_, C.range, C.nodup, C.le, ?_, ?_, ?_, C.cmps⟩
      · intro α M
        rw [if_pos (fun e => hl (hl0.1 e)), e1]
        simp only [Res.bind_ok, hset, upd_eq _ hnc1, addr_node]
        simp only [h2, addr_node] at hnc2 hb2
        rw [nd_eq hnc2]
        simp only [Res.bind_ok, hkp, setParent]
        rw [upd_eq _ hb2]
        simp [h3, h2]
      · refine Rep.reparent (h := h1) (p := q) ⟨g1, g2, g3, g4⟩ C.nodup ?_ ?_
        · rintro a c' l r e
          simp only [Tree.node.injEq] at e
          obtain ⟨rfl, rfl, rfl, rfl⟩ := e
          simp [h3]
        · intro x hx hne
          simp only [addr_node] at hne
          rw [setNode_node_ne _ _ hne, setNode_node_ne _ _ (fun e => hncn (by rw [← e]; exact hx))]
      · exact C.data
      · rw [setNode_node_ne _ _ hbn.symm]; exact hnc2
      · intro x hx; exact (C.old x hx).2
      · intro x hx hne
        rw [setNode_node_ne _ _ (fun e => hx (by simp [e])), setNode_node_ne _ _ hne]
        exact (C.old x hx).1

theorem preorderCopy_spec {h : Heap V} {t : Tree} {p : Addr} (hr : Rep h t p) (hnd : t.inorder.Nodup)
    (hd : ∀ x ∈ t.inorder, (h.data x).isSome) (hlt : ∀ x ∈ t.inorder, x < h.next) (h0 : 0 < h.next)
    (ht : t ≠ leaf) :
    ∃ h' t', preorderCopy t.addr h = .ok (t'.addr, h') ∧ (∃ q, Rep h' t' q) ∧ Copied h h' t t' := by
  induction t generalizing p h with
  | leaf => exact absurd rfl ht
  | node a c l r ihl ihr =>
    obtain ⟨h1, h2, h3, h4⟩ := hr
    obtain ⟨v, hv⟩ := Option.isSome_iff_exists.1 (hd a (by simp))
    have hal : a < h.next := hlt a (by simp)
    let nc := h.next
    let ha := (h.alloc v).setNode nc { h.junk nc with color := c }
    have hnca : (h.alloc v).node nc = some (h.junk nc) := by simp [Heap.alloc, nc]
    have hnc : ha.node nc = some { h.junk nc with color := c } := by simp [ha]
    have hna : ha.next = h.next + 1 := rfl
    have olda : ∀ x, x ≠ nc → ha.node x = h.node x := by
      intro x hx
      rw [setNode_node_ne _ _ hx]; simp only [Heap.alloc]; rw [if_neg hx]
    have oldd : ∀ x, x ≠ nc → ha.data x = h.data x := by
      intro x hx
      show (h.alloc v).data x = _
      simp only [Heap.alloc]; rw [if_neg hx]
    have hdnc : ha.data nc = some v := by simp [ha, Heap.setNode, Heap.alloc, nc]
    have ne_of_lt : ∀ x, x < h.next → x ≠ nc := fun x hx => Nat.ne_of_lt hx
    have memlt : ∀ x ∈ l.inorder ++ r.inorder, x < h.next := by
      intro x hx; apply hlt; simp only [inorder_node, List.mem_append, List.mem_cons] at hx ⊢; grind
    have la : Rep ha l a := h3.congr fun x hx => olda x (ne_of_lt x (memlt x (by simp [hx])))
    have ra : Rep ha r a := h4.congr fun x hx => olda x (ne_of_lt x (memlt x (by simp [hx])))
    have aa : ha.node a = some ⟨p, l.addr, r.addr, c⟩ := (olda a (ne_of_lt a hal)).trans h1
    obtain ⟨n1, n2, n3⟩ := List.nodup_append.1 hnd
    have n2' := (List.nodup_cons.1 n2).2
    have hltS : ∀ x, x < h.next → x < h.next + 1 := fun x hx => Nat.lt_succ_of_lt hx
    -- left child
    obtain ⟨hb, l', eb, lb, sb, db, rb, ndb, leb, ncb, odb, onb, cb⟩ :=
      copyKid (V := V) setLeft RbNode.left (fun x n => { n with left := x }) (fun _ _ => rfl) (fun _ _ => rfl)
        hnc (by rw [hna]; exact Nat.lt_succ_self _) la.addr_eq_zero
        (fun hl => ihl (h := ha) la n1 (fun x hx => by
            rw [oldd x (ne_of_lt x (memlt x (by simp [hx])))]; exact hd x (by simp [hx]))
          (fun x hx => by rw [hna]; exact hltS x (memlt x (by simp [hx]))) (by rw [hna]; exact Nat.succ_pos _) hl)
    rw [hna] at rb leb
    have fresh_l : ∀ x, x < h.next + 1 → x ∉ l'.inorder := fun x hx hm =>
      Nat.lt_irrefl _ (Nat.lt_of_lt_of_le hx ((rb x).1 hm).1)
    have oldb : ∀ x, x < h.next → hb.node x = h.node x := fun x hx =>
      (onb x (fresh_l x (hltS x hx)) (ne_of_lt x hx)).trans (olda x (ne_of_lt x hx))
    have olddb : ∀ x, x < h.next → hb.data x = h.data x := fun x hx =>
      (odb x (fresh_l x (hltS x hx))).trans (oldd x (ne_of_lt x hx))
    have rrb : Rep hb r a := h4.congr fun x hx => oldb x (memlt x (by simp [hx]))
    have ab : hb.node a = some ⟨p, l.addr, r.addr, c⟩ := (oldb a hal).trans h1
    have hnlt : h.next < hb.next := Nat.lt_of_lt_of_le (Nat.lt_succ_self _) leb
    -- right child
    obtain ⟨hc, r', ec, rc, sc, dc, rgc, ndc, lec, ncc, odc, onc, cc⟩ :=
      copyKid (V := V) setRight RbNode.right (fun x n => { n with right := x }) (fun _ _ => rfl) (fun _ _ => rfl)
        ncb hnlt rrb.addr_eq_zero
        (fun hl => ihr (h := hb) rrb n2' (fun x hx => by
            rw [olddb x (memlt x (by simp [hx]))]; exact hd x (by simp [hx]))
          (fun x hx => Nat.lt_trans (memlt x (by simp [hx])) hnlt) (Nat.lt_of_le_of_lt (Nat.zero_le _) hnlt) hl)
    have fresh_r : ∀ x, x < hb.next → x ∉ r'.inorder := fun x hx hm =>
      Nat.lt_irrefl _ (Nat.lt_of_lt_of_le hx ((rgc x).1 hm).1)
    have hnc0 : nc ≠ 0 := Nat.ne_of_gt h0
    have lc : Rep hc l' nc := lb.congr fun x hx =>
      onc x (fresh_r x ((rb x).1 hx).2) (fun e => Nat.lt_irrefl (h.next + 1) (by
        have := ((rb x).1 hx).1; rw [e] at this; exact absurd this (Nat.not_succ_le_self _)))
    have dvnc : hc.data nc = some v :=
      (odc nc (fresh_r nc hnlt)).trans ((odb nc (fresh_l nc (Nat.lt_succ_self _))).trans hdnc)
    refine ⟨hc, .node nc c l' r', ?_, ⟨(h.junk nc).parent, ncc, hnc0, lc, rc⟩, ?_⟩
    · rw [preorderCopy, if_neg (show (Tree.node a c l r).addr ≠ 0 from h2)]
      simp only [addr_node, Prog.bind_app, dataOf_eq hv, Res.bind_ok, newNode, Prog.ite_app, Prog.pure_app]
      have e1 : nd a (h.alloc v) = .ok (⟨p, l.addr, r.addr, c⟩, h.alloc v) := by
        apply nd_eq; simp only [Heap.alloc]; rw [if_neg (ne_of_lt a hal)]; exact h1
      rw [e1]
      simp only [Res.bind_ok, setColor]
      rw [upd_eq _ hnca]
      simp only [Res.bind_ok]
      rw [nd_eq aa]
      simp only [Res.bind_ok]
      have := eb (fun hh => (nd a hh).bind fun r_8 =>
                          if r_8.fst.right ≠ 0 then
                            (preorderCopy r_8.fst.right r_8.snd).bind fun r_9 =>
                              (setRight nc r_9.fst r_9.snd).bind fun r_10 =>
                                (nd nc r_10.snd).bind fun r_11 =>
                                  (setParent r_11.fst.right nc r_11.snd).bind fun r_12 => .ok (nc, r_12.snd)
                          else (setRight nc 0 r_8.snd).bind fun r_9 => .ok (nc, r_9.snd))
      refine this.trans ?_
      rw [nd_eq ab]
      simp only [Res.bind_ok]
      exact ec (fun hh => .ok (nc, hh))
    · refine ⟨⟨rfl, sb, sc⟩, ?_, ?_, ?_, ?_, ?_, cc.trans cb⟩
      · simp only [inorder_node, List.map_append, List.map_cons]
        rw [dvnc, hv, dc, map_data_congr (h := hb) (h' := hc) (l := l'.inorder), db,
          map_data_congr (h := h) (h' := ha) (l := l.inorder), map_data_congr (h := h) (h' := hb) (l := r.inorder)]
        · exact fun x hx => olddb x (memlt x (by simp [hx]))
        · exact fun x hx => oldd x (ne_of_lt x (memlt x (by simp [hx])))
        · exact fun x hx => odc x (fresh_r x ((rb x).1 hx).2)
      · intro x
        simp only [inorder_node, List.mem_append, List.mem_cons, rb, rgc]
        constructor
        · rintro (⟨q1, q2⟩ | rfl | ⟨q1, q2⟩)
          · exact ⟨Nat.le_of_succ_le q1, Nat.lt_of_lt_of_le q2 lec⟩
          · exact ⟨Nat.le_refl _, Nat.lt_of_lt_of_le hnlt lec⟩
          · exact ⟨Nat.le_trans (Nat.le_of_lt hnlt) q1, q2⟩
        · rintro ⟨q1, q2⟩
          rcases Nat.lt_or_ge x hb.next with q | q
          · rcases Nat.eq_or_lt_of_le q1 with e | e
            · exact Or.inr (Or.inl e.symm)
            · exact Or.inl ⟨e, q⟩
          · exact Or.inr (Or.inr ⟨q, q2⟩)
      · simp only [inorder_node]
        rw [List.nodup_append, List.nodup_cons]
        refine ⟨ndb, ⟨fresh_r nc hnlt, ndc⟩, ?_⟩
        intro x hx y hy e
        subst e
        simp only [List.mem_cons] at hy
        rcases hy with e | hy
        · exact fresh_l x (by rw [e]; exact Nat.lt_succ_self _) hx
        · exact fresh_r x ((rb x).1 hx).2 hy
      · exact Nat.le_trans (Nat.le_of_lt hnlt) lec
      · intro x hx
        simp only [inorder_node, List.mem_append, List.mem_cons, not_or] at hx
        exact ⟨(onc x hx.2.2 hx.2.1).trans ((onb x hx.1 hx.2.1).trans (olda x hx.2.1)),
          (odc x hx.2.2).trans ((odb x hx.1).trans (oldd x hx.2.1))⟩

/-- `h'` is `h` without the nodes in `S`. -/
structure Freed (S : List Addr) (h h' : Heap V) : Prop where
  gone : ∀ x ∈ S, h'.node x = none ∧ h'.data x = none
  kept : ∀ x, x ∉ S → h'.node x = h.node x ∧ h'.data x = h.data x
  next : h'.next = h.next
  junk : h'.junk = h.junk
  cmps : h'.cmps = h.cmps

theorem postorderDestroy_spec {h : Heap V} {t : Tree} {p : Addr} (hr : Rep h t p) (hnd : t.inorder.Nodup) :
    ∃ h', postorderDestroy t.addr h = .ok ((), h') ∧ Freed t.inorder h h' := by
  induction t generalizing p h with
  | leaf =>
    refine ⟨h, ?_, ⟨by simp, fun _ _ => ⟨rfl, rfl⟩, rfl, rfl, rfl⟩⟩
    rw [postorderDestroy]; simp
  | node a c l r ihl ihr =>
    obtain ⟨h1, h2, h3, h4⟩ := hr
    obtain ⟨n1, n2, n3⟩ := List.nodup_append.1 hnd
    obtain ⟨n4, n5⟩ := List.nodup_cons.1 n2
    have hal : a ∉ l.inorder := fun hm => n3 a hm a (by simp) rfl
    have hlr : ∀ x ∈ r.inorder, x ∉ l.inorder := fun x hx hm => n3 x hm x (by simp [hx]) rfl
    obtain ⟨g1, e1, f1⟩ := ihl h3 n1
    have a1 : g1.node a = some ⟨p, l.addr, r.addr, c⟩ := (f1.kept a hal).1.trans h1
    obtain ⟨g2, e2, f2⟩ := ihr (h := g1) (h4.congr fun x hx => (f1.kept x (hlr x hx)).1) n5
    have a2 : g2.node a = some ⟨p, l.addr, r.addr, c⟩ := (f2.kept a n4).1.trans a1
    refine ⟨g2.free a, ?_, ?_⟩
    · rw [postorderDestroy, if_neg (show (Tree.node a c l r).addr ≠ 0 from h2)]
      simp only [addr_node, Prog.bind_app, Prog.ite_app]
      rw [nd_eq h1]
      simp only [Res.bind_ok]
      have k1 : ∀ {α : Type} (M : Heap V → Res α), (if l.addr ≠ 0 then (postorderDestroy l.addr h).bind fun r => M r.2 else M h) = M g1 := by
        intro α M
        by_cases hl : l.addr = 0
        · have : l = leaf := h3.addr_eq_zero.1 hl
          subst this
          rw [postorderDestroy] at e1
          simp at e1
          simp [e1]
        · rw [if_pos hl, e1]; rfl
      have k2 : ∀ {α : Type} (M : Heap V → Res α), (if r.addr ≠ 0 then (postorderDestroy r.addr g1).bind fun r => M r.2 else M g1) = M g2 := by
        intro α M
        by_cases hl : r.addr = 0
        · have : r = leaf := h4.addr_eq_zero.1 hl
          subst this
          rw [postorderDestroy] at e2
          simp at e2
          simp [e2]
        · rw [if_pos hl, e2]; rfl
      refine (k1 (fun hh => (nd a hh).bind fun q => if q.1.right ≠ 0 then (postorderDestroy q.1.right q.2).bind fun r => delNode a r.2 else delNode a q.2)).trans ?_
      rw [nd_eq a1]
      refine (k2 (fun hh => delNode a hh)).trans ?_
      simp [delNode, h2, a2]
    · refine ⟨?_, ?_, f2.next.trans f1.next, f2.junk.trans f1.junk, f2.cmps.trans f1.cmps⟩
      · intro x hx
        by_cases hxa : x = a
        · subst hxa; simp [Heap.free]
        · simp only [Heap.free, if_neg hxa]
          simp only [inorder_node, List.mem_append, List.mem_cons, hxa, false_or] at hx
          by_cases hxr : x ∈ r.inorder
          · exact f2.gone x hxr
          · rcases hx with hx | hx
            · have := f1.gone x hx
              have := f2.kept x hxr
              grind
            · exact absurd hx hxr
      · intro x hx
        simp only [inorder_node, List.mem_append, List.mem_cons, not_or] at hx
        simp only [Heap.free, if_neg hx.2.1]
        have := f1.kept x hx.1
        have := f2.kept x hx.2.2
        grind

theorem clear_spec {h : Heap V} {hd : Addr} {t : Tree} (hr : RepTree h hd t) :
    ∃ h', clear hd h = .ok ((), h') ∧ RepTree h' hd leaf ∧ Freed t.inorder (h.setNode hd ⟨0, 0, 0, RED⟩) h' := by
  have hh := hr.header
  have r1 : Rep (h.setNode hd ⟨0, 0, 0, RED⟩) t hd := hr.rep.congr fun x hx =>
    setNode_node_ne _ _ fun e => hr.hd_not (e ▸ hx)
  obtain ⟨h', e, f⟩ := postorderDestroy_spec r1 hr.nodup
  refine ⟨h', ?_, ⟨trivial, ?_, hr.hd_ne, by simp, by simp⟩, f⟩
  · unfold clear rootOf wrE setParent
    simp only [Prog.bind_app, nd_eq hh, Res.bind_ok, Prog.pure_app, upd_eq _ hh]
    exact e
  · exact (f.kept hd hr.hd_not).1.trans (by simp)

end Verif.Rb
