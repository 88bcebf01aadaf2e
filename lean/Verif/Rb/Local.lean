import Verif.Rb.Tree
/-! # The local rebalancing functions refine their pure counterparts -/
set_option linter.unusedSimpArgs false
namespace Verif.Rb
open Verif Tree
variable {V : Type}

theorem setNode_setNode (h : Heap V) (a : Addr) (n m : RbNode) :
    (h.setNode a n).setNode a m = h.setNode a m := by
  unfold Heap.setNode
  congr 1
  funext x
  by_cases hx : x = a <;> simp [hx]

theorem ne_of_mem {x a : Addr} {l : List Addr} (hx : x ∈ l) (ha : a ∉ l) : x ≠ a := fun e => ha (e ▸ hx)

theorem rotateLeft_spec {h : Heap V} {a c l b cb m r p}
    (hr : Rep h (.node a c l (.node b cb m r)) p)
    (hnd : (Tree.node a c l (.node b cb m r)).inorder.Nodup) :
    ∃ h', rotateLeft a h = .ok (b, h') ∧ Rep h' (.node b c (.node a RED l m) r) p ∧
      Upd (Tree.node a c l (.node b cb m r)).inorder h h' := by
  obtain ⟨ha, ha0, hl, hb, hb0, hm, hrr⟩ := hr
  simp only [inorder_node, List.nodup_append, List.nodup_cons, List.mem_append, List.mem_cons,
    not_or] at hnd
  obtain ⟨ndl, ⟨⟨a_m, ab, a_r⟩, ndm, ⟨b_r, ndr⟩, m_b⟩, l_⟩ := hnd
  have a_l : a ∉ l.inorder := fun hx => l_ a hx a (Or.inl rfl) rfl
  have b_l : b ∉ l.inorder := fun hx => l_ b hx b (by simp) rfl
  have b_m : b ∉ m.inorder := fun hx => m_b b hx b (by simp) rfl
  have ba : b ≠ a := fun e => ab e.symm
  cases m with
  | leaf =>
    refine ⟨(h.setNode a ⟨b, l.addr, 0, RED⟩).setNode b ⟨p, a, r.addr, c⟩, ?_, ?_, ?_⟩
    · simp only [rotateLeft, setRight, setLeft, setColor, setParent, Prog.bind_app, nd_eq ha, nd_eq hb, Res.bind_ok,
        upd_eq _ ha, addr_node, addr_leaf]
      simp [nd, upd, setNode_node, ab, ba, ha, hb]
      unfold Heap.setNode
      congr 2
      funext x
      by_cases h1 : x = a <;> by_cases h2 : x = b <;> simp_all
    · refine ⟨by simp, hb0, ⟨by simp [setNode_node, ab], ha0, ?_, trivial⟩, ?_⟩
      · exact hl.congr fun x hx => by
          rw [setNode_node_ne _ _ (ne_of_mem hx b_l), setNode_node_ne _ _ (ne_of_mem hx a_l)]
      · exact hrr.congr fun x hx => by
          rw [setNode_node_ne _ _ (ne_of_mem hx b_r), setNode_node_ne _ _ (ne_of_mem hx a_r)]
    · exact (Upd.setNode _ ha (by simp)).trans (Upd.setNode (n := ⟨a, 0, r.addr, cb⟩) _
        (by rw [setNode_node_ne _ _ ba]; exact hb) (by simp))
  | node d cd ml mr =>
    obtain ⟨hd, hd0, hml, hmr⟩ := hm
    have ad : a ≠ d := fun e => a_m (by simp [e])
    have da : d ≠ a := fun e => ad e.symm
    have bd : b ≠ d := fun e => b_m (by simp [e])
    have db : d ≠ b := fun e => bd e.symm
    have d_l : d ∉ l.inorder := fun hx => l_ d hx d (by simp) rfl
    have d_r : d ∉ r.inorder := fun hx => m_b d (by simp) d (by simp [hx]) rfl
    refine ⟨((h.setNode d ⟨a, ml.addr, mr.addr, cd⟩).setNode a ⟨b, l.addr, d, RED⟩).setNode b ⟨p, a, r.addr, c⟩,
      ?_, ?_, ?_⟩
    · simp only [rotateLeft, setRight, setLeft, setColor, setParent, Prog.bind_app, nd_eq ha, nd_eq hb, Res.bind_ok,
        upd_eq _ ha, addr_node, addr_leaf]
      simp [nd, upd, setNode_node, ab, ba, ha, hb, hd, hd0, ad, da, bd, db]
      unfold Heap.setNode
      congr 2
      funext x
      by_cases h1 : x = a <;> by_cases h2 : x = b <;> by_cases h3 : x = d <;> simp_all
    · have key : ∀ x, x ≠ a → x ≠ b → x ≠ d →
          (((h.setNode d ⟨a, ml.addr, mr.addr, cd⟩).setNode a ⟨b, l.addr, d, RED⟩).setNode b
            ⟨p, a, r.addr, c⟩).node x = h.node x := by
        intro x h1 h2 h3
        rw [setNode_node_ne _ _ h2, setNode_node_ne _ _ h1, setNode_node_ne _ _ h3]
      have ndm' := ndm
      simp only [inorder_node, List.nodup_append, List.nodup_cons, List.mem_cons] at ndm'
      refine ⟨by simp, hb0, ⟨by simp [setNode_node, ab], ha0, ?_, ?_⟩, ?_⟩
      · exact hl.congr fun x hx => key x (ne_of_mem hx a_l) (ne_of_mem hx b_l) (ne_of_mem hx d_l)
      · refine ⟨by simp [setNode_node, da, db], hd0, ?_, ?_⟩
        · exact hml.congr fun x hx => key x (ne_of_mem (by simp [hx]) a_m) (ne_of_mem (by simp [hx]) b_m)
            (fun e => ndm'.2.2 x hx d (by simp) e)
        · exact hmr.congr fun x hx => key x (ne_of_mem (by simp [hx]) a_m) (ne_of_mem (by simp [hx]) b_m)
            (ne_of_mem hx ndm'.2.1.1)
      · exact hrr.congr fun x hx => key x (ne_of_mem hx a_r) (ne_of_mem hx b_r) (ne_of_mem hx d_r)
    · exact ((Upd.setNode _ hd (by simp)).trans (Upd.setNode (n := ⟨p, l.addr, b, c⟩) _
        (by rw [setNode_node_ne _ _ ad]; exact ha) (by simp))).trans (Upd.setNode (n := ⟨a, d, r.addr, cb⟩) _
        (by rw [setNode_node_ne _ _ ba, setNode_node_ne _ _ bd]; exact hb) (by simp))

theorem rotateRight_spec {h : Heap V} {b c a ca l m r p}
    (hr : Rep h (.node b c (.node a ca l m) r) p)
    (hnd : (Tree.node b c (.node a ca l m) r).inorder.Nodup) :
    ∃ h', rotateRight b h = .ok (a, h') ∧ Rep h' (.node a c l (.node b RED m r)) p ∧
      Upd (Tree.node b c (.node a ca l m) r).inorder h h' := by
  obtain ⟨hb, hb0, ⟨ha, ha0, hl, hm⟩, hrr⟩ := hr
  simp only [inorder_node, List.nodup_append, List.nodup_cons, List.mem_append, List.mem_cons,
    not_or] at hnd
  obtain ⟨⟨ndl, ⟨a_m, ndm⟩, l_⟩, ⟨b_r, ndr⟩, q⟩ := hnd
  have a_l : a ∉ l.inorder := fun hx => l_ a hx a (Or.inl rfl) rfl
  have b_l : b ∉ l.inorder := fun hx => q b (by simp [hx]) b (by simp) rfl
  have b_m : b ∉ m.inorder := fun hx => q b (by simp [hx]) b (by simp) rfl
  have a_r : a ∉ r.inorder := fun hx => q a (by simp) a (by simp [hx]) rfl
  have ab : a ≠ b := q a (by simp) b (by simp)
  have ba : b ≠ a := fun e => ab e.symm
  cases m with
  | leaf =>
    refine ⟨(h.setNode b ⟨a, 0, r.addr, RED⟩).setNode a ⟨p, l.addr, b, c⟩, ?_, ?_, ?_⟩
    · simp only [rotateRight, setRight, setLeft, setColor, setParent, Prog.bind_app, nd_eq ha, nd_eq hb, Res.bind_ok,
        upd_eq _ hb, addr_node, addr_leaf]
      simp [nd, upd, setNode_node, ab, ba, ha, hb]
      unfold Heap.setNode
      congr 2
      funext x
      by_cases h1 : x = a <;> by_cases h2 : x = b <;> simp_all
    · refine ⟨by simp, ha0, ?_, ⟨by simp [setNode_node, ba], hb0, trivial, ?_⟩⟩
      · exact hl.congr fun x hx => by
          rw [setNode_node_ne _ _ (ne_of_mem hx a_l), setNode_node_ne _ _ (ne_of_mem hx b_l)]
      · exact hrr.congr fun x hx => by
          rw [setNode_node_ne _ _ (ne_of_mem hx a_r), setNode_node_ne _ _ (ne_of_mem hx b_r)]
    · exact (Upd.setNode _ hb (by simp)).trans (Upd.setNode (n := ⟨b, l.addr, 0, ca⟩) _
        (by rw [setNode_node_ne _ _ ab]; exact ha) (by simp))
  | node d cd ml mr =>
    obtain ⟨hd, hd0, hml, hmr⟩ := hm
    have ad : a ≠ d := fun e => a_m (by simp [e])
    have da : d ≠ a := fun e => ad e.symm
    have bd : b ≠ d := fun e => b_m (by simp [e])
    have db : d ≠ b := fun e => bd e.symm
    have d_l : d ∉ l.inorder := fun hx => l_ d hx d (by simp) rfl
    have d_r : d ∉ r.inorder := fun hx => q d (by simp) d (by simp [hx]) rfl
    refine ⟨((h.setNode d ⟨b, ml.addr, mr.addr, cd⟩).setNode b ⟨a, d, r.addr, RED⟩).setNode a ⟨p, l.addr, b, c⟩,
      ?_, ?_, ?_⟩
    · simp only [rotateRight, setRight, setLeft, setColor, setParent, Prog.bind_app, nd_eq ha, nd_eq hb, Res.bind_ok,
        upd_eq _ hb, addr_node, addr_leaf]
      simp [nd, upd, setNode_node, ab, ba, ha, hb, hd, hd0, ad, da, bd, db]
      unfold Heap.setNode
      congr 2
      funext x
      by_cases h1 : x = a <;> by_cases h2 : x = b <;> by_cases h3 : x = d <;> simp_all
    · have key : ∀ x, x ≠ a → x ≠ b → x ≠ d →
          (((h.setNode d ⟨b, ml.addr, mr.addr, cd⟩).setNode b ⟨a, d, r.addr, RED⟩).setNode a
            ⟨p, l.addr, b, c⟩).node x = h.node x := by
        intro x h1 h2 h3
        rw [setNode_node_ne _ _ h1, setNode_node_ne _ _ h2, setNode_node_ne _ _ h3]
      have ndm' := ndm
      simp only [inorder_node, List.nodup_append, List.nodup_cons, List.mem_cons] at ndm'
      refine ⟨by simp, ha0, ?_, ⟨by simp [setNode_node, ba], hb0, ?_, ?_⟩⟩
      · exact hl.congr fun x hx => key x (ne_of_mem hx a_l) (ne_of_mem hx b_l) (ne_of_mem hx d_l)
      · refine ⟨by simp [setNode_node, da, db], hd0, ?_, ?_⟩
        · exact hml.congr fun x hx => key x (ne_of_mem (by simp [hx]) a_m) (ne_of_mem (by simp [hx]) b_m)
            (fun e => ndm'.2.2 x hx d (by simp) e)
        · exact hmr.congr fun x hx => key x (ne_of_mem (by simp [hx]) a_m) (ne_of_mem (by simp [hx]) b_m)
            (ne_of_mem hx ndm'.2.1.1)
      · exact hrr.congr fun x hx => key x (ne_of_mem hx a_r) (ne_of_mem hx b_r) (ne_of_mem hx d_r)
    · exact ((Upd.setNode _ hd (by simp)).trans (Upd.setNode (n := ⟨p, a, r.addr, c⟩) _
        (by rw [setNode_node_ne _ _ bd]; exact hb) (by simp))).trans (Upd.setNode (n := ⟨b, l.addr, d, ca⟩) _
        (by rw [setNode_node_ne _ _ ab, setNode_node_ne _ _ ad]; exact ha) (by simp))

theorem flipColors_spec {h : Heap V} {a c b cb l1 r1 d cd l2 r2 p}
    (hr : Rep h (.node a c (.node b cb l1 r1) (.node d cd l2 r2)) p)
    (hnd : (Tree.node a c (.node b cb l1 r1) (.node d cd l2 r2)).inorder.Nodup) :
    ∃ h', flipColors a h = .ok ((), h') ∧
      Rep h' (.node a (!c) (.node b (!cb) l1 r1) (.node d (!cd) l2 r2)) p ∧
      Upd (Tree.node a c (.node b cb l1 r1) (.node d cd l2 r2)).inorder h h' := by
  obtain ⟨ha, ha0, ⟨hb, hb0, hl1, hr1⟩, ⟨hd, hd0, hl2, hr2⟩⟩ := hr
  simp only [inorder_node, List.nodup_append, List.nodup_cons, List.mem_append, List.mem_cons,
    not_or] at hnd
  obtain ⟨⟨n1, ⟨b_r1, n2⟩, n3⟩, ⟨⟨a_l2, ad, a_r2⟩, n4, ⟨d_r2, n5⟩, n6⟩, q⟩ := hnd
  have ab : a ≠ b := fun e => q b (by simp) a (by simp) e.symm
  have bd : b ≠ d := q b (by simp) d (by simp)
  have ba : b ≠ a := fun e => ab e.symm
  have da : d ≠ a := fun e => ad e.symm
  have db : d ≠ b := fun e => bd e.symm
  have key : ∀ x, x ≠ a → x ≠ b → x ≠ d →
      (((h.setNode a ⟨p, b, d, !c⟩).setNode b ⟨a, l1.addr, r1.addr, !cb⟩).setNode d
        ⟨a, l2.addr, r2.addr, !cd⟩).node x = h.node x := by
    intro x h1 h2 h3
    rw [setNode_node_ne _ _ h3, setNode_node_ne _ _ h2, setNode_node_ne _ _ h1]
  refine ⟨((h.setNode a ⟨p, b, d, !c⟩).setNode b ⟨a, l1.addr, r1.addr, !cb⟩).setNode d
        ⟨a, l2.addr, r2.addr, !cd⟩, ?_, ?_, ?_⟩
  · simp [flipColors, setColor, nd, upd, setNode_node, ha, hb, hd, ab, ba, ad, da, bd, db]
  · refine ⟨by simp [setNode_node, ab, ad], ha0, ⟨by simp [setNode_node, bd], hb0, ?_, ?_⟩,
      ⟨by simp, hd0, ?_, ?_⟩⟩
    · exact hl1.congr fun x hx => key x (q x (by simp [hx]) a (by simp)) (n3 x hx b (by simp))
        (q x (by simp [hx]) d (by simp))
    · exact hr1.congr fun x hx => key x (q x (by simp [hx]) a (by simp)) (ne_of_mem hx b_r1)
        (q x (by simp [hx]) d (by simp))
    · exact hl2.congr fun x hx => key x (ne_of_mem hx a_l2) (fun e => q b (by simp) x (by simp [hx]) e.symm)
        (n6 x hx d (by simp))
    · exact hr2.congr fun x hx => key x (ne_of_mem hx a_r2) (fun e => q b (by simp) x (by simp [hx]) e.symm)
        (ne_of_mem hx d_r2)
  · exact ((Upd.setNode _ ha (by simp)).trans (Upd.setNode (n := ⟨a, l1.addr, r1.addr, cb⟩) _
        (by rw [setNode_node_ne _ _ ba]; exact hb) (by simp))).trans
        (Upd.setNode (n := ⟨a, l2.addr, r2.addr, cd⟩) _
        (by rw [setNode_node_ne _ _ db, setNode_node_ne _ _ da]; exact hd) (by simp))

/-- `f` called on the root of `t` turns it into `t'`, in place. -/
def Local (f : Addr → Prog (Heap V) Addr) (t t' : Tree) : Prop :=
  ∀ h p, Rep h t p → t.inorder.Nodup →
    ∃ h', f t.addr h = .ok (t'.addr, h') ∧ Rep h' t' p ∧ Upd t.inorder h h'

theorem local_rotL {t : Tree} (ht : t ≠ leaf) (hr : t.right ≠ leaf) :
    Local (V := V) rotateLeft t (rotL t) := by
  cases t with
  | leaf => exact absurd rfl ht
  | node a c l r =>
    cases r with
    | leaf => exact absurd rfl hr
    | node b cb m r => exact fun h p h1 h2 => rotateLeft_spec h1 h2

theorem local_rotR {t : Tree} (ht : t ≠ leaf) (hr : t.left ≠ leaf) :
    Local (V := V) rotateRight t (rotR t) := by
  cases t with
  | leaf => exact absurd rfl ht
  | node a c l r =>
    cases l with
    | leaf => exact absurd rfl hr
    | node b cb m l => exact fun h p h1 h2 => rotateRight_spec h1 h2

theorem red_ne {t : Tree} (h : t.red = true) : t ≠ leaf := by rintro rfl; simp at h

/-- What a represented non-empty tree says about its root record and its children. -/
theorem Rep.kids {h : Heap V} {t : Tree} {p : Addr} (hr : Rep h t p) (ht : t ≠ leaf) :
    h.node t.addr = some ⟨p, t.left.addr, t.right.addr, t.red⟩ ∧ t.addr ≠ 0 ∧
      Rep h t.left t.addr ∧ Rep h t.right t.addr := by
  cases t with
  | leaf => exact absurd rfl ht
  | node a c l r => exact hr

theorem flip_addr (t : Tree) : (flipT t).addr = t.addr := by unfold flipT; split <;> rfl

theorem flipColors_local {t : Tree} (hl : t.left ≠ leaf) (hr : t.right ≠ leaf) {h : Heap V} {p}
    (h1 : Rep h t p) (h2 : t.inorder.Nodup) :
    ∃ h', flipColors t.addr h = .ok ((), h') ∧ Rep h' (flipT t) p ∧ Upd t.inorder h h' := by
  rcases t with _ | ⟨a, c, l, r⟩
  · exact absurd rfl hl
  rcases l with _ | ⟨b, cb, l1, r1⟩
  · exact absurd rfl hl
  rcases r with _ | ⟨d, cd, l2, r2⟩
  · exact absurd rfl hr
  exact flipColors_spec h1 h2

theorem local_fix1 {t : Tree} (ht : t ≠ leaf) : Local (V := V) fix1 t t.fix1 := by
  intro h p h1 h2
  obtain ⟨k1, k2, k3, k4⟩ := h1.kids ht
  unfold Rb.fix1 Tree.fix1
  simp only [Prog.bind_app, nd_eq k1, Res.bind_ok, isRed_eq k4, Prog.ite_app, isRed_eq k3]
  by_cases hr : t.right.red = true
  · by_cases hl : t.left.red = true
    · simp only [hr, hl, if_true]; exact ⟨h, rfl, h1, Upd.refl _ _⟩
    · simp only [hr, hl, if_true, if_false, Bool.false_eq_true]
      exact local_rotL ht (red_ne hr) h p h1 h2
  · simp only [hr, if_false, Bool.false_eq_true]; exact ⟨h, rfl, h1, Upd.refl _ _⟩

theorem local_fix2 {t : Tree} (ht : t ≠ leaf) : Local (V := V) fix2 t t.fix2 := by
  intro h p h1 h2
  obtain ⟨k1, k2, k3, k4⟩ := h1.kids ht
  unfold Rb.fix2 Tree.fix2
  simp only [Prog.bind_app, nd_eq k1, Res.bind_ok, isRed_eq k4, Prog.ite_app, isRed_eq k3]
  by_cases hl : t.left.red = true
  · obtain ⟨m1, m2, m3, m4⟩ := k3.kids (red_ne hl)
    simp only [hl, if_true, nd_eq m1, Res.bind_ok, isRed_eq m3]
    by_cases hll : t.left.left.red = true
    · simp only [hll, if_true]
      exact local_rotR ht (red_ne hl) h p h1 h2
    · simp only [hll, if_false, Bool.false_eq_true]; exact ⟨h, rfl, h1, Upd.refl _ _⟩
  · simp only [hl, if_false, Bool.false_eq_true]; exact ⟨h, rfl, h1, Upd.refl _ _⟩

theorem local_fix3 {t : Tree} (ht : t ≠ leaf) : Local (V := V) fix3 t t.fix3 := by
  intro h p h1 h2
  obtain ⟨k1, k2, k3, k4⟩ := h1.kids ht
  unfold Rb.fix3 Tree.fix3
  simp only [Prog.bind_app, nd_eq k1, Res.bind_ok, isRed_eq k4, Prog.ite_app, isRed_eq k3]
  by_cases hl : t.left.red = true
  · by_cases hr : t.right.red = true
    · simp only [hr, hl, if_true]
      obtain ⟨h', e1, e2, e3⟩ := flipColors_local (red_ne hl) (red_ne hr) h1 h2
      exact ⟨h', by simp only [e1, Res.bind_ok, Prog.pure_app, flip_addr], e2, e3⟩
    · simp only [hr, hl, if_true, if_false, Bool.false_eq_true]; exact ⟨h, rfl, h1, Upd.refl _ _⟩
  · simp only [hl, if_false, Bool.false_eq_true]; exact ⟨h, rfl, h1, Upd.refl _ _⟩

theorem rotL_ne {t : Tree} (ht : t ≠ leaf) : rotL t ≠ leaf := by
  unfold rotL; split
  · simp
  · exact ht
theorem rotR_ne {t : Tree} (ht : t ≠ leaf) : rotR t ≠ leaf := by
  unfold rotR; split
  · simp
  · exact ht
theorem flip_ne {t : Tree} (ht : t ≠ leaf) : flipT t ≠ leaf := by
  unfold flipT; split
  · simp
  · exact ht
theorem fix1_ne {t : Tree} (ht : t ≠ leaf) : t.fix1 ≠ leaf := by
  unfold Tree.fix1; split
  · split
    · exact ht
    · exact rotL_ne ht
  · exact ht
theorem fix2_ne {t : Tree} (ht : t ≠ leaf) : t.fix2 ≠ leaf := by
  unfold Tree.fix2; split
  · split
    · exact rotR_ne ht
    · exact ht
  · exact ht
theorem fix3_ne {t : Tree} (ht : t ≠ leaf) : t.fix3 ≠ leaf := by
  unfold Tree.fix3; split
  · split
    · exact flip_ne ht
    · exact ht
  · exact ht
theorem fixup_ne {t : Tree} (ht : t ≠ leaf) : t.fixup ≠ leaf := fix3_ne (fix2_ne (fix1_ne ht))

theorem inorder_fix1 (t : Tree) : t.fix1.inorder = t.inorder := by
  unfold Tree.fix1; repeat' split
  all_goals simp
theorem inorder_fix2 (t : Tree) : t.fix2.inorder = t.inorder := by
  unfold Tree.fix2; repeat' split
  all_goals simp

theorem local_fixup {t : Tree} (ht : t ≠ leaf) : Local (V := V) fixup t t.fixup := by
  intro h p h1 h2
  obtain ⟨ha, e1, r1, u1⟩ := local_fix1 ht h p h1 h2
  obtain ⟨hb, e2, r2, u2⟩ := local_fix2 (fix1_ne ht) ha p r1 (by rw [inorder_fix1]; exact h2)
  obtain ⟨hc, e3, r3, u3⟩ := local_fix3 (fix2_ne (fix1_ne ht)) hb p r2
    (by rw [inorder_fix2, inorder_fix1]; exact h2)
  rw [inorder_fix1] at u2
  rw [inorder_fix2, inorder_fix1] at u3
  exact ⟨hc, by simp only [Rb.fixup, Prog.bind_app, e1, e2, Res.bind_ok, e3]; rfl, r3, (u1.trans u2).trans u3⟩

theorem local_moveR {t : Tree} (hl : t.left ≠ leaf) (hr : t.right ≠ leaf) :
    Local (V := V) moveRight t (moveR t) := by
  intro h p h1 h2
  have ht : t ≠ leaf := by rintro rfl; exact hl rfl
  obtain ⟨ha, e1, r1, u1⟩ := flipColors_local hl hr h1 h2
  have hnd1 : (flipT t).inorder.Nodup := by rw [inorder_flip]; exact h2
  obtain ⟨k1, k2, k3, k4⟩ := r1.kids (flip_ne ht)
  rw [flip_addr] at k1
  have hfl : (flipT t).left ≠ leaf := by
    rcases t with _ | ⟨a, c, _ | l, _ | r⟩ <;> simp_all [flipT]
  have hfr : (flipT t).right ≠ leaf := by
    rcases t with _ | ⟨a, c, _ | l, _ | r⟩ <;> simp_all [flipT]
  obtain ⟨m1, m2, m3, m4⟩ := k3.kids hfl
  unfold moveRight moveR
  simp only [Prog.bind_app, e1, Res.bind_ok, nd_eq k1, nd_eq m1, isRed_eq m3, Prog.ite_app]
  by_cases hll : (flipT t).left.left.red = true
  · simp only [hll, if_true]
    obtain ⟨hb, e2, r2, u2⟩ := local_rotR (flip_ne ht) hfl ha p r1 hnd1
    have hnd2 : (rotR (flipT t)).inorder.Nodup := by rw [inorder_rotR]; exact hnd1
    have hk : (rotR (flipT t)).left ≠ leaf ∧ (rotR (flipT t)).right ≠ leaf := by
      rcases h : flipT t with _ | ⟨a, c, _ | ⟨b, cb, l, m⟩, r⟩
      · rw [h] at hfl; exact absurd rfl hfl
      · rw [h] at hfl; exact absurd rfl hfl
      · rw [h] at hll
        refine ⟨red_ne hll, by simp [rotR]⟩
    obtain ⟨hc, e3, r3, u3⟩ := flipColors_local hk.1 hk.2 r2 hnd2
    rw [inorder_flip] at u2
    rw [inorder_rotR, inorder_flip] at u3
    rw [flip_addr] at e2
    exact ⟨hc, by simp only [e2, Res.bind_ok, e3, Prog.pure_app, flip_addr], r3, (u1.trans u2).trans u3⟩
  · simp only [hll, if_false, Bool.false_eq_true]
    exact ⟨ha, by simp [flip_addr], r1, u1⟩

theorem local_moveL {t : Tree} (hl : t.left ≠ leaf) (hr : t.right ≠ leaf) :
    Local (V := V) moveLeft t (moveL t) := by
  intro h p h1 h2
  have ht : t ≠ leaf := by rintro rfl; exact hl rfl
  obtain ⟨ha, e1, r1, u1⟩ := flipColors_local hl hr h1 h2
  have hnd1 : (flipT t).inorder.Nodup := by rw [inorder_flip]; exact h2
  obtain ⟨k1, k2, k3, k4⟩ := r1.kids (flip_ne ht)
  rw [flip_addr] at k1
  have hfr : (flipT t).right ≠ leaf := by
    rcases t with _ | ⟨a, c, _ | l, _ | r⟩ <;> simp_all [flipT]
  have hfl : (flipT t).left ≠ leaf := by
    rcases t with _ | ⟨a, c, _ | l, _ | r⟩ <;> simp_all [flipT]
  obtain ⟨m1, m2, m3, m4⟩ := k4.kids hfr
  unfold moveLeft moveL
  simp only [Prog.bind_app, e1, Res.bind_ok, nd_eq k1, nd_eq m1, isRed_eq m3, Prog.ite_app]
  by_cases hll : (flipT t).right.left.red = true
  · simp only [hll, if_true]
    have hfa : (flipT t).addr = t.addr := flip_addr t
    generalize t.addr = ta at *
    rw [← inorder_flip t] at u1 ⊢
    generalize flipT t = s at *
    rcases s with _ | ⟨a, c, l, r⟩
    · exact absurd rfl hfr
    simp only [right_node, left_node, addr_node] at *
    have nds := hnd1
    simp only [inorder_node, List.nodup_append, List.nodup_cons] at nds
    obtain ⟨hb, e2, r2, u2⟩ := local_rotR hfr (red_ne hll) ha a k4 nds.2.1.2
    have a_r : a ∉ r.inorder := nds.2.1.1
    have a_l : a ∉ l.inorder := fun hx => nds.2.2 a hx a (by simp) rfl
    have ka : hb.node a = some ⟨p, l.addr, r.addr, c⟩ := by
      rw [u2.node a a_r]; rw [← hfa] at k1; exact k1
    have rs : Rep (hb.setNode a ⟨p, l.addr, (rotR r).addr, c⟩) (.node a c l (rotR r)) p := by
      refine ⟨by simp, k2, ?_, ?_⟩
      · refine k3.congr fun x hx => ?_
        rw [setNode_node_ne _ _ (ne_of_mem hx a_l), u2.node x]
        exact fun hx' => nds.2.2 x hx x (by simp [hx']) rfl
      · refine r2.congr fun x hx => ?_
        rw [inorder_rotR] at hx
        rw [setNode_node_ne _ _ (ne_of_mem hx a_r)]
    have us : Upd (node a c l r).inorder hb (hb.setNode a ⟨p, l.addr, (rotR r).addr, c⟩) :=
      Upd.setNode _ ka (by simp)
    have hnd3 : (node a c l (rotR r)).inorder.Nodup := by
      simp only [inorder_node, inorder_rotR]; simpa using hnd1
    have hrr : rotR r ≠ leaf := rotR_ne hfr
    obtain ⟨hc, e3, r3, u3⟩ := local_rotL (t := node a c l (rotR r)) (by simp) hrr _ p rs hnd3
    have hnd4 : (rotL (node a c l (rotR r))).inorder.Nodup := by rw [inorder_rotL]; exact hnd3
    have hk : (rotL (node a c l (rotR r))).left ≠ leaf ∧ (rotL (node a c l (rotR r))).right ≠ leaf := by
      rcases r with _ | ⟨b, cb, _ | ⟨d, cd, l1, r1⟩, rr⟩
      · exact absurd rfl hfr
      · simp at hll
      · simp [rotR, rotL]
    obtain ⟨hd, e4, r4, u4⟩ := flipColors_local hk.1 hk.2 r3 hnd4
    have eio : (node a c l (rotR r)).inorder = (node a c l r).inorder := by simp
    rw [inorder_rotL, eio] at u4
    rw [eio] at u3
    refine ⟨hd, ?_, r4, (((u1.trans (u2.mono (fun x hx => by simp [hx]))).trans us).trans u3).trans u4⟩
    subst hfa
    simp only [e2, Res.bind_ok, Rb.setRight, upd_eq _ ka, Prog.pure_app, flip_addr]
    simp only [addr_node] at e3
    simp only [e3, Res.bind_ok, e4]
    rfl
  · simp only [hll, if_false, Bool.false_eq_true]
    exact ⟨ha, by simp [flip_addr], r1, u1⟩

end Verif.Rb
