import Verif.Rb.Insert
/-!
# Deletion, on the heap
-/
set_option linter.unusedSimpArgs false
set_option linter.unusedSectionVars false
namespace Verif.Rb
open Verif Tree
variable {K V : Type}

theorem inorder_goLeft (t : Tree) : (goLeft t).inorder = t.inorder := by unfold goLeft; split <;> simp
theorem inorder_goRight1 (t : Tree) : (goRight1 t).inorder = t.inorder := by unfold goRight1; split <;> simp
theorem inorder_goRight2 (t : Tree) : (goRight2 t).inorder = t.inorder := by unfold goRight2; split <;> simp
theorem ne_leaf_of_inorder {t u : Tree} (h : t.inorder = u.inorder) (hu : u ≠ leaf) : t ≠ leaf := by
  rintro rfl
  cases u with
  | leaf => exact hu rfl
  | node => simp at h
theorem goLeft_ne {t : Tree} (h : t ≠ leaf) : goLeft t ≠ leaf := ne_leaf_of_inorder (inorder_goLeft t) h
theorem goRight1_ne {t : Tree} (h : t ≠ leaf) : goRight1 t ≠ leaf := ne_leaf_of_inorder (inorder_goRight1 t) h
theorem goRight2_ne {t : Tree} (h : t ≠ leaf) : goRight2 t ≠ leaf := ne_leaf_of_inorder (inorder_goRight2 t) h
theorem foot_congr {hd k t t'} (h : t'.inorder = t.inorder) : foot hd k t' = foot hd k t := by
  simp [foot, h]

theorem poor_eq {h : Heap V} {t : Tree} {p : Addr} (hr : Rep h t p) :
    poor t.addr h = .ok (poorT t, h) := by
  rcases t with _ | ⟨a, c, l, r⟩
  · simp [poor, poorT]
  · obtain ⟨h1, h2, h3, h4⟩ := hr
    have e : isRed a h = .ok (c, h) := isRed_eq (t := .node a c l r) ⟨h1, h2, h3, h4⟩
    cases c
    · simp [poor, poorT, h2, e, nd_eq h1, isRed_eq h3]
    · simp [poor, poorT, h2, e]

/-- `if (poor(left)) *root = move_left(*root)`: the sibling exists because of the invariant. -/
theorem goLeft_heap {h : Heap V} {hd : Addr} {k : List Frame} {t : Tree}
    (hr : RepTree h hd (zip k t)) (hsib : poorT t.left = true → t.right ≠ leaf) :
    ∃ h', ((poorT t.left = true ∧ ∃ h1, moveLeft t.addr h = .ok ((goLeft t).addr, h1) ∧
        wrE hd (ctxEdge k) (goLeft t).addr h1 = .ok ((), h')) ∨ (poorT t.left = false ∧ h' = h)) ∧
      RepTree h' hd (zip k (goLeft t)) ∧ Upd (foot hd k t) h h' := by
  by_cases hp : poorT t.left = true
  · have hl : t.left ≠ leaf := by intro e; rw [e] at hp; simp [poorT] at hp
    obtain ⟨h1, h2, e1, e2, r, u⟩ := step_local (k := k) (local_moveL hl (hsib hp)) (inorder_moveL t) hr
    have hg : goLeft t = moveL t := by simp [goLeft, hp]
    rw [hg]
    exact ⟨h2, Or.inl ⟨hp, h1, e1, e2⟩, r, u⟩
  · have hg : goLeft t = t := by simp [goLeft, hp]
    rw [hg]
    exact ⟨h, Or.inr ⟨by simpa using hp, rfl⟩, hr, Upd.refl _ _⟩

/-- With the invariant, a poor left child has a sibling. -/
theorem F1.sibling {t : Tree} {n : Nat} {r : Bool} (h : F1 t n r) (hp : poorT t.left = true) : t.right ≠ leaf := by
  obtain ⟨hb, _, hred⟩ := h
  rcases t with _ | ⟨a, c, l, s⟩
  · simp [poorT] at hp
  rcases l with _ | ⟨b, cb, bl, br⟩
  · simp [poorT] at hp
  simp only [left_node, poorT, red_node, Bool.and_eq_true, Bool.not_eq_true'] at hp
  obtain ⟨rfl, _⟩ := hp
  have hc : c = true := by simpa using hred
  subst hc
  obtain ⟨⟨m, rfl, _⟩, h2, _⟩ := hb
  rintro rfl
  simp [Bal] at h2

theorem F1.left_leaf {t : Tree} {n : Nat} {r : Bool} (h : F1 t n r) (hl : t.left = leaf) :
    n = 0 ∧ ∃ x, t = .node x RED leaf leaf := by
  obtain ⟨hb, _, hred⟩ := h
  rcases t with _ | ⟨a, c, l, s⟩
  · simp at hred
  simp only [left_node] at hl; subst hl
  have hc : c = true := by simpa using hred
  subst hc
  obtain ⟨h1, h2, h3, h4⟩ := hb
  have hn : n = 0 := h1
  subst hn
  rcases s with _ | ⟨d, cd, dl, dr⟩
  · exact ⟨rfl, a, rfl⟩
  · simp only [red_node] at h4; subst h4
    obtain ⟨m, hm, _⟩ := h2
    omega

/-- The left-most path of a subtree. -/
theorem dmDown_spec (p : Nat) {h : Heap V} {hd : Addr} {k : List Frame} {t : Tree} {n : Nat} {r : Bool}
    (hr : RepTree h hd (zip k t)) (hf : F1 t n r) (hp : pot t n ≤ p) :
    ∃ h' k1 x ru, dmDown hd (ctxEdge k) h = .ok (ctxEdge (k1 ++ k), h') ∧
      RepTree h' hd (zip (k1 ++ k) (.node x RED leaf leaf)) ∧ SoundK k1 0 ru n r ∧
      (∃ tl, t.inorder = x :: tl ∧ (zip k1 leaf).inorder = tl) ∧ Upd (foot hd k t) h h' := by
  induction p generalizing h k t n r with
  | zero =>
    exfalso
    obtain ⟨hb, _, hred⟩ := hf
    rcases t with _ | ⟨a, c, l, s⟩
    · simp at hred
    · cases c
      · obtain ⟨m, rfl, _⟩ := hb
        simp [pot] at hp
      · simp [pot] at hp
  | succ p ih =>
    have htne : t ≠ leaf := by rintro rfl; simpa using hf.2.2
    obtain ⟨hc, ht, _, hnd⟩ := repTree_zip.1 hr
    obtain ⟨k1, k2, k3, k4⟩ := ht.kids htne
    by_cases hl : t.left = leaf
    · obtain ⟨rfl, x, rfl⟩ := hf.left_leaf hl
      refine ⟨h, [], x, r, ?_, hr, soundK_nil _ _, ⟨[], rfl, rfl⟩, Upd.refl _ _⟩
      rw [dmDown]
      have hrd := hc.rd
      simp only [addr_node] at hrd k1
      simp [hrd, nd_eq k1]
    · obtain ⟨m, ru, hsf, hf', hpot⟩ := left_step hf hl
      obtain ⟨h1, hcase, r1, u1⟩ := goLeft_heap hr hf.sibling
      have hgne := goLeft_ne htne
      have hz : zip k (goLeft t) = zip (lframe (goLeft t) :: k) (goLeft t).left := by
        rw [zip_cons, lframe_plug hgne]
      rw [hz] at r1
      obtain ⟨h2, q1, x, rx, e2, r2, s2, ⟨tl, i2, j2⟩, u2⟩ := ih r1 hf' (by omega)
      have hfoot : ∀ y ∈ foot hd (lframe (goLeft t) :: k) (goLeft t).left, y ∈ foot hd k t := by
        intro y hy
        have h3 : y ∈ foot hd k ((lframe (goLeft t)).plug (goLeft t).left) := by
          simp only [foot, lframe, ctxNodes, Frame.plug_L, inorder_node, List.mem_append, List.mem_cons] at hy ⊢
          grind
        rw [lframe_plug hgne, foot_congr (inorder_goLeft t)] at h3
        exact h3
      refine ⟨h2, q1 ++ [lframe (goLeft t)], x, rx, ?_, ?_, ?_, ?_, u1.trans (u2.mono hfoot)⟩
      · rw [List.append_assoc, List.singleton_append, ← e2]
        rw [dmDown]
        have hl0 : t.left.addr ≠ 0 := fun e => hl (k3.addr_eq_zero.1 e)
        obtain ⟨l1, l2, l3, l4⟩ := k3.kids hl
        simp only [Prog.bind_app, hc.rd, Res.bind_ok, nd_eq k1, ne_eq, hl0, not_false_eq_true, if_true,
          isRed_eq k3, Prog.ite_app, nd_eq l1, isRed_eq l3]
        have hrd1 : rdE hd (ctxEdge k) h1 = .ok ((goLeft t).addr, h1) := by
          have := (repTree_zip.1 (hz ▸ r1 : RepTree h1 hd (zip k (goLeft t)))).1.rd
          exact this
        have hpd : poorT t.left = (!t.left.red && !t.left.left.red) := by
          cases hh : t.left with
          | leaf => exact absurd hh hl
          | node => rfl
        rcases hcase with ⟨hp1, h0, e0, e0'⟩ | ⟨hp1, rfl⟩
        · rw [hpd] at hp1
          simp only [Bool.and_eq_true] at hp1
          simp only [hp1.1, hp1.2, if_true, e0, Res.bind_ok, e0', hrd1]
          rfl
        · have hg : goLeft t = t := by simp [goLeft, hp1]
          rw [hg] at hrd1 ⊢
          rw [hpd] at hp1
          cases hA : t.left.red <;> cases hB : t.left.left.red
          · simp [hA, hB] at hp1
          · simp [hrd1, lframe]
          · simp [hrd1, lframe]
          · simp [hrd1, lframe]
      · rw [List.append_assoc, List.singleton_append]; exact r2
      · intro w hw hwr
        rw [climb_append]
        obtain ⟨c1, c2⟩ := s2 w hw hwr
        exact hsf _ c1 c2
      · refine ⟨tl ++ ((goLeft t).addr :: (goLeft t).right.inorder), ?_, ?_⟩
        · have := congrArg Tree.inorder (lframe_plug hgne)
          rw [inorder_goLeft] at this
          rw [← this]
          simp [lframe, i2]
        · rw [inorder_zip] at j2 ⊢
          have hpp : ∀ k0 : List Frame, pre (k0 ++ [lframe (goLeft t)]) = pre k0 ∧
              post (k0 ++ [lframe (goLeft t)]) = post k0 ++ ((goLeft t).addr :: (goLeft t).right.inorder) := by
            intro k0
            induction k0 with
            | nil => simp [pre, post, lframe]
            | cons f k0 ih =>
              rw [List.cons_append]
              cases f <;> simp [pre, post, ih.1, ih.2]
          rw [(hpp q1).1, (hpp q1).2, ← j2]
          simp

theorem zip_append (k1 k : List Frame) (t : Tree) : zip (k1 ++ k) t = zip k (zip k1 t) := by
  induction k1 generalizing t with
  | nil => rfl
  | cons f k1 ih => rw [List.cons_append, zip_cons, zip_cons, ih]

/-- `delete_min` unlinks the first node of a subtree. -/
theorem deleteMin_spec {h : Heap V} {hd : Addr} {k : List Frame} {t : Tree} {n : Nat} {r : Bool}
    (hr : RepTree h hd (zip k t)) (hf : F1 t n r) :
    ∃ h' x t', deleteMin hd (ctxEdge k) h = .ok (x, h') ∧ RepTree h' hd (zip k t') ∧
      t.inorder = x :: t'.inorder ∧ Bal t' n ∧ (t'.red = true → r = true) ∧ Upd (foot hd k t) h h' ∧
      x ∉ foot hd k t' := by
  obtain ⟨h1, k1, x, ru, e1, r1, s1, ⟨tl, i1, j1⟩, u1⟩ := dmDown_spec _ hr hf (Nat.le_refl _)
  obtain ⟨hc, ht, hne, hnd⟩ := repTree_zip.1 r1
  obtain ⟨h2, e2, rc2, u2⟩ := hc.wr (nodup_right hnd) 0
  have r2 : RepTree h2 hd (zip (k1 ++ k) leaf) := repTree_zip.2 ⟨rc2, trivial, hne, by
    simp only [inorder_leaf, List.nil_append]; exact nodup_right hnd⟩
  obtain ⟨h3, e3, r3, u3⟩ := dmUp_spec r2
  obtain ⟨b1, b2⟩ := s1 leaf rfl (by simp)
  have hio : (climb k1 leaf).inorder = tl := by rw [inorder_climb, j1]
  have hsub : ∀ y, y ∈ foot hd (k1 ++ k) leaf → y ∈ foot hd k t := by
    intro y hy
    have p1 := (perm_zip hd (k1 ++ k) leaf).mem_iff.1 hy
    have p2 := (perm_zip hd k t).mem_iff (a := y)
    rw [zip_append, inorder_zip, j1] at p1
    rw [p2, inorder_zip, i1]
    simp at p1 ⊢; grind
  refine ⟨h3, x, climb k1 leaf, ?_, r3, by rw [hio]; exact i1, b1, b2, ?_, ?_⟩
  · unfold deleteMin
    have hx := ht.1
    simp only [Prog.bind_app, e1, Res.bind_ok, hc.rd, addr_node, nd_eq hx, e2, e3, Prog.pure_app]
  · refine (u1.trans (u2.mono fun y hy => ?_)).trans (u3.mono hsub)
    simp only [List.mem_singleton] at hy
    subst hy
    exact hsub _ (by simp only [foot, inorder_leaf, List.nil_append]; exact ctxParent_mem hd (k1 ++ k))
  · have hn := ((perm_zip hd k t).nodup_iff).2 (by rw [List.nodup_cons]; exact ⟨hr.hd_not, hr.nodup⟩)
    rw [i1] at hn
    simp only [List.cons_append, List.nodup_cons] at hn
    simp only [foot, hio]
    exact hn.1

/-- The replacement of a node by the node `o` that `delete_min` returned, whatever `delete_min` made of the right subtree. -/
theorem replaceByMin_gen {h h1 : Heap V} {hd : Addr} {k : List Frame} {a c l s s'} {o : Addr}
    (hr : RepTree h hd (zip k (.node a c l s))) (e1 : deleteMin hd (ctxEdge (.R a c l :: k)) h = .ok (o, h1))
    (r1 : RepTree h1 hd (zip (.R a c l :: k) s')) (hos : o ∈ s.inorder) (hss : ∀ y ∈ s'.inorder, y ∈ s.inorder)
    (u1 : Upd (foot hd (.R a c l :: k) s) h h1) (hno : o ∉ foot hd (.R a c l :: k) s') :
    ∃ h', replaceByMin hd (ctxEdge k) h = .ok ((a, o), h') ∧
      RepTree h' hd (zip (.R o c l :: k) s') ∧ Upd (foot hd k (.node a c l s)) h h' := by
  obtain ⟨hc, ht, hne, hnd⟩ := repTree_zip.1 hr
  obtain ⟨hc1, ht1, _, hnd1⟩ := repTree_zip.1 r1
  obtain ⟨g1, ha0, gl, gc⟩ := hc1
  -- the orphan is alive
  have hlive : (h1.node o).isSome := by
    rw [u1.live]
    exact (ht.2.2.2).live hos
  obtain ⟨no, hno1⟩ := Option.isSome_iff_exists.1 hlive
  simp only [foot, ctxNodes, List.mem_append, List.mem_cons, not_or] at hno
  obtain ⟨no_s, no_a, no_l, no_k⟩ := hno
  have ho0 : o ≠ 0 := by
    exact fun e => ht.2.2.2.zero_not (e ▸ hos)
  -- colour, parent, right
  let rec1 : RbNode := ⟨ctxParent hd k, no.left, s'.addr, c⟩
  let h2 := h1.setNode o rec1
  have k2 : ∀ y, y ≠ o → h2.node y = h1.node y := fun y hy => setNode_node_ne _ _ hy
  have ne_a : a ≠ o := fun e => no_a e.symm
  have gc2 : RepCtx h2 hd k a := gc.congr fun y hy => k2 y (ne_of_mem hy no_k)
  have ea2 : h2.node a = some ⟨ctxParent hd k, l.addr, s'.addr, c⟩ := (k2 a ne_a).trans g1
  have hs2 : Rep h2 s' a := ht1.congr fun y hy => k2 y (ne_of_mem hy no_s)
  have hl2 : Rep h2 l a := gl.congr fun y hy => k2 y (ne_of_mem hy no_l)
  simp only [ctxNodes, List.nodup_append, List.nodup_cons, List.mem_append, List.mem_cons, not_or] at hnd1
  obtain ⟨d1, ⟨⟨d2, d3⟩, d4, d5, d6⟩, d7⟩ := hnd1
  -- a generic re-parenting step
  have repar : ∀ (hh : Heap V) (u : Tree) (p q : Addr), Rep hh u p → u.inorder.Nodup → ∃ hh',
      (∀ (β : Type) (M : Prog (Heap V) β),
        (if u.addr ≠ 0 then (setParent u.addr q >>= fun _ => M) else M) hh = M hh') ∧
      Rep hh' u q ∧ Upd u.inorder hh hh' := by
    intro hh u p q hu hun
    rcases u with _ | ⟨b, cb, bl, br⟩
    · exact ⟨hh, fun _ _ => by simp, trivial, Upd.refl _ _⟩
    · have hb := hu.1
      refine ⟨hh.setNode b ⟨q, bl.addr, br.addr, cb⟩, ?_, ?_, Upd.setNode _ hb (by simp)⟩
      · intro β M; simp [hu.2.1, setParent, upd_eq _ hb]
      · refine hu.reparent hun ?_ ?_
        · intro a' c' l' r' e
          simp only [Tree.node.injEq] at e
          obtain ⟨rfl, rfl, rfl, rfl⟩ := e
          simp
        · intro x _ hx
          exact setNode_node_ne _ _ hx
  obtain ⟨h3, e3, hs3, u3⟩ := repar h2 s' a o hs2 d1
  have eo3 : h3.node o = some rec1 := by rw [u3.node o no_s]; simp [h2]
  have ea3 : h3.node a = some ⟨ctxParent hd k, l.addr, s'.addr, c⟩ := by
    rw [u3.node a fun hy => d7 a hy a (Or.inl rfl) rfl]; exact ea2
  let rec2 : RbNode := ⟨ctxParent hd k, l.addr, s'.addr, c⟩
  let h4 := h3.setNode o rec2
  have k4 : ∀ y, y ≠ o → h4.node y = h3.node y := fun y hy => setNode_node_ne _ _ hy
  have hl4 : Rep h4 l a := hl2.congr fun y hy => by
    rw [k4 y (ne_of_mem hy no_l), u3.node y fun hy' => d7 y hy' y (Or.inr (Or.inl hy)) rfl]
  obtain ⟨h5, e5, hl5, u5⟩ := repar h4 l a o hl4 d4
  have eo5 : h5.node o = some rec2 := by rw [u5.node o no_l]; simp [h4]
  have gc5 : RepCtx h5 hd k a := gc2.congr fun y hy => by
    rw [u5.node y fun hy' => d6 y hy' y hy rfl, k4 y (ne_of_mem hy no_k),
      u3.node y fun hy' => d7 y hy' y (Or.inr (Or.inr hy)) rfl]
  have hs5 : Rep h5 s' o := hs3.congr fun y hy => by
    rw [u5.node y fun hy' => d7 y hy y (Or.inr (Or.inl hy')) rfl, k4 y (ne_of_mem hy no_s)]
  obtain ⟨h6, e6, gc6, u6⟩ := gc5.wr d5 o
  have hpk := ctxParent_mem hd k
  have k6 : ∀ y, y ∉ ctxNodes hd k → h6.node y = h5.node y := fun y hy => u6.node y (by
    simp only [List.mem_singleton]; rintro rfl; exact hy hpk)
  have R6 : RepTree h6 hd (zip (.R o c l :: k) s') := by
    refine repTree_zip.2 ⟨⟨(k6 o no_k).trans eo5, ho0, hl5.congr fun y hy => k6 y ?_, gc6⟩,
      hs5.congr fun y hy => k6 y ?_, hne, ?_⟩
    · exact fun hy' => d6 y hy y hy' rfl
    · exact fun hy' => d7 y hy y (Or.inr (Or.inr hy')) rfl
    · simp only [ctxNodes, List.nodup_append, List.nodup_cons, List.mem_append, List.mem_cons, not_or]
      refine ⟨d1, ⟨⟨no_l, no_k⟩, d4, d5, d6⟩, ?_⟩
      intro y hy z hz e
      subst e
      rcases hz with rfl | hz
      · exact no_s hy
      · exact d7 y hy y (Or.inr hz) rfl
  refine ⟨h6, ?_, R6, ?_⟩
  · unfold replaceByMin setColor setRight setLeft
    simp only [Prog.bind_app, hc.rd, addr_node, Res.bind_ok]
    rw [ctxEdge_R] at e1
    rw [e1]
    simp only [Res.bind_ok, gc.rd, nd_eq g1, upd_eq _ hno1]
    -- after colour
    let x1 := h1.setNode o { no with color := c }
    have q1 : RepCtx x1 hd k a := gc.congr fun y hy => setNode_node_ne _ _ (ne_of_mem hy no_k)
    have q1a : x1.node a = some ⟨ctxParent hd k, l.addr, s'.addr, c⟩ := (setNode_node_ne _ _ ne_a).trans g1
    have q1o : x1.node o = some { no with color := c } := setNode_node_self _ _ _
    change (((rdE hd (ctxEdge k) x1).bind _)) = _
    simp only [q1.rd, Res.bind_ok, nd_eq q1a, setParent, upd_eq _ q1o]
    let x2 := h1.setNode o { no with color := c, parent := ctxParent hd k }
    have ex2 : x1.setNode o { no with color := c, parent := ctxParent hd k } = x2 := setNode_setNode _ _ _ _
    have q2 : RepCtx x2 hd k a := gc.congr fun y hy => setNode_node_ne _ _ (ne_of_mem hy no_k)
    have q2a : x2.node a = some ⟨ctxParent hd k, l.addr, s'.addr, c⟩ := (setNode_node_ne _ _ ne_a).trans g1
    have q2o : x2.node o = some { no with color := c, parent := ctxParent hd k } := setNode_node_self _ _ _
    change (((rdE hd (ctxEdge k) (x1.setNode o { no with color := c, parent := ctxParent hd k })).bind _)) = _
    rw [ex2]
    simp only [q2.rd, Res.bind_ok, nd_eq q2a, upd_eq _ q2o]
    have ex3 : x2.setNode o { no with color := c, parent := ctxParent hd k, right := s'.addr } = h2 :=
      setNode_setNode _ _ _ _
    change (((nd o (x2.setNode o { no with color := c, parent := ctxParent hd k, right := s'.addr })).bind _)) = _
    rw [ex3]
    have eo2 : h2.node o = some rec1 := setNode_node_self _ _ _
    simp only [nd_eq eo2, Res.bind_ok]
    unfold setParent at e3 e5
    refine (e3 _ _).trans ?_
    simp only [Prog.bind_app, Res.bind_ok]
    have gc3 : RepCtx h3 hd k a := gc2.congr fun y hy =>
      u3.node y fun hy' => d7 y hy' y (Or.inr (Or.inr hy)) rfl
    simp only [gc3.rd, Res.bind_ok, nd_eq ea3, upd_eq _ eo3]
    change (((nd o h4).bind _)) = _
    have eo4 : h4.node o = some rec2 := setNode_node_self _ _ _
    simp only [nd_eq eo4, Res.bind_ok]
    refine (e5 _ _).trans ?_
    simp only [Prog.bind_app, Res.bind_ok, gc5.rd, e6, gc6.rd, Prog.pure_app]
  · have so : o ∈ foot hd k (.node a c l s) := by simp [foot, hos]
    have v1 : Upd (foot hd k (.node a c l s)) h h1 := u1.mono fun y hy => by
      simp [foot, ctxNodes] at hy ⊢; grind
    have v2 : Upd (foot hd k (.node a c l s)) h1 h2 := Upd.setNode _ hno1 so
    have v3 : Upd (foot hd k (.node a c l s)) h2 h3 := u3.mono fun y hy => by
      simp [foot, hss y hy]
    have v4 : Upd (foot hd k (.node a c l s)) h3 h4 := Upd.setNode _ eo3 so
    have v5 : Upd (foot hd k (.node a c l s)) h4 h5 := u5.mono fun y hy => by
      simp [foot, hy]
    have v6 : Upd (foot hd k (.node a c l s)) h5 h6 := u6.mono fun y hy => by
      simp only [List.mem_singleton] at hy; subst hy; simp [foot, hpk]
    exact ((((v1.trans v2).trans v3).trans v4).trans v5).trans v6

/-- The replacement of a node by the first node of its right subtree. -/
theorem replaceByMin_spec {h : Heap V} {hd : Addr} {k : List Frame} {a c l s} {m : Nat} {ru : Bool}
    (hr : RepTree h hd (zip k (.node a c l s))) (hf : F1 s m ru) :
    ∃ h' o s', replaceByMin hd (ctxEdge k) h = .ok ((a, o), h') ∧
      RepTree h' hd (zip (.R o c l :: k) s') ∧ s.inorder = o :: s'.inorder ∧ Bal s' m ∧
      (s'.red = true → ru = true) ∧ Upd (foot hd k (.node a c l s)) h h' := by
  have hr' : RepTree h hd (zip (.R a c l :: k) s) := hr
  obtain ⟨h1, o, s', e1, r1, i1, b1, b2, u1, hno⟩ := deleteMin_spec hr' hf
  obtain ⟨h', e, r, u⟩ := replaceByMin_gen hr e1 r1 (by rw [i1]; simp) (fun y hy => by rw [i1]; simp [hy]) u1 hno
  exact ⟨h', o, s', e, r, i1, b1, b2, u⟩

end Verif.Rb
