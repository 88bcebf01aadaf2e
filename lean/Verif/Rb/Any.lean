import Verif.Rb.Multi
/-!
# `ttl::map` and `ttl::set` with any comparator: the loops (C123)

Nothing is assumed about the comparator here, not even irreflexivity. `removeLoop_any` needs one thing about the elements: that
those behind an element equal to the erased key are greater than the key (`Clear`).
-/
set_option linter.unusedSimpArgs false
set_option linter.unusedSectionVars false
set_option linter.unusedVariables false
namespace Verif.Rb.AnyOrder
open Verif Tree
variable {K V : Type} [DecidableEq K] {lt : K → K → Bool} {keyOf : V → K}

/-- Everything behind an element with the key is greater than the key. -/
def Clear (lt : K → K → Bool) (kf : Addr → K) (key : K) (l : List Addr) : Prop :=
  l.Pairwise fun x y => kf x = key → lt key (kf y) = true

/-- Nothing before an element with the key is greater than the key. -/
def Before (lt : K → K → Bool) (kf : Addr → K) (key : K) (l : List Addr) : Prop :=
  l.Pairwise fun y x => kf x = key → lt key (kf y) = false

/-- The focus of the loop, without any order. -/
structure Here (keyOf : V → K) (kf : Addr → K) (h : Heap V) (hd : Addr) (k : List Frame) (t : Tree) : Prop where
  rep : RepTree h hd (zip k t)
  keys : Keys keyOf h (zip k t).inorder kf

theorem Here.step {kf : Addr → K} {h h1 : Heap V} {hd : Addr} {k t t1}
    (w : Here keyOf kf h hd k t) (hr : RepTree h1 hd (zip k t1)) (hi : t1.inorder = t.inorder)
    (hd' : h1.data = h.data) : Here keyOf kf h1 hd k t1 := by
  refine ⟨hr, ?_⟩
  intro x hx
  rw [inorder_zip, hi, ← inorder_zip] at hx
  rw [hd']
  exact w.keys x hx

/-- What the loop of `remove` leaves behind. -/
def Post (lt : K → K → Bool) (kf : Addr → K) (key : K) (h : Heap V) (hd : Addr) (k : List Frame) (t : Tree) (p : Nat)
    (res : Res ((Addr × Addr) × Heap V)) : Prop :=
  ∃ h' k' t' d, res = .ok ((d, ctxParent hd k'), h') ∧ RepTree h' hd (zip k' t') ∧
    Balanced ((climb k' t').recolor BLACK) ∧ UpdN (3 * p) (foot hd k t) h h' ∧
    ((d = 0 ∧ (lt key key = false → Before lt kf key t.inorder → ∀ x ∈ t.inorder, kf x ≠ key) ∧ (zip k' t').inorder = (zip k t).inorder) ∨
     (d ∈ t.inorder ∧ kf d = key ∧ ∃ A B, (zip k t).inorder = A ++ d :: B ∧ (zip k' t').inorder = A ++ B))

theorem Post.lift {kf : Addr → K} {key : K} {h h1 : Heap V} {hd : Addr} {k k1 : List Frame} {t t1 : Tree}
    {p c : Nat} {res : Res ((Addr × Addr) × Heap V)}
    (hp : Post lt kf key h1 hd k1 t1 p res) (hu : UpdN c (foot hd k t) h h1) (hc : c ≤ 3)
    (hz : (zip k1 t1).inorder = (zip k t).inorder)
    (hsub : t1.inorder.Sublist t.inorder)
    (hoth : lt key key = false → Before lt kf key t.inorder → ∀ x ∈ t.inorder, x ∉ t1.inorder → kf x ≠ key) :
    Post lt kf key h hd k t (p + 1) res := by
  obtain ⟨h', k', t', d, e, r, b, u, cse⟩ := hp
  refine ⟨h', k', t', d, e, r, b, hu.trans (u.mono ?_ (Nat.le_refl _)) (by omega), ?_⟩
  · intro x hx
    rw [(perm_zip hd k1 t1).mem_iff, hz, ← (perm_zip hd k t).mem_iff] at hx
    exact hx
  · rw [hz] at cse
    rcases cse with ⟨c1, c2, c3⟩ | ⟨c1, c2, c3⟩
    · refine Or.inl ⟨c1, fun hi hb x hx => ?_, c3⟩
      by_cases hx1 : x ∈ t1.inorder
      · exact c2 hi (hb.sublist hsub) x hx1
      · exact hoth hi hb x hx hx1
    · exact Or.inr ⟨hsub.subset c1, c2, c3⟩

theorem goLeft_left (t : Tree) {x : Addr} (hx : x ∈ t.left.inorder) : x ∈ (goLeft t).left.inorder := by
  unfold goLeft
  split
  · unfold moveL
    rcases t with _ | ⟨a, c, (_ | ⟨b, cb, bl, br⟩), (_ | ⟨d, cd, (_ | ⟨x, (_ | _), xl, xr⟩), dr⟩)⟩ <;>
      simp_all [flipT, Tree.setRight, rotR, rotL] <;> grind
  · exact hx

theorem goRight1_left {t : Tree} (h : t.left.red = true) : ∀ x ∈ (goRight1 t).left.inorder, x ∈ t.left.inorder := by
  unfold goRight1
  rw [if_pos h]
  rcases t with _ | ⟨a, c, (_ | ⟨b, cb, bl, br⟩), r⟩
  · simp at h
  · simp at h
  · intro x hx; simp only [rotR, left_node] at hx; simp [hx]

theorem goRight2_left (t : Tree) : ∀ x ∈ (goRight2 t).left.inorder, x ∈ t.left.inorder := by
  unfold goRight2
  split
  · unfold moveR
    rcases t with _ | ⟨a, c, (_ | ⟨b, cb, (_ | ⟨y, (_ | _), yl, yr⟩), br⟩), (_ | ⟨d, cd, dl, dr⟩)⟩ <;>
      simp [flipT, rotR] <;> intro x hx <;> grind
  · exact fun x hx => hx

/-- rbtree.hpp:493-497 on the heap. -/
theorem leanRight2_heap {kf : Addr → K} {key : K} {h : Heap V} {hd : Addr} {k : List Frame} {t : Tree}
    (w : Here keyOf kf h hd k t) (htne : t ≠ leaf) (hsib : poorT t.right = true → t.left ≠ leaf) :
    ∃ h', leanRight2 lt keyOf hd key (ctxEdge k) h = .ok ((), h') ∧
      Here keyOf kf h' hd k (goRight2 t) ∧ UpdN 1 (foot hd k t) h h' := by
  obtain ⟨hc, ht, hhd, hnd⟩ := repTree_zip.1 w.rep
  obtain ⟨k1, k2, k3, k4⟩ := ht.kids htne
  unfold leanRight2
  simp only [Prog.bind_app, hc.rd, Res.bind_ok, nd_eq k1, poor_eq k4, Prog.ite_app]
  by_cases hp : poorT t.right = true
  · have hr : t.right ≠ leaf := by intro e; rw [e] at hp; simp [poorT] at hp
    obtain ⟨h1, h2, e1, e2, r, u⟩ := step_local (k := k) (local_moveR (hsib hp) hr) (inorder_moveR t) w.rep
    have hg : goRight2 t = moveR t := by simp [goRight2, hp]
    have w2 : Here keyOf kf h2 hd k (moveR t) := w.step r (inorder_moveR t) u.data
    have hmne : moveR t ≠ leaf := ne_leaf_of_inorder (inorder_moveR t) htne
    have hm : (moveR t).addr ∈ (zip k (moveR t)).inorder := by
      rw [inorder_zip]
      cases hq : moveR t with
      | leaf => exact absurd hq hmne
      | node a c l s => simp
    obtain ⟨v, hv1, hv2⟩ := w2.keys _ hm
    rw [hg, if_pos hp]
    refine ⟨h2.tick 1, ?_, w2.step (w2.rep.tick 1) rfl rfl, (u.toN 0).trans (UpdN.tick 1 _ _) (by omega)⟩
    simp only [e1, Res.bind_ok, e2, (repTree_zip.1 r).1.rd, dataOf_eq hv1, less_app, Prog.pure_app]
  · have hg : goRight2 t = t := by simp [goRight2, hp]
    rw [hg, if_neg hp]
    exact ⟨h, rfl, w, UpdN.refl _ _ _⟩

/-- The loop of `remove` with any comparator. -/
theorem removeLoop_any (p : Nat) {kf : Addr → K} {key : K} {h : Heap V}
    {hd : Addr} {k : List Frame} {t tv : Tree} {n : Nat} {r : Bool} (par : Addr)
    (w : Here keyOf kf h hd k t) (hs : Clear lt kf key t.inorder)
    (hg : Good k n r) (hv : Virt k t tv)
    (hf : F1 tv n r ∨ (F2 tv n ∧ lt key (kf t.addr) = false)) (hp : pot tv n ≤ p) :
    Post lt kf key h hd k t p (removeLoop lt keyOf hd key (ctxEdge k) par h) := by
  induction p generalizing h k t tv n r par with
  | zero =>
    exfalso
    rcases hf with hf | ⟨hf, _⟩
    · have := hf.pot_pos; omega
    · have := hf.pot_pos; omega
  | succ p ih =>
    have htvne : tv ≠ leaf := by
      rcases hf with hf | ⟨hf, _⟩
      · exact hf.ne
      · exact hf.ne
    have htne : t ≠ leaf := by
      rintro rfl
      rcases hv with rfl | ⟨_, c, rfl⟩
      · exact htvne rfl
      · exact htvne rfl
    obtain ⟨hc, ht, hhd, hnd⟩ := repTree_zip.1 w.rep
    obtain ⟨k1, k2, k3, k4⟩ := ht.kids htne
    have hamem : t.addr ∈ t.inorder := by
      rcases t with _ | ⟨a, c, l, s⟩
      · exact absurd rfl htne
      · simp
    have hzmem : ∀ x ∈ t.inorder, x ∈ (zip k t).inorder := fun x hx => by rw [inorder_zip]; simp [hx]
    obtain ⟨v, hv1, hv2⟩ := w.keys t.addr (hzmem _ hamem)
    have tin : t.inorder = t.left.inorder ++ t.addr :: t.right.inorder := by
      rcases t with _ | ⟨a, c, l, s⟩
      · exact absurd rfl htne
      · rfl
    have hsn : lt key (kf t.addr) = false → ∀ x ∈ t.left.inorder, kf x ≠ key := by
      intro hn x hx e
      have hs' := hs
      rw [tin] at hs'
      have := (List.pairwise_append.1 hs').2.2 x hx t.addr (by simp) e
      rw [hn] at this; cases this
    have hgt : lt key (kf t.addr) = true → lt key key = false → Before lt kf key t.inorder →
        ∀ x ∈ t.inorder, x ∉ t.left.inorder → kf x ≠ key := by
      intro hn hi hb x hx hx' e
      rw [tin] at hb hx
      simp only [List.mem_append, List.mem_cons] at hx
      rcases hx with hx | rfl | hx
      · exact hx' hx
      · rw [e, hi] at hn; cases hn
      · have := (List.pairwise_cons.1 (List.pairwise_append.1 hb).2.1).1 x hx e
        rw [hn] at this; cases this
    -- unfold one round
    rw [removeLoop]
    simp only [Prog.bind_app, hc.rd, Res.bind_ok, if_neg k2, Prog.ite_app, nd_eq k1, dataOf_eq hv1, less_app, hv2]
    by_cases hless : lt key (kf t.addr) = true
    · -- go left
      have hF1 : F1 tv n r := by
        rcases hf with hf | ⟨_, hf⟩
        · exact hf
        · rw [hless] at hf; cases hf
      rw [if_pos hless]
      have hnp : poor t.left.addr (h.tick 1) = .ok (poorT t.left, h.tick 1) := poor_eq (k3.congr fun _ _ => rfl)
      have k1' : (h.tick 1).node t.addr = some ⟨ctxParent hd k, t.left.addr, t.right.addr, t.red⟩ := k1
      simp only [nd_eq k1', Res.bind_ok, hnp]
      by_cases hl : t.left = leaf
      · -- not found
        rw [hl]
        have hrd1 : rdE hd (ctxEdge k) (h.tick 1) = .ok (t.addr, h.tick 1) := (hc.congr (h' := h.tick 1) (fun _ _ => rfl)).rd
        simp only [poorT, Bool.false_eq_true, if_false, Prog.pure_app, Res.bind_ok, hrd1]
        rw [removeLoop]
        have : rdE hd (Edge.left t.addr) (h.tick 1) = .ok (0, h.tick 1) := by
          simp [rdE, nd_eq k1', hl]
        simp only [Prog.bind_app, this, Res.bind_ok, if_true, ite_true, Prog.pure_app]
        refine ⟨h.tick 1, k, t, 0, rfl, w.rep.tick 1, hg.close hv hF1.1 hF1.2.1,
          (UpdN.tick 1 _ h).mono (fun _ hx => hx) (by omega), Or.inl ⟨rfl, ?_, rfl⟩⟩
        intro hi hb x hx
        exact hgt hless hi hb x hx (by rw [hl]; simp)
      · obtain ⟨m, ru, hsf, hf', hpot⟩ := left_step hF1 (by rw [hv.left]; exact hl)
        have hsib : poorT t.left = true → t.right ≠ leaf := by
          intro hp1; rw [← hv.right]; exact hF1.sibling (by rw [hv.left]; exact hp1)
        obtain ⟨h1, hcase, r1, u1⟩ := goLeft_heap (w.rep.tick 1) hsib
        have hgne := goLeft_ne htne
        have hvg := hv.goLeft
        have hrd1 := (repTree_zip.1 r1).1.rd
        have w1 : Here keyOf kf h1 hd k (goLeft t) := w.step r1 (inorder_goLeft t) (by rw [u1.data]; rfl)
        have hs1 : Clear lt kf key (goLeft t).inorder := by rw [inorder_goLeft]; exact hs
        have hgood : Good (lframe (goLeft t) :: k) m ru := good_virt hg (hvg.lframe hgne) hsf
        have hres : ∀ par', Post lt kf key h1 hd (lframe (goLeft t) :: k) (goLeft t).left p
            (removeLoop lt keyOf hd key (.left (goLeft t).addr) par' h1) := by
          intro par'
          cases hgt : goLeft t with
          | leaf => exact absurd hgt hgne
          | node a c l s =>
            rw [hgt] at w1 hs1 hgood
            have w2 : Here keyOf kf h1 hd (.L a c s :: k) l := ⟨w1.rep, w1.keys⟩
            have s3 : Clear lt kf key l.inorder := hs1.sublist (by simp)
            have hfl : F1 l m ru := by have := hf'; rw [hvg.left, hgt] at this; exact this
            have hpl : pot l m ≤ p := by
              have := hpot; rw [hvg.left, hgt] at this; simp only [left_node] at this; omega
            exact ih par' w2 s3 hgood (Or.inl rfl) (Or.inl hfl) hpl
        have hlift : ∀ res, Post lt kf key h1 hd (lframe (goLeft t) :: k) (goLeft t).left p res →
            Post lt kf key h hd k t (p + 1) res := by
          intro res hr
          refine hr.lift (c := 1) ((UpdN.tick 1 _ h).trans (u1.toN 0) (by omega)) (by omega) ?_ ?_ ?_
          · rw [zip_cons, lframe_plug hgne, inorder_zip, inorder_zip, inorder_goLeft]
          · rw [← inorder_goLeft t]
            cases hq : goLeft t with
            | leaf => exact absurd hq hgne
            | node a c l s => exact List.sublist_append_left _ _
          · intro hi hb x hx hx'
            exact hgt hless hi hb x hx fun q => hx' (goLeft_left t q)
        rcases hcase with ⟨hp1, h0, e0, e0'⟩ | ⟨hp1, rfl⟩
        · simp only [hp1, if_true, Prog.bind_app, e0, Res.bind_ok, e0', hrd1]
          exact hlift _ (hres _)
        · simp only [hp1, Bool.false_eq_true, if_false, Prog.pure_app, Res.bind_ok, hrd1]
          exact hlift _ (hres _)
    · -- go right, or delete here
      have hnl : lt key (kf t.addr) = false := by simpa using hless
      have hln := hsn hnl
      rw [if_neg hless]
      -- descending to the right of `t1`
      have descR : ∀ (t1 : Tree) (h1 : Heap V) (c m : Nat) (ru : Bool) (par' : Addr),
          Here keyOf kf h1 hd k t1 → t1.inorder = t.inorder → t1 ≠ leaf →
          UpdN c (foot hd k t) h h1 → c ≤ 3 → kf t1.addr ≠ key → (∀ x ∈ t1.left.inorder, x ∈ t.left.inorder) →
          Good (rframe t1 :: k) m ru →
          (F1 t1.right m ru ∨ (F2 t1.right m ∧ lt key (kf t1.right.addr) = false)) → pot t1.right m ≤ p →
          Post lt kf key h hd k t (p + 1) (removeLoop lt keyOf hd key (.right t1.addr) par' h1) := by
        intro t1 h1 c m ru par' w1 hi1 hne1 hu1 hc3 hlt1 hll1 hg1 hf1 hp1
        have hs1 : Clear lt kf key t1.inorder := by rw [hi1]; exact hs
        rcases t1 with _ | ⟨a, cc, l, s⟩
        · exact absurd rfl hne1
        simp only [addr_node, right_node, left_node] at hlt1 hll1 hf1 hp1 ⊢
        have w2 : Here keyOf kf h1 hd (.R a cc l :: k) s := ⟨w1.rep, w1.keys⟩
        have s4 : Clear lt kf key s.inorder := hs1.sublist (by simp)
        have hr := ih par' w2 s4 hg1 (Or.inl rfl) hf1 hp1
        refine hr.lift hu1 hc3 ?_ ?_ ?_
        · rw [zip_cons, Frame.plug_R, inorder_zip, inorder_zip, hi1]
        · rw [← hi1]; simp
        · intro _ _ x hx hx'
          rw [← hi1] at hx
          simp only [inorder_node, List.mem_append, List.mem_cons] at hx
          rcases hx with hx | rfl | hx
          · exact hln x (hll1 x hx)
          · exact hlt1
          · exact absurd hx hx'
      have k1' : (h.tick 1).node t.addr = some ⟨ctxParent hd k, t.left.addr, t.right.addr, t.red⟩ := k1
      have hrd1 : rdE hd (ctxEdge k) (h.tick 1) = .ok (t.addr, h.tick 1) := (hc.congr (h' := h.tick 1) (fun _ _ => rfl)).rd
      have hir : isRed t.left.addr (h.tick 1) = .ok (t.left.red, h.tick 1) := isRed_eq (k3.congr fun _ _ => rfl)
      have w0 : Here keyOf kf (h.tick 1) hd k t := w.step (w.rep.tick 1) rfl rfl
      by_cases hlr : t.left.red = true
      · -- rotate right
        have hF1 : F1 tv n r := by
          rcases hf with hf | ⟨hf, _⟩
          · exact hf
          · obtain ⟨a, l, s, m, e, _, _, hl, _⟩ := hf
            rw [← hv.left, e, left_node, hl] at hlr; cases hlr
        obtain ⟨_, _, _, _, m, ru, hsf, hf', hpot⟩ := right_step1 hF1 (by rw [hv.left]; exact hlr)
        have hvg := hv.goRight1
        have hg1 : goRight1 t = rotR t := by simp [goRight1, hlr]
        obtain ⟨h1, h2, e1, e2, r2, u2⟩ := step_local (k := k) (local_rotR htne (red_ne hlr)) (inorder_rotR t) w0.rep
        rw [← hg1] at e1 e2 r2
        have hgne := goRight1_ne htne
        have w2 : Here keyOf kf h2 hd k (goRight1 t) := w0.step r2 (inorder_goRight1 t) u2.data
        have hx1 := goRight1_addr hlr
        have hkne' : kf (goRight1 t).addr ≠ key := hln _ hx1
        obtain ⟨v1, hv11, hv12⟩ := w2.keys (goRight1 t).addr (by
          rw [inorder_zip, inorder_goRight1, tin]; simp [hx1])
        have w3 : Here keyOf kf (h2.tick 1) hd k (goRight1 t) := w2.step (w2.rep.tick 1) rfl rfl
        obtain ⟨hc3, ht3, _, _⟩ := repTree_zip.1 w3.rep
        obtain ⟨q1, q2, q3, q4⟩ := ht3.kids hgne
        have hF : F1 (goRight1 t).right m ru := by have := hf'; rw [hvg.right] at this; exact this
        have hlean : leanRight lt keyOf hd key (ctxEdge k) false (h.tick 1) = .ok (lt key (kf (goRight1 t).addr), h2.tick 1) := by
          unfold leanRight
          simp only [Prog.bind_app, hrd1, Res.bind_ok, nd_eq k1', hir, Prog.ite_app, hlr, if_true, e1, e2,
            (repTree_zip.1 w2.rep).1.rd, dataOf_eq hv11, less_app, hv12]
        have hkne : ¬ (key = kf (goRight1 t).addr) := fun e => hkne' e.symm
        have hv11' : (h2.tick 1).data (goRight1 t).addr = some v1 := hv11
        have hl2 : leanRight2 lt keyOf hd key (ctxEdge k) (h2.tick 1) = .ok ((), h2.tick 1) := by
          unfold leanRight2
          simp only [Prog.bind_app, hc3.rd, Res.bind_ok, nd_eq q1, poor_eq q4, hF.not_poor, Bool.false_eq_true,
            if_false, Prog.ite_app, Prog.pure_app]
        simp only [hnl, hlean, Res.bind_ok, hc3.rd, dataOf_eq hv11', hv12, nd_eq q1, hkne, decide_false, Bool.and_false,
          Bool.false_and, Bool.false_eq_true, if_false, hl2]
        refine descR (goRight1 t) (h2.tick 1) 2 m ru _ w3 (inorder_goRight1 t) hgne ?_ (by omega) hkne' (goRight1_left hlr)
          (good_virt hg (hvg.rframe hgne) hsf) (Or.inl hF) ?_
        · exact ((UpdN.tick 1 _ h).trans (u2.toN 0) (Nat.le_refl 1)).trans (UpdN.tick 1 _ h2) (Nat.le_refl 2)
        · have := hpot; rw [hvg.right] at this; omega
      · have hlr : t.left.red = false := by simpa using hlr
        have hlean : leanRight lt keyOf hd key (ctxEdge k) false (h.tick 1) = .ok (false, h.tick 1) := by
          unfold leanRight
          simp only [Prog.bind_app, hrd1, Res.bind_ok, nd_eq k1', hir, Prog.ite_app, hlr, Bool.false_eq_true,
            if_false, Prog.pure_app]
        have hv1' : (h.tick 1).data t.addr = some v := hv1
        simp only [hnl, hlean, Res.bind_ok, hrd1, dataOf_eq hv1', hv2, nd_eq k1', Bool.not_false, Bool.true_and]
        have hr0 : t.right.addr = 0 ↔ t.right = leaf := k4.addr_eq_zero
        by_cases hrl : t.right = leaf
        · have hF1 : F1 tv n r := by
            rcases hf with hf | ⟨hf, _⟩
            · exact hf
            · exact absurd (by rw [hv.right]; exact hrl) (right_step3 hf true).2.2.1
          obtain ⟨hn0, hll⟩ := hF1.right_leaf (by rw [hv.left]; exact hlr) (by rw [hv.right]; exact hrl)
          rw [hv.left] at hll
          subst hn0
          by_cases hkey : key = kf t.addr
          · -- delete a leaf node
            have hcond : (decide (key = kf t.addr) && decide (t.right.addr = 0)) = true := by
              simp [hkey, hrl]
            simp only [hcond, if_true]
            have hnd' := nodup_right hnd
            obtain ⟨h2, e2, rc2, u2⟩ := (hc.congr (h' := h.tick 1) (fun _ _ => rfl)).wr hnd' 0
            have r2 : RepTree h2 hd (zip k leaf) := repTree_zip.2 ⟨rc2, trivial, hhd, by
              simp only [inorder_leaf, List.nil_append]; exact hnd'⟩
            simp only [Prog.bind_app, e2, Res.bind_ok, Prog.pure_app]
            refine ⟨h2, k, leaf, t.addr, rfl, r2, hg leaf rfl (by simp), ?_, Or.inr ⟨hamem, hkey.symm, pre k, post k, ?_, ?_⟩⟩
            · refine (UpdN.tick 1 _ h).trans (c' := 0) ((u2.toN 0).mono ?_ (Nat.le_refl _)) (by omega)
              intro y hy
              simp only [List.mem_singleton] at hy
              subst hy
              exact List.mem_append_right _ (ctxParent_mem hd k)
            · rw [inorder_zip, tin, hll, hrl]; simp
            · rw [inorder_zip]; simp
          · -- not found
            have hcond : (decide (key = kf t.addr) && decide (t.right.addr = 0)) = false := by
              simp [hkey]
            simp only [hcond, Bool.false_eq_true, if_false]
            have hl2 : leanRight2 lt keyOf hd key (ctxEdge k) (h.tick 1) = .ok ((), h.tick 1) := by
              unfold leanRight2
              have k4' : Rep (h.tick 1) t.right t.addr := k4.congr fun _ _ => rfl
              have hpz : poorT t.right = false := by rw [hrl]; rfl
              simp only [Prog.bind_app, hrd1, Res.bind_ok, nd_eq k1', poor_eq k4', hpz, Bool.false_eq_true,
                if_false, Prog.ite_app, Prog.pure_app]
            simp only [Prog.bind_app, hl2, Res.bind_ok, hrd1, dataOf_eq hv1', hv2, hkey, if_false, Prog.ite_app]
            rw [removeLoop]
            have : rdE hd (Edge.right t.addr) (h.tick 1) = .ok (0, h.tick 1) := by
              simp [rdE, nd_eq k1', hrl]
            simp only [Prog.bind_app, this, Res.bind_ok, if_true, ite_true, Prog.pure_app]
            refine ⟨h.tick 1, k, t, 0, rfl, w.rep.tick 1, hg.close hv hF1.1 hF1.2.1,
              (UpdN.tick 1 _ h).mono (fun _ hx => hx) (by omega), Or.inl ⟨rfl, ?_, rfl⟩⟩
            intro _ _ x hx
            rw [tin, hll, hrl] at hx
            simp only [inorder_leaf, List.nil_append, List.mem_cons, List.not_mem_nil, or_false] at hx
            subst hx
            exact fun e => hkey e.symm
        · -- the right subtree is not empty
          have hcond : (decide (key = kf t.addr) && decide (t.right.addr = 0)) = false := by
            have : t.right.addr ≠ 0 := fun e => hrl (hr0.1 e)
            simp [this]
          simp only [hcond, Bool.false_eq_true, if_false]
          have hsib : poorT t.right = true → t.left ≠ leaf := by
            intro hp1
            rcases hf with hf | ⟨hf, _⟩
            · rw [← hv.left]
              exact hf.sibling_right (by rw [hv.left]; exact hlr) (by rw [hv.right]; exact hp1)
            · obtain ⟨_, _, _, _, _, q, _⟩ := right_step3 hf true
              rw [hv.right] at q
              rw [q.not_poor] at hp1; cases hp1
          obtain ⟨h2, e2, w2, u2⟩ := leanRight2_heap (lt := lt) (key := key) w0 htne hsib
          have hgne := goRight2_ne htne
          have hvg := hv.goRight2
          have hu2 : UpdN 2 (foot hd k t) h h2 := (UpdN.tick 1 _ h).trans u2 (Nat.le_refl 2)
          obtain ⟨v1, hv11, hv12⟩ := w2.keys (goRight2 t).addr (by
            rw [inorder_zip]
            cases hq : goRight2 t with
            | leaf => exact absurd hq hgne
            | node a c l s => simp)
          have hrd2 := (repTree_zip.1 w2.rep).1.rd
          simp only [Prog.bind_app, e2, Res.bind_ok, hrd2, dataOf_eq hv11, hv12, Prog.ite_app]
          -- staying at the node: equal key deletes, otherwise descend
          have stay : (goRight2 t).addr = t.addr → ∀ m ru,
              (∀ a, SoundF (.R a (goRight2 tv).red (goRight2 tv).left) m ru n r) →
              F1 (goRight2 t).right m ru → pot (goRight2 t).right m ≤ p →
              Post lt kf key h hd k t (p + 1)
                (if key = kf (goRight2 t).addr then replaceByMin hd (ctxEdge k) h2
                 else removeLoop lt keyOf hd key (.right (goRight2 t).addr) (ctxParent hd k) h2) := by
            intro haeq m ru hsf hF hpt
            have hgoodA : ∀ a, Good (.R a (goRight2 t).red (goRight2 t).left :: k) m ru := by
              intro a
              refine good_virt hg ?_ (hsf a)
              rcases hvg with e | ⟨hk, c, e⟩
              · exact Or.inl (by rw [e])
              · exact Or.inr ⟨hk, ((goRight2 t).recolor c).red, by rw [e]; simp [Frame.recolor]⟩
            by_cases hkey : key = kf (goRight2 t).addr
            · rw [if_pos hkey]
              cases hq : goRight2 t with
              | leaf => exact absurd hq hgne
              | node a c l s =>
                rw [hq] at w2 hF hgoodA hkey haeq
                simp only [right_node, red_node, left_node, addr_node] at hF hgoodA hkey haeq
                obtain ⟨h3, o, s', e3, r3, i3, b3, b3', u3⟩ := replaceByMin_spec w2.rep hF
                have hio : (Tree.node a c l s).inorder = t.inorder := by rw [← hq]; exact inorder_goRight2 t
                refine ⟨h3, .R o c l :: k, s', a, e3, r3, hgoodA o s' b3 b3', ?_, Or.inr ⟨?_, hkey.symm,
                  pre k ++ l.inorder, (o :: s'.inorder) ++ post k, ?_, ?_⟩⟩
                · rw [foot_congr hio] at u3
                  exact hu2.trans (u3.toN 0) (by omega)
                · rw [haeq]; exact hamem
                · rw [inorder_zip, ← hio]; simp [i3]
                · rw [inorder_zip]; simp [pre, post]
            · rw [if_neg hkey]
              refine descR (goRight2 t) h2 2 m ru _ w2 (inorder_goRight2 t) hgne hu2 (by omega) (fun e => hkey e.symm)
                (goRight2_left t) (hgoodA _) (Or.inl hF) hpt
          rcases hf with hf | ⟨hf, _⟩
          · obtain ⟨_, hcase⟩ := right_step2 hf (by rw [hv.left]; exact hlr) (by rw [hv.right]; exact hrl)
            rcases hcase with ⟨c1, _, _, m, ru, hsf, hF, hpt⟩ | ⟨c1, c2, m, hsf, hF, hpt⟩
            · rw [hvg.addr, hv.addr] at c1
              rw [hvg.right] at hF hpt
              exact stay c1 m ru hsf hF (by omega)
            · rw [hvg.addr, hv.left] at c1
              rw [hvg.right, hv.addr] at c2
              rw [hvg.right] at hF hpt
              have hkne' : kf (goRight2 t).addr ≠ key := hln _ c1
              have hkne : ¬ (key = kf (goRight2 t).addr) := fun e => hkne' e.symm
              rw [if_neg hkne]
              exact descR (goRight2 t) h2 2 m false _ w2 (inorder_goRight2 t) hgne hu2 (by omega) hkne' (goRight2_left t)
                (good_virt hg (hvg.rframe hgne) hsf) (Or.inr ⟨hF, by rw [c2]; exact hnl⟩) (by omega)
          · obtain ⟨_, hg2, _, m, hsf, hF, hpt⟩ := right_step3 hf r
            rw [hv.right] at hF hpt
            have hnp := hF.not_poor
            have hgt : goRight2 t = t := by simp [goRight2, hnp]
            refine stay (by rw [hgt]) m true ?_ (by rw [hgt]; exact hF) (by rw [hgt]; omega)
            rw [hg2]; exact hsf

/-- `remove`: at most one node leaves the tree, one with the given key. -/
theorem remove_any {kf : Addr → K} (key : K) {h : Heap V} {hd : Addr} {t : Tree}
    (hr : RepTree h hd t) (hb : Balanced t) (hk : Keys keyOf h t.inorder kf) (hs : Clear lt kf key t.inorder) :
    ∃ h' t' d, remove lt keyOf hd key h = .ok (d, h') ∧ RepTree h' hd t' ∧ Balanced t' ∧
      UpdN (3 * (2 * Nat.log2 (t.size + 1))) (hd :: t.inorder) h h' ∧
      ((d = 0 ∧ (lt key key = false → Before lt kf key t.inorder → ∀ x ∈ t.inorder, kf x ≠ key) ∧ t'.inorder = t.inorder) ∨
       (kf d = key ∧ ∃ A B, t.inorder = A ++ d :: B ∧ t'.inorder = A ++ B)) := by
  obtain ⟨hblack, n, hbn⟩ := hb
  -- the loop
  have hloop : Post lt kf key h hd [] t (2 * n) (removeLoop lt keyOf hd key .root hd h) := by
    rcases t with _ | ⟨a, c, l, s⟩
    · have hrd : rdE hd .root h = .ok (0, h) := (repTree_zip (k := []) (t := leaf)).1 hr |>.1.rd
      refine ⟨h, [], leaf, 0, ?_, hr, ⟨rfl, 0, rfl⟩, UpdN.refl _ _ _, Or.inl ⟨rfl, by simp, rfl⟩⟩
      rw [removeLoop]
      simp [hrd, ctxParent]
    · simp only [red_node] at hblack
      subst hblack
      obtain ⟨m, rfl, b1, b2, b3⟩ := hbn
      have w : Here keyOf kf h hd [] (.node a false l s) := ⟨hr, hk⟩
      by_cases hl : l.red = true
      · exact removeLoop_any _ hd w hs (good_nil (m + 1) false) (Or.inl rfl)
          (Or.inl ⟨⟨m, rfl, b1, b2, b3⟩, by simp, Or.inr hl⟩) (by simp [pot])
      · exact removeLoop_any _ hd w hs (good_nil m true) (Or.inr ⟨rfl, true, rfl⟩)
          (Or.inl ⟨⟨b1, b2, by simpa using hl, b3⟩, fun _ => rfl, Or.inl rfl⟩)
          (by simp only [pot, recolor_node, red_node, if_true]; omega)
  obtain ⟨h1, k', t1, d, e1, r1, b1, u1, c1⟩ := hloop
  obtain ⟨h2, e2, r2, u2⟩ := climbLoop_spec r1
  have hfoot : ∀ y, y ∈ foot hd [] t → y ∈ hd :: t.inorder := by
    intro y hy; rw [(perm_zip hd [] t).mem_iff] at hy; exact hy
  have hsub : ∀ y ∈ (zip k' t1).inorder, y ∈ t.inorder := by
    intro y hy
    rcases c1 with ⟨_, _, c⟩ | ⟨_, _, A, B, c, c'⟩
    · rw [c] at hy; exact hy
    · rw [c'] at hy
      rw [zip_nil] at c
      rw [c]; simp at hy ⊢; grind
  have hn : n ≤ Nat.log2 (t.size + 1) := by
    have := hbn.height.2
    exact (Nat.le_log2 (by omega)).2 this
  have v2 : Upd (hd :: t.inorder) h1 h2 := u2.mono fun y hy => by
    rw [(perm_zip hd k' t1).mem_iff] at hy
    simp only [List.mem_cons] at hy ⊢
    rcases hy with rfl | hy
    · exact Or.inl rfl
    · exact Or.inr (hsub y hy)
  have v1 : UpdN (3 * (2 * Nat.log2 (t.size + 1))) (hd :: t.inorder) h h1 := u1.mono hfoot (by omega)
  have hcase : (d = 0 ∧ (lt key key = false → Before lt kf key t.inorder → ∀ x ∈ t.inorder, kf x ≠ key) ∧ (climb k' t1).inorder = t.inorder) ∨
       (kf d = key ∧ ∃ A B, t.inorder = A ++ d :: B ∧ (climb k' t1).inorder = A ++ B) := by
    rw [inorder_climb]
    rcases c1 with ⟨c, c', c''⟩ | ⟨_, c', c''⟩
    · exact Or.inl ⟨c, c', c''⟩
    · exact Or.inr ⟨c', c''⟩
  by_cases hz : climb k' t1 = leaf
  · refine ⟨h2, climb k' t1, d, ?_, r2, ?_, v1.trans (v2.toN 0) (by omega), hcase⟩
    · unfold remove
      have hro := root_of_zip r2
      rw [hz] at hro
      simp only [Prog.bind_app, e1, Res.bind_ok, e2, hro, addr_leaf, ne_eq, not_true_eq_false, if_false,
        Prog.pure_app, Prog.ite_app]
    · rw [hz]; exact ⟨rfl, 0, rfl⟩
  · obtain ⟨h3, e3, r3, u3⟩ := blackRoot_spec r2 hz
    refine ⟨h3, (climb k' t1).recolor BLACK, d, ?_, r3, b1, (v1.trans (v2.toN 0) (Nat.le_refl _)).trans (c' := 0)
      ((u3.toN 0).mono ?_ (Nat.le_refl _)) (Nat.le_refl _), by simpa using hcase⟩
    · unfold remove
      have hro := root_of_zip r2
      have hne : (climb k' t1).addr ≠ 0 := fun e => hz (r2.rep.addr_eq_zero.1 e)
      simp only [Prog.bind_app, e1, Res.bind_ok, e2, hro, ne_eq, hne, not_false_eq_true, if_true, e3,
        Prog.pure_app, Prog.ite_app]
    · intro y hy
      rw [inorder_climb] at hy
      simp only [List.mem_cons] at hy ⊢
      rcases hy with rfl | hy
      · exact Or.inl rfl
      · exact Or.inr (hsub y hy)

end Verif.Rb.AnyOrder
