import Verif.Rb.Weak
/-!
# `erase(key)` with equivalent keys loses another element (C111)

`remove` turns the tree while it descends. If the node it stands on is equivalent to the key, the rotation of `move_right` may bring
up its left child, and when that is the node to be erased, `delete_min` is run on a subtree whose root has no left child but a right
one: it cuts the root off together with its right child.
-/
set_option linter.unusedSimpArgs false
set_option linter.unusedSectionVars false
set_option linter.unusedVariables false
namespace Verif.Rb.Weak
open Verif Tree
open Verif.Rb.AnyOrder (Keeps Grown Here)
variable {K V : Type} [DecidableEq K] {lt : K → K → Bool} {keyOf : V → K}

/-- Iteration over a search tree that need not be balanced. -/
theorem rep_entries {h : Heap V} {hd : Addr} {t : Tree} {es : List (Addr × V)} (r : RepTree h hd t)
    (i : t.inorder = es.map Prod.fst) (d : ∀ e ∈ es, h.data e.1 = some e.2) : entries hd h = .ok (es, h) := by
  have hb : begin_ hd h = .ok ((es.map Prod.fst).headD hd, h) := by
    unfold Rb.begin_
    simp only [Prog.bind_app, root_of_zip r, Res.bind_ok, Prog.ite_app, Prog.pure_app]
    by_cases ht : t = leaf
    · subst ht; rw [← i]; simp
    · rw [if_pos (fun e => ht (r.rep.addr_eq_zero.1 e)), minNode_spec r.rep ht hd, i]
  unfold Rb.entries
  simp only [Prog.bind_app, hb, Res.bind_ok]
  suffices hh : ∀ B A, es = A ++ B → walkFwd hd ((B.map Prod.fst).headD hd) A h = .ok (es, h) from hh es [] rfl
  intro B
  induction B with
  | nil => intro A e; rw [walkFwd]; simp [e]
  | cons x B ih =>
    intro A e
    have hx : x.1 ≠ hd := fun q => r.hd_not (by rw [i, ← q, e]; simp)
    have hn : nextNode x.1 h = .ok ((B.map Prod.fst).headD hd, h) :=
      nextNode_spec r (by rw [i, e, List.map_append, List.map_cons])
    rw [walkFwd]
    simp only [List.map_cons, List.headD_cons]
    rw [if_neg hx]
    simp only [Prog.bind_app, dataOf_eq (d x (by rw [e]; simp)), Res.bind_ok, hn]
    exact ih (A ++ [(x.1, x.2)]) (by rw [e]; simp)

/-- `delete_min` on a subtree whose root has no left child cuts off the root and everything to its right. -/
theorem deleteMin_cuts {h : Heap V} {hd : Addr} {k : List Frame} {x : Addr} {c : Bool} {r : Tree}
    (hr : RepTree h hd (zip k (.node x c leaf r))) :
    ∃ h', deleteMin hd (ctxEdge k) h = .ok (x, h') ∧ RepTree h' hd (zip k leaf) ∧ Upd (foot hd k (.node x c leaf r)) h h' := by
  obtain ⟨hc, ht, hne, hnd⟩ := repTree_zip.1 hr
  obtain ⟨h2, e2, rc2, u2⟩ := hc.wr (nodup_right hnd) 0
  have hx := ht.1
  have hrd := hc.rd
  simp only [addr_node] at hrd
  refine ⟨h2, ?_, repTree_zip.2 ⟨rc2, trivial, hne, by simpa using nodup_right hnd⟩, u2.mono fun y hy => ?_⟩
  · have hdm : dmDown hd (ctxEdge k) h = .ok (ctxEdge k, h) := by
      rw [dmDown]
      simp only [Prog.bind_app, hrd, Res.bind_ok, nd_eq hx, addr_leaf, ne_eq, not_true_eq_false, if_false, Prog.pure_app]
    unfold deleteMin
    simp only [Prog.bind_app, hdm, Res.bind_ok, hrd, nd_eq hx, e2]
    rw [dmUp]
    simp
  · simp only [List.mem_singleton] at hy
    subst hy
    simp [foot, ctxParent_mem hd k]

/-- The only balanced shape with three nodes. -/
theorem three_shape {t : Tree} {a b d : Addr} (hb : Balanced t) (i : t.inorder = [a, b, d]) :
    t = .node b false (.node a false .leaf .leaf) (.node d false .leaf .leaf) := by
  obtain ⟨hr, n, hb⟩ := hb
  rcases t with _ | ⟨x, k, l, r⟩
  · simp at i
  have hk : k = false := hr
  subst hk
  obtain ⟨m, rfl, hl, hrr, hred⟩ := hb
  have hlen := congrArg List.length i
  simp only [inorder_node, List.length_append, List.length_cons, List.length_nil] at hlen
  have hl2 := hl.height.2
  have hr2 := hrr.height.2
  have one : ∀ (t : Tree) (m : Nat), Bal t m → t.red = false → t.inorder.length = 1 → ∃ z, t = .node z false .leaf .leaf := by
    intro t m hb hr hlen
    rcases t with _ | ⟨z, kz, tl, tr⟩
    · simp at hlen
    · have : kz = false := hr
      subst this
      simp only [inorder_node, List.length_append, List.length_cons] at hlen
      have e1 : tl = .leaf := by
        cases tl with
        | leaf => rfl
        | node => simp only [inorder_node, List.length_append, List.length_cons] at hlen; omega
      have e2 : tr = .leaf := by
        cases tr with
        | leaf => rfl
        | node => simp only [inorder_node, List.length_append, List.length_cons] at hlen; omega
      subst e1 e2
      exact ⟨z, rfl⟩
  rcases r with _ | ⟨z, kz, rl, rr⟩
  · -- the left subtree would have two nodes and height 0
    exfalso
    have hm : m = 0 := hrr
    subst hm
    rcases l with _ | ⟨y, ky, ll, lr⟩
    · simp at hlen
    · cases ky with
      | false => obtain ⟨m', h0, _⟩ := hl; omega
      | true =>
        obtain ⟨h1, h2, h3, h4⟩ := hl
        have z0 : ∀ t : Tree, Bal t 0 → t.red = false → t = .leaf := by
          intro t hb hr
          cases t with
          | leaf => rfl
          | node z kz _ _ =>
            have : kz = false := hr
            subst this
            obtain ⟨m', h0, _⟩ := hb; omega
        have e1 := z0 ll h1 h3
        have e2 := z0 lr h2 h4
        subst e1 e2
        simp at hlen
  · have hkz : kz = false := hred
    subst hkz
    obtain ⟨m', rfl, q1, q2, q3⟩ := hrr
    rcases l with _ | ⟨y, ky, ll, lr⟩
    · have : m' + 1 = 0 := hl
      omega
    · simp only [inorder_node, List.length_append, List.length_cons] at hlen
      obtain ⟨z', e⟩ := one (.node z false rl rr) _ ⟨m', rfl, q1, q2, q3⟩ rfl (by simp only [inorder_node, List.length_append, List.length_cons]; omega)
      rw [e] at i ⊢
      have hll : ll.inorder.length + lr.inorder.length = 0 := by omega
      have e1 : ll = .leaf := by
        cases ll with
        | leaf => rfl
        | node => simp only [inorder_node, List.length_append, List.length_cons] at hll; omega
      have e2 : lr = .leaf := by
        cases lr with
        | leaf => rfl
        | node => simp only [inorder_node, List.length_append, List.length_cons] at hll; omega
      subst e1 e2
      cases ky with
      | true =>
        have : Bal leaf (m' + 1) := hl.1
        have : m' + 1 = 0 := this
        omega
      | false =>
        simp only [inorder_node, inorder_leaf, List.nil_append, List.cons_append, List.cons.injEq, and_true] at i
        obtain ⟨rfl, rfl, rfl⟩ := i
        rfl

/-- `remove` on the tree in which `t`, equivalent to the key of its left child `l`, has the right child `s`. -/
theorem remove_loses {h : Heap V} {hd w l t s : Addr} {kf : Addr → K} {key : K}
    (r : RepTree h hd (.node t false (.node l false (.node w true leaf leaf) leaf) (.node s false leaf leaf)))
    (hk : Keys keyOf h [w, l, t, s] kf) (hl : kf l = key) (hne : key ≠ kf t) (hnl : lt key (kf t) = false) :
    ∃ h', remove lt keyOf hd key h = .ok (l, h') ∧ RepTree h' hd (.node t false (.node w false leaf leaf) leaf) ∧
      h'.data = h.data ∧ h'.next = h.next ∧ (∀ x, (h'.node x).isSome = (h.node x).isSome) := by
  let T : Tree := .node t false (.node l false (.node w true leaf leaf) leaf) (.node s false leaf leaf)
  have rz : RepTree h hd (zip [] T) := r
  have w0 : Here keyOf kf (h.tick 1) hd [] T := ⟨rz.tick 1, by
    intro x hx
    exact hk x (by simpa [T, zip] using hx)⟩
  obtain ⟨hc, ht, _, _⟩ := repTree_zip.1 rz
  obtain ⟨v, hv1, hv2⟩ := hk t (by simp)
  obtain ⟨n1, z1, ⟨n2, z2, _, _⟩, _⟩ := r.rep
  have hrd : rdE hd .root h = .ok (t, h) := hc.rd
  have hrd1 : rdE hd .root (h.tick 1) = .ok (t, h.tick 1) := (hc.congr (h' := h.tick 1) (fun _ _ => rfl)).rd
  have n1' : (h.tick 1).node t = some ⟨hd, l, s, false⟩ := n1
  have n2' : (h.tick 1).node l = some ⟨t, w, 0, false⟩ := n2
  have hv1' : (h.tick 1).data t = some v := hv1
  have hir : isRed l (h.tick 1) = .ok (false, h.tick 1) := by
    unfold isRed
    simp only [if_neg z2, Prog.bind_app, nd_eq n2', Res.bind_ok, Prog.pure_app, Prog.ite_app]
    rfl
  obtain ⟨h2, e2, w2, u2⟩ := AnyOrder.leanRight2_heap (lt := lt) (key := key) w0 (by simp [T]) (by simp [T])
  have hg : goRight2 T = .node l false (.node w false leaf leaf) (.node t false leaf (.node s true leaf leaf)) := by
    simp [T, goRight2, poorT, moveR, flipT, rotR]
  rw [hg] at w2
  have e2' : leanRight2 lt keyOf hd key .root (h.tick 1) = .ok ((), h2) := e2
  obtain ⟨v2, hv21, hv22⟩ := w2.keys l (by simp [zip])
  have hrd2 : rdE hd .root h2 = .ok (l, h2) := (repTree_zip.1 w2.rep).1.rd
  have hrR : RepTree h2 hd (zip [.R l false (.node w false leaf leaf)] (.node t false leaf (.node s true leaf leaf))) := w2.rep
  obtain ⟨h3, e3, r3, u3⟩ := deleteMin_cuts hrR
  obtain ⟨h4, e4, r4, u4⟩ := replaceByMin_gen (k := []) (s' := leaf) w2.rep e3 r3 (by simp) (by simp) u3 (by
    have hn := w2.rep.nodup
    have hh := w2.rep.hd_not
    simp only [zip, inorder_node, inorder_leaf] at hn hh
    simp [foot, ctxNodes] at hn hh ⊢
    grind)
  have hloop : removeLoop lt keyOf hd key .root hd h = .ok ((l, ctxParent hd [.R t false (.node w false leaf leaf)]), h4) := by
    rw [removeLoop]
    have hlean : leanRight lt keyOf hd key .root false (h.tick 1) = .ok (false, h.tick 1) := by
      unfold leanRight
      simp only [Prog.bind_app, hrd1, Res.bind_ok, nd_eq n1', hir, Prog.ite_app, Bool.false_eq_true, if_false, Prog.pure_app]
    simp only [Prog.bind_app, hrd, Res.bind_ok, if_neg z1, Prog.ite_app, nd_eq n1, dataOf_eq hv1, less_app, hv2, hnl,
      Bool.false_eq_true, if_false]
    simp only [hlean, Res.bind_ok, hrd1, dataOf_eq hv1', hv2, nd_eq n1', hne, decide_false, Bool.and_false, Bool.false_and,
      Bool.false_eq_true, if_false, Prog.bind_app, e2', hrd2, dataOf_eq hv21, hv22, hl, Prog.ite_app, if_true]
    simpa [ctxEdge, ctxParent] using e4
  obtain ⟨h5, e5, r5, u5⟩ := climbLoop_spec r4
  have hcl : climb [.R t false (.node w false leaf leaf)] leaf = .node t false (.node w false leaf leaf) leaf := rfl
  rw [hcl] at r5
  obtain ⟨h6, e6, r6, u6⟩ := blackRoot_spec r5 (by simp)
  refine ⟨h6, ?_, by simpa using r6, ?_, ?_, ?_⟩
  · unfold remove
    have hro := root_of_zip r5
    simp only [addr_node] at hro e6
    simp only [Prog.bind_app, hloop, Res.bind_ok, e5, hro, ne_eq, z1, not_false_eq_true, if_true, e6, Prog.pure_app, Prog.ite_app]
  · rw [u6.data, u5.data, u4.data, u2.data]; rfl
  · rw [u6.next, u5.next, u4.next, u2.next]; rfl
  · intro x
    rw [u6.live, u5.live, u4.live, u2.live]; rfl

/-- Whenever two different keys `l` and `t` are equivalent and there are keys `w` less than them and `s ≠ t` not less than them: insert
values with the keys `l`, `t`, `s`, `w` into an empty set or map and erase `l`. The answer is 1, but two elements are gone: `s` too is
no longer reached by iteration. Its node is never freed, not even when the container is destroyed. -/
theorem erase_loses_equivalent (ho : StrictWeakOrder lt) {w l t s : V} (hne : keyOf l ≠ keyOf t)
    (hlt : lt (keyOf l) (keyOf t) = false) (htl : lt (keyOf t) (keyOf l) = false) (hwl : lt (keyOf w) (keyOf l) = true)
    (hst : keyOf s ≠ keyOf t) (hsl : keyOf s ≠ keyOf l) (hnst : lt (keyOf s) (keyOf t) = false) :
    ∃ c h xw xl xt xs, Grown lt keyOf [c] h ∧ entries c h = .ok ([(xw, w), (xl, l), (xt, t), (xs, s)], h) ∧
      ∃ h', erase lt keyOf c (keyOf l) h = .ok (1, h') ∧ entries c h' = .ok ([(xw, w), (xt, t)], h') ∧
        (h'.node xs).isSome ∧ ∃ h'', destroy c h' = .ok ((), h'') ∧ (h''.node xs).isSome := by
  have hwt : lt (keyOf w) (keyOf t) = true := ho.lt_of_lt_of_not_lt hwl htl
  have hnsl : lt (keyOf s) (keyOf l) = false := ho.negTrans _ _ _ hnst htl
  let j : Addr → RbNode := fun _ => ⟨0, 0, 0, false⟩
  have g0 : Grown lt keyOf [] (emptyMemory j) := .start j
  obtain ⟨ws, W, hw, _⟩ := inv_of ho g0
  obtain ⟨h1, q1, o1, f1, _, _⟩ := newTree_owns W.wf
  have g1 : Grown lt keyOf [1] h1 := g0.step .create ⟨by simp [Call.args], by simp⟩ (by simp [Keeps]) (by
    simp only [call, Prog.bind_app, q1, Res.bind_ok, Prog.pure_app]; rfl)
  have step : ∀ (es : List (Addr × V)) (h : Heap V) (v : V), Grown lt keyOf [1] h → Owns h 1 es →
      (∀ e ∈ es, keyOf e.2 ≠ keyOf v ∧ lt (keyOf v) (keyOf e.2) = false) →
      ∃ x h', Grown lt keyOf [1] h' ∧ Owns h' 1 (es ++ [(x, v)]) := by
    intro es h v g o hv
    obtain ⟨es', o', a', wf⟩ := owns_of ho g (c := 1) (by simp)
    have q := o.entries.symm.trans o'.entries
    simp only [Res.ok.injEq, Prod.mk.injEq, and_true] at q
    subst q
    obtain ⟨n, hn, hc⟩ := insertUnique_weak ho wf o a' v
    rcases hc with ⟨e, he, hk, q⟩ | ⟨A, B, h', rfl, hA, hB, q, o2, ef, _⟩
    · exact absurd hk (hv e he).1
    · have hB0 : B = [] := by
        cases B with
        | nil => rfl
        | cons y B =>
          have h1 := hB y (by simp)
          rw [(hv y (by simp)).2] at h1; cases h1
      subst hB0
      refine ⟨h.next, h', g.step (.insert 1 v) ⟨by simp [Call.args], by simp⟩ (by simp [Keeps]) (by simp only [call, Prog.bind_app, q, Res.bind_ok, Prog.pure_app]), ?_⟩
      simpa using o2
  obtain ⟨xl, h2, g2, o2⟩ := step [] h1 l g1 o1 (by simp)
  obtain ⟨xt, h3, g3, o3⟩ := step _ h2 t g2 o2 (by simp [hne, htl])
  obtain ⟨xs, h4, g4, o4⟩ := step _ h3 s g3 o3 (by simp [hst.symm, hsl.symm, hnsl, hnst])
  simp only [List.nil_append, List.cons_append] at o4
  obtain ⟨_, _, _, wf4⟩ := owns_of ho g4 (c := 1) (by simp)
  -- the fourth insertion
  have o4' := o4
  obtain ⟨tr, r4, b4, i4, d4⟩ := o4
  have hsh := three_shape b4 i4
  subst hsh
  let k : List Frame := [.L xl false leaf, .L xt false (.node xs false leaf leaf)]
  have hz : zip k leaf = .node xt false (.node xl false leaf leaf) (.node xs false leaf leaf) := rfl
  obtain ⟨n1, z1, ⟨n2, z2, _, _⟩, _⟩ := r4.rep
  have dt := d4 (xt, t) (by simp)
  have dl := d4 (xl, l) (by simp)
  simp only at dt dl
  have f1 : (h4.tick 1).node xt = some ⟨1, xl, xs, false⟩ := n1
  have f2 : (h4.tick 2).node xl = some ⟨xt, 0, 0, false⟩ := n2
  have dl' : (h4.tick 1).data xl = some l := dl
  have hloop : insUqLoop lt keyOf 1 (keyOf w) .root 1 h4 = .ok (.inr (ctxEdge k, ctxParent 1 k), h4.tick 2) := by
    have hh : rdE 1 .root h4 = .ok (xt, h4) := root_of_zip r4
    have hh1 : rdE 1 (.left xt) (h4.tick 1) = .ok (xl, h4.tick 1) := by simp [rdE, nd_eq f1]
    have hh2 : rdE 1 (.left xl) (h4.tick 2) = .ok (0, h4.tick 2) := by simp [rdE, nd_eq f2]
    rw [insUqLoop]
    simp only [Prog.bind_app, hh, Res.bind_ok, if_neg z1, dataOf_eq dt, less_app, Prog.ite_app, hwt, if_true]
    rw [insUqLoop]
    simp only [Prog.bind_app, hh1, Res.bind_ok, if_neg z2, dataOf_eq dl', less_app, Prog.ite_app, hwl, if_true, tick_tick]
    rw [insUqLoop]
    simp only [Prog.bind_app, hh2, Res.bind_ok, if_true, Prog.pure_app]
    rfl
  obtain ⟨h5, e5, o5, ef5, _, _⟩ := linkNew_owns (h := h4.tick 2) (hd := 1) (k := k) (A := []) (B := [(xl, l), (xt, t), (xs, s)]) w (wf4.tick 2)
    (by rw [hz]; exact r4.tick 2) (by rw [hz]; exact b4) rfl rfl (fun e he => d4 e he)
  obtain ⟨h5', e5', r5, _⟩ := linkNew_spec (h := h4.tick 2) (hd := 1) (k := k) w (by rw [hz]; exact r4.tick 2) (by
    intro x hx
    rw [mem_ctxNodes] at hx
    exact o4'.lt wf4 (by simp [k, pre, post, cells] at hx ⊢; grind))
  rw [e5] at e5'
  simp only [Res.ok.injEq, Prod.mk.injEq, true_and] at e5'
  subst e5'
  have hq : insertUnique lt keyOf 1 w h4 = .ok ((h4.next, true), h5) := by
    unfold insertUnique
    simp only [Prog.bind_app, hloop, Res.bind_ok, e5, Prog.pure_app]
    rfl
  have g5 : Grown lt keyOf [1] h5 := g4.step (.insert 1 w) ⟨by simp [Call.args], by simp⟩ (by simp [Keeps]) (by simp only [call, Prog.bind_app, hq, Res.bind_ok, Prog.pure_app])
  have hreb : (rebal k (.node (h4.tick 2).next RED leaf leaf)).recolor BLACK =
      .node xt false (.node xl false (.node h4.next true leaf leaf) leaf) (.node xs false leaf leaf) := by
    simp [k, rebal, Tree.fixup, fix1, fix2, fix3, zip, RED, BLACK]
    rfl
  rw [hreb] at r5
  have o5' := o5
  have hnx : (h4.tick 2).next = h4.next := rfl
  rw [hnx] at o5 o5'
  simp only [List.nil_append] at o5 o5'
  obtain ⟨tr5, _, _, i5, d5⟩ := o5
  have hkeys : Keys keyOf h5 [h4.next, xl, xt, xs] (kfOf keyOf (keyOf l) h5) := keys_of (es := [(h4.next, w), (xl, l), (xt, t), (xs, s)]) d5
  have kl := kfOf_mem (keyOf := keyOf) (dflt := keyOf l) (d5 (xl, l) (by simp))
  have kt := kfOf_mem (keyOf := keyOf) (dflt := keyOf l) (d5 (xt, t) (by simp))
  simp only at kl kt
  obtain ⟨h6, e6, r6, hd6, hn6, hl6⟩ := remove_loses (lt := lt) r5 hkeys kl (by rw [kt]; exact hne) (by rw [kt]; exact hlt)
  have hnd := o5'.cells_nodup
  simp only [cells, List.map_cons, List.map_nil, List.nodup_cons, List.mem_cons, List.not_mem_nil, or_false, not_or] at hnd
  obtain ⟨⟨c1, c2, c3, c4⟩, ⟨c5, c6, c7⟩, ⟨c8, c9⟩, c10, _⟩ := hnd
  have hlive : ∀ x ∈ [xl, xs], (h6.node x).isSome := by
    intro x hx
    rw [hl6]
    exact o5'.cells_live (by simp [cells] at hx ⊢; grind)
  obtain ⟨ml, hml⟩ := Option.isSome_iff_exists.1 (hlive xl (by simp))
  have r7 : RepTree (h6.free xl) 1 (.node xt false (.node h4.next false leaf leaf) leaf) := by
    refine r6.congr ?_
    intro x hx
    have : x ≠ xl := by
      intro e; subst e
      simp at hx; grind
    simp [Heap.free, this]
  have hs7 : ((h6.free xl).node xs).isSome := by
    have : xs ≠ xl := fun e => c9 e.symm
    simp only [Heap.free, if_neg this]
    exact hlive xs (by simp)
  obtain ⟨h8, e8, r8, fr⟩ := clear_spec r7
  refine ⟨1, h5, h4.next, xl, xt, xs, g5, o5'.entries, h6.free xl, ?_, ?_, hs7, h8.free 1, ?_, ?_⟩
  · unfold erase
    simp [e6, z2, delNode, hml]
  · refine rep_entries r7 (by simp) ?_
    intro e he
    have hd7 : ∀ x, x ≠ xl → (h6.free xl).data x = h5.data x := by
      intro x hx
      simp [Heap.free, hx, hd6]
    simp only [List.mem_cons, List.not_mem_nil, or_false] at he
    rcases he with rfl | rfl
    · rw [hd7 _ c5]; exact d5 (h4.next, w) (by simp)
    · rw [hd7 _ (fun e => c8 e.symm)]; exact d5 (xt, t) (by simp)
  · unfold destroy freeHeader
    simp only [Prog.bind_app, e8, Res.bind_ok, delNode, r8.header, if_neg r8.hd_ne]
  · have : xs ≠ 1 := fun e => c4 e.symm
    simp only [Heap.free, if_neg this]
    rw [(fr.kept xs (by simp; grind)).1, setNode_node_ne _ _ this]
    exact hs7

/-- Example: keys compared by their last decimal digit. After inserting 3, 13, 7, 1, `erase(3)` also loses 7. -/
example : ∃ c h xw xl xt xs, Grown (fun a b : Nat => decide (a % 10 < b % 10)) id [c] h ∧
    entries c h = .ok ([(xw, 1), (xl, 3), (xt, 13), (xs, 7)], h) ∧
    ∃ h', erase (fun a b : Nat => decide (a % 10 < b % 10)) id c 3 h = .ok (1, h') ∧ entries c h' = .ok ([(xw, 1), (xt, 13)], h') := by
  obtain ⟨c, h, xw, xl, xt, xs, g, e, h', q, e', _⟩ := erase_loses_equivalent (keyOf := id) lastDigit (w := 1) (l := 3) (t := 13) (s := 7)
    (by simp) (by simp) (by simp) (by simp) (by simp) (by simp) (by simp)
  exact ⟨c, h, xw, xl, xt, xs, g, e, h', q, e'⟩

end Verif.Rb.Weak
