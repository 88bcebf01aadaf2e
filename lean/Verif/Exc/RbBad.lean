import Verif.Exc.RbHist
import Verif.Rb.WeakErase
/-!
# What an interrupted `erase` of `ttl::map`/`ttl::set` breaks (C129)

`remove` recolours and turns the tree on its way down and repairs the colours on its way up. If a comparison throws in between, the colours stay out of
order. Two consequences: the root may be red, and then `--` takes it for the header; and the next `erase` may cut off an element that it was not asked
to erase.
-/
set_option linter.unusedVariables false
set_option linter.unusedSimpArgs false
set_option linter.unusedSectionVars false
namespace Verif.Exc.XRb
open Verif Verif.Rb Verif.Exc Tree
open Verif.Rb.AnyOrder (Here)
variable {K V : Type} [DecidableEq K] {lt : K → K → Bool} {keyOf : V → K} {S : St V} {n : Nat} {h : Heap V} {c : Addr}

theorem less_zero (a b : K) (h : Heap V) : less lt a b 0 h = .ok (.thrown, h) := rfl
theorem less_succ (a b : K) (k : Nat) (h : Heap V) : less lt a b (k + 1) h = .ok (.ret (lt a b) k, h.tick 1) := rfl
theorem same_succ (a b : K) (k : Nat) (h : Heap V) : same a b (k + 1) h = .ok (.ret (decide (a = b)) k, h) := rfl

/-! ## Small balanced trees -/

theorem bal_zero {t : Tree} (hb : Bal t 0) (hr : t.red = false) : t = leaf := by
  cases t with
  | leaf => rfl
  | node z kz _ _ =>
    have : kz = false := hr
    subst this
    obtain ⟨m', h0, _⟩ := hb; omega

theorem bal_zero' {t : Tree} (hb : Bal t 0) : t = leaf ∨ ∃ y, t = .node y true leaf leaf := by
  cases t with
  | leaf => exact .inl rfl
  | node z kz l r =>
    cases kz with
    | false => obtain ⟨m', h0, _⟩ := hb; omega
    | true =>
      obtain ⟨h1, h2, h3, h4⟩ := hb
      rw [bal_zero h1 h3, bal_zero h2 h4]
      exact .inr ⟨z, rfl⟩

theorem bal_one {t : Tree} (hb : Bal t 1) (hr : t.red = false) : ∃ x l, t = .node x false l leaf ∧ (l = leaf ∨ ∃ y, l = .node y true leaf leaf) := by
  cases t with
  | leaf => have : (1 : Nat) = 0 := hb; omega
  | node z kz l r =>
    have : kz = false := hr
    subst this
    obtain ⟨m, h0, h1, h2, h3⟩ := hb
    have : m = 0 := by omega
    subst this
    rw [bal_zero h2 h3]
    exact ⟨z, l, rfl, bal_zero' h1⟩

/-- The two balanced shapes with four nodes. -/
theorem four_shape {t : Tree} {a b c d : Addr} (hb : Balanced t) (i : t.inorder = [a, b, c, d]) :
    t = .node b false (.node a false leaf leaf) (.node d false (.node c true leaf leaf) leaf) ∨
    t = .node c false (.node b false (.node a true leaf leaf) leaf) (.node d false leaf leaf) := by
  obtain ⟨hr, n, hb⟩ := hb
  rcases t with _ | ⟨x, k, l, r⟩
  · simp at i
  have hk : k = false := hr
  subst hk
  obtain ⟨m, rfl, hl, hrr, hred⟩ := hb
  have hlen := congrArg List.length i
  simp only [inorder_node, List.length_append, List.length_cons, List.length_nil] at hlen
  have hl2 := hl.height.2
  have hr2 := hrr.height.2
  have hm : m = 0 ∨ m = 1 ∨ 2 ≤ m := by omega
  rcases hm with rfl | rfl | hm
  · rw [bal_zero hrr hred] at hlen
    rcases bal_zero' hl with q | ⟨y, q⟩ <;> rw [q] at hlen <;> simp at hlen
  · obtain ⟨z, rl, rfl, hrl⟩ := bal_one hrr hred
    have lb : l.red = false := by
      cases l with
      | leaf => rfl
      | node y ky ll lr =>
        cases ky with
        | false => rfl
        | true =>
          obtain ⟨h1, h2, h3, h4⟩ := hl
          obtain ⟨_, _, rfl, _⟩ := bal_one h1 h3
          obtain ⟨_, _, rfl, _⟩ := bal_one h2 h4
          simp at hlen
          omega
    obtain ⟨y, ll, rfl, hll⟩ := bal_one hl lb
    rcases hrl with rfl | ⟨p, rfl⟩ <;> rcases hll with rfl | ⟨q, rfl⟩
    · simp at hlen
    · simp at i; obtain ⟨rfl, rfl, rfl, rfl⟩ := i; exact .inr rfl
    · simp at i; obtain ⟨rfl, rfl, rfl, rfl⟩ := i; exact .inl rfl
    · simp at hlen
  · exfalso
    have : 2 ^ 2 ≤ 2 ^ m := Nat.pow_le_pow_right (by omega) hm
    rw [size_eq] at hl2 hr2
    omega

/-! ## Backward iteration -/

/-- The tree of three elements with all nodes red. -/
theorem red_root {h : Heap V} {hd a b d : Addr} {va vb : V}
    (r : RepTree h hd (.node b false (.node a false leaf leaf) (.node d false leaf leaf))) (da : h.data a = some va) (db : h.data b = some vb)
    (hab : lt (keyOf va) (keyOf vb) = true) :
    ∃ t, erase lt keyOf hd (keyOf va) 1 h = .ok (.thrown, t) ∧ RepTree t hd (.node b true (.node a true leaf leaf) (.node d true leaf leaf)) ∧
      t.data = h.data := by
  let T : Tree := .node b false (.node a false leaf leaf) (.node d false leaf leaf)
  have rz : RepTree (h.tick 1) hd (zip [] T) := r.tick 1
  obtain ⟨hc, ht, _, _⟩ := repTree_zip.1 (show RepTree h hd (zip [] T) from r)
  obtain ⟨k1, k2, k3, k4⟩ := ht.kids (by simp [T])
  have hrd : rdE hd .root h = .ok (b, h) := hc.rd
  obtain ⟨h1, h2, e1, e2, r2, u⟩ := step_local (k := []) (local_moveL (t := T) (by simp [T]) (by simp [T])) (inorder_moveL T) rz
  have hm : moveL T = .node b true (.node a true leaf leaf) (.node d true leaf leaf) := by simp [T, moveL, flipT]
  rw [hm] at e1 e2 r2
  have hrd2 : rdE hd .root h2 = .ok (b, h2) := (repTree_zip.1 r2).1.rd
  have k3' : Rep (h.tick 1) (.node a false leaf leaf) b := k3.congr fun _ _ => rfl
  obtain ⟨n1, z1, ⟨n2, z2, _, _⟩, _⟩ := r2.rep
  have hd2 : h2.data = h.data := u.data
  have e1' : moveLeft b (h.tick 1) = .ok (b, h1) := e1
  have e2' : wrE hd .root b h1 = .ok ((), h2) := e2
  have k1' : h.node b = some ⟨hd, a, d, false⟩ := k1
  have k1t : (h.tick 1).node b = some ⟨hd, a, d, false⟩ := k1
  have n1' : h2.node b = some ⟨hd, a, d, true⟩ := n1
  have n2' : h2.node a = some ⟨b, 0, 0, true⟩ := n2
  have hrl : rdE hd (.left b) h2 = .ok (a, h2) := by simp [rdE, nd_eq n1']
  refine ⟨h2, ?_, r2, hd2⟩
  have hl : removeLoop lt keyOf hd (keyOf va) .root hd 1 h = .ok (.thrown, h2) := by
    rw [removeLoop]
    simp only [Thr.bind_app, Thr.call_app, hrd, Res.bind_ok, Thr.after_ret, Thr.ite_app, if_neg z1, nd_eq k1', dataOf_eq db]
    rw [show (1 : Nat) = 0 + 1 from rfl]
    have pq : poor a (h.tick 1) = .ok (true, h.tick 1) := by
      have := poor_eq k3'
      simpa [poorT] using this
    simp only [less_succ, Res.bind_ok, Thr.after_ret, hab, if_true, Thr.bind_app, Thr.call_app, nd_eq k1t, pq, e1', e2', hrd2]
    rw [removeLoop]
    have dl2 : h2.data a = some va := by rw [hd2]; exact da
    simp only [Thr.bind_app, Thr.call_app, hrl, Res.bind_ok, Thr.after_ret, Thr.ite_app, if_neg z2, nd_eq n2', dataOf_eq dl2, less_zero, Thr.after_thrown]
  simp only [erase, remove, Thr.bind_app, hl, Res.bind_ok, Thr.after_thrown]

/-- **C129, counterexample.** In every container of three elements: `erase` of the first, left by an exception of the second comparison, leaves a red root.
Forward iteration still shows the three elements, but `--` on an iterator to the second one gives `end()`. -/
theorem backward_after_throw_fails (ho : StrictTotalOrder lt) (X : XReach lt keyOf S n h) (hc : c ∈ S.objs) (ok : (S.get c).ok = true) {e1 e2 e3 : Addr × V}
    (he : entries c h = .ok ([e1, e2, e3], h)) :
    ∃ t, exec lt keyOf S.objs (.base (.erase c (keyOf e1.2))) 1 h = .ok (.thrown, t) ∧ entries c t = .ok ([e1, e2, e3], t) ∧
      iterPrev e2.1 h = .ok (e1.1, h) ∧ iterPrev e2.1 t = .ok (c, t) := by
  obtain ⟨o, _, a, _⟩ := holds_of_entries ho X hc he
  have o0 := o
  rw [ok] at o
  obtain ⟨tr, r, b, i, d⟩ := o.owns
  have sh := Weak.three_shape b (by simpa using i)
  subst sh
  simp only [Ascending, List.pairwise_cons, List.mem_cons, List.not_mem_nil, or_false] at a
  obtain ⟨t, e, r', hd⟩ := red_root r (d e1 (by simp)) (d e2 (by simp)) (a.1 e2 (.inl rfl))
  have ee : exec lt keyOf S.objs (.base (.erase c (keyOf e1.2))) 1 h = .ok (.thrown, t) := by
    simp only [exec, call, Thr.bind_app, e, Res.bind_ok, Thr.after_thrown]
  refine ⟨t, ee, erase_interrupted ho X hc _ ee hc he, ?_, ?_⟩
  · obtain ⟨n1, z1, _, _⟩ := r.rep
    have n1' : h.node e2.1 = some ⟨c, e1.1, e3.1, false⟩ := n1
    have pv : prevNode e2.1 h = .ok (e1.1, h) := prevNode_spec r (A := [e1.1]) (x := e2.1) (B := [e3.1]) (by simp)
    simp only [iterPrev, Prog.bind_app, nd_eq n1', Res.bind_ok, Prog.ite_app, if_neg r.hd_ne, RED]
    exact pv
  · obtain ⟨n1, z1, _, _⟩ := r'.rep
    have n1' : t.node e2.1 = some ⟨c, e1.1, e3.1, true⟩ := n1
    have hh : t.node c = some ⟨e2.1, 0, 0, RED⟩ := r'.header
    have mx : maxNode c t = .ok (c, t) := by
      rw [maxNode]
      simp only [Prog.ite_app, if_neg r'.hd_ne, Prog.bind_app, nd_eq hh, Res.bind_ok, if_true, Prog.pure_app]
    simp only [iterPrev, Prog.bind_app, nd_eq n1', Res.bind_ok, Prog.ite_app, if_neg r'.hd_ne, nd_eq hh, mx, RED, beq_self_eq_true, if_true]

/-! ## The next `erase` -/

/-- The tree that loses an element: the right child `c` has a red right child `d`. -/
abbrev Skew (a b c d : Addr) : Tree := .node b false (.node a false leaf leaf) (.node c false leaf (.node d true leaf leaf))

/-- `erase` of the last of four elements, where the second is the root: the third `<` throws. -/
theorem skewed_one {h : Heap V} {hd a b c d : Addr} {vb vc vd : V}
    (r : RepTree h hd (.node b false (.node a false leaf leaf) (.node d false (.node c true leaf leaf) leaf))) (db : h.data b = some vb)
    (dc : h.data c = some vc) (dd : h.data d = some vd) (nbd : lt (keyOf vd) (keyOf vb) = false) (ebd : keyOf vd ≠ keyOf vb)
    (ndd : lt (keyOf vd) (keyOf vd) = false) :
    ∃ t, erase lt keyOf hd (keyOf vd) 4 h = .ok (.thrown, t) ∧ RepTree t hd (Skew a b c d) ∧ t.data = h.data ∧ t.next = h.next ∧
      ∀ x, (t.node x).isSome = (h.node x).isSome := by
  let T : Tree := .node b false (.node a false leaf leaf) (.node d false (.node c true leaf leaf) leaf)
  let D : Tree := .node d false (.node c true leaf leaf) leaf
  have rz : RepTree ((h.tick 1).tick 1) hd (zip [.R b false (.node a false leaf leaf)] D) := (r.tick 1).tick 1
  obtain ⟨hc, ht, _, _⟩ := repTree_zip.1 (show RepTree h hd (zip [] T) from r)
  obtain ⟨k1, k2, k3, k4⟩ := ht.kids (by simp [T])
  have hrd : rdE hd .root h = .ok (b, h) := hc.rd
  have hrd1 : rdE hd .root (h.tick 1) = .ok (b, h.tick 1) := (hc.congr (h' := h.tick 1) (fun _ _ => rfl)).rd
  obtain ⟨h1, h2, e1, e2, r2, u⟩ := step_local (local_rotR (t := D) (by simp [D]) (by simp [D])) (inorder_rotR D) rz
  have hm : rotR D = .node c false leaf (.node d true leaf leaf) := by simp [D, rotR]
  rw [hm] at e1 e2 r2
  have hrd2 : rdE hd (.right b) h2 = .ok (c, h2) := (repTree_zip.1 r2).1.rd
  have e1' : rotateRight d ((h.tick 1).tick 1) = .ok (c, h1) := e1
  have e2' : wrE hd (.right b) c h1 = .ok ((), h2) := e2
  have hd2 : h2.data = h.data := u.data
  have k1' : h.node b = some ⟨hd, a, d, false⟩ := k1
  have k1t : (h.tick 1).node b = some ⟨hd, a, d, false⟩ := k1
  have k1tt : ((h.tick 1).tick 1).node b = some ⟨hd, a, d, false⟩ := k1
  obtain ⟨m1, zd, ⟨m2, zc, _, _⟩, _⟩ := k4
  have m1' : (h.tick 1).node d = some ⟨b, c, 0, false⟩ := m1
  have m1tt : ((h.tick 1).tick 1).node d = some ⟨b, c, 0, false⟩ := m1
  have m2tt : ((h.tick 1).tick 1).node c = some ⟨d, 0, 0, true⟩ := m2
  obtain ⟨j1, za, _, _⟩ := k3
  have j1' : (h.tick 1).node a = some ⟨b, 0, 0, false⟩ := j1
  have redA : isRed a (h.tick 1) = .ok (false, h.tick 1) := by simp [isRed, za, nd_eq j1', RED]
  have redC : isRed c ((h.tick 1).tick 1) = .ok (true, (h.tick 1).tick 1) := by simp [isRed, zc, nd_eq m2tt, RED]
  have m2t : (h.tick 1).node c = some ⟨d, 0, 0, true⟩ := m2
  have poorD : poor d (h.tick 1) = .ok (false, h.tick 1) := by
    simp [poor, isRed, zd, zc, nd_eq m1', nd_eq m2t, RED]
  refine ⟨h2, ?_, r2, hd2, u.next, u.live⟩
  have db1 : (h.tick 1).data b = some vb := db
  have dd1 : (h.tick 1).data d = some vd := dd
  have dd2 : ((h.tick 1).tick 1).data d = some vd := dd
  have dc2 : h2.data c = some vc := by rw [hd2]; exact dc
  have hrr : rdE hd (.right b) (h.tick 1) = .ok (d, h.tick 1) := by simp [rdE, nd_eq k1t]
  have hrr2 : rdE hd (.right b) ((h.tick 1).tick 1) = .ok (d, (h.tick 1).tick 1) := by simp [rdE, nd_eq k1tt]
  have k2' : b ≠ 0 := k2
  have hl : removeLoop lt keyOf hd (keyOf vd) .root hd (0 + 1 + 1 + 1 + 1) h = .ok (.thrown, h2) := by
    rw [removeLoop]
    simp only [Thr.bind_app, Thr.call_app, hrd, Res.bind_ok, Thr.after_ret, Thr.ite_app, if_neg k2', nd_eq k1', dataOf_eq db, less_succ, nbd,
      Bool.false_eq_true, if_false, T, addr_node, leanRight, leafHere, leanRight2, hrd1, nd_eq k1t, redA, dataOf_eq db1, same_succ, ebd, decide_false, Bool.false_and,
      poorD, Thr.pure_app]
    rw [removeLoop]
    simp only [Thr.bind_app, Thr.call_app, hrr, Res.bind_ok, Thr.after_ret, Thr.ite_app, if_neg zd, nd_eq m1', dataOf_eq dd1, less_succ, ndd,
      Bool.false_eq_true, if_false, leanRight, hrr2, nd_eq m1tt, redC, if_true, e1', e2', hrd2, dataOf_eq dc2, less_zero, Thr.after_thrown]
  have hl4 : removeLoop lt keyOf hd (keyOf vd) .root hd 4 h = .ok (.thrown, h2) := hl
  simp only [erase, remove, Thr.bind_app, hl4, Res.bind_ok, Thr.after_thrown]

/-- `erase` of the last of four elements, where the third is the root: the second `<` throws. -/
theorem skewed_two {h : Heap V} {hd a b c d : Addr} {vb vc vd : V}
    (r : RepTree h hd (.node c false (.node b false (.node a true leaf leaf) leaf) (.node d false leaf leaf))) (db : h.data b = some vb)
    (dc : h.data c = some vc) (ncd : lt (keyOf vd) (keyOf vc) = false) (ecd : keyOf vd ≠ keyOf vc) :
    ∃ t, erase lt keyOf hd (keyOf vd) 2 h = .ok (.thrown, t) ∧ RepTree t hd (Skew a b c d) ∧ t.data = h.data ∧ t.next = h.next ∧
      ∀ x, (t.node x).isSome = (h.node x).isSome := by
  let T : Tree := .node c false (.node b false (.node a true leaf leaf) leaf) (.node d false leaf leaf)
  have rz : RepTree (h.tick 1) hd (zip [] T) := r.tick 1
  obtain ⟨hc, ht, _, _⟩ := repTree_zip.1 (show RepTree h hd (zip [] T) from r)
  obtain ⟨k1, k2, k3, k4⟩ := ht.kids (by simp [T])
  have hrd : rdE hd .root h = .ok (c, h) := hc.rd
  have hrd1 : rdE hd .root (h.tick 1) = .ok (c, h.tick 1) := (hc.congr (h' := h.tick 1) (fun _ _ => rfl)).rd
  obtain ⟨h1, h2, e1, e2, r2, u⟩ := step_local (local_moveR (t := T) (by simp [T]) (by simp [T])) (inorder_moveR T) rz
  have hm : moveR T = Skew a b c d := by simp [T, moveR, flipT, rotR]
  rw [hm] at e1 e2 r2
  have hrd2 : rdE hd .root h2 = .ok (b, h2) := (repTree_zip.1 r2).1.rd
  have e1' : moveRight c (h.tick 1) = .ok (b, h1) := e1
  have e2' : wrE hd .root b h1 = .ok ((), h2) := e2
  have hd2 : h2.data = h.data := u.data
  have k1' : h.node c = some ⟨hd, b, d, false⟩ := k1
  have k1t : (h.tick 1).node c = some ⟨hd, b, d, false⟩ := k1
  obtain ⟨j1, zb, _, _⟩ := k3
  have j1' : (h.tick 1).node b = some ⟨c, a, 0, false⟩ := j1
  have redB : isRed b (h.tick 1) = .ok (false, h.tick 1) := by simp [isRed, zb, nd_eq j1', RED]
  obtain ⟨m1, zd, _, _⟩ := k4
  have m1' : (h.tick 1).node d = some ⟨c, 0, 0, false⟩ := m1
  have poorD : poor d (h.tick 1) = .ok (true, h.tick 1) := by
    simp [poor, isRed, zd, nd_eq m1', RED]
  refine ⟨h2, ?_, r2, hd2, u.next, u.live⟩
  have dc1 : (h.tick 1).data c = some vc := dc
  have db2 : h2.data b = some vb := by rw [hd2]; exact db
  have k2' : c ≠ 0 := k2
  have hl : removeLoop lt keyOf hd (keyOf vd) .root hd (0 + 1 + 1) h = .ok (.thrown, h2) := by
    rw [removeLoop]
    simp only [Thr.bind_app, Thr.call_app, hrd, Res.bind_ok, Thr.after_ret, Thr.ite_app, if_neg k2', nd_eq k1', dataOf_eq dc, less_succ, ncd,
      Bool.false_eq_true, if_false, T, addr_node, leanRight, leafHere, leanRight2, hrd1, nd_eq k1t, redB, dataOf_eq dc1, same_succ, ecd, decide_false, Bool.false_and,
      poorD, Thr.pure_app, if_true, e1', e2', hrd2, dataOf_eq db2, less_zero, Thr.after_thrown]
  have hl2 : removeLoop lt keyOf hd (keyOf vd) .root hd 2 h = .ok (.thrown, h2) := hl
  simp only [erase, remove, Thr.bind_app, hl2, Res.bind_ok, Thr.after_thrown]

/-- `remove` of the root of the skewed tree cuts off `d` as well. -/
theorem remove_skew {h : Heap V} {hd a b c d : Addr} {va vb vc vd : V} (r : RepTree h hd (Skew a b c d)) (da : h.data a = some va) (db : h.data b = some vb)
    (dc : h.data c = some vc) (dd : h.data d = some vd) (irr : lt (keyOf vb) (keyOf vb) = false) :
    ∃ h', Rb.remove lt keyOf hd (keyOf vb) h = .ok (b, h') ∧ RepTree h' hd (.node c false (.node a true leaf leaf) leaf) ∧
      h'.data = h.data ∧ h'.next = h.next ∧ (∀ x, (h'.node x).isSome = (h.node x).isSome) := by
  let T : Tree := Skew a b c d
  have rz : RepTree h hd (zip [] T) := r
  have hk : Keys keyOf h [a, b, c, d] (kfOf keyOf (keyOf vb) h) := keys_of (es := [(a, va), (b, vb), (c, vc), (d, vd)]) (by
    intro e he
    simp only [List.mem_cons, List.not_mem_nil, or_false] at he
    rcases he with rfl | rfl | rfl | rfl <;> assumption)
  have w0 : Here keyOf (kfOf keyOf (keyOf vb) h) (h.tick 1) hd [] T := ⟨rz.tick 1, by
    intro x hx
    exact hk x (by simpa [T, Skew, zip] using hx)⟩
  obtain ⟨hc, ht, _, _⟩ := repTree_zip.1 rz
  obtain ⟨k1, k2, k3, k4⟩ := ht.kids (by simp [T])
  have hrd : rdE hd .root h = .ok (b, h) := hc.rd
  have hrd1 : rdE hd .root (h.tick 1) = .ok (b, h.tick 1) := (hc.congr (h' := h.tick 1) (fun _ _ => rfl)).rd
  have k1' : h.node b = some ⟨hd, a, c, false⟩ := k1
  have k1t : (h.tick 1).node b = some ⟨hd, a, c, false⟩ := k1
  obtain ⟨j1, za, _, _⟩ := k3
  have j1' : (h.tick 1).node a = some ⟨b, 0, 0, false⟩ := j1
  have redA : isRed a (h.tick 1) = .ok (false, h.tick 1) := by simp [isRed, za, nd_eq j1', RED]
  obtain ⟨m1, zc, _, _⟩ := k4
  obtain ⟨h2, e2, w2, u2⟩ := AnyOrder.leanRight2_heap (lt := lt) (key := keyOf vb) w0 (by simp [T]) (by simp [T])
  have hg : goRight2 T = .node b true (.node a true leaf leaf) (.node c true leaf (.node d true leaf leaf)) := by
    simp [T, goRight2, poorT, moveR, flipT]
  rw [hg] at w2
  have e2' : Rb.leanRight2 lt keyOf hd (keyOf vb) .root (h.tick 1) = .ok ((), h2) := e2
  have hrd2 : rdE hd .root h2 = .ok (b, h2) := (repTree_zip.1 w2.rep).1.rd
  have hrR : RepTree h2 hd (zip [.R b true (.node a true leaf leaf)] (.node c true leaf (.node d true leaf leaf))) := w2.rep
  obtain ⟨h3, e3, r3, u3⟩ := Weak.deleteMin_cuts hrR
  obtain ⟨h4, e4, r4, u4⟩ := replaceByMin_gen (k := []) (s' := leaf) w2.rep e3 r3 (by simp) (by simp) u3 (by
    have hn := w2.rep.nodup
    have hh := w2.rep.hd_not
    simp only [zip, inorder_node, inorder_leaf] at hn hh
    simp [foot, ctxNodes] at hn hh ⊢
    grind)
  have db1 : (h.tick 1).data b = some vb := db
  have db2 : h2.data b = some vb := by rw [u2.data]; exact db
  have hloop : Rb.removeLoop lt keyOf hd (keyOf vb) .root hd h = .ok ((b, ctxParent hd [.R c true (.node a true leaf leaf)]), h4) := by
    rw [Rb.removeLoop]
    have hlean : Rb.leanRight lt keyOf hd (keyOf vb) .root false (h.tick 1) = .ok (false, h.tick 1) := by
      unfold Rb.leanRight
      simp only [Prog.bind_app, hrd1, Res.bind_ok, nd_eq k1t, redA, Prog.ite_app, Bool.false_eq_true, if_false, Prog.pure_app]
    have k2' : b ≠ 0 := k2
    simp only [Prog.bind_app, hrd, Res.bind_ok, if_neg k2', Prog.ite_app, nd_eq k1', dataOf_eq db, less_app, irr,
      Bool.false_eq_true, if_false]
    simp only [hlean, Res.bind_ok, hrd1, dataOf_eq db1, nd_eq k1t, zc, decide_false, decide_true, Bool.and_false, Bool.true_and, Bool.not_false,
      Bool.false_eq_true, if_false, Prog.bind_app, e2', hrd2, dataOf_eq db2, Prog.ite_app, if_true]
    simpa [ctxEdge, ctxParent] using e4
  obtain ⟨h5, e5, r5, u5⟩ := climbLoop_spec r4
  have hcl : climb [.R c true (.node a true leaf leaf)] leaf = .node c true (.node a true leaf leaf) leaf := rfl
  rw [hcl] at r5
  obtain ⟨h6, e6, r6, u6⟩ := blackRoot_spec r5 (by simp)
  refine ⟨h6, ?_, by simpa using r6, ?_, ?_, ?_⟩
  · unfold Rb.remove
    have hro := root_of_zip r5
    simp only [addr_node] at hro e6
    simp only [Prog.bind_app, hloop, Res.bind_ok, e5, hro, ne_eq, zc, not_false_eq_true, if_true, e6, Prog.pure_app, Prog.ite_app]
  · rw [u6.data, u5.data, u4.data, u2.data]; rfl
  · rw [u6.next, u5.next, u4.next, u2.next]; rfl
  · intro x
    rw [u6.live, u5.live, u4.live, u2.live]; rfl

/-- **C129, counterexample.** In every container of four elements: `erase` of the last one, left by an exception at a certain comparison, leaves a tree in
which `erase` of the second element returns 1 and takes the last element away as well. The node of the last element is never freed. -/
theorem erase_after_throw_loses (ho : StrictTotalOrder lt) (X : XReach lt keyOf S n h) (hc : c ∈ S.objs) (ok : (S.get c).ok = true) {e0 e1 e2 e3 : Addr × V}
    (he : entries c h = .ok ([e0, e1, e2, e3], h)) :
    ∃ k t h', exec lt keyOf S.objs (.base (.erase c (keyOf e3.2))) k h = .ok (.thrown, t) ∧ entries c t = .ok ([e0, e1, e2, e3], t) ∧
      Rb.erase lt keyOf c (keyOf e1.2) t = .ok (1, h') ∧ entries c h' = .ok ([e0, e2], h') ∧ (h'.node e3.1).isSome ∧
      ∃ h'', destroy c h' = .ok ((), h'') ∧ (h''.node e3.1).isSome := by
  obtain ⟨o, _, a, _⟩ := holds_of_entries ho X hc he
  have nd := o.cells_nodup
  have o0 := o
  rw [ok] at o
  obtain ⟨tr, r, b, i, d⟩ := o.owns
  have irr : ∀ k, lt k k = false := ho.irrefl
  simp only [Ascending, List.pairwise_cons, List.mem_cons, List.not_mem_nil, or_false] at a
  have ne : ∀ {x y : V}, lt (keyOf x) (keyOf y) = true → keyOf y ≠ keyOf x ∧ lt (keyOf y) (keyOf x) = false := fun q =>
    ⟨fun e => (by rw [e, irr] at q; cases q), ho.asymm q⟩
  obtain ⟨k, t, e, rt, dt, nt, lt'⟩ : ∃ k t, erase lt keyOf c (keyOf e3.2) k h = .ok (.thrown, t) ∧ RepTree t c (Skew e0.1 e1.1 e2.1 e3.1) ∧ t.data = h.data ∧
      t.next = h.next ∧ ∀ x, (t.node x).isSome = (h.node x).isSome := by
    have x1 := ne (a.2.1 e3 (.inr rfl))
    have x2 := ne (a.2.2.1 e3 rfl)
    rcases four_shape b (by simpa using i) with q | q
    · subst q
      exact ⟨4, skewed_one r (d e1 (by simp)) (d e2 (by simp)) (d e3 (by simp)) x1.2 x1.1 (irr _)⟩
    · subst q
      exact ⟨2, skewed_two r (d e1 (by simp)) (d e2 (by simp)) x2.2 x2.1⟩
  have ee : exec lt keyOf S.objs (.base (.erase c (keyOf e3.2))) k h = .ok (.thrown, t) := by
    simp only [exec, call, Thr.bind_app, e, Res.bind_ok, Thr.after_thrown]
  have dat : ∀ x ∈ [e0, e1, e2, e3], t.data x.1 = some x.2 := by rw [dt]; exact d
  obtain ⟨h6, e6, r6, hd6, _, hl6⟩ := remove_skew (lt := lt) (keyOf := keyOf) rt (dat e0 (by simp)) (dat e1 (by simp)) (dat e2 (by simp)) (dat e3 (by simp)) (irr _)
  simp only [cells, List.map_cons, List.map_nil, List.nodup_cons, List.mem_cons, List.not_mem_nil, or_false, not_or] at nd
  obtain ⟨⟨c1, c2, c3, c4⟩, ⟨c5, c6, c7⟩, ⟨c8, c9⟩, c10, _⟩ := nd
  have hlive : ∀ x ∈ [e1.1, e3.1], (h6.node x).isSome := by
    intro x hx
    rw [hl6, lt']
    exact o0.cells_live (by simp [cells] at hx ⊢; grind)
  obtain ⟨ml, hml⟩ := Option.isSome_iff_exists.1 (hlive e1.1 (by simp))
  have z1 : e1.1 ≠ 0 := fun q => o0.zero_not (by simp [cells, q])
  have r7 : RepTree (h6.free e1.1) c (.node e2.1 false (.node e0.1 true leaf leaf) leaf) := by
    refine r6.congr fun x hx => ?_
    have : x ≠ e1.1 := by
      intro e; subst e
      simp at hx; grind
    simp [Heap.free, this]
  have hs7 : ((h6.free e1.1).node e3.1).isSome := by
    have : e3.1 ≠ e1.1 := fun e => c9 e.symm
    simp only [Heap.free, if_neg this]
    exact hlive e3.1 (by simp)
  obtain ⟨h8, e8, r8, fr⟩ := clear_spec r7
  refine ⟨k, t, h6.free e1.1, ee, erase_interrupted ho X hc _ ee hc he, ?_, ?_, hs7, h8.free c, ?_, ?_⟩
  · unfold Rb.erase
    simp [e6, z1, delNode, hml]
  · refine Weak.rep_entries r7 (by simp) ?_
    intro x hx
    have : x.1 ≠ e1.1 := by
      simp only [List.mem_cons, List.not_mem_nil, or_false] at hx
      rcases hx with rfl | rfl
      · exact c5
      · exact fun q => c8 q.symm
    simp only [Heap.free, if_neg this, hd6, dt]
    exact d x (by simp only [List.mem_cons, List.not_mem_nil, or_false] at hx ⊢; grind)
  · unfold destroy freeHeader
    simp only [Prog.bind_app, e8, Res.bind_ok, delNode, r8.header, if_neg r8.hd_ne]
  · have : e3.1 ≠ c := fun e => c4 e.symm
    simp only [Heap.free, if_neg this]
    rw [(fr.kept e3.1 (by simp; grind)).1, setNode_node_ne _ _ this]
    exact hs7

/-! ## Copies -/

/-- **C129, counterexample.** If the construction of element `k` throws while a container is copied, the `k` nodes constructed before are lost. -/
theorem copy_leaks (ho : StrictTotalOrder lt) (X : XReach lt keyOf S n h) (hc : c ∈ S.objs) {k : Nat} (hk : k < (S.get c).vals.length) :
    ∃ t, exec lt keyOf S.objs (.base (.copyOf c)) k h = .ok (.thrown, t) ∧ XReach lt keyOf S (n + k) t := by
  obtain ⟨es, o, ev, _, w⟩ := (X.inv ho).box hc
  obtain ⟨_, _, _, _, _, _, P⟩ := copyCtor_points w o
  obtain ⟨t, e, _⟩ := P.throws k (by rw [← ev] at hk; simpa using hk)
  have ee : exec lt keyOf S.objs (.base (.copyOf c)) k h = .ok (.thrown, t) := by
    simp only [exec, call, Thr.bind_app, e, Res.bind_ok, Thr.after_thrown]
  have lg : Legal S (.base (.copyOf c) : XCall K V) := ⟨⟨by simpa [Call.args] using hc, by simp⟩, by simp⟩
  rcases X.goes_on ho _ lg k with ⟨h', k', e', _⟩ | ⟨t', S', m, e', i, X'⟩
  · rw [ee] at e'; cases e'
  · rw [ee] at e'; cases e'
    obtain ⟨_, rfl, rfl⟩ := i
    exact ⟨t, ee, X'⟩

/-- **C129, counterexample.** If the construction of element `k` throws in `d = c`, the `k` nodes constructed before are lost; `d` is empty. -/
theorem assign_leaks (ho : StrictTotalOrder lt) (X : XReach lt keyOf S n h) {d : Addr} (hd : d ∈ S.objs) (hc : c ∈ S.objs) (hne : d ≠ c) {k : Nat}
    (hk : k < (S.get c).vals.length) :
    ∃ t, exec lt keyOf S.objs (.base (.assign d c)) k h = .ok (.thrown, t) ∧ XReach lt keyOf (S.put d true []) (n + k) t ∧ Shows t d [] := by
  have lg : Legal S (.base (.assign d c) : XCall K V) := ⟨⟨by intro a q; simp only [Call.args, List.mem_cons, List.not_mem_nil, or_false] at q; rcases q with rfl | rfl <;> assumption, fun a q => by cases q; exact hne rfl⟩, by simp⟩
  obtain ⟨bs, L, W, e, rfl, ha⟩ := X.inv ho
  subst e
  obtain ⟨A, b, B, e, hb⟩ := box_at hd
  obtain ⟨A', b', B', e', hb'⟩ := box_at hc
  have g : St.get (bs.map Box.cont) c = b'.cont := by subst e'; rw [← hb']; exact get_split W
  have m : b ∈ bs := by rw [e]; simp
  have m' : b' ∈ bs := by rw [e']; simp
  have hdis : ∀ x ∈ cells b'.hd b'.es, x ∉ cells b.hd b.es := by
    intro x hx hx'
    subst e
    simp only [List.mem_append, List.mem_cons] at m'
    have ne : b' ≠ b := fun q => hne (by rw [← hb, ← hb', q])
    refine (W.split.1 x hx').1 (List.mem_flatMap.2 ⟨b', ?_, hx⟩)
    simp only [List.mem_append]; grind
  obtain ⟨_, _, _, _, _, _, P⟩ := opAssign_points W.wf (W.holds b m) (W.holds b' m') hdis
  rw [hb, hb'] at P
  obtain ⟨t, q, o, _⟩ := P.throws k (by rw [g] at hk; simpa [Box.cont] using hk)
  have ee : exec lt keyOf (St.objs (bs.map Box.cont)) (.base (.assign d c)) k h = .ok (.thrown, t) := by
    simp only [exec, call, Thr.bind_app, q, Res.bind_ok, Thr.after_thrown]
  rcases X.goes_on ho _ lg k with ⟨h', k', e', _⟩ | ⟨t', S', m, e', i, X'⟩
  · rw [ee] at e'; cases e'
  · rw [ee] at e'; cases e'
    obtain ⟨_, rfl, rfl⟩ := i
    exact ⟨t, ee, X', ⟨[], o.entries, rfl⟩⟩

/-! ## These cases exist -/

/-- Every legal call returns if no exception appears. -/
theorem XReach.returns (ho : StrictTotalOrder lt) (X : XReach lt keyOf S n h) (q : XCall K V) (lg : Legal S q) :
    ∃ k h', exec lt keyOf S.objs q k h = .ok (.ret (spec lt keyOf S h.next q).objs 0, h') ∧ XReach lt keyOf (spec lt keyOf S h.next q) n h' := by
  obtain ⟨N, h', _, P⟩ := call_points ho (X.inv ho) q lg
  have := P.returns 0
  exact ⟨_, h', this, .returned q _ _ X lg this⟩

/-- There are containers with any elements. -/
theorem exists_xreach (ho : StrictTotalOrder lt) (vs : List V) : ∃ c h, XReach lt keyOf [⟨c, true, vs.foldl (addVal lt keyOf) []⟩] 0 h := by
  obtain ⟨k, h', _, X⟩ := (XReach.start (lt := lt) (keyOf := keyOf) fun _ => ⟨0, 0, 0, false⟩).returns ho (.ofRange vs) trivial
  exact ⟨_, h', X⟩

theorem xset3 : ∃ c h, XReach (fun a b : Nat => decide (a < b)) id [⟨c, true, [2, 5, 7]⟩] 0 h := exists_xreach natOrder [5, 2, 7]
theorem xset4 : ∃ c h, XReach (fun a b : Nat => decide (a < b)) id [⟨c, true, [1, 3, 5, 7]⟩] 0 h := exists_xreach natOrder [1, 3, 5, 7]

/-- A set of `{2, 5, 7}` whose `erase(2)` threw: the next statement of the program iterates, inserts 6 and destroys it; nothing is left. -/
example : ∃ c h, XReach (fun a b : Nat => decide (a < b)) id [⟨c, false, [2, 5, 6, 7]⟩] 0 h ∧
    ∃ h', XReach (fun a b : Nat => decide (a < b)) id [] 0 h' := by
  obtain ⟨c, h, X⟩ := xset3
  obtain ⟨sh, _⟩ := iteration natOrder X (c := c) (by simp [St.objs])
  obtain ⟨es, he, hv⟩ := sh
  have hv : es.map Prod.snd = [2, 5, 7] := by simpa [St.get] using hv
  obtain ⟨e1, e2, e3, rfl, q1, q2, q3⟩ : ∃ e1 e2 e3, es = [e1, e2, e3] ∧ e1.2 = 2 ∧ e2.2 = 5 ∧ e3.2 = 7 := by
    rcases es with _ | ⟨e1, _ | ⟨e2, _ | ⟨e3, _ | ⟨e4, es⟩⟩⟩⟩ <;> simp at hv
    exact ⟨e1, e2, e3, rfl, hv⟩
  obtain ⟨t, e, _⟩ := backward_after_throw_fails natOrder X (c := c) (by simp [St.objs]) (by simp [St.get]) he
  have lg : Legal [⟨c, true, [2, 5, 7]⟩] (.base (.erase c (id e1.2)) : XCall Nat Nat) := ⟨⟨by simp [Call.args, St.objs], by simp⟩, by simp [St.get]⟩
  rcases X.goes_on natOrder _ lg 1 with ⟨h', k', e', _⟩ | ⟨t', S', m, e', i, X'⟩
  · rw [e] at e'; cases e'
  · obtain ⟨rfl, rfl⟩ := i
    have X2 : XReach (fun a b : Nat => decide (a < b)) id [⟨c, false, [2, 5, 7]⟩] 0 t' := by simpa [St.put, St.get] using X'
    obtain ⟨_, t2, _, X3⟩ := X2.returns natOrder (.base (.insert c 6)) ⟨⟨by simp [Call.args, St.objs], by simp⟩, by simp⟩
    have X3 : XReach (fun a b : Nat => decide (a < b)) id [⟨c, false, [2, 5, 6, 7]⟩] 0 t2 := by simpa [spec, St.put, St.get, addVal] using X3
    obtain ⟨_, t3, _, X4⟩ := X3.returns natOrder (.base (.destroy c)) ⟨⟨by simp [Call.args, St.objs], by simp⟩, by simp⟩
    exact ⟨c, t2, X3, t3, by simpa [spec] using X4⟩

/-- `{1, 3, 5, 7}`: an interrupted `erase(7)`, then `erase(3)`, and 7 is gone. -/
example : ∃ (c : Addr) (h t h' : Heap Nat) (objs : List Addr) (k : Nat), Shows h c [1, 3, 5, 7] ∧
    exec (fun a b : Nat => decide (a < b)) id objs (.base (.erase c 7)) k h = .ok (.thrown, t) ∧ Shows t c [1, 3, 5, 7] ∧
    Rb.erase (fun a b : Nat => decide (a < b)) id c 3 t = .ok (1, h') ∧ Shows h' c [1, 5] := by
  obtain ⟨c, h, X⟩ := xset4
  obtain ⟨sh, _⟩ := iteration natOrder X (c := c) (by simp [St.objs])
  obtain ⟨es, he, hv⟩ := sh
  have hv : es.map Prod.snd = [1, 3, 5, 7] := by simpa [St.get] using hv
  obtain ⟨e0, e1, e2, e3, rfl, q0, q1, q2, q3⟩ : ∃ e0 e1 e2 e3, es = [e0, e1, e2, e3] ∧ e0.2 = 1 ∧ e1.2 = 3 ∧ e2.2 = 5 ∧ e3.2 = 7 := by
    rcases es with _ | ⟨e1, _ | ⟨e2, _ | ⟨e3, _ | ⟨e4, _ | ⟨e5, es⟩⟩⟩⟩⟩ <;> simp at hv
    exact ⟨e1, e2, e3, e4, rfl, hv⟩
  obtain ⟨k, t, h', e, s1, e', s2, _⟩ := erase_after_throw_loses natOrder X (c := c) (by simp [St.objs]) (by simp [St.get]) he
  have e : exec (fun a b : Nat => decide (a < b)) id _ (.base (.erase c (id e3.2))) k h = _ := e
  have e' : Rb.erase (fun a b : Nat => decide (a < b)) id c (id e1.2) t = _ := e'
  rw [id, q3] at e
  rw [id, q1] at e'
  exact ⟨c, h, t, h', _, k, ⟨_, he, hv⟩, e, ⟨_, s1, hv⟩, e', ⟨_, s2, by simp [q0, q2]⟩⟩

end Verif.Exc.XRb
