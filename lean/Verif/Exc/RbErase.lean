import Verif.Exc.RbThrows
/-!
# `erase` and an exception

`erase` compares on its way down while it turns the tree. An exception there leaves a tree with the same elements in the same order, every node linked
as it should be, but colours that nobody repairs (ttl/rbtree.hpp:518-525 are skipped).
-/
set_option linter.unusedVariables false
set_option linter.unusedSimpArgs false
set_option linter.unusedSectionVars false
set_option linter.constructorNameAsVariable false
namespace Verif.Exc.XRb
open Verif Verif.Rb Verif.Exc Tree Lean.Order
variable {K V : Type} {α β σ : Type}

/-- However `x`, called in `s`, ends: if it returns, `Q` holds, if it throws, `P`. -/
structure Tri (P : σ → Prop) (x : Thr σ α) (s : σ) (Q : α → σ → Prop) : Prop where
  ret : ∀ k a k' t, x k s = .ok (.ret a k', t) → Q a t
  thrown : ∀ k t, x k s = .ok (.thrown, t) → P t

section
variable {P : σ → Prop} {s : σ} {Q : α → σ → Prop} {R : β → σ → Prop}

theorem tri_pure {a : α} (q : Q a s) : Tri P (pure a) s Q := ⟨fun k b k' t e => by cases e; exact q, fun k t e => by cases e⟩

theorem tri_call {p : Prog σ α} (q : ∀ a t, p s = .ok (a, t) → Q a t) : Tri P (Thr.call p) s Q :=
  ⟨fun k a k' t e => q a t (call_ret e).1, (throws_call (P := P)).out⟩

theorem Tri.bind {x : Thr σ α} {f : α → Thr σ β} (X : Tri P x s Q) (F : ∀ a t, Q a t → Tri P (f a) t R) : Tri P (x >>= f) s R := by
  refine ⟨fun k b k' t e => ?_, fun k t e => ?_⟩
  · simp only [Thr.bind_app] at e
    cases q : x k s with
    | diverge => rw [q] at e; cases e
    | ub f => rw [q] at e; cases e
    | ok y =>
      obtain ⟨o, s1⟩ := y
      rw [q] at e
      simp only [Res.bind_ok] at e
      cases o with
      | ret a k1 => exact (F a s1 (X.ret _ _ _ _ q)).ret _ _ _ _ e
      | thrown => cases e
  · simp only [Thr.bind_app] at e
    cases q : x k s with
    | diverge => rw [q] at e; cases e
    | ub f => rw [q] at e; cases e
    | ok y =>
      obtain ⟨o, s1⟩ := y
      rw [q] at e
      simp only [Res.bind_ok] at e
      cases o with
      | ret a k1 => exact (F a s1 (X.ret _ _ _ _ q)).thrown _ _ e
      | thrown => cases e; exact X.thrown _ _ q

theorem tri_ite {c : Prop} [Decidable c] {x y : Thr σ α} (X : c → Tri P x s Q) (Y : ¬c → Tri P y s Q) : Tri P (if c then x else y) s Q := by
  split
  · exact X ‹_›
  · exact Y ‹_›

/-- A part that throws nothing and whose result is known. -/
theorem tri_then {p : Prog σ α} {a : α} {t : σ} {f : α → Thr σ β} (e : p s = .ok (a, t)) (Y : Tri P (f a) t R) : Tri P (Thr.call p >>= f) s R :=
  (tri_call (Q := fun b u => b = a ∧ u = t) fun b u q => by rw [e] at q; cases q; exact ⟨rfl, rfl⟩).bind fun b u q => by rw [q.1, q.2]; exact Y

theorem tri_point (p : P s) : Tri P (Thr.point : Thr σ Unit) s fun _ t => t = s :=
  ⟨fun k a k' t e => point_ret e, fun k t e => (throws_point p).out k t e⟩

theorem Tri.throws {x : Thr σ α} (X : Tri P x s Q) : Throws x s P := ⟨X.thrown⟩

end

/-- The tree at `hd` still has the nodes `L` in this order. -/
def Kept (hd : Addr) (L : List Addr) (h t : Heap V) : Prop := ∃ tr, RepTree t hd tr ∧ tr.inorder = L ∧ ∃ c, UpdN c (hd :: L) h t

/-- On the way down: the subtree at the focus may have been turned. -/
structure Focus (hd : Addr) (L : List Addr) (h : Heap V) (k : List Frame) (t : Tree) (s : Heap V) : Prop where
  rep : RepTree s hd (zip k t)
  same : (zip k t).inorder = L
  ne : t ≠ leaf
  upd : ∃ c, UpdN c (hd :: L) h s
  zero : s.node 0 = none

theorem Focus.kept {hd : Addr} {L : List Addr} {h s : Heap V} {k : List Frame} {t : Tree} (f : Focus hd L h k t s) : Kept hd L h s :=
  ⟨_, f.rep, f.same, f.upd⟩

theorem Focus.tick {hd : Addr} {L : List Addr} {h s : Heap V} {k : List Frame} {t : Tree} (f : Focus hd L h k t s) (n : Nat) : Focus hd L h k t (s.tick n) := by
  obtain ⟨c, u⟩ := f.upd
  exact ⟨f.rep.tick n, f.same, f.ne, ⟨c + n, u.trans (UpdN.tick n _ s) (Nat.le_refl _)⟩, f.zero⟩

theorem foot_sub {hd : Addr} {k : List Frame} {t : Tree} {x : Addr} (hx : x ∈ foot hd k t) : x ∈ hd :: (zip k t).inorder := by
  rw [inorder_zip]
  simp only [List.mem_append, mem_ctxNodes, List.mem_cons] at hx ⊢
  grind

theorem flip_ok {n : Addr} {h h' : Heap V} {x : RbNode} (e : flipColors n h = .ok ((), h')) (hx : h.node n = some x) (h0 : h.node 0 = none) :
    x.left ≠ 0 ∧ x.right ≠ 0 := by
  have hn : n ≠ 0 := fun q => by rw [q, h0] at hx; cases hx
  have e' := e
  unfold flipColors at e
  simp only [Prog.bind_app, nd, hx, Res.bind_ok, setColor, upd, setNode_node_self] at e
  have hl : x.left ≠ 0 := by
    intro q
    rw [q, setNode_node_ne _ _ hn.symm, h0] at e
    cases e
  refine ⟨hl, fun q => ?_⟩
  by_cases hln : x.left = n
  · rw [hln] at e
    simp only [setNode_node_self, Res.bind_ok, q] at e
    rw [setNode_node_ne _ _ hn.symm, setNode_node_ne _ _ hn.symm, h0] at e
    cases e
  · rw [setNode_node_ne _ _ hln] at e
    cases hm : h.node x.left with
    | none => rw [hm] at e; cases e
    | some m =>
      rw [hm] at e
      simp only [Res.bind_ok, setNode_node_ne _ _ hln, hm, setNode_node_ne _ _ (Ne.symm hln), setNode_node_self, q] at e
      rw [setNode_node_ne _ _ (Ne.symm hl), setNode_node_ne _ _ hn.symm, h0] at e
      cases e

theorem Focus.kids {hd : Addr} {L : List Addr} {h s : Heap V} {k : List Frame} {t : Tree} (f : Focus hd L h k t s) :
    rdE hd (ctxEdge k) s = .ok (t.addr, s) ∧ s.node t.addr = some ⟨ctxParent hd k, t.left.addr, t.right.addr, t.red⟩ ∧ t.addr ≠ 0 ∧
      Rep s t.left t.addr ∧ Rep s t.right t.addr := by
  obtain ⟨hc, ht, hhd, hnd⟩ := repTree_zip.1 f.rep
  exact ⟨hc.rd, ht.kids f.ne⟩

theorem first_ok {f : Prog σ Unit} {g : Unit → Prog σ β} {s : σ} {r : β × σ} (e : (f >>= g) s = .ok r) : ∃ t, f s = .ok ((), t) := by
  simp only [Prog.bind_app] at e
  cases q : f s with
  | diverge => rw [q] at e; cases e
  | ub f => rw [q] at e; cases e
  | ok y => exact ⟨y.2, rfl⟩

theorem Focus.sides {hd : Addr} {L : List Addr} {h s : Heap V} {k : List Frame} {t : Tree} (f : Focus hd L h k t s) {u : Unit × Heap V}
    (e : flipColors t.addr s = .ok u) : t.left ≠ leaf ∧ t.right ≠ leaf := by
  obtain ⟨_, k1, _, k3, k4⟩ := f.kids
  have := flip_ok (h' := u.2) e k1 f.zero
  exact ⟨fun q => this.1 (by simp [q]), fun q => this.2 (by simp [q])⟩

/-- The subtree at the focus is turned. -/
theorem Focus.turn {hd : Addr} {L : List Addr} {h s : Heap V} {k : List Frame} {t t1 : Tree} (f : Focus hd L h k t s) {g : Addr → Prog (Heap V) Addr}
    (l : Local g t t1) (hi : t1.inorder = t.inorder) :
    ∃ s1 s2, g t.addr s = .ok (t1.addr, s1) ∧ wrE hd (ctxEdge k) t1.addr s1 = .ok ((), s2) ∧ Focus hd L h k t1 s2 := by
  obtain ⟨s1, s2, e1, e2, r, u⟩ := step_local l hi f.rep
  obtain ⟨c, uc⟩ := f.upd
  refine ⟨s1, s2, e1, e2, r, ?_, ne_leaf_of_inorder hi f.ne, ⟨c, uc.trans ((u.toN 0).mono (fun x hx => by rw [← f.same]; exact foot_sub hx) (Nat.le_refl _)) (Nat.le_refl _)⟩, ?_⟩
  · rw [inorder_zip, hi, ← inorder_zip]; exact f.same
  · have := u.live 0
    rw [f.zero] at this
    simpa using this

section Keyed
variable [DecidableEq K] (lt : K → K → Bool) (keyOf : V → K)

theorem tri_less {P : Heap V → Prop} {h : Heap V} (a b : K) (p : P h) : Tri P (less lt a b) h fun _ t => t = h.tick 1 :=
  (tri_point p).bind fun _ t e => tri_call fun c u q => by subst e; cases q; rfl

theorem tri_same {P : Heap V → Prop} {h : Heap V} (a b : K) (p : P h) : Tri P (same a b) h fun _ t => t = h :=
  (tri_point p).bind fun _ t e => tri_pure e

theorem tri_data {P : Heap V → Prop} {h : Heap V} (a : Addr) : Tri P (Thr.call (dataOf a)) h fun _ t => t = h := tri_call fun v t e => by
  simp only [dataOf] at e
  split at e <;> cases e
  rfl

theorem tri_leanRight {hd : Addr} {L : List Addr} {h s : Heap V} {k : List Frame} {t : Tree} (f : Focus hd L h k t s) (key : K) (b : Bool) :
    Tri (Kept hd L h) (leanRight lt keyOf hd key (ctxEdge k) b) s fun _ s' => ∃ t', Focus hd L h k t' s' := by
  obtain ⟨rd, k1, k2, k3, k4⟩ := f.kids
  refine tri_then (rd) ?_
  refine tri_then ((nd_eq k1)) ?_
  refine tri_then ((isRed_eq k3)) ?_
  refine tri_ite (fun hr => ?_) fun _ => tri_pure ⟨t, f⟩
  obtain ⟨s1, s2, e1, e2, f'⟩ := f.turn (local_rotR f.ne (red_ne hr)) (inorder_rotR t)
  refine tri_then (rd) ?_
  refine tri_then (e1) ?_
  refine tri_then (e2) ?_
  refine tri_then (f'.kids.1) ?_
  refine (tri_data _).bind fun v _ e => ?_
  subst e
  refine ⟨fun _ _ _ _ q => ⟨rotR t, ?_⟩, (tri_less lt _ _ f'.kept).thrown⟩
  rw [(tri_less (P := Kept hd L h) lt key (keyOf v) f'.kept).ret _ _ _ _ q]
  exact f'.tick 1

theorem tri_leanRight2 {hd : Addr} {L : List Addr} {h s : Heap V} {k : List Frame} {t : Tree} (f : Focus hd L h k t s) (key : K) :
    Tri (Kept hd L h) (leanRight2 lt keyOf hd key (ctxEdge k)) s fun _ s' => ∃ t', Focus hd L h k t' s' := by
  obtain ⟨rd, k1, k2, k3, k4⟩ := f.kids
  refine tri_then (rd) ?_
  refine tri_then ((nd_eq k1)) ?_
  refine tri_then ((poor_eq k4)) ?_
  refine tri_ite (fun hr => ?_) fun _ => tri_pure ⟨t, f⟩
  refine tri_then (rd) ?_
  refine (tri_call fun a t e => e).bind fun m s1 em => ?_
  obtain ⟨u, eu⟩ := first_ok em
  obtain ⟨hl, hr⟩ := f.sides eu
  obtain ⟨s1', s2, e1, e2, f'⟩ := f.turn (local_moveR hl hr) (inorder_moveR t)
  rw [e1] at em; cases em
  refine tri_then (e2) ?_
  refine tri_then (f'.kids.1) ?_
  refine (tri_data _).bind fun v _ e => ?_
  subst e
  refine (tri_less lt _ _ f'.kept).bind fun _ _ e => ?_
  subst e
  exact tri_pure ⟨_, f'.tick 1⟩

theorem tri_leafHere {hd : Addr} {L : List Addr} {h s : Heap V} {k : List Frame} {t : Tree} (f : Focus hd L h k t s) (key : K) (x : Addr) (b : Bool) :
    Tri (Kept hd L h) (leafHere keyOf key x b) s fun _ s' => s' = s := by
  refine tri_ite (fun _ => tri_pure rfl) fun _ => ?_
  refine (tri_data _).bind fun v _ e => ?_
  subst e
  refine (tri_same _ _ f.kept).bind fun _ _ e => ?_
  subst e
  refine (tri_call (Q := fun _ u => u = _) fun a u e => ?_).bind fun y _ e => tri_pure e
  simp only [nd] at e
  split at e <;> cases e
  rfl

/-- **`erase` on its way down.** If it throws, the nodes of the tree are the same, in the same order. -/
theorem throws_removeLoop (hd : Addr) (key : K) (L : List Addr) (h : Heap V) : ∀ (k : List Frame) (t : Tree) (s : Heap V) (par : Addr),
    RepTree s hd (zip k t) → (zip k t).inorder = L → (∃ c, UpdN c (hd :: L) h s) → s.node 0 = none →
    Throws (removeLoop lt keyOf hd key (ctxEdge k) par) s (Kept hd L h) := by
  intro k t s par r i u z
  have key' := removeLoop.fixpoint_induct lt keyOf hd key (motive := fun f => ∀ e par, ∀ (k : List Frame) (t : Tree) (s : Heap V), e = ctxEdge k →
    RepTree s hd (zip k t) → (zip k t).inorder = L → (∃ c, UpdN c (hd :: L) h s) → s.node 0 = none → Throws (f e par) s (Kept hd L h)) ?_ ?_
  · exact key' _ par k t s rfl r i u z
  · intro c hc ih e p k t s q r i u z
    refine ⟨fun n t' e' => ?_⟩
    obtain ⟨f, hf, e''⟩ := XVec.thr_sup_ok2 hc e'
    exact (ih f hf e p k t s q r i u z).out _ _ e''
  · intro f ih e p k t s q r i u z
    subst q
    refine Tri.throws (Q := fun _ _ => True) ?_
    have ih' : ∀ e p k t s, e = ctxEdge k → RepTree s hd (zip k t) → (zip k t).inorder = L → (∃ c, UpdN c (hd :: L) h s) → s.node 0 = none →
        Tri (Kept hd L h) (f e p) s fun _ _ => True :=
      fun e p k t s a b c d g => ⟨fun _ _ _ _ _ => trivial, (ih e p k t s a b c d g).out⟩
    refine tri_then ((repTree_zip.1 r).1.rd) ?_
    refine tri_ite (fun _ => tri_pure trivial) fun hne => ?_
    have htne : t ≠ leaf := fun q => hne (by simp [q])
    have F : Focus hd L h k t s := ⟨r, i, htne, u, z⟩
    refine tri_then ((nd_eq F.kids.2.1)) ?_
    refine (tri_data _).bind fun v _ e => ?_
    subst e
    refine (tri_less lt _ _ F.kept).bind fun isless _ e => ?_
    subst e
    have F1 := F.tick 1
    obtain ⟨rd, k1, k2, k3, k4⟩ := F1.kids
    refine tri_ite (fun hl => ?_) fun hl => ?_
    · refine tri_then ((nd_eq k1)) ?_
      refine tri_then ((poor_eq k3)) ?_
      have down : ∀ t s p, Focus hd L h k t s → Tri (Kept hd L h) (f (.left t.addr) p) s fun _ _ => True := by
        intro t s p F
        cases t with
        | leaf => exact absurd rfl F.ne
        | node a c l m => exact ih' _ p (.L a c m :: k) l s rfl F.rep F.same F.upd F.zero
      refine tri_ite (fun hp => ?_) fun hp => ?_
      · refine (tri_call fun a t e => e).bind fun m s1 em => ?_
        obtain ⟨u, eu⟩ := first_ok em
        obtain ⟨hl, hr⟩ := F1.sides eu
        obtain ⟨s1', s2, e1, e2, f'⟩ := F1.turn (local_moveL hl hr) (inorder_moveL t)
        rw [e1] at em; cases em
        refine tri_then (e2) ?_
        refine tri_then (f'.kids.1) ?_
        exact down _ _ _ f'
      · refine tri_then (rd) ?_
        exact down _ _ _ F1
    · refine (tri_leanRight lt keyOf F1 key isless).bind fun isless s2 e => ?_
      obtain ⟨t2, F2⟩ := e
      refine tri_then (F2.kids.1) ?_
      refine (tri_leafHere keyOf F2 key _ isless).bind fun b s3 e => ?_
      subst e
      refine tri_ite (fun _ => (tri_call fun _ _ _ => trivial).bind fun _ _ _ => tri_pure trivial) fun _ => ?_
      refine (tri_leanRight2 lt keyOf F2 key).bind fun _ s4 e => ?_
      obtain ⟨t3, F3⟩ := e
      refine tri_then (F3.kids.1) ?_
      refine (tri_data _).bind fun v _ e => ?_
      subst e
      refine (tri_same _ _ F3.kept).bind fun b _ e => ?_
      subst e
      refine tri_ite (fun _ => tri_call fun _ _ _ => trivial) fun _ => ?_
      cases t3 with
      | leaf => exact absurd rfl F3.ne
      | node a c l m => exact ih' _ _ (.R a c l :: k) m _ rfl F3.rep F3.same F3.upd F3.zero

/-- **`erase` and an exception**: the elements are the same, in the same order, the tree is linked as it should be. -/
theorem throws_erase {hd : Addr} {t : Tree} {h : Heap V} (r : RepTree h hd t) (z : h.node 0 = none) (key : K) :
    Throws (erase lt keyOf hd key) h (Kept hd t.inorder h) := by
  refine throws_bind (throws_bind (throws_removeLoop lt keyOf hd key _ h [] t h hd r rfl ⟨0, UpdN.refl _ _ _⟩ z) fun _ _ _ _ _ => ?_) fun _ _ _ _ _ => ?_
  · exact throws_call_any fun _ _ _ => throws_call_any fun _ _ _ => throws_pure
  · exact throws_call_any fun _ _ _ => throws_pure

end Keyed
end Verif.Exc.XRb
