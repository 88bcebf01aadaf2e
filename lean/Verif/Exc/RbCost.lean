import Verif.Exc.Cost
import Verif.Exc.RbAssign
import Verif.Exc.RbThrows
import Verif.Rb.ContainerProps2
/-!
# The cost of the members of `ttl::map` and `ttl::set`

`Spends w b x p`: where the member `p` of the model without exceptions returns, the throwing member `x` makes at most `b` operations that may throw (element
copies, calls of the comparator, `==` of keys) more than `w` times the number of comparator calls.
-/
set_option linter.unusedVariables false
set_option linter.unusedSectionVars false
set_option linter.constructorNameAsVariable false
namespace Verif.Exc.XRb
open Verif Verif.Rb Verif.Exc Lean.Order
variable {K V α β : Type}

/-- `p` calls no comparator. -/
structure Still (p : Prog (Heap V) α) : Prop where
  out : ∀ s a s', p s = .ok (a, s') → s'.cmps = s.cmps

theorem still_pure (a : α) : Still (pure a : Prog (Heap V) α) := ⟨fun s b s' e => by cases e; rfl⟩
theorem Still.bind {p : Prog (Heap V) α} {f : α → Prog (Heap V) β} (hp : Still p) (hf : ∀ a, Still (f a)) : Still (p >>= f) := by
  refine ⟨fun s b s' e => ?_⟩
  simp only [Prog.bind_app] at e
  cases q : p s with
  | diverge => rw [q] at e; cases e
  | ub f => rw [q] at e; cases e
  | ok y =>
    rw [q] at e
    exact ((hf y.1).out _ _ _ e).trans (hp.out _ _ _ q)
theorem still_ite {c : Prop} [Decidable c] {p q : Prog (Heap V) α} (hp : Still p) (hq : Still q) : Still (if c then p else q) := by split <;> assumption

theorem still_nd (a : Addr) : Still (nd (V := V) a) := ⟨fun s b s' e => by
  unfold nd at e; split at e
  · cases e; rfl
  · cases e⟩
theorem still_upd (a : Addr) (f : RbNode → RbNode) : Still (upd (V := V) a f) := ⟨fun s b s' e => by
  unfold upd at e; split at e
  · cases e; rfl
  · cases e⟩
theorem still_dataOf (a : Addr) : Still (dataOf (V := V) a) := ⟨fun s b s' e => by
  unfold dataOf at e; split at e
  · cases e; rfl
  · cases e⟩
theorem still_delNode (a : Addr) : Still (delNode (V := V) a) := ⟨fun s b s' e => by
  unfold delNode at e; split at e
  · cases e; rfl
  · split at e
    · cases e; rfl
    · cases e⟩
theorem still_newNode (v : V) : Still (Rb.newNode v) := ⟨fun s b s' e => by cases e; rfl⟩

theorem still_adm1 {A : Type} : admissible (fun p : A → Prog (Heap V) α => ∀ a, Still (p a)) := by
  intro c hc ih a
  refine ⟨fun s b s' e => ?_⟩
  obtain ⟨f, hf, e'⟩ := XVec.sup_ok1 hc e
  exact (ih f hf a).out s b s' e'
theorem still_adm2 {A B : Type} : admissible (fun p : A → B → Prog (Heap V) α => ∀ a b, Still (p a b)) := by
  intro c hc ih a b
  refine ⟨fun s y s' e => ?_⟩
  obtain ⟨f, hf, e'⟩ := XVec.sup_ok2 hc e
  exact (ih f hf a b).out s _ s' e'

/-- Closes goals `Still (do …)` from what is known of the parts. -/
macro "still" : tactic => `(tactic| repeat (first
  | exact still_pure _ | exact still_nd _ | exact still_upd _ _ | exact still_dataOf _ | exact still_delNode _ | exact still_newNode _
  | assumption | (intro _) | apply_assumption | refine Still.bind ?_ ?_ | refine still_ite ?_ ?_))

theorem still_setParent (a p : Addr) : Still (setParent (V := V) a p) := still_upd _ _
theorem still_setLeft (a p : Addr) : Still (setLeft (V := V) a p) := still_upd _ _
theorem still_setRight (a p : Addr) : Still (setRight (V := V) a p) := still_upd _ _
theorem still_setColor (a : Addr) (c : Bool) : Still (setColor (V := V) a c) := still_upd _ _
theorem still_rdE (hd : Addr) (e : Edge) : Still (rdE (V := V) hd e) := by cases e <;> exact (still_nd _).bind fun _ => still_pure _
theorem still_wrE (hd : Addr) (e : Edge) (x : Addr) : Still (wrE (V := V) hd e x) := by cases e <;> exact still_upd _ _
theorem still_rootOf (hd : Addr) : Still (rootOf (V := V) hd) := (still_nd _).bind fun _ => still_pure _
theorem still_isRed (n : Addr) : Still (isRed (V := V) n) := by unfold isRed; still
theorem still_flipColors (n : Addr) : Still (flipColors (V := V) n) := by unfold flipColors setColor; still
theorem still_edgeOf (hd n : Addr) : Still (edgeOf (V := V) hd n) := by unfold edgeOf rootOf; still
theorem still_rotateLeft (n : Addr) : Still (rotateLeft (V := V) n) := by unfold rotateLeft setColor setLeft setRight setParent; still
theorem still_rotateRight (n : Addr) : Still (rotateRight (V := V) n) := by unfold rotateRight setColor setLeft setRight setParent; still
theorem still_fixup (n : Addr) : Still (fixup (V := V) n) := by
  have := still_isRed (V := V); have := still_rotateLeft (V := V); have := still_rotateRight (V := V); have := still_flipColors (V := V)
  unfold fixup fix1 fix2 fix3; still
theorem still_rebalLoop (hd p : Addr) : Still (rebalLoop (V := V) hd p) := by
  refine rebalLoop.fixpoint_induct hd (motive := fun f => ∀ a, Still (f a)) still_adm1 (fun f ih a => ?_) p
  have := still_isRed (V := V); have := still_edgeOf (V := V) hd; have := still_fixup (V := V); have := still_rdE (V := V) hd; have := still_wrE (V := V) hd
  still
theorem still_insertRebalance (hd : Addr) (e : Edge) (p : Addr) : Still (insertRebalance (V := V) hd e p) := by
  have := still_rebalLoop (V := V) hd; have := still_rdE (V := V) hd; have := still_rootOf (V := V) hd
  unfold insertRebalance setColor setLeft setRight; still
theorem still_moveLeft (n : Addr) : Still (moveLeft (V := V) n) := by
  have := still_isRed (V := V); have := still_rotateLeft (V := V); have := still_rotateRight (V := V); have := still_flipColors (V := V)
  unfold moveLeft setRight; still
theorem still_moveRight (n : Addr) : Still (moveRight (V := V) n) := by
  have := still_isRed (V := V); have := still_rotateLeft (V := V); have := still_rotateRight (V := V); have := still_flipColors (V := V)
  unfold moveRight; still
theorem still_poor (n : Addr) : Still (poor (V := V) n) := by
  have := still_isRed (V := V)
  unfold poor; still
theorem still_dmDown (hd : Addr) (e : Edge) : Still (dmDown (V := V) hd e) := by
  refine dmDown.fixpoint_induct hd (motive := fun f => ∀ a, Still (f a)) still_adm1 (fun f ih a => ?_) e
  have := still_isRed (V := V); have := still_moveLeft (V := V); have := still_rdE (V := V) hd; have := still_wrE (V := V) hd
  still
theorem still_dmUp (hd : Addr) (r e : Edge) (p : Addr) : Still (dmUp (V := V) hd r e p) := by
  refine dmUp.fixpoint_induct hd r (motive := fun f => ∀ a b, Still (f a b)) still_adm2 (fun f ih a b => ?_) e p
  have := still_edgeOf (V := V) hd; have := still_fixup (V := V); have := still_rdE (V := V) hd; have := still_wrE (V := V) hd
  still
theorem still_replaceByMin (hd : Addr) (e : Edge) : Still (replaceByMin (V := V) hd e) := by
  have := still_dmUp (V := V) hd; have := still_dmDown (V := V) hd; have := still_rdE (V := V) hd; have := still_wrE (V := V) hd
  unfold replaceByMin deleteMin setColor setLeft setRight setParent; still
theorem still_climbLoop (hd p : Addr) : Still (climbLoop (V := V) hd p) := by
  refine climbLoop.fixpoint_induct hd (motive := fun f => ∀ a, Still (f a)) still_adm1 (fun f ih a => ?_) p
  have := still_edgeOf (V := V) hd; have := still_fixup (V := V); have := still_rdE (V := V) hd; have := still_wrE (V := V) hd
  still

theorem still_postorderDestroy (n : Addr) : Still (postorderDestroy (V := V) n) := by
  refine postorderDestroy.fixpoint_induct (motive := fun f => ∀ a, Still (f a)) still_adm1 (fun f ih a => ?_) n
  still
theorem still_clear (hd : Addr) : Still (clear (V := V) hd) := by
  have := still_postorderDestroy (V := V); have := still_wrE (V := V) hd; have := still_rootOf (V := V)
  unfold clear; still
theorem still_preorderCopy (n : Addr) : Still (Rb.preorderCopy (V := V) n) := by
  refine Rb.preorderCopy.fixpoint_induct (motive := fun f => ∀ a, Still (f a)) still_adm1 (fun f ih a => ?_) n
  unfold setColor setLeft setRight setParent
  still
theorem still_assign (hd other : Addr) : Still (Rb.assign (V := V) hd other) := by
  have := still_clear (V := V); have := still_preorderCopy (V := V); have := still_wrE (V := V) hd; have := still_rdE (V := V) hd; have := still_rootOf (V := V)
  unfold Rb.assign setParent; still
theorem still_opAssign (hd other : Addr) : Still (Rb.opAssign (V := V) hd other) := (still_clear _).bind fun _ => still_assign _ _
theorem still_newTree : Still (newTree (V := V)) := ⟨fun s b s' e => by cases e; rfl⟩
theorem still_copyCtor (other : Addr) : Still (Rb.copyCtor (V := V) other) :=
  still_newTree.bind fun _ => (still_assign _ _).bind fun _ => still_pure _

/-! ## Spending -/

structure Spends (w : Nat) (b : Int) (x : Thr (Heap V) α) (p : Prog (Heap V) α) : Prop where
  out : ∀ s a s', p s = .ok (a, s') → s.cmps ≤ s'.cmps ∧
    ∃ n : Nat, Points x s n a s' (fun _ _ => True) ∧ (n : Int) ≤ w * ((s'.cmps : Int) - s.cmps) + b

variable {w : Nat} {b c : Int}

theorem spends_pure (a : α) : Spends w 0 (pure a : Thr (Heap V) α) (pure a) := ⟨fun s b s' e => by
  cases e; exact ⟨Nat.le_refl _, 0, Points.pure_, by simp⟩⟩
theorem spends_call {p : Prog (Heap V) α} (q : Still p) : Spends w 0 (Thr.call p) p := ⟨fun s a s' e => by
  have c := q.out _ _ _ e
  exact ⟨by omega, 0, Points.call_ e, by rw [c]; simp⟩⟩
theorem Spends.imp {x : Thr (Heap V) α} {p : Prog (Heap V) α} (X : Spends w b x p) (l : b ≤ c) : Spends w c x p := ⟨fun s a s' e => by
  obtain ⟨m, n, P, q⟩ := X.out s a s' e
  exact ⟨m, n, P, by omega⟩⟩
theorem Spends.bind {x : Thr (Heap V) α} {p : Prog (Heap V) α} {f : α → Thr (Heap V) β} {g : α → Prog (Heap V) β} (X : Spends w b x p)
    (Y : ∀ a, Spends w c (f a) (g a)) : Spends w (b + c) (x >>= f) (p >>= g) := by
  refine ⟨fun s r s' e => ?_⟩
  simp only [Prog.bind_app] at e
  cases q : p s with
  | diverge => rw [q] at e; cases e
  | ub f => rw [q] at e; cases e
  | ok y =>
    rw [q] at e
    obtain ⟨l1, n, P, m1⟩ := X.out _ _ _ q
    obtain ⟨l2, m, Q, m2⟩ := (Y y.1).out _ _ _ e
    refine ⟨Nat.le_trans l1 l2, n + m, Points.seq P Q, ?_⟩
    have : (w : Int) * ((s'.cmps : Int) - s.cmps) = w * ((y.2.cmps : Int) - s.cmps) + w * ((s'.cmps : Int) - y.2.cmps) := by
      rw [← Int.mul_add]; congr 1; omega
    omega
theorem spends_ite {d : Prop} [Decidable d] {x y : Thr (Heap V) α} {p q : Prog (Heap V) α} (X : Spends w b x p) (Y : Spends w b y q) :
    Spends w b (if d then x else y) (if d then p else q) := by split <;> assumption

theorem spends_newNode (v : V) : Spends w 1 (newNode v) (Rb.newNode v) := ⟨fun s a s' e => by
  have c := (still_newNode v).out _ _ _ e
  exact ⟨by omega, 1, Points.seq (m := 0) (Points.point_ trivial) (Points.call_ e), by rw [c]; simp⟩⟩
theorem spends_less (lt : K → K → Bool) (x y : K) : Spends (V := V) w (1 - w) (less lt x y) (Rb.less lt x y) := ⟨fun s a s' e => by
  have c : s'.cmps = s.cmps + 1 := by cases e; rfl
  refine ⟨by omega, 1, Points.seq (m := 0) (Points.point_ trivial) (Points.call_ e), ?_⟩
  rw [c]
  have : (w : Int) * (((s.cmps + 1 : Nat) : Int) - s.cmps) = w := by
    rw [show (((s.cmps + 1 : Nat) : Int) - s.cmps) = 1 by omega, Int.mul_one]
  omega⟩
theorem spends_same [DecidableEq K] (x y : K) : Spends (V := V) w 1 (same x y) (pure (decide (x = y))) := ⟨fun s a s' e => by
  cases e
  exact ⟨Nat.le_refl _, 1, Points.seq (m := 0) (Points.point_ trivial) Points.pure_, by simp⟩⟩
theorem spends_same_ite [DecidableEq K] (a d : K) {x y : Thr (Heap V) α} {p q : Prog (Heap V) α} (hx : Spends w b x p) (hy : Spends w b y q) :
    Spends w (1 + b) (do let e ← same a d; if e then x else y) (if a = d then p else q) := by
  refine ⟨fun s r s' e => ?_⟩
  refine ((spends_same a d).bind (f := fun e => if e then x else y) (g := fun e => if e then p else q) fun e => spends_ite hx hy).out s r s' ?_
  simp only [Prog.bind_app, Prog.pure_app, Res.bind_ok, decide_eq_true_eq]
  exact e
theorem spends_adm1 {A : Type} (x : A → Thr (Heap V) α) : admissible (fun p : A → Prog (Heap V) α => ∀ a, Spends w b (x a) (p a)) := by
  intro c hc ih a
  refine ⟨fun s b s' e => ?_⟩
  obtain ⟨f, hf, e'⟩ := XVec.sup_ok1 hc e
  exact (ih f hf a).out s b s' e'
theorem spends_adm2 {A B : Type} (x : A → B → Thr (Heap V) α) : admissible (fun p : A → B → Prog (Heap V) α => ∀ a d, Spends w b (x a d) (p a d)) := by
  intro c hc ih a b
  refine ⟨fun s y s' e => ?_⟩
  obtain ⟨f, hf, e'⟩ := XVec.sup_ok2 hc e
  exact (ih f hf a b).out s _ s' e'

section Keyed
variable [DecidableEq K] (lt : K → K → Bool) (keyOf : V → K)

theorem spends_findLoop (key : K) (n : Addr) : Spends 2 0 (findLoop lt keyOf key n) (Rb.findLoop lt keyOf key n) := by
  refine Rb.findLoop.fixpoint_induct lt keyOf key (motive := fun f => ∀ n, Spends 2 0 (findLoop lt keyOf key n) (f n)) (spends_adm1 _) (fun f ih n => ?_) n
  rw [findLoop]
  refine spends_ite (spends_pure _) (((spends_call (still_dataOf _)).bind (c := 0) fun v => ((spends_less lt _ _).bind (c := 1) fun b => ?_).imp (by decide)).imp (by decide))
  exact spends_ite (((spends_call (still_nd _)).bind fun x => ih _).imp (by decide))
    ((spends_same_ite _ _ (spends_pure _) (((spends_call (still_nd _)).bind fun x => ih _).imp (by decide))).imp (by decide))

theorem spends_find (hd : Addr) (key : K) : Spends 2 0 (find lt keyOf hd key) (Rb.find lt keyOf hd key) :=
  (spends_call (still_rootOf _)).bind fun r => (spends_findLoop lt keyOf key r).bind fun n => spends_pure _

theorem spends_lowerLoop (key : K) (n prev : Addr) : Spends 1 0 (lowerLoop lt keyOf key n prev) (Rb.lowerLoop lt keyOf key n prev) := by
  refine Rb.lowerLoop.fixpoint_induct lt keyOf key (motive := fun f => ∀ n p, Spends 1 0 (lowerLoop lt keyOf key n p) (f n p)) (spends_adm2 _) (fun f ih n p => ?_) n prev
  rw [lowerLoop]
  exact spends_ite (spends_pure _) ((spends_call (still_dataOf _)).bind fun v => (spends_less lt _ _).bind fun b =>
    spends_ite ((spends_call (still_nd _)).bind fun x => ih _ _) ((spends_call (still_nd _)).bind fun x => ih _ _))

theorem spends_lowerBound (hd : Addr) (key : K) : Spends 1 0 (lowerBound lt keyOf hd key) (Rb.lowerBound lt keyOf hd key) :=
  (spends_call (still_rootOf _)).bind fun r => spends_lowerLoop lt keyOf key r hd

theorem spends_insUqLoop (hd : Addr) (key : K) (e : Edge) (parent : Addr) : Spends 2 0 (insUqLoop lt keyOf hd key e parent) (Rb.insUqLoop lt keyOf hd key e parent) := by
  refine Rb.insUqLoop.fixpoint_induct lt keyOf hd key (motive := fun f => ∀ e p, Spends 2 0 (insUqLoop lt keyOf hd key e p) (f e p)) (spends_adm2 _) (fun f ih e p => ?_) e parent
  rw [insUqLoop]
  refine ((spends_call (still_rdE _ _)).bind (c := 0) fun x => spends_ite (spends_pure _) (((spends_call (still_dataOf _)).bind (c := 0) fun v =>
    ((spends_less lt _ _).bind (c := 1) fun b => spends_ite ((ih _ _).imp (by decide)) ?_).imp (by decide)).imp (by decide))).imp (by decide)
  exact (spends_same_ite _ _ (spends_pure _) (ih _ _)).imp (by decide)

theorem spends_linkNew (hd : Addr) (v : V) (e : Edge) (parent : Addr) : Spends w 1 (linkNew hd v e parent) (Rb.linkNew hd v e parent) :=
  (spends_newNode v).bind fun n => (spends_call (still_setParent _ _)).bind fun _ => (spends_call (still_wrE _ _ _)).bind fun _ =>
    (spends_call (still_insertRebalance _ _ _)).bind fun _ => spends_pure _

/-- `insert` makes an element only if it returns `true`. -/
theorem insertUnique_spends {hd : Addr} {v : V} {h h' : Heap V} {r : Addr × Bool} (e : Rb.insertUnique lt keyOf hd v h = .ok (r, h')) :
    ∃ n, Points (insertUnique lt keyOf hd v) h n r h' (fun _ _ => True) ∧ n + 2 * h.cmps ≤ 2 * h'.cmps + (if r.2 then 1 else 0) := by
  simp only [Rb.insertUnique, Prog.bind_app] at e
  cases q : Rb.insUqLoop lt keyOf hd (keyOf v) .root hd h with
  | diverge => rw [q] at e; cases e
  | ub f => rw [q] at e; cases e
  | ok y =>
    obtain ⟨y, s1⟩ := y
    rw [q] at e
    obtain ⟨l1, n, P, m1⟩ := (spends_insUqLoop lt keyOf hd _ _ _).out _ _ _ q
    simp only [Res.bind_ok] at e
    cases y with
    | inl x =>
      cases e
      exact ⟨n + 0, Points.seq P Points.pure_, by simp only [Bool.false_eq_true, if_false]; omega⟩
    | inr y =>
      obtain ⟨ed, p⟩ := y
      simp only [Prog.bind_app] at e
      cases q2 : Rb.linkNew hd v ed p s1 with
      | diverge => rw [q2] at e; cases e
      | ub f => rw [q2] at e; cases e
      | ok z =>
        rw [q2] at e
        cases e
        obtain ⟨l2, m, Q, m2⟩ := (spends_linkNew (w := 0) hd v ed p).out _ _ _ q2
        have st : z.2.cmps = s1.cmps := by
          have : Still (Rb.linkNew hd v ed p) := (still_newNode v).bind fun n => (still_setParent _ _).bind fun _ => (still_wrE _ _ _).bind fun _ =>
            (still_insertRebalance _ _ _).bind fun _ => still_pure _
          exact this.out _ _ _ q2
        refine ⟨n + (m + 0), Points.seq P (Points.seq Q Points.pure_), ?_⟩
        simp only [if_true]
        omega

theorem spends_leanRight (hd : Addr) (key : K) (root : Edge) (b : Bool) : Spends 3 0 (leanRight lt keyOf hd key root b) (Rb.leanRight lt keyOf hd key root b) :=
  ((spends_call (still_rdE _ _)).bind fun x => (spends_call (still_nd _)).bind fun y => (spends_call (still_isRed _)).bind fun b => spends_ite
    (((spends_call (still_rdE _ _)).bind fun _ => (spends_call (still_rotateRight _)).bind fun _ => (spends_call (still_wrE _ _ _)).bind fun _ =>
      (spends_call (still_rdE _ _)).bind fun _ => (spends_call (still_dataOf _)).bind fun _ => spends_less lt _ _).imp (by decide))
    (spends_pure _)).imp (by decide)

theorem spends_leanRight2 (hd : Addr) (key : K) (root : Edge) : Spends 3 0 (leanRight2 lt keyOf hd key root) (Rb.leanRight2 lt keyOf hd key root) :=
  ((spends_call (still_rdE _ _)).bind fun x => (spends_call (still_nd _)).bind fun y => (spends_call (still_poor _)).bind fun b => spends_ite
    (((spends_call (still_rdE _ _)).bind fun _ => (spends_call (still_moveRight _)).bind fun _ => (spends_call (still_wrE _ _ _)).bind fun _ =>
      (spends_call (still_rdE _ _)).bind fun _ => (spends_call (still_dataOf _)).bind fun _ => (spends_less lt _ _).bind fun _ => spends_pure _).imp (by decide))
    (spends_pure _)).imp (by decide)

theorem spends_leafHere (key : K) (x : Addr) (il : Bool) : Spends w 1 (leafHere keyOf key x il)
    (do
      let v ← dataOf x
      let y ← nd x
      pure (!il && decide (key = keyOf v) && decide (y.right = 0))) := by
  refine ⟨fun s r s' e => ?_⟩
  obtain ⟨n, P⟩ := (covers_leafHere keyOf key x il).out s r s' e
  have c : s'.cmps = s.cmps := ((still_dataOf _).bind fun _ => (still_nd _).bind fun _ => still_pure _).out _ _ _ e
  refine ⟨by omega, n, P, ?_⟩
  rw [c]
  have : n ≤ 1 := by
    refine Classical.byContradiction fun no => ?_
    obtain ⟨t, q, _⟩ := P.throws 1 (by omega)
    unfold leafHere at q
    split at q
    · cases q
    · simp only [Thr.bind_app, Thr.call_app] at q
      cases g : dataOf x s with
      | diverge => rw [g] at q; cases q
      | ub f => rw [g] at q; cases q
      | ok y =>
        rw [g] at q
        simp only [Res.bind_ok, Thr.after_ret, same, Thr.bind_app, Thr.point_succ, Thr.pure_app, Thr.call_app] at q
        cases g2 : nd x y.2 with
        | diverge => rw [g2] at q; cases q
        | ub f => rw [g2] at q; cases q
        | ok z => rw [g2] at q; cases q
  simp; omega

theorem spends_removeLoop (hd : Addr) (key : K) (root : Edge) (parent : Addr) :
    Spends 3 0 (removeLoop lt keyOf hd key root parent) (Rb.removeLoop lt keyOf hd key root parent) := by
  refine Rb.removeLoop.fixpoint_induct lt keyOf hd key (motive := fun f => ∀ e p, Spends 3 0 (removeLoop lt keyOf hd key e p) (f e p)) (spends_adm2 _) (fun f ih e p => ?_) root parent
  rw [removeLoop]
  refine ((spends_call (still_rdE _ _)).bind (c := 0) fun x => spends_ite (spends_pure _) (((spends_call (still_nd _)).bind (c := 0) fun n =>
    ((spends_call (still_dataOf _)).bind (c := 0) fun v => ((spends_less lt _ _).bind (c := 2) fun il =>
    spends_ite (((spends_call (still_nd _)).bind fun y => (spends_call (still_poor _)).bind fun b => spends_ite
      ((spends_call (still_moveLeft _)).bind fun m => (spends_call (still_wrE _ _ _)).bind fun _ => (spends_call (still_rdE _ _)).bind fun z => ih _ _)
      (((spends_call (still_rdE _ _)).bind fun z => ih _ _).imp (by decide))).imp (by decide)) (((spends_leanRight lt keyOf hd key e il).bind (c := 2) fun il =>
        ((spends_call (still_rdE _ _)).bind (c := 2) fun x => ?_).imp (by decide)).imp (by decide))).imp (by decide)).imp (by decide)).imp (by decide))).imp (by decide)
  have tail : Spends 3 1 (do
        leanRight2 lt keyOf hd key e
        let x ← Thr.call (rdE hd e)
        let v ← Thr.call (dataOf x)
        let b ← same key (keyOf v)
        if b then Thr.call (replaceByMin hd e)
        else removeLoop lt keyOf hd key (.right x) n.parent) (do
        Rb.leanRight2 lt keyOf hd key e
        let x ← rdE hd e
        if key = keyOf (← dataOf x) then replaceByMin hd e
        else f (.right x) n.parent) := by
    refine ((spends_leanRight2 lt keyOf hd key e).bind (c := 1) fun _ => ((spends_call (still_rdE _ _)).bind (c := 1) fun x =>
      ((spends_call (still_dataOf _)).bind (c := 1) fun v => ?_).imp (by decide)).imp (by decide)).imp (by decide)
    exact (spends_same_ite _ _ (spends_call (still_replaceByMin _ _)) (ih _ _)).imp (by decide)
  have h := (spends_leafHere (w := 3) keyOf key x il).bind (c := 1) fun b => spends_ite (d := b = true)
    (((spends_call (still_wrE hd e 0)).bind fun _ => spends_pure (x, n.parent)).imp (by decide)) tail
  refine ⟨fun s r s' q => h.out s r s' ?_⟩
  simp only [Prog.bind_app] at q ⊢
  cases g1 : dataOf x s with
  | diverge => rw [g1] at q; cases q
  | ub f => rw [g1] at q; cases q
  | ok v1 =>
    rw [g1] at q
    simp only [Res.bind_ok] at q ⊢
    cases g2 : nd x v1.2 with
    | diverge => rw [g2] at q; cases q
    | ub f => rw [g2] at q; cases q
    | ok v2 => rw [g2] at q; exact q

theorem spends_remove (hd : Addr) (key : K) : Spends 3 0 (remove lt keyOf hd key) (Rb.remove lt keyOf hd key) := by
  have st : Still (V := V) (do
        let x ← rootOf hd
        if x ≠ 0 then setColor x BLACK) := (still_rootOf _).bind fun _ => still_ite (still_setColor _ _) (still_pure _)
  have h : Spends 3 0 (remove lt keyOf hd key) (do
      let r ← Rb.removeLoop lt keyOf hd key .root hd
      climbLoop hd r.2
      (do
        let x ← rootOf hd
        if x ≠ 0 then setColor x BLACK)
      pure r.1) := (spends_removeLoop lt keyOf hd key .root hd).bind fun r => (spends_call (still_climbLoop _ _)).bind fun _ => (spends_call st).bind fun _ => spends_pure _
  refine ⟨fun s r s' q => h.out s r s' ?_⟩
  rw [← q]
  unfold Rb.remove
  simp only [Prog.bind_app]
  cases Rb.removeLoop lt keyOf hd key .root hd s with
  | diverge => rfl
  | ub f => rfl
  | ok v1 =>
    simp only [Res.bind_ok]
    cases climbLoop hd v1.1.2 v1.2 with
    | diverge => rfl
    | ub f => rfl
    | ok v2 =>
      simp only [Res.bind_ok]
      cases rootOf hd v2.2 with
      | diverge => rfl
      | ub f => rfl
      | ok v3 =>
        simp only [Res.bind_ok, Prog.ite_app, Prog.bind_app, Prog.pure_app]
        split <;> rfl

theorem spends_erase (hd : Addr) (key : K) : Spends 3 0 (erase lt keyOf hd key) (Rb.erase lt keyOf hd key) :=
  (spends_remove lt keyOf hd key).bind fun n => (spends_call (still_delNode _)).bind fun _ => spends_pure _

/-! ## C148 -/

variable {lt keyOf} {objs : List Addr} {h : Heap V} {c : Addr} {es : List (Addr × V)}

/-- A member that spends, as a cost. -/
theorem Spends.costs {α : Type} {w : Nat} {x : Thr (Heap V) α} {p : Prog (Heap V) α} (X : Spends w 0 x p) {a : α} {h h' : Heap V} (e : p h = .ok (a, h'))
    {m : Nat} (l : h'.cmps ≤ h.cmps + m) : ∃ n, Costs (do let _ ← x; pure objs) h n h' ∧ n ≤ w * m := by
  obtain ⟨l1, n, P, q⟩ := X.out _ _ _ e
  refine ⟨n + 0, (Points.seq P (f := fun _ => pure objs) (Points.pure_ (P := fun _ _ => True))).costs, ?_⟩
  have : (w : Int) * ((h'.cmps : Int) - h.cmps) ≤ w * m := Int.mul_le_mul_of_nonneg_left (by omega) (by omega)
  have : ((w * m : Nat) : Int) = (w : Int) * m := by simp
  omega

/-- **C148, lookups.** `find` makes at most `4 * log2 (n + 1)` comparisons, counting calls of the comparator and `==`, `lower_bound` at most
`2 * log2 (n + 1)`; neither makes a node (`next` counts the nodes ever made). -/
theorem lookup_cost (ho : StrictTotalOrder lt) (r : Reach lt keyOf objs h) (hc : c ∈ objs) (he : entries c h = .ok (es, h)) (k : K) :
    (∃ n h', Costs (call lt keyOf objs (.find c k)) h n h' ∧ n ≤ 4 * Nat.log2 (es.length + 1) ∧ h'.next = h.next ∧ entries c h' = .ok (es, h')) ∧
    (∃ n h', Costs (call lt keyOf objs (.lower c k)) h n h' ∧ n ≤ 2 * Nat.log2 (es.length + 1) ∧ h'.next = h.next ∧ entries c h' = .ok (es, h')) := by
  obtain ⟨o, a, w⟩ := Container.owns_of_entries ho r hc he
  constructor
  · obtain ⟨n, hn, q⟩ := find_owns ho o a k
    obtain ⟨m, C, l⟩ := (spends_find lt keyOf c k).costs (objs := objs) q (Nat.add_le_add_left hn _)
    exact ⟨m, _, C, by omega, rfl, (o.tick n).entries⟩
  · obtain ⟨n, hn, q⟩ := lowerBound_owns ho.toStrictWeak o (a.weak ho) k
    obtain ⟨m, C, l⟩ := (spends_lowerBound lt keyOf c k).costs (objs := objs) q (Nat.add_le_add_left hn _)
    exact ⟨m, _, C, by omega, rfl, (o.tick n).entries⟩

/-- **C148, insertion.** `insert(v)` makes at most `4 * log2 (n + 1)` comparisons, and beyond them one element if the key was absent (the container has then one
element more), none if it was present. -/
theorem insert_cost (ho : StrictTotalOrder lt) (r : Reach lt keyOf objs h) (hc : c ∈ objs) (he : entries c h = .ok (es, h)) (v : V) :
    ∃ n h' es', Costs (call lt keyOf objs (.insert c v)) h n h' ∧ entries c h' = .ok (es', h') ∧
      n ≤ 4 * Nat.log2 (es.length + 1) + (es'.length - es.length) ∧ h'.next = h.next + (es'.length - es.length) ∧
      es'.length = es.length + (if ∃ e ∈ es, keyOf e.2 = keyOf v then 0 else 1) := by
  obtain ⟨o, a, w⟩ := Container.owns_of_entries ho r hc he
  obtain ⟨n, hn, ⟨e, he', hk, q⟩ | ⟨A, B, h', rfl, hA, hB, q, o', ef, nx, cm⟩⟩ := insertUnique_owns ho w o a v
  · obtain ⟨m, P, l⟩ := insertUnique_spends lt keyOf q
    refine ⟨m + 0, _, es, (Points.seq P (f := fun _ => pure objs) (Points.pure_ (P := fun _ _ => True))).costs, (o.tick n).entries, ?_, ?_, ?_⟩
    · have : (h.tick n).cmps = h.cmps + n := rfl
      have l' : m + 2 * h.cmps ≤ 2 * (h.tick n).cmps + 0 := l
      omega
    · rw [Nat.sub_self]; rfl
    · rw [if_pos ⟨e, he', hk⟩]; rfl
  · obtain ⟨m, P, l⟩ := insertUnique_spends lt keyOf q
    have len : (A ++ (h.next, v) :: B).length = (A ++ B).length + 1 := by simp only [List.length_append, List.length_cons]; omega
    refine ⟨m + 0, _, _, (Points.seq P (f := fun _ => pure objs) (Points.pure_ (P := fun _ _ => True))).costs, o'.entries, ?_, ?_, ?_⟩
    · have l' : m + 2 * h.cmps ≤ 2 * h'.cmps + 1 := l
      omega
    · rw [nx, len, Nat.add_sub_cancel_left]
    · rw [len, if_neg]
      rintro ⟨e, he', hk⟩
      simp only [List.mem_append] at he'
      rcases he' with he' | he'
      · have := hA e he'; rw [hk, ho.irrefl] at this; cases this
      · have := hB e he'; rw [hk, ho.irrefl] at this; cases this

/-- **C148, removal.** `erase(k)` makes at most `18 * log2 (n + 1)` comparisons and no node. -/
theorem erase_cost (ho : StrictTotalOrder lt) (r : Reach lt keyOf objs h) (hc : c ∈ objs) (he : entries c h = .ok (es, h)) (k : K) :
    ∃ n h', Costs (call lt keyOf objs (.erase c k)) h n h' ∧ n ≤ 18 * Nat.log2 (es.length + 1) ∧ h'.next = h.next := by
  obtain ⟨o, a, w⟩ := Container.owns_of_entries ho r hc he
  obtain ⟨h', hn, nx, ⟨_, q, _⟩ | ⟨_, _, _, _, _, q, _⟩⟩ := erase_owns ho w o a k
  · obtain ⟨m, C, l⟩ := (spends_erase lt keyOf c k).costs (objs := objs) q hn
    exact ⟨m, _, C, by omega, nx⟩
  · obtain ⟨m, C, l⟩ := (spends_erase lt keyOf c k).costs (objs := objs) q hn
    exact ⟨m, _, C, by omega, nx⟩

/-- **C148, copies.** Copying a container of `n` elements makes `n` elements, assigning it to another container as well; nothing is compared. -/
theorem copy_cost (ho : StrictTotalOrder lt) (r : Reach lt keyOf objs h) (hc : c ∈ objs) (he : entries c h = .ok (es, h)) :
    (∃ h', Costs (call lt keyOf objs (.copyOf c)) h es.length h' ∧ h'.cmps = h.cmps) ∧
    (∀ d ∈ objs, d ≠ c → ∃ h', Costs (call lt keyOf objs (.assign d c)) h es.length h' ∧ h'.cmps = h.cmps) := by
  obtain ⟨o, a, w⟩ := Container.owns_of_entries ho r hc he
  constructor
  · obtain ⟨h', es', e, _, _, _, P⟩ := copyCtor_points (f := true) w (Holds.of_owns o)
    exact ⟨h', Points.costs (P := fun _ _ => True) (Points.seq (m := 0) (P.imp fun _ _ _ _ => trivial) (f := fun x => pure (objs ++ [x])) Points.pure_),
      (still_copyCtor c).out _ _ _ e⟩
  · intro d hd hne
    obtain ⟨es0, o0, a0, _⟩ := Rb.Reach.owns ho r hd
    have hdis : ∀ x ∈ cells c es, x ∉ cells d es0 := by
      obtain ⟨ws, W, rfl, _⟩ := r.inv ho
      obtain ⟨L, es1, R, e⟩ := split_at hd
      have o1 := W.owns (d, es1) (by rw [e]; simp)
      have q0 := o0.entries.symm.trans o1.entries
      simp only [Res.ok.injEq, Prod.mk.injEq, and_true] at q0
      subst q0
      have hsw : (c, es) ∈ ws := by
        obtain ⟨L', es', R', e'⟩ := split_at hc
        have o' := W.owns (c, es') (by rw [e']; simp)
        have q := o.entries.symm.trans o'.entries
        simp only [Res.ok.injEq, Prod.mk.injEq, and_true] at q
        rw [q, e']; simp
      intro x hx hx'
      have hq := (e ▸ W : Rb.World h (L ++ (d, es0) :: R)).disj hx'
      rw [e] at hsw
      simp only [List.mem_append, List.mem_cons, Prod.mk.injEq] at hsw
      rcases hsw with hw | ⟨hw, _⟩ | hw
      · exact hq.1 (List.mem_flatMap.2 ⟨_, hw, hx⟩)
      · exact hne hw.symm
      · exact hq.2 (List.mem_flatMap.2 ⟨_, hw, hx⟩)
    obtain ⟨h', es', e, _, _, _, P⟩ := opAssign_points (f := true) (g := true) w (Holds.of_owns o0) (Holds.of_owns o) hdis
    exact ⟨h', Points.costs (P := fun _ _ => True) (Points.seq (m := 0) (P.imp fun _ _ _ _ => trivial) (f := fun _ => pure objs) Points.pure_),
      (still_opAssign d c).out _ _ _ e⟩

/-- **C148, the rest.** Default construction, `clear` and destruction copy nothing and compare nothing: they cannot throw. -/
theorem free_cost (ho : StrictTotalOrder lt) (r : Reach lt keyOf objs h) (q : Call K V) (hq : q = .create ∨ (∃ c ∈ objs, q = .clear c) ∨ ∃ c ∈ objs, q = .destroy c) :
    ∃ h', Costs (call lt keyOf objs q) h 0 h' ∧ h'.cmps = h.cmps := by
  have main : ∀ p : Prog (Heap V) (List Addr), call lt keyOf objs q = Thr.call p → Still p → (∃ x, p h = .ok x) → ∃ h', Costs (call lt keyOf objs q) h 0 h' ∧ h'.cmps = h.cmps := by
    rintro p e st ⟨⟨a, h'⟩, g⟩
    rw [e]
    exact ⟨h', Points.costs (P := fun _ _ => True) (Points.call_ g), st.out _ _ _ g⟩
  have ret : ∀ q : Call K V, q.Legal objs → ∃ x, Rb.call lt keyOf objs q h = .ok x := fun q l => by
    obtain ⟨a, h', e⟩ := Container.calls_return ho r q l
    exact ⟨_, e⟩
  rcases hq with rfl | ⟨c, hc, rfl⟩ | ⟨c, hc, rfl⟩
  · exact main _ rfl (still_newTree.bind fun _ => still_pure _) (ret _ ⟨by simp [Call.args], by simp⟩)
  · exact main _ rfl ((still_clear _).bind fun _ => still_pure _) (ret _ ⟨by simp [Call.args, hc], by simp⟩)
  · exact main _ rfl (((still_clear _).bind fun _ => still_delNode _).bind fun _ => still_pure _) (ret _ ⟨by simp [Call.args, hc], by simp⟩)

theorem log2_mono {a b : Nat} (l : a + 1 ≤ b) : Nat.log2 (a + 1) ≤ Nat.log2 b :=
  (Nat.le_log2 (by omega)).2 (Nat.le_trans (Nat.log2_self_le (by omega)) l)

theorem insertRange_spends (ho : StrictTotalOrder lt) (hc : c ∈ objs) : ∀ (vs : List V) {h : Heap V} {es : List (Addr × V)}, Reach lt keyOf objs h → entries c h = .ok (es, h) →
    ∃ n h' es', Points (insertRange lt keyOf c vs) h n () h' (fun _ _ => True) ∧ entries c h' = .ok (es', h') ∧ es.length ≤ es'.length ∧
      es'.length ≤ es.length + vs.length ∧ h'.next = h.next + (es'.length - es.length) ∧
      n ≤ vs.length * (4 * Nat.log2 (es.length + vs.length + 1)) + (es'.length - es.length)
  | [], h, es, r, he => ⟨0, h, es, Points.pure_, he, Nat.le_refl _, Nat.le_refl _, by rw [Nat.sub_self]; rfl, Nat.zero_le _⟩
  | v :: vs, h, es, r, he => by
    obtain ⟨o, a, w⟩ := Container.owns_of_entries ho r hc he
    obtain ⟨x, b, h1, q, _⟩ := Container.insert_spec ho r hc he v
    have r1 : Reach lt keyOf objs h1 := r.step (.insert c v) ⟨by simp [Call.args, hc], by simp⟩ (by simp only [Rb.call, Prog.bind_app, q, Res.bind_ok, Prog.pure_app])
    obtain ⟨n, h1', es1, C, e1, l1, nx1, len1⟩ := insert_cost ho r hc he v
    obtain ⟨m, P, _⟩ := insertUnique_spends lt keyOf q
    obtain ⟨rfl, rfl⟩ := C.unique (Points.costs (Points.seq (m := 0) P (f := fun _ => pure objs) Points.pure_))
    obtain ⟨n2, h2, es2, P2, e2, g1, g2, nx2, l2⟩ := insertRange_spends ho hc vs r1 e1
    have mono : es.length ≤ es1.length ∧ es1.length ≤ es.length + 1 := by
      rw [len1]; split <;> omega
    refine ⟨n + n2, h2, es2, Points.seq P P2, e2, by omega, by simp only [List.length_cons]; omega, ?_, ?_⟩
    · rw [nx2, nx1, Nat.add_assoc]; congr 1; omega
    · have c1 : Nat.log2 (es.length + 1) ≤ Nat.log2 (es.length + (vs.length + 1) + 1) := log2_mono (by omega)
      have c2 : Nat.log2 (es1.length + vs.length + 1) ≤ Nat.log2 (es.length + (vs.length + 1) + 1) := log2_mono (by omega)
      have c3 : vs.length * (4 * Nat.log2 (es1.length + vs.length + 1)) ≤ vs.length * (4 * Nat.log2 (es.length + (vs.length + 1) + 1)) := Nat.mul_le_mul_left _ (by omega)
      simp only [List.length_cons, Nat.add_mul, Nat.one_mul]
      omega

/-- **C148, ranges.** `insert(first, last)` of `m` elements makes at most `m` times `4 * log2 (n + m + 1)` comparisons, and beyond them as many elements as the
container grows by. -/
theorem insert_range_cost (ho : StrictTotalOrder lt) (r : Reach lt keyOf objs h) (hc : c ∈ objs) (he : entries c h = .ok (es, h)) (vs : List V) :
    ∃ n h' es', Costs (call lt keyOf objs (.insertRange c vs)) h n h' ∧ entries c h' = .ok (es', h') ∧ es.length ≤ es'.length ∧
      es'.length ≤ es.length + vs.length ∧ h'.next = h.next + (es'.length - es.length) ∧
      n ≤ vs.length * (4 * Nat.log2 (es.length + vs.length + 1)) + (es'.length - es.length) := by
  obtain ⟨n, h', es', P, rest⟩ := insertRange_spends ho hc vs r he
  exact ⟨n, h', es', Points.costs (P := fun _ _ => True) (Points.seq (m := 0) P (f := fun _ => pure objs) Points.pure_), rest⟩

/-- The hypotheses are met by a container of 257 elements: `insert` of a new key makes one element and at most 32 comparisons. -/
example : ∃ c h n h', Reach (fun a b : Nat => decide (a < b)) id [c] h ∧ Costs (call (fun a b : Nat => decide (a < b)) id [c] (.insert c 1000)) h n h' ∧ n ≤ 33 := by
  obtain ⟨c, h, es, r, e, v⟩ := Container.exists_reach (keyOf := id) natOrder (List.range 257) (by
    simpa using List.pairwise_lt_range)
  obtain ⟨n, h', es', C, _, l, _, len⟩ := insert_cost natOrder r (by simp) e 1000
  have k : es.length = 257 := by rw [← List.length_map (f := Prod.snd), v, List.length_range]
  have : Nat.log2 (es.length + 1) = 8 := by rw [k]; decide
  refine ⟨c, h, n, h', r, C, ?_⟩
  have : es'.length ≤ es.length + 1 := by rw [len]; split <;> omega
  omega

end Keyed
end Verif.Exc.XRb
