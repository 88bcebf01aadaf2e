import Verif.Limit
import Verif.Rb.Reach
/-!
# Which memory the members of `ttl::map` and `ttl::set` access

`Confined p`: where `p` returns in some memory, it does the same in any larger memory, and leaves everything that was added as it was. So a run of `p` in a
memory that holds only the nodes of one container shows that `p` neither reads nor writes anything else: in that memory any other access is undefined
behaviour.
-/
set_option linter.unusedVariables false
set_option linter.unusedSectionVars false
set_option linter.constructorNameAsVariable false
namespace Verif.Rb
open Verif Lean.Order
variable {K V α β : Type}

/-- The memory `h` together with the nodes of `R`. -/
def Heap.plus (h R : Heap V) : Heap V :=
  { h with node := fun x => (h.node x).or (R.node x), data := fun x => (h.data x).or (R.data x) }

/-- `h` and `R` have no address in common, and the allocator of `h` hands out none of `R`'s. -/
def Heap.Apart (h R : Heap V) : Prop :=
  ∀ x, R.node x ≠ none ∨ R.data x ≠ none → h.node x = none ∧ h.data x = none ∧ x < h.next

/-- What `p` does, it does in every larger memory, without touching what was added. -/
structure Confined (p : Prog (Heap V) α) : Prop where
  out : ∀ h R a h', h.Apart R → p h = .ok (a, h') → p (h.plus R) = .ok (a, h'.plus R) ∧ h'.Apart R

theorem confined_pure (a : α) : Confined (pure a : Prog (Heap V) α) := ⟨fun h R b h' d e => by cases e; exact ⟨rfl, d⟩⟩
theorem Confined.bind {p : Prog (Heap V) α} {f : α → Prog (Heap V) β} (hp : Confined p) (hf : ∀ a, Confined (f a)) : Confined (p >>= f) := by
  refine ⟨fun h R b h' d e => ?_⟩
  simp only [Prog.bind_app] at e ⊢
  cases q : p h with
  | diverge => rw [q] at e; cases e
  | ub f => rw [q] at e; cases e
  | ok y =>
    rw [q] at e
    obtain ⟨q1, d1⟩ := hp.out _ _ _ _ d q
    rw [q1]
    exact (hf y.1).out _ _ _ _ d1 e
theorem confined_ite {c : Prop} [Decidable c] {p q : Prog (Heap V) α} (hp : Confined p) (hq : Confined q) : Confined (if c then p else q) := by split <;> assumption

theorem Heap.Apart.none_of_node {h R : Heap V} (d : h.Apart R) {a : Addr} {n : RbNode} (q : h.node a = some n) : R.node a = none ∧ R.data a = none := by
  refine ⟨Classical.byContradiction fun no => ?_, Classical.byContradiction fun no => ?_⟩
  · rw [(d a (Or.inl no)).1] at q; cases q
  · rw [(d a (Or.inr no)).1] at q; cases q
theorem Heap.Apart.none_of_data {h R : Heap V} (d : h.Apart R) {a : Addr} {v : V} (q : h.data a = some v) : R.node a = none ∧ R.data a = none := by
  refine ⟨Classical.byContradiction fun no => ?_, Classical.byContradiction fun no => ?_⟩
  · rw [(d a (Or.inl no)).2.1] at q; cases q
  · rw [(d a (Or.inr no)).2.1] at q; cases q
theorem Heap.Apart.none_of_next {h R : Heap V} (d : h.Apart R) {a : Addr} (q : h.next ≤ a) : R.node a = none ∧ R.data a = none := by
  refine ⟨Classical.byContradiction fun no => ?_, Classical.byContradiction fun no => ?_⟩
  · exact absurd (d a (Or.inl no)).2.2 (Nat.not_lt.2 q)
  · exact absurd (d a (Or.inr no)).2.2 (Nat.not_lt.2 q)

theorem confined_nd (a : Addr) : Confined (nd (V := V) a) := ⟨fun h R b h' d e => by
  unfold nd at e; split at e
  · rename_i n q
    cases e
    exact ⟨by simp [nd, Heap.plus, q], d⟩
  · cases e⟩
theorem confined_upd (a : Addr) (f : RbNode → RbNode) : Confined (upd (V := V) a f) := ⟨fun h R b h' d e => by
  unfold upd at e; split at e
  · rename_i n q
    cases e
    have z := d.none_of_node q
    refine ⟨?_, ?_⟩
    · simp only [upd, Heap.plus, q, Option.some_or, Heap.setNode, Res.ok.injEq, Prod.mk.injEq, true_and, Heap.mk.injEq, and_true]
      funext x; split
      · simp
      · rfl
    · intro x hx
      have hne : x ≠ a := by rintro rfl; rcases hx with hx | hx <;> simp [z.1, z.2] at hx
      simpa [Heap.setNode, hne] using d x hx
  · cases e⟩
theorem confined_dataOf (a : Addr) : Confined (dataOf (V := V) a) := ⟨fun h R b h' d e => by
  unfold dataOf at e; split at e
  · rename_i n q
    cases e
    exact ⟨by simp [dataOf, Heap.plus, q], d⟩
  · cases e⟩
theorem confined_storeData (a : Addr) (v : V) : Confined (storeData (V := V) a v) := ⟨fun h R b h' d e => by
  unfold storeData at e; split at e
  · rename_i n q
    cases e
    have z := d.none_of_data q
    refine ⟨?_, ?_⟩
    · simp only [storeData, Heap.plus, q, Option.some_or, Res.ok.injEq, Prod.mk.injEq, true_and, Heap.mk.injEq, and_true]
      funext x; split
      · simp
      · rfl
    · intro x hx
      have hne : x ≠ a := by rintro rfl; rcases hx with hx | hx <;> simp [z.1, z.2] at hx
      simpa [hne] using d x hx
  · cases e⟩
theorem confined_delNode (a : Addr) : Confined (delNode (V := V) a) := ⟨fun h R b h' d e => by
  unfold delNode at e; split at e
  · rename_i z
    cases e; exact ⟨by simp [delNode, z], d⟩
  · rename_i nz
    split at e
    · rename_i n q
      cases e
      have z := d.none_of_node q
      refine ⟨?_, ?_⟩
      · simp only [delNode, nz, if_false, Heap.plus, q, Option.some_or, Heap.free, Res.ok.injEq, Prod.mk.injEq, true_and, Heap.mk.injEq, and_true]
        constructor <;> funext x <;> split
        · rename_i y; simp [y, z.1]
        · rfl
        · rename_i y; simp [y, z.2]
        · rfl
      · intro x hx
        have hne : x ≠ a := by rintro rfl; rcases hx with hx | hx <;> simp [z.1, z.2] at hx
        simpa [Heap.free, hne] using d x hx
    · cases e⟩
theorem confined_newNode (v : V) : Confined (newNode v) := ⟨fun h R b h' d e => by
  cases e
  have z := d.none_of_next (Nat.le_refl _)
  refine ⟨?_, ?_⟩
  · simp only [newNode, Heap.plus, Heap.alloc, Res.ok.injEq, Prod.mk.injEq, true_and, Heap.mk.injEq, and_true]
    constructor <;> funext x <;> by_cases y : x = h.next <;> simp [y]
  · intro x hx
    have y := d x hx
    have hne : x ≠ h.next := Nat.ne_of_lt y.2.2
    exact ⟨by simp [Heap.alloc, hne, y.1], by simp [Heap.alloc, hne, y.2.1], Nat.lt_succ_of_lt y.2.2⟩⟩
theorem confined_newTree : Confined (newTree (V := V)) := ⟨fun h R b h' d e => by
  cases e
  have z := d.none_of_next (Nat.le_refl _)
  refine ⟨?_, ?_⟩
  · simp only [newTree, Heap.plus, Res.ok.injEq, Prod.mk.injEq, true_and, Heap.mk.injEq, and_true]
    funext x; by_cases y : x = h.next <;> simp [y]
  · intro x hx
    have y := d x hx
    have hne : x ≠ h.next := Nat.ne_of_lt y.2.2
    exact ⟨by simp [hne, y.1], y.2.1, Nat.lt_succ_of_lt y.2.2⟩⟩
theorem confined_less (lt : K → K → Bool) (x y : K) : Confined (V := V) (less lt x y) := ⟨fun h R b h' d e => by
  cases e; exact ⟨rfl, d⟩⟩

theorem confined_adm1 {A : Type} : admissible (fun p : A → Prog (Heap V) α => ∀ a, Confined (p a)) := by
  intro c hc ih a
  refine ⟨fun h R b h' d e => ?_⟩
  obtain ⟨f, hf, e'⟩ := Exc.XVec.sup_ok1 hc e
  obtain ⟨q, d'⟩ := (ih f hf a).out h R b h' d e'
  exact ⟨Exc.XVec.sup_le1 hc hf q, d'⟩
theorem confined_adm2 {A B : Type} : admissible (fun p : A → B → Prog (Heap V) α => ∀ a b, Confined (p a b)) := by
  intro c hc ih a b
  refine ⟨fun h R y h' d e => ?_⟩
  obtain ⟨f, hf, e'⟩ := Exc.XVec.sup_ok2 hc e
  obtain ⟨q, d'⟩ := (ih f hf a b).out h R y h' d e'
  exact ⟨Exc.XVec.sup_le2 hc hf q, d'⟩

/-- Closes goals `Confined (do …)` from what is known of the parts. -/
macro "confine" : tactic => `(tactic| repeat (first
  | exact confined_pure _ | exact confined_nd _ | exact confined_upd _ _ | exact confined_dataOf _ | exact confined_delNode _ | exact confined_newNode _
  | exact confined_less _ _ _ | assumption | (intro _) | apply_assumption | refine Confined.bind ?_ ?_ | refine confined_ite ?_ ?_))

theorem confined_rdE (hd : Addr) (e : Edge) : Confined (rdE (V := V) hd e) := by cases e <;> exact (confined_nd _).bind fun _ => confined_pure _
theorem confined_wrE (hd : Addr) (e : Edge) (x : Addr) : Confined (wrE (V := V) hd e x) := by cases e <;> exact confined_upd _ _
theorem confined_rootOf (hd : Addr) : Confined (rootOf (V := V) hd) := (confined_nd _).bind fun _ => confined_pure _
theorem confined_isRed (n : Addr) : Confined (isRed (V := V) n) := by unfold isRed; confine
theorem confined_flipColors (n : Addr) : Confined (flipColors (V := V) n) := by unfold flipColors setColor; confine
theorem confined_edgeOf (hd n : Addr) : Confined (edgeOf (V := V) hd n) := by unfold edgeOf rootOf; confine
theorem confined_rotateLeft (n : Addr) : Confined (rotateLeft (V := V) n) := by unfold rotateLeft setColor setLeft setRight setParent; confine
theorem confined_rotateRight (n : Addr) : Confined (rotateRight (V := V) n) := by unfold rotateRight setColor setLeft setRight setParent; confine
theorem confined_fixup (n : Addr) : Confined (fixup (V := V) n) := by
  have := confined_isRed (V := V); have := confined_rotateLeft (V := V); have := confined_rotateRight (V := V); have := confined_flipColors (V := V)
  unfold fixup fix1 fix2 fix3; confine
theorem confined_rebalLoop (hd p : Addr) : Confined (rebalLoop (V := V) hd p) := by
  refine rebalLoop.fixpoint_induct hd (motive := fun f => ∀ a, Confined (f a)) confined_adm1 (fun f ih a => ?_) p
  have := confined_isRed (V := V); have := confined_edgeOf (V := V) hd; have := confined_fixup (V := V); have := confined_rdE (V := V) hd; have := confined_wrE (V := V) hd
  confine
theorem confined_insertRebalance (hd : Addr) (e : Edge) (p : Addr) : Confined (insertRebalance (V := V) hd e p) := by
  have := confined_rebalLoop (V := V) hd; have := confined_rdE (V := V) hd; have := confined_rootOf (V := V) hd
  unfold insertRebalance setColor setLeft setRight; confine
theorem confined_moveLeft (n : Addr) : Confined (moveLeft (V := V) n) := by
  have := confined_isRed (V := V); have := confined_rotateLeft (V := V); have := confined_rotateRight (V := V); have := confined_flipColors (V := V)
  unfold moveLeft setRight; confine
theorem confined_moveRight (n : Addr) : Confined (moveRight (V := V) n) := by
  have := confined_isRed (V := V); have := confined_rotateLeft (V := V); have := confined_rotateRight (V := V); have := confined_flipColors (V := V)
  unfold moveRight; confine
theorem confined_poor (n : Addr) : Confined (poor (V := V) n) := by
  have := confined_isRed (V := V)
  unfold poor; confine
theorem confined_dmDown (hd : Addr) (e : Edge) : Confined (dmDown (V := V) hd e) := by
  refine dmDown.fixpoint_induct hd (motive := fun f => ∀ a, Confined (f a)) confined_adm1 (fun f ih a => ?_) e
  have := confined_isRed (V := V); have := confined_moveLeft (V := V); have := confined_rdE (V := V) hd; have := confined_wrE (V := V) hd
  confine
theorem confined_dmUp (hd : Addr) (r e : Edge) (p : Addr) : Confined (dmUp (V := V) hd r e p) := by
  refine dmUp.fixpoint_induct hd r (motive := fun f => ∀ a b, Confined (f a b)) confined_adm2 (fun f ih a b => ?_) e p
  have := confined_edgeOf (V := V) hd; have := confined_fixup (V := V); have := confined_rdE (V := V) hd; have := confined_wrE (V := V) hd
  confine
theorem confined_replaceByMin (hd : Addr) (e : Edge) : Confined (replaceByMin (V := V) hd e) := by
  have := confined_dmUp (V := V) hd; have := confined_dmDown (V := V) hd; have := confined_rdE (V := V) hd; have := confined_wrE (V := V) hd
  unfold replaceByMin deleteMin setColor setLeft setRight setParent; confine
theorem confined_climbLoop (hd p : Addr) : Confined (climbLoop (V := V) hd p) := by
  refine climbLoop.fixpoint_induct hd (motive := fun f => ∀ a, Confined (f a)) confined_adm1 (fun f ih a => ?_) p
  have := confined_edgeOf (V := V) hd; have := confined_fixup (V := V); have := confined_rdE (V := V) hd; have := confined_wrE (V := V) hd
  confine

theorem confined_postorderDestroy (n : Addr) : Confined (postorderDestroy (V := V) n) := by
  refine postorderDestroy.fixpoint_induct (motive := fun f => ∀ a, Confined (f a)) confined_adm1 (fun f ih a => ?_) n
  confine
theorem confined_clear (hd : Addr) : Confined (clear (V := V) hd) := by
  have := confined_postorderDestroy (V := V); have := confined_wrE (V := V) hd; have := confined_rootOf (V := V)
  unfold clear; confine
theorem confined_preorderCopy (n : Addr) : Confined (Rb.preorderCopy (V := V) n) := by
  refine Rb.preorderCopy.fixpoint_induct (motive := fun f => ∀ a, Confined (f a)) confined_adm1 (fun f ih a => ?_) n
  unfold setColor setLeft setRight setParent
  confine
theorem confined_assign (hd other : Addr) : Confined (Rb.assign (V := V) hd other) := by
  have := confined_clear (V := V); have := confined_preorderCopy (V := V); have := confined_wrE (V := V) hd; have := confined_rdE (V := V) hd; have := confined_rootOf (V := V)
  unfold Rb.assign setParent; confine
theorem confined_opAssign (hd other : Addr) : Confined (Rb.opAssign (V := V) hd other) := (confined_clear _).bind fun _ => confined_assign _ _
theorem confined_copyCtor (other : Addr) : Confined (Rb.copyCtor (V := V) other) :=
  confined_newTree.bind fun _ => (confined_assign _ _).bind fun _ => confined_pure _
theorem confined_destroy (hd : Addr) : Confined (destroy (V := V) hd) := (confined_clear _).bind fun _ => confined_delNode _

section Keyed
variable [DecidableEq K] (lt : K → K → Bool) (keyOf : V → K)

theorem confined_findLoop (key : K) (n : Addr) : Confined (findLoop lt keyOf key n) := by
  refine findLoop.fixpoint_induct lt keyOf key (motive := fun f => ∀ n, Confined (f n)) confined_adm1 (fun f ih n => ?_) n
  confine
theorem confined_find (hd : Addr) (key : K) : Confined (find lt keyOf hd key) :=
  (confined_rootOf _).bind fun r => (confined_findLoop lt keyOf key r).bind fun n => confined_pure _
theorem confined_lowerLoop (key : K) (n prev : Addr) : Confined (lowerLoop lt keyOf key n prev) := by
  refine lowerLoop.fixpoint_induct lt keyOf key (motive := fun f => ∀ n p, Confined (f n p)) confined_adm2 (fun f ih n p => ?_) n prev
  confine
theorem confined_lowerBound (hd : Addr) (key : K) : Confined (lowerBound lt keyOf hd key) :=
  (confined_rootOf _).bind fun r => confined_lowerLoop lt keyOf key r hd
theorem confined_insUqLoop (hd : Addr) (key : K) (e : Edge) (parent : Addr) : Confined (insUqLoop lt keyOf hd key e parent) := by
  refine insUqLoop.fixpoint_induct lt keyOf hd key (motive := fun f => ∀ e p, Confined (f e p)) confined_adm2 (fun f ih e p => ?_) e parent
  have := confined_rdE (V := V) hd
  confine
theorem confined_linkNew (hd : Addr) (v : V) (e : Edge) (parent : Addr) : Confined (linkNew hd v e parent) :=
  (confined_newNode v).bind fun n => (confined_upd _ _).bind fun _ => (confined_wrE _ _ _).bind fun _ =>
    (confined_insertRebalance _ _ _).bind fun _ => confined_pure _
theorem confined_insertUnique (hd : Addr) (v : V) : Confined (insertUnique lt keyOf hd v) := by
  refine (confined_insUqLoop lt keyOf hd _ _ _).bind fun r => ?_
  rcases r with x | ⟨e, p⟩
  · exact confined_pure _
  · exact (confined_linkNew hd v e p).bind fun _ => confined_pure _
theorem confined_insertRange (hd : Addr) (vs : List V) : Confined (insertRange lt keyOf hd vs) := by
  induction vs with
  | nil => exact confined_pure _
  | cons v vs ih => exact (confined_insertUnique lt keyOf hd v).bind fun _ => ih
theorem confined_leanRight (hd : Addr) (key : K) (root : Edge) (b : Bool) : Confined (leanRight lt keyOf hd key root b) := by
  have := confined_rdE (V := V) hd; have := confined_wrE (V := V) hd; have := confined_isRed (V := V); have := confined_rotateRight (V := V)
  unfold leanRight; confine
theorem confined_leanRight2 (hd : Addr) (key : K) (root : Edge) : Confined (leanRight2 lt keyOf hd key root) := by
  have := confined_rdE (V := V) hd; have := confined_wrE (V := V) hd; have := confined_poor (V := V); have := confined_moveRight (V := V)
  unfold leanRight2; confine
theorem confined_removeLoop (hd : Addr) (key : K) (root : Edge) (parent : Addr) : Confined (removeLoop lt keyOf hd key root parent) := by
  refine removeLoop.fixpoint_induct lt keyOf hd key (motive := fun f => ∀ e p, Confined (f e p)) confined_adm2 (fun f ih e p => ?_) root parent
  have := confined_rdE (V := V) hd; have := confined_wrE (V := V) hd; have := confined_poor (V := V); have := confined_moveLeft (V := V)
  have := confined_leanRight lt keyOf hd key; have := confined_leanRight2 lt keyOf hd key; have := confined_replaceByMin (V := V) hd
  confine
theorem confined_remove (hd : Addr) (key : K) : Confined (remove lt keyOf hd key) := by
  refine (confined_removeLoop lt keyOf hd key .root hd).bind fun r => ?_
  have := confined_climbLoop (V := V) hd; have := confined_rootOf (V := V) hd
  unfold setColor; confine
theorem confined_erase (hd : Addr) (key : K) : Confined (erase lt keyOf hd key) :=
  (confined_remove lt keyOf hd key).bind fun n => (confined_delNode _).bind fun _ => confined_pure _

theorem confined_call (objs : List Addr) (q : Call K V) : Confined (call lt keyOf objs q) := by
  cases q with
  | create => exact confined_newTree.bind fun _ => confined_pure _
  | copyOf s => exact (confined_copyCtor s).bind fun _ => confined_pure _
  | assign d s => exact (confined_opAssign d s).bind fun _ => confined_pure _
  | destroy c => exact (confined_destroy c).bind fun _ => confined_pure _
  | insert c v => exact (confined_insertUnique lt keyOf c v).bind fun _ => confined_pure _
  | insertRange c vs => exact (confined_insertRange lt keyOf c vs).bind fun _ => confined_pure _
  | erase c k => exact (confined_erase lt keyOf c k).bind fun _ => confined_pure _
  | clear c => exact (confined_clear c).bind fun _ => confined_pure _
  | store c v => exact (confined_find lt keyOf c _).bind fun _ => confined_ite (confined_pure _) ((confined_storeData _ _).bind fun _ => confined_pure _)
  | find c k => exact (confined_find lt keyOf c k).bind fun _ => confined_pure _
  | lower c k => exact (confined_lowerBound lt keyOf c k).bind fun _ => confined_pure _
end Keyed
end Verif.Rb
