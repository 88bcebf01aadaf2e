import Verif.Rb.ContainerProps
/-!
# Headers never hold an element
-/
set_option linter.unusedSimpArgs false
set_option linter.unusedSectionVars false
set_option linter.unusedVariables false
set_option linter.constructorNameAsVariable false
namespace Verif.Rb.Header
open Verif Tree
variable {K V α β : Type} {c : Addr}

/-- `c` is allocated and holds no element. -/
def Bare (c : Addr) (h : Heap V) : Prop := c < h.next ∧ h.data c = none

/-- `p` puts no element into `c`. -/
def Pres (c : Addr) (p : Prog (Heap V) α) : Prop := ∀ h a h', p h = .ok (a, h') → Bare c h → Bare c h'

theorem Pres.pure (a : α) : Pres c (pure a : Prog (Heap V) α) := by
  intro h a' h' e b
  simp only [Prog.pure_app, Res.ok.injEq, Prod.mk.injEq] at e
  rw [← e.2]; exact b

theorem Pres.bind {p : Prog (Heap V) α} {k : α → Prog (Heap V) β} (hp : Pres c p) (hk : ∀ a, Pres c (k a)) : Pres c (p >>= k) := by
  intro h a h' e b
  simp only [Prog.bind_app] at e
  cases g : p h with
  | diverge => rw [g] at e; cases e
  | ub f => rw [g] at e; cases e
  | ok r =>
    rw [g] at e
    simp only [Res.bind_ok] at e
    exact hk r.1 r.2 a h' e (hp _ _ _ g b)

theorem Pres.ite {q : Prop} [Decidable q] {p1 p2 : Prog (Heap V) α} (h1 : Pres c p1) (h2 : Pres c p2) : Pres c (if q then p1 else p2) := by
  split
  · exact h1
  · exact h2

theorem pres_nd (a : Addr) : Pres c (nd a : Prog (Heap V) RbNode) := by
  intro h r h' e b
  unfold nd at e
  cases g : h.node a with
  | none => rw [g] at e; cases e
  | some n => rw [g] at e; simp only [Res.ok.injEq, Prod.mk.injEq] at e; rw [← e.2]; exact b

theorem pres_dataOf (a : Addr) : Pres c (dataOf a : Prog (Heap V) V) := by
  intro h r h' e b
  unfold dataOf at e
  cases g : h.data a with
  | none => rw [g] at e; cases e
  | some n => rw [g] at e; simp only [Res.ok.injEq, Prod.mk.injEq] at e; rw [← e.2]; exact b

theorem pres_upd (a : Addr) (f : RbNode → RbNode) : Pres c (upd a f : Prog (Heap V) Unit) := by
  intro h r h' e b
  unfold upd at e
  cases g : h.node a with
  | none => rw [g] at e; cases e
  | some n => rw [g] at e; simp only [Res.ok.injEq, Prod.mk.injEq] at e; rw [← e.2]; exact b

theorem pres_less (lt : K → K → Bool) (a b : K) : Pres c (less lt a b : Prog (Heap V) Bool) := by
  intro h r h' e b
  simp only [less_app, Res.ok.injEq, Prod.mk.injEq] at e
  rw [← e.2]; exact b

theorem pres_delNode (a : Addr) : Pres c (delNode a : Prog (Heap V) Unit) := by
  intro h r h' e b
  unfold delNode at e
  split at e
  · simp only [Res.ok.injEq, Prod.mk.injEq] at e; rw [← e.2]; exact b
  · cases g : h.node a with
    | none => rw [g] at e; cases e
    | some n =>
      rw [g] at e
      simp only [Res.ok.injEq, Prod.mk.injEq] at e
      rw [← e.2]
      refine ⟨b.1, ?_⟩
      simp only [Heap.free]
      split
      · rfl
      · exact b.2

theorem pres_newNode (v : V) : Pres c (newNode v : Prog (Heap V) Addr) := by
  intro h r h' e b
  simp only [newNode_app, Res.ok.injEq, Prod.mk.injEq] at e
  rw [← e.2]
  refine ⟨Nat.lt_succ_of_lt b.1, ?_⟩
  simp only [Heap.alloc, if_neg (Nat.ne_of_lt b.1)]
  exact b.2

theorem pres_newTree : Pres c (newTree : Prog (Heap V) Addr) := by
  intro h r h' e b
  unfold newTree at e
  simp only [Res.ok.injEq, Prod.mk.injEq] at e
  rw [← e.2]
  exact ⟨Nat.lt_succ_of_lt b.1, b.2⟩

theorem pres_storeData (n : Addr) (v : V) : Pres c (storeData n v : Prog (Heap V) Unit) := by
  intro h r h' e b
  unfold storeData at e
  cases g : h.data n with
  | none => rw [g] at e; cases e
  | some u =>
    rw [g] at e
    simp only [Res.ok.injEq, Prod.mk.injEq] at e
    rw [← e.2]
    refine ⟨b.1, ?_⟩
    have : c ≠ n := by rintro rfl; rw [b.2] at g; cases g
    simp only [if_neg this]; exact b.2

open Lean.Order in
/-- `Pres` passes to limits of loops. -/
theorem pres_admissible {A : Type} : admissible (fun f : A → Prog (Heap V) α => ∀ a, Pres c (f a)) := by
  intro C chain ih a h r h' e b
  classical
  let F := CCPO.csup chain
  let g : A → Prog (Heap V) α := fun a' m => if a' = a ∧ m = h then (if Bare c h' then F a' m else .diverge) else F a' m
  have eF : F a h = .ok (r, h') := e
  have fin : ∀ x y : Res (α × Heap V), FlatOrder.rel (b := Res.diverge) x y → x = .diverge ∨ y = x := by
    intro x y q
    cases q
    · exact Or.inl rfl
    · exact Or.inr rfl
  have le : F ⊑ g := csup_le chain fun f hf => by
    intro a' m
    have hle := le_csup chain hf a' m
    by_cases q : a' = a ∧ m = h
    · obtain ⟨rfl, rfl⟩ := q
      simp only [g, and_self, if_true]
      rcases fin _ _ hle with q | q
      · rw [q]; exact FlatOrder.rel.bot
      · have q' : F a' m = f a' m := q
        rw [eF] at q'
        rw [if_pos (ih f hf a' m r h' q'.symm b)]
        exact hle
    · simp only [g, if_neg q]
      exact hle
  have hg := fin _ _ (le a h)
  simp only [g, and_self, if_true] at hg
  have eF' : CCPO.csup chain a h = .ok (r, h') := e
  by_cases q : Bare c h'
  · exact q
  · rw [if_neg q] at hg
    rcases hg with hg | hg
    · rw [eF] at hg; cases hg
    · rw [eF] at hg; cases hg

open Lean.Order in
theorem pres_admissible2 {A B : Type} : admissible (fun f : A → B → Prog (Heap V) α => ∀ a b, Pres c (f a b)) := by
  intro C chain ih a b' h r h' e b
  classical
  let F := CCPO.csup chain
  let g : A → B → Prog (Heap V) α := fun a' y m => if a' = a ∧ y = b' ∧ m = h then (if Bare c h' then F a' y m else .diverge) else F a' y m
  have eF : F a b' h = .ok (r, h') := e
  have fin : ∀ x y : Res (α × Heap V), FlatOrder.rel (b := Res.diverge) x y → x = .diverge ∨ y = x := by
    intro x y q
    cases q
    · exact Or.inl rfl
    · exact Or.inr rfl
  have le : F ⊑ g := csup_le chain fun f hf => by
    intro a' y m
    have hle := le_csup chain hf a' y m
    by_cases q : a' = a ∧ y = b' ∧ m = h
    · obtain ⟨rfl, rfl, rfl⟩ := q
      simp only [g, and_self, if_true]
      rcases fin _ _ hle with q | q
      · rw [q]; exact FlatOrder.rel.bot
      · have q' : F a' y m = f a' y m := q
        rw [eF] at q'
        rw [if_pos (ih f hf a' y m r h' q'.symm b)]
        exact hle
    · simp only [g, if_neg q]
      exact hle
  have hg := fin _ _ (le a b' h)
  simp only [g, and_self, if_true] at hg
  by_cases q : Bare c h'
  · exact q
  · rw [if_neg q] at hg
    rcases hg with hg | hg
    · rw [eF] at hg; cases hg
    · rw [eF] at hg; cases hg

open Lean.Order in
theorem pres_admissible3 {A B C' : Type} : admissible (fun f : A → B → C' → Prog (Heap V) α => ∀ a b d, Pres c (f a b d)) := by
  intro C chain ih a b' d h r h' e b
  classical
  let F := CCPO.csup chain
  let g : A → B → C' → Prog (Heap V) α := fun a' y z m => if a' = a ∧ y = b' ∧ z = d ∧ m = h then (if Bare c h' then F a' y z m else .diverge) else F a' y z m
  have eF : F a b' d h = .ok (r, h') := e
  have fin : ∀ x y : Res (α × Heap V), FlatOrder.rel (b := Res.diverge) x y → x = .diverge ∨ y = x := by
    intro x y q
    cases q
    · exact Or.inl rfl
    · exact Or.inr rfl
  have le : F ⊑ g := csup_le chain fun f hf => by
    intro a' y z m
    have hle := le_csup chain hf a' y z m
    by_cases q : a' = a ∧ y = b' ∧ z = d ∧ m = h
    · obtain ⟨rfl, rfl, rfl, rfl⟩ := q
      simp only [g, and_self, if_true]
      rcases fin _ _ hle with q | q
      · rw [q]; exact FlatOrder.rel.bot
      · have q' : F a' y z m = f a' y z m := q
        rw [eF] at q'
        rw [if_pos (ih f hf a' y z m r h' q'.symm b)]
        exact hle
    · simp only [g, if_neg q]
      exact hle
  have hg := fin _ _ (le a b' d h)
  simp only [g, and_self, if_true] at hg
  by_cases q : Bare c h'
  · exact q
  · rw [if_neg q] at hg
    rcases hg with hg | hg
    · rw [eF] at hg; cases hg
    · rw [eF] at hg; cases hg

theorem pres_setParent (a b : Addr) : Pres c (setParent a b : Prog (Heap V) Unit) := pres_upd _ _
theorem pres_setLeft (a b : Addr) : Pres c (setLeft a b : Prog (Heap V) Unit) := pres_upd _ _
theorem pres_setRight (a b : Addr) : Pres c (setRight a b : Prog (Heap V) Unit) := pres_upd _ _
theorem pres_setColor (a : Addr) (b : Bool) : Pres c (setColor a b : Prog (Heap V) Unit) := pres_upd _ _

/-- Try each of the given proofs. -/
syntax "tryall" "[" term,* "]" : tactic
macro_rules
  | `(tactic| tryall []) => `(tactic| fail)
  | `(tactic| tryall [$t]) => `(tactic| exact $t)
  | `(tactic| tryall [$t, $ts,*]) => `(tactic| first | exact $t | tryall [$ts,*])

/-- Decompose a program. -/
syntax "pres" "[" term,* "]" : tactic
macro_rules
  | `(tactic| pres [$ts,*]) =>
    `(tactic| repeat' first
      | exact Pres.pure _ | exact pres_nd _ | exact pres_dataOf _ | exact pres_setParent _ _ | exact pres_setLeft _ _
      | exact pres_setRight _ _ | exact pres_setColor _ _ | exact pres_less _ _ _ | exact pres_delNode _ | exact pres_newNode _
      | exact pres_newTree | exact pres_storeData _ _
      | tryall [$ts,*]
      | refine Pres.bind ?_ fun _ => ?_ | refine Pres.ite ?_ ?_ | assumption)

theorem pres_rdE (hd : Addr) (e : Edge) : Pres c (rdE hd e : Prog (Heap V) Addr) := by cases e <;> unfold rdE <;> pres [pres_nd _]
theorem pres_wrE (hd : Addr) (e : Edge) (a : Addr) : Pres c (wrE hd e a : Prog (Heap V) Unit) := by cases e <;> unfold wrE <;> pres [pres_nd _]
theorem pres_rootOf (hd : Addr) : Pres c (rootOf hd : Prog (Heap V) Addr) := by unfold rootOf; pres [pres_nd _]
theorem pres_isRed (a : Addr) : Pres c (isRed a : Prog (Heap V) Bool) := by unfold isRed; pres [pres_nd _]
theorem pres_flipColors (a : Addr) : Pres c (flipColors a : Prog (Heap V) Unit) := by unfold flipColors; pres [pres_nd _]
theorem pres_rotateLeft (a : Addr) : Pres c (rotateLeft a : Prog (Heap V) Addr) := by unfold rotateLeft; pres [pres_nd _]
theorem pres_rotateRight (a : Addr) : Pres c (rotateRight a : Prog (Heap V) Addr) := by unfold rotateRight; pres [pres_nd _]
theorem pres_edgeOf (hd a : Addr) : Pres c (edgeOf hd a : Prog (Heap V) Edge) := by unfold edgeOf; pres [pres_rootOf _]
theorem pres_fixup (a : Addr) : Pres c (fixup a : Prog (Heap V) Addr) := by
  unfold fixup fix1 fix2 fix3; pres [pres_isRed _, pres_rotateLeft _, pres_rotateRight _, pres_flipColors _]
theorem pres_moveLeft (a : Addr) : Pres c (moveLeft a : Prog (Heap V) Addr) := by
  unfold moveLeft; pres [pres_isRed _, pres_rotateLeft _, pres_rotateRight _, pres_flipColors _]
theorem pres_moveRight (a : Addr) : Pres c (moveRight a : Prog (Heap V) Addr) := by
  unfold moveRight; pres [pres_isRed _, pres_rotateLeft _, pres_rotateRight _, pres_flipColors _]
theorem pres_poor (a : Addr) : Pres c (poor a : Prog (Heap V) Bool) := by unfold poor; pres [pres_isRed _]

theorem pres_rebalLoop (hd : Addr) : ∀ p, Pres c (rebalLoop hd p : Prog (Heap V) Unit) := by
  refine rebalLoop.fixpoint_induct (V := V) hd (motive := fun f => ∀ p, Pres c (f p)) pres_admissible fun f ih p => ?_
  pres [ih _, pres_isRed _, pres_edgeOf _ _, pres_wrE _ _ _, pres_rdE _ _, pres_fixup _]

theorem pres_linkNew (hd : Addr) (v : V) (e : Edge) (p : Addr) : Pres c (linkNew hd v e p) := by
  unfold linkNew insertRebalance; pres [pres_rebalLoop _ _, pres_wrE _ _ _, pres_rdE _ _, pres_rootOf _]

theorem pres_dmDown (hd : Addr) : ∀ e, Pres c (dmDown hd e : Prog (Heap V) Edge) := by
  refine dmDown.fixpoint_induct (V := V) hd (motive := fun f => ∀ p, Pres c (f p)) pres_admissible fun f ih p => ?_
  pres [ih _, pres_isRed _, pres_moveLeft _, pres_wrE _ _ _, pres_rdE _ _]

theorem pres_dmUp (hd : Addr) (root : Edge) : ∀ e p, Pres c (dmUp hd root e p : Prog (Heap V) Unit) := by
  refine dmUp.fixpoint_induct (V := V) hd root (motive := fun f => ∀ e p, Pres c (f e p)) pres_admissible2 fun f ih e p => ?_
  pres [ih _ _, pres_edgeOf _ _, pres_fixup _, pres_wrE _ _ _, pres_rdE _ _]

theorem pres_deleteMin (hd : Addr) (e : Edge) : Pres c (deleteMin hd e : Prog (Heap V) Addr) := by
  unfold deleteMin; pres [pres_dmDown _ _, pres_dmUp _ _ _ _, pres_wrE _ _ _, pres_rdE _ _]

theorem pres_replaceByMin (hd : Addr) (e : Edge) : Pres c (replaceByMin hd e : Prog (Heap V) (Addr × Addr)) := by
  unfold replaceByMin; pres [pres_deleteMin _ _, pres_wrE _ _ _, pres_rdE _ _]

theorem pres_climbLoop (hd : Addr) : ∀ p, Pres c (climbLoop hd p : Prog (Heap V) Unit) := by
  refine climbLoop.fixpoint_induct (V := V) hd (motive := fun f => ∀ p, Pres c (f p)) pres_admissible fun f ih p => ?_
  pres [ih _, pres_edgeOf _ _, pres_fixup _, pres_wrE _ _ _, pres_rdE _ _]

theorem pres_postorderDestroy : ∀ p, Pres c (postorderDestroy p : Prog (Heap V) Unit) := by
  refine postorderDestroy.fixpoint_induct (V := V) (motive := fun f => ∀ p, Pres c (f p)) pres_admissible fun f ih p => ?_
  pres [ih _]

theorem pres_preorderCopy : ∀ p, Pres c (preorderCopy p : Prog (Heap V) Addr) := by
  refine preorderCopy.fixpoint_induct (V := V) (motive := fun f => ∀ p, Pres c (f p)) pres_admissible fun f ih p => ?_
  pres [ih _]

theorem pres_clear (hd : Addr) : Pres c (clear hd : Prog (Heap V) Unit) := by
  unfold clear; pres [pres_postorderDestroy _, pres_wrE _ _ _, pres_rootOf _]

theorem pres_assign (hd o : Addr) : Pres c (assign hd o : Prog (Heap V) Unit) := by
  unfold assign; pres [pres_clear _, pres_wrE _ _ _, pres_rdE _ _, pres_rootOf _, pres_preorderCopy _]

section Keyed
variable [DecidableEq K] {lt : K → K → Bool} {keyOf : V → K}

theorem pres_findLoop (key : K) : ∀ n, Pres c (findLoop lt keyOf key n) := by
  refine findLoop.fixpoint_induct (V := V) lt keyOf key (motive := fun f => ∀ p, Pres c (f p)) pres_admissible fun f ih p => ?_
  pres [ih _]

theorem pres_find (hd : Addr) (key : K) : Pres c (find lt keyOf hd key) := by unfold find; pres [pres_findLoop _ _, pres_rootOf _]

theorem pres_lowerLoop (key : K) : ∀ n p, Pres c (lowerLoop lt keyOf key n p) := by
  refine lowerLoop.fixpoint_induct (V := V) lt keyOf key (motive := fun f => ∀ a p, Pres c (f a p)) pres_admissible2 fun f ih a p => ?_
  pres [ih _ _]

theorem pres_insUqLoop (hd : Addr) (key : K) : ∀ n p, Pres c (insUqLoop lt keyOf hd key n p) := by
  refine insUqLoop.fixpoint_induct (V := V) lt keyOf hd key (motive := fun f => ∀ a p, Pres c (f a p)) pres_admissible2 fun f ih a p => ?_
  pres [ih _ _, pres_rdE _ _]

theorem pres_insertUnique (hd : Addr) (v : V) : Pres c (insertUnique lt keyOf hd v) := by
  unfold insertUnique
  refine Pres.bind (pres_insUqLoop _ _ _ _) fun x => ?_
  cases x with
  | inl x => exact Pres.pure _
  | inr x => pres [pres_linkNew _ _ _ _]

theorem pres_insertRange (hd : Addr) (vs : List V) : Pres c (insertRange lt keyOf hd vs) := by
  induction vs with
  | nil => exact Pres.pure _
  | cons v vs ih => unfold insertRange; exact Pres.bind (pres_insertUnique _ _) fun _ => ih

theorem pres_leanRight (hd : Addr) (key : K) (e : Edge) (b : Bool) : Pres c (leanRight lt keyOf hd key e b) := by
  unfold leanRight; pres [pres_isRed _, pres_rdE _ _, pres_wrE _ _ _, pres_rotateRight _]

theorem pres_leanRight2 (hd : Addr) (key : K) (e : Edge) : Pres c (leanRight2 lt keyOf hd key e) := by
  unfold leanRight2; pres [pres_poor _, pres_rdE _ _, pres_wrE _ _ _, pres_moveRight _]

theorem pres_removeLoop (hd : Addr) (key : K) : ∀ e p, Pres c (removeLoop lt keyOf hd key e p) := by
  refine removeLoop.fixpoint_induct (V := V) lt keyOf hd key (motive := fun f => ∀ a p, Pres c (f a p)) pres_admissible2 fun f ih a p => ?_
  pres [ih _ _, pres_rdE _ _, pres_poor _, pres_wrE _ _ _, pres_moveLeft _, pres_leanRight _ _ _ _, pres_leanRight2 _ _ _, pres_replaceByMin _ _]

theorem pres_erase (hd : Addr) (key : K) : Pres c (erase lt keyOf hd key) := by
  unfold erase remove; pres [pres_removeLoop _ _ _ _, pres_climbLoop _ _, pres_rootOf _]

theorem pres_call (objs : List Addr) (cl : Call K V) : Pres c (call lt keyOf objs cl) := by
  cases cl with
  | create => unfold call; pres [pres_nd _]
  | copyOf s => unfold call copyCtor; pres [pres_assign _ _]
  | assign d s => unfold call opAssign; pres [pres_assign _ _, pres_clear _]
  | destroy d => unfold call destroy freeHeader; pres [pres_clear _]
  | insert d v => unfold call; pres [pres_insertUnique _ _]
  | insertRange d v => unfold call; pres [pres_insertRange _ _]
  | erase d k => unfold call; pres [pres_erase _ _]
  | clear d => unfold call; pres [pres_clear _]
  | store d v => unfold call; pres [pres_find _ _]
  | find d k => unfold call; pres [pres_find _ _]
  | lower d k => unfold call lowerBound; pres [pres_lowerLoop _ _ _, pres_rootOf _]


theorem ok_bind {p : Prog (Heap V) α} {k : α → Prog (Heap V) β} {h : Heap V} {y : β × Heap V} (e : (p >>= k) h = .ok y) :
    ∃ a h1, p h = .ok (a, h1) ∧ k a h1 = .ok y := by
  simp only [Prog.bind_app] at e
  cases g : p h with
  | diverge => rw [g] at e; cases e
  | ub f => rw [g] at e; cases e
  | ok r => rw [g] at e; exact ⟨r.1, r.2, rfl, e⟩

theorem ok_pure {a : α} {h h' : Heap V} {b : α} (e : (pure a : Prog (Heap V) α) h = .ok (b, h')) : b = a ∧ h' = h := by
  simp only [Prog.pure_app, Res.ok.injEq, Prod.mk.injEq] at e
  exact ⟨e.1.symm, e.2.symm⟩

/-- A container that exists after a call existed before it, or is the one the call made, in unused memory. -/
theorem objs_call {objs objs' : List Addr} {h h' : Heap V} (w : Wf h) (cl : Call K V) (e : call lt keyOf objs cl h = .ok (objs', h'))
    {c : Addr} (hc : c ∈ objs') : c ∈ objs ∨ Bare c h' := by
  have fresh : ∀ a (h1 : Heap V), (newTree : Prog (Heap V) Addr) h = .ok (a, h1) → Bare a h1 := by
    intro a h1 q
    unfold newTree at q
    simp only [Res.ok.injEq, Prod.mk.injEq] at q
    rw [← q.1, ← q.2]
    exact ⟨Nat.lt_succ_self _, (w.unused _ (Nat.le_refl _)).2⟩
  cases cl with
  | create =>
    obtain ⟨a, h1, q, e⟩ := ok_bind e
    obtain ⟨rfl, rfl⟩ := ok_pure e
    rcases List.mem_append.1 hc with hc | hc
    · exact .inl hc
    · rw [List.mem_singleton.1 hc]; exact .inr (fresh _ _ q)
  | copyOf s =>
    obtain ⟨a, h1, q, e⟩ := ok_bind e
    obtain ⟨rfl, rfl⟩ := ok_pure e
    rcases List.mem_append.1 hc with hc | hc
    · exact .inl hc
    · rw [List.mem_singleton.1 hc]
      unfold copyCtor at q
      obtain ⟨b, h2, q1, q⟩ := ok_bind q
      obtain ⟨_, h3, q2, q⟩ := ok_bind q
      obtain ⟨rfl, rfl⟩ := ok_pure q
      exact .inr (pres_assign _ _ _ _ _ q2 (fresh _ _ q1))
  | assign d s => obtain ⟨_, _, _, e⟩ := ok_bind e; obtain ⟨rfl, rfl⟩ := ok_pure e; exact .inl hc
  | destroy d => obtain ⟨_, _, _, e⟩ := ok_bind e; obtain ⟨rfl, rfl⟩ := ok_pure e; exact .inl (List.mem_of_mem_erase hc)
  | insert d v => obtain ⟨_, _, _, e⟩ := ok_bind e; obtain ⟨rfl, rfl⟩ := ok_pure e; exact .inl hc
  | insertRange d v => obtain ⟨_, _, _, e⟩ := ok_bind e; obtain ⟨rfl, rfl⟩ := ok_pure e; exact .inl hc
  | erase d k => obtain ⟨_, _, _, e⟩ := ok_bind e; obtain ⟨rfl, rfl⟩ := ok_pure e; exact .inl hc
  | clear d => obtain ⟨_, _, _, e⟩ := ok_bind e; obtain ⟨rfl, rfl⟩ := ok_pure e; exact .inl hc
  | store d v =>
    obtain ⟨n, h1, _, e⟩ := ok_bind e
    simp only [Prog.ite_app] at e
    split at e
    · obtain ⟨rfl, rfl⟩ := ok_pure e; exact .inl hc
    · obtain ⟨_, _, _, e⟩ := ok_bind e; obtain ⟨rfl, rfl⟩ := ok_pure e; exact .inl hc
  | find d k => obtain ⟨_, _, _, e⟩ := ok_bind e; obtain ⟨rfl, rfl⟩ := ok_pure e; exact .inl hc
  | lower d k => obtain ⟨_, _, _, e⟩ := ok_bind e; obtain ⟨rfl, rfl⟩ := ok_pure e; exact .inl hc

/-- No reachable state has an element in the header of a container. -/
theorem header_bare (ho : StrictTotalOrder lt) {objs : List Addr} {h : Heap V} (r : Reach lt keyOf objs h) :
    ∀ c ∈ objs, Bare c h := by
  induction r with
  | start junk => simp
  | step cl r hl e ih =>
    intro c hc
    obtain ⟨ws, w, _⟩ := r.inv ho
    rcases objs_call w.wf cl e hc with q | q
    · exact pres_call _ cl _ _ _ e (ih c q)
    · exact q
  | env r e ih =>
    intro c hc
    refine ⟨Nat.lt_of_not_le fun l => ?_, by rw [e.data]; exact (ih c hc).2⟩
    obtain ⟨es, o, _⟩ := r.owns ho hc
    have dead := (e.wf.unused c l).1
    have live := o.cells_live (x := c) (by simp [cells])
    rw [e.node] at dead
    rw [dead] at live; cases live

end Keyed
end Verif.Rb.Header
