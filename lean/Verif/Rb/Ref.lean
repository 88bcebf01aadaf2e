import Verif.Rb.RefModel
import Verif.Rb.ContainerProps
/-!
# Arguments that are elements of the container itself (C112)
-/
set_option linter.unusedSimpArgs false
set_option linter.unusedSectionVars false
set_option linter.unusedVariables false
set_option linter.constructorNameAsVariable false
namespace Verif.Rb.Ref
open Verif Tree
variable {K V T α β : Type}

/-! ## Programs that agree while the element of a node is unchanged -/

/-- From memories where node `x` holds `v`, `q` does what `p` does unless `p` runs forever, and node `x` holds `v` afterwards. -/
def Agree (x : Addr) (v : V) (p q : Prog (Heap V) α) : Prop :=
  ∀ h, h.data x = some v → p h = .diverge ∨ (q h = p h ∧ ∀ a h', p h = .ok (a, h') → h'.data x = some v)

variable {x : Addr} {v : V}

theorem Agree.pure (a : α) : Agree x v (pure a) (pure a) := by
  intro h hx
  refine Or.inr ⟨rfl, fun a' h' e => ?_⟩
  simp only [Prog.pure_app, Res.ok.injEq, Prod.mk.injEq] at e
  rw [← e.2]; exact hx

theorem Agree.bind {p q : Prog (Heap V) α} {k k' : α → Prog (Heap V) β} (hp : Agree x v p q) (hk : ∀ a, Agree x v (k a) (k' a)) :
    Agree x v (p >>= k) (q >>= k') := by
  intro h hx
  rcases hp h hx with e | ⟨e, keep⟩
  · exact Or.inl (by simp only [Prog.bind_app, e, Res.bind_diverge])
  · simp only [Prog.bind_app, e]
    cases g : p h with
    | diverge => exact Or.inl rfl
    | ub f => exact Or.inr ⟨rfl, by intro a h' e; cases e⟩
    | ok r =>
      simp only [Res.bind_ok]
      exact hk r.1 r.2 (keep _ _ g)

theorem Agree.ite {c : Prop} [Decidable c] {p q p' q' : Prog (Heap V) α} (h1 : Agree x v p q) (h2 : Agree x v p' q') :
    Agree x v (if c then p else p') (if c then q else q') := by
  split
  · exact h1
  · exact h2

/-- Insert reads that are known. -/
theorem Agree.read {p : Prog (Heap V) β} {r : Prog (Heap V) α} {k : α → Prog (Heap V) β} {a : α}
    (hr : ∀ h, h.data x = some v → r h = .ok (a, h)) (hk : Agree x v p (k a)) : Agree x v p (r >>= k) := by
  intro h hx
  have := hk h hx
  simpa only [Prog.bind_app, hr h hx, Res.bind_ok] using this

/-- `p` never changes the elements stored in nodes. -/
def Keep (p : Prog (Heap V) α) : Prop := ∀ h a h', p h = .ok (a, h') → h'.data = h.data

theorem Keep.agree {p : Prog (Heap V) α} (k : Keep p) : Agree x v p p := by
  intro h hx
  exact Or.inr ⟨rfl, fun a h' e => by rw [k h a h' e]; exact hx⟩

theorem Keep.pure (a : α) : Keep (pure a : Prog (Heap V) α) := by
  intro h a' h' e
  simp only [Prog.pure_app, Res.ok.injEq, Prod.mk.injEq] at e
  rw [e.2]

theorem Keep.bind {p : Prog (Heap V) α} {k : α → Prog (Heap V) β} (hp : Keep p) (hk : ∀ a, Keep (k a)) : Keep (p >>= k) := by
  intro h a h' e
  simp only [Prog.bind_app] at e
  cases g : p h with
  | diverge => rw [g] at e; cases e
  | ub f => rw [g] at e; cases e
  | ok r =>
    rw [g] at e
    simp only [Res.bind_ok] at e
    rw [hk r.1 r.2 a h' e]
    exact hp _ _ _ g

theorem Keep.ite {c : Prop} [Decidable c] {p q : Prog (Heap V) α} (h1 : Keep p) (h2 : Keep q) : Keep (if c then p else q) := by
  split
  · exact h1
  · exact h2

theorem keep_nd (a : Addr) : Keep (nd a : Prog (Heap V) RbNode) := by
  intro h r h' e
  unfold nd at e
  cases g : h.node a with
  | none => rw [g] at e; cases e
  | some n =>
    rw [g] at e
    simp only [Res.ok.injEq, Prod.mk.injEq] at e
    rw [e.2]

theorem keep_dataOf (a : Addr) : Keep (dataOf a : Prog (Heap V) V) := by
  intro h r h' e
  unfold dataOf at e
  cases g : h.data a with
  | none => rw [g] at e; cases e
  | some n =>
    rw [g] at e
    simp only [Res.ok.injEq, Prod.mk.injEq] at e
    rw [e.2]

theorem keep_upd (a : Addr) (f : RbNode → RbNode) : Keep (upd a f : Prog (Heap V) Unit) := by
  intro h r h' e
  unfold upd at e
  cases g : h.node a with
  | none => rw [g] at e; cases e
  | some n =>
    rw [g] at e
    simp only [Res.ok.injEq, Prod.mk.injEq] at e
    rw [← e.2]; rfl

theorem keep_less [DecidableEq K] (lt : K → K → Bool) (a b : K) : Keep (less lt a b : Prog (Heap V) Bool) := by
  intro h r h' e
  simp only [less_app, Res.ok.injEq, Prod.mk.injEq] at e
  rw [← e.2]; rfl

theorem keep_setParent (a b : Addr) : Keep (setParent a b : Prog (Heap V) Unit) := keep_upd _ _
theorem keep_setLeft (a b : Addr) : Keep (setLeft a b : Prog (Heap V) Unit) := keep_upd _ _
theorem keep_setRight (a b : Addr) : Keep (setRight a b : Prog (Heap V) Unit) := keep_upd _ _
theorem keep_setColor (a : Addr) (c : Bool) : Keep (setColor a c : Prog (Heap V) Unit) := keep_upd _ _

/-- Decompose a straight-line program. -/
macro "keeps" : tactic => `(tactic| repeat' first
  | exact Keep.pure _ | exact keep_nd _ | exact keep_dataOf _ | exact keep_setParent _ _ | exact keep_setLeft _ _
  | exact keep_setRight _ _ | exact keep_setColor _ _ | exact keep_less _ _ _ | assumption
  | refine Keep.bind ?_ fun _ => ?_ | refine Keep.ite ?_ ?_)

theorem keep_rdE (hd : Addr) (e : Edge) : Keep (rdE hd e : Prog (Heap V) Addr) := by
  cases e <;> unfold rdE <;> keeps
theorem keep_wrE (hd : Addr) (e : Edge) (a : Addr) : Keep (wrE hd e a : Prog (Heap V) Unit) := by
  cases e <;> unfold wrE <;> keeps
theorem keep_rootOf (hd : Addr) : Keep (rootOf hd : Prog (Heap V) Addr) := by unfold rootOf; keeps
theorem keep_isRed (a : Addr) : Keep (isRed a : Prog (Heap V) Bool) := by unfold isRed; keeps
theorem keep_flipColors (a : Addr) : Keep (flipColors a : Prog (Heap V) Unit) := by unfold flipColors; keeps
theorem keep_rotateLeft (a : Addr) : Keep (rotateLeft a : Prog (Heap V) Addr) := by unfold rotateLeft; keeps
theorem keep_rotateRight (a : Addr) : Keep (rotateRight a : Prog (Heap V) Addr) := by unfold rotateRight; keeps

/-- The same, with rotations. -/
macro "keeps2" : tactic => `(tactic| repeat' first
  | exact keep_flipColors _ | exact keep_isRed _ | exact keep_rotateLeft _ | exact keep_rotateRight _
  | exact Keep.pure _ | exact keep_nd _ | exact keep_setRight _ _ | refine Keep.bind ?_ fun _ => ?_ | refine Keep.ite ?_ ?_)

theorem keep_moveLeft (a : Addr) : Keep (moveLeft a : Prog (Heap V) Addr) := by unfold moveLeft; keeps2
theorem keep_moveRight (a : Addr) : Keep (moveRight a : Prog (Heap V) Addr) := by unfold moveRight; keeps2
theorem keep_poor (a : Addr) : Keep (poor a : Prog (Heap V) Bool) := by unfold poor; keeps2

/-! ## Loops: agreement up to the result -/

/-- From memories where node `x` holds `v`, `q` does what `p` does unless `p` runs forever. -/
def Same (x : Addr) (v : V) (p q : Prog (Heap V) α) : Prop := ∀ h, h.data x = some v → p h = .diverge ∨ q h = p h

theorem Same.refl (p : Prog (Heap V) α) : Same x v p p := fun _ _ => Or.inr rfl

theorem Agree.same {p q : Prog (Heap V) α} (a : Agree x v p q) : Same x v p q := fun h hx => (a h hx).imp id And.left

theorem Agree.then {p q : Prog (Heap V) α} {k k' : α → Prog (Heap V) β} (hp : Agree x v p q) (hk : ∀ a, Same x v (k a) (k' a)) :
    Same x v (p >>= k) (q >>= k') := by
  intro h hx
  rcases hp h hx with e | ⟨e, keep⟩
  · exact Or.inl (by simp only [Prog.bind_app, e, Res.bind_diverge])
  · simp only [Prog.bind_app, e]
    cases g : p h with
    | diverge => exact Or.inl rfl
    | ub f => exact Or.inr rfl
    | ok r =>
      simp only [Res.bind_ok]
      exact hk r.1 r.2 (keep _ _ g)

theorem Same.ite {c : Prop} [Decidable c] {p q p' q' : Prog (Heap V) α} (h1 : Same x v p q) (h2 : Same x v p' q') :
    Same x v (if c then p else p') (if c then q else q') := by
  split
  · exact h1
  · exact h2

theorem Same.read {p : Prog (Heap V) β} {r : Prog (Heap V) α} {k : α → Prog (Heap V) β} {a : α}
    (hr : ∀ h, h.data x = some v → r h = .ok (a, h)) (hk : Same x v p (k a)) : Same x v p (r >>= k) := by
  intro h hx
  have := hk h hx
  simpa only [Prog.bind_app, hr h hx, Res.bind_ok] using this

open Lean.Order in
/-- `Same` passes to limits of loops. -/
theorem same_admissible {A B : Type} (R : A → B → Prog (Heap V) α) :
    admissible (fun f : A → B → Prog (Heap V) α => ∀ a b, Same x v (f a b) (R a b)) := by
  intro C chain ih a b h hx
  classical
  let F := CCPO.csup chain
  let g : A → B → Prog (Heap V) α := fun a' b' m => if m.data x = some v then R a' b' m else F a' b' m
  have le : F ⊑ g := csup_le chain fun f hf => by
    intro a' b' m
    by_cases e : m.data x = some v
    · simp only [g, if_pos e]
      rcases ih f hf a' b' m e with q | q
      · rw [q]; exact FlatOrder.rel.bot
      · rw [q]; exact PartialOrder.rel_refl
    · simp only [g, if_neg e]
      exact le_csup chain hf a' b' m
  have := le a b h
  simp only [g, if_pos hx] at this
  have fin : ∀ x y : Res (α × Heap V), FlatOrder.rel (b := Res.diverge) x y → x = .diverge ∨ y = x := by
    intro x y q
    cases q
    · exact Or.inl rfl
    · exact Or.inr rfl
  exact fin _ _ this

open Lean.Order in
theorem same_admissible1 {A : Type} (R : A → Prog (Heap V) α) :
    admissible (fun f : A → Prog (Heap V) α => ∀ a, Same x v (f a) (R a)) := by
  intro C chain ih a h hx
  classical
  let F := CCPO.csup chain
  let g : A → Prog (Heap V) α := fun a' m => if m.data x = some v then R a' m else F a' m
  have le : F ⊑ g := csup_le chain fun f hf => by
    intro a' m
    by_cases e : m.data x = some v
    · simp only [g, if_pos e]
      rcases ih f hf a' m e with q | q
      · rw [q]; exact FlatOrder.rel.bot
      · rw [q]; exact PartialOrder.rel_refl
    · simp only [g, if_neg e]
      exact le_csup chain hf a' m
  have := le a h
  simp only [g, if_pos hx] at this
  have fin : ∀ x y : Res (α × Heap V), FlatOrder.rel (b := Res.diverge) x y → x = .diverge ∨ y = x := by
    intro x y q
    cases q
    · exact Or.inl rfl
    · exact Or.inr rfl
  exact fin _ _ this

section Keyed
variable [DecidableEq K] {lt : K → K → Bool} {keyOf : V → K}

theorem agree_leanRight {kr : KeyRef K} {k : K} (hr : ∀ h : Heap V, h.data x = some v → rdKey keyOf kr h = .ok (k, h)) (hd : Addr)
    (e : Edge) (b : Bool) : Agree x v (leanRight lt keyOf hd k e b) (leanRightR lt keyOf hd kr e b) := by
  unfold leanRight leanRightR
  refine Agree.bind (keep_rdE _ _).agree fun _ => Agree.bind (keep_nd _).agree fun _ => Agree.bind (keep_isRed _).agree fun _ => Agree.ite ?_ (Agree.pure _)
  refine Agree.bind (keep_rdE _ _).agree fun _ => Agree.bind (keep_rotateRight _).agree fun _ => Agree.bind (keep_wrE _ _ _).agree fun _ => ?_
  refine Agree.bind (keep_rdE _ _).agree fun _ => ?_
  exact Agree.read hr (Agree.bind (keep_dataOf _).agree fun _ => (keep_less _ _ _).agree)

theorem agree_leanRight2 {kr : KeyRef K} {k : K} (hr : ∀ h : Heap V, h.data x = some v → rdKey keyOf kr h = .ok (k, h)) (hd : Addr)
    (e : Edge) : Agree x v (leanRight2 lt keyOf hd k e) (leanRight2R lt keyOf hd kr e) := by
  unfold leanRight2 leanRight2R
  refine Agree.bind (keep_rdE _ _).agree fun _ => Agree.bind (keep_nd _).agree fun _ => Agree.bind (keep_poor _).agree fun _ => Agree.ite ?_ (Agree.pure _)
  refine Agree.bind (keep_rdE _ _).agree fun _ => Agree.bind (keep_moveRight _).agree fun _ => Agree.bind (keep_wrE _ _ _).agree fun _ => ?_
  refine Agree.bind (keep_rdE _ _).agree fun _ => ?_
  exact Agree.read hr (Agree.bind (keep_dataOf _).agree fun _ => Agree.bind (keep_less _ _ _).agree fun _ => Agree.pure _)

theorem same_removeLoop {kr : KeyRef K} {k : K} (hr : ∀ h : Heap V, h.data x = some v → rdKey keyOf kr h = .ok (k, h)) (hd : Addr) :
    ∀ e p, Same x v (removeLoop lt keyOf hd k e p) (removeLoopR lt keyOf hd kr e p) := by
  refine removeLoop.fixpoint_induct (V := V) lt keyOf hd k
    (motive := fun f => ∀ e p, Same x v (f e p) (removeLoopR lt keyOf hd kr e p)) (same_admissible _) ?_
  intro f ih e p
  rw [removeLoopR]
  refine Agree.then (keep_rdE _ _).agree fun y => Same.ite (Same.refl _) ?_
  refine Agree.then (keep_nd _).agree fun n => ?_
  refine Same.read hr ?_
  refine Agree.then (keep_dataOf _).agree fun d => Agree.then (keep_less _ _ _).agree fun b => Same.ite ?_ ?_
  · refine Agree.then (keep_nd _).agree fun n => Agree.then (keep_poor _).agree fun q => Same.ite ?_ ?_
    · refine Agree.then (keep_moveLeft _).agree fun _ => Agree.then (keep_wrE _ _ _).agree fun _ => ?_
      exact Agree.then (keep_rdE _ _).agree fun y => ih _ _
    · exact Agree.then (keep_rdE _ _).agree fun y => ih _ _
  · refine Agree.then (agree_leanRight hr hd e b) fun b' => Agree.then (keep_rdE _ _).agree fun y => ?_
    refine Same.read hr ?_
    refine Agree.then (keep_dataOf _).agree fun d => Agree.then (keep_nd _).agree fun n => Same.ite (Same.refl _) ?_
    refine Agree.then (agree_leanRight2 hr hd e) fun _ => Agree.then (keep_rdE _ _).agree fun y => ?_
    refine Same.read hr ?_
    exact Agree.then (keep_dataOf _).agree fun d => Same.ite (Same.refl _) (ih _ _)

theorem Same.then {p q : Prog (Heap V) α} {k : α → Prog (Heap V) β} (hp : Same x v p q) : Same x v (p >>= k) (q >>= k) := by
  intro h hx
  rcases hp h hx with e | e
  · exact Or.inl (by simp only [Prog.bind_app, e, Res.bind_diverge])
  · exact Or.inr (by simp only [Prog.bind_app, e])

theorem same_erase {kr : KeyRef K} {k : K} (hr : ∀ h : Heap V, h.data x = some v → rdKey keyOf kr h = .ok (k, h)) (hd : Addr) :
    Same x v (erase lt keyOf hd k) (eraseR lt keyOf hd kr) := by
  unfold erase eraseR remove removeR
  exact Same.then (Same.then (same_removeLoop hr hd _ _))

theorem same_findLoop {kr : KeyRef K} {k : K} (hr : ∀ h : Heap V, h.data x = some v → rdKey keyOf kr h = .ok (k, h)) :
    ∀ n, Same x v (findLoop lt keyOf k n) (findLoopR lt keyOf kr n) := by
  refine findLoop.fixpoint_induct (V := V) lt keyOf k
    (motive := fun f => ∀ n, Same x v (f n) (findLoopR lt keyOf kr n)) (same_admissible1 _) ?_
  intro f ih n
  rw [findLoopR]
  refine Same.ite (Same.refl _) (Agree.then (keep_dataOf _).agree fun d => Same.read hr ?_)
  refine Agree.then (keep_less _ _ _).agree fun b => Same.ite (Agree.then (keep_nd _).agree fun _ => ih _) (Same.read hr ?_)
  exact Same.ite (Same.refl _) (Agree.then (keep_nd _).agree fun _ => ih _)

theorem same_find {kr : KeyRef K} {k : K} (hr : ∀ h : Heap V, h.data x = some v → rdKey keyOf kr h = .ok (k, h)) (hd : Addr) :
    Same x v (find lt keyOf hd k) (findR lt keyOf hd kr) := by
  unfold find findR
  exact Agree.then (keep_rootOf _).agree fun n => Same.then (same_findLoop hr n)

theorem same_insUqLoop {vr : ValRef V} {u : V} (hr : ∀ h : Heap V, h.data x = some v → rdVal vr h = .ok (u, h)) (hd : Addr) :
    ∀ e p, Same x v (insUqLoop lt keyOf hd (keyOf u) e p) (insUqLoopR lt keyOf hd vr e p) := by
  refine insUqLoop.fixpoint_induct (V := V) lt keyOf hd (keyOf u)
    (motive := fun f => ∀ e p, Same x v (f e p) (insUqLoopR lt keyOf hd vr e p)) (same_admissible _) ?_
  intro f ih e p
  rw [insUqLoopR]
  refine Agree.then (keep_rdE _ _).agree fun y => Same.ite (Same.refl _) (Agree.then (keep_dataOf _).agree fun d => Same.read hr ?_)
  refine Agree.then (keep_less _ _ _).agree fun b => Same.ite (ih _ _) (Same.read hr ?_)
  exact Same.ite (Same.refl _) (ih _ _)

/-! ## C112 -/

theorem reach_data (ho : StrictTotalOrder lt) {objs : List Addr} {h : Heap V} (r : Reach lt keyOf objs h) {d : Addr} (hd : d ∈ objs)
    {es : List (Addr × V)} (he : entries d h = .ok (es, h)) (hx : (x, v) ∈ es) : h.data x = some v := by
  obtain ⟨o, _, _⟩ := Container.owns_of_entries ho r hd he
  obtain ⟨t, _, _, _, dd⟩ := o
  exact dd _ hx

theorem rdKey_own {h : Heap V} (hx : h.data x = some v) : rdKey keyOf (.inNode x) h = .ok (keyOf v, h) := by
  simp only [rdKey, Prog.bind_app, dataOf_eq hx, Res.bind_ok, Prog.pure_app]

/-- A key reference into any element of any living container is as good as a copy of the key: `erase`, `find` and `insert` do exactly
the same. -/
theorem own_key_is_a_copy (ho : StrictTotalOrder lt) {objs : List Addr} {h : Heap V} (r : Reach lt keyOf objs h) {c d : Addr}
    (hc : c ∈ objs) (hd : d ∈ objs) {es : List (Addr × V)} (he : entries d h = .ok (es, h)) (hx : (x, v) ∈ es) :
    eraseR lt keyOf c (.inNode x) h = erase lt keyOf c (keyOf v) h ∧ findR lt keyOf c (.inNode x) h = find lt keyOf c (keyOf v) h ∧
      insertUniqueR lt keyOf c (.inNode x) h = insertUnique lt keyOf c v h := by
  have hv := reach_data ho r hd he hx
  obtain ⟨ec, o, a, w⟩ := r.owns ho hc
  refine ⟨?_, ?_, ?_⟩
  · rcases same_erase (lt := lt) (keyOf := keyOf) (fun h q => rdKey_own q) c h hv with q | q
    · obtain ⟨h', _, _, ⟨_, q', _⟩ | ⟨_, _, _, _, _, q', _⟩⟩ := erase_owns ho w o a (keyOf v)
      · rw [q'] at q; cases q
      · rw [q'] at q; cases q
    · exact q
  · rcases same_find (lt := lt) (keyOf := keyOf) (fun h q => rdKey_own q) c h hv with q | q
    · obtain ⟨n, _, q'⟩ := find_owns ho o a (keyOf v)
      rw [q'] at q; cases q
    · exact q
  · have hr : ∀ h : Heap V, h.data x = some v → rdVal (.inNode x) h = .ok (v, h) := fun h q => dataOf_eq q
    have hl := same_insUqLoop (lt := lt) (keyOf := keyOf) hr c .root c h hv
    obtain ⟨n, _, hcase⟩ := insertUnique_owns ho w o a v
    have nd : insUqLoop lt keyOf c (keyOf v) .root c h ≠ .diverge := by
      intro q
      have : insertUnique lt keyOf c v h = .diverge := by
        unfold insertUnique
        simp only [Prog.bind_app, q, Res.bind_diverge]
      rcases hcase with ⟨_, _, _, q'⟩ | ⟨_, _, _, _, _, _, q', _⟩
      · rw [q'] at this; cases this
      · rw [q'] at this; cases this
    have hl' := hl.resolve_left nd
    unfold insertUniqueR insertUnique
    simp only [Prog.bind_app, hl']
    cases g : insUqLoop lt keyOf c (keyOf v) .root c h with
    | diverge => rfl
    | ub f => rfl
    | ok y =>
      obtain ⟨y, h2⟩ := y
      simp only [Res.bind_ok]
      cases y with
      | inl y => rfl
      | inr y =>
        -- the loop left the element alone
        have hv2 : h2.data x = some v := by
          obtain ⟨t, rt, bl, i, dd⟩ := o
          have hk : Keys keyOf h t.inorder (kfOf keyOf (keyOf v) h) := by rw [i]; exact keys_of dd
          have hs : SortedBy lt (kfOf keyOf (keyOf v) h) t.inorder := by rw [i]; exact sortedBy_of dd a
          obtain ⟨n', _, hcase'⟩ := insUqLoop_spec ho (key := keyOf v) (k := []) (t := t) ⟨rt, hk, by simp [pre], by simp [post]⟩ hs
          have g' : insUqLoop lt keyOf c (keyOf v) (ctxEdge []) (ctxParent c []) h = .ok (Sum.inr y, h2) := g
          rcases hcase' with ⟨_, _, _, e⟩ | ⟨_, _, _, e⟩
          · rw [g'] at e; simp at e
          · rw [g'] at e
            simp only [Res.ok.injEq, Prod.mk.injEq] at e
            rw [e.2]; exact hv
        obtain ⟨e, p⟩ := y
        simp only [Prog.bind_app, hr h2 hv2, Res.bind_ok]

/-- `s.erase(*it)`, `m.erase(it->first)`: the designated element is removed and nothing else, although the key argument lives in it. -/
theorem erase_own_key (ho : StrictTotalOrder lt) {objs : List Addr} {h : Heap V} (r : Reach lt keyOf objs h) {c : Addr} (hc : c ∈ objs)
    {es : List (Addr × V)} (he : entries c h = .ok (es, h)) (hx : (x, v) ∈ es) :
    ∃ A B h', es = A ++ (x, v) :: B ∧ eraseR lt keyOf c (.inNode x) h = .ok (1, h') ∧ entries c h' = .ok (A ++ B, h') ∧
      h'.node x = none ∧ h'.data x = none := by
  rw [(own_key_is_a_copy ho r hc hc he hx).1]
  obtain ⟨o, a, w⟩ := Container.owns_of_entries ho r hc he
  have hno := o.cells_nodup
  obtain ⟨h', _, _, ⟨hno', q', _⟩ | ⟨A, e, B, rfl, hk, q', o', ef⟩⟩ := erase_owns ho w o a (keyOf v)
  · exact absurd rfl (hno' _ hx)
  · have hex : e = (x, v) := sorted_inj ho (kf := fun e : Addr × V => keyOf e.2) a (by simp) hx hk
    subst hex
    have hfreed := ef.freed x (by simp [cells]) (by
      simp only [cells, List.map_append, List.map_cons, List.nodup_cons, List.nodup_append, List.mem_cons, List.mem_append] at hno ⊢
      grind)
    exact ⟨A, B, h', rfl, q', o'.entries, hfreed.1, hfreed.2⟩

/-- `s.insert(*it)` of an element of `s` itself finds it. -/
theorem insert_own_element (ho : StrictTotalOrder lt) {objs : List Addr} {h : Heap V} (r : Reach lt keyOf objs h) {c : Addr} (hc : c ∈ objs)
    {es : List (Addr × V)} (he : entries c h = .ok (es, h)) (hx : (x, v) ∈ es) :
    ∃ h', insertUniqueR lt keyOf c (.inNode x) h = .ok ((x, false), h') ∧ entries c h' = .ok (es, h') := by
  rw [(own_key_is_a_copy ho r hc hc he hx).2.2]
  obtain ⟨o, a, w⟩ := Container.owns_of_entries ho r hc he
  obtain ⟨n, _, hcase⟩ := insertUnique_owns ho w o a v
  rcases hcase with ⟨e, he', hk, q⟩ | ⟨A, B, h', rfl, hA, hB, q, o', ef, _⟩
  · have hex : e = (x, v) := sorted_inj ho (kf := fun e : Addr × V => keyOf e.2) a he' hx hk
    subst hex
    exact ⟨_, q, (o.tick n).entries⟩
  · exfalso
    simp only [List.mem_append] at hx
    rcases hx with hx | hx
    · have := hA _ hx; rw [ho.irrefl] at this; cases this
    · have := hB _ hx; rw [ho.irrefl] at this; cases this

end Keyed

/-- `m[it->first]` of an element of `m` itself refers to that element. -/
theorem subscript_own_key [DecidableEq K] {lt : K → K → Bool} (ho : StrictTotalOrder lt) {objs : List Addr} {h : Heap (K × T)}
    (r : Reach lt Prod.fst objs h) {c : Addr} (hc : c ∈ objs) {es : List (Addr × (K × T))} (he : entries c h = .ok (es, h))
    {x : Addr} {v : K × T} (hx : (x, v) ∈ es) (dflt : T) :
    ∃ h', subscriptR lt dflt c (.inNode x) h = .ok (x, h') ∧ entries c h' = .ok (es, h') := by
  have hf := (own_key_is_a_copy ho r hc hc he hx).2.1
  obtain ⟨o, a, w⟩ := Container.owns_of_entries ho r hc he
  have hno := o.cells_nodup
  simp only [cells, List.nodup_cons] at hno
  obtain ⟨n, _, q⟩ := find_owns ho o a v.1
  have hfind : es.find? (fun e => decide (e.2.1 = v.1)) = some (x, v) := by
    cases hq : es.find? (fun e => decide (e.2.1 = v.1)) with
    | none =>
      rw [List.find?_eq_none] at hq
      exact absurd (by simp) (hq _ hx)
    | some e =>
      have h1 := List.find?_some hq
      rw [sorted_inj ho (kf := fun e : Addr × (K × T) => e.2.1) a (List.mem_of_find?_eq_some hq) hx (by simpa using h1)]
  rw [hfind] at q
  refine ⟨h.tick n, ?_, (o.tick n).entries⟩
  unfold subscriptR
  have hne : x ≠ c := fun e => hno.1 (e ▸ List.mem_map_of_mem (f := Prod.fst) hx)
  simp only [Prog.bind_app, hf, q, Option.map_some, Option.getD_some, Res.bind_ok, if_neg hne, Prog.ite_app, Prog.pure_app]

/-- The hypotheses are met: erasing every element of the set `{2, 5, 7}` by a reference to it. -/
example : ∃ c h es, Reach (fun a b : Nat => decide (a < b)) id [c] h ∧ entries c h = .ok (es, h) ∧ es.map Prod.snd = [2, 5, 7] ∧
    ∀ x v, (x, v) ∈ es → ∃ h', eraseR (fun a b : Nat => decide (a < b)) id c (.inNode x) h = .ok (1, h') := by
  obtain ⟨c, h, es, r, e, q⟩ := Container.exists_reach_257
  refine ⟨c, h, es, r, e, q, fun x v hx => ?_⟩
  obtain ⟨_, _, h', _, q, _⟩ := erase_own_key natOrder r (by simp) e hx
  exact ⟨h', q⟩

end Verif.Rb.Ref
