import Verif.Rb.ConfineProps
import Verif.Exc.RbBad
import Verif.Exc.ListFrame
/-!
# C163: also a call on maps or sets that throws accesses only the memory of the containers it names

C157 for the model with exceptions: whichever allocation, copy or comparison of a call throws, and whatever calls threw before.
-/
set_option linter.unusedVariables false
set_option linter.unusedSimpArgs false
set_option linter.unusedSectionVars false
set_option linter.constructorNameAsVariable false
namespace Verif.Exc.XRb
open Verif Verif.Rb Verif.Exc
variable {K V α β : Type}

/-- `Confined` wherever an exception appears. -/
def ConfinedT (x : Thr (Heap V) α) : Prop := ∀ k, Confined (α := Out α) (x k)

theorem confinedT_pure (a : α) : ConfinedT (pure a : Thr (Heap V) α) := fun k => confined_pure (α := Out α) (.ret a k)
theorem confinedT_call {p : Prog (Heap V) α} (hp : Confined p) : ConfinedT (Thr.call p) := fun k => hp.bind fun a => confined_pure (α := Out α) (.ret a k)
theorem confinedT_point : ConfinedT (Thr.point : Thr (Heap V) Unit) := fun k => by
  cases k with
  | zero => exact confined_pure (α := Out Unit) .thrown
  | succ k => exact confined_pure (α := Out Unit) (.ret () k)
theorem ConfinedT.bind {x : Thr (Heap V) α} {f : α → Thr (Heap V) β} (hx : ConfinedT x) (hf : ∀ a, ConfinedT (f a)) : ConfinedT (x >>= f) := fun k => by
  refine Confined.bind (α := Out α) (β := Out β) (p := x k) (f := fun o h => Thr.after f (o, h)) (hx k) fun o => ?_
  cases o with
  | ret a k => exact hf a k
  | thrown => exact confined_pure (α := Out β) .thrown
theorem confinedT_unwinding {x : Thr (Heap V) α} {p : Prog (Heap V) Unit} (hx : ConfinedT x) (hp : Confined p) : ConfinedT (Thr.unwinding x p) := fun k => by
  have := Confined.bind (α := Out α) (β := Out α) (p := x k) (f := fun o => match o with
    | .ret a k' => pure (.ret a k')
    | .thrown => do p; pure .thrown) (hx k) fun o => by
      cases o with
      | ret a k => exact confined_pure _
      | thrown => exact hp.bind fun _ => confined_pure _
  have eq : Thr.unwinding x p k = (Bind.bind (m := Prog (Heap V)) (α := Out α) (β := Out α) (x k) fun o => match o with
    | .ret a k' => pure (.ret a k')
    | .thrown => do p; pure .thrown) := by
    funext h
    show (x k h).bind _ = (x k h).bind _
    rcases x k h with _ | _ | ⟨⟨a, k'⟩ | _, s'⟩ <;> rfl
  rw [eq]
  exact this
theorem confinedT_ite {c : Prop} [Decidable c] {p q : Thr (Heap V) α} (hp : ConfinedT p) (hq : ConfinedT q) : ConfinedT (if c then p else q) := by
  split <;> assumption

section
open Lean.Order
theorem confinedT_adm1 {A : Type} : admissible (fun f : A → Thr (Heap V) α => ∀ a, ConfinedT (f a)) := by
  intro c hc ih a k; constructor; intro h R b h' d e
  obtain ⟨f, hf, e'⟩ := XVec.thr_sup_ok1 hc e
  obtain ⟨q, d'⟩ := (ih f hf a k).out h R b h' d e'
  exact ⟨XSeq.thr_sup_le1 hc hf q, d'⟩
theorem confinedT_adm2 {A B : Type} : admissible (fun f : A → B → Thr (Heap V) α => ∀ a b, ConfinedT (f a b)) := by
  intro c hc ih a b k; constructor; intro h R y h' d e
  obtain ⟨f, hf, e'⟩ := XVec.thr_sup_ok2 hc e
  obtain ⟨q, d'⟩ := (ih f hf a b k).out h R y h' d e'
  exact ⟨XVec.thr_sup_le2 hc hf q, d'⟩
end

theorem confined_setColor (a : Addr) (c : Bool) : Confined (setColor (V := V) a c) := confined_upd _ _
theorem confined_setLeft (a c : Addr) : Confined (setLeft (V := V) a c) := confined_upd _ _
theorem confined_setRight (a c : Addr) : Confined (setRight (V := V) a c) := confined_upd _ _
theorem confined_setParent (a c : Addr) : Confined (setParent (V := V) a c) := confined_upd _ _

theorem confinedT_newNode (v : V) : ConfinedT (newNode v) := confinedT_point.bind fun _ => confinedT_call (confined_newNode v)
theorem confinedT_less (lt : K → K → Bool) (a b : K) : ConfinedT (V := V) (less lt a b) := confinedT_point.bind fun _ => confinedT_call (confined_less lt a b)
theorem confinedT_same [DecidableEq K] (a b : K) : ConfinedT (V := V) (same a b) := confinedT_point.bind fun _ => confinedT_pure _

/-- Closes goals `ConfinedT (do …)` from what is known of the parts. -/
macro "confineT" : tactic => `(tactic| repeat' (first
  | exact confinedT_pure _ | exact confinedT_newNode _ | exact confinedT_less _ _ _ | exact confinedT_same _ _ | exact confinedT_call (confined_nd _)
  | exact confinedT_call (confined_dataOf _) | exact confinedT_call (confined_delNode _) | exact confinedT_call (confined_setColor _ _)
  | exact confinedT_call (confined_setLeft _ _) | exact confinedT_call (confined_setRight _ _) | exact confinedT_call (confined_setParent _ _)
  | exact confinedT_call (confined_rdE _ _) | exact confinedT_call (confined_wrE _ _ _) | exact confinedT_call (confined_rootOf _)
  | exact confinedT_call (confined_isRed _) | exact confinedT_call (confined_poor _) | exact confinedT_call (confined_rotateRight _)
  | exact confinedT_call (confined_moveLeft _) | exact confinedT_call (confined_moveRight _) | exact confinedT_call (confined_replaceByMin _ _)
  | exact confinedT_call (confined_climbLoop _ _) | exact confinedT_call (confined_insertRebalance _ _ _) | exact confinedT_call (confined_clear _)
  | assumption | apply_assumption | apply ConfinedT.bind | apply confinedT_ite | (intro a; try dsimp only)))

theorem confinedT_preorderCopy (n : Addr) : ConfinedT (preorderCopy (V := V) n) := by
  refine preorderCopy.fixpoint_induct (V := V) (motive := fun f => ∀ a, ConfinedT (f a)) confinedT_adm1 (fun f ih n => ?_) n
  dsimp only
  confineT
theorem confinedT_assign (hd other : Addr) : ConfinedT (assign (V := V) hd other) := by
  have := confinedT_preorderCopy (V := V)
  unfold assign
  confineT
theorem confinedT_copyCtor (other : Addr) : ConfinedT (copyCtor (V := V) other) :=
  (confinedT_call confined_newTree).bind fun hd => (confinedT_unwinding (confinedT_assign hd other) (confined_destroy hd)).bind fun _ => confinedT_pure _
theorem confinedT_opAssign (hd other : Addr) : ConfinedT (opAssign (V := V) hd other) :=
  (confinedT_call (confined_clear hd)).bind fun _ => confinedT_assign hd other

section Keyed
variable [DecidableEq K] (lt : K → K → Bool) (keyOf : V → K)

theorem confinedT_findLoop (key : K) (n : Addr) : ConfinedT (findLoop lt keyOf key n) := by
  refine findLoop.fixpoint_induct lt keyOf key (motive := fun f => ∀ a, ConfinedT (f a)) confinedT_adm1 (fun f ih n => ?_) n
  dsimp only
  confineT
theorem confinedT_find (hd : Addr) (key : K) : ConfinedT (find lt keyOf hd key) :=
  (confinedT_call (confined_rootOf hd)).bind fun _ => (confinedT_findLoop lt keyOf key _).bind fun _ => confinedT_pure _
theorem confinedT_lowerLoop (key : K) (n prev : Addr) : ConfinedT (lowerLoop lt keyOf key n prev) := by
  refine lowerLoop.fixpoint_induct lt keyOf key (motive := fun f => ∀ a b, ConfinedT (f a b)) confinedT_adm2 (fun f ih n p => ?_) n prev
  dsimp only
  confineT
theorem confinedT_lowerBound (hd : Addr) (key : K) : ConfinedT (lowerBound lt keyOf hd key) :=
  (confinedT_call (confined_rootOf hd)).bind fun _ => confinedT_lowerLoop lt keyOf key _ _
theorem confinedT_insUqLoop (hd : Addr) (key : K) (e : Edge) (parent : Addr) : ConfinedT (insUqLoop lt keyOf hd key e parent) := by
  refine insUqLoop.fixpoint_induct lt keyOf hd key (motive := fun f => ∀ a b, ConfinedT (f a b)) confinedT_adm2 (fun f ih e p => ?_) e parent
  dsimp only
  confineT
theorem confinedT_linkNew (hd : Addr) (v : V) (e : Edge) (parent : Addr) : ConfinedT (linkNew hd v e parent) := by
  unfold linkNew
  confineT
theorem confinedT_insertUnique (hd : Addr) (v : V) : ConfinedT (insertUnique lt keyOf hd v) := by
  refine (confinedT_insUqLoop lt keyOf hd _ _ _).bind fun r => ?_
  cases r with
  | inl x => exact confinedT_pure _
  | inr x => exact (confinedT_linkNew _ _ _ _).bind fun _ => confinedT_pure _
theorem confinedT_insertRange (hd : Addr) : ∀ vs : List V, ConfinedT (insertRange lt keyOf hd vs)
  | [] => confinedT_pure _
  | v :: vs => (confinedT_insertUnique lt keyOf hd v).bind fun _ => confinedT_insertRange hd vs
theorem confinedT_rangeCtor (vs : List V) : ConfinedT (rangeCtor lt keyOf vs) :=
  (confinedT_call confined_newTree).bind fun hd => (confinedT_unwinding (confinedT_insertRange lt keyOf hd vs) (confined_destroy hd)).bind fun _ => confinedT_pure _
theorem confinedT_leanRight (hd : Addr) (key : K) (root : Edge) (b : Bool) : ConfinedT (leanRight lt keyOf hd key root b) := by
  unfold leanRight
  confineT
theorem confinedT_leanRight2 (hd : Addr) (key : K) (root : Edge) : ConfinedT (leanRight2 lt keyOf hd key root) := by
  unfold leanRight2
  confineT
theorem confinedT_leafHere (key : K) (x : Addr) (b : Bool) : ConfinedT (leafHere keyOf key x b) := by
  unfold leafHere
  confineT
theorem confinedT_removeLoop (hd : Addr) (key : K) (root : Edge) (parent : Addr) : ConfinedT (removeLoop lt keyOf hd key root parent) := by
  refine removeLoop.fixpoint_induct lt keyOf hd key (motive := fun f => ∀ a b, ConfinedT (f a b)) confinedT_adm2 (fun f ih e p => ?_) root parent
  have l1 := confinedT_leanRight lt keyOf
  have l2 := confinedT_leanRight2 lt keyOf
  have l3 := confinedT_leafHere keyOf
  dsimp only
  confineT
theorem confinedT_remove (hd : Addr) (key : K) : ConfinedT (remove lt keyOf hd key) :=
  (confinedT_removeLoop lt keyOf hd key _ _).bind fun r => (confinedT_call (confined_climbLoop _ _)).bind fun _ =>
    (confinedT_call ((confined_rootOf hd).bind fun x => confined_ite (confined_setColor _ _) (confined_pure _))).bind fun _ => confinedT_pure _
theorem confinedT_erase (hd : Addr) (key : K) : ConfinedT (erase lt keyOf hd key) :=
  (confinedT_remove lt keyOf hd key).bind fun _ => (confinedT_call (confined_delNode _)).bind fun _ => confinedT_pure _

theorem confinedT_exec (objs : List Addr) (q : XCall K V) : ConfinedT (exec lt keyOf objs q) := by
  cases q with
  | ofRange vs => exact (confinedT_rangeCtor lt keyOf vs).bind fun _ => confinedT_pure _
  | base q =>
    cases q with
    | copyOf s => exact (confinedT_copyCtor s).bind fun _ => confinedT_pure _
    | assign d s => exact (confinedT_opAssign d s).bind fun _ => confinedT_pure _
    | insert c v => exact (confinedT_insertUnique lt keyOf c v).bind fun _ => confinedT_pure _
    | insertRange c vs => exact (confinedT_insertRange lt keyOf c vs).bind fun _ => confinedT_pure _
    | erase c k => exact (confinedT_erase lt keyOf c k).bind fun _ => confinedT_pure _
    | store c v => exact (confinedT_find lt keyOf c _).bind fun _ => confinedT_ite (confinedT_pure _) (confinedT_point.bind fun _ =>
        (confinedT_call (confined_storeData _ _)).bind fun _ => confinedT_pure _)
    | find c k => exact (confinedT_find lt keyOf c k).bind fun _ => confinedT_pure _
    | lower c k => exact (confinedT_lowerBound lt keyOf c k).bind fun _ => confinedT_pure _
    | create => exact confinedT_call (confined_call lt keyOf objs .create)
    | destroy c => exact confinedT_call (confined_call lt keyOf objs (.destroy c))
    | clear c => exact confinedT_call (confined_call lt keyOf objs (.clear c))

/-- What one program makes of memory, the other one makes of it too. -/
def Alike (x y : Thr (Heap V) (List Addr)) : Prop := ∀ k h r h', x k h = .ok (r, h') → ∃ r', y k h = .ok (r', h')

theorem alike_pure (a b : List Addr) : Alike (V := V) (pure a) (pure b) := fun k h r h' e => by cases e; exact ⟨_, rfl⟩
theorem alike_bind (x : Thr (Heap V) α) {f g : α → Thr (Heap V) (List Addr)} (q : ∀ a, Alike (f a) (g a)) : Alike (x >>= f) (x >>= g) := by
  intro k h r h' e
  change (x k h).bind _ = _ at e
  show ∃ r', (x k h).bind _ = _
  rcases y : x k h with _ | _ | ⟨⟨a, k'⟩ | _, s'⟩ <;> rw [y] at e
  · cases e
  · cases e
  · exact q a k' s' r h' e
  · cases e; exact ⟨_, rfl⟩
theorem alike_ite {c : Prop} [Decidable c] {x y x' y' : Thr (Heap V) (List Addr)} (p : Alike x x') (q : Alike y y') :
    Alike (if c then x else y) (if c then x' else y') := by split <;> assumption

/-- The list of containers alive is only handed on by `exec`. -/
theorem exec_objs {lt : K → K → Bool} {keyOf : V → K} (q : XCall K V) (o1 o2 : List Addr) : Alike (exec lt keyOf o1 q) (exec lt keyOf o2 q) := by
  have two : ∀ q : Call K V, Alike (Thr.call (Rb.call lt keyOf o1 q)) (Thr.call (Rb.call lt keyOf o2 q)) := by
    intro q k h r h' e
    change (Rb.call lt keyOf o1 q h).bind _ = _ at e
    show ∃ r', (Rb.call lt keyOf o2 q h).bind _ = _
    rcases y : Rb.call lt keyOf o1 q h with _ | _ | ⟨a, s'⟩ <;> rw [y] at e <;> cases e
    obtain ⟨r', y'⟩ := Container.call_objs (o2 := o2) q y
    rw [y']; exact ⟨_, rfl⟩
  cases q with
  | ofRange vs => exact alike_bind _ fun _ => alike_pure _ _
  | base q =>
  cases q with
  | copyOf s => exact alike_bind _ fun _ => alike_pure _ _
  | assign d s => exact alike_bind _ fun _ => alike_pure _ _
  | insert c v => exact alike_bind _ fun _ => alike_pure _ _
  | insertRange c vs => exact alike_bind _ fun _ => alike_pure _ _
  | erase c k => exact alike_bind _ fun _ => alike_pure _ _
  | find c k => exact alike_bind _ fun _ => alike_pure _ _
  | lower c k => exact alike_bind _ fun _ => alike_pure _ _
  | store c v => exact alike_bind _ fun _ => alike_ite (alike_pure _ _) (alike_bind _ fun _ => alike_bind _ fun _ => alike_pure _ _)
  | create => exact two .create
  | destroy c => exact two (.destroy c)
  | clear c => exact two (.clear c)

/-- The containers a call names. -/
def XCall.args : XCall K V → List Addr
  | .base q => q.args
  | .ofRange _ => []

/-- `x` is part of a container that the call `q` names. -/
def XCall.Mine (q : XCall K V) (h : Heap V) (x : Addr) : Prop := ∃ c ∈ q.args, Belongs h c x

variable {lt keyOf} {S : St V} {n : Nat} {h : Heap V}

theorem Legal.args {q : XCall K V} (lg : Legal S q) : ∀ c ∈ q.args, c ∈ S.objs := by
  cases q with
  | base q => exact lg.1.1
  | ofRange vs => intro c m; cases m

theorem holds_belongs {ok : Bool} {c : Addr} {es : List (Addr × V)} (o : Holds ok h c es) (x : Addr) : Belongs h c x ↔ x ∈ cells c es := by
  simp only [Belongs, o.entries, cells, List.mem_cons, Res.ok.injEq, Prod.mk.injEq, and_true, exists_eq_left']

theorem get_filter (p : Addr → Bool) {c : Addr} (pc : p c = true) : ∀ S : St V, St.get (S.filter fun w => p w.hd) c = St.get S c
  | [] => rfl
  | w :: S => by
    have ih := get_filter p pc S
    unfold St.get at ih ⊢
    by_cases e : w.hd = c
    · have : p w.hd = true := by rw [e]; exact pc
      simp [List.filter_cons, this, pc, e]
    · by_cases q : p w.hd = true
      · simp only [List.filter_cons, q, if_true, List.find?_cons, decide_eq_false e]; exact ih
      · simp only [List.filter_cons, q, if_false, List.find?_cons, decide_eq_false e, Bool.false_eq_true]; exact ih

/-- What is left of a memory that holds containers and lost nodes when only the nodes of some containers are kept holds those. -/
theorem Inv.only (I : Inv lt keyOf S n h) (as : List Addr) (ha : ∀ a ∈ as, a ∈ S.objs) :
    Inv lt keyOf (S.filter fun w => decide (w.hd ∈ as)) 0 (h.only fun x => ∃ c ∈ as, Belongs h c x) := by
  obtain ⟨bs, L, W, rfl, rfl, asc⟩ := I
  have mem : ∀ w ∈ bs, w.hd ∈ as → ∀ x ∈ cells w.hd w.es, ∃ c ∈ as, Belongs h c x := fun w hw hc x hx =>
    ⟨w.hd, hc, (holds_belongs (W.holds w hw) x).2 hx⟩
  refine ⟨bs.filter fun w => decide (w.hd ∈ as), [], ⟨⟨W.wf.pos, ?_⟩, ?_, ?_, ?_, ?_, ?_⟩, ?_, rfl, ?_⟩
  · intro x hx
    have := W.wf.unused x hx
    simp [Heap.only, this.1, this.2]
  · intro w hw
    simp only [List.mem_filter, decide_eq_true_eq] at hw
    refine (W.holds w hw.1).congr fun x hx => ?_
    have := mem w hw.1 hw.2 x hx
    simp [Heap.only, this]
  · intro x hx; cases hx
  · intro hx; cases hx
  · rw [List.append_nil]
    exact (W.nodup.sublist (List.sublist_append_left _ _)).sublist (Container.filter_flatMap _ _ bs)
  · intro x hx
    have : ∃ c ∈ as, Belongs h c x := by
      refine Classical.byContradiction fun no => ?_
      simp only [Heap.only, if_neg no] at hx
      cases hx
    obtain ⟨c, hc, b⟩ := this
    have hb := ha c hc
    simp only [St.objs, List.map_map, List.mem_map, Function.comp] at hb
    obtain ⟨w, hw, rfl⟩ := hb
    rw [List.append_nil]
    exact List.mem_flatMap.2 ⟨w, List.mem_filter.2 ⟨hw, decide_eq_true hc⟩, (holds_belongs (W.holds w hw) x).1 b⟩
  · rw [List.filter_map]; rfl
  · intro w hw
    exact asc w (List.mem_filter.1 hw).1

theorem Legal.only {q : XCall K V} (lg : Legal S q) : Legal (S.filter fun w => decide (w.hd ∈ q.args)) q := by
  cases q with
  | ofRange vs => trivial
  | base q =>
    have ob : ∀ c ∈ q.args, c ∈ St.objs (S.filter fun w => decide (w.hd ∈ q.args)) := by
      intro c m
      have := lg.1.1 c m
      simp only [St.objs, List.mem_map] at this ⊢
      obtain ⟨w, hw, rfl⟩ := this
      exact ⟨w, by simpa [hw] using m, rfl⟩
    refine ⟨⟨ob, lg.1.2⟩, fun c k e => ?_⟩
    have m : c ∈ q.args := by rw [e]; simp [Call.args]
    exact (congrArg Cont.ok (get_filter (fun a => decide (a ∈ q.args)) (by simpa using m) S)).trans (lg.2 c k e)

/-- **C163, one call.** A legal call on maps or sets, whether it returns or throws, at whatever point, does so also in a memory that holds nothing but the
containers it names, with the same result, and in the whole memory it does exactly the same, the rest of memory staying as it is: it reads, writes and frees
nothing else. Any calls may have thrown before. -/
theorem throw_confined (ho : StrictTotalOrder lt) (X : XReach lt keyOf S n h) (q : XCall K V) (lg : Legal S q) (k : Nat) :
    ∃ o h1, exec lt keyOf S.objs q k (h.only (q.Mine h)) = .ok (o, h1) ∧
      exec lt keyOf S.objs q k h = .ok (o, h1.plus (h.only fun x => ¬ q.Mine h x)) ∧
      ∀ x, ¬ q.Mine h x → (h.node x).isSome → h1.node x = none ∧ h1.data x = none := by
  have I := X.inv ho
  have w : Wf h := by obtain ⟨ws, _, W, _⟩ := I; exact W.wf
  obtain ⟨_, h', _, P⟩ := call_points ho (I.only q.args lg.args) q lg.only
  have got : ∃ o h1, exec lt keyOf (St.objs (S.filter fun w => decide (w.hd ∈ q.args))) q k (h.only (q.Mine h)) = .ok (o, h1) := by
    rcases P.cases k with ⟨_, e⟩ | ⟨_, t, e, _⟩
    · exact ⟨_, _, e⟩
    · exact ⟨_, _, e⟩
  obtain ⟨_, h1, e⟩ := got
  obtain ⟨o, e'⟩ := exec_objs q _ S.objs _ _ _ _ e
  obtain ⟨e2, d2⟩ := (confinedT_exec lt keyOf S.objs q k).out _ _ _ _ (Container.only_apart w (q.Mine h)) e'
  rw [Container.only_plus] at e2
  refine ⟨o, h1, e', e2, fun x nx ax => ?_⟩
  have := d2 x (Or.inl (by
    simp only [Heap.only, nx, not_false_eq_true, if_true]
    intro z; rw [z] at ax; cases ax))
  exact ⟨this.1, this.2.1⟩

/-- The nodes of a container exist, and belong to no other container. -/
theorem XReach.belongs_one (ho : StrictTotalOrder lt) (X : XReach lt keyOf S n h) {c d x : Addr} (hc : c ∈ S.objs) (hd : d ∈ S.objs) (bc : Belongs h c x)
    (bd : Belongs h d x) : c = d ∧ (h.node x).isSome := by
  obtain ⟨bs, L, W, rfl, rfl, _⟩ := X.inv ho
  obtain ⟨A, b, B, rfl, rfl⟩ := box_at hc
  have o := W.holds b (by simp)
  have m := (holds_belongs o x).1 bc
  refine ⟨Classical.byContradiction fun ne => ?_, o.cells_live m⟩
  simp only [St.objs, List.map_map, List.mem_map, Function.comp] at hd
  obtain ⟨w, hw, rfl⟩ := hd
  have m' := (holds_belongs (W.holds w hw) x).1 bd
  have dj := (W.split.1 x m).1
  refine dj (List.mem_flatMap.2 ⟨w, ?_, m'⟩)
  simp only [List.mem_append, List.mem_cons] at hw ⊢
  rcases hw with hw | rfl | hw
  · exact .inl hw
  · exact absurd rfl ne
  · exact .inr hw

/-- **C163, two calls.** Calls that name different containers have no memory in common; and when one of them has returned or thrown, the other one finds its
memory as it would have without. -/
theorem throws_apart (ho : StrictTotalOrder lt) (X : XReach lt keyOf S n h) (q1 q2 : XCall K V) (l1 : Legal S q1) (l2 : Legal S q2)
    (dis : ∀ c ∈ q1.args, c ∉ q2.args) :
    (∀ x, q1.Mine h x → ¬ q2.Mine h x) ∧
    ∀ k o h', exec lt keyOf S.objs q1 k h = .ok (o, h') → (∀ x, q2.Mine h' x ↔ q2.Mine h x) ∧
      ∀ x, q2.Mine h x → h'.node x = h.node x ∧ h'.data x = h.data x := by
  have ap : ∀ x, q1.Mine h x → ¬ q2.Mine h x := by
    rintro x ⟨c, hc, bc⟩ ⟨d, hd, bd⟩
    have := (X.belongs_one ho (l1.args c hc) (l2.args d hd) bc bd).1
    exact dis c hc (this ▸ hd)
  refine ⟨ap, fun k o h' e => ?_⟩
  obtain ⟨o2, h1, e1, e2, ff⟩ := throw_confined ho X q1 l1 k
  rw [e] at e2
  simp only [Res.ok.injEq, Prod.mk.injEq] at e2
  have eh := e2.2
  have same : ∀ x, q2.Mine h x → h'.node x = h.node x ∧ h'.data x = h.data x := by
    intro x m
    have nm : ¬ q1.Mine h x := fun y => ap x y m
    obtain ⟨c, hc, b⟩ := m
    have lv := (X.belongs_one ho (l2.args c hc) (l2.args c hc) b b).2
    have z := ff x nm lv
    rw [eh]
    simp [Heap.plus, Heap.only, z.1, z.2, nm]
  refine ⟨fun x => exists_congr fun c => and_congr_right fun hc => ?_, same⟩
  obtain ⟨es, o, _⟩ := (X.inv ho).box (l2.args c hc)
  have o' : Holds (S.get c).ok h' c es := o.congr fun y hy => same y ⟨c, hc, (holds_belongs o y).2 hy⟩
  rw [holds_belongs o, holds_belongs o']

end Keyed
/-- The hypotheses are met: sets `c` holding 2, 5 and 7 and `d` holding 8 and 9, and two nodes that a copy of `c` lost when it threw; again a copy of `c`
throws, and the other call is `d.insert(4)`. -/
example : ∃ (c d : Addr) (h t : Heap Nat), XReach (fun a b : Nat => decide (a < b)) id [⟨c, true, [2, 5, 7]⟩, ⟨d, true, [8, 9]⟩] 2 h ∧ c ≠ d ∧
    exec (fun a b : Nat => decide (a < b)) id [c, d] (.base (.copyOf c)) 1 h = .ok (.thrown, t) ∧
    Legal [⟨c, true, [2, 5, 7]⟩, ⟨d, true, [8, 9]⟩] (.base (.copyOf c) : XCall Nat Nat) ∧
    Legal [⟨c, true, [2, 5, 7]⟩, ⟨d, true, [8, 9]⟩] (.base (.insert d 4) : XCall Nat Nat) ∧
    (∀ x ∈ (XCall.base (.copyOf c) : XCall Nat Nat).args, x ∉ (XCall.base (.insert d 4) : XCall Nat Nat).args) := by
  obtain ⟨c, h, X⟩ := xset3
  obtain ⟨_, h1, _, X1⟩ := X.returns natOrder (.ofRange [8, 9]) trivial
  have X1 : XReach (fun a b : Nat => decide (a < b)) id [⟨c, true, [2, 5, 7]⟩, ⟨h.next, true, [8, 9]⟩] 0 h1 := by simpa [spec, addVal] using X1
  have ne : c ≠ h.next := by
    obtain ⟨es, o, _, _, w⟩ := (X.inv natOrder).box (c := c) (by simp [St.objs])
    exact Nat.ne_of_lt (w.lt (o.cells_live (by simp [cells])))
  obtain ⟨h2, _, X2⟩ := copy_leaks natOrder X1 (c := c) (k := 2) (by simp [St.objs]) (by simp [St.get])
  obtain ⟨t, e, _⟩ := copy_leaks natOrder X2 (c := c) (k := 1) (by simp [St.objs]) (by simp [St.get])
  exact ⟨c, h.next, h2, t, X2, ne, e, ⟨⟨by simp [Call.args, St.objs], by simp⟩, by simp⟩, ⟨⟨by simp [Call.args, St.objs], by simp⟩, by simp⟩,
    by simpa [XCall.args, Call.args] using ne⟩
end Verif.Exc.XRb
