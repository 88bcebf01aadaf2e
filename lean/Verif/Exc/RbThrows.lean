import Verif.Exc.RbCover
import Verif.Exc.RbHolds
/-!
# `ttl::map` and `ttl::set` with exceptions: the memory an exception leaves
-/
set_option linter.unusedVariables false
set_option linter.unusedSimpArgs false
set_option linter.unusedSectionVars false
set_option linter.constructorNameAsVariable false
namespace Verif.Exc.XRb
open Verif Verif.Rb Verif.Exc Tree Lean.Order
variable {K V : Type} {α β : Type}

/-- Compares at most: however `x` ends, only the counter of comparisons has changed. -/
structure Quiet (x : Thr (Heap V) α) : Prop where
  out : ∀ k h o t, x k h = .ok (o, t) → ∃ j, t = h.tick j

theorem quiet_pure (a : α) : Quiet (pure a : Thr (Heap V) α) := ⟨fun k h o t e => by cases e; exact ⟨0, rfl⟩⟩
theorem quiet_nd (a : Addr) : Quiet (Thr.call (nd (V := V) a)) := ⟨fun k h o t e => by
  simp only [Thr.call_app, nd] at e
  split at e
  · cases e; exact ⟨0, rfl⟩
  · cases e⟩
theorem quiet_dataOf (a : Addr) : Quiet (Thr.call (dataOf (V := V) a)) := ⟨fun k h o t e => by
  simp only [Thr.call_app, dataOf] at e
  split at e
  · cases e; exact ⟨0, rfl⟩
  · cases e⟩
theorem Quiet.bind {x : Thr (Heap V) α} {f : α → Thr (Heap V) β} (hx : Quiet x) (hf : ∀ a, Quiet (f a)) : Quiet (x >>= f) := ⟨fun k h o t e => by
  simp only [Thr.bind_app] at e
  cases q : x k h with
  | diverge => rw [q] at e; cases e
  | ub f => rw [q] at e; cases e
  | ok y =>
    obtain ⟨p, s1⟩ := y
    rw [q] at e
    simp only [Res.bind_ok] at e
    obtain ⟨j, rfl⟩ := hx.out _ _ _ _ q
    cases p with
    | ret a k' =>
      obtain ⟨i, rfl⟩ := (hf a).out _ _ _ _ e
      exact ⟨j + i, tick_tick _ _ _⟩
    | thrown => cases e; exact ⟨j, rfl⟩⟩
theorem quiet_ite {c : Prop} [Decidable c] {x y : Thr (Heap V) α} (hx : Quiet x) (hy : Quiet y) : Quiet (if c then x else y) := by split <;> assumption
theorem quiet_point : Quiet (Thr.point : Thr (Heap V) Unit) := ⟨fun k h o t e => by cases k <;> cases e <;> exact ⟨0, rfl⟩⟩
theorem quiet_less (lt : K → K → Bool) (a b : K) : Quiet (less (V := V) lt a b) := quiet_point.bind fun _ => ⟨fun k h o t e => by
  simp only [Thr.call_app, Rb.less, Res.bind_ok] at e
  cases e; exact ⟨1, rfl⟩⟩
theorem quiet_same [DecidableEq K] (a b : K) : Quiet (same (V := V) a b) := quiet_point.bind fun _ => quiet_pure _
theorem quiet_field (a : Addr) (g : RbNode → Addr) : Quiet (Thr.call (do pure (g (← nd (V := V) a)))) := ⟨fun k h o t q => by
  simp only [Thr.call_app, Prog.bind_app] at q
  cases e : nd a h with
  | diverge => rw [e] at q; cases q
  | ub f => rw [e] at q; cases q
  | ok y =>
    rw [e] at q; cases q
    exact (quiet_nd a).out 0 h (.ret y.1 0) y.2 (by simp [e])⟩
theorem quiet_rd (hd : Addr) (e : Edge) : Quiet (Thr.call (rdE (V := V) hd e)) := by
  cases e with
  | root => exact quiet_field hd _
  | left a => exact quiet_field a _
  | right a => exact quiet_field a _
theorem quiet_root (hd : Addr) : Quiet (Thr.call (rootOf (V := V) hd)) := quiet_rd hd .root

theorem quiet_adm1 {A : Type} : admissible (fun x : A → Thr (Heap V) α => ∀ a, Quiet (x a)) := by
  intro c hc ih a
  refine ⟨fun k h o t e => ?_⟩
  obtain ⟨f, hf, e'⟩ := XVec.thr_sup_ok1 hc e
  exact (ih f hf a).out _ _ _ _ e'
theorem quiet_adm2 {A B : Type} : admissible (fun x : A → B → Thr (Heap V) α => ∀ a b, Quiet (x a b)) := by
  intro c hc ih a b
  refine ⟨fun k h o t e => ?_⟩
  obtain ⟨f, hf, e'⟩ := XVec.thr_sup_ok2 hc e
  exact (ih f hf a b).out _ _ _ _ e'

section Keyed
variable [DecidableEq K] (lt : K → K → Bool) (keyOf : V → K)

theorem quiet_findLoop (key : K) (n : Addr) : Quiet (findLoop lt keyOf key n) := by
  refine findLoop.fixpoint_induct lt keyOf key (motive := fun f => ∀ n, Quiet (f n)) quiet_adm1 (fun f ih n => ?_) n
  exact quiet_ite (quiet_pure _) ((quiet_dataOf _).bind fun v => (quiet_less lt _ _).bind fun b => quiet_ite ((quiet_nd _).bind fun x => ih _)
    ((quiet_same _ _).bind fun e => quiet_ite (quiet_pure _) ((quiet_nd _).bind fun x => ih _)))

theorem quiet_find (hd : Addr) (key : K) : Quiet (find lt keyOf hd key) :=
  (quiet_root hd).bind fun r => (quiet_findLoop lt keyOf key r).bind fun n => quiet_pure _

theorem quiet_lowerLoop (key : K) (n prev : Addr) : Quiet (lowerLoop lt keyOf key n prev) := by
  refine lowerLoop.fixpoint_induct lt keyOf key (motive := fun f => ∀ n p, Quiet (f n p)) quiet_adm2 (fun f ih n p => ?_) n prev
  exact quiet_ite (quiet_pure _) ((quiet_dataOf _).bind fun v => (quiet_less lt _ _).bind fun b =>
    quiet_ite ((quiet_nd _).bind fun x => ih _ _) ((quiet_nd _).bind fun x => ih _ _))

theorem quiet_lowerBound (hd : Addr) (key : K) : Quiet (lowerBound lt keyOf hd key) :=
  (quiet_root hd).bind fun r => quiet_lowerLoop lt keyOf key r hd

theorem quiet_insUqLoop (hd : Addr) (key : K) (e : Edge) (parent : Addr) : Quiet (insUqLoop lt keyOf hd key e parent) := by
  refine insUqLoop.fixpoint_induct lt keyOf hd key (motive := fun f => ∀ e p, Quiet (f e p)) quiet_adm2 (fun f ih e p => ?_) e parent
  exact (quiet_rd hd e).bind fun x => quiet_ite (quiet_pure _) ((quiet_dataOf _).bind fun v => (quiet_less lt _ _).bind fun b => quiet_ite (ih _ _)
    ((quiet_same _ _).bind fun q => quiet_ite (quiet_pure _) (ih _ _)))

theorem Quiet.throws {x : Thr (Heap V) α} (q : Quiet x) (h : Heap V) : Throws x h fun t => ∃ j, t = h.tick j := ⟨fun k t e => q.out k h _ t e⟩

/-- If `insert` throws, only comparisons have been made. -/
theorem throws_insertUnique (hd : Addr) (v : V) (h : Heap V) : Throws (insertUnique lt keyOf hd v) h fun t => ∃ j, t = h.tick j := by
  refine throws_bind ((quiet_insUqLoop lt keyOf hd _ _ _).throws h) fun k r k' s' e => ?_
  obtain ⟨j, rfl⟩ := (quiet_insUqLoop lt keyOf hd _ _ _).out _ _ _ _ e
  match r with
  | .inl x => exact throws_pure
  | .inr (e, p) =>
    refine throws_bind (throws_bind (throws_point_call ⟨j, rfl⟩) fun _ _ _ _ _ => ?_) fun _ _ _ _ _ => throws_pure
    exact throws_bind throws_call fun _ _ _ _ _ => throws_bind throws_call fun _ _ _ _ _ => throws_bind throws_call fun _ _ _ _ _ => throws_pure

theorem insertUnique_points {hd : Addr} {v : V} {h h' : Heap V} {r : Addr × Bool} (e : Rb.insertUnique lt keyOf hd v h = .ok (r, h')) :
    ∃ n, Points (insertUnique lt keyOf hd v) h n r h' fun _ t => ∃ j, t = h.tick j :=
  (covers_insertUnique lt keyOf hd v).points e (throws_insertUnique lt keyOf hd v h)

/-- If `insert(first, last)` throws, the first `i` elements have been inserted. -/
theorem insertRange_points (hd : Addr) : ∀ (vs : List V) {h h' : Heap V}, Rb.insertRange lt keyOf hd vs h = .ok ((), h') →
    ∃ n, Points (insertRange lt keyOf hd vs) h n () h' fun _ t =>
      ∃ i h1 j, i < vs.length ∧ Rb.insertRange lt keyOf hd (vs.take i) h = .ok ((), h1) ∧ t = h1.tick j
  | [], h, h', e => by cases e; exact ⟨0, Points.pure_⟩
  | v :: vs, h, h', e => by
    simp only [Rb.insertRange, Prog.bind_app] at e
    cases q : Rb.insertUnique lt keyOf hd v h with
    | diverge => rw [q] at e; cases e
    | ub f => rw [q] at e; cases e
    | ok y =>
      rw [q] at e
      simp only [Res.bind_ok] at e
      obtain ⟨n, X⟩ := insertUnique_points lt keyOf q
      obtain ⟨m, Y⟩ := insertRange_points hd vs e
      refine ⟨n + m, Points.seq (X.imp fun k t l ⟨j, e⟩ => ⟨0, h, j, by simp, rfl, e⟩) (Y.imp fun k t l ⟨i, h1, j, l', e', q'⟩ => ⟨i + 1, h1, j, by simpa using l', ?_, q'⟩)⟩
      simp only [List.take_succ_cons, Rb.insertRange, Prog.bind_app, q, Res.bind_ok, e']

end Keyed

/-! ### Copying -/

def left : Out α → Nat
  | .ret _ k => k
  | .thrown => 0

/-- Old nodes are as they were, all nodes made since are alive. -/
structure Grew (h t : Heap V) : Prop where
  old : ∀ x, x < h.next → t.node x = h.node x ∧ t.data x = h.data x
  made : ∀ x, h.next ≤ x → x < t.next → (t.node x).isSome
  none : ∀ x, t.next ≤ x → h.next ≤ x → h.node x = none → h.data x = none → t.node x = none ∧ t.data x = none
  next : h.next ≤ t.next
  cmps : t.cmps = h.cmps

theorem Grew.refl (h : Heap V) : Grew h h := ⟨fun _ _ => ⟨rfl, rfl⟩, fun x a b => absurd (Nat.lt_of_lt_of_le b a) (Nat.lt_irrefl _), fun x _ _ a b => ⟨a, b⟩, Nat.le_refl _, rfl⟩

theorem Grew.trans {h t u : Heap V} (a : Grew h t) (b : Grew t u) : Grew h u := by
  refine ⟨fun x l => ?_, fun x l1 l2 => ?_, fun x l1 l2 e1 e2 => ?_, Nat.le_trans a.next b.next, b.cmps.trans a.cmps⟩
  · have := b.old x (Nat.lt_of_lt_of_le l a.next)
    rw [this.1, this.2]; exact a.old x l
  · by_cases l : x < t.next
    · rw [(b.old x l).1]; exact a.made x l1 l
    · exact b.made x (Nat.le_of_not_lt l) l2
  · have l : t.next ≤ x := Nat.le_trans b.next l1
    have := a.none x l l2 e1 e2
    exact b.none x l1 l this.1 this.2

theorem Grew.alloc (h : Heap V) (v : V) : Grew h (h.alloc v) := by
  refine ⟨fun x l => ?_, fun x l1 l2 => ?_, fun x l1 l2 e1 e2 => ?_, Nat.le_succ _, rfl⟩
  · have : x ≠ h.next := Nat.ne_of_lt l
    simp [Heap.alloc, this]
  · have : x = h.next := Nat.le_antisymm (Nat.le_of_lt_succ l2) l1
    simp [Heap.alloc, this]
  · have : x ≠ h.next := Nat.ne_of_gt l1
    simp [Heap.alloc, this, e1, e2]

/-- A node made since `h` is written. -/
theorem Grew.upd {h t u : Heap V} (a : Grew h t) {x : Addr} {f : RbNode → RbNode} (l : h.next ≤ x) (e : Rb.upd x f t = .ok ((), u)) : Grew h u := by
  simp only [Rb.upd] at e
  cases q : t.node x with
  | none => rw [q] at e; cases e
  | some n =>
    rw [q] at e; cases e
    refine ⟨fun y hy => ?_, fun y l1 l2 => ?_, fun y l1 l2 e1 e2 => ?_, a.next, a.cmps⟩
    · have : y ≠ x := fun q => Nat.lt_irrefl _ (Nat.lt_of_lt_of_le (q ▸ hy) l)
      rw [setNode_node_ne _ _ this]; exact a.old y hy
    · by_cases hy : y = x
      · subst hy; simp
      · rw [setNode_node_ne _ _ hy]; exact a.made y l1 l2
    · have := a.none y l1 l2 e1 e2
      by_cases hy : y = x
      · subst hy; rw [q] at this; cases this.1
      · rw [setNode_node_ne _ _ hy]; exact this

theorem upd_next {t u : Heap V} {x : Addr} {f : RbNode → RbNode} (e : Rb.upd x f t = .ok ((), u)) : u.next = t.next := by
  simp only [Rb.upd] at e
  cases q : t.node x with
  | none => rw [q] at e; cases e
  | some n => rw [q] at e; cases e; rfl

/-- `x`, called when `h0` has grown to `h`, makes it grow further. -/
structure Grows (h0 : Heap V) (Q : α → Heap V → Prop) (x : Thr (Heap V) α) (h : Heap V) : Prop where
  out : ∀ k o t, Grew h0 h → x k h = .ok (o, t) → Grew h0 t ∧ t.next + left o = h.next + k ∧ ∀ a k', o = .ret a k' → Q a t

theorem Grows.bind {h0 h : Heap V} {Q : α → Heap V → Prop} {R : β → Heap V → Prop} {x : Thr (Heap V) α} {f : α → Thr (Heap V) β} (X : Grows h0 Q x h)
    (F : ∀ a t, Grew h0 t → Q a t → Grows h0 R (f a) t) : Grows h0 R (x >>= f) h := ⟨fun k o t g e => by
  simp only [Thr.bind_app] at e
  cases q : x k h with
  | diverge => rw [q] at e; cases e
  | ub f => rw [q] at e; cases e
  | ok y =>
    obtain ⟨p, s1⟩ := y
    rw [q] at e
    simp only [Res.bind_ok] at e
    obtain ⟨g1, n1, q1⟩ := X.out _ _ _ g q
    cases p with
    | ret a k' =>
      obtain ⟨g2, n2, q2⟩ := (F a s1 g1 (q1 a k' rfl)).out _ _ _ g1 e
      exact ⟨g2, n2.trans n1, q2⟩
    | thrown =>
      cases e
      exact ⟨g1, n1, fun a k' q => by cases q⟩⟩

theorem grows_pure {h0 h : Heap V} {Q : α → Heap V → Prop} {a : α} (q : Q a h) : Grows h0 Q (pure a) h :=
  ⟨fun k o t g e => by cases e; exact ⟨g, rfl, fun b k' e => by cases e; exact q⟩⟩

theorem grows_nd {h0 h : Heap V} (a : Addr) : Grows h0 (fun n t => t = h ∧ h.node a = some n) (Thr.call (nd a)) h := ⟨fun k o t g e => by
  simp only [Thr.call_app, nd] at e
  cases q : h.node a with
  | none => rw [q] at e; cases e
  | some n => rw [q] at e; cases e; exact ⟨g, rfl, fun b k' e => by cases e; exact ⟨rfl, rfl⟩⟩⟩

theorem grows_data {h0 h : Heap V} (a : Addr) : Grows h0 (fun _ t => t = h) (Thr.call (dataOf a)) h := ⟨fun k o t g e => by
  simp only [Thr.call_app, dataOf] at e
  cases q : h.data a with
  | none => rw [q] at e; cases e
  | some n => rw [q] at e; cases e; exact ⟨g, rfl, fun b k' e => by cases e; rfl⟩⟩

theorem grows_upd {h0 h : Heap V} {x : Addr} {f : RbNode → RbNode} (l : h0.next ≤ x) :
    Grows h0 (fun _ t => ∃ n, h.node x = some n ∧ t = h.setNode x (f n)) (Thr.call (upd x f)) h := ⟨fun k o t g e => by
  simp only [Thr.call_app] at e
  cases q : upd x f h with
  | diverge => rw [q] at e; cases e
  | ub f => rw [q] at e; cases e
  | ok y =>
    rw [q] at e
    simp only [Res.bind_ok, Res.ok.injEq, Prod.mk.injEq] at e
    obtain ⟨rfl, rfl⟩ := e
    refine ⟨g.upd l (u := y.2) q, ?_, fun b k' e => ?_⟩
    · rw [upd_next q]; rfl
    · simp only [upd] at q
      cases r : h.node x with
      | none => rw [r] at q; cases q
      | some n => rw [r] at q; cases q; exact ⟨n, rfl, rfl⟩⟩

theorem grows_new {h0 h : Heap V} (v : V) : Grows h0 (fun a t => a = h.next ∧ t = h.alloc v) (newNode v) h := ⟨fun k o t g e => by
  cases k with
  | zero => cases e; exact ⟨g, rfl, fun b k' e => by cases e⟩
  | succ k =>
    simp only [newNode, Thr.bind_app, Thr.point_succ, Res.bind_ok, Thr.after_ret, Thr.call_app, Rb.newNode] at e
    cases e
    exact ⟨g.trans (.alloc h v), Nat.succ_add_eq_add_succ _ _, fun b k' e => by cases e; exact ⟨rfl, rfl⟩⟩⟩

theorem grows_ite {h0 h : Heap V} {Q : α → Heap V → Prop} {c : Prop} [Decidable c] {x y : Thr (Heap V) α} (X : c → Grows h0 Q x h) (Y : ¬c → Grows h0 Q y h) :
    Grows h0 Q (if c then x else y) h := by
  split
  · exact X ‹_›
  · exact Y ‹_›

/-- **A copy under exceptions.** However it ends, nothing old was touched; if it threw with the countdown `k`, exactly `k` nodes have been made. -/
theorem preorderCopy_grows (n : Addr) (h0 h : Heap V) : Grows h0 (fun a t => n ≠ 0 → h0.next ≤ a) (preorderCopy n) h := by
  refine preorderCopy.fixpoint_induct (V := V) (motive := fun f => ∀ n (h0 h : Heap V), Grows h0 (fun a t => n ≠ 0 → h0.next ≤ a) (f n) h)
    ?_ (fun f ih n h0 h => ?_) n h0 h
  · intro c hc ih n h0 h
    refine ⟨fun k o t g e => ?_⟩
    obtain ⟨f, hf, e'⟩ := XVec.thr_sup_ok1 hc e
    exact (ih f hf n h0 h).out _ _ _ g e'
  · refine grows_ite (fun hn => grows_pure fun q => absurd hn q) fun hn => ?_
    refine (grows_data n).bind fun v t g _ => (grows_new v).bind fun nc t1 _ e => ?_
    have l : h0.next ≤ nc := by rw [e.1]; exact g.next
    refine (grows_nd n).bind fun x _ _ _ => (grows_upd l).bind fun _ _ _ _ => (grows_nd n).bind fun x _ _ _ => ?_
    have tail : ∀ t, Grows h0 (fun a t => n ≠ 0 → h0.next ≤ a) (do
        let x ← Thr.call (nd (V := V) n)
        if x.right ≠ 0 then do
          let y ← f x.right
          Thr.call (setRight nc y)
          let z ← Thr.call (nd nc)
          Thr.call (setParent z.right nc)
        else Thr.call (setRight nc 0)
        pure nc) t := by
      intro t
      refine (grows_nd n).bind fun x t1 _ _ => grows_ite (fun hr => ?_) fun hr => ?_
      · refine (ih _ _ _).bind fun y t2 _ ly => (grows_upd l).bind fun _ t3 _ e => (grows_nd _).bind fun z t4 _ ez => ?_
        obtain ⟨m, e1, rfl⟩ := e
        obtain ⟨rfl, e2⟩ := ez
        simp at e2
        exact (grows_upd (by rw [← e2]; exact ly hr)).bind fun _ _ _ _ => grows_pure fun _ => l
      · exact (grows_upd l).bind fun _ _ _ _ => grows_pure fun _ => l
    refine grows_ite (fun hr => ?_) fun hr => (grows_upd l).bind fun _ t2 _ _ => tail t2
    refine (ih _ _ _).bind fun y t2 _ ly => (grows_upd l).bind fun _ t3 _ e => (grows_nd _).bind fun z t4 _ ez => ?_
    obtain ⟨m, e1, rfl⟩ := e
    obtain ⟨rfl, e2⟩ := ez
    simp at e2
    exact (grows_upd (by rw [← e2]; exact ly hr)).bind fun _ t5 _ _ => tail t5

end Verif.Exc.XRb
