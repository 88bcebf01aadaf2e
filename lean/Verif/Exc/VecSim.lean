import Verif.Exc.VecOps
/-!
# The throwing members and the members of `Verif.Vec.Model`

`Sim x p`: if `x` returns, it did what `p` does; and `x` neither depends on leaked blocks nor touches them, whether it returns or throws.
-/
set_option linter.unusedVariables false
set_option linter.unusedSimpArgs false
namespace Verif.Exc.XVec
open Verif Verif.Vec Verif.Exc
variable {T ρ α β : Type}

/-- `x` run with the countdown `k`, as a program that reports how it ended. -/
def runs (x : Thr (Heap ρ T) α) (k : Nat) : Prog (Heap ρ T) (Out α) := x k

structure Sim (x : Thr (Heap ρ T) α) (p : Prog (Heap ρ T) α) : Prop where
  erases : ∀ k h a k' t, x k h = .ok (.ret a k', t) → p h = .ok (a, t)
  framed : ∀ k, Framed (runs x k)

theorem sim_pure (a : α) : Sim (pure a : Thr (Heap ρ T) α) (pure a) :=
  ⟨fun k h b k' t e => by cases e; rfl, fun k => framed_pure (Out.ret a k)⟩

theorem sim_call {p : Prog (Heap ρ T) α} (hp : Framed p) : Sim (Thr.call p) p := by
  refine ⟨fun k h a k' t e => ?_, fun k => ?_⟩
  · simp only [Thr.call_app] at e
    cases q : p h with
    | diverge => rw [q] at e; cases e
    | ub f => rw [q] at e; cases e
    | ok x => rw [q] at e; cases e; rfl
  · exact hp.bind (f := fun a => pure (Out.ret a k)) fun a => framed_pure _

theorem framed_after {f : α → Thr (Heap ρ T) β} (hf : ∀ a k, Framed (runs (f a) k)) (o : Out α) : Framed (fun s => Thr.after f (o, s)) := by
  cases o with
  | ret a k => exact hf a k
  | thrown => exact framed_pure Out.thrown

theorem Sim.bind {x : Thr (Heap ρ T) α} {p : Prog (Heap ρ T) α} {f : α → Thr (Heap ρ T) β} {g : α → Prog (Heap ρ T) β} (hx : Sim x p) (hf : ∀ a, Sim (f a) (g a)) :
    Sim (x >>= f) (p >>= g) := by
  refine ⟨fun k h a k' t e => ?_, fun k => ?_⟩
  · simp only [Thr.bind_app] at e
    cases q : x k h with
    | diverge => rw [q] at e; cases e
    | ub f => rw [q] at e; cases e
    | ok r =>
      obtain ⟨o, s⟩ := r
      cases o with
      | thrown => rw [q] at e; cases e
      | ret b k1 =>
        rw [q] at e
        simp only [Prog.bind_app, hx.erases k h b k1 s q, Res.bind_ok]
        exact (hf b).erases _ _ _ _ _ e
  · exact (hx.framed k).bind (f := fun o s => Thr.after f (o, s)) fun o => framed_after (fun a k => (hf a).framed k) o

/-- A point where an exception may appear does nothing otherwise. -/
theorem Sim.point {x : Thr (Heap ρ T) α} {p : Prog (Heap ρ T) α} (hx : Sim x p) : Sim (Thr.point >>= fun _ => x) p := by
  refine ⟨fun k h a k' t e => ?_, fun k => ?_⟩
  · cases k with
    | zero => cases e
    | succ k => exact hx.erases k h a k' t e
  · cases k with
    | zero => exact framed_pure Out.thrown
    | succ k => exact hx.framed k

theorem Sim.unwinding {x : Thr (Heap ρ T) α} {p : Prog (Heap ρ T) α} {q : Prog (Heap ρ T) Unit} (hx : Sim x p) (hq : Framed q) : Sim (Thr.unwinding x q) p := by
  refine ⟨fun k h a k' t e => ?_, fun k => ?_⟩
  · simp only [Thr.unwinding] at e
    cases r : x k h with
    | diverge => rw [r] at e; cases e
    | ub f => rw [r] at e; cases e
    | ok y =>
      obtain ⟨o, s⟩ := y
      rw [r] at e
      cases o with
      | thrown =>
        simp only [Res.bind_ok] at e
        cases g : q s with
        | diverge => rw [g] at e; cases e
        | ub f => rw [g] at e; cases e
        | ok z => rw [g] at e; cases e
      | ret b k1 => simp only [Res.bind_ok] at e; cases e; exact hx.erases k h a _ t r
  · refine (hx.framed k).bind (f := fun (o : Out α) s => match o with
      | Out.ret a k' => Res.ok (Out.ret a k', s)
      | Out.thrown => (q s).bind fun z => Res.ok (Out.thrown, z.2)) fun o => ?_
    cases o with
    | ret a k' => exact framed_pure _
    | thrown => exact hq.bind (f := fun _ => pure Out.thrown) fun _ => framed_pure _

theorem sim_ite {c : Prop} [Decidable c] {x y : Thr (Heap ρ T) α} {p q : Prog (Heap ρ T) α} (h1 : Sim x p) (h2 : Sim y q) : Sim (if c then x else y) (if c then p else q) := by
  split
  · exact h1
  · exact h2

/-! ## Limits -/

section
open Lean.Order

theorem thr_sup_ok1 {σ A : Type} {c : (A → Thr σ α) → Prop} (hc : chain c) {a : A} {k : Nat} {s : σ} {x : Out α × σ} (e : CCPO.csup hc a k s = .ok x) :
    ∃ f, c f ∧ f a k s = .ok x := sup_ok2 (A := A) (B := Nat) (α := Out α) (σ := σ) (c := c) hc e

theorem thr_sup_ok2 {σ A B : Type} {c : (A → B → Thr σ α) → Prop} (hc : chain c) {a : A} {b : B} {k : Nat} {s : σ} {x : Out α × σ}
    (e : CCPO.csup hc a b k s = .ok x) : ∃ f, c f ∧ f a b k s = .ok x := by
  classical
  apply Decidable.byContradiction
  intro no
  let F := CCPO.csup hc
  let g : A → B → Thr σ α := fun a' b' k' m => if a' = a ∧ b' = b ∧ k' = k ∧ m = s then .diverge else F a' b' k' m
  have le : F ⊑ g := csup_le hc fun f hf => by
    intro a' b' k' m
    have hle := le_csup hc hf a' b' k' m
    by_cases q : a' = a ∧ b' = b ∧ k' = k ∧ m = s
    · obtain ⟨rfl, rfl, rfl, rfl⟩ := q
      simp only [g, and_self, if_true]
      rcases flat_fin hle with q | q
      · rw [q]; exact FlatOrder.rel.bot
      · exact absurd ⟨f, hf, q.symm.trans e⟩ no
    · simp only [g, if_neg q]; exact hle
  have := flat_fin (le a b k s)
  simp only [g, and_self, if_true] at this
  rcases this with q | q
  · rw [show F a b k s = _ from e] at q; cases q
  · rw [show F a b k s = _ from e] at q; cases q

theorem thr_sup_le2 {σ A B : Type} {c : (A → B → Thr σ α) → Prop} (hc : chain c) {f : A → B → Thr σ α} (hf : c f) {a : A} {b : B} {k : Nat} {s : σ} {x : Out α × σ}
    (e : f a b k s = .ok x) : CCPO.csup hc a b k s = .ok x := by
  rcases flat_fin (le_csup hc hf a b k s) with q | q
  · rw [e] at q; cases q
  · exact q.trans e

theorem sim_adm1 {A : Type} (p : A → Prog (Heap ρ T) α) : admissible (fun f : A → Thr (Heap ρ T) α => ∀ a, Sim (f a) (p a)) := by
  intro c hc ih a
  refine ⟨fun k h x k' t e => ?_, fun k => ⟨fun L h hL r m e => ?_⟩⟩
  · obtain ⟨f, hf, e'⟩ := thr_sup_ok1 hc e
    exact (ih f hf a).erases _ _ _ _ _ e'
  · obtain ⟨f, hf, e'⟩ := thr_sup_ok1 hc e
    obtain ⟨h', q, rest⟩ := ((ih f hf a).framed k).out L h hL r m e'
    exact ⟨h', sup_le2 (A := A) (B := Nat) (α := Out α) (c := c) hc hf q, rest⟩

theorem sim_adm2 {A B : Type} (p : A → B → Prog (Heap ρ T) α) : admissible (fun f : A → B → Thr (Heap ρ T) α => ∀ a b, Sim (f a b) (p a b)) := by
  intro c hc ih a b
  refine ⟨fun k h x k' t e => ?_, fun k => ⟨fun L h hL r m e => ?_⟩⟩
  · obtain ⟨f, hf, e'⟩ := thr_sup_ok2 hc e
    exact (ih f hf a b).erases _ _ _ _ _ e'
  · obtain ⟨f, hf, e'⟩ := thr_sup_ok2 hc e
    obtain ⟨h', q, rest⟩ := ((ih f hf a b).framed k).out L h hL r m e'
    exact ⟨h', thr_sup_le2 hc hf q, rest⟩
end

/-! ## Loops -/

theorem sim_alloc (n : Nat) : Sim (alloc n : Thr (Heap ρ T) Ptr) (Vec.alloc n) := (sim_call (framed_alloc n)).point
theorem sim_construct (p : Ptr) (v : T) : Sim (construct p v : Thr (Heap ρ T) Unit) (Vec.construct p v) := (sim_call (framed_construct p v)).point
theorem sim_appendOne (c : Nat) (v : T) : Sim (appendOne c v : Thr (Mem T) Unit) (Vec.appendOne c v) :=
  (sim_call (framed_getObj c)).bind fun r => (sim_call (framed_setObj _ _)).bind fun _ => sim_construct _ _

theorem sim_fillBack (c : Nat) : ∀ (n : Nat) (s : Src T), Sim (fillBack c n s : Thr (Mem T) Unit) (Vec.fillBack c n s)
  | 0, s => sim_pure _
  | n + 1, s => (sim_call (framed_next s)).bind fun a => (sim_appendOne c a.1).bind fun _ => sim_fillBack c n a.2

theorem sim_fillAt : ∀ (n : Nat) (s : Src T) (o : Ptr), Sim (fillAt n s o : Thr (Heap ρ T) Ptr) (Vec.fillAt n s o)
  | 0, s, o => sim_pure _
  | n + 1, s, o => (sim_call (framed_next s)).bind fun a => (sim_construct o a.1).bind fun _ => sim_fillAt n a.2 _

theorem sim_copyAll (c d : Nat) (i : Ptr) : Sim (copyAll c d i : Thr (Mem T) Unit) (Vec.copyAll c d i) := by
  refine copyAll.fixpoint_induct (T := T) c d (motive := fun f => ∀ a, Sim (f a) (Vec.copyAll c d a)) (sim_adm1 _) (fun f ih i => ?_) i
  rw [Vec.copyAll]
  exact (sim_call (framed_end d)).bind fun e => sim_ite (sim_pure _) ((sim_call (framed_read i)).bind fun v => (sim_appendOne c v).bind fun _ => ih _)

theorem sim_copyTo (i last o : Ptr) : Sim (copyTo i last o : Thr (Heap ρ T) Ptr) (Vec.copyTo i last o) := by
  refine copyTo.fixpoint_induct (T := T) (ρ := ρ) last (motive := fun f => ∀ a b, Sim (f a b) (Vec.copyTo a last b)) (sim_adm2 _) (fun f ih i o => ?_) i o
  rw [Vec.copyTo]
  exact sim_ite (sim_pure _) ((sim_call (framed_read i)).bind fun v => (sim_construct o v).bind fun _ => ih _ _)

theorem sim_shiftUp (i pos o : Ptr) : Sim (shiftUp i pos o : Thr (Heap ρ T) Unit) (Vec.shiftUp i pos o) := by
  refine shiftUp.fixpoint_induct (T := T) (ρ := ρ) pos (motive := fun f => ∀ a b, Sim (f a b) (Vec.shiftUp a pos b)) (sim_adm2 _) (fun f ih i o => ?_) i o
  rw [Vec.shiftUp]
  exact sim_ite (sim_pure _) ((sim_call (framed_dec o)).bind fun o' => (sim_call (framed_dec i)).bind fun i' => (sim_call (framed_read i')).bind fun v =>
    (sim_construct o' v).bind fun _ => (sim_call (framed_destruct i')).bind fun _ => ih _ _)

theorem sim_shiftDown (i last o : Ptr) : Sim (shiftDown i last o : Thr (Heap ρ T) Ptr) (Vec.shiftDown i last o) := by
  refine shiftDown.fixpoint_induct (T := T) (ρ := ρ) last (motive := fun f => ∀ a b, Sim (f a b) (Vec.shiftDown a last b)) (sim_adm2 _) (fun f ih i o => ?_) i o
  rw [Vec.shiftDown]
  exact sim_ite (sim_pure _) ((sim_call (framed_read i)).bind fun v => (sim_construct o v).bind fun _ => (sim_call (framed_destruct i)).bind fun _ => ih _ _)

/-! ## Members -/

theorem framed_leave (c : Nat) (r : Rep) (p o e : Ptr) : Framed (do destroyDown r.last r.elems; free r.elems; setObj c ⟨p, o, e⟩ : Prog (Mem T) Unit) :=
  (framed_destroyDown _ _).bind fun _ => (framed_free _).bind fun _ => framed_setObj _ _

theorem sim_reserve (c n : Nat) : Sim (reserve c n : Thr (Mem T) Unit) (Vec.reserve c n) :=
  (sim_call (framed_getObj c)).bind fun r => (sim_call (framed_less _ _)).bind fun b => sim_ite (sim_pure _)
    ((sim_alloc n).bind fun p => (sim_copyTo _ _ _).bind fun o => sim_call (framed_leave ..))

/-- `insert_values` without the address it returns -/
def bodyOf (c : Nat) (r : Rep) (pos : Ptr) (dist n : Nat) (s : Src T) : Prog (Mem T) Unit := do
  if (← diff r.eoe r.last) < n then do
    let newcapacity := (← size c) + n
    let p ← Vec.alloc newcapacity
    let o ← Vec.copyTo r.elems pos p
    let o ← Vec.fillAt n s o
    let o ← Vec.copyTo pos r.last o
    destroyDown r.last r.elems
    free r.elems
    setObj c ⟨p, o, p + newcapacity⟩
  else do
    if (← less pos r.last) then do
      setObj c { r with last := r.last + n }
      Vec.shiftUp r.last pos (r.last + n)
      let _ ← Vec.fillAt n s (r.elems + dist)
      pure ()
    else Vec.fillBack c n s

theorem insertValues_body (c : Nat) (pos : Ptr) (n : Nat) (s : Src T) : (Vec.insertValues c pos n s : Prog (Mem T) Ptr) = (do
    let r ← getObj c
    let dist ← diff pos r.elems
    let _ ← if 0 < n then bodyOf c r pos dist n s else pure ()
    let b ← begin_ c
    return b + dist) := by
  unfold Vec.insertValues bodyOf
  congr; funext r; congr; funext dist
  split
  · simp only [bind_assoc]
    congr; funext room
    split
    · simp only [bind_assoc]
    · simp only [bind_assoc]
      congr; funext q
      split
      · simp only [bind_assoc, pure_bind]
      · simp only [bind_assoc]
  · simp only [pure_bind]

theorem sim_insertBody (c : Nat) (r : Rep) (pos : Ptr) (dist n : Nat) (s : Src T) : Sim (insertBody c r pos dist n s : Thr (Mem T) Unit) (bodyOf c r pos dist n s) :=
  (sim_call (framed_diff _ _)).bind fun room => sim_ite
    ((sim_call (framed_size c)).bind fun sz => (sim_alloc _).bind fun p => (sim_copyTo _ _ _).bind fun o => (sim_fillAt n s o).bind fun o =>
      (sim_copyTo _ _ _).bind fun o => sim_call (framed_leave ..))
    ((sim_call (framed_less _ _)).bind fun b => sim_ite
      ((sim_call (framed_setObj _ _)).bind fun _ => (sim_shiftUp _ _ _).bind fun _ => (sim_fillAt n s _).bind fun _ => sim_pure _)
      (sim_fillBack c n s))

theorem sim_insertValues (c : Nat) (pos : Ptr) (n : Nat) (s : Src T) : Sim (insertValues c pos n s : Thr (Mem T) Ptr) (Vec.insertValues c pos n s) := by
  rw [insertValues_body]
  exact (sim_call (framed_getObj c)).bind fun r => (sim_call (framed_diff _ _)).bind fun dist => sim_ite
    ((sim_insertBody ..).bind fun _ => (sim_call (framed_begin c)).bind fun b => sim_pure _)
    ((sim_call (framed_begin c)).bind fun b => sim_pure _)

theorem sim_pushBack (c : Nat) (x : Arg T) : Sim (pushBack c x : Thr (Mem T) Unit) (Vec.pushBack c x) :=
  (sim_call (framed_getObj c)).bind fun r => (sim_call (framed_less _ _)).bind fun b => sim_ite
    ((sim_call (framed_get x)).bind fun v => sim_appendOne c v)
    ((sim_call (framed_end c)).bind fun e => (sim_insertValues c e 1 _).bind fun _ => sim_pure _)

theorem sim_pushAll (c : Nat) : ∀ (n : Nat) (s : Src T), Sim (pushAll c n s : Thr (Mem T) Unit) (Vec.pushAll c n s)
  | 0, s => sim_pure _
  | n + 1, s => (sim_call (framed_deref s)).bind fun a => (sim_pushBack c a).bind fun _ => sim_pushAll c n s.succ

theorem sim_assignN (c n : Nat) (x : Arg T) : Sim (assignN c n x : Thr (Mem T) Unit) (Vec.assignN c n x) :=
  (sim_call (framed_clear c)).bind fun _ => (sim_reserve c n).bind fun _ => sim_fillBack c n _
theorem sim_assignRange (c n : Nat) (s : Src T) : Sim (assignRange c n s : Thr (Mem T) Unit) (Vec.assignRange c n s) :=
  (sim_call (framed_clear c)).bind fun _ => sim_pushAll c n s
theorem sim_assign (c d : Nat) : Sim (assign c d : Thr (Mem T) Unit) (Vec.assign c d) :=
  (sim_call (framed_clear c)).bind fun _ => (sim_call (framed_capacity d)).bind fun n => (sim_reserve c n).bind fun _ => (sim_call (framed_begin d)).bind fun b => sim_copyAll c d b

theorem resize_cut (dv : T) (c n : Nat) : (Vec.resize dv c n : Prog (Mem T) Unit) = (do
    let sz ← size c
    if n < sz then Vec.resize dv c n
    else do
      let e ← end_ c
      let _ ← Vec.insertValues c e (n - sz) (.counter (.ext dv))
      pure ()) := by
  funext h
  cases q : (size c : Prog (Mem T) Nat) h with
  | diverge => simp [Vec.resize, q]
  | ub f => simp [Vec.resize, q]
  | ok x =>
    have e : x.2 = h := by
      have := q
      simp only [size, Prog.bind_app] at this
      cases g : (getObj c : Prog (Mem T) Rep) h with
      | diverge => rw [g] at this; cases this
      | ub f => rw [g] at this; cases this
      | ok y =>
        have ey : y.2 = h := by
          simp only [getObj] at g
          split at g
          · cases g; rfl
          · cases g
        rw [g] at this
        simp only [Res.bind_ok, diff] at this
        split at this
        · cases this; exact ey
        · cases this
    obtain ⟨m, h1⟩ := x
    simp only at e; subst e
    by_cases z : n < m
    · simp only [Prog.bind_app, q, Res.bind_ok, Prog.ite_app, if_pos z]
    · simp only [Vec.resize, Prog.bind_app, q, Res.bind_ok, Prog.ite_app, if_neg z, insertN]

theorem sim_resize (dv : T) (c n : Nat) : Sim (resize dv c n : Thr (Mem T) Unit) (Vec.resize dv c n) := by
  rw [resize_cut]
  exact (sim_call (framed_size c)).bind fun sz => sim_ite (sim_call (framed_resize dv c n))
    ((sim_call (framed_end c)).bind fun e => ((sim_insertValues c e _ _).bind fun _ => sim_pure _).point)
theorem sim_resizeX (dv : T) (c n : Nat) (x : Arg T) : Sim (resizeX dv c n x : Thr (Mem T) Unit) (Vec.resizeX dv c n x) :=
  (sim_call (framed_size c)).bind fun sz => sim_ite (sim_call (framed_resize dv c n))
    ((sim_call (framed_end c)).bind fun e => (sim_insertValues c e _ _).bind fun _ => sim_pure _)

theorem sim_eraseRange (c : Nat) (f l : Ptr) : Sim (eraseRange c f l : Thr (Mem T) Ptr) (Vec.eraseRange c f l) :=
  (sim_call (framed_getObj c)).bind fun r => (sim_call (framed_diff _ _)).bind fun off => (sim_call (framed_diff _ _)).bind fun lo =>
    (sim_call (framed_destroyBack _ _)).bind fun _ => (sim_shiftDown _ _ _).bind fun o => (sim_call (framed_setObj _ _)).bind fun _ =>
      (sim_call (framed_begin c)).bind fun b => sim_pure _

theorem ctorN_flat (n : Nat) (x : Arg T) : (Vec.ctorN n x : Prog (Mem T) Nat) = (do
    let c ← create
    (do (do let p ← Vec.alloc n; setObj c ⟨p, p, p + n⟩ : Prog (Mem T) Unit); Vec.fillBack c n (.counter x))
    return c) := by
  simp only [Vec.ctorN, Vec.createN, create, bind_assoc, pure_bind]

theorem sim_createN (c n : Nat) : Sim (createN c n : Thr (Mem T) Unit) (do let p ← Vec.alloc n; setObj c ⟨p, p, p + n⟩) :=
  (sim_alloc n).bind fun p => sim_call (framed_setObj _ _)

theorem sim_ctorN (n : Nat) (x : Arg T) : Sim (ctorN n x : Thr (Mem T) Nat) (Vec.ctorN n x) := by
  rw [ctorN_flat]
  exact (sim_call (framed_newObj _)).bind fun c => (((sim_createN c n).bind fun _ => sim_fillBack c n _).unwinding (framed_dropObj c)).bind fun _ => sim_pure _

theorem copyOf_flat (d : Nat) : (Vec.copyOf d : Prog (Mem T) Nat) = (do
    let n ← size d
    let c ← create
    (do (do let p ← Vec.alloc n; setObj c ⟨p, p, p + n⟩ : Prog (Mem T) Unit); let b ← begin_ d; Vec.copyAll c d b)
    return c) := by
  simp only [Vec.copyOf, Vec.createN, create, bind_assoc, pure_bind]

theorem sim_copyOf (d : Nat) : Sim (copyOf d : Thr (Mem T) Nat) (Vec.copyOf d) := by
  rw [copyOf_flat]
  exact (sim_call (framed_size d)).bind fun n => (sim_call (framed_newObj _)).bind fun c =>
    (((sim_createN c n).bind fun _ => (sim_call (framed_begin d)).bind fun b => sim_copyAll c d b).unwinding (framed_dropObj c)).bind fun _ => sim_pure _

theorem ctorRange_flat (n : Nat) (s : Src T) : (Vec.ctorRange n s : Prog (Mem T) Nat) = (do
    let c ← create
    (do Vec.reserve c n; Vec.pushAll c n s)
    return c) := by
  simp only [Vec.ctorRange, bind_assoc]

theorem sim_ctorRange (n : Nat) (s : Src T) : Sim (ctorRange n s : Thr (Mem T) Nat) (Vec.ctorRange n s) := by
  rw [ctorRange_flat]
  exact (sim_call (framed_newObj _)).bind fun c => (((sim_reserve c n).bind fun _ => sim_pushAll c n s).unwinding (framed_dropObj c)).bind fun _ => sim_pure _

theorem sim_store (c i : Nat) (x : Arg T) : Sim (store c i x : Thr (Mem T) Unit) (Vec.store c i x) :=
  (sim_call (framed_get x)).bind fun v => (sim_call (framed_at c i)).bind fun p => (sim_call (framed_write p v)).point

/-- A call that may throw is the call of `Verif.Vec.Model` if it returns, and leaves leaked blocks alone in every case. -/
theorem sim_exec (dv : T) (q : Call T) : Sim (exec dv q) (Vec.exec dv q) := by
  cases q with
  | create => exact sim_call (framed_exec dv _)
  | ctor n => exact (sim_ctorN n (.ext dv)).bind fun c => sim_pure _
  | ctorN n a => exact (sim_call (framed_carg a)).bind fun a => (sim_ctorN n a).bind fun c => sim_pure _
  | copyOf d => exact (sim_copyOf d).bind fun c => sim_pure _
  | ctorRange r => exact (sim_call (framed_csrc r)).bind fun x => (sim_ctorRange x.2 x.1).bind fun c => sim_pure _
  | destroy c => exact sim_call (framed_exec dv _)
  | assign c d => exact (sim_assign c d).bind fun _ => sim_pure _
  | assignN c n a => exact (sim_call (framed_carg a)).bind fun a => (sim_assignN c n a).bind fun _ => sim_pure _
  | assignRange c r => exact (sim_call (framed_csrc r)).bind fun x => (sim_assignRange c x.2 x.1).bind fun _ => sim_pure _
  | resize c n => exact (sim_resize dv c n).bind fun _ => sim_pure _
  | resizeX c n a => exact (sim_call (framed_carg a)).bind fun a => (sim_resizeX dv c n a).bind fun _ => sim_pure _
  | reserve c n => exact (sim_reserve c n).bind fun _ => sim_pure _
  | insert c i a => exact (sim_call (framed_carg a)).bind fun a => (sim_call (framed_begin c)).bind fun b => (sim_insertValues _ _ _ _).bind fun _ => sim_pure _
  | insertN c i n a => exact (sim_call (framed_carg a)).bind fun a => (sim_call (framed_begin c)).bind fun b => (sim_insertValues _ _ _ _).bind fun _ => sim_pure _
  | insertRange c i r => exact (sim_call (framed_csrc r)).bind fun x => (sim_call (framed_begin c)).bind fun b => (sim_insertValues _ _ _ _).bind fun _ => sim_pure _
  | pushBack c a => exact (sim_call (framed_carg a)).bind fun a => (sim_pushBack c a).bind fun _ => sim_pure _
  | popBack c => exact sim_call (framed_exec dv _)
  | erase c i => exact (sim_call (framed_begin c)).bind fun b => (sim_eraseRange c _ _).bind fun _ => sim_pure _
  | eraseRange c i j => exact (sim_call (framed_begin c)).bind fun b => (sim_call (framed_begin c)).bind fun b' => (sim_eraseRange c _ _).bind fun _ => sim_pure _
  | swap c d => exact sim_call (framed_exec dv _)
  | clear c => exact sim_call (framed_exec dv _)
  | store c i a => exact (sim_call (framed_carg a)).bind fun a => (sim_store c i a).bind fun _ => sim_pure _

end Verif.Exc.XVec
