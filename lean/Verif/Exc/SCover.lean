import Verif.Exc.SModel
/-!
# Throwing members of `ttl::sorted_vector_map` compared with those of the model; lookups change nothing
-/
set_option linter.unusedVariables false
set_option linter.unusedSectionVars false
namespace Verif.Exc
open Verif Lean.Order
variable {σ α β : Type}

/-- What a call returns is what the model returns. -/
theorem Covers.ret {x : Thr σ α} {p : Prog σ α} (c : Covers x p) {s s' t : σ} {a b : α} {k k' : Nat} (e : p s = .ok (a, s')) (r : x k s = .ok (.ret b k', t)) : b = a ∧ t = s' := by
  obtain ⟨n, X⟩ := c.out s a s' e
  rcases X.cases k with ⟨_, q⟩ | ⟨_, u, q, _⟩
  · rw [r] at q; cases q; exact ⟨rfl, rfl⟩
  · rw [r] at q; cases q

/-- The call changes nothing, whether it returns or throws. -/
structure Quiet (x : Thr σ α) : Prop where
  out : ∀ k s o t, x k s = .ok (o, t) → t = s
/-- The same for programs that throw nothing. -/
structure QuietP (p : Prog σ α) : Prop where
  out : ∀ s a t, p s = .ok (a, t) → t = s

theorem quiet_pure (a : α) : Quiet (pure a : Thr σ α) := ⟨fun k s o t e => by cases e; rfl⟩
theorem quietP_pure (a : α) : QuietP (pure a : Prog σ α) := ⟨fun s o t e => by cases e; rfl⟩
theorem quiet_point : Quiet (Thr.point : Thr σ Unit) := ⟨fun k s o t e => by cases k <;> cases e <;> rfl⟩
theorem QuietP.call {p : Prog σ α} (q : QuietP p) : Quiet (Thr.call p) := ⟨fun k s o t e => by
  simp only [Thr.call_app] at e
  cases g : p s with
  | diverge => rw [g] at e; cases e
  | ub f => rw [g] at e; cases e
  | ok y => rw [g] at e; cases e; exact q.out s _ _ g⟩
theorem Quiet.bind {x : Thr σ α} {f : α → Thr σ β} (a : Quiet x) (b : ∀ a, Quiet (f a)) : Quiet (x >>= f) := ⟨fun k s o t e => by
  simp only [Thr.bind_app] at e
  cases g : x k s with
  | diverge => rw [g] at e; cases e
  | ub f => rw [g] at e; cases e
  | ok y =>
    obtain ⟨r, s1⟩ := y
    rw [g] at e
    have := a.out k s r s1 g; subst this
    cases r with
    | ret a k' => exact (b a).out k' _ o t e
    | thrown => cases e; rfl⟩
theorem QuietP.bind {x : Prog σ α} {f : α → Prog σ β} (a : QuietP x) (b : ∀ a, QuietP (f a)) : QuietP (x >>= f) := ⟨fun s o t e => by
  simp only [Prog.bind_app] at e
  cases g : x s with
  | diverge => rw [g] at e; cases e
  | ub f => rw [g] at e; cases e
  | ok y =>
    obtain ⟨r, s1⟩ := y
    rw [g] at e
    have := a.out s r s1 g; subst this
    exact (b r).out _ o t e⟩
theorem quiet_ite {c : Prop} [Decidable c] {x y : Thr σ α} (a : Quiet x) (b : Quiet y) : Quiet (if c then x else y) := by split <;> assumption
theorem quiet_adm1 {A : Type} : admissible (fun x : A → Thr σ α => ∀ a, Quiet (x a)) := by
  intro c hc ih a
  refine ⟨fun k s o t e => ?_⟩
  obtain ⟨f, hf, e'⟩ := XVec.thr_sup_ok1 hc e
  exact (ih f hf a).out k s o t e'
theorem quiet_adm2 {A B : Type} : admissible (fun x : A → B → Thr σ α => ∀ a b, Quiet (x a b)) := by
  intro c hc ih a b
  refine ⟨fun k s o t e => ?_⟩
  obtain ⟨f, hf, e'⟩ := XVec.thr_sup_ok2 hc e
  exact (ih f hf a b).out k s o t e'
theorem Quiet.throws {x : Thr σ α} (q : Quiet x) {s : σ} {P : σ → Prop} (p : P s) : Throws x s P := ⟨fun k t e => by
  have := q.out k s _ t e; subst this; exact p⟩

end Verif.Exc

namespace Verif.Exc.XSM
open Verif Verif.Vec Verif.SVMap Verif.Exc
variable {K V : Type}

/-! ## The same as the model if nothing throws -/

theorem covers_newArray (n : Nat) : Covers (newArray n : Thr (Mem K V) Ptr) (SVMap.newArray n) := (covers_call _).point
theorem covers_newPair (e : K × V) : Covers (newPair e) (SVMap.newPair e) := (covers_call _).point

theorem covers_copyLoop (c : Nat) (i last : Ptr) : Covers (copyLoop c i last : Thr (Mem K V) Unit) (SVMap.copyLoop c i last) := by
  refine SVMap.copyLoop.fixpoint_induct c last (motive := fun f => ∀ i, Covers (copyLoop c i last) (f i)) (covers_adm1 _) (fun f ih i => ?_) i
  rw [copyLoop]
  exact covers_ite ((covers_call _).bind fun q => (covers_call _).bind fun e => (covers_newPair e).bind fun p => (covers_call _).bind fun r => (covers_call _).bind fun _ =>
    (covers_call _).bind fun _ => ih _) (covers_pure _)


section
variable [DecidableEq K] (lt : K → K → Bool)

theorem covers_same_ite (a b : K) {α : Type} {x y : Thr (Mem K V) α} {p q : Prog (Mem K V) α} (hx : Covers x p) (hy : Covers y q) :
    Covers (do let t ← same a b; if t then x else y) (if a = b then p else q) := by
  by_cases g : a = b
  · rw [if_pos g]; simp only [same, bind_assoc, pure_bind, g, decide_true, if_true]; exact hx.point
  · rw [if_neg g]; simp only [same, bind_assoc, pure_bind, g, decide_false, Bool.false_eq_true, if_false]; exact hy.point

theorem covers_less_ite (a b : K) {α : Type} {x y : Thr (Mem K V) α} {p q : Prog (Mem K V) α} (hx : Covers x p) (hy : Covers y q) :
    Covers (do let t ← less lt a b; if t then x else y) (if lt a b then p else q) := by
  simp only [less, bind_assoc, pure_bind]
  exact (covers_ite hx hy).point

theorem covers_bsearchLoop (elements : Ptr) (key : K) (L H : Nat) : Covers (bsearchLoop lt elements key L H : Thr (Mem K V) _) (SVMap.bsearchLoop lt elements key L H) := by
  refine SVMap.bsearchLoop.fixpoint_induct lt elements key (motive := fun f => ∀ L H, Covers (bsearchLoop lt elements key L H) (f L H)) (covers_adm2 _) (fun f ih L H => ?_) L H
  rw [bsearchLoop]
  refine covers_ite ((covers_call _).bind fun q => (covers_call _).bind fun e => ?_) (covers_pure _)
  exact covers_same_ite _ _ (covers_pure _) ((covers_call _).bind fun q => (covers_call _).bind fun e => covers_less_ite lt _ _ (ih _ _) (ih _ _))

theorem covers_bsearch (c : Nat) (key : K) : Covers (bsearch lt c key : Thr (Mem K V) _) (SVMap.bsearch lt c key) :=
  (covers_call _).bind fun n => (covers_call _).bind fun r => covers_bsearchLoop lt _ key _ _

theorem covers_find (c : Nat) (key : K) : Covers (find lt c key : Thr (Mem K V) _) (SVMap.find lt c key) :=
  (covers_bsearch lt c key).bind fun re => covers_ite ((covers_call _).bind fun r => covers_pure _) (covers_call _)

theorem covers_findInsertPos (c : Nat) (key : K) : Covers (findInsertPos lt c key : Thr (Mem K V) _) (SVMap.findInsertPos lt c key) :=
  (covers_bsearch lt c key).bind fun re => (covers_call _).bind fun r => covers_pure _

theorem covers_insertBefore (c : Nat) (pos : Ptr) (e : K × V) : Covers (insertBefore c pos e) (SVMap.insertBefore c pos e) :=
  (covers_call _).bind fun r => (covers_call _).bind fun m => covers_ite
    ((covers_call _).bind fun n => (covers_newArray _).bind fun a => (covers_call _).bind fun o => (covers_newPair e).bind fun p => (covers_call _).bind fun _ =>
      (covers_call _).bind fun o' => (covers_call _).bind fun _ => (covers_call _).bind fun _ => (covers_call _).bind fun _ => covers_pure _)
    ((covers_call _).bind fun _ => (covers_call _).bind fun i => (covers_newPair e).bind fun p => (covers_call _).bind fun _ => covers_pure _)

theorem covers_insert (c : Nat) (e : K × V) : Covers (insert lt c e) (SVMap.insert lt c e) :=
  (covers_findInsertPos lt c e.1).bind fun i => (covers_call _).bind fun l => covers_ite
    ((covers_call _).bind fun x => covers_same_ite _ _ (covers_pure _) ((covers_insertBefore c i e).bind fun p => covers_pure _))
    ((covers_insertBefore c i e).bind fun p => covers_pure _)

theorem covers_insertMade (c : Nat) (pos : Ptr) (e : K × V) : Covers (insertMade c pos e) (SVMap.insertBefore c pos e) :=
  (covers_insertBefore c pos e).point.point.point.point.point.point

theorem covers_index (dv : V) (c : Nat) (key : K) : Covers (index lt dv c key) (SVMap.index lt dv c key) :=
  (covers_findInsertPos lt c key).bind fun i => (covers_call _).bind fun l => covers_ite
    ((covers_call _).bind fun x => covers_same_ite _ _ (covers_call _) ((covers_insertMade c i _).bind fun p => covers_call _))
    ((covers_insertMade c i _).bind fun p => covers_call _)

theorem covers_at (c : Nat) (key : K) : Covers (at_ lt c key : Thr (Mem K V) _) (SVMap.at_ lt c key) := (covers_find lt c key).bind fun i => covers_call _

theorem covers_count (c : Nat) (key : K) : Covers (count lt c key : Thr (Mem K V) _) (SVMap.count lt c key) :=
  (covers_find lt c key).bind fun i => (covers_call _).bind fun e => covers_pure _

theorem covers_equalRange (c : Nat) (key : K) : Covers (equalRange lt c key : Thr (Mem K V) _) (SVMap.equalRange lt c key) :=
  (covers_find lt c key).bind fun i => (covers_call _).bind fun e => covers_ite (covers_pure _) (covers_pure _)

theorem covers_upperLoop (c : Nat) (key : K) (i : Ptr) : Covers (upperLoop c key i : Thr (Mem K V) _) (SVMap.upperLoop c key i) := by
  refine SVMap.upperLoop.fixpoint_induct c key (motive := fun f => ∀ i, Covers (upperLoop c key i) (f i)) (covers_adm1 _) (fun f ih i => ?_) i
  rw [upperLoop]
  exact (covers_call _).bind fun e => covers_ite ((covers_call _).bind fun x => covers_same_ite _ _ (ih _) (covers_pure _)) (covers_pure _)

theorem covers_upperBound (c : Nat) (key : K) : Covers (upperBound lt c key : Thr (Mem K V) _) (SVMap.upperBound lt c key) :=
  (covers_findInsertPos lt c key).bind fun i => covers_upperLoop c key i

/-! ## Lookups change nothing -/

theorem quiet_getObj (c : Nat) : QuietP (getObj c : Prog (Mem K V) Rec) := ⟨fun s a t e => by
  simp only [getObj] at e; split at e <;> cases e; rfl⟩
theorem quiet_read (p : Ptr) : QuietP (Vec.read p : Prog (Mem K V) (Cell K V)) := ⟨fun s a t e => by
  simp only [Vec.read, inBlock] at e
  split at e
  · split at e
    · split at e <;> cases e; rfl
    · cases e
  · cases e⟩
theorem quiet_fail {α : Type} (f : Fault) : QuietP (Prog.fail f : Prog (Mem K V) α) := ⟨fun s a t e => by cases e⟩
theorem quiet_rdPtr (p : Ptr) : QuietP (rdPtr p : Prog (Mem K V) Ptr) := (quiet_read p).bind fun a => match a with | .ptr q => quietP_pure _ | .pair _ _ => quiet_fail _
theorem quiet_rdPair (p : Ptr) : QuietP (rdPair p : Prog (Mem K V) (K × V)) := (quiet_read p).bind fun a => match a with | .pair _ _ => quietP_pure _ | .ptr _ => quiet_fail _
theorem quiet_deref (p : Ptr) : QuietP (deref p : Prog (Mem K V) (K × V)) := (quiet_rdPtr p).bind fun q => quiet_rdPair q
theorem quiet_diff (p q : Ptr) : QuietP (diff p q : Prog (Mem K V) Nat) := ⟨fun s a t e => by
  simp only [diff] at e; split at e <;> cases e; rfl⟩
theorem quiet_size (c : Nat) : QuietP (size c : Prog (Mem K V) Nat) := (quiet_getObj c).bind fun r => quiet_diff _ _
theorem quiet_end (c : Nat) : QuietP (end_ c : Prog (Mem K V) Ptr) := (quiet_getObj c).bind fun r => quietP_pure _
theorem quiet_same (a b : K) : Quiet (same a b : Thr (Mem K V) Bool) := quiet_point.bind fun _ => quiet_pure _
theorem quiet_less (a b : K) : Quiet (less lt a b : Thr (Mem K V) Bool) := quiet_point.bind fun _ => quiet_pure _

theorem quiet_bsearchLoop (elements : Ptr) (key : K) (L H : Nat) : Quiet (bsearchLoop lt elements key L H : Thr (Mem K V) _) := by
  refine bsearchLoop.fixpoint_induct lt elements key (motive := fun f => ∀ L H, Quiet (f L H)) quiet_adm2 (fun f ih L H => ?_) L H
  exact quiet_ite ((quiet_rdPtr _).call.bind fun q => (quiet_rdPair q).call.bind fun e => (quiet_same _ _).bind fun b => quiet_ite (quiet_pure _)
    ((quiet_rdPtr _).call.bind fun q => (quiet_rdPair q).call.bind fun e => (quiet_less lt _ _).bind fun b => quiet_ite (ih _ _) (ih _ _))) (quiet_pure _)

theorem quiet_bsearch (c : Nat) (key : K) : Quiet (bsearch lt c key : Thr (Mem K V) _) :=
  (quiet_size c).call.bind fun n => (quiet_getObj c).call.bind fun r => quiet_bsearchLoop lt _ _ _ _
theorem quiet_find (c : Nat) (key : K) : Quiet (find lt c key : Thr (Mem K V) _) :=
  (quiet_bsearch lt c key).bind fun re => quiet_ite ((quiet_getObj c).call.bind fun r => quiet_pure _) (quiet_end c).call
theorem quiet_findInsertPos (c : Nat) (key : K) : Quiet (findInsertPos lt c key : Thr (Mem K V) _) :=
  (quiet_bsearch lt c key).bind fun re => (quiet_getObj c).call.bind fun r => quiet_pure _
theorem quiet_at (c : Nat) (key : K) : Quiet (at_ lt c key : Thr (Mem K V) _) := (quiet_find lt c key).bind fun i => (quiet_rdPtr i).call
theorem quiet_count (c : Nat) (key : K) : Quiet (count lt c key : Thr (Mem K V) _) := (quiet_find lt c key).bind fun i => (quiet_end c).call.bind fun e => quiet_pure _
theorem quiet_equalRange (c : Nat) (key : K) : Quiet (equalRange lt c key : Thr (Mem K V) _) :=
  (quiet_find lt c key).bind fun i => (quiet_end c).call.bind fun e => quiet_ite (quiet_pure _) (quiet_pure _)
theorem quiet_upperLoop (c : Nat) (key : K) (i : Ptr) : Quiet (upperLoop c key i : Thr (Mem K V) _) := by
  refine upperLoop.fixpoint_induct c key (motive := fun f => ∀ i, Quiet (f i)) quiet_adm1 (fun f ih i => ?_) i
  exact (quiet_end c).call.bind fun e => quiet_ite ((quiet_deref _).call.bind fun x => (quiet_same _ _).bind fun b => quiet_ite (ih _) (quiet_pure _)) (quiet_pure _)
theorem quiet_upperBound (c : Nat) (key : K) : Quiet (upperBound lt c key : Thr (Mem K V) _) :=
  (quiet_findInsertPos lt c key).bind fun i => quiet_upperLoop c key i
end
end Verif.Exc.XSM
