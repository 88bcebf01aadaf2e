import Verif.Exc.Cover
import Verif.Exc.RbModel
/-!
# `ttl::map` and `ttl::set` with exceptions: where the model returns, the throwing members pass some number of points
-/
set_option linter.unusedVariables false
set_option linter.unusedSectionVars false
set_option linter.constructorNameAsVariable false
namespace Verif.Exc.XRb
open Verif Verif.Rb Verif.Exc
variable {K V : Type}

theorem covers_newNode (v : V) : Covers (newNode v) (Rb.newNode v) := (covers_call _).point
theorem covers_less (lt : K → K → Bool) (a b : K) : Covers (less (V := V) lt a b) (Rb.less lt a b) := (covers_call _).point
theorem covers_same [DecidableEq K] (a b : K) : Covers (same (V := V) a b) (pure (decide (a = b))) := (covers_pure _).point

theorem covers_same_ite [DecidableEq K] {α : Type} (a b : K) {x y : Thr (Heap V) α} {p q : Prog (Heap V) α} (hx : Covers x p) (hy : Covers y q) :
    Covers (do let e ← same a b; if e then x else y) (if a = b then p else q) := by
  refine ⟨fun s r s' e => ?_⟩
  refine ((covers_same a b).bind (f := fun e => if e then x else y) (g := fun e => if e then p else q) fun e => covers_ite hx hy).out s r s' ?_
  simp only [Prog.bind_app, Prog.pure_app, Res.bind_ok, decide_eq_true_eq]
  exact e

theorem covers_preorderCopy (n : Addr) : Covers (preorderCopy (V := V) n) (Rb.preorderCopy n) := by
  refine Rb.preorderCopy.fixpoint_induct (V := V) (motive := fun f => ∀ n, Covers (preorderCopy n) (f n)) (covers_adm1 _) (fun f ih n => ?_) n
  rw [preorderCopy]
  refine covers_ite (covers_pure _) ((covers_call _).bind fun v => (covers_newNode v).bind fun nc => (covers_call _).bind fun x =>
    (covers_call _).bind fun _ => (covers_call _).bind fun x => ?_)
  have tail : Covers (do
      let x ← Thr.call (nd (V := V) n)
      if x.right ≠ 0 then do
        let y ← preorderCopy x.right
        Thr.call (setRight nc y)
        let z ← Thr.call (nd nc)
        Thr.call (setParent z.right nc)
      else Thr.call (setRight nc 0)
      pure nc) (do
      let r := (← nd n).right
      if r ≠ 0 then do
        setRight nc (← f r)
        setParent (← nd nc).right nc
      else setRight nc 0
      pure nc) := by
    refine (covers_call _).bind fun x => ?_
    refine covers_ite ((ih _).bind fun y => (covers_call _).bind fun _ => (covers_call _).bind fun z => (covers_call _).bind fun _ => covers_pure _)
      ((covers_call _).bind fun _ => covers_pure _)
  exact covers_ite ((ih _).bind fun y => (covers_call _).bind fun _ => (covers_call _).bind fun z => (covers_call _).bind fun _ => tail)
    ((covers_call _).bind fun _ => tail)

theorem covers_assign (hd other : Addr) : Covers (assign (V := V) hd other) (Rb.assign hd other) := by
  have tail : Covers (do
      let oroot ← Thr.call (rootOf (V := V) other)
      if oroot ≠ 0 then do
        let y ← preorderCopy oroot
        Thr.call (wrE hd .root y)
        let z ← Thr.call (rdE hd .root)
        Thr.call (setParent z hd)) (do
      let oroot ← rootOf other
      if oroot ≠ 0 then do
        wrE hd .root (← Rb.preorderCopy oroot)
        setParent (← rdE hd .root) hd) :=
    (covers_call _).bind fun o => covers_ite ((covers_preorderCopy _).bind fun y => (covers_call _).bind fun _ => (covers_call _).bind fun z => covers_call _)
      (covers_pure _)
  exact (covers_call _).bind fun r => covers_ite ((covers_call _).bind fun _ => tail) tail

theorem covers_opAssign (hd other : Addr) : Covers (opAssign (V := V) hd other) (Rb.opAssign hd other) :=
  (covers_call _).bind fun _ => covers_assign hd other

section Keyed
variable [DecidableEq K] (lt : K → K → Bool) (keyOf : V → K)

theorem covers_findLoop (key : K) (n : Addr) : Covers (findLoop lt keyOf key n) (Rb.findLoop lt keyOf key n) := by
  refine Rb.findLoop.fixpoint_induct lt keyOf key (motive := fun f => ∀ n, Covers (findLoop lt keyOf key n) (f n)) (covers_adm1 _) (fun f ih n => ?_) n
  rw [findLoop]
  refine covers_ite (covers_pure _) ((covers_call _).bind fun v => (covers_less lt _ _).bind fun b => ?_)
  refine covers_ite ((covers_call _).bind fun x => ih _) ?_
  exact covers_same_ite _ _ (covers_pure _) ((covers_call _).bind fun x => ih _)

theorem covers_find (hd : Addr) (key : K) : Covers (find lt keyOf hd key) (Rb.find lt keyOf hd key) :=
  (covers_call _).bind fun r => (covers_findLoop lt keyOf key r).bind fun n => covers_pure _

theorem covers_lowerLoop (key : K) (n prev : Addr) : Covers (lowerLoop lt keyOf key n prev) (Rb.lowerLoop lt keyOf key n prev) := by
  refine Rb.lowerLoop.fixpoint_induct lt keyOf key (motive := fun f => ∀ n p, Covers (lowerLoop lt keyOf key n p) (f n p)) (covers_adm2 _) (fun f ih n p => ?_) n prev
  rw [lowerLoop]
  exact covers_ite (covers_pure _) ((covers_call _).bind fun v => (covers_less lt _ _).bind fun b =>
    covers_ite ((covers_call _).bind fun x => ih _ _) ((covers_call _).bind fun x => ih _ _))

theorem covers_lowerBound (hd : Addr) (key : K) : Covers (lowerBound lt keyOf hd key) (Rb.lowerBound lt keyOf hd key) :=
  (covers_call _).bind fun r => covers_lowerLoop lt keyOf key r hd

theorem covers_insUqLoop (hd : Addr) (key : K) (e : Edge) (parent : Addr) : Covers (insUqLoop lt keyOf hd key e parent) (Rb.insUqLoop lt keyOf hd key e parent) := by
  refine Rb.insUqLoop.fixpoint_induct lt keyOf hd key (motive := fun f => ∀ e p, Covers (insUqLoop lt keyOf hd key e p) (f e p)) (covers_adm2 _) (fun f ih e p => ?_) e parent
  rw [insUqLoop]
  refine (covers_call _).bind fun x => covers_ite (covers_pure _) ((covers_call _).bind fun v => (covers_less lt _ _).bind fun b => covers_ite (ih _ _) ?_)
  exact covers_same_ite _ _ (covers_pure _) (ih _ _)

theorem covers_linkNew (hd : Addr) (v : V) (e : Edge) (parent : Addr) : Covers (linkNew hd v e parent) (Rb.linkNew hd v e parent) :=
  (covers_newNode v).bind fun n => (covers_call _).bind fun _ => (covers_call _).bind fun _ => (covers_call _).bind fun _ => covers_pure _

theorem covers_insertUnique (hd : Addr) (v : V) : Covers (insertUnique lt keyOf hd v) (Rb.insertUnique lt keyOf hd v) :=
  (covers_insUqLoop lt keyOf hd _ _ _).bind fun r => match r with
    | .inl x => covers_pure _
    | .inr (e, p) => (covers_linkNew hd v e p).bind fun n => covers_pure _

theorem covers_insertRange (hd : Addr) : ∀ vs, Covers (insertRange lt keyOf hd vs) (Rb.insertRange lt keyOf hd vs)
  | [] => covers_pure _
  | v :: vs => (covers_insertUnique lt keyOf hd v).bind fun _ => covers_insertRange hd vs

theorem covers_leanRight (hd : Addr) (key : K) (root : Edge) (b : Bool) : Covers (leanRight lt keyOf hd key root b) (Rb.leanRight lt keyOf hd key root b) :=
  (covers_call _).bind fun x => (covers_call _).bind fun y => (covers_call _).bind fun b => covers_ite
    ((covers_call _).bind fun _ => (covers_call _).bind fun _ => (covers_call _).bind fun _ => (covers_call _).bind fun _ => (covers_call _).bind fun _ => covers_less lt _ _)
    (covers_pure _)

theorem covers_leanRight2 (hd : Addr) (key : K) (root : Edge) : Covers (leanRight2 lt keyOf hd key root) (Rb.leanRight2 lt keyOf hd key root) :=
  (covers_call _).bind fun x => (covers_call _).bind fun y => (covers_call _).bind fun b => covers_ite
    ((covers_call _).bind fun _ => (covers_call _).bind fun _ => (covers_call _).bind fun _ => (covers_call _).bind fun _ => (covers_call _).bind fun _ =>
      (covers_less lt _ _).bind fun _ => covers_pure _)
    (covers_pure _)

theorem covers_leafHere (key : K) (x : Addr) (il : Bool) : Covers (leafHere keyOf key x il)
    (do
      let v ← dataOf x
      let y ← nd x
      pure (!il && decide (key = keyOf v) && decide (y.right = 0))) := by
  refine ⟨fun s r s' e => ?_⟩
  simp only [Prog.bind_app] at e
  cases g1 : dataOf x s with
  | diverge => rw [g1] at e; cases e
  | ub f => rw [g1] at e; cases e
  | ok v1 =>
    rw [g1] at e
    simp only [Res.bind_ok] at e
    cases g2 : nd x v1.2 with
    | diverge => rw [g2] at e; cases e
    | ub f => rw [g2] at e; cases e
    | ok v2 =>
      rw [g2] at e
      simp only [Res.bind_ok, Prog.pure_app, Res.ok.injEq, Prod.mk.injEq] at e
      obtain ⟨rfl, rfl⟩ := e
      have f1 : v1.2 = s := by
        simp only [dataOf] at g1
        split at g1
        · cases g1; rfl
        · cases g1
      have f2 : v2.2 = v1.2 := by
        simp only [nd] at g2
        split at g2
        · cases g2; rfl
        · cases g2
      cases il with
      | true => exact ⟨0, by simpa [leafHere, f1, f2] using Points.pure_⟩
      | false =>
        refine ⟨1, ?_⟩
        simp only [leafHere, Bool.false_eq_true, if_false]
        refine Points.call_seq g1 (Points.seq (m := 0) (x := same key (keyOf v1.1)) (a := decide (key = keyOf v1.1)) (s' := v1.2) ?_ (Points.call_seq g2 Points.pure_))
        exact Points.seq (m := 0) (Points.point_ trivial) Points.pure_

theorem covers_removeLoop (hd : Addr) (key : K) (root : Edge) (parent : Addr) :
    Covers (removeLoop lt keyOf hd key root parent) (Rb.removeLoop lt keyOf hd key root parent) := by
  refine Rb.removeLoop.fixpoint_induct lt keyOf hd key (motive := fun f => ∀ e p, Covers (removeLoop lt keyOf hd key e p) (f e p)) (covers_adm2 _) (fun f ih e p => ?_) root parent
  rw [removeLoop]
  refine (covers_call _).bind fun x => covers_ite (covers_pure _) ((covers_call _).bind fun n => (covers_call _).bind fun v => (covers_less lt _ _).bind fun il =>
    covers_ite ((covers_call _).bind fun y => (covers_call _).bind fun b => covers_ite
      ((covers_call _).bind fun m => (covers_call _).bind fun _ => (covers_call _).bind fun z => ih _ _)
      ((covers_call _).bind fun z => ih _ _)) ((covers_leanRight lt keyOf hd key e il).bind fun il => (covers_call _).bind fun x => ?_))
  have tail : Covers (do
        leanRight2 lt keyOf hd key e
        let x ← Thr.call (rdE hd e)
        let v ← Thr.call (dataOf x)
        let b ← same key (keyOf v)
        if b then Thr.call (replaceByMin hd e)
        else removeLoop lt keyOf hd key (.right x) n.parent) (do
        Rb.leanRight2 lt keyOf hd key e
        let x ← rdE hd e
        if key = keyOf (← dataOf x) then replaceByMin hd e
        else f (.right x) n.parent) := by
    refine (covers_leanRight2 lt keyOf hd key e).bind fun _ => (covers_call _).bind fun x => (covers_call _).bind fun v => ?_
    exact covers_same_ite _ _ (covers_call _) (ih _ _)
  have h := (covers_leafHere keyOf key x il).bind fun b => covers_ite (c := b = true) ((covers_call (wrE hd e 0)).bind fun _ => covers_pure (x, n.parent)) tail
  refine ⟨fun s r s' q => h.out s r s' ?_⟩
  simp only [Prog.bind_app] at q ⊢
  cases g1 : dataOf x s with
  | diverge => rw [g1] at q; cases q
  | ub f => rw [g1] at q; cases q
  | ok v1 =>
    rw [g1] at q
    simp only [Res.bind_ok] at q ⊢
    cases g2 : nd x v1.2 with
    | diverge => rw [g2] at q; cases q
    | ub f => rw [g2] at q; cases q
    | ok v2 => rw [g2] at q; exact q

theorem covers_remove (hd : Addr) (key : K) : Covers (remove lt keyOf hd key) (Rb.remove lt keyOf hd key) := by
  have h : Covers (remove lt keyOf hd key) (do
      let r ← Rb.removeLoop lt keyOf hd key .root hd
      climbLoop hd r.2
      (do
        let x ← rootOf hd
        if x ≠ 0 then setColor x BLACK)
      pure r.1) := (covers_removeLoop lt keyOf hd key .root hd).bind fun r => (covers_call _).bind fun _ => (covers_call _).bind fun _ => covers_pure _
  refine ⟨fun s r s' q => h.out s r s' ?_⟩
  rw [← q]
  unfold Rb.remove
  simp only [Prog.bind_app]
  cases Rb.removeLoop lt keyOf hd key .root hd s with
  | diverge => rfl
  | ub f => rfl
  | ok v1 =>
    simp only [Res.bind_ok]
    cases climbLoop hd v1.1.2 v1.2 with
    | diverge => rfl
    | ub f => rfl
    | ok v2 =>
      simp only [Res.bind_ok]
      cases rootOf hd v2.2 with
      | diverge => rfl
      | ub f => rfl
      | ok v3 =>
        simp only [Res.bind_ok, Prog.ite_app, Prog.bind_app, Prog.pure_app]
        split <;> rfl

theorem covers_erase (hd : Addr) (key : K) : Covers (erase lt keyOf hd key) (Rb.erase lt keyOf hd key) :=
  (covers_remove lt keyOf hd key).bind fun n => (covers_call _).bind fun _ => covers_pure _

end Keyed
end Verif.Exc.XRb
