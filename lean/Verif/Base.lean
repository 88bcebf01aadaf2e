/-!
# Execution model shared by every component

A C++ function is modelled as a `Prog σ α`: a function from a memory state `σ` to an outcome.
Three outcomes are distinguished, and no model function maps one of them silently to another:

* `Res.ok (a, s)`  the call returned `a` and left memory `s`;
* `Res.ub f`       the call performed an operation whose behaviour the C++ standard leaves
                   undefined (or broke the object-lifetime discipline); `f` says which kind;
* `Res.diverge`    the call never returns.

Loops are written with `partial_fixpoint`, so a model loop has exactly the iterations of the C++
loop; there is no fuel parameter and no artificial bound.
-/

namespace Verif

/-- Kinds of fault a modelled call can run into. -/
inductive Fault where
  /-- dereference of a null, dangling or out-of-range pointer -/
  | access
  /-- read/destroy of storage holding no object, or construction over a live object -/
  | lifetime
  /-- signed integer overflow or a shift by at least the width -/
  | arith
  deriving DecidableEq, Repr

/-- Outcome of a call. -/
inductive Res (α : Type) where
  | diverge
  | ub (f : Fault)
  | ok (a : α)
  deriving DecidableEq, Repr

namespace Res

def bind {α β : Type} : Res α → (α → Res β) → Res β
  | diverge, _ => diverge
  | ub f, _ => ub f
  | ok a, k => k a

@[simp] theorem bind_diverge {α β : Type} (k : α → Res β) : (diverge : Res α).bind k = diverge := rfl
@[simp] theorem bind_ub {α β : Type} (f : Fault) (k : α → Res β) : (ub f : Res α).bind k = ub f := rfl
@[simp] theorem bind_ok {α β : Type} (a : α) (k : α → Res β) : (ok a).bind k = k a := rfl

open Lean.Order in
instance {α : Type} : PartialOrder (Res α) := inferInstanceAs (PartialOrder (FlatOrder Res.diverge))
open Lean.Order in
noncomputable instance {α : Type} : CCPO (Res α) := inferInstanceAs (CCPO (FlatOrder Res.diverge))

end Res

/-- A call in memory `σ` returning `α`. -/
def Prog (σ α : Type) : Type := σ → Res (α × σ)

namespace Prog
variable {σ α β γ : Type}

@[inline] def ret (a : α) : Prog σ α := fun s => .ok (a, s)
@[inline] def seq (p : Prog σ α) (k : α → Prog σ β) : Prog σ β :=
  fun s => (p s).bind fun r => k r.1 r.2

instance : Monad (Prog σ) where
  pure := ret
  bind := seq

/-- Undefined behaviour happens here. -/
def fail (f : Fault) : Prog σ α := fun _ => .ub f
/-- The current memory. -/
def get : Prog σ σ := fun s => .ok (s, s)
/-- Replace the memory. -/
def put (s : σ) : Prog σ Unit := fun _ => .ok ((), s)

@[simp] theorem bind_app (p : Prog σ α) (k : α → Prog σ β) (s : σ) :
    (p >>= k) s = (p s).bind fun r => k r.1 r.2 := rfl
@[simp] theorem pure_app (a : α) (s : σ) : (pure a : Prog σ α) s = .ok (a, s) := rfl
@[simp] theorem fail_app (f : Fault) (s : σ) : (fail f : Prog σ α) s = .ub f := rfl
@[simp] theorem get_app (s : σ) : (get : Prog σ σ) s = .ok (s, s) := rfl
@[simp] theorem put_app (s' s : σ) : (put s' : Prog σ Unit) s = .ok ((), s') := rfl
@[simp] theorem map_app (f : α → β) (p : Prog σ α) (s : σ) :
    (f <$> p) s = (p s).bind fun r => .ok (f r.1, r.2) := rfl
@[simp] theorem ite_app (c : Prop) [Decidable c] (p q : Prog σ α) (s : σ) :
    (if c then p else q) s = if c then p s else q s := by split <;> rfl

instance : LawfulMonad (Prog σ) := LawfulMonad.mk' (m := Prog σ)
  (id_map := by intro α x; funext s; show (x s).bind _ = x s; cases x s <;> rfl)
  (pure_bind := by intros; rfl)
  (bind_assoc := by
    intro α β γ x f g; funext s
    show ((x s).bind _).bind _ = (x s).bind _
    cases x s <;> rfl)

open Lean.Order in
instance : PartialOrder (Prog σ α) := inferInstanceAs (PartialOrder (σ → Res (α × σ)))
open Lean.Order in
noncomputable instance : CCPO (Prog σ α) := inferInstanceAs (CCPO (σ → Res (α × σ)))
open Lean.Order in
instance : MonoBind (Prog σ) where
  bind_mono_left := by
    intro α β a₁ a₂ f h s
    have hs := h s
    show FlatOrder.rel _ _
    change FlatOrder.rel _ _ at hs
    simp only [bind_app]
    generalize a₁ s = x at hs ⊢
    generalize a₂ s = y at hs ⊢
    cases hs with
    | bot => exact .bot
    | refl => exact .refl
  bind_mono_right := by
    intro α β a f₁ f₂ h s
    show FlatOrder.rel _ _
    simp only [bind_app]
    cases a s with
    | diverge => exact .bot
    | ub f => exact .refl
    | ok r => exact h r.1 r.2

/-- Continue when `c` holds, otherwise undefined behaviour of kind `f`. -/
def need (c : Prop) [Decidable c] (f : Fault) : Prog σ Unit := if c then pure () else fail f

@[simp] theorem need_app (c : Prop) [Decidable c] (f : Fault) (s : σ) :
    (need c f : Prog σ Unit) s = if c then .ok ((), s) else .ub f := by
  unfold need; split <;> rfl

end Prog

end Verif

