import Verif.Base
/-!
# Calls that may throw

The models of the other modules assume that nothing throws. Here allocation (`new`, `operator new`) and the copy constructor of the elements may:
a call is executed with a countdown `k`, the number of such operations that still succeed; the next one throws. A theorem for every `k` is a
theorem for every point at which an exception can appear, and for none appearing. What a throwing operation does to the memory is: nothing. (`new
node(v)` releases the storage again if the constructor of `v` throws; a constructor that throws leaves no object.)

`ttl` contains no `try` block, so an exception leaves every function on its way to the client; the only thing that happens on the way is the
destruction of local objects and, in a constructor, of the members already constructed (`unwinding`).

The definitions of these modules copy the control flow of the functions of the models, and the theorems say (`Points.returns`) that they do what
the models do if nothing throws.
-/
namespace Verif.Exc
open Verif

/-- How a call ends: it returns, with the countdown then, or an exception leaves it. -/
inductive Out (α : Type) where
  | ret (a : α) (left : Nat)
  | thrown
  deriving DecidableEq, Repr

/-- A call that may throw, in memory `σ`, returning `α`. -/
def Thr (σ α : Type) : Type := Nat → σ → Res (Out α × σ)

namespace Thr
variable {σ α β : Type}

@[inline] def ret (a : α) : Thr σ α := fun k s => .ok (.ret a k, s)
/-- The rest of a function is skipped if an exception leaves its beginning. -/
def after (f : α → Thr σ β) (r : Out α × σ) : Res (Out β × σ) :=
  match r.1 with
  | .ret a k => f a k r.2
  | .thrown => .ok (.thrown, r.2)
def seq (x : Thr σ α) (f : α → Thr σ β) : Thr σ β := fun k s => (x k s).bind (after f)

instance : Monad (Thr σ) where
  pure := ret
  bind := seq

/-- A part that throws nothing. -/
def call (p : Prog σ α) : Thr σ α := fun k s => (p s).bind fun r => .ok (.ret r.1 k, r.2)
instance : MonadLift (Prog σ) (Thr σ) := ⟨call⟩

/-- A point where an exception may appear. -/
def point : Thr σ Unit := fun k s =>
  match k with
  | 0 => .ok (.thrown, s)
  | k + 1 => .ok (.ret () k, s)

/-- `p` is executed when an exception passes (destruction of local objects), which then goes on. -/
def unwinding (x : Thr σ α) (p : Prog σ Unit) : Thr σ α := fun k s =>
  (x k s).bind fun r => match r.1 with
    | .ret a k' => .ok (.ret a k', r.2)
    | .thrown => (p r.2).bind fun q => .ok (.thrown, q.2)

@[simp] theorem bind_app (x : Thr σ α) (f : α → Thr σ β) (k : Nat) (s : σ) : (x >>= f) k s = (x k s).bind (after f) := rfl
@[simp] theorem pure_app (a : α) (k : Nat) (s : σ) : (pure a : Thr σ α) k s = .ok (.ret a k, s) := rfl
@[simp] theorem call_app (p : Prog σ α) (k : Nat) (s : σ) : call p k s = (p s).bind fun r => .ok (.ret r.1 k, r.2) := rfl
@[simp] theorem lift_eq (p : Prog σ α) : (liftM p : Thr σ α) = call p := rfl
@[simp] theorem monadLift_eq (p : Prog σ α) : (MonadLiftT.monadLift p : Thr σ α) = call p := rfl
@[simp] theorem point_zero (s : σ) : (point : Thr σ Unit) 0 s = .ok (.thrown, s) := rfl
@[simp] theorem point_succ (k : Nat) (s : σ) : (point : Thr σ Unit) (k + 1) s = .ok (.ret () k, s) := rfl
@[simp] theorem after_ret (f : α → Thr σ β) (a : α) (k : Nat) (s : σ) : after f (.ret a k, s) = f a k s := rfl
@[simp] theorem after_thrown (f : α → Thr σ β) (s : σ) : after f (.thrown, s) = .ok (.thrown, s) := rfl
@[simp] theorem ite_app (c : Prop) [Decidable c] (x y : Thr σ α) (k : Nat) (s : σ) : (if c then x else y) k s = if c then x k s else y k s := by
  split <;> rfl

instance : LawfulMonad (Thr σ) := LawfulMonad.mk' (m := Thr σ)
  (id_map := by
    intro α x; funext k s
    show (x k s).bind _ = x k s
    rcases x k s with _ | _ | ⟨⟨a, k'⟩ | _, s'⟩ <;> rfl)
  (pure_bind := by intros; rfl)
  (bind_assoc := by
    intro α β γ x f g; funext k s
    show ((x k s).bind _).bind _ = (x k s).bind _
    rcases x k s with _ | _ | ⟨⟨a, k'⟩ | _, s'⟩ <;> rfl)

open Lean.Order in
instance : PartialOrder (Thr σ α) := inferInstanceAs (PartialOrder (Nat → σ → Res (Out α × σ)))
open Lean.Order in
noncomputable instance : CCPO (Thr σ α) := inferInstanceAs (CCPO (Nat → σ → Res (Out α × σ)))
open Lean.Order in
instance : MonoBind (Thr σ) where
  bind_mono_left := by
    intro α β a₁ a₂ f h k s
    have hs := h k s
    show FlatOrder.rel _ _
    change FlatOrder.rel _ _ at hs
    simp only [bind_app]
    generalize a₁ k s = x at hs ⊢
    generalize a₂ k s = y at hs ⊢
    cases hs with
    | bot => exact .bot
    | refl => exact .refl
  bind_mono_right := by
    intro α β a f₁ f₂ h k s
    show FlatOrder.rel _ _
    simp only [bind_app]
    rcases a k s with _ | _ | ⟨⟨a, k'⟩ | _, s'⟩
    · exact .bot
    · exact .refl
    · exact h a k' s'
    · exact .refl

end Thr

variable {σ α β : Type}

/-- From memory `s` the call `x` passes `n` points where an exception may appear. If none does it returns `a` in memory `s'`; if it appears at
point `k` (from 0), it leaves the call in a memory with the property `P k`. -/
structure Points (x : Thr σ α) (s : σ) (n : Nat) (a : α) (s' : σ) (P : Nat → σ → Prop) : Prop where
  returns : ∀ k, x (n + k) s = .ok (.ret a k, s')
  throws : ∀ k, k < n → ∃ t, x k s = .ok (.thrown, t) ∧ P k t

namespace Points
variable {x : Thr σ α} {f : α → Thr σ β} {s s' s'' : σ} {n m : Nat} {a : α} {b : β} {P Q : Nat → σ → Prop}

theorem pure_ : Points (pure a : Thr σ α) s 0 a s P := ⟨fun k => by simp, fun k h => absurd h (Nat.not_lt_zero _)⟩

theorem call_ {p : Prog σ α} (q : p s = .ok (a, s')) : Points (Thr.call p) s 0 a s' P :=
  ⟨fun k => by simp [q], fun k h => absurd h (Nat.not_lt_zero _)⟩

theorem point_ (q : P 0 s) : Points (Thr.point : Thr σ Unit) s 1 () s P where
  returns k := by rw [Nat.add_comm]; rfl
  throws k h := by
    have : k = 0 := by omega
    subst this; exact ⟨s, rfl, q⟩

theorem imp (X : Points x s n a s' P) (h : ∀ k t, k < n → P k t → Q k t) : Points x s n a s' Q :=
  ⟨X.returns, fun k l => (X.throws k l).imp fun t q => ⟨q.1, h k t l q.2⟩⟩

theorem cast (e : n = m) (X : Points x s n a s' P) : Points x s m a s' P := e ▸ X

/-- First `x`, then `f`. -/
theorem seq (X : Points x s n a s' fun k t => P k t) (Y : Points (f a) s' m b s'' fun k t => P (n + k) t) : Points (x >>= f) s (n + m) b s'' P where
  returns k := by simp only [Thr.bind_app, Nat.add_assoc, X.returns, Res.bind_ok, Thr.after_ret, Y.returns]
  throws k h := by
    by_cases l : k < n
    · obtain ⟨t, q, p⟩ := X.throws k l
      exact ⟨t, by simp only [Thr.bind_app, q, Res.bind_ok, Thr.after_thrown], p⟩
    · obtain ⟨t, q, p⟩ := Y.throws (k - n) (by omega)
      have e : n + (k - n) = k := by omega
      refine ⟨t, ?_, e ▸ p⟩
      conv => lhs; rw [← e]
      simp only [Thr.bind_app, X.returns, Res.bind_ok, Thr.after_ret, q]

/-- A part that cannot throw, then `f`. -/
theorem call_seq {p : Prog σ α} (q : p s = .ok (a, s')) (Y : Points (f a) s' m b s'' P) : Points (Thr.call p >>= f) s m b s'' P := by
  have := seq (P := P) (x := Thr.call p) (f := f) (call_ (P := P) q) (by simpa using Y)
  simpa using this

/-- `x`, then a part that cannot throw. -/
theorem seq_call {g : α → Prog σ β} (X : Points x s n a s' P) (q : g a s' = .ok (b, s'')) :
    Points (x >>= fun a => Thr.call (g a)) s n b s'' P := seq (m := 0) X (call_ q)

theorem seq_pure {g : α → β} (X : Points x s n a s' P) : Points (x >>= fun a => pure (g a)) s n (g a) s' P := seq (m := 0) X pure_

/-- The countdown decides: a call returns iff it is at least the number of points. -/
theorem cases (X : Points x s n a s' P) (k : Nat) :
    (n ≤ k ∧ x k s = .ok (.ret a (k - n), s')) ∨ (k < n ∧ ∃ t, x k s = .ok (.thrown, t) ∧ P k t) := by
  rcases Nat.lt_or_ge k n with l | l
  · exact .inr ⟨l, X.throws k l⟩
  · left
    refine ⟨l, ?_⟩
    have e : n + (k - n) = k := by omega
    conv => lhs; rw [← e]
    exact X.returns _

end Points

theorem unwinding_thrown {σ α : Type} {x : Thr σ α} {p : Prog σ Unit} {k : Nat} {s t t' : σ} (e : x k s = .ok (.thrown, t)) (q : p t = .ok ((), t')) :
    Thr.unwinding x p k s = .ok (.thrown, t') := by
  simp [Thr.unwinding, e, q]

theorem unwinding_ret {σ α : Type} {x : Thr σ α} {p : Prog σ Unit} {k k' : Nat} {a : α} {s t : σ} (e : x k s = .ok (.ret a k', t)) :
    Thr.unwinding x p k s = .ok (.ret a k', t) := by
  simp [Thr.unwinding, e]

theorem unwinding_points {σ α : Type} {x : Thr σ α} {p : Prog σ Unit} {s s' : σ} {n : Nat} {a : α} {P Q : Nat → σ → Prop} (X : Points x s n a s' P)
    (h : ∀ k t, k < n → P k t → ∃ t', p t = .ok ((), t') ∧ Q k t') : Points (Thr.unwinding x p) s n a s' Q where
  returns k := unwinding_ret (X.returns k)
  throws k l := by
    obtain ⟨t, e, q⟩ := X.throws k l
    obtain ⟨t', e', q'⟩ := h k t l q
    exact ⟨t', unwinding_thrown e e', q'⟩

end Verif.Exc
