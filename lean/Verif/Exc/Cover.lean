import Verif.Exc.VecSim
/-!
# Throwing members compared with the members of the models

`Covers x p`: where the member `p` of a model without exceptions returns, the throwing member `x` passes some number of points, and returns the same
if no exception appears. `Throws x s P`: if an exception leaves `x` called in memory `s`, it does so in a memory with the property `P`.
-/
set_option linter.unusedVariables false
namespace Verif.Exc
open Verif Lean.Order
variable {σ α β : Type}

structure Covers (x : Thr σ α) (p : Prog σ α) : Prop where
  out : ∀ s a s', p s = .ok (a, s') → ∃ n, Points x s n a s' fun _ _ => True

theorem covers_pure (a : α) : Covers (pure a : Thr σ α) (pure a) := ⟨fun s b s' e => by cases e; exact ⟨0, Points.pure_⟩⟩

theorem covers_call (p : Prog σ α) : Covers (Thr.call p) p := ⟨fun s a s' e => ⟨0, Points.call_ e⟩⟩

theorem Covers.bind {x : Thr σ α} {p : Prog σ α} {f : α → Thr σ β} {g : α → Prog σ β} (hx : Covers x p) (hf : ∀ a, Covers (f a) (g a)) :
    Covers (x >>= f) (p >>= g) := by
  refine ⟨fun s b s' e => ?_⟩
  simp only [Prog.bind_app] at e
  cases q : p s with
  | diverge => rw [q] at e; cases e
  | ub f => rw [q] at e; cases e
  | ok y =>
    obtain ⟨a, s1⟩ := y
    rw [q] at e
    simp only [Res.bind_ok] at e
    obtain ⟨n, X⟩ := hx.out s a s1 q
    obtain ⟨m, Y⟩ := (hf a).out s1 b s' e
    exact ⟨n + m, Points.seq X Y⟩

theorem Covers.point {x : Thr σ α} {p : Prog σ α} (hx : Covers x p) : Covers (do Thr.point; x) p := by
  refine ⟨fun s a s' e => ?_⟩
  obtain ⟨n, X⟩ := hx.out s a s' e
  exact ⟨1 + n, Points.seq (Points.point_ trivial) X⟩

theorem covers_ite {c : Prop} [Decidable c] {x y : Thr σ α} {p q : Prog σ α} (hx : Covers x p) (hy : Covers y q) :
    Covers (if c then x else y) (if c then p else q) := by
  split <;> assumption

theorem covers_adm1 {A : Type} (x : A → Thr σ α) : admissible (fun p : A → Prog σ α => ∀ a, Covers (x a) (p a)) := by
  intro c hc ih a
  refine ⟨fun s b s' e => ?_⟩
  obtain ⟨f, hf, e'⟩ := XVec.sup_ok1 hc e
  exact (ih f hf a).out s b s' e'

theorem covers_adm2 {A B : Type} (x : A → B → Thr σ α) : admissible (fun p : A → B → Prog σ α => ∀ a b, Covers (x a b) (p a b)) := by
  intro c hc ih a b
  refine ⟨fun s y s' e => ?_⟩
  obtain ⟨f, hf, e'⟩ := XVec.sup_ok2 hc e
  exact (ih f hf a b).out s _ s' e'

/-- An exception that leaves `x` leaves a memory with the property `P`. -/
structure Throws (x : Thr σ α) (s : σ) (P : σ → Prop) : Prop where
  out : ∀ k t, x k s = .ok (.thrown, t) → P t

section
variable {x : Thr σ α} {f : α → Thr σ β} {s s' : σ} {a : α} {P Q : σ → Prop}

theorem throws_pure : Throws (pure a : Thr σ α) s P := ⟨fun k t e => by cases e⟩

theorem throws_call {p : Prog σ α} : Throws (Thr.call p) s P := ⟨fun k t e => by
  simp only [Thr.call_app] at e
  cases q : p s with
  | diverge => rw [q] at e; cases e
  | ub f => rw [q] at e; cases e
  | ok y => rw [q] at e; cases e⟩

theorem throws_point (h : P s) : Throws (Thr.point : Thr σ Unit) s P := ⟨fun k t e => by
  cases k with
  | zero => cases e; exact h
  | succ k => cases e⟩

theorem Throws.imp (X : Throws x s P) (h : ∀ t, P t → Q t) : Throws x s Q := ⟨fun k t e => h t (X.out k t e)⟩

theorem throws_bind (X : Throws x s P) (Y : ∀ k a k' s', x k s = .ok (.ret a k', s') → Throws (f a) s' P) : Throws (x >>= f) s P := ⟨fun k t e => by
  simp only [Thr.bind_app] at e
  cases q : x k s with
  | diverge => rw [q] at e; cases e
  | ub f => rw [q] at e; cases e
  | ok y =>
    obtain ⟨o, s1⟩ := y
    rw [q] at e
    simp only [Res.bind_ok] at e
    cases o with
    | ret a k' => exact (Y k a k' s1 q).out _ _ e
    | thrown => cases e; exact X.out k _ q⟩

theorem call_ret {p : Prog σ α} {k k' : Nat} (e : Thr.call p k s = .ok (.ret a k', s')) : p s = .ok (a, s') ∧ k' = k := by
  simp only [Thr.call_app] at e
  cases q : p s with
  | diverge => rw [q] at e; cases e
  | ub f => rw [q] at e; cases e
  | ok y => rw [q] at e; cases e; exact ⟨rfl, rfl⟩

/-- A part that throws nothing and whose result is known, then `f`. -/
theorem throws_call_bind {p : Prog σ α} (q : p s = .ok (a, s')) (Y : Throws (f a) s' P) : Throws (Thr.call p >>= f) s P :=
  throws_bind throws_call fun k b k' s1 e => by
    have := (call_ret e).1
    rw [q] at this; cases this
    exact Y

/-- A part that throws nothing, then `f`: only what the part returns matters. -/
theorem throws_call_any {p : Prog σ α} (Y : ∀ a s', p s = .ok (a, s') → Throws (f a) s' P) : Throws (Thr.call p >>= f) s P :=
  throws_bind throws_call fun k b k' s1 e => Y b s1 (call_ret e).1

theorem throws_ite {c : Prop} [Decidable c] {y : Thr σ α} (X : c → Throws x s P) (Y : ¬c → Throws y s P) : Throws (if c then x else y) s P := by
  split
  · exact X ‹_›
  · exact Y ‹_›

/-- A point, then a part that throws nothing. -/
theorem throws_point_call {p : Prog σ α} (h : P s) : Throws (do Thr.point; Thr.call p) s P :=
  throws_bind (throws_point h) fun _ _ _ _ _ => throws_call

theorem point_ret {k k' : Nat} {u : Unit} (e : (Thr.point : Thr σ Unit) k s = .ok (.ret u k', s')) : s' = s := by
  cases k with
  | zero => cases e
  | succ k => cases e; rfl

theorem point_call_ret {p : Prog σ α} {k k' : Nat} (e : (do Thr.point; Thr.call p : Thr σ α) k s = .ok (.ret a k', s')) : p s = .ok (a, s') := by
  simp only [Thr.bind_app] at e
  cases k with
  | zero => simp at e
  | succ k => simp only [Thr.point_succ, Res.bind_ok, Thr.after_ret] at e; exact (call_ret e).1

end

theorem throws_adm1 {A : Type} (H : A → σ → (σ → Prop) → Prop) : admissible (fun x : A → Thr σ α => ∀ a s P, H a s P → Throws (x a) s P) := by
  intro c hc ih a s P h
  refine ⟨fun k t e => ?_⟩
  obtain ⟨f, hf, e'⟩ := XVec.thr_sup_ok1 hc e
  exact (ih f hf a s P h).out k t e'

theorem throws_adm2 {A B : Type} (H : A → B → σ → (σ → Prop) → Prop) : admissible (fun x : A → B → Thr σ α => ∀ a b s P, H a b s P → Throws (x a b) s P) := by
  intro c hc ih a b s P h
  refine ⟨fun k t e => ?_⟩
  obtain ⟨f, hf, e'⟩ := XVec.thr_sup_ok2 hc e
  exact (ih f hf a b s P h).out k t e'

/-- Points from the two halves. -/
theorem Covers.points {x : Thr σ α} {p : Prog σ α} {s s' : σ} {a : α} {P : σ → Prop} (c : Covers x p) (e : p s = .ok (a, s')) (t : Throws x s P) :
    ∃ n, Points x s n a s' fun _ => P := by
  obtain ⟨n, X⟩ := c.out s a s' e
  refine ⟨n, X.returns, fun k l => ?_⟩
  obtain ⟨t', q, _⟩ := X.throws k l
  exact ⟨t', q, t.out k t' q⟩

end Verif.Exc
