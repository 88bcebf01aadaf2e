import Verif.Exc.Base
/-!
# The number of operations that may throw, as a cost
-/
namespace Verif.Exc
open Verif

/-- In memory `h` the call `x` returns and leaves `h'`; on its way it makes `n` operations that may throw, no more and no fewer: it is left by an
exception if one of the first `n` such operations fails, and not affected if a later one would. -/
def Costs {σ α : Type} (x : Thr σ α) (h : σ) (n : Nat) (h' : σ) : Prop :=
  (∃ a, ∀ k, x (n + k) h = .ok (.ret a k, h')) ∧ ∀ k, k < n → ∃ t, x k h = .ok (.thrown, t)

theorem Points.costs {σ α : Type} {x : Thr σ α} {h h' : σ} {n : Nat} {a : α} {P : Nat → σ → Prop} (X : Points x h n a h' P) : Costs x h n h' :=
  ⟨⟨a, X.returns⟩, fun k l => (X.throws k l).imp fun _ q => q.1⟩

theorem Costs.points {σ α : Type} {x : Thr σ α} {h h' : σ} {n : Nat} (X : Costs x h n h') : ∃ a, Points x h n a h' fun _ _ => True := by
  obtain ⟨⟨a, r⟩, t⟩ := X
  exact ⟨a, r, fun k l => (t k l).imp fun _ q => ⟨q, trivial⟩⟩

/-- The cost is determined. -/
theorem Costs.unique {σ α : Type} {x : Thr σ α} {h h1 h2 : σ} {n m : Nat} (X : Costs x h n h1) (Y : Costs x h m h2) : n = m ∧ h1 = h2 := by
  have le : ∀ {n m : Nat} {h1 h2 : σ}, Costs x h n h1 → Costs x h m h2 → m ≤ n := fun {n m h1 h2} X Y => by
    obtain ⟨⟨a, r⟩, _⟩ := X
    refine Classical.byContradiction fun no => ?_
    obtain ⟨t, e⟩ := Y.2 n (by omega)
    have e2 := r 0
    rw [Nat.add_zero, e] at e2
    cases e2
  have e : n = m := Nat.le_antisymm (le Y X) (le X Y)
  subst e
  obtain ⟨⟨a, r⟩, _⟩ := X
  obtain ⟨⟨b, q⟩, _⟩ := Y
  have e2 := (r 0).symm.trans (q 0)
  simp only [Res.ok.injEq, Prod.mk.injEq] at e2
  exact ⟨rfl, e2.2⟩

theorem Costs.nothing {σ α : Type} (a : α) (h : σ) : Costs (pure a : Thr σ α) h 0 h := Points.costs (P := fun _ _ => True) Points.pure_

theorem Costs.seq {σ α β : Type} {x : Thr σ α} {y : Thr σ β} {h h1 h2 : σ} {n m : Nat} (X : Costs x h n h1) (Y : Costs y h1 m h2) :
    Costs (do let _ ← x; y) h (n + m) h2 := by
  obtain ⟨a, X⟩ := X.points
  obtain ⟨b, Y⟩ := Y.points
  exact (Points.seq (f := fun _ => y) X Y).costs

end Verif.Exc
