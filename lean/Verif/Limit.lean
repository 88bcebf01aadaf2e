import Verif.Base
/-!
# Limits of programs: what a loop defined by `partial_fixpoint` returns
-/
set_option linter.unusedVariables false
namespace Verif.Exc.XVec
open Verif
variable {α : Type}

theorem flat_fin {α : Type} {x y : Res α} (q : Lean.Order.FlatOrder.rel (b := Res.diverge) x y) : x = .diverge ∨ y = x := by
  cases q
  · exact Or.inl rfl
  · exact Or.inr rfl

section
open Lean.Order
variable {σ : Type}

/-- What a limit of programs returns, one of the programs returns. -/
theorem sup_ok0 {c : Prog σ α → Prop} (hc : chain c) {s : σ} {x : α × σ} (e : CCPO.csup hc s = .ok x) : ∃ f, c f ∧ f s = .ok x := by
  classical
  apply Decidable.byContradiction
  intro no
  let F := CCPO.csup hc
  let g : Prog σ α := fun m => if m = s then .diverge else F m
  have le : F ⊑ g := csup_le hc fun f hf => by
    intro m
    have hle := le_csup hc hf m
    by_cases q : m = s
    · subst q
      simp only [g, if_true]
      rcases flat_fin hle with q | q
      · rw [q]; exact FlatOrder.rel.bot
      · exact absurd ⟨f, hf, q.symm.trans e⟩ no
    · simp only [g, if_neg q]; exact hle
  have := flat_fin (le s)
  simp only [g, if_true] at this
  rcases this with q | q
  · rw [show F s = _ from e] at q; cases q
  · rw [show F s = _ from e] at q; cases q

theorem sup_le0 {c : Prog σ α → Prop} (hc : chain c) {f : Prog σ α} (hf : c f) {s : σ} {x : α × σ} (e : f s = .ok x) : CCPO.csup hc s = .ok x := by
  rcases flat_fin (le_csup hc hf s) with q | q
  · rw [e] at q; cases q
  · exact q.trans e

theorem sup_ok1 {A : Type} {c : (A → Prog σ α) → Prop} (hc : chain c) {a : A} {s : σ} {x : α × σ} (e : CCPO.csup hc a s = .ok x) : ∃ f, c f ∧ f a s = .ok x := by
  classical
  apply Decidable.byContradiction
  intro no
  let F := CCPO.csup hc
  let g : A → Prog σ α := fun a' m => if a' = a ∧ m = s then .diverge else F a' m
  have le : F ⊑ g := csup_le hc fun f hf => by
    intro a' m
    have hle := le_csup hc hf a' m
    by_cases q : a' = a ∧ m = s
    · obtain ⟨rfl, rfl⟩ := q
      simp only [g, and_self, if_true]
      rcases flat_fin hle with q | q
      · rw [q]; exact FlatOrder.rel.bot
      · exact absurd ⟨f, hf, q.symm.trans e⟩ no
    · simp only [g, if_neg q]; exact hle
  have := flat_fin (le a s)
  simp only [g, and_self, if_true] at this
  rcases this with q | q
  · rw [show F a s = _ from e] at q; cases q
  · rw [show F a s = _ from e] at q; cases q

theorem sup_le1 {A : Type} {c : (A → Prog σ α) → Prop} (hc : chain c) {f : A → Prog σ α} (hf : c f) {a : A} {s : σ} {x : α × σ} (e : f a s = .ok x) :
    CCPO.csup hc a s = .ok x := by
  rcases flat_fin (le_csup hc hf a s) with q | q
  · rw [e] at q; cases q
  · exact q.trans e

theorem sup_ok2 {A B : Type} {c : (A → B → Prog σ α) → Prop} (hc : chain c) {a : A} {b : B} {s : σ} {x : α × σ} (e : CCPO.csup hc a b s = .ok x) :
    ∃ f, c f ∧ f a b s = .ok x := by
  classical
  apply Decidable.byContradiction
  intro no
  let F := CCPO.csup hc
  let g : A → B → Prog σ α := fun a' b' m => if a' = a ∧ b' = b ∧ m = s then .diverge else F a' b' m
  have le : F ⊑ g := csup_le hc fun f hf => by
    intro a' b' m
    have hle := le_csup hc hf a' b' m
    by_cases q : a' = a ∧ b' = b ∧ m = s
    · obtain ⟨rfl, rfl, rfl⟩ := q
      simp only [g, and_self, if_true]
      rcases flat_fin hle with q | q
      · rw [q]; exact FlatOrder.rel.bot
      · exact absurd ⟨f, hf, q.symm.trans e⟩ no
    · simp only [g, if_neg q]; exact hle
  have := flat_fin (le a b s)
  simp only [g, and_self, if_true] at this
  rcases this with q | q
  · rw [show F a b s = _ from e] at q; cases q
  · rw [show F a b s = _ from e] at q; cases q

theorem sup_le2 {A B : Type} {c : (A → B → Prog σ α) → Prop} (hc : chain c) {f : A → B → Prog σ α} (hf : c f) {a : A} {b : B} {s : σ} {x : α × σ} (e : f a b s = .ok x) :
    CCPO.csup hc a b s = .ok x := by
  rcases flat_fin (le_csup hc hf a b s) with q | q
  · rw [e] at q; cases q
  · exact q.trans e
end
end Verif.Exc.XVec
