/-!
# Orders on keys and elements

`ttl` takes comparison functors. The properties below are the standard C++ requirements on them.
-/
namespace Verif

/-- The C++ "strict weak ordering" requirement on a comparison functor. -/
structure StrictWeakOrder {T : Type} (lt : T → T → Bool) : Prop where
  irrefl : ∀ a, lt a a = false
  trans : ∀ a b c, lt a b = true → lt b c = true → lt a c = true
  /-- "not less" is transitive (equivalent to transitivity of incomparability) -/
  negTrans : ∀ a b c, lt a b = false → lt b c = false → lt a c = false

namespace StrictWeakOrder
variable {T : Type} {lt : T → T → Bool}

theorem asymm (h : StrictWeakOrder lt) {a b : T} (hab : lt a b = true) : lt b a = false := by
  cases hba : lt b a
  · rfl
  · have := h.trans _ _ _ hab hba
    rw [h.irrefl] at this; cases this

/-- `a < b` and `c ≤ a` (that is, not `a < c`) give `c < b`. -/
theorem lt_of_not_lt_of_lt (h : StrictWeakOrder lt) {a b c : T} (hac : lt a c = false)
    (hab : lt a b = true) : lt c b = true := by
  cases hcb : lt c b
  · have := h.negTrans _ _ _ hac hcb
    rw [hab] at this; cases this
  · rfl

theorem lt_of_lt_of_not_lt (h : StrictWeakOrder lt) {a b c : T} (hab : lt a b = true)
    (hcb : lt c b = false) : lt a c = true := by
  cases hac : lt a c
  · have := h.negTrans _ _ _ hac hcb
    rw [hab] at this; cases this
  · rfl

end StrictWeakOrder

/-- A strict total order whose incomparability is equality, together with agreement of the key
type's `==` with equality: what `ttl::map` needs, since it mixes `<` and `==` on keys. -/
structure StrictTotalOrder {K : Type} (lt : K → K → Bool) : Prop where
  irrefl : ∀ a, lt a a = false
  trans : ∀ a b c, lt a b = true → lt b c = true → lt a c = true
  total : ∀ a b, lt a b = false → lt b a = false → a = b

namespace StrictTotalOrder
variable {K : Type} {lt : K → K → Bool}

theorem asymm (h : StrictTotalOrder lt) {a b : K} (hab : lt a b = true) : lt b a = false := by
  cases hba : lt b a
  · rfl
  · have := h.trans _ _ _ hab hba
    rw [h.irrefl] at this; cases this

theorem toStrictWeak (h : StrictTotalOrder lt) : StrictWeakOrder lt where
  irrefl := h.irrefl
  trans := h.trans
  negTrans := by
    intro a b c hab hbc
    cases hac : lt a c
    · rfl
    · cases hba : lt b a
      · have := h.total _ _ hab hba; subst this; rw [hac] at hbc; cases hbc
      · have := h.trans _ _ _ hba hac; rw [this] at hbc; cases hbc

theorem trichotomy (h : StrictTotalOrder lt) (a b : K) : lt a b = true ∨ a = b ∨ lt b a = true := by
  cases hab : lt a b
  · cases hba : lt b a
    · exact Or.inr (Or.inl (h.total _ _ hab hba))
    · exact Or.inr (Or.inr rfl)
  · exact Or.inl rfl

theorem ne_of_lt (h : StrictTotalOrder lt) {a b : K} (hab : lt a b = true) : a ≠ b := by
  intro e; subst e; rw [h.irrefl] at hab; cases hab

end StrictTotalOrder

/-- The usual order of the naturals is one. -/
theorem natOrder : StrictTotalOrder (fun a b : Nat => decide (a < b)) where
  irrefl := by simp
  trans := by simp only [decide_eq_true_eq]; omega
  total := by simp only [decide_eq_false_iff_not]; omega

end Verif
