/-!
# Position-wise correspondence of two lists of objects
-/
namespace Verif
variable {α β : Type}

/-- Two lists of objects correspond position by position. -/
structure Sim (R : α → β → Prop) (ws : List α) (ms : List β) : Prop where
  len : ws.length = ms.length
  rel : ∀ (i : Nat) w m, ws[i]? = some w → ms[i]? = some m → R w m

section
variable {R : α → β → Prop} {ws : List α} {ms : List β}

theorem Sim.nil : Sim R ([] : List α) ([] : List β) := ⟨rfl, by simp⟩

theorem Sim.none (S : Sim R ws ms) {i : Nat} (hi : ws[i]? = none) : ms[i]? = none := by
  rw [List.getElem?_eq_none_iff] at hi ⊢; rw [← S.len]; exact hi

theorem Sim.some (S : Sim R ws ms) {i : Nat} {w} (hi : ws[i]? = some w) : ∃ m, ms[i]? = some m ∧ R w m := by
  have : i < ms.length := by rw [← S.len]; exact (List.getElem?_eq_some_iff.1 hi).1
  exact ⟨ms[i], List.getElem?_eq_getElem this, S.rel i w _ hi (List.getElem?_eq_getElem this)⟩

theorem Sim.set (S : Sim R ws ms) (i : Nat) {w m} (hr : R w m) : Sim R (ws.set i w) (ms.set i m) := by
  refine ⟨by simp [S.len], ?_⟩
  intro j w' m' h1 h2
  rw [List.getElem?_set] at h1 h2
  split at h1
  · next e =>
    subst e
    rw [if_pos rfl] at h2
    split at h1
    · split at h2
      · simp only [Option.some.injEq] at h1 h2; subst h1; subst h2; exact hr
      · simp at h2
    · simp at h1
  · next e => rw [if_neg e] at h2; exact S.rel j w' m' h1 h2

theorem Sim.append (S : Sim R ws ms) {w m} (hr : R w m) : Sim R (ws ++ [w]) (ms ++ [m]) := by
  refine ⟨by simp [S.len], ?_⟩
  intro j w' m' h1 h2
  rw [List.getElem?_append] at h1 h2
  split at h1
  · next e => rw [if_pos (S.len ▸ e)] at h2; exact S.rel j w' m' h1 h2
  · next e =>
    rw [if_neg (S.len ▸ e)] at h2
    rw [S.len] at h1
    cases q : j - ms.length with
    | zero => rw [q] at h1 h2; simp only [List.getElem?_cons_zero, Option.some.injEq] at h1 h2; subst h1; subst h2; exact hr
    | succ n => rw [q] at h1; simp at h1

theorem Sim.eraseIdx (S : Sim R ws ms) (i : Nat) : Sim R (ws.eraseIdx i) (ms.eraseIdx i) := by
  refine ⟨by simp [List.length_eraseIdx, S.len], ?_⟩
  intro j w' m' h1 h2
  rw [List.getElem?_eraseIdx] at h1 h2
  split at h1
  · next e => rw [if_pos e] at h2; exact S.rel _ w' m' h1 h2
  · next e => rw [if_neg e] at h2; exact S.rel _ w' m' h1 h2

end

theorem map_fst_set {ws : List (α × β)} {i : Nat} {a : α} {b b' : β} (hi : ws[i]? = some (a, b)) :
    (ws.set i (a, b')).map Prod.fst = ws.map Prod.fst := by
  rw [List.map_set]
  obtain ⟨hlt, hw⟩ := List.getElem?_eq_some_iff.1 hi
  apply List.ext_getElem?
  intro j
  rw [List.getElem?_set]
  split
  · next e => subst e; simp [hlt, hw]
  · rfl

theorem set_self {l : List α} {i : Nat} {a : α} (hi : l[i]? = some a) : l.set i a = l := by
  apply List.ext_getElem?
  intro j
  rw [List.getElem?_set]
  split
  · next e => subst e; obtain ⟨hlt, hw⟩ := List.getElem?_eq_some_iff.1 hi; simp [hlt, hw]
  · rfl

end Verif
