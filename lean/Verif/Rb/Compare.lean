import Verif.Rb.ContainerProps2
/-!
# Comparison of maps and sets with any `operator==` of the elements

`MapSpec`/`SetSpec` take the elements' `operator==` to be equality of values; here it is an arbitrary function `eqv`, applied
as `*i1 == *i2` (for a map: the `operator==` of `pair<const KT, T>`).
-/
set_option linter.unusedSimpArgs false
set_option linter.unusedSectionVars false
set_option linter.unusedVariables false
namespace Verif.Rb.Container
open Verif Tree
variable {K V : Type} [DecidableEq K] {lt : K → K → Bool} {keyOf : V → K}

theorem zip_all_iff (eqv : V → V → Bool) : ∀ (es fs : List (Addr × V)), es.length = fs.length →
    ((List.zipWith (fun x y => eqv x.2 y.2) es fs).all id = true ↔
      ∀ (i : Nat) x y, es[i]? = some x → fs[i]? = some y → eqv x.2 y.2 = true)
  | [], [], _ => by simp
  | e :: es, f :: fs, l => by
    have ih := zip_all_iff eqv es fs (by simpa using l)
    simp only [List.zipWith_cons_cons, List.all_cons, id, Bool.and_eq_true]
    rw [ih]
    constructor
    · rintro ⟨a, c⟩ i x y
      cases i with
      | zero => simp only [List.getElem?_cons_zero, Option.some.injEq]; rintro rfl rfl; exact a
      | succ i => simp only [List.getElem?_cons_succ]; exact c i x y
    · exact fun c => ⟨c 0 e f rfl rfl, fun i x y p q => c (i + 1) x y p q⟩

/-- **C139.** `a == b`, with any `operator==` of the elements, answers whether the two containers have the same number of elements
and equal elements at corresponding positions of their iteration order; nothing changes. `a` and `b` may be the same container. -/
theorem equal_compares (eqv : V → V → Bool) (ho : StrictTotalOrder lt) {objs : List Addr} {h : Heap V} (r : Reach lt keyOf objs h)
    {a b : Addr} (ha : a ∈ objs) (hb : b ∈ objs) {es fs} (he : entries a h = .ok (es, h)) (hf : entries b h = .ok (fs, h)) :
    ∃ q, opEq eqv a b h = .ok (q, h) ∧
      (q = true ↔ es.length = fs.length ∧ ∀ (i : Nat) x y, es[i]? = some x → fs[i]? = some y → eqv x.2 y.2 = true) := by
  obtain ⟨o1, _, _⟩ := owns_of_entries ho r ha he
  obtain ⟨o2, _, _⟩ := owns_of_entries ho r hb hf
  refine ⟨_, opEq_owns eqv o1 o2, ?_⟩
  simp only [Bool.and_eq_true, decide_eq_true_eq]
  constructor
  · exact fun ⟨l, z⟩ => ⟨l, (zip_all_iff eqv es fs l).1 z⟩
  · exact fun ⟨l, z⟩ => ⟨l, (zip_all_iff eqv es fs l).2 z⟩

/-- **C139.** `a != b` holds iff the numbers of elements differ or some corresponding elements are not equal; nothing changes. -/
theorem not_equal_compares (eqv : V → V → Bool) (ho : StrictTotalOrder lt) {objs : List Addr} {h : Heap V}
    (r : Reach lt keyOf objs h) {a b : Addr} (ha : a ∈ objs) (hb : b ∈ objs) {es fs} (he : entries a h = .ok (es, h))
    (hf : entries b h = .ok (fs, h)) :
    ∃ q, opNe eqv a b h = .ok (q, h) ∧
      (q = true ↔ es.length ≠ fs.length ∨ ∃ (i : Nat) (x y : Addr × V), es[i]? = some x ∧ fs[i]? = some y ∧ eqv x.2 y.2 = false) := by
  obtain ⟨q, e, i⟩ := equal_compares eqv ho r ha hb he hf
  refine ⟨!q, by simp only [opNe, Prog.bind_app, e, Res.bind_ok, Prog.pure_app], ?_⟩
  cases q with
  | true =>
    obtain ⟨l, z⟩ := i.1 rfl
    simp only [Bool.not_true, Bool.false_eq_true, false_iff, not_or, not_exists]
    refine ⟨fun q => q l, fun k x y ⟨p, q, r⟩ => ?_⟩
    rw [z k x y p q] at r
    cases r
  | false =>
    simp only [Bool.not_false, true_iff]
    by_cases l : es.length = fs.length
    · refine Or.inr (Classical.byContradiction fun no => ?_)
      refine absurd (i.2 ⟨l, fun k x y p q => ?_⟩) (by simp)
      cases r : eqv x.2 y.2 with
      | true => rfl
      | false => exact absurd ⟨k, x, y, p, q, r⟩ no
    · exact Or.inl l

/-- **C139** for an `operator==` that decides equality: `a == b` decides whether iterating the two containers shows the same values. -/
theorem equal_compares_values [DecidableEq V] (ho : StrictTotalOrder lt) {objs : List Addr} {h : Heap V} (r : Reach lt keyOf objs h)
    {a b : Addr} (ha : a ∈ objs) (hb : b ∈ objs) {es fs} (he : entries a h = .ok (es, h)) (hf : entries b h = .ok (fs, h)) :
    opEq (fun x y => decide (x = y)) a b h = .ok (decide (es.map Prod.snd = fs.map Prod.snd), h) ∧
    opNe (fun x y => decide (x = y)) a b h = .ok (decide (es.map Prod.snd ≠ fs.map Prod.snd), h) := by
  obtain ⟨q, e, i⟩ := equal_compares (fun x y : V => decide (x = y)) ho r ha hb he hf
  have hq : q = decide (es.map Prod.snd = fs.map Prod.snd) := by
    rw [Bool.eq_iff_iff, i, decide_eq_true_eq]
    constructor
    · rintro ⟨l, z⟩
      refine List.ext_getElem? fun k => ?_
      simp only [List.getElem?_map]
      cases e1 : es[k]? with
      | none =>
        rw [List.getElem?_eq_none_iff] at e1
        rw [List.getElem?_eq_none_iff.2 (l ▸ e1)]
      | some x =>
        cases e2 : fs[k]? with
        | none =>
          rw [List.getElem?_eq_none_iff, ← l, ← List.getElem?_eq_none_iff, e1] at e2
          cases e2
        | some y => simpa using z k x y e1 e2
    · intro z
      refine ⟨by simpa using congrArg List.length z, fun k x y p q => ?_⟩
      have := congrArg (fun l : List V => l[k]?) z
      simp only [List.getElem?_map, p, q, Option.map_some, Option.some.injEq] at this
      simpa using this
  subst hq
  refine ⟨e, ?_⟩
  simp only [opNe, Prog.bind_app, e, Res.bind_ok, Prog.pure_app, decide_not, ne_eq]

/-- `==` of the elements that looks at the last digit only: a set `{3, 15}` equals itself; and it is not equal to it under an
`operator==` that never holds. -/
example : ∃ c h es, Reach (fun a b : Nat => decide (a < b)) id [c] h ∧ entries c h = .ok (es, h) ∧ es.map Prod.snd = [3, 15] ∧
    opEq (fun x y => decide (x % 10 = y % 10)) c c h = .ok (true, h) ∧ opNe (fun _ _ => false) c c h = .ok (true, h) := by
  obtain ⟨c, h, es, r, he, hv⟩ := exists_reach (keyOf := (id : Nat → Nat)) natOrder [3, 15] (by simp)
  have hc : c ∈ [c] := by simp
  refine ⟨c, h, es, r, he, hv, ?_, ?_⟩
  · obtain ⟨q, e, i⟩ := equal_compares (fun x y => decide (x % 10 = y % 10)) natOrder r hc hc he he
    rw [e, i.2 ⟨rfl, fun k x y p q => by rw [p] at q; cases q; simp⟩]
  · obtain ⟨q, e, i⟩ := not_equal_compares (fun _ _ => false) natOrder r hc hc he he
    cases es with
    | nil => simp at hv
    | cons x es => rw [e, i.2 (Or.inr ⟨0, x, x, rfl, rfl, rfl⟩)]

end Verif.Rb.Container
