import Verif.Util.Overload
/-!
# Properties of the overload sets (C147)
-/
set_option linter.unusedSimpArgs false
set_option linter.unusedVariables false
namespace Verif.Overload
variable {Ty : Type} [DecidableEq Ty] {conv : Ty → Ty → Option Rank} {t : Types Ty} {U W P : Ty} {r q s : Rank}

/-- A call with these arguments does that. -/
def Calls (conv : Ty → Ty → Option Rank) (cands : List (Cand Ty)) (args : List Ty) (d : Does) : Prop := ∃ c, Selects conv cands args c ∧ c.does = d

theorem Rank.num_zero {r : Rank} (e : r.num ≤ 0) : r = .exact := by cases r <;> simp_all [Rank.num]

theorem num_exact : Rank.exact.num = 0 := rfl

theorem notWorse_refl : ∀ rs : List Rank, notWorse rs rs = true
  | [] => rfl
  | r :: rs => by simp [notWorse, notWorse_refl rs]

theorem not_better_self : ∀ rs : List Rank, somewhereBetter rs rs = false
  | [] => rfl
  | r :: rs => by simp [somewhereBetter, not_better_self rs]

theorem better_asymm : ∀ (rs ss : List Rank), notWorse rs ss = true → somewhereBetter ss rs = false
  | [], ss => by cases ss <;> simp [somewhereBetter]
  | r :: rs, [] => by simp [somewhereBetter]
  | r :: rs, s :: ss => by
    simp only [notWorse, Bool.and_eq_true, decide_eq_true_eq, somewhereBetter, Bool.or_eq_false_iff, decide_eq_false_iff_not]
    exact fun ⟨a, b⟩ => ⟨by omega, better_asymm rs ss b⟩

theorem better_not {c d : Cand Ty} {rs ss : List Rank} (b : better c rs d ss = true) : better d ss c rs = false := by
  simp only [better, Bool.and_eq_true, Bool.or_eq_true, Bool.not_eq_true', Bool.and_eq_false_iff, Bool.or_eq_false_iff] at b ⊢
  obtain ⟨b1, b2⟩ := b
  by_cases g : notWorse ss rs = true
  · right
    refine ⟨better_asymm _ _ b1, ?_⟩
    rcases b2 with b2 | b2
    · rw [better_asymm _ _ g] at b2; cases b2
    · simp [b2.1, b2.2]
  · left; simpa using g

/-- At most one candidate is selected. -/
theorem Selects.unique {cands : List (Cand Ty)} {args : List Ty} {c d : Cand Ty} (x : Selects conv cands args c) (y : Selects conv cands args d) : c = d := by
  obtain ⟨mc, rs, vc, bc⟩ := x
  obtain ⟨md, ss, vd, bd⟩ := y
  refine Classical.byContradiction fun ne => ?_
  have := bc d md (Ne.symm ne) ss vd
  have := bd c mc ne rs vc
  simp_all [better_not]

/-- A call does at most one thing. -/
theorem Calls.unique {cands : List (Cand Ty)} {args : List Ty} {d e : Does} (x : Calls conv cands args d) (y : Calls conv cands args e) : d = e := by
  obtain ⟨c, x, rfl⟩ := x
  obtain ⟨c', y, rfl⟩ := y
  rw [x.unique y]

/-- The sets in which `(size_type, const T &)` stands beside the template, and the arguments before these two. -/
inductive Pairs (conv : Ty → Ty → Option Rank) (t : Types Ty) : List (Cand Ty) → List Ty → Prop where
  | listCtors : Pairs conv t (listCtors t) []
  | vectorCtors : Pairs conv t (vectorCtors t) []
  | assigns : Pairs conv t (assigns t) []
  | inserts {P : Ty} {r : Rank} (pos : conv P t.cit = some r) : Pairs conv t (inserts t) [P]

theorem range_better (S : Standard conv t.size) (cu : conv U t.size = some r) (cw : conv U t.elem = some q) (no : ¬ (U = t.size ∧ U = t.elem)) :
    0 < r.num ∨ 0 < q.num := by
  refine Classical.byContradiction fun h => no ?_
  obtain rfl : r = .exact := Rank.num_zero (by omega)
  obtain rfl : q = .exact := Rank.num_zero (by omega)
  have e := S.toSize _ cu
  subst e
  exact ⟨rfl, (S.fromSize _ cw).symm⟩

theorem count_call {cands : List (Cand Ty)} {pre : List Ty} (p : Pairs conv t cands pre) (S : Standard conv t.size) (cu : conv U t.size = some r)
    (cw : conv W t.elem = some q) (y : U ≠ W ∨ U = t.size ∧ W = t.elem) : Calls conv cands (pre ++ [U, W]) .countValue := by
  have z : U = W → r.num = 0 ∧ q.num = 0 := by
    rintro rfl
    rcases y with y | ⟨rfl, e⟩
    · exact absurd rfl y
    · rw [S.self] at cu; cases cu
      rw [e, S.self] at cw; cases cw
      exact ⟨rfl, rfl⟩
  cases p with
  | listCtors | vectorCtors | assigns =>
    refine ⟨⟨[.ty t.size, .ty t.elem], .countValue⟩, ⟨by simp [listCtors, vectorCtors, assigns], [r, q], by simp [Cand.viable, deduced, agrees, ranks, cu, cw], ?_⟩, rfl⟩
    intro d m ne ss v
    simp only [listCtors, vectorCtors, assigns, List.mem_cons, List.mem_nil_iff, or_false] at m
    rcases m with rfl | rfl | rfl | rfl | rfl <;>
      first
        | exact absurd rfl ne
        | (simp [Cand.viable, deduced, agrees, ranks] at v; done)
        | (simp [Cand.viable, deduced, agrees, ranks] at v; obtain ⟨v, rfl⟩ := v; have := z v
           simp [better, notWorse, somewhereBetter, Cand.isTemplate, this, num_exact])
  | @inserts P r' pos =>
    refine ⟨⟨[.ty t.cit, .ty t.size, .ty t.elem], .countValue⟩, ⟨by simp [inserts], [r', r, q], by simp [Cand.viable, deduced, agrees, ranks, cu, cw, pos], ?_⟩, rfl⟩
    intro d m ne ss v
    simp only [inserts, List.mem_cons, List.mem_nil_iff, or_false] at m
    rcases m with rfl | rfl | rfl <;>
      first
        | exact absurd rfl ne
        | (simp [Cand.viable, deduced, agrees, ranks] at v; done)
        | (simp [Cand.viable, deduced, agrees, ranks, pos] at v; obtain ⟨v, rfl⟩ := v; have := z v
           simp [better, notWorse, somewhereBetter, Cand.isTemplate, this, num_exact])

theorem range_call {cands : List (Cand Ty)} {pre : List Ty} (p : Pairs conv t cands pre)
    (b : ∀ r q, conv U t.size = some r → conv U t.elem = some q → 0 < r.num ∨ 0 < q.num) : Calls conv cands (pre ++ [U, U]) .range := by
  cases p with
  | listCtors | vectorCtors | assigns =>
    refine ⟨⟨[.tpl, .tpl], .range⟩, ⟨by simp [listCtors, vectorCtors, assigns], [.exact, .exact], by simp [Cand.viable, deduced, agrees, ranks], ?_⟩, rfl⟩
    intro d m ne ss v
    simp only [listCtors, vectorCtors, assigns, List.mem_cons, List.mem_nil_iff, or_false] at m
    rcases m with rfl | rfl | rfl | rfl | rfl <;>
      first
        | exact absurd rfl ne
        | (simp [Cand.viable, deduced, agrees, ranks] at v; done)
        | (simp [Cand.viable, deduced, agrees, ranks] at v
           cases e1 : conv U t.size with
           | none => simp [e1] at v
           | some r =>
             cases e2 : conv U t.elem with
             | none => simp [e2] at v
             | some q =>
               simp [e1, e2] at v; subst v
               have := b r q e1 e2
               simp [better, notWorse, somewhereBetter, Cand.isTemplate, num_exact]; exact this.imp decide_eq_true decide_eq_true)
  | @inserts P r' pos =>
    refine ⟨⟨[.ty t.cit, .tpl, .tpl], .range⟩, ⟨by simp [inserts], [r', .exact, .exact], by simp [Cand.viable, deduced, agrees, ranks, pos], ?_⟩, rfl⟩
    intro d m ne ss v
    simp only [inserts, List.mem_cons, List.mem_nil_iff, or_false] at m
    rcases m with rfl | rfl | rfl <;>
      first
        | exact absurd rfl ne
        | (simp [Cand.viable, deduced, agrees, ranks, pos] at v; done)
        | (simp [Cand.viable, deduced, agrees, ranks, pos] at v
           cases e1 : conv U t.size with
           | none => simp [e1] at v
           | some r =>
             cases e2 : conv U t.elem with
             | none => simp [e1, e2] at v
             | some q =>
               simp [e1, e2] at v; subst v
               have := b r q e1 e2
               simp [better, notWorse, somewhereBetter, Cand.isTemplate, num_exact]; exact this.imp decide_eq_true decide_eq_true)

/-- **C147.** Exactly when a call with a number and a value inserts that number of copies: the two arguments have different types, or the number has the type
`size_type` and this is also the element type. -/
theorem count_selected_iff_partial {cands : List (Cand Ty)} {pre : List Ty} (p : Pairs conv t cands pre) (S : Standard conv t.size) (cu : conv U t.size = some r)
    (cw : conv W t.elem = some q) : Calls conv cands (pre ++ [U, W]) .countValue ↔ U ≠ W ∨ U = t.size ∧ W = t.elem := by
  refine ⟨fun x => Classical.byContradiction fun no => ?_, count_call p S cu cw⟩
  have e : U = W := Classical.byContradiction fun h => no (.inl h)
  subst e
  have := x.unique (range_call p fun r q cu cw => range_better S cu cw fun h => no (.inr h))
  cases this

/-- **C147, where the code does something else.** A number and a value of the same type, whatever integer type other than `size_type` it is (`int`, say) and whatever the
element type is: the call selects the template for ranges, which takes the two numbers for iterators. -/
theorem same_type_selects_range {cands : List (Cand Ty)} {pre : List Ty} (p : Pairs conv t cands pre) (S : Standard conv t.size) (ne : U ≠ t.size) :
    Calls conv cands (pre ++ [U, U]) .range :=
  range_call p fun r q cu cw => range_better S cu cw fun h => ne h.1

/-- **C147.** Two iterators (of a type that is not `size_type`, or is not the element type) select the range version. -/
theorem range_selected_iff {cands : List (Cand Ty)} {pre : List Ty} (p : Pairs conv t cands pre) (S : Standard conv t.size) :
    Calls conv cands (pre ++ [U, U]) .range ↔ ¬ (U = t.size ∧ U = t.elem) := by
  refine ⟨fun x h => ?_, fun no => range_call p fun r q cu cw => range_better S cu cw no⟩
  have := x.unique (count_call p S (r := .exact) (q := .exact) (by rw [h.1]; exact S.self _) (by rw [← h.2]; exact S.self _) (.inr h))
  cases this

/-- **C147.** The calls that the containers make themselves, `insert(pos, n, value)` with `n` of type `size_type` and a value of the element type, select the count
version for every element type. -/
theorem own_calls_count {cands : List (Cand Ty)} {pre : List Ty} (p : Pairs conv t cands pre) (S : Standard conv t.size) :
    Calls conv cands (pre ++ [t.size, t.elem]) .countValue := by
  refine count_call p S (S.self _) (S.self _) ?_
  by_cases e : t.size = t.elem
  · exact .inr ⟨rfl, rfl⟩
  · exact .inl e

/-- **C147.** `lazy_queue(n, value)` has no such competitor: it selects the count version for every two types that convert. -/
theorem lazy_ctor_count (cu : conv U t.size = some r) (cw : conv W t.elem = some q) : Calls conv (lazyCtors t) [U, W] .countValue := by
  refine ⟨⟨[.ty t.size, .ty t.elem], .countValue⟩, ⟨by simp [lazyCtors], [r, q], by simp [Cand.viable, deduced, agrees, ranks, cu, cw], ?_⟩, rfl⟩
  intro d m ne ss v
  simp only [lazyCtors, List.mem_cons, List.mem_nil_iff, or_false] at m
  rcases m with rfl | rfl | rfl <;>
    first
      | exact absurd rfl ne
      | (simp [Cand.viable, deduced, agrees, ranks] at v; done)

/-- **C147.** `insert(first, last)` of `map`, `set` and `sorted_vector_map` selects the range version, unless the iterators convert exactly both to the container's
`iterator` and to its elements; so the hinted `insert`, which is not defined, is not called by mistake. -/
theorem map_range_insert (h : ¬ (conv U t.it = some .exact ∧ conv U t.elem = some .exact)) : Calls conv (mapInserts t) [U, U] .range := by
  refine ⟨⟨[.tpl, .tpl], .range⟩, ⟨by simp [mapInserts], [.exact, .exact], by simp [Cand.viable, deduced, agrees, ranks], ?_⟩, rfl⟩
  intro d m ne ss v
  simp only [mapInserts, List.mem_cons, List.mem_nil_iff, or_false] at m
  rcases m with rfl | rfl | rfl <;>
    first
      | exact absurd rfl ne
      | (simp [Cand.viable, deduced, agrees, ranks] at v; done)
      | (simp [Cand.viable, deduced, agrees, ranks] at v
         cases e1 : conv U t.it with
         | none => simp [e1] at v
         | some r =>
           cases e2 : conv U t.elem with
           | none => simp [e1, e2] at v
           | some q =>
             simp [e1, e2] at v; subst v
             have : 0 < r.num ∨ 0 < q.num := by
               refine Classical.byContradiction fun no => h ⟨?_, ?_⟩
               · rw [e1, Rank.num_zero (r := r) (by omega)]
               · rw [e2, Rank.num_zero (r := q) (by omega)]
             simp [better, notWorse, somewhereBetter, Cand.isTemplate, num_exact]; exact this.imp decide_eq_true decide_eq_true)

/-- **C147.** `insert(value)` and one-argument `insert(pos, value)` select the version for one element. -/
theorem one_selected (cw : conv W t.elem = some q) : (∀ {P r}, conv P t.cit = some r → Calls conv (inserts t) [P, W] .one) ∧ Calls conv (mapInserts t) [W] .one := by
  refine ⟨fun {P r} pos => ⟨⟨[.ty t.cit, .ty t.elem], .one⟩, ⟨by simp [inserts], [r, q], by simp [Cand.viable, deduced, agrees, ranks, pos, cw], ?_⟩, rfl⟩,
    ⟨⟨[.ty t.elem], .one⟩, ⟨by simp [mapInserts], [q], by simp [Cand.viable, deduced, agrees, ranks, cw], ?_⟩, rfl⟩⟩
  · intro d m ne ss v
    simp only [inserts, List.mem_cons, List.mem_nil_iff, or_false] at m
    rcases m with rfl | rfl | rfl <;>
      first
        | exact absurd rfl ne
        | (simp [Cand.viable, deduced, agrees, ranks] at v; done)
  · intro d m ne ss v
    simp only [mapInserts, List.mem_cons, List.mem_nil_iff, or_false] at m
    rcases m with rfl | rfl | rfl <;>
      first
        | exact absurd rfl ne
        | (simp [Cand.viable, deduced, agrees, ranks] at v; done)

/-! ## Concrete types -/

/-- Some types of a 64-bit system. -/
inductive T64 where
  | bool | char | int | unsigned | long | size_t | float | double | ptr | vector | cit | it
  deriving DecidableEq

/-- The integral and floating point types among them. -/
def T64.arith : T64 → Bool
  | .bool | .char | .int | .unsigned | .long | .size_t | .float | .double => true
  | _ => false

/-- Their conversions ([conv]): promotions of small types to `int` and of `float` to `double`, conversions between all arithmetic types, `iterator` to
`const_iterator` by a constructor. -/
def conv64 (a b : T64) : Option Rank :=
  if a = b then some .exact
  else if (a = .bool ∨ a = .char) ∧ b = .int ∨ a = .float ∧ b = .double then some .promotion
  else if a.arith && b.arith then some .conversion
  else if a = .it ∧ b = .cit then some .user
  else none

theorem standard64 : Standard conv64 .size_t where
  self a := by simp [conv64]
  toSize a e := by cases a <;> simp [conv64, T64.arith] at e ⊢
  fromSize a e := by cases a <;> simp [conv64, T64.arith] at e ⊢

/-- The types of `vector<int>`. -/
def vectorInt : Types T64 := ⟨.size_t, .int, .vector, .cit, .it⟩

/-- `vector<int> v(10, 0)`, `v.assign(10, 0)` and `v.insert(v.begin(), 10, 0)` select the template for ranges; `vector<int> v(10u, 0)` and `v.insert(v.begin(), 10ul, 0)`
make copies; two pointers are a range. -/
example : Calls conv64 (vectorCtors vectorInt) [.int, .int] .range ∧ Calls conv64 (assigns vectorInt) [.int, .int] .range ∧
    Calls conv64 (inserts vectorInt) [.it, .int, .int] .range ∧ Calls conv64 (vectorCtors vectorInt) [.unsigned, .int] .countValue ∧
    Calls conv64 (inserts vectorInt) [.it, .size_t, .int] .countValue ∧ Calls conv64 (vectorCtors vectorInt) [.ptr, .ptr] .range :=
  ⟨same_type_selects_range (pre := []) .vectorCtors standard64 (by simp [vectorInt]), same_type_selects_range (pre := []) .assigns standard64 (by simp [vectorInt]),
    same_type_selects_range (t := vectorInt) (U := .int) (pre := [T64.it]) (.inserts (r := .user) (by simp [conv64, vectorInt, T64.arith])) standard64 (by simp [vectorInt]),
    (count_selected_iff_partial (pre := []) (r := .conversion) (q := .exact) .vectorCtors standard64 (by simp [conv64, vectorInt, T64.arith]) (by simp [conv64, vectorInt])).2 (.inl (by simp)),
    own_calls_count (t := vectorInt) (pre := [.it]) (.inserts (r := .user) (by simp [conv64, vectorInt, T64.arith])) standard64,
    (range_selected_iff (pre := []) .vectorCtors standard64).2 (by simp [vectorInt])⟩

end Verif.Overload
