import Verif.Rb.ContainerProps
import Verif.Algorithm.SortedProps
import Verif.Seq.ListProps5
import Verif.Map.SProps2
/-!
# Model and properties of the function objects of `ttl` (ttl/functional.hpp, ttl/utility.hpp:98-117)

`less`, `greater`, `equal_to`, `not_equal_to` call the operators of the type they are made for; `select_first`, `select_second` and
`select_same` give the member a container takes for the key. What a client relies on: `less` and `greater` are orderings when `<` and `>`
are what they should be, and a container or an algorithm that gets `greater` works with the reverse order.
-/
set_option linter.unusedVariables false
namespace Verif.Util
open Verif Verif.Algo

/-- The comparison operators of a type: `a < b`, `a > b`, `a == b`, `a != b`. Each is a function of its own in C++. -/
structure Operators (T : Type) where
  lt : T → T → Bool
  gt : T → T → Bool
  eq : T → T → Bool
  ne : T → T → Bool

variable {T : Type}

/-- `less<T>()(a, b)` (ttl/functional.hpp:12-19) -/
def less (o : Operators T) (a b : T) : Bool := o.lt a b
/-- `greater<T>()(a, b)` (ttl/functional.hpp:21-28) -/
def greater (o : Operators T) (a b : T) : Bool := o.gt a b
/-- `equal_to<T>()(a, b)` (ttl/functional.hpp:30-37) -/
def equalTo (o : Operators T) (a b : T) : Bool := o.eq a b
/-- `not_equal_to<T>()(a, b)` (ttl/functional.hpp:39-46) -/
def notEqualTo (o : Operators T) (a b : T) : Bool := o.ne a b

/-- `select_first<Pair>()(r)` (ttl/utility.hpp:101-106): the key of an element of `map`, by value; that it refers into the pair plays no role here. -/
def selectFirst {K V : Type} (r : K × V) : K := r.1
/-- `select_second<Pair>()(r)` (ttl/utility.hpp:107-112) -/
def selectSecond {K V : Type} (r : K × V) : V := r.2
/-- `select_same<T>()(r)` (ttl/utility.hpp:115-119): the key of an element of `set` is the element -/
def selectSame (r : T) : T := r

/-- What a client means by a totally ordered type: `<` is a strict total order and the other operators agree with it. -/
structure Operators.Ordered (o : Operators T) : Prop where
  irrefl : ∀ a, o.lt a a = false
  trans : ∀ a b c, o.lt a b = true → o.lt b c = true → o.lt a c = true
  total : ∀ a b, o.lt a b = false → o.lt b a = false → a = b
  gt : ∀ a b, o.gt a b = o.lt b a
  eq : ∀ a b, o.eq a b = true ↔ a = b
  ne : ∀ a b, o.ne a b = !o.eq a b

/-- The operators of the naturals (of `unsigned`, of addresses, …). -/
def natOps : Operators Nat := ⟨fun a b => decide (a < b), fun a b => decide (b < a), fun a b => decide (a = b), fun a b => decide (a ≠ b)⟩
theorem natOps_ordered : natOps.Ordered where
  irrefl := by simp [natOps]
  trans := by simp only [natOps, decide_eq_true_eq]; omega
  total := by simp only [natOps, decide_eq_false_iff_not]; omega
  gt := by simp [natOps]
  eq := by simp [natOps]
  ne := by simp [natOps]

variable {o : Operators T}

/-- **C125.** `less` and `greater` meet the requirements on comparison functors … -/
theorem less_order (O : o.Ordered) : StrictTotalOrder (less o) := ⟨O.irrefl, O.trans, O.total⟩
theorem greater_order (O : o.Ordered) : StrictTotalOrder (greater o) where
  irrefl a := by simp only [greater, O.gt, O.irrefl]
  trans a b c p q := by simp only [greater, O.gt] at *; exact O.trans _ _ _ q p
  total a b p q := by simp only [greater, O.gt] at *; exact O.total _ _ q p

/-- … for any two objects exactly one of `less`, `equal_to`, `greater` answers true, and `not_equal_to` is the complement of `equal_to`. -/
theorem exactly_one (O : o.Ordered) (a b : T) :
    (less o a b = true ∧ equalTo o a b = false ∧ greater o a b = false) ∨
    (less o a b = false ∧ equalTo o a b = true ∧ greater o a b = false) ∨
    (less o a b = false ∧ equalTo o a b = false ∧ greater o a b = true) := by
  simp only [less, greater, equalTo, O.gt]
  have L := less_order O
  have ne : ∀ x y : T, x ≠ y → o.eq x y = false := fun x y n => by
    cases q : o.eq x y
    · rfl
    · exact absurd ((O.eq x y).1 q) n
  rcases L.trichotomy a b with q | q | q
  · exact .inl ⟨q, ne _ _ (L.ne_of_lt q), L.asymm q⟩
  · subst q; exact .inr (.inl ⟨O.irrefl a, (O.eq a a).2 rfl, O.irrefl a⟩)
  · exact .inr (.inr ⟨L.asymm q, ne _ _ (fun e => L.ne_of_lt q e.symm), q⟩)

theorem equal_or_not (O : o.Ordered) (a b : T) : equalTo o a b = !notEqualTo o a b := by
  simp only [equalTo, notEqualTo, O.ne]
  cases o.eq a b <;> simp

/-- `not_equal_to` calls `!=`, not `==`: it is the complement of `equal_to` for exactly the types whose `!=` is the complement of `==`. -/
theorem not_equal_to_needs_ne (o : Operators T) : (∀ a b, notEqualTo o a b = !equalTo o a b) ↔ ∀ a b, o.ne a b = !o.eq a b := Iff.rfl
/-- There are others. -/
theorem equal_and_not : ∃ o : Operators Nat, StrictTotalOrder (less o) ∧ ∀ a, equalTo o a a = true ∧ notEqualTo o a a = true :=
  ⟨⟨natOps.lt, natOps.gt, natOps.eq, fun _ _ => true⟩, ⟨natOps_ordered.irrefl, natOps_ordered.trans, natOps_ordered.total⟩, fun a => ⟨(natOps_ordered.eq a a).2 rfl, rfl⟩⟩

/-- **C125, `map<K, V, greater<K>>`, `set<K, greater<K>>`.** The loop from `begin()` to `end()` meets the keys in strictly descending order, the one
from `rbegin()` in strictly ascending order; a key is met iff `find` finds it. -/
theorem tree_descends {K V : Type} [DecidableEq K] {o : Operators K} (O : o.Ordered) {keyOf : V → K} {objs : List Rb.Addr} {h : Rb.Heap V}
    (r : Rb.Reach (greater o) keyOf objs h) {c : Rb.Addr} (hc : c ∈ objs) :
    ∃ es, Rb.entries c h = .ok (es, h) ∧ Rb.entriesBackward c h = .ok (es.reverse, h) ∧
      es.Pairwise (fun a b => o.lt (keyOf b.2) (keyOf a.2) = true) ∧ es.reverse.Pairwise (fun a b => o.lt (keyOf a.2) (keyOf b.2) = true) ∧
      ∀ k, ∃ x h', Rb.find (greater o) keyOf c k h = .ok (x, h') ∧
        ((x = c ∧ ∀ e ∈ es, keyOf e.2 ≠ k) ∨ ∃ v, (x, v) ∈ es ∧ keyOf v = k) := by
  obtain ⟨es, e, b, p, _, _, f⟩ := Rb.Container.iteration (greater_order O) r hc
  have p' : es.Pairwise (fun a b => o.lt (keyOf b.2) (keyOf a.2) = true) := p.imp fun {a b} q => by simpa only [greater, O.gt] using q
  exact ⟨es, e, b, p', List.pairwise_reverse.2 p', f⟩

/-- A `set<int, greater<int>>` with 7, 5 and 2 is one. -/
example : ∃ c h es, Rb.Reach (greater natOps) selectSame [c] h ∧ Rb.entries c h = .ok (es, h) ∧ es.map Prod.snd = [7, 5, 2] :=
  Rb.Container.exists_reach (keyOf := selectSame) (greater_order natOps_ordered) [7, 5, 2] (by simp [greater, natOps, selectSame])
/-- So is a `map<int, bool, greater<int>>`. -/
example : ∃ c h es, Rb.Reach (greater natOps) selectFirst [c] h ∧ Rb.entries c h = .ok (es, h) ∧ es.map Prod.snd = [(7, true), (5, false), (2, true)] :=
  Rb.Container.exists_reach (keyOf := selectFirst) (greater_order natOps_ordered) [(7, true), (5, false), (2, true)] (by simp [greater, natOps, selectFirst])

/-- **C125, the sorted-range algorithms with `greater`** on a range that never ascends: `lower_bound` gives the first element not greater than the value, … -/
theorem lower_bound_descending (O : o.Ordered) {m : Mem T} {first : Nat} {xs : List T} (h : m.Holds first xs)
    (hs : xs.Pairwise fun a b => o.lt a b = false) (v : T) (hlen : xs.length < 2147483648) :
    ∃ n, lowerBound (greater o) first (first + xs.length) v m = .ok (first + n, m) ∧ n ≤ xs.length ∧
      (∀ i (h : i < xs.length), i < n → o.lt v xs[i] = true) ∧ (∀ i (h : i < xs.length), n ≤ i → o.lt v xs[i] = false) := by
  have := lower_bound_sorted (lt := greater o) (greater_order O).toStrictWeak h (hs.imp fun {a b} q => by simpa only [greater, O.gt] using q) v hlen
  simpa only [greater, O.gt] using this

/-- … `upper_bound` the first element less than the value, … -/
theorem upper_bound_descending (O : o.Ordered) {m : Mem T} {first : Nat} {xs : List T} (h : m.Holds first xs)
    (hs : xs.Pairwise fun a b => o.lt a b = false) (v : T) (hlen : xs.length < 2147483648) :
    ∃ n, upperBound (greater o) first (first + xs.length) v m = .ok (first + n, m) ∧ n ≤ xs.length ∧
      (∀ i (h : i < xs.length), i < n → o.lt xs[i] v = false) ∧ (∀ i (h : i < xs.length), n ≤ i → o.lt xs[i] v = true) := by
  have := upper_bound_sorted (lt := greater o) (greater_order O).toStrictWeak h (hs.imp fun {a b} q => by simpa only [greater, O.gt] using q) v hlen
  simpa only [greater, O.gt] using this

/-- … and `binary_search` answers whether the value is in the range. -/
theorem binary_search_descending (O : o.Ordered) {m : Mem T} {first : Nat} {xs : List T} (h : m.Holds first xs)
    (hs : xs.Pairwise fun a b => o.lt a b = false) (v : T) (hlen : xs.length < 2147483648) :
    ∃ b, binarySearch (greater o) (greater o) first (first + xs.length) v m = .ok (b, m) ∧ (b = true ↔ v ∈ xs) := by
  obtain ⟨b, q, e⟩ := binary_search_sorted (lt := greater o) (greater_order O).toStrictWeak h
    (hs.imp fun {a b} q => by simpa only [greater, O.gt] using q) v hlen
  refine ⟨b, q, e.trans ⟨?_, fun hx => ⟨v, hx, (greater_order O).irrefl v, (greater_order O).irrefl v⟩⟩⟩
  rintro ⟨x, hx, p1, p2⟩
  exact (greater_order O).total x v p1 p2 ▸ hx

/-- Such a range exists. -/
example : ∃ (m : Mem Nat), m.Holds 0 [7, 5, 5, 2] ∧ [7, 5, 5, 2].Pairwise (fun a b => natOps.lt a b = false) :=
  ⟨fun i => [7, 5, 5, 2][i]?, by intro i hi; simp, by simp [natOps]⟩

/-- **C125, `a.merge(b, greater<T>())`** of two never ascending lists gives a never ascending list with the elements of both. -/
theorem merge_descending (O : o.Ordered) {S : Seq.DList.State T} {h : Seq.Heap T} {c d : Seq.Addr} (R : Seq.DList.Reach S h) (hc : S.Intact c) (hd : S.Intact d)
    (hcd : c ≠ d) {es fs : List (Seq.Addr × T)} (hs : Seq.ListProps.Shows h c es) (hf : Seq.ListProps.Shows h d fs)
    (se : es.Pairwise fun a b => o.lt a.2 b.2 = false) (sf : fs.Pairwise fun a b => o.lt a.2 b.2 = false) :
    ∃ h' gs, Seq.DList.exec (.merge c d (greater o)) h = .ok ((), h') ∧ Seq.ListProps.Shows h' c gs ∧ Seq.ListProps.Shows h' d [] ∧
      gs.Pairwise (fun a b => o.lt a.2 b.2 = false) ∧ gs.Perm (es ++ fs) := by
  have cv : ∀ {xs : List (Seq.Addr × T)}, Seq.DList.SortedBy (greater o) xs ↔ xs.Pairwise fun a b => o.lt a.2 b.2 = false := by
    intro xs; simp only [Seq.DList.SortedBy, greater, O.gt]
  obtain ⟨h', gs, q, s1, s2, so, pm, _⟩ := Seq.ListProps.merge_merges (greater_order O).toStrictWeak R hc hd hcd hs hf (cv.2 se) (cv.2 sf)
  exact ⟨h', gs, q, s1, s2, cv.1 so, pm⟩

/-- Two such lists. -/
example : ∃ (S : Seq.DList.State Nat) (h : Seq.Heap Nat) (c d : Seq.Addr) (es fs : List (Seq.Addr × Nat)), Seq.DList.Reach S h ∧ S.Intact c ∧ S.Intact d ∧ c ≠ d ∧
    Seq.ListProps.Shows h c es ∧ Seq.ListProps.Shows h d fs ∧ es.Pairwise (fun a b => natOps.lt a.2 b.2 = false) ∧
    fs.Pairwise (fun a b => natOps.lt a.2 b.2 = false) ∧ es.map Prod.snd = [7, 5, 5, 1] ∧ fs.map Prod.snd = [9, 5, 0] := by
  obtain ⟨S, h, c, d, es, fs, R, hc, hd, n, s, f, e1, e2⟩ := Seq.ListProps.exists_lists [7, 5, 5, 1] [9, 5, 0]
  have k : ∀ {xs : List (Seq.Addr × Nat)} {vs : List Nat}, xs.map Prod.snd = vs → vs.Pairwise (fun a b => natOps.lt a b = false) →
      xs.Pairwise fun a b => natOps.lt a.2 b.2 = false := fun q p => by subst q; exact List.pairwise_map.1 p
  exact ⟨S, h, c, d, es, fs, R, hc, hd, n, s, f, k e1 (by simp [natOps]), k e2 (by simp [natOps]), e1, e2⟩

/-- **C125, `sorted_vector_map<K, V, greater<K>>`:** the entries a client sees have strictly descending keys. -/
theorem sorted_map_descends {K V : Type} [DecidableEq K] [DecidableEq V] {o : Operators K} (O : o.Ordered) {dv : V} {S : SVMap.State K V} {h : SVMap.Mem K V} {c : Nat}
    (R : SVMap.Reach (greater o) dv S h) (hc : S.Exists c) :
    ∃ vs, SVMap.SMProps.Observes (greater o) h c vs ∧ vs.Pairwise fun a b => o.lt b.1 a.1 = true := by
  obtain ⟨vs, ob⟩ := SVMap.SMProps.reach_observes (greater_order O) R hc
  obtain ⟨s, _, _, e, so, _⟩ := SVMap.SMProps.observed (greater_order O) R hc ob
  refine ⟨vs, ob, e ▸ so.imp fun {a b} q => by simpa only [greater, O.gt] using q⟩

/-- A new map after `m[5] = 50`, `m[3] = 30` is one. -/
example : ∃ S h, SVMap.Reach (greater natOps) 0 S h ∧ S.Exists 1 ∧ ∃ vs, SVMap.SMProps.Observes (greater natOps) h 1 vs ∧
    ∀ k v, (k, v) ∈ vs ↔ (if k = 3 then some 30 else if k = 5 then some 50 else none) = some v := by
  obtain ⟨r, h1, q1, R1, o1, _⟩ := SVMap.SMProps.one_map (dv := 0) (c := 1) (greater_order natOps_ordered) SVMap.SMProps.reach_start .create trivial rfl
  obtain ⟨h', S', ws, q, R', hc, ob, e, _⟩ := SVMap.SMProps.dictionary_history_partial (greater_order natOps_ordered) [.put 5 50, .put 3 30] R1
    (SVMap.set_exists ..) o1 (D := fun _ => none) (fun k v => by simp [SVMap.SS.vals]) ⟨trivial, trivial, trivial⟩ (by simp [SVMap.SS.vals])
  exact ⟨S', h', R', hc, ws, ob, fun k v => by simpa [SVMap.SMProps.applyOps, SVMap.SMProps.Op.apply, SVMap.SMProps.bind1] using e k v⟩

/-- **C125.** A type whose `>` is not the reverse of its `<` breaks it: `greater` is then not an ordering even if `less` is. -/
theorem greater_needs_gt : ∃ o : Operators Nat, StrictTotalOrder (less o) ∧ ¬ StrictTotalOrder (greater o) :=
  ⟨⟨fun a b => decide (a < b), fun a b => decide (b ≤ a), fun a b => decide (a = b), fun a b => decide (a ≠ b)⟩, natOrder, fun h => by
    have := h.irrefl 0; simp [greater] at this⟩

end Verif.Util
