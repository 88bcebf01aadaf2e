import Verif.Map.SInv
import Verif.Vec.Loops
/-!
# Executions of the functions of `ttl::sorted_vector_map`
-/
set_option linter.unusedVariables false
set_option linter.unusedSimpArgs false
set_option linter.unusedSectionVars false
namespace Verif.SVMap
open Verif Verif.Vec
variable {K V : Type} {h h' h'' : Mem K V} {S : State K V} {c d : Nat} {s : SS K V}

/-! ## Reading -/

theorem rdPtr_eq {p q : Ptr} {n : Nat} (hs : h.size p.blk = some n) (hi : p.off < n) (hv : h.slot p.blk p.off = some (.ptr q)) : rdPtr p h = .ok (q, h) := by
  simp only [rdPtr, Prog.bind_app, read_eq hs hi hv, Res.bind_ok, Prog.pure_app]
theorem rdPair_eq {b : Nat} {e : K × V} (hs : h.size b = some 1) (hv : h.slot b = one e) : rdPair ⟨b, 0⟩ h = .ok (e, h) := by
  have : h.slot b 0 = some (.pair e.1 e.2) := by rw [hv]; rfl
  simp only [rdPair, Prog.bind_app, read_eq (p := ⟨b, 0⟩) hs Nat.zero_lt_one this, Res.bind_ok, Prog.pure_app]

theorem IsSM.array (v : IsSM h c s) {i : Nat} (hi : i < s.nodes.length) : s.blk ≠ 0 ∧ h.size s.blk = some s.cap := by
  have := v.le
  rcases v.arr with ⟨a, a'⟩ | a
  · omega
  · exact a

theorem IsSM.rd (v : IsSM h c s) {i : Nat} {e : Nat × K × V} (q : s.nodes[i]? = some e) :
    rdPtr ⟨s.blk, i⟩ h = .ok (⟨e.1, 0⟩, h) ∧ rdPair ⟨e.1, 0⟩ h = .ok (e.2, h) := by
  have hi := (List.getElem?_eq_some_iff.1 q).1
  have le := v.le
  obtain ⟨_, a⟩ := v.array hi
  obtain ⟨n1, n2, _⟩ := v.node e (List.mem_of_getElem? q)
  exact ⟨rdPtr_eq a (by show i < s.cap; omega) (v.slots i e q), rdPair_eq n1 n2⟩

theorem IsSM.deref (v : IsSM h c s) {i : Nat} {e : K × V} (q : s.vals[i]? = some e) : deref ⟨s.blk, i⟩ h = .ok (e, h) := by
  rw [SS.vals, List.getElem?_map, Option.map_eq_some_iff] at q
  obtain ⟨x, hx, rfl⟩ := q
  obtain ⟨a, a'⟩ := v.rd hx
  simp only [SVMap.deref, Prog.bind_app, a, Res.bind_ok, a']

theorem vals_length (s : SS K V) : s.vals.length = s.nodes.length := by simp [SS.vals]

theorem begin_ok (v : IsSM h c s) : begin_ c h = .ok (⟨s.blk, 0⟩, h) := by
  simp only [begin_, Prog.bind_app, getObj_eq v.obj, Res.bind_ok, Prog.pure_app]
theorem end_ok (v : IsSM h c s) : end_ c h = .ok (⟨s.blk, s.nodes.length⟩, h) := by
  simp only [end_, Prog.bind_app, getObj_eq v.obj, Res.bind_ok, Prog.pure_app]
theorem size_ok (v : IsSM h c s) : size c h = .ok (s.nodes.length, h) := by
  simp only [size, Prog.bind_app, getObj_eq v.obj, Res.bind_ok, diff_eq _ (Nat.zero_le _), Nat.sub_zero]
theorem empty_ok (v : IsSM h c s) : empty c h = .ok (decide (s.nodes.length = 0), h) := by
  simp only [empty, Prog.bind_app, getObj_eq v.obj, Res.bind_ok, Prog.pure_app, Ptr.mk.injEq, true_and]

theorem walk_ok (v : IsSM h c s) : ∀ (zs : List (K × V)) (i : Nat), s.vals.drop i = zs → i ≤ s.vals.length → walk ⟨s.blk, i⟩ ⟨s.blk, s.nodes.length⟩ h = .ok (zs, h) := by
  intro zs
  induction zs with
  | nil =>
    intro i q l
    have : i = s.nodes.length := by
      have := congrArg List.length q; simp [vals_length] at this l; omega
    subst this
    rw [walk]; simp
  | cons z zs ih =>
    intro i q l
    have l1 : i < s.vals.length := by
      have := congrArg List.length q; simp at this; omega
    rw [List.drop_eq_getElem_cons l1] at q
    simp only [List.cons.injEq] at q
    have hz : s.vals[i]? = some z := by rw [List.getElem?_eq_getElem l1, q.1]
    have ne : (⟨s.blk, i⟩ : Ptr) ≠ ⟨s.blk, s.nodes.length⟩ := by simp; rw [vals_length] at l1; omega
    rw [walk]
    simp only [Prog.ite_app, if_pos ne, Prog.bind_app, v.deref hz, Res.bind_ok, next, ptr_add, ih (i + 1) q.2 l1, Prog.pure_app]

theorem toList_ok (v : IsSM h c s) : toList c h = .ok (s.vals, h) := by
  simp only [toList, Prog.bind_app, begin_ok v, end_ok v, Res.bind_ok, walk_ok v s.vals 0 (List.drop_zero ..) (Nat.zero_le _)]

theorem walkBack_ok (v : IsSM h c s) : ∀ (i : Nat), i ≤ s.vals.length → walkBack ⟨s.blk, i⟩ ⟨s.blk, 0⟩ h = .ok ((s.vals.take i).reverse, h) := by
  intro i
  induction i with
  | zero => intro _; rw [walkBack]; simp
  | succ i ih =>
    intro l
    have hz : s.vals[i]? = some s.vals[i] := List.getElem?_eq_getElem l
    have ne : (⟨s.blk, i + 1⟩ : Ptr) ≠ ⟨s.blk, 0⟩ := by simp
    rw [walkBack]
    simp only [Prog.ite_app, if_pos ne, Prog.bind_app, prev, dec_eq, v.deref hz, Res.bind_ok, ih (by omega), Prog.pure_app]
    rw [List.take_succ_eq_append_getElem l, List.reverse_append]; rfl

theorem toListBack_ok (v : IsSM h c s) : toListBack c h = .ok (s.vals.reverse, h) := by
  have := walkBack_ok v s.nodes.length (Nat.le_of_eq (vals_length s).symm)
  rw [List.take_of_length_le (Nat.le_of_eq (by rw [vals_length]))] at this
  simp only [toListBack, Prog.bind_app, begin_ok v, end_ok v, Res.bind_ok, this]

/-! ## Searching -/

section
variable [DecidableEq K] {lt : K → K → Bool}

/-- The keys are strictly ascending. -/
def Sorted (lt : K → K → Bool) (vs : List (K × V)) : Prop := vs.Pairwise fun a b => lt a.1 b.1 = true
/-- The number of leading elements with a smaller key. -/
def lb (lt : K → K → Bool) (k : K) (vs : List (K × V)) : Nat := (vs.takeWhile fun e => lt e.1 k).length
/-- There is an element with key `k`. -/
def has (k : K) (vs : List (K × V)) : Bool := vs.any fun e => decide (e.1 = k)

theorem lb_eq {k : K} : ∀ {vs : List (K × V)} {i : Nat}, i ≤ vs.length → (∀ j e, j < i → vs[j]? = some e → lt e.1 k = true) → (∀ e, vs[i]? = some e → lt e.1 k = false) →
    lb lt k vs = i
  | [], i, l, a, b => by simp [lb] at *; omega
  | x :: vs, 0, l, a, b => by simp [lb, List.takeWhile, b x rfl]
  | x :: vs, i + 1, l, a, b => by
    have := lb_eq (vs := vs) (i := i) (by simpa using l) (fun j e q hj => a (j + 1) e (by omega) (by simpa using hj)) (fun e he => b e (by simpa using he))
    simp only [lb, List.takeWhile, a 0 x (by omega) rfl, List.length_cons]
    simp only [lb] at this; omega

theorem lb_le {k : K} (vs : List (K × V)) : lb lt k vs ≤ vs.length := (List.takeWhile_prefix _).length_le
theorem lb_before {k : K} : ∀ {vs : List (K × V)} {j : Nat} {e : K × V}, j < lb lt k vs → vs[j]? = some e → lt e.1 k = true
  | [], j, e, l, q => by simp at q
  | x :: vs, j, e, l, q => by
    simp only [lb, List.takeWhile] at l
    cases g : lt x.1 k with
    | false => rw [g] at l; simp at l
    | true =>
      rw [g] at l
      cases j with
      | zero => simp at q; subst q; exact g
      | succ j => exact lb_before (vs := vs) (j := j) (by simp [lb] at l ⊢; omega) (by simpa using q)
theorem lb_at {k : K} : ∀ {vs : List (K × V)} {e : K × V}, vs[lb lt k vs]? = some e → lt e.1 k = false
  | [], e, q => by simp at q
  | x :: vs, e, q => by
    cases g : lt x.1 k with
    | false => simp only [lb, List.takeWhile, g, List.length_nil, List.getElem?_cons_zero, Option.some.injEq] at q; subst q; exact g
    | true =>
      simp only [lb, List.takeWhile, g, List.length_cons, List.getElem?_cons_succ] at q
      exact lb_at (vs := vs) q

theorem sorted_lt {vs : List (K × V)} (so : Sorted lt vs) {i j : Nat} {a b : K × V} (l : i < j) (hi : vs[i]? = some a) (hj : vs[j]? = some b) : lt a.1 b.1 = true := by
  obtain ⟨i1, rfl⟩ := List.getElem?_eq_some_iff.1 hi
  obtain ⟨j1, rfl⟩ := List.getElem?_eq_some_iff.1 hj
  exact List.pairwise_iff_getElem.1 so i j i1 j1 l

theorem has_iff {k : K} {vs : List (K × V)} : has k vs = true ↔ ∃ (i : Nat) (e : K × V), vs[i]? = some e ∧ e.1 = k := by
  simp only [has, List.any_eq_true, decide_eq_true_eq]
  constructor
  · rintro ⟨e, he, q⟩; obtain ⟨i, hi⟩ := List.mem_iff_getElem?.1 he; exact ⟨i, e, hi, q⟩
  · rintro ⟨i, e, hi, q⟩; exact ⟨e, List.mem_of_getElem? hi, q⟩

/-- A present key is at the lower bound. -/
theorem has_at (O : StrictTotalOrder lt) {k : K} {vs : List (K × V)} (so : Sorted lt vs) : has k vs = true ↔ ∃ v, vs[lb lt k vs]? = some (k, v) := by
  rw [has_iff]
  constructor
  · rintro ⟨i, ⟨k', v⟩, hi, rfl⟩
    have : lb lt k' vs = i := lb_eq (Nat.le_of_lt (List.getElem?_eq_some_iff.1 hi).1) (fun j e q he => sorted_lt so q he hi)
      (fun e he => by rw [hi] at he; cases he; exact O.irrefl _)
    exact ⟨v, by rw [this]; exact hi⟩
  · rintro ⟨v, hv⟩; exact ⟨_, _, hv, rfl⟩

theorem bsearchLoop_ok (O : StrictTotalOrder lt) (v : IsSM h c s) (so : Sorted lt s.vals) (k : K) : ∀ (n L H : Nat), H - L ≤ n → L ≤ H → H ≤ s.vals.length →
    (∀ j e, j < L → s.vals[j]? = some e → lt e.1 k = true) → (∀ j e, H ≤ j → s.vals[j]? = some e → lt k e.1 = true) →
    bsearchLoop lt ⟨s.blk, 0⟩ k L H h = .ok ((lb lt k s.vals, has k s.vals), h) := by
  intro n
  induction n with
  | zero =>
    intro L H q l l' a b
    have : L = H := by omega
    subst this
    rw [bsearchLoop]
    simp only [Prog.ite_app, if_neg (Nat.lt_irrefl L), Prog.pure_app]
    have e1 : lb lt k s.vals = L := lb_eq l' a fun e he => O.asymm (b L e (Nat.le_refl _) he)
    have e2 : has k s.vals = false := by
      cases g : has k s.vals with
      | false => rfl
      | true =>
        obtain ⟨i, e, hi, q⟩ := has_iff.1 g
        by_cases i < L
        · have := a i e ‹_› hi; rw [q, O.irrefl] at this; cases this
        · have := b i e (by omega) hi; rw [q, O.irrefl] at this; cases this
    rw [e1, e2]
  | succ n ih =>
    intro L H q l l' a b
    by_cases hlt : L < H
    · have hm : L + (H - L) / 2 < H := by omega
      obtain ⟨x, hx⟩ : ∃ x, s.nodes[L + (H - L) / 2]? = some x := by
        rw [vals_length] at l'; exact ⟨_, List.getElem?_eq_getElem (by omega)⟩
      have hv : s.vals[L + (H - L) / 2]? = some x.2 := by rw [SS.vals, List.getElem?_map, hx]; rfl
      obtain ⟨r1, r2⟩ := v.rd hx
      rw [bsearchLoop]
      simp only [Prog.ite_app, if_pos hlt, Prog.bind_app, ptr_add, Nat.zero_add, r1, r2, Res.bind_ok]
      by_cases e : x.2.1 = k
      · simp only [if_pos e, Prog.pure_app]
        have h1 : has k s.vals = true := has_iff.2 ⟨_, _, hv, e⟩
        have h2 : lb lt k s.vals = L + (H - L) / 2 := lb_eq (by omega) (fun j y q hy => by rw [← e]; exact sorted_lt so q hy hv)
          (fun y hy => by rw [hv] at hy; cases hy; rw [e]; exact O.irrefl _)
        rw [h1, h2]
      · simp only [if_neg e, Prog.bind_app, r1, r2, Res.bind_ok]
        cases g : lt x.2.1 k with
        | true =>
          simp only [Prog.ite_app, if_true]
          refine ih _ _ (by omega) (by omega) l' ?_ b
          intro j y q hy
          by_cases e' : j = L + (H - L) / 2
          · subst e'; rw [hv] at hy; cases hy; exact g
          · exact O.trans _ _ _ (sorted_lt so (by omega) hy hv) g
        | false =>
          have g' : lt k x.2.1 = true := by
            rcases O.trichotomy x.2.1 k with z | z | z
            · rw [g] at z; cases z
            · exact absurd z e
            · exact z
          simp only [Prog.ite_app, Bool.false_eq_true, if_false]
          refine ih _ _ (by omega) (by omega) (by omega) a ?_
          intro j y q hy
          by_cases e' : j = L + (H - L) / 2
          · subst e'; rw [hv] at hy; cases hy; exact g'
          · exact O.trans _ _ _ g' (sorted_lt so (by omega) hv hy)
    · exact (by
        have : L = H := by omega
        subst this
        rw [bsearchLoop]
        simp only [Prog.ite_app, if_neg (Nat.lt_irrefl L), Prog.pure_app]
        have e1 : lb lt k s.vals = L := lb_eq l' a fun e he => O.asymm (b L e (Nat.le_refl _) he)
        have e2 : has k s.vals = false := by
          cases g : has k s.vals with
          | false => rfl
          | true =>
            obtain ⟨i, e, hi, q⟩ := has_iff.1 g
            by_cases i < L
            · have := a i e ‹_› hi; rw [q, O.irrefl] at this; cases this
            · have := b i e (by omega) hi; rw [q, O.irrefl] at this; cases this
        rw [e1, e2])

theorem bsearch_ok (O : StrictTotalOrder lt) (v : IsSM h c s) (so : Sorted lt s.vals) (l : s.nodes.length < uintMod) (k : K) :
    bsearch lt c k h = .ok ((lb lt k s.vals, has k s.vals), h) := by
  simp only [bsearch, Prog.bind_app, size_ok v, getObj_eq v.obj, Res.bind_ok, Nat.mod_eq_of_lt l]
  refine bsearchLoop_ok O v so k _ 0 _ (Nat.le_refl _) (Nat.zero_le _) (Nat.le_of_eq (by rw [vals_length])) (fun j e q => by omega) (fun j e q he => ?_)
  have := (List.getElem?_eq_some_iff.1 he).1
  rw [vals_length] at this; omega

/-- With a multiple of 2^32 elements, the search examines nothing. -/
theorem bsearch_wraps (v : IsSM h c s) (l : s.nodes.length % uintMod = 0) (k : K) : bsearch lt c k h = .ok ((0, false), h) := by
  simp only [bsearch, Prog.bind_app, size_ok v, getObj_eq v.obj, Res.bind_ok, l]
  rw [bsearchLoop]; simp

theorem find_ok (O : StrictTotalOrder lt) (v : IsSM h c s) (so : Sorted lt s.vals) (l : s.nodes.length < uintMod) (k : K) :
    find lt c k h = .ok (⟨s.blk, if has k s.vals then lb lt k s.vals else s.nodes.length⟩, h) := by
  simp only [find, Prog.bind_app, bsearch_ok O v so l, Res.bind_ok, Prog.ite_app, getObj_eq v.obj, Prog.pure_app, end_ok v]
  split <;> simp
theorem findInsertPos_ok (O : StrictTotalOrder lt) (v : IsSM h c s) (so : Sorted lt s.vals) (l : s.nodes.length < uintMod) (k : K) :
    findInsertPos lt c k h = .ok (⟨s.blk, lb lt k s.vals⟩, h) := by
  simp only [findInsertPos, Prog.bind_app, bsearch_ok O v so l, Res.bind_ok, getObj_eq v.obj, Prog.pure_app, ptr_add, Nat.zero_add]
theorem count_ok (O : StrictTotalOrder lt) (v : IsSM h c s) (so : Sorted lt s.vals) (l : s.nodes.length < uintMod) (k : K) :
    count lt c k h = .ok (if has k s.vals then 0 else 1, h) := by
  simp only [count, Prog.bind_app, find_ok O v so l, Res.bind_ok, end_ok v, Prog.pure_app, Ptr.mk.injEq, true_and]
  split
  · rename_i g
    obtain ⟨x, hx⟩ := (has_at O so).1 g
    have := (List.getElem?_eq_some_iff.1 hx).1
    rw [vals_length] at this
    rw [if_neg (by omega)]
  · simp
theorem equalRange_ok (O : StrictTotalOrder lt) (v : IsSM h c s) (so : Sorted lt s.vals) (l : s.nodes.length < uintMod) (k : K) :
    equalRange lt c k h = .ok (if has k s.vals then (⟨s.blk, lb lt k s.vals⟩, ⟨s.blk, lb lt k s.vals + 1⟩) else (⟨s.blk, s.nodes.length⟩, ⟨s.blk, s.nodes.length⟩), h) := by
  simp only [equalRange, Prog.bind_app, find_ok O v so l, Res.bind_ok, end_ok v, Prog.ite_app, Prog.pure_app, next, ptr_add]
  split
  · rename_i g
    obtain ⟨x, hx⟩ := (has_at O so).1 g
    have := (List.getElem?_eq_some_iff.1 hx).1
    rw [vals_length] at this
    rw [if_pos (by simp; omega)]
  · simp
theorem upperBound_ok (O : StrictTotalOrder lt) (v : IsSM h c s) (so : Sorted lt s.vals) (l : s.nodes.length < uintMod) (k : K) :
    upperBound lt c k h = .ok (⟨s.blk, if has k s.vals then lb lt k s.vals + 1 else lb lt k s.vals⟩, h) := by
  have stop : ∀ i : Nat, i ≤ s.vals.length → (∀ e, s.vals[i]? = some e → e.1 ≠ k) → upperLoop c k ⟨s.blk, i⟩ h = .ok (⟨s.blk, i⟩, h) := by
    intro i li hne
    rw [upperLoop]
    simp only [Prog.bind_app, end_ok v, Res.bind_ok, Prog.ite_app]
    by_cases q : i = s.nodes.length
    · subst q; simp
    · have hi : i < s.vals.length := by rw [vals_length] at *; omega
      have he : s.vals[i]? = some s.vals[i] := List.getElem?_eq_getElem hi
      rw [if_pos (by simp; omega)]
      simp only [Prog.bind_app, v.deref he, Res.bind_ok, Prog.ite_app, if_neg (hne _ he), Prog.pure_app]
  simp only [upperBound, Prog.bind_app, findInsertPos_ok O v so l, Res.bind_ok]
  split
  · rename_i g
    obtain ⟨x, hx⟩ := (has_at O so).1 g
    have hl := (List.getElem?_eq_some_iff.1 hx).1
    rw [upperLoop]
    simp only [Prog.bind_app, end_ok v, Res.bind_ok, Prog.ite_app]
    rw [if_pos (by rw [vals_length] at hl; simp; omega)]
    simp only [Prog.bind_app, v.deref hx, Res.bind_ok, Prog.ite_app, if_true, next, ptr_add]
    refine stop _ hl fun e he q => ?_
    have := sorted_lt so (Nat.lt_succ_self _) hx he
    rw [q, O.irrefl] at this; cases this
  · rename_i g
    refine stop _ (lb_le _) fun e he q => g (has_iff.2 ⟨_, _, he, q⟩)
end

end Verif.SVMap
