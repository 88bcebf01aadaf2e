import Verif.Map.SAnyProps
/-!
# `ttl::sorted_vector_map` with a comparator that is only a strict weak ordering (C121), and the cost of its search (C122)

`bsearch` tests `==` first and then the comparator. An entry that is equivalent to the key under the comparator but not equal to it sends the search to the
left. So the sequence stays weakly ascending, but equivalent keys are all kept, and a key that is present may not be found.
-/
set_option linter.unusedVariables false
set_option linter.unusedSimpArgs false
set_option linter.unusedSectionVars false
namespace Verif.SVMap.AnyProps
open Verif Verif.Vec Verif.SVMap
variable {K V : Type} [DecidableEq K] {h h' : Mem K V} {S : State K V} {c d i : Nat} {s : SS K V} {lt lt' : K → K → Bool} {dv : V} {vs ws : List (K × V)}
variable {ok : Nat → Prop} {L : List Nat}

/-- No later key is less than an earlier one. -/
def Ascending (lt : K → K → Bool) (vs : List (K × V)) : Prop := vs.Pairwise fun a b => lt b.1 a.1 = false

/-- The entries with a key that the comparator cannot tell from `k` have the key `k`. -/
def Plain (lt : K → K → Bool) (k : K) (vs : List (K × V)) : Prop := ∀ e ∈ vs, lt e.1 k = false → lt k e.1 = false → e.1 = k

theorem asc_get (so : Ascending lt vs) {i j : Nat} {a b : K × V} (l : i < j) (hi : vs[i]? = some a) (hj : vs[j]? = some b) : lt b.1 a.1 = false := by
  obtain ⟨i1, rfl⟩ := List.getElem?_eq_some_iff.1 hi
  obtain ⟨j1, rfl⟩ := List.getElem?_eq_some_iff.1 hj
  exact List.pairwise_iff_getElem.1 so i j i1 j1 l

/-- Where the search ends. -/
theorem srch_weak (O : StrictWeakOrder lt) (k : K) (so : Ascending lt vs) : ∀ (n L H : Nat), H - L ≤ n → L ≤ H → H ≤ vs.length →
    (∀ (j : Nat) e, j < L → vs[j]? = some e → lt e.1 k = true) → (∀ (j : Nat) e, H ≤ j → vs[j]? = some e → lt e.1 k = false ∧ (Plain lt k vs → lt k e.1 = true)) →
    (∀ (j : Nat) e, j < (srch lt k vs L H).1 → vs[j]? = some e → lt k e.1 = false ∧ ((srch lt k vs L H).2 = false → lt e.1 k = true)) ∧
    (∀ (j : Nat) e, (srch lt k vs L H).1 ≤ j → vs[j]? = some e → lt e.1 k = false ∧ ((srch lt k vs L H).2 = false → Plain lt k vs → lt k e.1 = true)) := by
  intro n
  induction n with
  | zero =>
    intro L H q l l' a b
    have : L = H := by omega
    subst this
    rw [srch_stop (Nat.lt_irrefl L)]
    exact ⟨fun j e q he => ⟨O.asymm (a j e q he), fun _ => a j e q he⟩, fun j e q he => ⟨(b j e q he).1, fun _ => (b j e q he).2⟩⟩
  | succ n ih =>
    intro L H q l l' a b
    by_cases hlt : L < H
    · have hv : vs[L + (H - L) / 2]? = some vs[L + (H - L) / 2] := List.getElem?_eq_getElem (by omega)
      have hm : vs[L + (H - L) / 2] ∈ vs := List.getElem_mem _
      generalize vs[L + (H - L) / 2]'(by omega) = x at hv hm
      rw [srch_step hlt hv]
      by_cases e : x.1 = k
      · simp only [if_pos e]
        constructor
        · intro j y q hy
          exact ⟨by rw [← e]; exact asc_get so q hy hv, fun q => by cases q⟩
        · intro j y q hy
          refine ⟨?_, fun q => by cases q⟩
          by_cases e' : j = L + (H - L) / 2
          · subst e'; rw [hv] at hy; cases hy; rw [e]; exact O.irrefl _
          · rw [← e]; exact asc_get so (by omega) hv hy
      · simp only [if_neg e]
        cases g : lt x.1 k with
        | true =>
          simp only [if_true]
          refine ih _ _ (by omega) (by omega) l' ?_ b
          intro j y q hy
          by_cases e' : j = L + (H - L) / 2
          · subst e'; rw [hv] at hy; cases hy; exact g
          · exact O.lt_of_not_lt_of_lt (asc_get so (by omega) hy hv) g
        | false =>
          simp only [Bool.false_eq_true, if_false]
          refine ih _ _ (by omega) (by omega) (by omega) a ?_
          intro j y q hy
          by_cases e' : j = L + (H - L) / 2
          · subst e'; rw [hv] at hy; cases hy
            refine ⟨g, fun pl => ?_⟩
            cases z : lt k x.1 with
            | true => rfl
            | false => exact absurd (pl x hm g z) e
          · have z := asc_get so (show L + (H - L) / 2 < j by omega) hv hy
            refine ⟨O.negTrans _ _ _ z g, fun pl => ?_⟩
            have z' : lt k x.1 = true := by
              cases z' : lt k x.1 with
              | true => rfl
              | false => exact absurd (pl x hm g z') e
            exact O.lt_of_lt_of_not_lt z' z
    · have : L = H := by omega
      subst this
      rw [srch_stop (Nat.lt_irrefl L)]
      exact ⟨fun j e q he => ⟨O.asymm (a j e q he), fun _ => a j e q he⟩, fun j e q he => ⟨(b j e q he).1, fun _ => (b j e q he).2⟩⟩

theorem search_weak (O : StrictWeakOrder lt) (k : K) (so : Ascending lt vs) (l : vs.length < 4294967296) :
    (∀ (j : Nat) e, j < (search lt k vs).1 → vs[j]? = some e → lt k e.1 = false ∧ ((search lt k vs).2 = false → lt e.1 k = true)) ∧
    (∀ (j : Nat) e, (search lt k vs).1 ≤ j → vs[j]? = some e → lt e.1 k = false ∧ ((search lt k vs).2 = false → Plain lt k vs → lt k e.1 = true)) := by
  rw [search, Nat.mod_eq_of_lt l]
  refine srch_weak O k so _ 0 _ (Nat.le_refl _) (Nat.zero_le _) (Nat.le_refl _) (fun j e q => by omega) fun j e q he => ?_
  have := (List.getElem?_eq_some_iff.1 he).1; omega

/-- Below 2^32 elements, an insertion that finds no equal key at its place was told so by the search. -/
theorem srch_miss (k : K) : ∀ (n L H : Nat), H - L ≤ n → H ≤ vs.length → (∀ e, vs[H]? = some e → e.1 ≠ k) →
    (srch lt k vs L H).2 = false → L ≤ H → hit k vs (srch lt k vs L H).1 = false := by
  intro n
  induction n with
  | zero =>
    intro L H q l b g lh
    have : L = H := by omega
    subst this
    rw [srch_stop (Nat.lt_irrefl L)]
    cases z : hit k vs L with
    | false => rfl
    | true => obtain ⟨u, hu⟩ := hit_iff.1 z; exact absurd rfl (b _ hu)
  | succ n ih =>
    intro L H q l b g lh
    by_cases hlt : L < H
    · have hv : vs[L + (H - L) / 2]? = some vs[L + (H - L) / 2] := List.getElem?_eq_getElem (by omega)
      rw [srch_step hlt hv] at g ⊢
      by_cases e : (vs[L + (H - L) / 2]).1 = k
      · simp only [if_pos e] at g; cases g
      · simp only [if_neg e] at g ⊢
        split at g
        · rename_i z; rw [if_pos z]; exact ih _ _ (by omega) l b g (by omega)
        · rename_i z; rw [if_neg z]
          exact ih _ _ (by omega) (by omega) (fun y hy => by rw [hv] at hy; cases hy; exact e) g (by omega)
    · have : L = H := by omega
      subst this
      rw [srch_stop (Nat.lt_irrefl L)]
      cases z : hit k vs L with
      | false => rfl
      | true => obtain ⟨u, hu⟩ := hit_iff.1 z; exact absurd rfl (b _ hu)

theorem search_hit (k : K) (l : vs.length < 4294967296) : hit k vs (search lt k vs).1 = (search lt k vs).2 := by
  cases g : (search lt k vs).2 with
  | true => exact hit_iff.2 ((search_in k vs).2 g)
  | false =>
    rw [search, Nat.mod_eq_of_lt l] at g ⊢
    refine srch_miss k _ 0 _ (Nat.le_refl _) (Nat.le_refl _) (fun e he => ?_) g (Nat.zero_le _)
    have := (List.getElem?_eq_some_iff.1 he).1; omega

theorem asc_ins (O : StrictWeakOrder lt) (so : Ascending lt vs) (l : vs.length < 4294967296) (k : K) (v : V) : Ascending lt (insVals (search lt k vs).1 (k, v) vs) := by
  obtain ⟨a, b⟩ := search_weak O k so l
  have so' : Ascending lt (vs.take (search lt k vs).1 ++ vs.drop (search lt k vs).1) := by rw [List.take_append_drop]; exact so
  rw [Ascending, List.pairwise_append] at so'
  rw [Ascending, insVals, List.pairwise_append, List.pairwise_cons]
  refine ⟨so'.1, ⟨?_, so'.2.1⟩, ?_⟩
  · intro e he
    obtain ⟨j, hj⟩ := List.mem_iff_getElem?.1 he
    rw [List.getElem?_drop] at hj
    exact (b _ e (by omega) hj).1
  · intro x hx y hy
    rcases List.mem_cons.1 hy with rfl | hy
    · obtain ⟨j, hj⟩ := List.mem_iff_getElem?.1 hx
      have := (List.getElem?_eq_some_iff.1 hj).1
      rw [List.length_take] at this
      rw [List.getElem?_take_of_lt (by omega)] at hj
      exact (a j x (by omega) hj).1
    · exact so'.2.2 x hx y hy

theorem asc_keys : Ascending lt vs ↔ (vs.map (·.1)).Pairwise fun a b => lt b a = false := by rw [Ascending, List.pairwise_map]

theorem stable_asc (O : StrictWeakOrder lt) : Stable (V := V) (· < 4294967296) lt (Ascending lt) := by
  refine ⟨List.Pairwise.nil, fun vs k v so l _ => asc_ins O so l k v, fun vs i w so => ?_⟩
  rw [asc_keys, keys_setVal, ← asc_keys]; exact so

/-! ## C121 -/

/-- **C121.** With a strict weak ordering, iteration yields the keys in weakly ascending order. (Partial: below 2^32 elements.) -/
theorem weak_sorted_partial (O : StrictWeakOrder lt) (R : Runs (· < 4294967296) lt dv L h) (hc : c ∈ L) (o : Lists h c vs) : vs.Pairwise fun a b => lt b.1 a.1 = false := by
  obtain ⟨S, I⟩ := R.inv (stable_asc O)
  obtain ⟨s, hs⟩ := (I.live c).1 hc
  have := (isSM_lists (I.world.sm c s hs)).inj o
  subst this; exact I.prop c s hs

/-- **C121.** With a strict weak ordering, `lower_bound(k)` has no entry greater than `k` before it and no entry less than `k` after it; if no entry has a key equal
to `k`, it has exactly the entries less than `k` before it. -/
theorem weak_lower_bound_partial (O : StrictWeakOrder lt) (R : Runs (· < 4294967296) lt dv L h) (hc : c ∈ L) (o : Lists h c vs) (l : vs.length < 4294967296) (k : K) :
    ∃ p, ∃ i : Nat, begin_ c h = .ok (p, h) ∧ lowerBound lt c k h = .ok (p + i, h) ∧ i ≤ vs.length ∧ (∀ e ∈ vs.take i, lt k e.1 = false) ∧ (∀ e ∈ vs.drop i, lt e.1 k = false) ∧
      ((∀ e ∈ vs, e.1 ≠ k) → ∀ e ∈ vs.take i, lt e.1 k = true) := by
  have so : Ascending lt vs := weak_sorted_partial O R hc o
  obtain ⟨S, s, I, hs, w, rfl, cp⟩ := observed R hc o
  obtain ⟨a, b⟩ := search_weak O k so l
  have tk : ∀ e ∈ s.vals.take (search lt k s.vals).1, ∃ j, j < (search lt k s.vals).1 ∧ s.vals[j]? = some e := by
    intro e he
    obtain ⟨j, hj⟩ := List.mem_iff_getElem?.1 he
    have := (List.getElem?_eq_some_iff.1 hj).1
    rw [List.length_take] at this
    rw [List.getElem?_take_of_lt (by omega)] at hj
    exact ⟨j, by omega, hj⟩
  refine ⟨⟨s.blk, 0⟩, (search lt k s.vals).1, begin_ok w, by rw [lowerBound, findInsertPos_any w, ptr_add, Nat.zero_add], (search_in k s.vals).1, ?_, ?_, ?_⟩
  · intro e he; obtain ⟨j, q, hj⟩ := tk e he; exact (a j e q hj).1
  · intro e he
    obtain ⟨j, hj⟩ := List.mem_iff_getElem?.1 he
    rw [List.getElem?_drop] at hj
    exact (b _ e (by omega) hj).1
  · intro n e he
    obtain ⟨j, q, hj⟩ := tk e he
    refine (a j e q hj).2 ?_
    cases g : (search lt k s.vals).2 with
    | false => rfl
    | true =>
      obtain ⟨u, hu⟩ := (search_in k s.vals).2 g
      exact absurd rfl (n _ (List.mem_of_getElem? hu))

/-- **C121.** With a strict weak ordering, `find(k)` finds an entry with key `k` if there is one, provided that no entry with another key is equivalent to `k`. -/
theorem weak_find_partial (O : StrictWeakOrder lt) (R : Runs (· < 4294967296) lt dv L h) (hc : c ∈ L) (o : Lists h c vs) (l : vs.length < 4294967296) {k : K} {u : V} (m : (k, u) ∈ vs)
    (pl : ∀ e ∈ vs, lt e.1 k = false → lt k e.1 = false → e.1 = k) : ∃ p, ∃ i : Nat, ∃ w, begin_ c h = .ok (p, h) ∧ find lt c k h = .ok (p + i, h) ∧ vs[i]? = some (k, w) := by
  have so : Ascending lt vs := weak_sorted_partial O R hc o
  obtain ⟨S, s, I, hs, w, rfl, cp⟩ := observed R hc o
  obtain ⟨a, b⟩ := search_weak O k so l
  have g : (search lt k s.vals).2 = true := by
    cases g : (search lt k s.vals).2 with
    | true => rfl
    | false =>
      obtain ⟨j, hj⟩ := List.mem_iff_getElem?.1 m
      by_cases q : j < (search lt k s.vals).1
      · have := (a j _ q hj).2 g; rw [O.irrefl] at this; cases this
      · have := (b j _ (by omega) hj).2 g pl; rw [O.irrefl] at this; cases this
  obtain ⟨u', hu⟩ := (search_in k s.vals).2 g
  exact ⟨⟨s.blk, 0⟩, _, u', begin_ok w, by rw [find_any w, g, ptr_add, Nat.zero_add]; rfl, hu⟩

/-- **C121.** With a strict weak ordering, an insertion of a key that is equivalent to no other key in a map without equivalent entries keeps it a map without
equivalent entries; it inserts exactly if the key is absent. -/
theorem weak_insert_partial (O : StrictWeakOrder lt) (R : Runs (· < 4294967296) lt dv L h) (hc : c ∈ L) (o : Lists h c vs) (l : vs.length < 4294967296) {k : K}
    (st : vs.Pairwise fun a b => lt a.1 b.1 = true) (pl : ∀ e ∈ vs, lt e.1 k = false → lt k e.1 = false → e.1 = k) (v : V) :
    ∃ p b h' ws, insert lt c (k, v) h = .ok ((p, b), h') ∧ Runs (· < 4294967296) lt dv L h' ∧ Lists h' c ws ∧ (ws.Pairwise fun a b => lt a.1 b.1 = true) ∧ (b = true ↔ ∀ e ∈ vs, e.1 ≠ k) ∧
      (b = false → ws = vs) ∧ (b = true → ws.Perm ((k, v) :: vs)) := by
  have so : Ascending lt vs := weak_sorted_partial O R hc o
  obtain ⟨S, s, I, hs, w, rfl, cp⟩ := observed R hc o
  obtain ⟨h', e, W', keep⟩ := insert_any (lt := lt) I.world hs k v cp
  have v' := W'.sm c _ (set_same ..)
  have ex : exec lt dv (.insert c k v) h = .ok (.ins ⟨(s.put1 lt h.fresh k v).blk, (search lt k s.vals).1⟩ (!hit k s.vals (search lt k s.vals).1), h') := by
    simp only [exec, Prog.bind_app, e, Res.bind_ok]; rfl
  have R' := R.step (.insert c k v) ⟨hc, _, o.size, l⟩ ex
  obtain ⟨a, b⟩ := search_weak O k so l
  have hs' := search_hit (lt := lt) k l
  refine ⟨_, _, h', _, e, R', isSM_lists v', ?_, ?_, ?_, ?_⟩
  · rw [put1_vals]
    cases g : hit k s.vals (search lt k s.vals).1 with
    | true => exact st
    | false =>
      rw [hs'] at g
      simp only [Bool.false_eq_true, if_false]
      have so' : Sorted lt (s.vals.take (search lt k s.vals).1 ++ s.vals.drop (search lt k s.vals).1) := by rw [List.take_append_drop]; exact st
      rw [Sorted, List.pairwise_append] at so'
      rw [insVals, List.pairwise_append, List.pairwise_cons]
      refine ⟨so'.1, ⟨?_, so'.2.1⟩, ?_⟩
      · intro e he
        obtain ⟨j, hj⟩ := List.mem_iff_getElem?.1 he
        rw [List.getElem?_drop] at hj
        exact (b _ e (by omega) hj).2 g pl
      · intro x hx y hy
        rcases List.mem_cons.1 hy with rfl | hy
        · obtain ⟨j, hj⟩ := List.mem_iff_getElem?.1 hx
          have := (List.getElem?_eq_some_iff.1 hj).1
          rw [List.length_take] at this
          rw [List.getElem?_take_of_lt (by omega)] at hj
          exact (a j x (by omega) hj).2 g
        · exact so'.2.2 x hx y hy
  · rw [hs']
    constructor
    · intro g e he q
      have g : (search lt k s.vals).2 = false := by simpa using g
      obtain ⟨j, hj⟩ := List.mem_iff_getElem?.1 he
      by_cases z : j < (search lt k s.vals).1
      · have := (a j _ z hj).2 g; rw [q, O.irrefl] at this; cases this
      · have := (b j _ (by omega) hj).2 g pl; rw [q, O.irrefl] at this; cases this
    · intro n
      cases g : (search lt k s.vals).2 with
      | false => rfl
      | true =>
        obtain ⟨u, hu⟩ := (search_in k s.vals).2 g
        exact absurd rfl (n _ (List.mem_of_getElem? hu))
  · intro g
    have g : hit k s.vals (search lt k s.vals).1 = true := by simpa using g
    rw [put1_vals, g]; rfl
  · intro g
    have g : hit k s.vals (search lt k s.vals).1 = false := by simpa using g
    rw [put1_vals, g]
    simp only [Bool.false_eq_true, if_false, insVals]
    refine List.perm_middle.trans ?_
    rw [List.take_append_drop]

/-! ### Keys that are lost -/

theorem insert_search (R : Runs ok lt dv L h) (hc : c ∈ L) (o : Lists h c vs) (l : ok vs.length) (k : K) (v : V) (g : hit k vs (search lt k vs).1 = false) :
    ∃ p h', insert lt c (k, v) h = .ok ((p, true), h') ∧ Runs ok lt dv L h' ∧ Lists h' c (insVals (search lt k vs).1 (k, v) vs) := by
  obtain ⟨S, s, I, hs, w, rfl, cp⟩ := observed R hc o
  obtain ⟨h', e, W', keep⟩ := insert_any (lt := lt) I.world hs k v cp
  have v' := W'.sm c _ (set_same ..)
  have ex : exec lt dv (.insert c k v) h = .ok (.ins ⟨(s.put1 lt h.fresh k v).blk, (search lt k s.vals).1⟩ (!hit k s.vals (search lt k s.vals).1), h') := by
    simp only [exec, Prog.bind_app, e, Res.bind_ok]; rfl
  have R' := R.step (.insert c k v) ⟨hc, _, o.size, l⟩ ex
  have lv := isSM_lists v'
  rw [put1_vals, g] at lv
  exact ⟨_, h', by rw [e, g]; rfl, R', lv⟩

theorem find_search (R : Runs ok lt dv L h) (hc : c ∈ L) (o : Lists h c vs) (k : K) (g : (search lt k vs).2 = false) :
    ∃ p, end_ c h = .ok (p, h) ∧ find lt c k h = .ok (p, h) := by
  obtain ⟨S, s, I, hs, w, rfl, cp⟩ := observed R hc o
  exact ⟨_, end_ok w, by rw [find_any w, g, vals_length]; rfl⟩

/-- **C121.** The full claim is false: after the insertion of any three different keys `a`, `b`, `c'` that the comparator does not tell apart into an empty map, all
three are in the map, but `find(a)` is `end()`, and a second insertion of `a` puts a second entry with the same key into the map. -/
theorem weak_loses_keys (R : Runs ok lt dv L h) (hc : c ∈ L) (o : Lists h c []) (all : ∀ n, n ≤ 3 → ok n) {a b k : K} (ab : a ≠ b) (ak : a ≠ k) (bk : b ≠ k)
    (l1 : lt a b = false) (l2 : lt b a = false) (l3 : lt a k = false) (l4 : lt k a = false) (l5 : lt b k = false) (l6 : lt k b = false) (v1 v2 v3 v4 : V) :
    ∃ h' p h'' q, (do let _ ← insert lt c (a, v1); let _ ← insert lt c (b, v2); let _ ← insert lt c (k, v3); pure () : Prog (Mem K V) Unit) h = .ok ((), h') ∧
      Lists h' c [(k, v3), (b, v2), (a, v1)] ∧ end_ c h' = .ok (p, h') ∧ find lt c a h' = .ok (p, h') ∧
      insert lt c (a, v4) h' = .ok ((q, true), h'') ∧ Lists h'' c [(a, v4), (k, v3), (b, v2), (a, v1)] := by
  have s1 : search lt a ([] : List (K × V)) = (0, false) := by rw [search, srch_stop (by simp)]
  obtain ⟨p1, h1, e1, R1, o1⟩ := insert_search R hc o (all _ (by simp [insVals])) a v1 (by rw [s1]; rfl)
  rw [s1] at o1
  have s2 : search lt b ([(a, v1)] : List (K × V)) = (0, false) := by
    rw [search, show ([(a, v1)] : List (K × V)).length % 4294967296 = 1 from rfl, srch_step (e := (a, v1)) (by omega) rfl]
    simp only [if_neg ab, l1]
    rw [if_neg (by simp), srch_stop (by omega)]
  obtain ⟨p2, h2, e2, R2, o2⟩ := insert_search R1 hc o1 (all _ (by simp [insVals])) b v2 (by
    show hit b [(a, v1)] (search lt b [(a, v1)]).1 = false
    rw [s2]; simp [hit, ab])
  have o2 : Lists h2 c [(b, v2), (a, v1)] := by
    have : insVals (search lt b [(a, v1)]).1 (b, v2) [(a, v1)] = [(b, v2), (a, v1)] := by rw [s2]; rfl
    rw [← this]; exact o2
  have s3 : search lt k ([(b, v2), (a, v1)] : List (K × V)) = (0, false) := by
    rw [search, show ([(b, v2), (a, v1)] : List (K × V)).length % 4294967296 = 2 from rfl, srch_step (e := (a, v1)) (by omega) rfl]
    simp only [if_neg ak, l3]
    rw [if_neg (by simp), srch_step (e := (b, v2)) (by omega) rfl]
    simp only [if_neg bk, l5]
    rw [if_neg (by simp), srch_stop (by omega)]
  obtain ⟨p3, h3, e3, R3, o3⟩ := insert_search R2 hc o2 (all _ (by simp [insVals])) k v3 (by rw [s3]; simp [hit, bk])
  rw [s3] at o3
  have o3 : Lists h3 c [(k, v3), (b, v2), (a, v1)] := o3
  have s4 : search lt a ([(k, v3), (b, v2), (a, v1)] : List (K × V)) = (0, false) := by
    rw [search, show ([(k, v3), (b, v2), (a, v1)] : List (K × V)).length % 4294967296 = 3 from rfl, srch_step (e := (b, v2)) (by omega) rfl]
    simp only [if_neg (Ne.symm ab), l2]
    rw [if_neg (by simp), srch_step (e := (k, v3)) (by omega) rfl]
    simp only [if_neg (Ne.symm ak), l4]
    rw [if_neg (by simp), srch_stop (by omega)]
  obtain ⟨p, ep, fp⟩ := find_search R3 hc o3 a (by rw [s4])
  obtain ⟨p4, h4, e4, R4, o4⟩ := insert_search R3 hc o3 (all _ (by simp [insVals])) a v4 (by rw [s4]; simp [hit, Ne.symm ak])
  rw [s4] at o4
  refine ⟨h3, p, h4, p4, ?_, o3, ep, fp, e4, o4⟩
  simp only [Prog.bind_app, e1, Res.bind_ok, e2, e3, Prog.pure_app]

/-! ## C122: the search is logarithmic -/

theorem srch_local (lt : K → K → Bool) (k : K) (vs : List (K × V)) : ∀ (n L H : Nat), H - L ≤ n → H ≤ vs.length → ∃ I : List Nat, (∀ d, H - L < 2 ^ d → I.length ≤ d) ∧
    ∀ (lt' : K → K → Bool) (vs' : List (K × V)), (∀ i ∈ I, vs'[i]? = vs[i]? ∧ ∀ e, vs[i]? = some e → lt' e.1 k = lt e.1 k) → srch lt' k vs' L H = srch lt k vs L H := by
  intro n
  induction n with
  | zero => intro L H q _; exact ⟨[], fun _ _ => Nat.zero_le _, fun lt' vs' _ => by rw [srch_stop (by omega), srch_stop (by omega)]⟩
  | succ n ih =>
    intro L H q l
    by_cases hlt : L < H
    · have hv : vs[L + (H - L) / 2]? = some vs[L + (H - L) / 2] := List.getElem?_eq_getElem (by omega)
      have half : ∀ d L' H' (I : List Nat), (∀ d, H' - L' < 2 ^ d → I.length ≤ d) → H' - L' ≤ (H - L) / 2 → H - L < 2 ^ d → ((L + (H - L) / 2) :: I).length ≤ d := by
        intro d L' H' I a b g
        cases d with
        | zero => simp at g; omega
        | succ d => rw [List.length_cons]; have := a d (by rw [Nat.pow_succ] at g; omega); omega
      by_cases e : (vs[L + (H - L) / 2]).1 = k
      · refine ⟨[L + (H - L) / 2], fun d g => half d 0 0 [] (fun _ _ => Nat.zero_le _) (by omega) g, fun lt' vs' a => ?_⟩
        rw [srch_step hlt hv, srch_step hlt ((a _ (by simp)).1.trans hv), if_pos e, if_pos e]
      · cases g : lt (vs[L + (H - L) / 2]).1 k with
        | true =>
          obtain ⟨I, b, f⟩ := ih (L + (H - L) / 2 + 1) H (by omega) l
          refine ⟨(L + (H - L) / 2) :: I, fun d => half d _ _ I b (by omega), fun lt' vs' a => ?_⟩
          obtain ⟨a1, a2⟩ := a _ (List.mem_cons_self ..)
          rw [srch_step hlt hv, srch_step hlt (a1.trans hv), if_neg e, if_neg e, a2 _ hv, g]
          simp only [if_true]
          exact f lt' vs' fun i hi => a i (List.mem_cons_of_mem _ hi)
        | false =>
          obtain ⟨I, b, f⟩ := ih L (L + (H - L) / 2) (by omega) (by omega)
          refine ⟨(L + (H - L) / 2) :: I, fun d => half d _ _ I b (by omega), fun lt' vs' a => ?_⟩
          obtain ⟨a1, a2⟩ := a _ (List.mem_cons_self ..)
          rw [srch_step hlt hv, srch_step hlt (a1.trans hv), if_neg e, if_neg e, a2 _ hv, g]
          simp only [Bool.false_eq_true, if_false]
          exact f lt' vs' fun i hi => a i (List.mem_cons_of_mem _ hi)
    · exact ⟨[], fun _ _ => Nat.zero_le _, fun lt' vs' _ => by rw [srch_stop hlt, srch_stop hlt]⟩

/-- **C122.** A lookup of `k` in a map with fewer than `2^d` elements depends on at most `d` of them: there are at most `d` positions such that `find(k)` and
`lower_bound(k)` of any other map of the same size, in any memory and with any comparator, give the same position as soon as its entries at these positions are the same and its
comparator compares their keys with `k` in the same way. In particular the comparator is asked about at most `d` pairs of keys. -/
theorem find_examines_few (R : Runs ok lt dv L h) (hc : c ∈ L) (o : Lists h c vs) (k : K) :
    ∃ I : List Nat, (∀ d, vs.length < 2 ^ d → I.length ≤ d) ∧
      ∀ {ok' : Nat → Prop} {lt₀ : K → K → Bool} {dv' : V} {L' : List Nat} {h' : Mem K V} {c' : Nat} {vs' : List (K × V)} (lt' : K → K → Bool), Runs ok' lt₀ dv' L' h' → c' ∈ L' → Lists h' c' vs' →
        vs'.length = vs.length → (∀ i ∈ I, vs'[i]? = vs[i]? ∧ ∀ e, vs[i]? = some e → lt' e.1 k = lt e.1 k) →
        ∃ p p', ∃ i j : Nat, begin_ c h = .ok (p, h) ∧ begin_ c' h' = .ok (p', h') ∧ find lt c k h = .ok (p + i, h) ∧ find lt' c' k h' = .ok (p' + i, h') ∧
          lowerBound lt c k h = .ok (p + j, h) ∧ lowerBound lt' c' k h' = .ok (p' + j, h') := by
  obtain ⟨S, s, _, _, w, rfl, _⟩ := observed R hc o
  obtain ⟨I, b, f⟩ := srch_local lt k s.vals _ 0 (s.vals.length % 4294967296) (Nat.le_refl _) (Nat.mod_le _ _)
  refine ⟨I, fun d g => b d (by have := Nat.mod_le s.vals.length 4294967296; omega), ?_⟩
  intro ok' lt₀ dv' L' h' c' vs' lt' R' hc' o' le a
  obtain ⟨S', s', _, _, w', rfl, _⟩ := observed R' hc' o'
  have e : search lt' k s'.vals = search lt k s.vals := by rw [search, le]; exact f lt' _ a
  refine ⟨⟨s.blk, 0⟩, ⟨s'.blk, 0⟩, if (search lt k s.vals).2 then (search lt k s.vals).1 else s.vals.length, (search lt k s.vals).1, begin_ok w, begin_ok w', ?_, ?_, ?_, ?_⟩
  · rw [find_any w, ptr_add, Nat.zero_add]
  · rw [find_any w', ptr_add, Nat.zero_add, e, le]
  · rw [lowerBound, findInsertPos_any w, ptr_add, Nat.zero_add]
  · rw [lowerBound, findInsertPos_any w', ptr_add, Nat.zero_add, e]

/-! ## Concrete cases -/

/-- From a client program without maps, a map with the entries inserted in order. -/
theorem exists_new (ok : Nat → Prop) (lt : K → K → Bool) (dv : V) : ∃ h : Mem K V, Runs ok lt dv [1] h ∧ Lists h 1 [] := by
  obtain ⟨r, h', e, R⟩ := any_call_returns_partial (dv := dv) (Runs.start (ok := ok) (lt := lt)) .create trivial
  have : exec lt dv .create (⟨fun _ => none, fun _ => none, fun _ _ => none, 1⟩ : Mem K V) = .ok (.obj 1, _) := rfl
  rw [this] at e; cases e
  refine ⟨_, R, ?_⟩
  obtain ⟨vs, o⟩ := any_lists_partial R (List.mem_cons_self ..)
  have hs := o.size
  cases vs with
  | nil => exact o
  | cons x xs =>
    have : (0, _) = ((x :: xs).length, _) := Res.ok.inj hs
    simp at this

/-- The comparator "compare the halves", a strict weak ordering that does not tell 2 from 3. -/
def half (a b : Nat) : Bool := decide (a / 2 < b / 2)
theorem half_weak : StrictWeakOrder half :=
  ⟨by simp [half], by simp only [half, decide_eq_true_eq]; omega, by simp only [half, decide_eq_false_iff_not]; omega⟩

/-- C120 applies to an inconsistent comparator (everything is less than everything): a map after an insertion. -/
example : ∃ h : Mem Nat Nat, Runs (fun _ => True) (fun _ _ => true) 0 [1] h ∧ ∃ vs, Lists h 1 vs ∧ vs.length = 1 := by
  obtain ⟨h, R, o⟩ := exists_new (fun _ => True) (fun _ _ => true : Nat → Nat → Bool) (0 : Nat)
  obtain ⟨p, h', _, R', o'⟩ := insert_search R (by simp) o trivial 5 50 (by simp [hit])
  exact ⟨h', R', _, o', by simp [insVals]⟩

/-- C121 applies to a comparator that is not total, and to a map with two equivalent keys. -/
example : ∃ h : Mem Nat Nat, Runs (· < 4294967296) half 0 [1] h ∧ Lists h 1 [(3, 30), (2, 20)] := by
  obtain ⟨h, R, o⟩ := exists_new (· < 4294967296) half (0 : Nat)
  have s1 : search half 2 ([] : List (Nat × Nat)) = (0, false) := by rw [search, srch_stop (by simp)]
  obtain ⟨_, h1, _, R1, o1⟩ := insert_search R (by simp) o (by simp) 2 20 (by simp [hit])
  rw [s1] at o1
  have s2 : search half 3 ([(2, 20)] : List (Nat × Nat)) = (0, false) := by
    rw [search, show ([(2, 20)] : List (Nat × Nat)).length % 4294967296 = 1 from rfl, srch_step (e := (2, 20)) (by omega) rfl]
    rw [if_neg (by decide), if_neg (by decide), srch_stop (by omega)]
  have o1 : Lists h1 1 [(2, 20)] := o1
  obtain ⟨_, h2, _, R2, o2⟩ := insert_search R1 (by simp) o1 (by simp) 3 30 (by rw [s2]; simp [hit])
  rw [s2] at o2
  exact ⟨h2, R2, o2⟩

/-- The hypotheses of `weak_loses_keys` can be met. -/
example : ∃ (h : Mem Nat Nat) (lt : Nat → Nat → Bool), StrictWeakOrder lt ∧ Runs (fun _ => True) lt 0 [1] h ∧ Lists h 1 [] ∧ lt 4 5 = false ∧ lt 5 4 = false ∧ lt 4 6 = false ∧ lt 6 4 = false ∧
    lt 5 6 = false ∧ lt 6 5 = false ∧ lt 4 8 = true := by
  obtain ⟨h, R, o⟩ := exists_new (fun _ => True) (fun a b => decide (a / 4 < b / 4) : Nat → Nat → Bool) (0 : Nat)
  exact ⟨h, _, ⟨by simp, by simp only [decide_eq_true_eq]; omega, by simp only [decide_eq_false_iff_not]; omega⟩, R, o, by decide, by decide, by decide, by decide, by decide, by decide, by decide⟩

end Verif.SVMap.AnyProps
