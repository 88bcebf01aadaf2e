import Verif.Map.SProps
/-!
# `ttl::sorted_vector_map` with an arbitrary comparator

The executions of `Verif.Map.SApi` again, without any assumption on `Compare` and without a bound on the number of elements. `srch` is the binary search
on a sequence.
-/
set_option linter.unusedVariables false
set_option linter.unusedSimpArgs false
set_option linter.unusedSectionVars false
namespace Verif.SVMap
open Verif Verif.Vec
variable {G : Gone} {K V : Type} [DecidableEq K] {h h' : Mem K V} {S : State K V} {c d i : Nat} {s : SS K V} {lt : K → K → Bool} {dv : V}

/-- Binary search for `k` in the positions from `L` to `H`. -/
def srch (lt : K → K → Bool) (k : K) (vs : List (K × V)) (L H : Nat) : Nat × Bool :=
  if L < H then
    match vs[L + (H - L) / 2]? with
    | none => (L, false)
    | some e => if e.1 = k then (L + (H - L) / 2, true) else if lt e.1 k then srch lt k vs (L + (H - L) / 2 + 1) H else srch lt k vs L (L + (H - L) / 2)
  else (L, false)
termination_by H - L
decreasing_by all_goals omega

/-- The search in the whole sequence, the length cut to 32 bits. -/
def search (lt : K → K → Bool) (k : K) (vs : List (K × V)) : Nat × Bool := srch lt k vs 0 (vs.length % 4294967296)

theorem srch_stop {k : K} {vs : List (K × V)} {L H : Nat} (q : ¬ L < H) : srch lt k vs L H = (L, false) := by rw [srch, if_neg q]
theorem srch_step {k : K} {vs : List (K × V)} {L H : Nat} {e : K × V} (q : L < H) (he : vs[L + (H - L) / 2]? = some e) :
    srch lt k vs L H = if e.1 = k then (L + (H - L) / 2, true) else if lt e.1 k then srch lt k vs (L + (H - L) / 2 + 1) H else srch lt k vs L (L + (H - L) / 2) := by
  rw [srch, if_pos q, he]

/-- The search stays in the range, and what it finds has the key. -/
theorem srch_in (k : K) (vs : List (K × V)) : ∀ (n L H : Nat), H - L ≤ n → L ≤ H → H ≤ vs.length →
    L ≤ (srch lt k vs L H).1 ∧ (srch lt k vs L H).1 ≤ H ∧ ((srch lt k vs L H).2 = true → ∃ v, vs[(srch lt k vs L H).1]? = some (k, v)) := by
  intro n
  induction n with
  | zero =>
    intro L H q l l'
    rw [srch_stop (by omega)]; exact ⟨Nat.le_refl _, l, fun q => by cases q⟩
  | succ n ih =>
    intro L H q l l'
    by_cases hlt : L < H
    · have he : vs[L + (H - L) / 2]? = some vs[L + (H - L) / 2] := List.getElem?_eq_getElem (by omega)
      rw [srch_step hlt he]
      split
      · rename_i e
        refine ⟨by show L ≤ L + (H - L) / 2; omega, by show L + (H - L) / 2 ≤ H; omega, fun _ => ⟨(vs[L + (H - L) / 2]).2, ?_⟩⟩
        show vs[L + (H - L) / 2]? = _
        rw [he, ← e]
      · split
        · obtain ⟨a, b, g⟩ := ih (L + (H - L) / 2 + 1) H (by omega) (by omega) l'
          exact ⟨by omega, b, g⟩
        · obtain ⟨a, b, g⟩ := ih L (L + (H - L) / 2) (by omega) (by omega) (by omega)
          exact ⟨a, by omega, g⟩
    · rw [srch_stop hlt]; exact ⟨Nat.le_refl _, l, fun q => by cases q⟩

theorem search_in (k : K) (vs : List (K × V)) : (search lt k vs).1 ≤ vs.length ∧ ((search lt k vs).2 = true → ∃ v, vs[(search lt k vs).1]? = some (k, v)) := by
  have le : vs.length % 4294967296 ≤ vs.length := Nat.mod_le _ _
  obtain ⟨_, b, g⟩ := srch_in (lt := lt) k vs _ 0 (vs.length % 4294967296) (Nat.le_refl _) (Nat.zero_le _) le
  exact ⟨Nat.le_trans b le, g⟩

theorem bsearchLoop_any (v : IsSM h c s) (k : K) : ∀ (n L H : Nat), H - L ≤ n → H ≤ s.vals.length →
    bsearchLoop lt ⟨s.blk, 0⟩ k L H h = .ok (srch lt k s.vals L H, h) := by
  intro n
  induction n with
  | zero =>
    intro L H q l'
    have hlt : ¬ L < H := by omega
    rw [srch_stop hlt, bsearchLoop]
    simp only [Prog.ite_app, if_neg hlt, Prog.pure_app]
  | succ n ih =>
    intro L H q l'
    by_cases hlt : L < H
    · obtain ⟨x, hx⟩ : ∃ x, s.nodes[L + (H - L) / 2]? = some x := by
        rw [vals_length] at l'; exact ⟨_, List.getElem?_eq_getElem (by omega)⟩
      have hv : s.vals[L + (H - L) / 2]? = some x.2 := by rw [SS.vals, List.getElem?_map, hx]; rfl
      obtain ⟨r1, r2⟩ := v.rd hx
      rw [srch_step hlt hv, bsearchLoop]
      simp only [Prog.ite_app, if_pos hlt, Prog.bind_app, ptr_add, Nat.zero_add, r1, r2, Res.bind_ok]
      by_cases e : x.2.1 = k
      · simp only [if_pos e, Prog.pure_app]
      · simp only [if_neg e, Prog.bind_app, r1, r2, Res.bind_ok]
        cases g : lt x.2.1 k with
        | true => simp only [Prog.ite_app, if_true]; exact ih _ _ (by omega) l'
        | false => simp only [Prog.ite_app, Bool.false_eq_true, if_false]; exact ih _ _ (by omega) (by omega)
    · rw [srch_stop hlt, bsearchLoop]
      simp only [Prog.ite_app, if_neg hlt, Prog.pure_app]

theorem bsearch_any (v : IsSM h c s) (k : K) : bsearch lt c k h = .ok (search lt k s.vals, h) := by
  simp only [bsearch, Prog.bind_app, size_ok v, getObj_eq v.obj, Res.bind_ok]
  rw [← vals_length]
  exact bsearchLoop_any v k _ 0 _ (Nat.le_refl _) (Nat.mod_le _ _)

theorem find_any (v : IsSM h c s) (k : K) :
    find lt c k h = .ok (⟨s.blk, if (search lt k s.vals).2 then (search lt k s.vals).1 else s.vals.length⟩, h) := by
  simp only [find, Prog.bind_app, bsearch_any v, Res.bind_ok, Prog.ite_app, getObj_eq v.obj, Prog.pure_app, end_ok v, vals_length]
  split <;> simp
theorem findInsertPos_any (v : IsSM h c s) (k : K) : findInsertPos lt c k h = .ok (⟨s.blk, (search lt k s.vals).1⟩, h) := by
  simp only [findInsertPos, Prog.bind_app, bsearch_any v, Res.bind_ok, getObj_eq v.obj, Prog.pure_app, ptr_add, Nat.zero_add]

/-- The key at position `i` is `k`. -/
def hit (k : K) (vs : List (K × V)) (i : Nat) : Bool := match vs[i]? with | some e => decide (e.1 = k) | none => false
theorem hit_iff {k : K} {vs : List (K × V)} {i : Nat} : hit k vs i = true ↔ ∃ v, vs[i]? = some (k, v) := by
  simp only [hit]
  cases g : vs[i]? with
  | none => simp
  | some e =>
    obtain ⟨a, b⟩ := e
    simp only [decide_eq_true_eq, Option.some.injEq, Prod.mk.injEq]
    exact ⟨fun q => ⟨b, q, rfl⟩, fun ⟨_, q, _⟩ => q⟩

/-- The state after the insertion of `(k, v)` where the search ends, unless the key there is `k`. -/
def SS.put1 (lt : K → K → Bool) (f : Nat) (k : K) (v : V) (s : SS K V) : SS K V :=
  if hit k s.vals (search lt k s.vals).1 then s else insState f (search lt k s.vals).1 (k, v) s

theorem insert_any (W : WorldG G h S) (hc : S c = some s) (k : K) (v : V) (cp : s.cap ≠ 1) :
    ∃ h', insert lt c (k, v) h = .ok ((⟨(s.put1 lt h.fresh k v).blk, (search lt k s.vals).1⟩, !hit k s.vals (search lt k s.vals).1), h') ∧
      WorldG G h' (S.set c (some (s.put1 lt h.fresh k v))) ∧ (hit k s.vals (search lt k s.vals).1 = true → h' = h) := by
  have w := W.sm c s hc
  cases g : hit k s.vals (search lt k s.vals).1 with
  | true =>
    obtain ⟨x, hx⟩ := hit_iff.1 g
    have hl := (List.getElem?_eq_some_iff.1 hx).1
    rw [vals_length] at hl
    refine ⟨h, ?_, ?_, fun _ => rfl⟩
    · have ne : (⟨s.blk, (search lt k s.vals).1⟩ : Ptr) ≠ ⟨s.blk, s.nodes.length⟩ := by simp; omega
      simp only [insert, Prog.bind_app, findInsertPos_any w, Res.bind_ok, end_ok w, Prog.ite_app, if_pos ne, w.deref hx, if_true, Prog.pure_app, SS.put1, g, Bool.not_true]
    · simp only [SS.put1, g, if_true]; rw [← hc, set_self']; exact W
  | false =>
    have hle := (search_in (lt := lt) k s.vals).1
    rw [vals_length] at hle
    obtain ⟨h', e, W'⟩ := insertBefore_ok W hc hle (k, v) (fun q => cp q.2)
    refine ⟨h', ?_, by simp only [SS.put1, g, Bool.false_eq_true, if_false]; exact W', fun q => by cases q⟩
    simp only [insert, Prog.bind_app, findInsertPos_any w, Res.bind_ok, end_ok w, Prog.ite_app, SS.put1, g, Bool.false_eq_true, if_false, Bool.not_false]
    by_cases q : (search lt k s.vals).1 = s.nodes.length
    · rw [if_neg (by simp [q])]
      simp only [Prog.bind_app, e, Res.bind_ok, Prog.pure_app]
    · rw [if_pos (by simp [q])]
      have hx : s.vals[(search lt k s.vals).1]? = some (s.vals[(search lt k s.vals).1]'(by rw [vals_length]; omega)) := List.getElem?_eq_getElem _
      simp only [Prog.bind_app, w.deref hx, Res.bind_ok, Prog.ite_app]
      rw [if_neg ?_]
      · simp only [Prog.bind_app, e, Res.bind_ok, Prog.pure_app]
      · intro z
        simp only [hit, hx, z, decide_true] at g; cases g

theorem put1_vals (f : Nat) (k : K) (v : V) (s : SS K V) :
    (s.put1 lt f k v).vals = if hit k s.vals (search lt k s.vals).1 then s.vals else insVals (search lt k s.vals).1 (k, v) s.vals := by
  simp only [SS.put1]; split
  · rfl
  · exact insState_vals ..

theorem insVals_get {e : K × V} {vs : List (K × V)} (hi : i ≤ vs.length) : (insVals i e vs)[i]? = some e := by
  rw [insVals, List.getElem?_append_right (by rw [List.length_take]; omega), List.length_take, Nat.min_eq_left hi, Nat.sub_self]; rfl

/-- After the insertion an entry with key `k` is at the position. -/
theorem put1_get (f : Nat) (k : K) (v : V) (s : SS K V) : ∃ u, (s.put1 lt f k v).vals[(search lt k s.vals).1]? = some (k, u) ∧
    (hit k s.vals (search lt k s.vals).1 = false → u = v) := by
  rw [put1_vals]
  cases g : hit k s.vals (search lt k s.vals).1 with
  | true =>
    obtain ⟨u, hu⟩ := hit_iff.1 g
    exact ⟨u, by simpa using hu, fun q => by cases q⟩
  | false =>
    refine ⟨v, ?_, fun _ => rfl⟩
    simp only [Bool.false_eq_true, if_false]
    exact insVals_get (search_in k s.vals).1

theorem put1_node (f : Nat) (k : K) (v : V) (s : SS K V) : ∃ x, (s.put1 lt f k v).nodes[(search lt k s.vals).1]? = some x ∧ x.2.1 = k := by
  obtain ⟨u, hu, _⟩ := put1_get (lt := lt) f k v s
  rw [SS.vals, List.getElem?_map, Option.map_eq_some_iff] at hu
  obtain ⟨x, hx, e⟩ := hu
  exact ⟨x, hx, by rw [e]⟩

theorem put1_cap (f : Nat) (k : K) (v : V) (q : s.cap ≠ 1) : (s.put1 lt f k v).cap ≠ 1 := by
  simp only [SS.put1]; split
  · exact q
  · exact insState_cap _ _ _ q

theorem index_any (W : WorldG G h S) (hc : S c = some s) (k : K) (cp : s.cap ≠ 1) :
    ∃ h' x, index lt dv c k h = .ok (⟨x.1, 0⟩, h') ∧ WorldG G h' (S.set c (some (s.put1 lt h.fresh k dv))) ∧
      (s.put1 lt h.fresh k dv).nodes[(search lt k s.vals).1]? = some x ∧ x.2.1 = k ∧ (hit k s.vals (search lt k s.vals).1 = true → h' = h) := by
  obtain ⟨h', e, W', keep⟩ := insert_any (lt := lt) W hc k dv cp
  obtain ⟨x, hx, kx⟩ := put1_node (lt := lt) h.fresh k dv s
  refine ⟨h', x, ?_, W', hx, kx, keep⟩
  obtain ⟨r, _⟩ := (W'.sm c _ (set_same ..)).rd hx
  have w := W.sm c s hc
  have key : index lt dv c k h = (do rdPtr (← insert lt c (k, dv)).1 : Prog (Mem K V) Ptr) h := by
    simp only [index, insert, bind_assoc]
    simp only [Prog.bind_app, findInsertPos_any w, Res.bind_ok, end_ok w, Prog.ite_app]
    split
    · rename_i ne
      cases g : deref ⟨s.blk, (search lt k s.vals).1⟩ h with
      | diverge => rfl
      | ub f => rfl
      | ok y =>
        simp only [Res.bind_ok, Prog.ite_app]
        split
        · rfl
        · cases insertBefore c ⟨s.blk, (search lt k s.vals).1⟩ (k, dv) y.2 <;> rfl
    · cases insertBefore c ⟨s.blk, (search lt k s.vals).1⟩ (k, dv) h <;> rfl
  rw [key]
  simp only [Prog.bind_app, e, Res.bind_ok, r]

theorem at_any (w : IsSM h c s) {k : K} {x : Nat × K × V} (g : (search lt k s.vals).2 = true)
    (hx : s.nodes[(search lt k s.vals).1]? = some x) : at_ lt c k h = .ok (⟨x.1, 0⟩, h) := by
  simp only [at_, Prog.bind_app, find_any w, Res.bind_ok, g, if_true, (w.rd hx).1]

theorem upperLoop_any (v : IsSM h c s) (k : K) : ∀ (n i : Nat), s.vals.length - i ≤ n → i ≤ s.vals.length →
    ∃ j, i ≤ j ∧ j ≤ s.vals.length ∧ upperLoop c k ⟨s.blk, i⟩ h = .ok (⟨s.blk, j⟩, h) ∧ (∀ m e, i ≤ m → m < j → s.vals[m]? = some e → e.1 = k) ∧ (∀ e, s.vals[j]? = some e → e.1 ≠ k) := by
  intro n
  induction n with
  | zero =>
    intro i q l
    refine ⟨i, Nat.le_refl _, l, ?_, fun m e a b => by omega, fun e he => ?_⟩
    · rw [upperLoop]
      have : i = s.nodes.length := by rw [vals_length] at *; omega
      subst this
      simp [end_ok v]
    · have := (List.getElem?_eq_some_iff.1 he).1; omega
  | succ n ih =>
    intro i q l
    by_cases hi : i < s.vals.length
    · have he : s.vals[i]? = some s.vals[i] := List.getElem?_eq_getElem hi
      have ne : (⟨s.blk, i⟩ : Ptr) ≠ ⟨s.blk, s.nodes.length⟩ := by rw [vals_length] at hi; simp; omega
      rw [upperLoop]
      simp only [Prog.bind_app, end_ok v, Res.bind_ok, Prog.ite_app, if_pos ne, v.deref he]
      by_cases e : (s.vals[i]).1 = k
      · obtain ⟨j, a, b, r, m, t⟩ := ih (i + 1) (by omega) hi
        refine ⟨j, by omega, b, by simp only [if_pos e, next, ptr_add]; exact r, ?_, t⟩
        intro x y x1 x2 hy
        by_cases xe : x = i
        · subst xe; rw [he] at hy; cases hy; exact e
        · exact m x y (by omega) x2 hy
      · refine ⟨i, Nat.le_refl _, l, by simp only [if_neg e, Prog.pure_app], fun m e a b => by omega, fun y hy => ?_⟩
        rw [he] at hy; cases hy; exact e
    · refine ⟨i, Nat.le_refl _, l, ?_, fun m e a b => by omega, fun e he => ?_⟩
      · rw [upperLoop]
        have : i = s.nodes.length := by rw [vals_length] at *; omega
        subst this
        simp [end_ok v]
      · have := (List.getElem?_eq_some_iff.1 he).1; omega

end Verif.SVMap
