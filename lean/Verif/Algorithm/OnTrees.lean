import Verif.Algorithm.OnLists
import Verif.Algorithm.OnArrays
import Verif.Rb.Range
import Verif.Map.SProps
import Verif.Map.VProps
/-!
# `ttl::map`, `ttl::set`, `ttl::sorted_vector_map`, `ttl::vector_map` and arrays under the algorithms

The elements of a map cannot be assigned (the key is const), so its iterators are sources only: `At`. A source in one memory can feed any
sequence (`Presents`) in another.
-/
set_option linter.unusedVariables false
set_option linter.unusedSimpArgs false
set_option linter.unusedSectionVars false
namespace Verif.Gen
open Verif
variable {σ σ' ι ι' κ T U K V δ : Type}

/-! ## Sources -/

/-- Part of a source. -/
theorem At.slice {I : Iter σ ι T} {s : σ} {pos : Nat → ι} {A M B : List T} (W : At I s pos (A ++ M ++ B))
    (inj : ∀ i j, i < j → j ≤ (A ++ M ++ B).length → pos i ≠ pos j) : At I s (fun i => pos (A.length + i)) M := by
  refine ⟨fun i hi => inj _ _ (by omega) (by simp), fun i x hx => W.deref _ _ ?_, fun i hi => W.next _ (by simp; omega)⟩
  have hi : i < M.length := (List.getElem?_eq_some_iff.1 hx).1
  rw [List.append_assoc, List.getElem?_append_right (by omega), Nat.add_sub_cancel_left, List.getElem?_append_left hi, hx]

/-- Iterators into the first part of the memory. -/
def onFst (I : Iter σ ι T) : Iter (σ × σ') ι T where
  deref i := inFst (I.deref i)
  next i := inFst (I.next i)

theorem At.fst {I : Iter σ ι T} {s : σ} {pos : Nat → ι} {xs : List T} (W : At I s pos xs) (k : σ') : At (onFst I) (s, k) pos xs :=
  ⟨W.ne, fun i x e => by simp [onFst, inFst, W.deref i x e], fun i hi => by simp [onFst, inFst, W.next i hi]⟩

theorem Presents.at_ {I : WIter σ ι T} {pos : Nat → ι} {xs : List T} {h : σ} {Ok : List T → σ → Prop} (P : Presents I pos xs h Ok) :
    At I.toIter h pos xs := by
  obtain ⟨mem, W, rfl, ok⟩ := P
  exact W.at rfl

section Feed
variable {I : Iter σ ι T} {s : σ} {pos : Nat → ι} {xs : List T} {dst : Nat → κ} {k : σ'}

theorem At.flow (W : At I s pos xs) {J : WIter σ' κ U} {ys : List U} {mem : List U → σ'} (X : Window J dst ys.length mem) :
    Flow (onFst I) J.snd pos xs dst ys.length (fun out => (s, mem (out ++ ys.drop out.length))) := by
  have len : ∀ out : List U, out.length ≤ ys.length → (out ++ ys.drop out.length).length = ys.length := by intro out h; simp; omega
  refine ⟨W.ne, fun out i x _ h hx => (W.fst _).deref i x hx, fun out i _ h hi => (W.fst _).next i hi, ?_, ?_⟩
  · intro out v h _
    rw [(X.snd s).assign _ (len out (by omega)) _ h v]
    rw [List.set_append_right _ _ (Nat.le_refl _), Nat.sub_self, List.drop_eq_getElem_cons h, List.set_cons_zero]
    simp
  · intro out v h _
    exact (X.snd s).next _ (len _ (by simp; omega)) _ h

variable [DecidableEq ι] {Ok : List U → σ' → Prop}

/-- `transform` from a source to any sequence: one call for each element in order. -/
theorem At.transform {J : WIter σ' κ U} {ys : List U} (W : At I s pos xs) (P : Presents J dst ys k Ok) (hn : xs.length ≤ ys.length) (op : Fn δ T U) (d : δ) :
    ∃ k', Gen.transform (onFst I) J.snd op (pos 0) (pos xs.length) (dst 0) d (s, k) = .ok ((dst xs.length, (mapS op d xs).2), (s, k')) ∧
      Ok ((mapS op d xs).1 ++ ys.drop xs.length) k' := by
  obtain ⟨mem, X, rfl, ok⟩ := P
  have := transform_flow (W.flow X) hn op xs [] [] d rfl rfl
  exact ⟨_, by simpa [mapS_length] using this, ok _ (by simp [mapS_length]; omega)⟩

variable {J : WIter σ' κ T} {ys : List T} {Ok : List T → σ' → Prop}

/-- `copy` from a source to any sequence. -/
theorem At.copy (W : At I s pos xs) (P : Presents J dst ys k Ok) (hn : xs.length ≤ ys.length) :
    ∃ k', Gen.copy (onFst I) J.snd (pos 0) (pos xs.length) (dst 0) (s, k) = .ok (dst xs.length, (s, k')) ∧ Ok (xs ++ ys.drop xs.length) k' := by
  obtain ⟨mem, X, rfl, ok⟩ := P
  have := copy_flow (W.flow X) hn xs [] rfl
  exact ⟨_, by simpa using this, ok _ (by simp; omega)⟩

/-- `copy_if` from a source to any sequence: one call for each element in order. -/
theorem At.copy_if (W : At I s pos xs) (P : Presents J dst ys k Ok) (p : Fn δ T Bool) (d : δ) (hn : (filterS p d xs).1.length ≤ ys.length) :
    ∃ k', copyIf (onFst I) J.snd p (pos 0) (pos xs.length) (dst 0) d (s, k) = .ok ((dst (filterS p d xs).1.length, (filterS p d xs).2), (s, k')) ∧
      Ok ((filterS p d xs).1 ++ ys.drop (filterS p d xs).1.length) k' := by
  obtain ⟨mem, X, rfl, ok⟩ := P
  have := copyIf_flow (W.flow X) p xs [] [] d rfl (by simp) (by simpa using hn)
  exact ⟨_, by simpa using this, ok _ (by simp; omega)⟩

/-- `remove_copy_if` from a source to any sequence. -/
theorem At.remove_copy_if (W : At I s pos xs) (P : Presents J dst ys k Ok) (p : Fn δ T Bool) (d : δ) (hn : (filterS (notS p) d xs).1.length ≤ ys.length) :
    ∃ k', removeCopyIf (onFst I) J.snd p (pos 0) (pos xs.length) (dst 0) d (s, k) =
        .ok ((dst (filterS (notS p) d xs).1.length, (filterS (notS p) d xs).2), (s, k')) ∧
      Ok ((filterS (notS p) d xs).1 ++ ys.drop (filterS (notS p) d xs).1.length) k' := by
  obtain ⟨mem, X, rfl, ok⟩ := P
  have := removeCopyIf_flow (W.flow X) p xs [] [] d rfl (by simp) (by simpa using hn)
  exact ⟨_, by simpa using this, ok _ (by simp; omega)⟩

theorem mergeS_length (lt : Fn δ (T × T) Bool) : ∀ (n : Nat) (d : δ) (xs ys : List T), n = xs.length + ys.length →
    (mergeS lt d xs ys).1.length = xs.length + ys.length := by
  intro n
  induction n with
  | zero => intro d xs ys h; have := List.eq_nil_of_length_eq_zero (l := xs) (by omega); subst this; simp [mergeS]
  | succ n ih =>
    intro d xs ys h
    cases xs with
    | nil => simp [mergeS]
    | cons x xs =>
      cases ys with
      | nil => simp [mergeS]
      | cons y ys =>
        simp only [List.length_cons] at h
        rw [mergeS]
        split
        · simp [ih _ (x :: xs) ys (by simp; omega)]; omega
        · simp [ih _ xs (y :: ys) (by simp; omega)]; omega

/-- `merge` of two sources in one memory (two maps, or a map with itself) to any sequence in another. -/
theorem At.merge [DecidableEq ι'] {I' : Iter σ ι' T} {pos' : Nat → ι'} {zs : List T} (W : At I s pos xs) (W' : At I' s pos' zs)
    (P : Presents J dst ys k Ok) (hn : xs.length + zs.length ≤ ys.length) (lt : Fn δ (T × T) Bool) (d : δ) :
    ∃ k', Gen.merge (onFst I) (onFst I') J.snd lt (pos 0) (pos xs.length) (pos' 0) (pos' zs.length) (dst 0) d (s, k) =
        .ok ((dst (xs.length + zs.length), (mergeS lt d xs zs).2), (s, k')) ∧
      Ok ((mergeS lt d xs zs).1 ++ ys.drop (mergeS lt d xs zs).1.length) k' := by
  obtain ⟨mem, X, rfl, ok⟩ := P
  have := merge_any (m := ys.length) (mem := fun zs => (s, mem zs)) rfl (X.snd s) (fun _ _ => W.fst _) (fun _ _ => W'.fst _) hn lt d
  refine ⟨_, this, ok _ ?_⟩
  rw [List.length_append, List.length_drop, mergeS_length lt _ d xs zs rfl]
  omega
end Feed

/-! ## ttl::map, ttl::set -/
section Rb
open Verif.Rb
variable {lt : K → K → Bool} {keyOf : V → K}

/-- The iterators of map and set: `*i`, `++i` (rbtree.hpp:66-93). -/
def treeIter : Iter (Rb.Heap V) Rb.Addr V where
  deref := Rb.dataOf
  next := Rb.nextNode

theorem tree_pos_inj {h : Rb.Heap V} {c : Rb.Addr} {es : List (Rb.Addr × V)} (o : Rb.Owns h c es) :
    ∀ i j, i < j → j ≤ es.length → nodeAt c es i ≠ nodeAt c es j := by
  intro i j hij hj e
  have nd := o.cells_nodup
  simp only [Rb.cells, List.nodup_cons] at nd
  have hi : i < es.length := by omega
  rw [nodeAt_lt hi] at e
  rcases Nat.lt_or_ge j es.length with q | q
  · rw [nodeAt_lt q] at e
    have := (List.getElem?_inj (i := i) (j := j) (l := es.map Prod.fst) (by simpa using hi) nd.2).1 (by simp [hi, q, e])
    omega
  · have : j = es.length := by omega
    rw [this, nodeAt_end] at e
    exact nd.1 (by rw [← e]; exact List.mem_map_of_mem (List.getElem_mem hi))

theorem tree_at {h : Rb.Heap V} {c : Rb.Addr} {es : List (Rb.Addr × V)} (o : Rb.Owns h c es) :
    At treeIter h (nodeAt c es) (es.map Prod.snd) := by
  refine ⟨?_, ?_, ?_⟩
  · intro i hi; exact tree_pos_inj o _ _ hi (by simp)
  · intro i x hx
    simp only [List.getElem?_map, Option.map_eq_some_iff] at hx
    obtain ⟨e, he, rfl⟩ := hx
    obtain ⟨hi, rfl⟩ := List.getElem?_eq_some_iff.1 he
    rw [nodeAt_lt hi]
    exact Rb.dataOf_eq (by obtain ⟨t, r, b, i, dd⟩ := o; exact dd _ (List.getElem_mem hi))
  · intro i hi
    simp only [List.length_map] at hi
    rw [nodeAt_lt hi]
    have o' : Rb.Owns h c (es.take i ++ es[i] :: es.drop (i + 1)) := by
      rwa [← List.drop_eq_getElem_cons hi, List.take_append_drop]
    show Rb.nextNode _ h = _
    rw [o'.nextNode]
    unfold nodeAt
    rw [← List.map_drop]
    cases es.drop (i + 1) <;> rfl

/-- `begin()` and `end()` of a map or set, in every memory a client program can have, are bidirectional iterators presenting its elements
in ascending order. -/
theorem tree_presents [DecidableEq K] (ho : StrictTotalOrder lt) {objs : List Rb.Addr} {h : Rb.Heap V} (r : Rb.Reach lt keyOf objs h) {c : Rb.Addr}
    (hc : c ∈ objs) {es : List (Rb.Addr × V)} (he : Rb.entries c h = .ok (es, h)) :
    Rb.begin_ c h = .ok (nodeAt c es 0, h) ∧ nodeAt c es es.length = c ∧ At treeIter h (nodeAt c es) (es.map Prod.snd) ∧
      (∀ i j, i < j → j ≤ es.length → nodeAt c es i ≠ nodeAt c es j) ∧
      (∀ i, i < es.length → Rb.iterPrev (nodeAt c es (i + 1)) h = .ok (nodeAt c es i, h)) ∧
      (es.map Prod.snd).Pairwise (fun a b => lt (keyOf a) (keyOf b) = true) := by
  obtain ⟨o, a, w⟩ := Rb.Container.owns_of_entries ho r hc he
  refine ⟨by rw [o.begin_]; unfold nodeAt; cases es <;> rfl, nodeAt_end es, tree_at o, tree_pos_inj o, ?_, List.pairwise_map.2 a⟩
  intro i hi
  rcases Nat.lt_or_ge (i + 1) es.length with q | q
  · have o' : Rb.Owns h c (es.take (i + 1) ++ es[i + 1] :: es.drop (i + 2)) := by
      rwa [← List.drop_eq_getElem_cons q, List.take_append_drop]
    rw [nodeAt_lt q, nodeAt_lt hi, o'.iterPrev]
    rw [List.take_succ_eq_append_getElem hi, List.map_append]; simp only [List.map_cons, List.map_nil, List.getLastD_concat]
  · have : i + 1 = es.length := by omega
    rw [this, nodeAt_end, nodeAt_lt hi, o.iterPrev_end]
    have : es.map Prod.fst = (es.take i).map Prod.fst ++ [es[i].1] := by
      have : es.take (i + 1) = es := List.take_of_length_le (by omega)
      rw [List.take_succ_eq_append_getElem hi] at this
      rw [← congrArg (List.map Prod.fst) this, List.map_append]; simp
    rw [this]; simp only [List.getLastD_concat]
end Rb

/-! ## ttl::sorted_vector_map, ttl::vector_map -/
section Maps
open Verif.Vec

/-- The iterators of sorted_vector_map: `*i`, `++i` (sorted_vector_map.hpp:41-88). -/
def sortedIter : Iter (SVMap.Mem K V) Ptr (K × V) where
  deref := SVMap.deref
  next i := pure (SVMap.next i)

/-- `begin()` and `end()` of a sorted_vector_map present its elements in ascending order. -/
theorem sorted_presents [DecidableEq K] {lt : K → K → Bool} {h : SVMap.Mem K V} {c : Nat} {vs : List (K × V)} (o : SVMap.SMProps.Observes lt h c vs) :
    ∃ p, SVMap.begin_ c h = .ok (p, h) ∧ SVMap.end_ c h = .ok (p + vs.length, h) ∧ At sortedIter h (fun i => p + i) vs ∧
      vs.Pairwise fun a b => lt a.1 b.1 = true := by
  obtain ⟨p, b, e, d, _⟩ := o.bounds
  refine ⟨p, b, e, ⟨?_, d, ?_⟩, o.sorted⟩
  · intro i hi q; have := congrArg Ptr.off q; change p.off + i = p.off + vs.length at this; omega
  · intro i hi; rfl

/-- `begin()` and `end()` of a vector_map present its elements in insertion order. -/
theorem vmap_presents [DecidableEq K] {dk : K} {dv : V} {S : Vec.State (K × V)} {h : Vec.Mem (K × V)} {c cap : Nat} {p : Ptr} {vs : List (K × V)}
    (R : VMap.VMProps.VReach dk dv S h) (hc : S.Exists c) (o : VecProps.Shows h c vs cap p) :
    begin_ c h = .ok (p, h) ∧ end_ c h = .ok (p + vs.length, h) ∧ BiPresents slotIter (fun i => p + i) vs h (VecOk (dk, dv) S h c cap p) :=
  vec_presents R.vec hc o
end Maps

/-! ## Arrays -/

/-- An array (and `ttl::array`, whose iterators are pointers to its elements, array.hpp:20-30) presents its elements. -/
theorem array_presents {m : Mem T} {a : Nat} {xs : List T} (hm : m.Holds a xs) :
    BiPresents ptrW (fun i => a + i) xs m (fun ys m' => m' = m.overwrite a ys) := by
  refine ⟨fun ys => m.overwrite a ys, ⟨⟨?_, ?_, ?_, ?_⟩, ?_⟩, ?_, fun ys _ => rfl⟩
  · intro i j _ _ e; simpa using e
  · intro ys hy i x hx
    obtain ⟨hi, rfl⟩ := List.getElem?_eq_some_iff.1 hx
    exact Mem.load_eq (Mem.overwrite_at i hi)
  · intro ys hy i hi v
    show Mem.store _ _ _ = _
    rw [Mem.store_eq v (Mem.overwrite_at i (by omega))]
    congr 1
    congr 1
    funext b
    simp only [Mem.set, Mem.overwrite, List.length_set, List.getElem_set]
    grind
  · intro ys hy i hi; rfl
  · intro ys hy i hi
    show (ptrW (T := T)).prev _ _ = _
    simp [ptrW, Prog.need, ← Nat.add_assoc]
  · funext b
    simp only [Mem.overwrite]
    split
    · rename_i q
      have := hm (b - a) q.2
      rw [← this]; congr 1; omega
    · rfl
end Verif.Gen
