import Verif.Algorithm.OnTrees
import Verif.Algorithm.OnLists2
import Verif.Seq.ListProps5
import Verif.Seq.FwdProps3
import Verif.Seq.BwdProps3
import Verif.Seq.LazyProps2
import Verif.Vec.Props2
import Verif.Map.SProps2
import Verif.Map.VProps2
/-!
# The algorithms on the containers (C117, C119) and the calls of functors (C118)

`Works I first last xs h Ok`: what a user expects of the algorithms that modify `[first, last)`, a range with the values `xs` in the memory `h`.
`Ok ys h'` says what the memory `h'` afterwards is like, `ys` being the new values of the range.
-/
set_option linter.unusedVariables false
set_option linter.unusedSimpArgs false
set_option linter.unusedSectionVars false
namespace Verif.Gen
open Verif
variable {σ σ' ι κ ω T U V K δ : Type}

/-! ## C118: the calls of functors with pure answers -/
section Calls
variable [DecidableEq ι] {I : Iter σ ι T} {s : σ} {first last : ι} {xs : List T}

/-- `find_if` asks about the elements up to and including the first hit, once each, in order. -/
theorem find_if_calls (h : Iter.Range I s first xs last) (q : T → Bool) :
    ∃ it, findIf I (logged q) first last [] s = .ok ((it, xs.take (xs.findIdx q + 1)), s) ∧ Iter.Reach I s first (xs.findIdx q) it := by
  obtain ⟨it, e, r, _⟩ := find_if_any h (logged q) []
  rw [scanS_logged] at e r
  exact ⟨it, by simpa using e, r⟩

theorem scanS_not_logged (q : T → Bool) (xs log : List T) :
    scanS (notS (logged q)) log xs = (xs.findIdx (fun x => !q x), log ++ xs.take (xs.findIdx (fun x => !q x) + 1)) := by
  have : notS (logged q) = logged (fun x => !q x) := by funext x d; rfl
  rw [this, scanS_logged]

theorem filterS_not_logged (q : T → Bool) (xs log : List T) : filterS (notS (logged q)) log xs = (xs.filter (fun x => !q x), log ++ xs) := by
  have : notS (logged q) = logged (fun x => !q x) := by funext x d; rfl
  rw [this, filterS_logged]

theorem mapS_replS_logged (q : T → Bool) (v : T) : ∀ (xs log : List T), mapS (replS (logged q) v) log xs = (xs.map (fun x => if q x then v else x), log ++ xs)
  | [], log => by simp [mapS]
  | x :: xs, log => by
    simp only [mapS, mapS_replS_logged q v xs]
    simp only [replS, logged, List.map_cons, List.append_assoc, List.singleton_append]
    rfl

/-- `find_if_not`: up to and including the first miss. -/
theorem find_if_not_calls (h : Iter.Range I s first xs last) (q : T → Bool) :
    ∃ it, findIfNot I (logged q) first last [] s = .ok ((it, xs.take (xs.findIdx (fun x => !q x) + 1)), s) ∧
      Iter.Reach I s first (xs.findIdx fun x => !q x) it := by
  obtain ⟨it, e, r, _⟩ := find_if_not_any h (logged q) []
  rw [scanS_not_logged] at e r
  exact ⟨it, by simpa using e, r⟩

/-- `all_of`, `any_of`, `none_of` stop at the first element that decides. -/
theorem quantifiers_calls (h : Iter.Range I s first xs last) (q : T → Bool) :
    allOf I (logged q) first last [] s = .ok ((xs.all q, xs.take (xs.findIdx (fun x => !q x) + 1)), s) ∧
    anyOf I (logged q) first last [] s = .ok ((xs.any q, xs.take (xs.findIdx q + 1)), s) ∧
    noneOf I (logged q) first last [] s = .ok ((!xs.any q, xs.take (xs.findIdx q + 1)), s) := by
  obtain ⟨a, b, c⟩ := quantifiers_any h (logged q) []
  rw [scanS_not_logged] at a
  rw [scanS_logged] at b c
  have key : ∀ q : T → Bool, decide (xs.findIdx q = xs.length) = !xs.any q := by
    intro q
    have h1 := List.findIdx_lt_length (p := q) (xs := xs)
    have h2 := List.findIdx_le_length (p := q) (xs := xs)
    cases hq : xs.any q with
    | true =>
      have := h1.2 (by simpa using hq)
      exact decide_eq_false (by omega)
    | false =>
      have : ¬ xs.findIdx q < xs.length := by
        intro w; have := h1.1 w
        rw [List.any_eq_false] at hq
        obtain ⟨x, hx, hy⟩ := this
        exact hq x hx hy
      exact decide_eq_true (by omega)
  refine ⟨?_, ?_, ?_⟩
  · rw [a, key, List.not_any_eq_all_not]; simp
  · have := key q
    rw [b]
    simp only [ne_eq, decide_not, this, Bool.not_not, List.nil_append]
  · rw [c, key]; simp

/-- `count_if`: one call for each element, in order. -/
theorem count_if_calls (h : Iter.Range I s first xs last) (q : T → Bool) (hn : xs.length < 2147483648) :
    countIf I (logged q) first last [] s = .ok ((((xs.filter q).length : Nat), xs), s) := by
  have e := filterS_logged q xs []
  have l := List.length_filter_le q xs
  have := count_if_any h (logged q) [] (by rw [e]; simp; omega)
  rw [e] at this
  simpa using this

/-- `equal` and `mismatch`: one call for each pair, up to and including the first that differs. -/
theorem equal_calls [DecidableEq κ] {J : Iter σ κ U} {f2 l2 : κ} {ys : List U} (h : Iter.Range I s first xs last) (h2 : Iter.Range J s f2 ys l2) (q : T × U → Bool) :
    equal4 I J (logged q) first last f2 l2 [] s =
        .ok ((decide (xs.length = ys.length) && (xs.zip ys).all q, (xs.zip ys).take ((xs.zip ys).findIdx (fun p => !q p) + 1)), s) ∧
      ∃ a b, mismatch4 I J (logged q) first last f2 l2 [] s = .ok (((a, b), (xs.zip ys).take ((xs.zip ys).findIdx (fun p => !q p) + 1)), s) := by
  have e := equal4_any h h2 (logged q) []
  obtain ⟨a, b, m, _⟩ := mismatch4_any h h2 (logged q) []
  rw [scanS_not_logged] at e m
  refine ⟨?_, a, b, by simpa using m⟩
  rw [e]
  have h1 := List.findIdx_lt_length (p := fun p => !q p) (xs := xs.zip ys)
  have h2 := List.findIdx_le_length (p := fun p => !q p) (xs := xs.zip ys)
  simp only [List.nil_append, Res.ok.injEq, Prod.mk.injEq, and_true]
  rw [Bool.eq_iff_iff]
  simp only [decide_eq_true_eq, Bool.and_eq_true, List.all_eq_true]
  constructor
  · rintro ⟨h3, h4⟩
    refine ⟨h4, fun x hx => ?_⟩
    cases hq : q x with
    | true => rfl
    | false => have := h1.2 ⟨x, hx, by simp [hq]⟩; omega
  · rintro ⟨h3, h4⟩
    refine ⟨?_, h3⟩
    have : ¬ (xs.zip ys).findIdx (fun p => !q p) < (xs.zip ys).length := by
      intro w
      obtain ⟨x, hx, hy⟩ := h1.1 w
      rw [h4 x hx] at hy; simp at hy
    omega
end Calls

section Calls
variable [DecidableEq ι] {I : WIter σ ι T} {pos : Nat → ι} {xs : List T} {h : σ} {Ok : List T → σ → Prop}

/-- `replace_if`, `remove_if`, `transform` in place and `generate`: one call for each element, in order. -/
theorem modifying_calls (P : Presents I pos xs h Ok) :
    (∀ q v, ∃ h', replaceIf I (logged q) v (pos 0) (pos xs.length) [] h = .ok (xs, h') ∧ Ok (xs.map fun x => if q x then v else x) h') ∧
    (∀ residue q, ∃ h' J, removeIf I residue (logged q) (pos 0) (pos xs.length) [] h = .ok ((pos (xs.filter (fun x => !q x)).length, xs), h') ∧
      Ok (xs.filter (fun x => !q x) ++ J) h') ∧
    (∀ f, ∃ h', transform I.toIter I (logged f) (pos 0) (pos xs.length) (pos 0) [] h = .ok ((pos xs.length, xs), h') ∧ Ok (xs.map f) h') ∧
    (∀ g : Nat → T, ∃ h', generate I (fun _ n => (g n, n + 1)) (pos 0) (pos xs.length) 0 h = .ok (xs.length, h') ∧ Ok ((List.range xs.length).map g) h') := by
  refine ⟨?_, ?_, ?_, ?_⟩
  · intro q v
    obtain ⟨h', e, o⟩ := P.replace_if (logged q) v []
    rw [mapS_replS_logged] at e o
    exact ⟨h', by simpa using e, o⟩
  · intro residue q
    obtain ⟨h', J, e, _, o⟩ := P.remove_if residue (logged q) []
    rw [filterS_not_logged] at e o
    exact ⟨h', J, by simpa using e, o⟩
  · intro f
    obtain ⟨h', e, o⟩ := P.transform (logged f) []
    rw [mapS_logged] at e o
    exact ⟨h', by simpa using e, o⟩
  · intro g
    obtain ⟨h', e, o⟩ := P.generate (fun _ n => (g n, n + 1)) 0
    have : ∀ k n, genS (fun (_ : Unit) n => (g n, n + 1)) n k = ((List.range' n k).map g, n + k) := by
      intro k
      induction k with
      | zero => intro n; rfl
      | succ k ih => intro n; simp only [genS, ih, List.range'_succ, List.map_cons]; congr 1; omega
    rw [this] at e o
    refine ⟨h', by simpa using e, ?_⟩
    rw [List.range_eq_range']; exact o

/-- `copy_if`, `remove_copy_if`, `replace_copy_if` and `transform` to a second sequence with room enough: one call for each element, in order. -/
theorem copying_calls {J : WIter σ κ T} {pos' : Nat → κ} {ys : List T} {Ok : List T → List T → σ → Prop} (P : Presents2 I pos xs J pos' ys h Ok)
    (hn : xs.length ≤ ys.length) :
    (∀ q, ∃ h', copyIf I.toIter J (logged q) (pos 0) (pos xs.length) (pos' 0) [] h = .ok ((pos' (xs.filter q).length, xs), h') ∧
      Ok xs (xs.filter q ++ ys.drop (xs.filter q).length) h') ∧
    (∀ q, ∃ h', removeCopyIf I.toIter J (logged q) (pos 0) (pos xs.length) (pos' 0) [] h = .ok ((pos' (xs.filter fun x => !q x).length, xs), h') ∧
      Ok xs (xs.filter (fun x => !q x) ++ ys.drop (xs.filter fun x => !q x).length) h') ∧
    (∀ q v, ∃ h', replaceCopyIf I.toIter J (logged q) v (pos 0) (pos xs.length) (pos' 0) [] h = .ok ((pos' xs.length, xs), h') ∧
      Ok xs (xs.map (fun x => if q x then v else x) ++ ys.drop xs.length) h') ∧
    (∀ f, ∃ h', Gen.transform I.toIter J (logged f) (pos 0) (pos xs.length) (pos' 0) [] h = .ok ((pos' xs.length, xs), h') ∧
      Ok xs (xs.map f ++ ys.drop xs.length) h') := by
  refine ⟨?_, ?_, ?_, ?_⟩
  · intro q
    have l := List.length_filter_le q xs
    obtain ⟨h', e, o⟩ := P.copy_if (logged q) [] (by rw [filterS_logged]; simp; omega)
    rw [filterS_logged] at e o
    exact ⟨h', by simpa using e, o⟩
  · intro q
    have l := List.length_filter_le (fun x => !q x) xs
    obtain ⟨h', e, o⟩ := P.remove_copy_if (logged q) [] (by rw [filterS_not_logged]; simp; omega)
    rw [filterS_not_logged] at e o
    exact ⟨h', by simpa using e, o⟩
  · intro q v
    obtain ⟨h', e, o⟩ := P.replace_copy_if hn (logged q) v []
    rw [mapS_replS_logged] at e o
    exact ⟨h', by simpa using e, o⟩
  · intro f
    obtain ⟨h', e, o⟩ := P.transform hn (logged f) []
    rw [mapS_logged] at e o
    exact ⟨h', by simpa using e, o⟩
end Calls

/-! ## C119: the modifying algorithms -/

/-- What a user expects of the algorithms that modify one range. `remove_if` leaves unspecified values `J` behind the new end. -/
structure Works [DecidableEq ι] (I : WIter σ ι T) (first last : ι) (xs : List T) (h : σ) (Ok : List T → σ → Prop) : Prop where
  fill : ∀ v, ∃ h', Gen.fill I first last v h = .ok ((), h') ∧ Ok (List.replicate xs.length v) h'
  fill_n : ∀ v k, k ≤ xs.length → ∃ e h', Gen.fillN I first k v h = .ok (e, h') ∧ Iter.Reach I.toIter h first k e ∧ Ok (List.replicate k v ++ xs.drop k) h'
  generate : ∀ g : Nat → T, ∃ h', Gen.generate I (fun _ n => (g n, n + 1)) first last 0 h = .ok (xs.length, h') ∧ Ok ((List.range xs.length).map g) h'
  iota : ∀ succ v, ∃ h', Gen.iota I succ first last v h = .ok ((), h') ∧ Ok (Algo.iotaSeq succ xs.length v) h'
  replace_if : ∀ (q : T → Bool) v, ∃ h', replaceIf I (logged q) v first last [] h = .ok (xs, h') ∧ Ok (xs.map fun x => if q x then v else x) h'
  transform : ∀ f, ∃ h', Gen.transform I.toIter I (logged f) first last first [] h = .ok ((last, xs), h') ∧ Ok (xs.map f) h'
  remove_if : ∀ residue (q : T → Bool), ∃ e h' J, removeIf I residue (logged q) first last [] h = .ok ((e, xs), h') ∧
    Iter.Reach I.toIter h first (xs.filter (fun x => !q x)).length e ∧ (xs.filter (fun x => !q x) ++ J).length = xs.length ∧ Ok (xs.filter (fun x => !q x) ++ J) h'

theorem At.reach {I : Iter σ ι T} {s : σ} {pos : Nat → ι} {xs : List T} (W : At I s pos xs) : ∀ (k i : Nat), i + k ≤ xs.length →
    Iter.Reach I s (pos i) k (pos (i + k)) := by
  intro k
  induction k with
  | zero => intro i _; exact .zero _
  | succ k ih =>
    intro i hi
    refine .succ (W.next _ (by omega)) ?_
    have := ih (i + 1) (by omega)
    rwa [show i + 1 + k = i + (k + 1) by omega] at this

theorem Presents.works [DecidableEq ι] {I : WIter σ ι T} {pos : Nat → ι} {xs : List T} {h : σ} {Ok : List T → σ → Prop} (P : Presents I pos xs h Ok) :
    Works I (pos 0) (pos xs.length) xs h Ok := by
  obtain ⟨c1, _, c3, c4⟩ := modifying_calls P
  refine ⟨P.fill, ?_, c4, P.iota, c1, c3, ?_⟩
  · intro v k hk
    obtain ⟨h', e, o⟩ := P.fill_n v k hk
    exact ⟨_, h', e, by simpa using P.at_.reach k 0 (by omega), o⟩
  · intro residue q
    obtain ⟨h', J, e, l, o⟩ := P.remove_if residue (logged q) []
    rw [filterS_not_logged] at e o l
    have := List.length_filter_le (fun x => !q x) xs
    exact ⟨_, h', J, by simpa using e, by simpa using P.at_.reach _ 0 (by simpa using this), l, o⟩

/-- Every part of a presented sequence works: `[pos A.length, pos (A.length + M.length))` of `A ++ M ++ B`. -/
theorem Presents.works_part [DecidableEq ι] {I : WIter σ ι T} {pos : Nat → ι} {A M B : List T} {h : σ} {Ok : List T → σ → Prop}
    (P : Presents I pos (A ++ M ++ B) h Ok) :
    Works I (pos A.length) (pos (A.length + M.length)) M h (fun ys h' => Ok (A ++ ys ++ B) h') := P.slice.works

section Containers
open Verif.Seq

/-- ttl::list. `reverse` too. -/
theorem list_algorithms {S : DList.State T} {h : Heap T} {c : Addr} {es : List (Addr × T)} (R : DList.Reach S h) (hc : S.Intact c) (hs : ListProps.Shows h c es) :
    ∃ b, DList.begin c h = .ok (b, h) ∧ Iter.Range nodeIter.toIter h b (es.map Prod.snd) c ∧ Works nodeIter b c (es.map Prod.snd) h (ListOk S h c es) ∧
      ∃ h', reverse nodeIter b c h = .ok ((), h') ∧ ListOk S h c es (es.map Prod.snd).reverse h' := by
  obtain ⟨b, e, P⟩ := list_presents R hc hs
  refine ⟨_, b, ?_, ?_, ?_⟩
  · simpa [e] using P.forward.range
  · simpa [e] using P.forward.works
  · simpa [e] using P.reverse

/-- ttl::forward_list. `end()` is the null iterator. -/
theorem forward_list_algorithms {S : FList.State T} {h : Heap T} {c : Addr} {es : List (Addr × T)} (R : FList.Reach S h) (hc : S.Exists c) (hs : FwdProps.Shows h c es) :
    ∃ b, getNext c h = .ok (b, h) ∧ Iter.Range nodeIter.toIter h b (es.map Prod.snd) 0 ∧ Works nodeIter b 0 (es.map Prod.snd) h (FwdOk S h c es) := by
  obtain ⟨b, e, P⟩ := fwd_presents R hc hs
  exact ⟨_, b, by simpa [e] using P.range, by simpa [e] using P.works⟩

/-- ttl::backward_list. -/
theorem backward_list_algorithms {S : BList.State T} {h : Heap T} {c : Addr} {es : List (Addr × T)} (R : BList.Reach S h) (hc : S.Exists c) (hs : BwdProps.Shows h c es) :
    ∃ b, getNext c h = .ok (b, h) ∧ Iter.Range nodeIter.toIter h b (es.map Prod.snd) 0 ∧ Works nodeIter b 0 (es.map Prod.snd) h (BwdOk S h c es) := by
  obtain ⟨b, e, P⟩ := bwd_presents R hc hs
  exact ⟨_, b, by simpa [e] using P.range, by simpa [e] using P.works⟩

/-- ttl::lazy_queue (the elements already transferred to the main list). -/
theorem lazy_queue_algorithms {triv : Bool} {S : LQueue.State T} {h : Heap T} {c : Addr} {es : List (Addr × T)} (R : LQueue.Reach triv S h) (hc : S.Exists c)
    (hs : LazyProps.Observes h c es) :
    ∃ b, getNext c h = .ok (b, h) ∧ Iter.Range nodeIter.toIter h b (es.map Prod.snd) 0 ∧ Works nodeIter b 0 (es.map Prod.snd) h (LazyOk triv S h c es) := by
  obtain ⟨b, e, P⟩ := lazy_presents R hc hs
  exact ⟨_, b, by simpa [e] using P.range, by simpa [e] using P.works⟩
end Containers

section Containers
open Verif.Vec

/-- ttl::vector. Random access as well. -/
theorem vector_algorithms {dv : T} {S : Vec.State T} {h : Vec.Mem T} {c cap : Nat} {vs : List T} {p : Ptr} (R : Vec.Reach dv S h) (hc : S.Exists c)
    (o : VecProps.Shows h c vs cap p) :
    begin_ c h = .ok (p, h) ∧ end_ c h = .ok (p + vs.length, h) ∧ Iter.Range slotIter.toIter h p vs (p + vs.length) ∧
      RAt slotRandom h (fun i => p + i) vs ∧ Works slotIter p (p + vs.length) vs h (VecOk dv S h c cap p) ∧
      ∃ h', reverse slotIter p (p + vs.length) h = .ok ((), h') ∧ VecOk dv S h c cap p vs.reverse h' := by
  obtain ⟨b, e, P⟩ := vec_presents R hc o
  have z : p + 0 = p := rfl
  have r := P.forward.range
  have w := P.forward.works
  have v := P.reverse
  simp only [z] at r w v
  exact ⟨b, e, r, vec_random R hc o, w, v⟩

/-- ttl::fixed_vector. -/
theorem fixed_vector_algorithms {N : Nat} {dv : T} {S : FV.State T} {h : FV.Mem T} {c : Nat} {vs : List T} (R : FV.Reach N dv S h) (hc : S.Exists c)
    (o : FV.FVProps.Observes N h c vs) :
    ∃ b e, FV.begin_ c h = .ok (b, h) ∧ FV.end_ c h = .ok (e, h) ∧ Iter.Range slotIter.toIter h b vs e ∧ RAt slotRandom h (fun i => b + i) vs ∧ b + vs.length = e ∧
      Works slotIter b e vs h (FvOk N dv S h c) ∧ ∃ h', reverse slotIter b e h = .ok ((), h') ∧ FvOk N dv S h c vs.reverse h' := by
  obtain ⟨b, e, P⟩ := fv_presents R hc o
  have q : ∀ i, (⟨c, 0⟩ : Ptr) + i = ⟨c, i⟩ := by intro i; show (⟨c, 0 + i⟩ : Ptr) = _; rw [Nat.zero_add]
  refine ⟨_, _, b, e, P.forward.range, ?_, q _, P.forward.works, P.reverse⟩
  simp only [q]
  exact fv_random R hc o

/-- ttl::map and ttl::set: sources only. -/
theorem map_set_ranges [DecidableEq K] {lt : K → K → Bool} {keyOf : V → K} (ho : StrictTotalOrder lt) {objs : List Rb.Addr} {h : Rb.Heap V} (r : Rb.Reach lt keyOf objs h)
    {c : Rb.Addr} (hc : c ∈ objs) {es : List (Rb.Addr × V)} (he : Rb.entries c h = .ok (es, h)) :
    ∃ b, Rb.begin_ c h = .ok (b, h) ∧ Iter.Range treeIter h b (es.map Prod.snd) c := by
  obtain ⟨b, e, W, _⟩ := tree_presents ho r hc he
  refine ⟨_, b, ?_⟩
  have := W.range (es.map Prod.snd) [] rfl
  simpa [e] using this

/-- ttl::sorted_vector_map: sources only. -/
theorem sorted_vector_map_ranges [DecidableEq K] {lt : K → K → Bool} {h : SVMap.Mem K V} {c : Nat} {vs : List (K × V)} (o : SVMap.SMProps.Observes lt h c vs) :
    ∃ b e, SVMap.begin_ c h = .ok (b, h) ∧ SVMap.end_ c h = .ok (e, h) ∧ Iter.Range sortedIter h b vs e := by
  obtain ⟨p, b, e, W, _⟩ := sorted_presents o
  refine ⟨_, _, b, e, ?_⟩
  have := W.range vs [] rfl
  have z : p + 0 = p := rfl
  simpa [z] using this

/-- ttl::vector_map. -/
theorem vector_map_algorithms [DecidableEq K] {dk : K} {dv : V} {S : Vec.State (K × V)} {h : Vec.Mem (K × V)} {c cap : Nat} {p : Ptr} {vs : List (K × V)}
    (R : VMap.VMProps.VReach dk dv S h) (hc : S.Exists c) (o : VecProps.Shows h c vs cap p) :
    begin_ c h = .ok (p, h) ∧ end_ c h = .ok (p + vs.length, h) ∧ Iter.Range slotIter.toIter h p vs (p + vs.length) ∧
      Works slotIter p (p + vs.length) vs h (VecOk (dk, dv) S h c cap p) := by
  obtain ⟨b, e, r, _, w, _⟩ := vector_algorithms R.vec hc o
  exact ⟨b, e, r, w⟩

/-- Arrays. -/
theorem array_algorithms {m : Mem T} {a : Nat} {xs : List T} (hm : m.Holds a xs) :
    Iter.Range Mem.ptr m a xs (a + xs.length) ∧ Works ptrW a (a + xs.length) xs m (fun ys m' => m' = m.overwrite a ys) ∧
      reverse ptrW a (a + xs.length) m = .ok ((), m.overwrite a xs.reverse) := by
  have P := array_presents hm
  obtain ⟨h', e, rfl⟩ := P.reverse
  exact ⟨P.forward.range, P.forward.works, e⟩
end Containers

/-! ## Examples -/

/-- A list 3, 1, 2: `reverse` makes it 2, 1, 3, `find_if` for 1 asks about 3 and 1 only. -/
example : ∃ (S : Seq.DList.State Nat) (h : Seq.Heap Nat) (c b : Nat), Seq.DList.Reach S h ∧ Seq.DList.begin c h = .ok (b, h) ∧
    (∃ it, findIf nodeIter.toIter (logged (· == 1)) b c [] h = .ok ((it, [3, 1]), h)) ∧
    ∃ h' es, reverse nodeIter b c h = .ok ((), h') ∧ Seq.ListProps.Shows h' c es ∧ es.map Prod.snd = [2, 1, 3] := by
  obtain ⟨S, h, c, d, es, fs, R, hc, _, _, hs, _, hv, _⟩ := Seq.ListProps.exists_lists [3, 1, 2] ([] : List Nat)
  obtain ⟨b, e, r, w, h', q, o⟩ := list_algorithms R hc hs
  rw [hv] at r o
  obtain ⟨it, f, _⟩ := find_if_calls r (· == 1)
  refine ⟨S, h, c, b, R, e, ⟨it, by simpa [List.findIdx_cons] using f⟩, h', _, q, o.shows', ?_⟩
  rw [List.map_snd_zip]; · rfl
  · have := congrArg List.length hv; simp at this; simp [this]

/-- A forward_list 1, 2, 3, 4: `remove_if` even leaves 1, 3 in front; the list still has four elements; the functor was called on 1, 2, 3, 4. -/
example : ∃ (S : Seq.FList.State Nat) (h : Seq.Heap Nat) (c b : Nat), Seq.FList.Reach S h ∧ Seq.getNext c h = .ok (b, h) ∧
    ∃ e h' es x y, removeIf nodeIter id (logged (· % 2 == 0)) b 0 [] h = .ok ((e, [1, 2, 3, 4]), h') ∧ Iter.Reach nodeIter.toIter h b 2 e ∧
      Seq.FwdProps.Shows h' c es ∧ es.map Prod.snd = [1, 3, x, y] := by
  obtain ⟨S, h, c, d, es, fs, R, hc, _, _, hs, _, hv, _⟩ := Seq.FwdProps.exists_lists [1, 2, 3, 4] ([] : List Nat)
  obtain ⟨b, e, r, w⟩ := forward_list_algorithms R hc hs
  rw [hv] at w
  obtain ⟨it, h', J, q, re, l, o⟩ := w.remove_if id (· % 2 == 0)
  have l' : es.length = 4 := by have := congrArg List.length hv; simpa using this
  have lj : J.length = 2 := by simpa using l
  match J, lj with
  | [x, y], _ => exact ⟨S, h, c, b, R, e, it, h', _, x, y, q, re, o.shows', by rw [List.map_snd_zip (by simp [l'])]; rfl⟩

/-- A vector 5, 6, 7, 8: `lower_bound` for 7 with at most 3 comparisons. -/
example : ∃ (S : Vec.State Nat) (h : Vec.Mem Nat) (c : Nat) (p : Vec.Ptr), Vec.Reach 0 S h ∧ Vec.begin_ c h = .ok (p, h) ∧ Vec.end_ c h = .ok (p + 4, h) ∧
    ∃ log, lowerBound slotRandom (logged fun q : Nat × Nat => decide (q.1 < q.2)) p (p + 4) 7 [] h = .ok ((p + 2, log), h) ∧ log.length ≤ 3 := by
  obtain ⟨c, d, S, h, p, q, R, hc, _, _, o, _⟩ := Vec.VecProps.demo
  obtain ⟨b, e, _, ra, _⟩ := vector_algorithms R hc o
  obtain ⟨k, log, f, hk, hl, _, pt⟩ := lower_bound_any ra (by simp) (fun a b : Nat => decide (a < b)) 7 []
  obtain ⟨_, p1, p2⟩ := pt (by
    have m : ∀ j, j < 4 → ∀ i, i < j + 1 → [5, 6, 7, 8][i]! ≤ [5, 6, 7, 8][j]! := by decide
    intro i j hj hij q
    have hj' : j < 4 := by simpa using hj
    have := m j hj' i (by omega)
    rw [getElem!_pos _ _ (by simp; omega), getElem!_pos _ _ (by simpa using hj)] at this
    simp only [decide_eq_true_eq] at q ⊢
    omega)
  have : k = 2 := by
    simp at hk
    match k, hk with
    | 0, _ => have := p2 0 (by simp) (by simp); simp at this
    | 1, _ => have := p2 1 (by simp) (by simp); simp at this
    | 2, _ => rfl
    | 3, _ => have := p1 2 (by simp) (by simp); simp at this
    | 4, _ => have := p1 3 (by simp) (by simp); simp at this
  subst this
  exact ⟨S, h, c, p, R, b, e, log, f, hl⟩

/-- The set {2, 5, 7} copied into the list 0, 0, 0, 0 gives 2, 5, 7, 0; the set is as before. -/
example : ∃ (c b : Rb.Addr) (h : Rb.Heap Nat) (S : Seq.DList.State Nat) (k : Seq.Heap Nat) (d x : Nat), Rb.Reach (fun a b : Nat => decide (a < b)) id [c] h ∧
    Rb.begin_ c h = .ok (b, h) ∧ Seq.DList.Reach S k ∧ Seq.DList.begin d k = .ok (x, k) ∧
    ∃ e k' fs, Gen.copy (onFst treeIter) nodeIter.snd b c x (h, k) = .ok (e, (h, k')) ∧ Seq.ListProps.Shows k' d fs ∧ fs.map Prod.snd = [2, 5, 7, 0] := by
  obtain ⟨c, h, es, r, he, hv⟩ := Rb.Container.exists_reach_257
  obtain ⟨S, k, d, d', fs, _, R, hd, _, _, hs, _, hw, _⟩ := Seq.ListProps.exists_lists [0, 0, 0, 0] ([] : List Nat)
  obtain ⟨b, ec, W, _⟩ := tree_presents natOrder r (by simp) he
  obtain ⟨x, ed, P⟩ := list_presents R hd hs
  have l := congrArg List.length hv
  have lw := congrArg List.length hw
  simp only [List.length_map, List.length_cons, List.length_nil] at l lw
  obtain ⟨k', q, o⟩ := W.copy P.forward (by simp [l, lw])
  rw [List.length_map, ec] at q
  refine ⟨c, _, h, S, k, d, _, r, b, R, x, _, k', _, q, o.shows', ?_⟩
  rw [List.map_snd_zip (by simp [l, lw]), hv, hw]
  rfl

end Verif.Gen
