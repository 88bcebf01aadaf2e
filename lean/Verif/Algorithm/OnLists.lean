import Verif.Algorithm.Presents
import Verif.Algorithm.Nodes
import Verif.Seq.ListProps2
import Verif.Seq.FwdProps
import Verif.Seq.BwdProps
import Verif.Seq.LazyProps
/-!
# The linked lists present their contents to the algorithms
-/
set_option linter.unusedVariables false
set_option linter.unusedSimpArgs false
namespace Verif.Gen
open Verif Verif.Seq
open Verif.Seq.DList (posOf posOf_nil posOf_cons Laid)
variable {T : Type}

theorem zip_fst_map (es : List (Addr × T)) {ys : List T} (hy : ys.length = es.length) : ((es.map Prod.fst).zip ys).map Prod.fst = es.map Prod.fst := by
  rw [List.map_fst_zip (by simp [hy])]

theorem zip_drop_fst (es : List (Addr × T)) {ys : List T} (hy : ys.length = es.length) (z : Addr) (i : Nat) :
    posOf z ((((es.map Prod.fst).zip ys).drop i).map Prod.fst) = nodeAt z es i := by
  unfold nodeAt
  rw [List.map_drop, zip_fst_map es hy]

theorem zip_self (es : List (Addr × T)) : (es.map Prod.fst).zip (es.map Prod.snd) = es := by
  induction es with
  | nil => rfl
  | cons e es ih => simp [ih]

/-! ## ttl::list -/
section DL
open Verif.Seq.DList
variable {S : DList.State T} {h : Heap T} {c d : Addr} {es fs : List (Addr × T)}

theorem list_laid (R : DList.Reach S h) (hc : S c = some (.ring es)) : Laid h c es c ∧ (es.map Prod.fst).Nodup ∧ (∀ e ∈ es, h.val e.1 = some e.2) := by
  have r := DList.World.ring R.world hc
  exact ⟨r.laid, (List.nodup_cons.1 r.nodup).2, fun e he => (r.data e he).2⟩

theorem list_values (R : DList.Reach S h) (hc : S c = some (.ring es)) {ys : List T} (hy : ys.length = es.length) :
    DList.Reach (S.put c ((es.map Prod.fst).zip ys)) (putVals h (es.map Prod.fst) ys) := by
  obtain ⟨l, nd, dat⟩ := list_laid R hc
  have W := node_window l nd
  refine all_values (P := fun ys => DList.Reach (S.put c ((es.map Prod.fst).zip ys)) (putVals h (es.map Prod.fst) ys)) (n := es.length) ?_ (xs := es.map Prod.snd) (by simp) hy ?_
  · intro xs hx R' i hi v
    have hc' := ListProps.put_same S c ((es.map Prod.fst).zip xs)
    have r := DList.World.ring R'.world hc'
    have hl : ((es.map Prod.fst).zip xs).length = es.length := by simp [hx]
    have := DList.Reach.step (.store c i v) R' ⟨⟨_, hc'⟩, by rw [ListProps.put_get, hl]; exact hi⟩ (h' := putVals h (es.map Prod.fst) (xs.set i v)) (by
      simp only [DList.exec, Prog.bind_app, DList.iterAt_ok r (i := i) (by omega), Res.bind_ok, zip_drop_fst es hx]
      exact W.assign xs hx i hi v)
    simp only [DList.spec, ListProps.put_get, zip_modify] at this
    have e : ∀ A B, (S.put c A).put c B = S.put c B := by
      intro A B; funext x; simp only [DList.State.put, upd]; split <;> rfl
    rwa [e] at this
  · rw [zip_self, putVals_same es dat]
    have : S.put c es = S := by
      funext x; simp only [DList.State.put, upd]; split
      · rename_i q; rw [q, hc]
      · rfl
    rwa [this]

theorem list_window (R : DList.Reach S h) (hc : S c = some (.ring es)) : BiWindow nodeIter (nodeAt c es) es.length (putVals h (es.map Prod.fst)) := by
  obtain ⟨l, nd, dat⟩ := list_laid R hc
  refine ⟨node_window l nd, ?_⟩
  intro xs hx i hi
  have r := DList.World.ring R.world hc
  have sp : es.map Prod.fst = (es.map Prod.fst).take i ++ (es[i].1 :: (es.map Prod.fst).drop (i + 1)) := by
    rw [← List.getElem_map Prod.fst (h := by simpa using hi), ← List.drop_eq_getElem_cons (by simpa using hi), List.take_append_drop]
  have hl := r.links
  rw [sp] at hl
  have pv : h.prev (nodeAt c es (i + 1)) = es[i].1 := by
    unfold nodeAt
    unfold Links at hl
    cases q : (es.map Prod.fst).drop (i + 1) with
    | nil =>
      rw [q] at hl
      have : c :: ((es.map Prod.fst).take i ++ [es[i].1] ++ [c]) = (c :: (es.map Prod.fst).take i) ++ es[i].1 :: c :: [] := by simp
      rw [this, Chain.glue] at hl
      exact hl.2.2.1
    | cons b B =>
      rw [q] at hl
      have : c :: ((es.map Prod.fst).take i ++ es[i].1 :: b :: B ++ [c]) = (c :: (es.map Prod.fst).take i) ++ es[i].1 :: b :: (B ++ [c]) := by simp
      rw [this, Chain.glue] at hl
      exact hl.2.2.1
  have lv : h.live (nodeAt c es (i + 1)) = true := by
    rcases Nat.lt_or_ge (i + 1) es.length with q | q
    · rw [nodeAt_lt q]; exact (r.data _ (List.getElem_mem q)).1
    · have : i + 1 = es.length := by omega
      rw [this, nodeAt_end]; exact r.head
  show getPrev _ _ = _
  have lk := putVals_links (h := h) (es.map Prod.fst) xs
  rw [getPrev_eq (by rw [lk.2.2.2.1]; exact lv), lk.2.1, pv, nodeAt_lt hi]

theorem list_kept (R : DList.Reach S h) {h' : Heap T} {es' : List (Addr × T)} (R' : DList.Reach (S.put c es') h') : ListProps.OthersKept S h h' [c] := by
  intro d hd hx fs hf
  have hd : d ≠ c := by simpa using hd
  have := ListProps.reach_shows R' (c := d) (by obtain ⟨s, q⟩ := hx; exact ⟨s, by rw [ListProps.put_other S es' hd]; exact q⟩)
  rwa [ListProps.put_get_other S es' hd, ListProps.get_shown R hx hf] at this

/-- After values were assigned through the iterators of the list `c`: a memory of a client program again, `c` has the same nodes with the values
`ys`, and the other lists are as before. -/
structure ListOk (S : DList.State T) (h : Heap T) (c : Addr) (es : List (Addr × T)) (ys : List T) (h' : Heap T) : Prop where
  reach : DList.Reach (S.put c ((es.map Prod.fst).zip ys)) h'
  shows' : ListProps.Shows h' c ((es.map Prod.fst).zip ys)
  kept : ListProps.OthersKept S h h' [c]

theorem list_state (R : DList.Reach S h) (hc : S.Intact c) (hs : ListProps.Shows h c es) : S c = some (.ring es) := by
  obtain ⟨fs, q⟩ := hc
  have := ListProps.get_shown R ⟨_, q⟩ hs
  rw [DList.State.get_ring q] at this
  rw [q, this]

theorem list_ok (R : DList.Reach S h) (hc : S c = some (.ring es)) {ys : List T} (hy : ys.length = es.length) :
    ListOk S h c es ys (putVals h (es.map Prod.fst) ys) := by
  have R' := list_values R hc hy
  refine ⟨R', ?_, list_kept R R'⟩
  have := ListProps.reach_shows R' (ListProps.put_exists _ _ _)
  rwa [ListProps.put_get] at this

/-- `begin()` and `end()` of a list, in every memory a client program can have, are bidirectional iterators presenting its values. -/
theorem list_presents (R : DList.Reach S h) (hc : S.Intact c) (hs : ListProps.Shows h c es) :
    DList.begin c h = .ok (nodeAt c es 0, h) ∧ nodeAt c es es.length = c ∧ BiPresents nodeIter (nodeAt c es) (es.map Prod.snd) h (ListOk S h c es) := by
  have q := list_state R hc hs
  have r := DList.World.ring R.world q
  refine ⟨?_, nodeAt_end es, putVals h (es.map Prod.fst), by simpa using list_window R q, putVals_same es (list_laid R q).2.2, ?_⟩
  · simp only [DList.begin, getNext_eq r.head, r.next_head]; rfl
  · intro ys hy; exact list_ok R q (by simpa using hy)

/-- After values were assigned through iterators of two lists. -/
structure ListOk2 (S : DList.State T) (h : Heap T) (c d : Addr) (es fs : List (Addr × T)) (xs ys : List T) (h' : Heap T) : Prop where
  reach : DList.Reach ((S.put c ((es.map Prod.fst).zip xs)).put d ((fs.map Prod.fst).zip ys)) h'
  shows1 : ListProps.Shows h' c ((es.map Prod.fst).zip xs)
  shows2 : ListProps.Shows h' d ((fs.map Prod.fst).zip ys)
  kept : ListProps.OthersKept S h h' [c, d]

/-- Two different lists have no common objects. -/
theorem list_presents2 (R : DList.Reach S h) (hc : S.Intact c) (hd : S.Intact d) (hcd : c ≠ d) (hs : ListProps.Shows h c es) (hs' : ListProps.Shows h d fs) :
    BiPresents2 nodeIter (nodeAt c es) (es.map Prod.snd) nodeIter (nodeAt d fs) (fs.map Prod.snd) h (ListOk2 S h c d es fs) := by
  have q := list_state R hc hs
  have q' := list_state R hd hs'
  have dj : ∀ a ∈ es.map Prod.fst, a ∉ fs.map Prod.fst := by
    intro a ha hb
    have := R.world.disj c _ d _ q q' hcd a (by simp [DList.iface, DList.cells, DList.LState.elems] at ha ⊢; exact .inr ha)
    exact this (by simp [DList.iface, DList.cells, DList.LState.elems] at hb ⊢; exact .inr hb)
  have step : ∀ {xs : List T}, xs.length = es.length → DList.Reach (S.put c ((es.map Prod.fst).zip xs)) (putVals h (es.map Prod.fst) xs) ∧
      (S.put c ((es.map Prod.fst).zip xs)) d = some (.ring fs) := by
    intro xs hx
    exact ⟨list_values R q hx, by rw [ListProps.put_other _ _ hcd.symm]; exact q'⟩
  refine ⟨fun xs ys => putVals (putVals h (es.map Prod.fst) xs) (fs.map Prod.fst) ys, ?_, ?_, ?_, ?_⟩
  · intro zs hz
    simp only [List.length_map] at hz ⊢
    simp only [putVals_comm _ _ _ _ dj]
    have R' := list_values R q' hz
    exact list_window R' (by rw [ListProps.put_other _ _ hcd]; exact q)
  · intro zs hz
    simp only [List.length_map] at hz ⊢
    exact list_window (step hz).1 (step hz).2
  · show putVals (putVals h _ _) _ _ = h; rw [putVals_same es (list_laid R q).2.2, putVals_same fs (list_laid R q').2.2]
  · intro xs ys hx hy
    simp only [List.length_map] at hx hy
    obtain ⟨R1, q1⟩ := step hx
    have k1 := list_ok R q hx
    have k2 := list_ok R1 q1 hy
    refine ⟨k2.reach, k2.kept c (by simpa using hcd) (ListProps.put_exists _ _ _) _ k1.shows', k2.shows', ?_⟩
    intro x hx' he gs hg
    simp only [List.mem_cons, List.not_mem_nil, or_false, not_or] at hx'
    refine k2.kept x (by simpa using hx'.2) ?_ gs (k1.kept x (by simpa using hx'.1) he gs hg)
    obtain ⟨s, hs⟩ := he
    exact ⟨s, by rw [ListProps.put_other _ _ hx'.1]; exact hs⟩
end DL
end Verif.Gen
