import Verif.Rb.Ref
/-!
# `insert(first, last)` and `map(first, last)` with iterators of a `ttl::map` / `ttl::set` (C115)

`MapModel.insertRange` takes the source range as a list of values. Here the source is a range of iterators of a container in the same
memory - another one or the receiver itself - that is read and advanced while the receiver is being modified.
-/
set_option linter.unusedVariables false
set_option linter.unusedSimpArgs false
set_option linter.unusedSectionVars false
namespace Verif.Rb
open Verif

section Model
variable {K V : Type} [DecidableEq K] (lt : K → K → Bool) (keyOf : V → K)

/-- `insert(first, last)`, map.hpp:251-257, set.hpp:228-234, for map/set iterators. (`map` copies the element into a temporary pair first,
`set` passes a reference to it; that the two are the same call is `Ref.own_key_is_a_copy`.) -/
def insertFrom (hd first last : Addr) : Prog (Heap V) Unit := do
  if first ≠ last then do
    let _ ← insertUnique lt keyOf hd (← dataOf first)
    insertFrom hd (← nextNode first) last
  else pure ()
partial_fixpoint

/-- `map(first, last)`, map.hpp:177-180, set.hpp:165-168, for map/set iterators -/
def rangeCtorFrom (first last : Addr) : Prog (Heap V) Addr := do
  let hd ← newTree
  insertFrom lt keyOf hd first last
  pure hd

end Model

namespace Range
open Tree
variable {K V : Type} [DecidableEq K] {lt : K → K → Bool} {keyOf : V → K}

/-- The iterator to the first of the remaining elements, `end()` if there is none. -/
def iterTo (c : Addr) (es : List (Addr × V)) : Addr := (es.map Prod.fst).headD c

/-- What `insert` of the values `vs` makes of the elements `es`: the old elements stay where they are; each value whose key was not there
is there now; nothing else is. -/
structure Added (lt : K → K → Bool) (keyOf : V → K) (es : List (Addr × V)) (vs : List V) (es' : List (Addr × V)) : Prop where
  kept : es.Sublist es'
  sorted : Ascending lt keyOf es'
  values : ∀ v, v ∈ es'.map Prod.snd → v ∈ es.map Prod.snd ∨ (v ∈ vs ∧ ∀ e ∈ es, keyOf e.2 ≠ keyOf v)
  keys : ∀ v ∈ vs, ∃ e ∈ es', keyOf e.2 = keyOf v

theorem iter_ne {c : Addr} {h : Heap V} {A M B : List (Addr × V)} {e : Addr × V} (o : Owns h c (A ++ e :: (M ++ B))) : e.1 ≠ iterTo c B := by
  have hno := o.cells_nodup
  simp only [cells, List.map_append, List.map_cons, List.nodup_cons, List.mem_append, List.mem_cons, List.nodup_append] at hno
  intro q
  cases B with
  | nil => simp only [iterTo, List.map_nil, List.headD_nil] at q; exact hno.1 (.inr (.inl q.symm))
  | cons b B =>
    simp only [iterTo, List.map_cons, List.headD_cons] at q
    exact hno.2.2.1.1 (.inr (by simp [q]))

/-- Reading from another container while inserting is inserting the values that were there. -/
theorem insertFrom_other (ho : StrictTotalOrder lt) {c d : Addr} : ∀ (M A B : List (Addr × V)) (h : Heap V) (es : List (Addr × V)),
    Wf h → Owns h c es → Ascending lt keyOf es → Owns h d (A ++ (M ++ B)) → (∀ x ∈ cells d (A ++ (M ++ B)), x ∉ cells c es) →
    insertFrom lt keyOf c (iterTo d (M ++ B)) (iterTo d B) h = insertRange lt keyOf c (M.map Prod.snd) h ∧
    ∃ h' es', insertRange lt keyOf c (M.map Prod.snd) h = .ok ((), h') ∧ Owns h' c es' ∧ Added lt keyOf es (M.map Prod.snd) es' ∧
      Owns h' d (A ++ (M ++ B)) := by
  intro M
  induction M with
  | nil =>
    intro A B h es w o a od dj
    refine ⟨?_, h, es, rfl, o, ⟨List.Sublist.refl _, a, fun v hv => .inl hv, by simp⟩, od⟩
    rw [insertFrom]; simp [insertRange]
  | cons m M ih =>
    intro A B h es w o a od dj
    have hne := iter_ne (e := m) (M := M) (B := B) (A := A) (by simpa using od)
    obtain ⟨tr, rp, bl, io, dd⟩ := id od
    have hm : h.data m.1 = some m.2 := dd m (by simp)
    obtain ⟨n, hn, hc⟩ := insertUnique_owns ho w o a m.2
    have od1 : Owns h d ((A ++ [m]) ++ (M ++ B)) := by simpa using od
    rw [insertFrom]
    simp only [Prog.ite_app]
    rw [if_pos (by simpa [iterTo] using hne)]
    simp only [Prog.bind_app, iterTo, List.cons_append, List.map_cons, List.headD_cons, dataOf_eq hm, Res.bind_ok, insertRange]
    rcases hc with ⟨e, he, hk, q⟩ | ⟨A', B', h', rfl, hA, hB, q, o', ef, _, _⟩
    · have odt := od.tick n
      have nx : nextNode m.1 (h.tick n) = .ok (iterTo d (M ++ B), h.tick n) :=
        Owns.nextNode (A := A) (B := M ++ B) (e := m) odt
      obtain ⟨i1, h2, es2, q2, o2, ad, od2⟩ := ih (A ++ [m]) B (h.tick n) es (w.tick n) (o.tick n) a (od1.tick n) (by simpa using dj)
      simp only [q, Res.bind_ok, nx]
      refine ⟨i1, h2, es2, q2, o2, ⟨ad.kept, ad.sorted, ?_, ?_⟩, by simpa using od2⟩
      · intro v hv
        rcases ad.values v hv with h1 | ⟨h1, h2⟩
        · exact .inl h1
        · exact .inr ⟨by simp only [List.mem_cons]; exact .inr h1, h2⟩
      · intro v hv
        rcases List.mem_cons.1 hv with rfl | hv
        · exact ⟨e, ad.kept.subset he, hk⟩
        · exact ad.keys v hv
    · have a' : Ascending lt keyOf (A' ++ (h.next, m.2) :: B') := by
        simp only [Ascending, List.pairwise_append, List.pairwise_cons, List.mem_cons] at a ⊢
        grind
      have od' := od.frame w ef dj
      have nx : nextNode m.1 h' = .ok (iterTo d (M ++ B), h') :=
        Owns.nextNode (A := A) (B := M ++ B) (e := m) od'
      have fr : ∀ x ∈ cells d (A ++ (m :: M ++ B)), x ≠ h.next := fun x hx e => Nat.lt_irrefl _ (e ▸ od.lt w hx)
      obtain ⟨i1, h2, es2, q2, o2, ad, od2⟩ := ih (A ++ [m]) B h' _ ef.wf o' a' (by simpa using od') (by
        intro x hx hx'
        have h1 := dj x (by simpa using hx)
        have h2 := fr x (by simpa using hx)
        simp only [cells, List.map_append, List.map_cons, List.mem_cons, List.mem_append] at hx' h1
        grind)
      simp only [q, Res.bind_ok, nx]
      refine ⟨i1, h2, es2, q2, o2, ⟨?_, ad.sorted, ?_, ?_⟩, by simpa using od2⟩
      · exact List.Sublist.trans (List.Sublist.append (List.Sublist.refl _) (List.sublist_cons_self _ _)) ad.kept
      · intro v hv
        rcases ad.values v hv with h1 | ⟨h1, h2⟩
        · simp only [List.map_append, List.map_cons, List.mem_append, List.mem_cons] at h1 ⊢
          rcases h1 with h1 | h1 | h1
          · exact .inl (.inl h1)
          · refine .inr ⟨.inl h1, ?_⟩
            subst h1
            intro e he hk
            rcases he with he | he
            · have := hA e he; rw [hk, ho.irrefl] at this; cases this
            · have := hB e he; rw [hk, ho.irrefl] at this; cases this
          · exact .inl (.inr h1)
        · refine .inr ⟨by simp only [List.mem_cons]; exact .inr h1, ?_⟩
          intro e he
          exact h2 e (by simp only [List.mem_append, List.mem_cons] at he ⊢; grind)
      · intro v hv
        rcases List.mem_cons.1 hv with rfl | hv
        · exact ⟨(h.next, m.2), ad.kept.subset (by simp), rfl⟩
        · exact ad.keys v hv

/-- Inserting its own elements finds them all. -/
theorem insertFrom_self (ho : StrictTotalOrder lt) {c : Addr} : ∀ (M A B : List (Addr × V)) (h : Heap V),
    Wf h → Owns h c (A ++ (M ++ B)) → Ascending lt keyOf (A ++ (M ++ B)) →
    ∃ n, insertFrom lt keyOf c (iterTo c (M ++ B)) (iterTo c B) h = .ok ((), h.tick n) := by
  intro M
  induction M with
  | nil => intro A B h w o a; refine ⟨0, ?_⟩; rw [insertFrom]; simp [Heap.tick]
  | cons m M ih =>
    intro A B h w o a
    have hne := iter_ne (e := m) (M := M) (B := B) (A := A) (by simpa using o)
    obtain ⟨tr, rp, bl, io, dd⟩ := id o
    have hm : h.data m.1 = some m.2 := dd m (by simp)
    obtain ⟨n, hn, hc⟩ := insertUnique_owns ho w o a m.2
    rw [insertFrom]
    simp only [Prog.ite_app]
    rw [if_pos (by simpa [iterTo] using hne)]
    simp only [Prog.bind_app, iterTo, List.cons_append, List.map_cons, List.headD_cons, dataOf_eq hm, Res.bind_ok]
    rcases hc with ⟨e, he, hk, q⟩ | ⟨A', B', h', eq, hA, hB, q, o', ef, _, _⟩
    · have nx : nextNode m.1 (h.tick n) = .ok (iterTo c (M ++ B), h.tick n) :=
        Owns.nextNode (A := A) (B := M ++ B) (e := m) (o.tick n)
      obtain ⟨k, q2⟩ := ih (A ++ [m]) B (h.tick n) (w.tick n) (by simpa using o.tick n) (by simpa using a)
      simp only [q, Res.bind_ok, nx]
      exact ⟨n + k, by rw [show iterTo c B = (B.map Prod.fst).headD c from rfl] at q2; rw [q2]; simp [Heap.tick, Nat.add_assoc]⟩
    · exfalso
      have : m ∈ A' ++ B' := by rw [← eq]; simp
      simp only [List.mem_append] at this
      rcases this with h1 | h1
      · have := hA _ h1; rw [ho.irrefl] at this; cases this
      · have := hB _ h1; rw [ho.irrefl] at this; cases this

/-- **C115.** `c.insert(first, last)` where `[first, last)` is any range of iterators of another container `d`: it does what inserting a
copy of those elements taken before the call does (it *is* that call, so all that is proved about `insert(first, last)` applies); every
element of `c` keeps its node, every value whose key was missing is added, no other value is; `d` is unchanged. -/
theorem insert_other_range (ho : StrictTotalOrder lt) {objs : List Addr} {h : Heap V} (r : Reach lt keyOf objs h) {c d : Addr} (hc : c ∈ objs)
    (hd : d ∈ objs) (hcd : c ≠ d) {es A M B : List (Addr × V)} (he : entries c h = .ok (es, h)) (hf : entries d h = .ok (A ++ (M ++ B), h)) :
    ∃ h' es', insertFrom lt keyOf c (iterTo d (M ++ B)) (iterTo d B) h = .ok ((), h') ∧
      insertRange lt keyOf c (M.map Prod.snd) h = .ok ((), h') ∧ Reach lt keyOf objs h' ∧ entries c h' = .ok (es', h') ∧
      Added lt keyOf es (M.map Prod.snd) es' ∧ entries d h' = .ok (A ++ (M ++ B), h') := by
  obtain ⟨o, a, w⟩ := Container.owns_of_entries ho r hc he
  obtain ⟨od, _, _⟩ := Container.owns_of_entries ho r hd hf
  have dj : ∀ x ∈ cells d (A ++ (M ++ B)), x ∉ cells c es := by
    obtain ⟨ws, W, rfl, _⟩ := r.inv ho
    obtain ⟨L, es1, R, e⟩ := split_at hc
    have o1 := W.owns (c, es1) (by rw [e]; simp)
    have q1 := o.entries.symm.trans o1.entries
    simp only [Res.ok.injEq, Prod.mk.injEq, and_true] at q1
    obtain ⟨L2, es2, R2, e2⟩ := split_at hd
    have hw2 : (d, es2) ∈ ws := by rw [e2]; simp
    have o2 := W.owns (d, es2) hw2
    have q2 := od.entries.symm.trans o2.entries
    simp only [Res.ok.injEq, Prod.mk.injEq, and_true] at q2
    intro x hx hx'
    rw [q1] at hx'
    rw [q2] at hx
    rw [e] at hw2
    have dd := (e ▸ W).disj hx'
    simp only [List.mem_append, List.mem_cons, Prod.mk.injEq] at hw2
    rcases hw2 with hw2 | ⟨rfl, _⟩ | hw2
    · exact dd.1 (List.mem_flatMap.2 ⟨_, hw2, hx⟩)
    · exact hcd rfl
    · exact dd.2 (List.mem_flatMap.2 ⟨_, hw2, hx⟩)
  obtain ⟨i1, h', es', q, o', ad, od'⟩ := insertFrom_other ho M A B h es w o a od dj
  refine ⟨h', es', i1.trans q, q, ?_, o'.entries, ad, od'.entries⟩
  exact r.step (.insertRange c (M.map Prod.snd)) ⟨by simpa [Call.args] using hc, by simp⟩ (by
    simp only [call, Prog.bind_app, q, Res.bind_ok, Prog.pure_app])

/-- **C115, own range.** `c.insert(first, last)` with iterators of `c` itself changes nothing. -/
theorem insert_own_range (ho : StrictTotalOrder lt) {objs : List Addr} {h : Heap V} (r : Reach lt keyOf objs h) {c : Addr} (hc : c ∈ objs)
    {A M B : List (Addr × V)} (he : entries c h = .ok (A ++ (M ++ B), h)) :
    ∃ h', insertFrom lt keyOf c (iterTo c (M ++ B)) (iterTo c B) h = .ok ((), h') ∧ h'.node = h.node ∧ h'.data = h.data ∧
      (∀ d fs, entries d h = .ok (fs, h) → d ∈ objs → entries d h' = .ok (fs, h')) := by
  obtain ⟨o, a, w⟩ := Container.owns_of_entries ho r hc he
  obtain ⟨n, q⟩ := insertFrom_self ho M A B h w o a
  refine ⟨h.tick n, q, rfl, rfl, ?_⟩
  intro d fs hf hd
  obtain ⟨od, _, _⟩ := Container.owns_of_entries ho r hd hf
  exact (od.tick n).entries

/-- **C115, constructor.** `C c(first, last)` from any range of iterators of a container makes a new container with exactly those elements,
in new nodes; the source is unchanged. -/
theorem construct_from_range (ho : StrictTotalOrder lt) {objs : List Addr} {h : Heap V} (r : Reach lt keyOf objs h) {d : Addr} (hd : d ∈ objs)
    {A M B : List (Addr × V)} (hf : entries d h = .ok (A ++ (M ++ B), h)) :
    ∃ c h' es', rangeCtorFrom lt keyOf (iterTo d (M ++ B)) (iterTo d B) h = .ok (c, h') ∧ c ∉ objs ∧ Reach lt keyOf (objs ++ [c]) h' ∧
      entries c h' = .ok (es', h') ∧ es'.map Prod.snd = M.map Prod.snd ∧ entries d h' = .ok (A ++ (M ++ B), h') := by
  obtain ⟨od, ad, w⟩ := Container.owns_of_entries ho r hd hf
  obtain ⟨h1, e1, o1, f1, _, _⟩ := newTree_owns w
  have fresh : h.next ∉ objs := by
    intro hm
    obtain ⟨es, o, _, _⟩ := r.owns ho hm
    exact Nat.lt_irrefl _ (o.lt w (x := h.next) (by simp [cells]))
  have r1 : Reach lt keyOf (objs ++ [h.next]) h1 := r.step .create ⟨by simp [Call.args], by simp⟩ (by
    simp only [call, Prog.bind_app, e1, Res.bind_ok, Prog.pure_app])
  have od1 := od.frame w f1 (by simp)
  obtain ⟨h2, es', q, _, r2, s2, add, sd⟩ := insert_other_range ho r1 (c := h.next) (d := d) (by simp) (by simp [hd])
    (fun e => fresh (e ▸ hd)) o1.entries od1.entries
  refine ⟨h.next, h2, es', ?_, fresh, r2, s2, ?_, sd⟩
  · simp only [rangeCtorFrom, Prog.bind_app, e1, Res.bind_ok, q, Prog.pure_app]
  · -- both are strictly ascending lists of the same values
    have p1 : (es'.map Prod.snd).Pairwise fun a b => lt (keyOf a) (keyOf b) = true := by rw [List.pairwise_map]; exact add.sorted
    have p2 : (M.map Prod.snd).Pairwise fun a b => lt (keyOf a) (keyOf b) = true := by
      rw [List.pairwise_map]
      exact List.Pairwise.sublist ((List.sublist_append_left M B).trans (List.sublist_append_right A _)) ad
    have mem : ∀ v, v ∈ es'.map Prod.snd ↔ v ∈ M.map Prod.snd := by
      intro v
      constructor
      · intro hv
        rcases add.values v hv with h1 | ⟨h1, _⟩
        · simp at h1
        · exact h1
      · intro hv
        obtain ⟨e, he, hk⟩ := add.keys v hv
        rcases add.values e.2 (List.mem_map_of_mem he) with h1 | ⟨h1, _⟩
        · simp at h1
        · have := sorted_inj ho (kf := keyOf) p2 h1 hv hk
          rw [← this]; exact List.mem_map_of_mem he
    have nd : ∀ {l : List V}, (l.Pairwise fun a b => lt (keyOf a) (keyOf b) = true) → l.Nodup := by
      intro l hl
      exact hl.imp (by intro a b hab e; subst e; rw [ho.irrefl] at hab; cases hab)
    have pm : (es'.map Prod.snd).Perm (M.map Prod.snd) := (List.perm_ext_iff_of_nodup (nd p1) (nd p2)).2 mem
    exact pm.eq_of_pairwise (le := fun a b => lt (keyOf a) (keyOf b) = true) (by
      intro a b _ _ h1 h2
      have := ho.trans _ _ _ h1 h2
      rw [ho.irrefl] at this; cases this) p1 p2

/-- The hypotheses are met: a set `{2, 5, 7}`, a new set made from its last two elements, and the first inserted into the second. -/
example : ∃ d h, Reach (fun a b : Nat => decide (a < b)) id [d] h ∧ ∃ x y c h' es', rangeCtorFrom (fun a b : Nat => decide (a < b)) id x y h = .ok (c, h') ∧
    entries c h' = .ok (es', h') ∧ es'.map Prod.snd = [5, 7] ∧
    ∃ z h'' es'', insertFrom (fun a b : Nat => decide (a < b)) id c z d h' = .ok ((), h'') ∧ entries c h'' = .ok (es'', h'') ∧ 2 ∈ es''.map Prod.snd := by
  obtain ⟨d, h, es, r, e, q⟩ := Container.exists_reach_257
  match es, q with
  | [a, b, x], q =>
    simp at q
    obtain ⟨c, h', es', q1, nc, r1, s1, v1, sd⟩ := construct_from_range natOrder r (d := d) (A := [a]) (M := [b, x]) (B := []) (by simp) (by simpa using e)
    obtain ⟨h2, es2, q2, _, r2, s2, ad2, _⟩ := insert_other_range natOrder r1 (c := c) (d := d) (A := []) (M := [a, b, x]) (B := []) (by simp) (by simp)
      (fun e => nc (by simp [e])) s1 (by simpa using sd)
    refine ⟨d, h, r, _, _, c, h', es', q1, s1, by simp [v1, q], _, h2, es2, q2, s2, ?_⟩
    obtain ⟨w, hw, hk⟩ := ad2.keys 2 (by simp [q])
    simp only [id] at hk
    rw [← hk]; exact List.mem_map_of_mem hw
  | [], q => simp at q
  | [_], q => simp at q
  | [_, _], q => simp at q
  | _ :: _ :: _ :: _ :: _, q => simp at q

end Range
end Verif.Rb
