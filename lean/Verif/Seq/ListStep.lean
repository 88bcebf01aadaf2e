import Verif.Seq.ListApi
/-!
# Every legal call does what the specification says
-/
set_option linter.unusedVariables false
set_option linter.unusedSimpArgs false
namespace Verif.Seq.DList
open Verif Verif.Seq
variable {T : Type}

/-! ## Iterators -/

theorem advance_ok {h : Heap T} {z : Addr} : ∀ (i : Nat) {es : List (Addr × T)} {p : Addr}, Laid h p es z → i ≤ es.length →
    advance i (posOf z (es.map Prod.fst)) h = .ok (posOf z ((es.drop i).map Prod.fst), h)
  | 0, es, p, l, hi => by simp [advance]
  | i + 1, [], p, l, hi => by simp at hi
  | i + 1, e :: es, p, l, hi => by
    obtain ⟨l1, l2⟩ := l.data e (by simp)
    simp only [advance, List.map_cons, posOf_cons, Prog.bind_app, getNext_eq l1, Res.bind_ok, l.tail.next,
      advance_ok i l.tail (by simpa using hi), List.drop_succ_cons]

theorem iterAt_ok {h : Heap T} {c : Addr} {es : List (Addr × T)} (r : Ring h c es) {i : Nat} (hi : i ≤ es.length) :
    iterAt c i h = .ok (posOf c ((es.drop i).map Prod.fst), h) := by
  simp only [iterAt, Prog.bind_app, getNext_eq r.head, Res.bind_ok, r.next_head, advance_ok i r.laid hi]

/-! ## Changing one or two lists -/

theorem elems_ring (es : List (Addr × T)) : (LState.ring es).elems = es := rfl

theorem World.ring {h : Heap T} {S : State T} (W : World iface h S) {c : Addr} {es : List (Addr × T)}
    (hc : S c = some (.ring es)) : Ring h c es := W.own c _ hc

theorem World.cleared {h : Heap T} {S : State T} (W : World iface h S) {c : Addr}
    (hc : S c = some .cleared) : Cleared h c := W.own c _ hc

theorem State.get_ring {S : State T} {c : Addr} {es : List (Addr × T)} (hc : S c = some (.ring es)) : S.get c = es := by
  simp [State.get, hc, LState.elems]

theorem State.get_cleared {S : State T} {c : Addr} (hc : S c = some .cleared) : S.get c = [] := by
  simp [State.get, hc, LState.elems]

theorem World.one {h h' : Heap T} {S : State T} (W : World iface h S) {c : Addr} {es es' : List (Addr × T)}
    (hc : S c = some (.ring es)) (ef : Effect (· ∈ cells c es) (· ∈ cells c es') h h') (r : Ring h' c es') :
    World iface h' (S.put c es') := by
  refine World.step1 W c (some (.ring es')) (ef.congr ?_ ?_) ?_
  · intro x; rw [hc]; constructor
    · intro hx; exact ⟨_, rfl, hx⟩
    · rintro ⟨s, q, hx⟩; cases q; exact hx
  · intro x; constructor
    · intro hx; exact ⟨_, rfl, hx⟩
    · rintro ⟨s, q, hx⟩; cases q; exact hx
  · intro s q; cases q; exact r

theorem World.new {h h' : Heap T} {S : State T} (W : World iface h S) {es' : List (Addr × T)}
    (ef : Effect (fun _ => False) (· ∈ cells h.fresh es') h h') (r : Ring h' h.fresh es') :
    World iface h' (S.put h.fresh es') := by
  have h0 : S h.fresh = none := by
    cases q : S h.fresh with
    | none => rfl
    | some s =>
      have := W.wf.ne_fresh (iface.live (W.own _ _ q) _ (iface.self _ _))
      exact absurd rfl this
  refine World.step1 W h.fresh (some (.ring es')) (ef.congr ?_ ?_) ?_
  · intro x; rw [h0]; simp
  · intro x; constructor
    · intro hx; exact ⟨_, rfl, hx⟩
    · rintro ⟨s, q, hx⟩; cases q; exact hx
  · intro s q; cases q; exact r

theorem World.two {h h' : Heap T} {S : State T} (W : World iface h S) {c d : Addr} {s t : LState T}
    {es' fs' : List (Addr × T)} (hcd : c ≠ d) (hc : S c = some s) (hd : S d = some t)
    (k : Relink (fun x => x ∈ cells c s.elems ∨ x ∈ cells d t.elems) h h') (r : Ring h' c es') (r' : Ring h' d fs')
    (pm : List.Perm (es' ++ fs') (s.elems ++ t.elems)) : World iface h' ((S.put c es').put d fs') := by
  have mm : ∀ x, (x ∈ es'.map Prod.fst ∨ x ∈ fs'.map Prod.fst) ↔ (x ∈ s.elems.map Prod.fst ∨ x ∈ t.elems.map Prod.fst) := by
    intro x
    rw [← List.mem_append, ← List.mem_append, ← List.map_append, ← List.map_append]
    exact (pm.map _).mem_iff
  have dj : ∀ x ∈ cells c s.elems, x ∉ cells d t.elems := W.disj c s d t hc hd hcd
  have ns : (s.elems.map Prod.fst).Nodup := by
    cases s with
    | ring es => exact (List.nodup_cons.1 (World.ring W hc).nodup).2
    | cleared => simp [LState.elems]
  have nt : (t.elems.map Prod.fst).Nodup := by
    cases t with
    | ring es => exact (List.nodup_cons.1 (World.ring W hd).nodup).2
    | cleared => simp [LState.elems]
  have nn : (es'.map Prod.fst ++ fs'.map Prod.fst).Nodup := by
    rw [← List.map_append, (pm.map _).nodup_iff, List.map_append, List.nodup_append]
    refine ⟨ns, nt, ?_⟩
    intro a ha b hb q
    subst q
    exact dj a (by simp only [cells, List.mem_cons]; exact .inr ha) (by simp only [cells, List.mem_cons]; exact .inr hb)
  refine World.step2 W (sa' := .ring es') (sb' := .ring fs') hcd hc hd (k.effect W.wf ?_) r r' ?_
  · intro x
    have := mm x
    simp only [iface, cells, elems_ring, List.mem_cons]
    revert this
    generalize (x ∈ es'.map Prod.fst) = p1
    generalize (x ∈ fs'.map Prod.fst) = p2
    generalize (x ∈ List.map Prod.fst s.elems) = p3
    generalize (x ∈ List.map Prod.fst t.elems) = p4
    clear mm dj ns nt nn pm k r r'
    grind
  · intro x h1 h2
    simp only [iface, cells, elems_ring, List.mem_cons] at h1 h2
    rcases h1 with rfl | h1
    · rcases h2 with h2 | h2
      · exact hcd h2
      · rcases (mm x).1 (.inr h2) with q | q
        · exact (by cases s with
            | ring es => exact (List.nodup_cons.1 (World.ring W hc).nodup).1 q
            | cleared => simp [LState.elems] at q)
        · exact dj x (by simp [cells]) (by simp only [cells, List.mem_cons]; exact .inr q)
    · rcases h2 with rfl | h2
      · rcases (mm x).1 (.inl h1) with q | q
        · exact dj x (by simp only [cells, List.mem_cons]; exact .inr q) (by simp [cells])
        · exact (by cases t with
            | ring es => exact (List.nodup_cons.1 (World.ring W hd).nodup).1 q
            | cleared => simp [LState.elems] at q)
      · exact (List.nodup_append.1 nn).2.2 x h1 x h2 rfl

/-! ## Splitting sequences at indices -/

theorem split_at {α : Type} (es : List α) (i : Nat) : es = es.take i ++ es.drop i := (List.take_append_drop i es).symm

theorem split_elem {α : Type} {es : List α} {i : Nat} (hi : i < es.length) :
    es = es.take i ++ es[i] :: es.drop (i + 1) := by simp

theorem split_range {α : Type} {es : List α} {j k : Nat} (hj : j < k) (hk : k ≤ es.length) :
    ∃ f M, slice j k es = f :: M ∧ es.drop j = (f :: M) ++ es.drop k := by
  have hl : j < es.length := by omega
  have e : slice j k es ++ es.drop k = es.drop j := by
    unfold slice
    have : es.drop k = (es.drop j).drop (k - j) := by rw [List.drop_drop]; congr 1; omega
    rw [this, List.take_append_drop]
  cases q : slice j k es with
  | nil =>
    have := congrArg List.length q
    simp [slice] at this; omega
  | cons f M => exact ⟨f, M, rfl, by rw [← e, q]⟩

end Verif.Seq.DList
