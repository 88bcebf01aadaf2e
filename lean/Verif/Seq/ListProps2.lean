import Verif.Seq.ListProps
/-!
# Properties of `ttl::list`, continued: reverse, remove, unique, merge, splice, swap, resize
-/
set_option linter.unusedVariables false
set_option linter.unusedSimpArgs false
set_option linter.unusedSectionVars false
namespace Verif.Seq.ListProps
open Verif Verif.Seq Verif.Seq.DList
variable {T : Type} {h : Heap T} {S : State T} {c d : Addr}

theorem shown_ring (R : Reach S h) (hc : S.Intact c) {es : List (Addr × T)} (hs : Shows h c es) :
    S c = some (.ring es) ∧ Ring h c es := by
  have hg := get_shown R (intact_ex hc) hs
  obtain ⟨ts, hc'⟩ := hc
  rw [State.get_ring hc'] at hg; subst hg
  exact ⟨hc', World.ring R.world hc'⟩

/-! ## C22 -/

/-- **C22.** `reverse()` reverses the order of the elements, which keep their nodes; nothing is allocated, released or copied and no
other list changes. -/
theorem reverse_reverses (R : Reach S h) (hc : S.Intact c) {es : List (Addr × T)} (hs : Shows h c es) :
    ∃ h', exec (.reverse c) h = .ok ((), h') ∧ Shows h' c es.reverse ∧ NoAlloc h h' ∧ OthersKept S h h' [c] := by
  obtain ⟨hc', r⟩ := shown_ring R hc hs
  obtain ⟨h', q, _, k⟩ := reverse_ok r
  obtain ⟨h1, q1, _, s1, o1⟩ := one_list R (.reverse c) hc rfl
  have e : h1 = h' := by have q : exec (.reverse c) h = .ok ((), h') := q; rw [q1] at q; cases q; rfl
  subst e
  rw [State.get_ring hc'] at s1
  exact ⟨h1, q1, s1, Relink.noAlloc k, o1⟩

/-! ## C23 -/

/-- Exactly the elements of `es` that do not satisfy `keep` lost their node. -/
def Frees (h h' : Heap T) (es : List (Addr × T)) (keep : Addr × T → Bool) : Prop :=
  ∀ x, h'.live x = (h.live x && !(es.any fun e => decide (e.1 = x) && !keep e))

theorem frees_of_effect {es fs : List (Addr × T)} {keep : Addr × T → Bool} {h' : Heap T} (r : Ring h c es) (r' : Ring h' c fs)
    (ef : Effect (· ∈ cells c es) (· ∈ cells c fs) h h') (hf : ∀ e, e ∈ fs ↔ e ∈ es ∧ keep e = true) : Frees h h' es keep := by
  intro x
  have nd := r.nodup
  by_cases h1 : x ∈ cells c es
  · rw [r.live x h1, Bool.true_and]
    simp only [cells, List.mem_cons, List.mem_map] at h1
    rcases h1 with rfl | ⟨e, he, rfl⟩
    · rw [r'.head]
      have : es.any (fun e => decide (e.1 = x) && !keep e) = false := by
        rw [List.any_eq_false]
        intro e he
        have : e.1 ≠ x := fun q => (List.nodup_cons.1 nd).1 (by rw [← q]; exact List.mem_map_of_mem he)
        simp [this]
      simp [this]
    · have only : ∀ e' ∈ es, e'.1 = e.1 → e' = e := by
        intro e' he' q
        obtain ⟨m, hm, rfl⟩ := List.getElem_of_mem he
        obtain ⟨n, hn, rfl⟩ := List.getElem_of_mem he'
        have := (List.getElem_inj (h₀ := by simpa using hn) (h₁ := by simpa using hm) (List.nodup_cons.1 nd).2).1 (by simpa using q)
        subst this; rfl
      cases hk : keep e with
      | true =>
        have : es.any (fun e' => decide (e'.1 = e.1) && !keep e') = false := by
          rw [List.any_eq_false]
          intro e' he'
          by_cases q : e'.1 = e.1
          · rw [only e' he' q]; simp [hk]
          · simp [q]
        rw [this, (r'.data e ((hf e).2 ⟨he, hk⟩)).1]; rfl
      | false =>
        have : es.any (fun e' => decide (e'.1 = e.1) && !keep e') = true := by
          rw [List.any_eq_true]; exact ⟨e, he, by simp [hk]⟩
        rw [this]
        refine ef.shrunk e.1 (by simp only [cells, List.mem_cons]; exact .inr (List.mem_map_of_mem he)) ?_
        intro q
        simp only [cells, List.mem_cons, List.mem_map] at q
        rcases q with q | ⟨e', he', q⟩
        · exact (List.nodup_cons.1 nd).1 (by rw [← q]; exact List.mem_map_of_mem he)
        · have := only e' ((hf e').1 he').1 q
          rw [this] at he'
          rw [((hf e).1 he').2] at hk; cases hk
  · have h2 : x ∉ cells c fs := by
      intro q; apply h1
      simp only [cells, List.mem_cons, List.mem_map] at q ⊢
      rcases q with q | ⟨e, he, q⟩
      · exact .inl q
      · exact .inr ⟨e, ((hf e).1 he).1, q⟩
    have h3 : es.any (fun e => decide (e.1 = x) && !keep e) = false := by
      rw [List.any_eq_false]
      intro e he
      have : e.1 ≠ x := fun q => h1 (by simp only [cells, List.mem_cons]; exact .inr (by rw [← q]; exact List.mem_map_of_mem he))
      simp [this]
    rw [h3]
    cases l : h.live x with
    | true => rw [(ef.frame x h1 h2 l).live, l]; rfl
    | false => rw [ef.dead x h1 h2 l]; rfl

/-- **C23.** `remove_if(p)` keeps exactly the elements that do not satisfy `p`, in order and in their nodes, and releases exactly
the nodes of the others. -/
theorem remove_if_removes (R : Reach S h) (hc : S.Intact c) {es : List (Addr × T)} (hs : Shows h c es) (p : T → Bool) :
    ∃ h', exec (.removeIf c p) h = .ok ((), h') ∧ Shows h' c (es.filter fun e => !p e.2) ∧ Frees h h' es (fun e => !p e.2) ∧
      OthersKept S h h' [c] := by
  obtain ⟨hc', r⟩ := shown_ring R hc hs
  obtain ⟨h', q, r', ef, _⟩ := removeIf_ok R.world.wf r p
  obtain ⟨h1, q1, _, s1, o1⟩ := one_list R (.removeIf c p) hc rfl
  have e : h1 = h' := by have q : exec (.removeIf c p) h = .ok ((), h') := q; rw [q1] at q; cases q; rfl
  subst e
  rw [State.get_ring hc'] at s1
  exact ⟨h1, q1, s1, frees_of_effect r r' ef (fun e => List.mem_filter), o1⟩

/-- **C23.** `remove(v)`, `v` being an object outside the list and `eqv` the `operator==` of the elements, keeps exactly the elements
that are not equal to `v`. -/
theorem remove_removes_partial (eqv : T → T → Bool) (R : Reach S h) (hc : S.Intact c) {es : List (Addr × T)} (hs : Shows h c es) (v : T) :
    ∃ h', exec (.remove c eqv v) h = .ok ((), h') ∧ Shows h' c (es.filter fun e => !eqv e.2 v) ∧
      Frees h h' es (fun e => !eqv e.2 v) ∧ OthersKept S h h' [c] := by
  obtain ⟨hc', r⟩ := shown_ring R hc hs
  obtain ⟨h', q, r', ef, _⟩ := remove_ok R.world.wf r eqv v
  obtain ⟨h1, q1, _, s1, o1⟩ := one_list R (.remove c eqv v) hc rfl
  have e : h1 = h' := by have q : exec (.remove c eqv v) h = .ok ((), h') := q; rw [q1] at q; cases q; rfl
  subst e
  rw [State.get_ring hc'] at s1
  exact ⟨h1, q1, s1, frees_of_effect r r' ef (fun e => List.mem_filter), o1⟩

/-- Limit of C23: `c.remove(x)` where `x` refers to an element of `c` other than the last one reads that element after
releasing it. -/
theorem remove_own_element_ub {eqv : T → T → Bool} (R : Reach S h) (hc : S.Intact c) {A B : List (Addr × T)} {a : Addr} {v : T}
    (hs : Shows h c (A ++ (a, v) :: B)) (hB : B ≠ []) (hv : eqv v v = true) :
    DList.remove c eqv (.elem a) h = .ub .access := by
  obtain ⟨hc', r⟩ := shown_ring R hc hs
  cases B with
  | nil => exact absurd rfl hB
  | cons b B =>
    have l0 : h.live (posOf c ((A ++ (a, v) :: b :: B).map Prod.fst)) = true := (Ring.pos_live (A := []) r).1
    have := removeLoop_alias hv A (A := []) (c := c) R.world.wf r _ rfl
    simp only [DList.remove, Prog.bind_app, getNext_eq r.head, Res.bind_ok, r.next_head, getNext_eq l0]
    exact this

/-! ## C24 -/

/-- The runs of a sequence: maximal groups of consecutive elements that `pred` relates to the first of the group. -/
structure Runs (pred : T → T → Bool) (es : List (Addr × T)) (gs : List ((Addr × T) × List (Addr × T))) : Prop where
  /-- together the groups are the sequence -/
  all : es = (gs.map fun g => g.1 :: g.2).flatten
  /-- the further elements of a group are equal to its first -/
  same : ∀ g ∈ gs, ∀ e ∈ g.2, pred e.2 g.1.2 = true
  /-- the first of the next group is not -/
  maximal : ∀ k (hk : k + 1 < gs.length), pred (gs[k + 1].1.2) (gs[k].1.2) = false

theorem dedup_runs {pred : T → T → Bool} : ∀ (R : List (Addr × T)) (q : Addr × T),
    ∃ X gs, Runs pred (q :: R) ((q, X) :: gs) ∧ dedup pred q R = gs.map Prod.fst
  | [], q => ⟨[], [], ⟨by simp, by simp, by simp⟩, rfl⟩
  | e :: R, q => by
    cases hp : pred e.2 q.2 with
    | true =>
      obtain ⟨X, gs, hr, hd⟩ := dedup_runs (pred := pred) R q
      refine ⟨e :: X, gs, ⟨?_, ?_, ?_⟩, by simp [dedup, hp, hd]⟩
      · have := hr.all; simp at this ⊢; exact this
      · intro g hg x hx
        rcases List.mem_cons.1 hg with rfl | hg
        · rcases List.mem_cons.1 hx with rfl | hx
          · exact hp
          · exact hr.same (q, X) (by simp) x hx
        · exact hr.same g (by simp [hg]) x hx
      · intro k hk
        have := hr.maximal k (by simpa using hk)
        cases k with
        | zero => simpa using this
        | succ k => simpa using this
    | false =>
      obtain ⟨X, gs, hr, hd⟩ := dedup_runs (pred := pred) R e
      refine ⟨[], (e, X) :: gs, ⟨?_, ?_, ?_⟩, by simp [dedup, hp, hd]⟩
      · have := hr.all; simp at this ⊢; exact this
      · intro g hg x hx
        rcases List.mem_cons.1 hg with rfl | hg
        · cases hx
        · exact hr.same g hg x hx
      · intro k hk
        cases k with
        | zero => exact hp
        | succ k => have := hr.maximal k (by simpa using hk); simpa using this

theorem dedup_sublist {pred : T → T → Bool} : ∀ (R : List (Addr × T)) (q : Addr × T), (dedup pred q R).Sublist R
  | [], q => .slnil
  | e :: R, q => by
    unfold dedup; split
    · exact (dedup_sublist R q).cons _
    · exact (dedup_sublist R e).cons_cons _

/-- **C24.** `unique(pred)` keeps exactly the first element of every run, in its node, and releases the nodes of the others. (For
`unique()` `pred` is the element's `operator==`.) -/
theorem unique_keeps_first_of_runs (R : Reach S h) (hc : S.Intact c) {es : List (Addr × T)} (hs : Shows h c es) (pred : T → T → Bool) :
    ∃ h' gs, exec (.unique c pred) h = .ok ((), h') ∧ Runs pred es gs ∧ Shows h' c (gs.map Prod.fst) ∧
      Frees h h' es (fun e => decide (e.1 ∈ (gs.map Prod.fst).map Prod.fst)) ∧ OthersKept S h h' [c] := by
  obtain ⟨hc', r⟩ := shown_ring R hc hs
  obtain ⟨h', q, r', ef, _⟩ := unique_ok R.world.wf r pred
  obtain ⟨h1, q1, _, s1, o1⟩ := one_list R (.unique c pred) hc rfl
  have e : h1 = h' := by have q : exec (.unique c pred) h = .ok ((), h') := q; rw [q1] at q; cases q; rfl
  subst e
  rw [State.get_ring hc'] at s1
  have key : ∃ gs, Runs pred es gs ∧ uniq pred es = gs.map Prod.fst ∧ (uniq pred es).Sublist es := by
    cases es with
    | nil => exact ⟨[], ⟨by simp, by simp, by simp⟩, rfl, .slnil⟩
    | cons e es =>
      obtain ⟨X, gs, hr, hd⟩ := dedup_runs (pred := pred) es e
      exact ⟨_, hr, by simp [uniq, hd], (dedup_sublist es e).cons_cons _⟩
  obtain ⟨gs, hr, hu, sub⟩ := key
  rw [hu] at s1 ef r' sub
  refine ⟨h1, gs, q1, hr, s1, frees_of_effect r r' ef ?_, o1⟩
  intro e
  constructor
  · intro he; exact ⟨sub.subset he, decide_eq_true (List.mem_map_of_mem he)⟩
  · rintro ⟨he, hk⟩
    simp only [decide_eq_true_eq] at hk
    obtain ⟨e', he', q⟩ := List.mem_map.1 hk
    have nd := (List.nodup_cons.1 r.nodup).2
    have he'' := sub.subset he'
    obtain ⟨m, hm, rfl⟩ := List.getElem_of_mem he
    obtain ⟨n, hn, rfl⟩ := List.getElem_of_mem he''
    have := (List.getElem_inj (h₀ := by simpa using hn) (h₁ := by simpa using hm) nd).1 (by simpa using q)
    subst this; exact he'

/-! ## C25 -/

theorem merge_eq {lt : T → T → Bool} : ∀ (xs ys : List (Addr × T)),
    List.merge xs ys (fun x y => !lt y.2 x.2) = Algo.mergeSeq (fun a b : Addr × T => lt a.2 b.2) xs ys
  | [], ys => by simp [Algo.mergeSeq]
  | x :: xs, [] => by simp [Algo.mergeSeq]
  | x :: xs, y :: ys => by
    rw [List.cons_merge_cons, Algo.mergeSeq]
    cases hl : lt y.2 x.2 with
    | true => simp [merge_eq (x :: xs) ys]
    | false => simp [merge_eq xs (y :: ys)]
termination_by xs ys => xs.length + ys.length

/-- **C25.** `a.merge(b)` of two sorted lists (any strict weak ordering): `a` becomes sorted and consists of the elements of both in
their nodes; among equivalent elements those of `a` come first, each list's in their old order; `b` becomes empty; nothing is
allocated, released or copied. -/
theorem merge_merges {lt : T → T → Bool} (hlt : StrictWeakOrder lt) (R : Reach S h) (hc : S.Intact c) (hd : S.Intact d) (hcd : c ≠ d)
    {es fs : List (Addr × T)} (hs : Shows h c es) (hf : Shows h d fs) (se : SortedBy lt es) (sf : SortedBy lt fs) :
    ∃ h' gs, exec (.merge c d lt) h = .ok ((), h') ∧ Shows h' c gs ∧ Shows h' d [] ∧ SortedBy lt gs ∧ gs.Perm (es ++ fs) ∧
      (∀ v, gs.filter (fun e => !lt v e.2 && !lt e.2 v) =
        es.filter (fun e => !lt v e.2 && !lt e.2 v) ++ fs.filter (fun e => !lt v e.2 && !lt e.2 v)) ∧
      NoAlloc h h' ∧ OthersKept S h h' [c, d] := by
  obtain ⟨hc', r⟩ := shown_ring R hc hs
  obtain ⟨hd', r2⟩ := shown_ring R hd hf
  obtain ⟨h', q, _, _, k⟩ := merge_ok (lt := lt) r r2 (R.world.disj c _ d _ hc' hd' hcd)
  obtain ⟨h1, q1, _, s1, s2, o1⟩ := two_lists R (.merge c d lt) ⟨hc, hd, hcd, by rw [State.get_ring hd']; exact sf⟩ hcd rfl
  have e : h1 = h' := by have q : exec (.merge c d lt) h = .ok ((), h') := q; rw [q1] at q; cases q; rfl
  subst e
  rw [State.get_ring hc', State.get_ring hd', merge_eq] at s1
  have hl2 : StrictWeakOrder (fun a b : Addr × T => lt a.2 b.2) :=
    ⟨fun a => hlt.irrefl _, fun a b c => hlt.trans _ _ _, fun a b c => hlt.negTrans _ _ _⟩
  refine ⟨h1, _, q1, s1, s2, Algo.mergeSeq_sorted hl2 se sf, Algo.mergeSeq_perm _ _ _, ?_, Relink.noAlloc k, o1⟩
  intro v
  exact Algo.mergeSeq_stable hl2 se (v := (0, v))

end Verif.Seq.ListProps
