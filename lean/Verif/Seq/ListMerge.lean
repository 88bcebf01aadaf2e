import Verif.Seq.ListProps5
/-!
# `list::merge` of a list with itself (C114)

`std::list::merge` leaves `a.merge(a)` alone.  `ttl::list::merge` does not test for it.
-/
set_option linter.unusedVariables false
set_option linter.unusedSimpArgs false
set_option linter.unusedSectionVars false
namespace Verif.Seq.ListProps
open Verif Verif.Seq Verif.Seq.DList
variable {T : Type} {h : Heap T} {S : State T} {c d : Addr}

/-- Moving a node of a list further back in front of a node of the same list, as the loop of `merge` does. -/
theorem move_within {h : Heap T} {c : Addr} {A B C : List (Addr × T)} {e x : Addr × T} (r : Ring h c (A ++ e :: (B ++ x :: C))) :
    ∃ h', unlink e.1 h = .ok ((), unl h e.1) ∧ insertBefore x.1 e.1 (unl h e.1) = .ok (e.1, h') ∧
      h.next e.1 = posOf c ((B ++ x :: C).map Prod.fst) ∧ Ring h' c (A ++ (B ++ e :: x :: C)) ∧
      Relink (· ∈ cells c (A ++ e :: (B ++ x :: C))) h h' := by
  have hl : Links h c (A.map Prod.fst ++ e.1 :: (B ++ x :: C).map Prod.fst) := by have := r.links; simpa using this
  have hn : (c :: (A.map Prod.fst ++ e.1 :: (B ++ x :: C).map Prod.fst)).Nodup := by have := r.nodup; simpa using this
  obtain ⟨e1, e2⟩ := hl.at_node
  obtain ⟨le, ve⟩ := r.data e (by simp)
  have mn : h.next e.1 ∈ cells c (A ++ e :: (B ++ x :: C)) := by rw [e1]; cases B <;> simp [cells]
  have mp : h.prev e.1 ∈ cells c (A ++ e :: (B ++ x :: C)) := by
    have := Links.prev_pos hl
    simp only [posOf_cons] at this
    simp only [cells, List.mem_cons, List.map_append, List.mem_append] at this ⊢; grind
  have nx : h.next e.1 ≠ e.1 := by
    rw [e1]
    intro q
    simp only [List.nodup_cons, List.nodup_append] at hn
    obtain ⟨_, _, ⟨hn', _⟩, _⟩ := hn
    apply hn'
    cases B with
    | nil => simp only [List.nil_append, List.map_cons, posOf_cons] at q ⊢; rw [q]; simp
    | cons b B => simp only [List.cons_append, List.map_cons, posOf_cons] at q ⊢; rw [q]; simp
  have u := unlink_eq le (r.live _ mn) (r.live _ mp) nx
  have rl1 : Relink (· ∈ cells c (A ++ e :: (B ++ x :: C))) h (unl h e.1) := by
    refine ⟨rfl, rfl, rfl, rfl, ?_, ?_⟩
    · intro y hy
      have q1 : y ≠ h.prev e.1 := fun q => hy (q ▸ mp)
      simp [unl, upd, q1]
    · intro y hy
      have q1 : y ≠ h.next e.1 := fun q => hy (q ▸ mn)
      simp [unl, upd, q1]
  have r1 : Ring (unl h e.1) c ((A ++ B) ++ x :: C) := by
    refine Ring.relink rl1 r.head r.bare ?_ ?_ ?_
    · simp only [List.map_append, List.map_cons, List.nodup_cons, List.mem_append, List.nodup_append, List.mem_cons] at hn ⊢; grind
    · intro y hy; exact r.data y (by simp only [List.mem_append, List.mem_cons] at hy ⊢; grind)
    · have := unl_links hl hn; simpa using this
  have hec : e.1 ∉ cells c ((A ++ B) ++ x :: C) := by
    simp only [cells, List.map_append, List.map_cons, List.nodup_cons, List.mem_append, List.nodup_append, List.mem_cons] at hn ⊢; grind
  obtain ⟨m1, m2⟩ := r1.pos_cells (A := A ++ B) (B := x :: C)
  change x.1 ∈ _ at m1; change (unl h e.1).prev x.1 ∈ _ at m2
  have hl2 : Links (unl h e.1) c ((A ++ B).map Prod.fst ++ (x :: C).map Prod.fst) := by have := r1.links; simpa using this
  have hn2 : (c :: ((A ++ B).map Prod.fst ++ (x :: C).map Prod.fst)).Nodup := by have := r1.nodup; simpa using this
  have ib := insertBefore_eq (h := unl h e.1) (p := x.1) (n := e.1) (r1.live _ m1) (r1.live _ m2) le
  have sub : ∀ y, y ∈ cells c ((A ++ B) ++ x :: C) → y ∈ cells c (A ++ e :: (B ++ x :: C)) := by
    intro y hy; simp only [cells, List.mem_cons, List.map_append, List.map_cons, List.mem_append] at hy ⊢; grind
  have rl2 : Relink (· ∈ cells c (A ++ e :: (B ++ x :: C))) (unl h e.1) (insB (unl h e.1) x.1 e.1) := by
    refine ⟨rfl, rfl, rfl, rfl, ?_, ?_⟩
    · intro y hy
      have q1 : y ≠ (unl h e.1).prev x.1 := fun q => hy (sub _ (q ▸ m2))
      have q2 : y ≠ e.1 := fun q => hy (by rw [q]; simp [cells])
      simp [insB, upd, q1, q2]
    · intro y hy
      have q1 : y ≠ x.1 := fun q => hy (sub _ (q ▸ m1))
      have q2 : y ≠ e.1 := fun q => hy (by rw [q]; simp [cells])
      simp [insB, upd, q1, q2]
  refine ⟨_, u, ib, e1, ?_, rl1.trans rl2⟩
  refine Ring.relink rl2 r1.head r1.bare ?_ ?_ ?_
  · simp only [List.map_append, List.map_cons, List.nodup_cons, List.mem_append, List.nodup_append, List.mem_cons] at hn ⊢; grind
  · intro y hy
    by_cases q : y = e
    · subst q; exact ⟨le, ve⟩
    · exact r1.data y (by simp only [List.mem_append, List.mem_cons] at hy ⊢; grind)
  · have := insB_links hl2 hn2 (n := e.1) (by simpa only [cells, List.map_append] using hec)
    simpa using this

/-- One step of the loop over a node that is not greater than `*o`. -/
theorem mergeLoop_skip {lt : T → T → Bool} {A B C : List (Addr × T)} {e x : Addr × T} (he : e ∈ A ++ x :: C)
    (r : Ring h c (A ++ x :: C)) (hlt : lt e.2 x.2 = false) :
    mergeLoop c c lt e.1 x.1 h = mergeLoop c c lt e.1 (posOf c (C.map Prod.fst)) h := by
  have hne : ∀ y ∈ A ++ x :: C, y.1 ≠ c := by
    intro y hy q
    exact (List.nodup_cons.1 r.nodup).1 (List.mem_map.2 ⟨y, hy, q⟩)
  obtain ⟨le, ve⟩ := r.data e he
  obtain ⟨li, vi⟩ := r.data x (by simp)
  have hl : Links h c (A.map Prod.fst ++ x.1 :: C.map Prod.fst) := by have := r.links; simpa using this
  rw [mergeLoop]
  simp only [Prog.ite_app]
  rw [if_pos ⟨hne e he, hne x (by simp)⟩]
  simp only [Prog.bind_app, getVal_eq le ve, getVal_eq li vi, Res.bind_ok, Prog.ite_app]
  rw [if_neg (by rw [hlt]; simp)]
  simp only [getNext_eq li, Res.bind_ok, hl.at_node.1]

/-- Several such steps. -/
theorem mergeLoop_skips {lt : T → T → Bool} {e : Addr × T} : ∀ {B A C : List (Addr × T)}, e ∈ A ++ (B ++ C) →
    Ring h c (A ++ (B ++ C)) → (∀ b ∈ B, lt e.2 b.2 = false) →
    mergeLoop c c lt e.1 (posOf c ((B ++ C).map Prod.fst)) h = mergeLoop c c lt e.1 (posOf c (C.map Prod.fst)) h
  | [], A, C, _, _, _ => rfl
  | b :: B, A, C, he, r, hb => by
    have := mergeLoop_skip (A := A) (B := []) (C := B ++ C) (x := b) he r (hb b (by simp))
    show mergeLoop c c lt e.1 b.1 h = _
    rw [this]
    exact mergeLoop_skips (A := A ++ [b]) (by simpa using he) (by simpa using r) (fun y hy => hb y (by simp [hy]))

/-- One step of the loop over a node that is greater than `*o`. -/
theorem mergeLoop_move {lt : T → T → Bool} {A B C : List (Addr × T)} {e x : Addr × T} (r : Ring h c (A ++ e :: (B ++ x :: C)))
    (hlt : lt e.2 x.2 = true) :
    ∃ h', mergeLoop c c lt e.1 x.1 h = mergeLoop c c lt (posOf c ((B ++ x :: C).map Prod.fst)) e.1 h' ∧ Ring h' c (A ++ (B ++ e :: x :: C)) ∧
      Relink (· ∈ cells c (A ++ e :: (B ++ x :: C))) h h' := by
  have hne : ∀ y ∈ A ++ e :: (B ++ x :: C), y.1 ≠ c := by
    intro y hy q
    exact (List.nodup_cons.1 r.nodup).1 (List.mem_map.2 ⟨y, hy, q⟩)
  obtain ⟨le, ve⟩ := r.data e (by simp)
  obtain ⟨li, vi⟩ := r.data x (by simp)
  obtain ⟨h', u, ib, nx, r', rl⟩ := move_within r
  refine ⟨h', ?_, r', rl⟩
  rw [mergeLoop]
  simp only [Prog.ite_app]
  rw [if_pos ⟨hne e (by simp), hne x (by simp)⟩]
  simp only [Prog.bind_app, getVal_eq le ve, getVal_eq li vi, Res.bind_ok, Prog.ite_app]
  rw [if_pos hlt]
  simp only [getNext_eq le, Res.bind_ok, u, ib, nx]

open Lean.Order in
/-- While an equivalent of `*o` lies between `*o` and a greater element, the loop keeps exchanging the two equivalents for ever. -/
theorem mergeLoop_cycles {lt : T → T → Bool} (hlt : StrictWeakOrder lt) {c : Addr} : ∀ (h : Heap T) (A B₁ B₂ C : List (Addr × T)) (e x : Addr × T),
    Ring h c (A ++ e :: ((B₁ ++ B₂) ++ x :: C)) → B₁ ++ B₂ ≠ [] → (∀ b ∈ B₁ ++ B₂, lt e.2 b.2 = false ∧ lt b.2 e.2 = false) → lt e.2 x.2 = true →
    mergeLoop c c lt e.1 (posOf c ((B₂ ++ x :: C).map Prod.fst)) h = .diverge := by
  refine mergeLoop.fixpoint_induct (T := T) c c lt (motive := fun f => ∀ (h : Heap T) (A B₁ B₂ C : List (Addr × T)) (e x : Addr × T),
    Ring h c (A ++ e :: ((B₁ ++ B₂) ++ x :: C)) → B₁ ++ B₂ ≠ [] → (∀ b ∈ B₁ ++ B₂, lt e.2 b.2 = false ∧ lt b.2 e.2 = false) → lt e.2 x.2 = true →
    f e.1 (posOf c ((B₂ ++ x :: C).map Prod.fst)) h = .diverge) ?_ ?_
  · intro D chain ih h A B₁ B₂ C e x r hB hb hx
    classical
    let F := CCPO.csup chain
    let i := posOf c ((B₂ ++ x :: C).map Prod.fst)
    let g : Addr → Addr → Prog (Heap T) Unit := fun p q m => if p = e.1 ∧ q = i ∧ m = h then .diverge else F p q m
    have le : F ⊑ g := csup_le chain fun f hf => by
      intro p q m
      by_cases e' : p = e.1 ∧ q = i ∧ m = h
      · obtain ⟨rfl, rfl, rfl⟩ := e'
        have := ih f hf m A B₁ B₂ C e x r hB hb hx
        simp only [g, and_self, if_true, i, this]
        exact PartialOrder.rel_refl
      · simp only [g, if_neg e']
        exact le_csup chain hf p q m
    have := le e.1 i h
    simp only [g, and_self, if_true] at this
    have fin : ∀ x : Res (Unit × Heap T), FlatOrder.rel (b := Res.diverge) x .diverge → x = .diverge := by
      intro x q; cases q <;> rfl
    exact fin _ this
  · intro f ih h A B₁ B₂ C e x r hB hb hx
    have hne : ∀ y ∈ A ++ e :: ((B₁ ++ B₂) ++ x :: C), y.1 ≠ c := by
      intro y hy q
      exact (List.nodup_cons.1 r.nodup).1 (List.mem_map.2 ⟨y, hy, q⟩)
    obtain ⟨le, ve⟩ := r.data e (by simp)
    cases B₂ with
    | cons b B₂ =>
      obtain ⟨li, vi⟩ := r.data b (by simp)
      have hl : Links h c ((A ++ e :: B₁).map Prod.fst ++ b.1 :: (B₂ ++ x :: C).map Prod.fst) := by have := r.links; simpa using this
      show (_ : Prog (Heap T) Unit) h = _
      simp only [List.cons_append, List.map_cons, posOf_cons, Prog.ite_app]
      rw [if_pos ⟨hne e (by simp), hne b (by simp)⟩]
      simp only [Prog.bind_app, getVal_eq le ve, getVal_eq li vi, Res.bind_ok, Prog.ite_app]
      rw [if_neg (by rw [(hb b (by simp)).1]; simp)]
      simp only [getNext_eq li, Res.bind_ok, hl.at_node.1]
      exact ih h A (B₁ ++ [b]) B₂ C e x (by simpa using r) (by simp) (fun y hy => hb y (by simpa using hy)) hx
    | nil =>
      rw [List.append_nil] at r hB hb
      obtain ⟨li, vi⟩ := r.data x (by simp)
      obtain ⟨h', u, ib, nx, r', rl⟩ := move_within r
      simp only [List.nil_append, List.map_cons, posOf_cons, Prog.ite_app]
      rw [if_pos ⟨hne e (by simp), hne x (by simp)⟩]
      simp only [Prog.bind_app, getVal_eq le ve, getVal_eq li vi, Res.bind_ok, Prog.ite_app]
      rw [if_pos hx]
      simp only [getNext_eq le, Res.bind_ok, u, ib, nx]
      cases B₁ with
      | nil => exact absurd rfl hB
      | cons b B =>
        have q := ih h' A B [e] C b x (by simpa using r') (by simp) (by
          intro y hy
          obtain ⟨b1, b2⟩ := hb b (by simp)
          rcases List.mem_append.1 hy with hy | hy
          · obtain ⟨y1, y2⟩ := hb y (by simp [hy])
            exact ⟨hlt.negTrans _ _ _ b2 y1, hlt.negTrans _ _ _ y2 b1⟩
          · simp only [List.mem_singleton] at hy; subst hy; exact ⟨b2, b1⟩) (by
          obtain ⟨b1, b2⟩ := hb b (by simp)
          cases g : lt b.2 x.2 with
          | true => rfl
          | false => rw [hlt.negTrans _ _ _ b1 g] at hx; cases hx)
        simpa using q

/-- The loop has ended with `*o` an element: `head_.splice(head_.next, &head_)` cuts all nodes off the list. -/
theorem self_splice {lt : T → T → Bool} {es : List (Addr × T)} {e : Addr × T} (he : e ∈ es) (r : Ring h c es) :
    ∃ h', mergeLoop c c lt e.1 c h = .ok ((), h') ∧ Ring h' c [] ∧ Relink (· ∈ cells c es) h h' := by
  have hne : e.1 ≠ c := by
    intro q
    exact (List.nodup_cons.1 r.nodup).1 (List.mem_map.2 ⟨e, he, q⟩)
  cases es with
  | nil => cases he
  | cons f fs =>
    have hf : f.1 ≠ c := by
      intro q
      exact (List.nodup_cons.1 r.nodup).1 (by simp [q])
    obtain ⟨lf, vf⟩ := r.data f (by simp)
    have hl : Links h c ([] ++ f.1 :: fs.map Prod.fst) := r.links
    have pf : h.prev f.1 = c := by have := hl.at_node.2; simpa using this
    have mp : h.prev c ∈ cells c (f :: fs) := by
      have := Links.prev_pos (A := (f :: fs).map Prod.fst) (B := []) (by simpa using r.links)
      simpa [cells] using this
    have pc : h.prev c ≠ c := by
      rcases List.eq_nil_or_concat (f :: fs) with q | ⟨A, x, q⟩
      · cases q
      · rw [List.concat_eq_append] at q
        rw [q] at r
        rw [r.prev_last]
        intro q'
        exact (List.nodup_cons.1 r.nodup).1 (by rw [← q']; simp)
    have ns := nodeSplice_eq (h := h) (p := c) (f := f.1) (l := c) r.head lf r.head (r.live _ mp) (by rw [pf]; exact r.head) (r.live _ mp) hf
    have rl : Relink (· ∈ cells c (f :: fs)) h (spl h c f.1 c) := by
      refine spl_relink h c f.1 c _ ?_ ?_ ?_ mp ?_ mp <;> simp [cells, pf]
    refine ⟨_, ?_, ?_, rl⟩
    · rw [mergeLoop]
      simp only [Prog.ite_app]
      rw [if_neg (by simp), if_pos hne]
      simp only [Prog.bind_app, getNext_eq r.head, Res.bind_ok, r.next_head, List.map_cons, posOf_cons]
      exact ns
    · refine Ring.relink rl r.head r.bare (by simp) (by simp) ?_
      show Chain _ [c, c]
      simp only [Chain, spl, and_true, pf]
      constructor
      · rw [upd_other _ _ pc.symm, upd_same]
      · rw [upd_other _ _ hf.symm, upd_same]

/-- Some element is followed by an equivalent one, and that by a greater one. -/
def TieBeforeGreater (lt : T → T → Bool) (es : List (Addr × T)) : Prop :=
  ∃ a b x, [a, b, x].Sublist es ∧ lt a.2 b.2 = false ∧ lt b.2 x.2 = true

theorem mergeLoop_self {lt : T → T → Bool} (hlt : StrictWeakOrder lt) : ∀ (R A : List (Addr × T)) (e : Addr × T) (h : Heap T),
    Ring h c (A ++ e :: R) → SortedBy lt (A ++ e :: R) →
    (TieBeforeGreater lt (e :: R) → mergeLoop c c lt e.1 e.1 h = .diverge) ∧
    (¬ TieBeforeGreater lt (e :: R) → ∃ h', mergeLoop c c lt e.1 e.1 h = .ok ((), h') ∧ Ring h' c [] ∧ Relink (· ∈ cells c (A ++ e :: R)) h h')
  | [], A, e, h, r, so => by
    have s1 := mergeLoop_skip (B := []) (e := e) (by simp) r (hlt.irrefl e.2)
    refine ⟨?_, fun _ => ?_⟩
    · rintro ⟨a, b, x, sl, _⟩
      have := sl.length_le
      simp at this
    · rw [s1]
      exact self_splice (by simp) r
  | x :: R, A, e, h, r, so => by
    have s1 := mergeLoop_skip (B := []) (e := e) (by simp) r (hlt.irrefl e.2)
    simp only [List.map_cons, posOf_cons] at s1
    rw [s1]
    have soR : ∀ y ∈ R, lt y.2 x.2 = false := by
      intro y hy
      have := (List.pairwise_append.1 so).2.1
      exact (List.pairwise_cons.1 (List.pairwise_cons.1 this).2).1 y hy
    have soE : ∀ y ∈ x :: R, lt y.2 e.2 = false := by
      intro y hy
      have := (List.pairwise_append.1 so).2.1
      exact (List.pairwise_cons.1 this).1 y hy
    have soRR : (x :: R).Pairwise fun a b => lt b.2 a.2 = false := by
      have := (List.pairwise_append.1 so).2.1
      exact (List.pairwise_cons.1 this).2
    cases hx : lt e.2 x.2 with
    | true =>
      obtain ⟨h', q, r', rl⟩ := mergeLoop_move (B := []) (C := R) r hx
      simp only [List.nil_append, List.map_cons, posOf_cons] at q r'
      have s2 := mergeLoop_skip (A := A) (B := []) (C := x :: R) (e := x) (x := e) (lt := lt) (by simp) r' (soE x (by simp))
      simp only [List.map_cons, posOf_cons] at s2
      obtain ⟨i1, i2⟩ := mergeLoop_self hlt R (A ++ [e]) x h' (by simpa using r') (by simpa using so)
      have big : ∀ y ∈ x :: R, lt e.2 y.2 = true := by
        intro y hy
        rcases List.mem_cons.1 hy with rfl | hy
        · exact hx
        · cases g : lt e.2 y.2 with
          | true => rfl
          | false => rw [hlt.negTrans _ _ _ g (soR y hy)] at hx; cases hx
      have tie : TieBeforeGreater lt (e :: x :: R) ↔ TieBeforeGreater lt (x :: R) := by
        constructor
        · rintro ⟨a, b, y, sl, h1, h2⟩
          cases sl with
          | cons _ sl => exact ⟨a, b, y, sl, h1, h2⟩
          | cons_cons _ sl => rw [big b (sl.subset (by simp))] at h1; cases h1
        · rintro ⟨a, b, y, sl, h1, h2⟩
          exact ⟨a, b, y, sl.trans (List.sublist_cons_self _ _), h1, h2⟩
      rw [q, s2, tie]
      refine ⟨i1, fun n => ?_⟩
      obtain ⟨h'', q'', r'', rl''⟩ := i2 n
      refine ⟨h'', q'', r'', rl.trans (rl''.mono ?_)⟩
      intro y hy
      simpa using hy
    | false =>
      by_cases hg : ∃ y ∈ x :: R, lt e.2 y.2 = true
      · -- the first greater element
        obtain ⟨B, z, C, eq, hz, hB⟩ : ∃ B z C, x :: R = B ++ z :: C ∧ lt e.2 z.2 = true ∧ ∀ b ∈ B, lt e.2 b.2 = false := by
          have := (List.find?_isSome (p := fun y => lt e.2 y.2) (xs := x :: R)).2 hg
          obtain ⟨z, hz⟩ := Option.isSome_iff_exists.1 this
          obtain ⟨h1, B, C, h2, h3⟩ := List.find?_eq_some_iff_append.1 hz
          exact ⟨B, z, C, h2, h1, by simpa using h3⟩
        have Bne : B ≠ [] := by
          rintro rfl
          simp only [List.nil_append, List.cons.injEq] at eq
          rw [eq.1, hz] at hx; cases hx
        have cyc := mergeLoop_cycles hlt (c := c) h A [] B C e z (by rw [eq] at r; simpa using r) (by simpa using Bne) (by
          intro b hb
          rw [List.nil_append] at hb
          exact ⟨hB b hb, soE b (by rw [eq]; simp [hb])⟩) hz
        rw [← eq] at cyc
        refine ⟨fun _ => by simpa using cyc, fun n => absurd ?_ n⟩
        cases B with
        | nil => exact absurd rfl Bne
        | cons b B =>
          refine ⟨e, b, z, ?_, hB b (by simp), ?_⟩
          · rw [eq]
            simp
          · cases g : lt b.2 z.2 with
            | true => rfl
            | false => rw [hlt.negTrans _ _ _ (hB b (by simp)) g] at hz; cases hz
      · have all : ∀ y ∈ x :: R, lt e.2 y.2 = false := by
          intro y hy
          cases g : lt e.2 y.2 with
          | false => rfl
          | true => exact absurd ⟨y, hy, g⟩ hg
        refine ⟨?_, fun _ => ?_⟩
        · rintro ⟨a, b, y, sl, h1, h2⟩
          have mb : b ∈ e :: x :: R := sl.subset (by simp)
          have my : y ∈ e :: x :: R := sl.subset (by simp)
          have be : lt b.2 e.2 = false := by
            rcases List.mem_cons.1 mb with rfl | mb
            · exact hlt.irrefl _
            · exact soE b mb
          have ey : lt e.2 y.2 = false := by
            rcases List.mem_cons.1 my with rfl | my
            · exact hlt.irrefl _
            · exact all y my
          rw [hlt.negTrans _ _ _ be ey] at h2; cases h2
        · have s3 := mergeLoop_skips (A := A ++ [e]) (B := x :: R) (C := []) (e := e) (lt := lt) (h := h) (c := c) (by simp) (by simpa using r) all
          simp only [List.append_nil, List.map_cons, posOf_cons, List.map_nil, posOf_nil] at s3
          rw [s3]
          exact self_splice (by simp) r

/-- **C114.** `a.merge(a)` of a sorted list (for any strict weak ordering) is never the no-op of `std::list`: on a list in which an element
is followed by an equivalent one and later by a greater one the call never returns; on every other non-empty list it returns, but the list
is empty afterwards while all its nodes stay allocated (unreachable: they are leaked).  Only the empty list is left alone. -/
theorem self_merge {lt : T → T → Bool} (hlt : StrictWeakOrder lt) (R : Reach S h) (hc : S.Intact c) {es : List (Addr × T)} (hs : Shows h c es)
    (so : SortedBy lt es) :
    (TieBeforeGreater lt es → merge c c lt h = .diverge) ∧
    (¬ TieBeforeGreater lt es → ∃ h', merge c c lt h = .ok ((), h') ∧ Shows h' c [] ∧ DList.size c h' = .ok (0, h') ∧ DList.empty c h' = .ok (true, h') ∧
      (∀ e ∈ es, h'.live e.1 = true ∧ h'.val e.1 = some e.2) ∧ h'.fresh = h.fresh ∧ OthersKept S h h' [c]) := by
  obtain ⟨hc', r⟩ := shown_ring R hc hs
  have fin : ∀ h', Ring h' c ([] : List (Addr × T)) → Relink (· ∈ cells c es) h h' → Shows h' c [] ∧ DList.size c h' = .ok (0, h') ∧ DList.empty c h' = .ok (true, h') ∧
      (∀ e ∈ es, h'.live e.1 = true ∧ h'.val e.1 = some e.2) ∧ h'.fresh = h.fresh ∧ OthersKept S h h' [c] := by
    intro h' r' rl
    refine ⟨r'.entries, ?_, ?_, ?_, rl.fresh, ?_⟩
    · unfold DList.size
      simp only [Prog.bind_app, getNext_eq r'.head, Res.bind_ok, r'.next_head, List.map_nil, posOf_nil]
      rw [sizeLoop]; simp
    · unfold DList.empty
      simp only [Prog.bind_app, getNext_eq r'.head, Res.bind_ok, r'.next_head, List.map_nil, posOf_nil, Prog.pure_app]
      simp
    · intro e he; rw [rl.live, rl.val]; exact r.data e he
    · intro d hd hx fs hf
      have hdc : d ≠ c := by simpa using hd
      obtain ⟨s, hs'⟩ := id hx
      have o := R.world.own d s hs'
      have o' : iface.own h' d s := iface.frame o (by
        intro x hx
        have nx : x ∉ cells c es := R.world.disj d _ c _ hs' hc' hdc x hx
        exact ⟨rl.next x nx, rl.prev x nx, by rw [rl.tail], by rw [rl.val], by rw [rl.live]⟩)
      have hg := get_shown R hx hf
      rw [get_some hs'] at hg
      cases s with
      | ring gs => have : gs = fs := hg; subst this; exact Ring.entries o'
      | cleared => have : [] = fs := hg; subst this; exact Cleared.entries o'
  unfold merge
  simp only [Prog.bind_app, getNext_eq r.head, Res.bind_ok, r.next_head]
  cases es with
  | nil =>
    refine ⟨?_, fun _ => ⟨h, ?_, fin h r Relink.refl⟩⟩
    · rintro ⟨a, b, x, sl, _⟩
      have := sl.length_le
      simp at this
    · simp only [List.map_nil, posOf_nil]
      rw [mergeLoop]; simp
  | cons e es =>
    obtain ⟨i1, i2⟩ := mergeLoop_self hlt es [] e h (by simpa using r) (by simpa using so)
    simp only [List.map_cons, posOf_cons]
    refine ⟨i1, fun n => ?_⟩
    obtain ⟨h', q, r', rl⟩ := i2 n
    exact ⟨h', q, fin h' r' (by simpa using rl)⟩

/-- Both cases occur. -/
example : ∃ (S : State Nat) (h : Heap Nat) (c d : Addr) (es fs : List (Addr × Nat)) (h' : Heap Nat), Reach S h ∧
    Shows h c es ∧ es.map Prod.snd = [1, 2, 3] ∧ merge c c (fun a b => decide (a < b)) h = .ok ((), h') ∧ Shows h' c [] ∧
    Shows h d fs ∧ fs.map Prod.snd = [1, 1, 2] ∧ merge d d (fun a b => decide (a < b)) h = .diverge := by
  obtain ⟨S, h, c, d, es, fs, R, hc, hd, hcd, s1, s2, e1, e2⟩ := exists_lists [1, 2, 3] [1, 1, 2]
  have hlt : StrictWeakOrder (fun a b : Nat => decide (a < b)) :=
    ⟨by simp, by intro a b c; simp; omega, by intro a b c; simp; omega⟩
  have srt : ∀ (es : List (Addr × Nat)), (es.map Prod.snd).Pairwise (· ≤ ·) → SortedBy (fun a b : Nat => decide (a < b)) es := by
    intro es hp
    rw [List.pairwise_map] at hp
    exact hp.imp (by intro a b hab; simp; omega)
  have n1 : ¬ TieBeforeGreater (fun a b : Nat => decide (a < b)) es := by
    rintro ⟨a, b, x, sl, h1, h2⟩
    have sl := sl.map Prod.snd
    have hp : (es.map Prod.snd).Pairwise (· < ·) := by rw [e1]; decide
    have := hp.sublist sl
    simp only [List.map_cons, List.pairwise_cons] at this
    have := this.1 b.2 (by simp)
    simp at h1; omega
  have n2 : TieBeforeGreater (fun a b : Nat => decide (a < b)) fs := by
    match fs, e2 with
    | [a, b, x], e2 =>
      simp at e2
      exact ⟨a, b, x, List.Sublist.refl _, by simp [e2], by simp [e2]⟩
    | [], e2 => simp at e2
    | [_], e2 => simp at e2
    | [_, _], e2 => simp at e2
    | _ :: _ :: _ :: _ :: _, e2 => simp at e2
  obtain ⟨h', q, s, _⟩ := (self_merge hlt R hc s1 (srt es (by rw [e1]; decide))).2 n1
  exact ⟨S, h, c, d, es, fs, h', R, s1, e1, q, s, s2, e2, (self_merge hlt R hd s2 (srt fs (by rw [e2]; decide))).1 n2⟩

end Verif.Seq.ListProps
