import Verif.Rb.OwnsMut
/-!
# Several containers in one memory
-/
set_option linter.unusedSimpArgs false
set_option linter.unusedSectionVars false
namespace Verif.Rb
open Verif Tree
variable {K V T : Type}

theorem Effect.trans {F F' F'' : List Addr} {h h' h'' : Heap V} (w : Wf h) (a : Effect F F' h h')
    (b : Effect F' F'' h' h'') : Effect F F'' h h'' := by
  refine ⟨?_, ?_, ?_, b.wf, Nat.le_trans a.next b.next⟩
  · intro x hx hx''
    by_cases hx' : x ∈ F'
    · have h1 := w.unused x (a.fresh x hx' hx)
      have h2 := b.freed x hx' hx''
      rw [h1.1, h1.2]; exact h2
    · have h1 := a.frame x hx hx'
      have h2 := b.frame x hx' hx''
      rw [h2.1, h2.2]; exact h1
  · intro x hx'' hx
    by_cases hx' : x ∈ F'
    · exact a.fresh x hx' hx
    · exact Nat.le_trans a.next (b.fresh x hx'' hx')
  · intro x hx hx''
    by_cases hx' : x ∈ F'
    · exact b.freed x hx' hx''
    · have h1 := a.freed x hx hx'
      have h2 := b.frame x hx' hx''
      rw [h2.1, h2.2]; exact h1

theorem Effect.refl {h : Heap V} (w : Wf h) (F : List Addr) : Effect F F h h :=
  ⟨fun _ _ _ => ⟨rfl, rfl⟩, fun _ h1 h2 => absurd h1 h2, fun _ h1 h2 => absurd h1 h2, w, Nat.le_refl _⟩

/-- `operator=` between different containers. -/
theorem opAssign_owns {h : Heap V} {hd other : Addr} {es es0 : List (Addr × V)} (w : Wf h)
    (o : Owns h hd es0) (oo : Owns h other es) (hdis : ∀ x ∈ cells other es, x ∉ cells hd es0) :
    ∃ h' es', opAssign hd other h = .ok ((), h') ∧ Owns h' hd es' ∧ es'.map Prod.snd = es.map Prod.snd ∧
      Effect (cells hd es0) (cells hd es') h h' := by
  obtain ⟨h1, e1, o1, f1, n1, c1, _⟩ := clear_owns w o
  have oo1 : Owns h1 other es := oo.frame w f1 hdis
  obtain ⟨h2, es', e2, o2, s2, f2, c2⟩ := assign_owns f1.wf o1 oo1
  refine ⟨h2, es', ?_, o2, s2, f1.trans w f2⟩
  unfold opAssign
  simp only [Prog.bind_app, e1, Res.bind_ok, e2]

/-- Self-assignment: the container ends up empty, all its elements freed. -/
theorem opAssign_self {h : Heap V} {hd : Addr} {es0 : List (Addr × V)} (w : Wf h) (o : Owns h hd es0) :
    ∃ h', opAssign hd hd h = .ok ((), h') ∧ Owns h' hd [] ∧
      Effect (cells hd es0) (cells hd ([] : List (Addr × V))) h h' := by
  obtain ⟨h1, e1, o1, f1, n1, c1, _⟩ := clear_owns w o
  obtain ⟨h2, es', e2, o2, s2, f2, c2⟩ := assign_owns f1.wf o1 o1
  have : es' = [] := by
    cases es' with
    | nil => rfl
    | cons e es => simp at s2
  subst this
  refine ⟨h2, ?_, o2, f1.trans w f2⟩
  unfold opAssign
  simp only [Prog.bind_app, e1, Res.bind_ok, e2]

/-- Copy construction. -/
theorem copyCtor_owns {h : Heap V} {other : Addr} {es : List (Addr × V)} (w : Wf h) (oo : Owns h other es) :
    ∃ h' es', copyCtor other h = .ok (h.next, h') ∧ Owns h' h.next es' ∧ es'.map Prod.snd = es.map Prod.snd ∧
      Effect [] (cells h.next es') h h' := by
  obtain ⟨h1, e1, o1, f1, n1, c1⟩ := newTree_owns w
  have oo1 : Owns h1 other es := oo.frame w f1 (by simp)
  obtain ⟨h2, es', e2, o2, s2, f2, c2⟩ := assign_owns f1.wf o1 oo1
  refine ⟨h2, es', ?_, o2, s2, f1.trans w f2⟩
  unfold copyCtor
  simp only [Prog.bind_app, e1, Res.bind_ok, e2, Prog.pure_app]

/-- Destruction. -/
theorem destroy_owns {h : Heap V} {hd : Addr} {es : List (Addr × V)} (w : Wf h) (o : Owns h hd es) :
    ∃ h', destroy hd h = .ok ((), h') ∧ Effect (cells hd es) [] h h' := by
  obtain ⟨h1, e1, o1, f1, n1, c1, _⟩ := clear_owns w o
  have hl := o1.cells_live (x := hd) (by simp [cells])
  have h0 : hd ≠ 0 := fun e => o1.zero_not (by simp [cells, e])
  obtain ⟨m, hm⟩ := Option.isSome_iff_exists.1 hl
  refine ⟨h1.free hd, ?_, f1.trans w ⟨?_, by simp, ?_, ?_, Nat.le_refl _⟩⟩
  · unfold destroy freeHeader
    simp only [Prog.bind_app, e1, Res.bind_ok, delNode, if_neg h0, hm]
  · intro x hx _
    simp only [cells, List.map_nil, List.mem_cons, List.not_mem_nil, or_false] at hx
    simp [Heap.free, hx]
  · intro x hx _
    simp only [cells, List.map_nil, List.mem_cons, List.not_mem_nil, or_false] at hx
    simp [Heap.free, hx]
  · refine ⟨f1.wf.pos, fun x hx => ?_⟩
    simp only [Heap.free]
    split
    · simp
    · exact f1.wf.unused x hx

/-- Writing an element's mapped value. -/
theorem storeSecond_owns {h : Heap (K × T)} {hd : Addr} {A B : List (Addr × (K × T))} {e : Addr × (K × T)}
    (w : Wf h) (o : Owns h hd (A ++ e :: B)) (t : T) :
    ∃ h', storeSecond e.1 t h = .ok ((), h') ∧ Owns h' hd (A ++ (e.1, (e.2.1, t)) :: B) ∧
      Effect (cells hd (A ++ e :: B)) (cells hd (A ++ (e.1, (e.2.1, t)) :: B)) h h' ∧ h'.next = h.next ∧
      h'.cmps = h.cmps := by
  have hcells : ∀ x, x ∈ cells hd (A ++ (e.1, (e.2.1, t)) :: B) ↔ x ∈ cells hd (A ++ e :: B) := by
    intro x; simp [cells]
  have hnd := o.cells_nodup
  have hl := o.lt w (x := e.1) (by simp [cells])
  obtain ⟨tr, r, b, i, d⟩ := o
  have he := d e (by simp)
  refine ⟨{ h with data := fun x => if x = e.1 then some (e.2.1, t) else h.data x }, ?_, ⟨tr, ?_, b, ?_, ?_⟩,
    ⟨?_, ?_, ?_, ⟨w.pos, ?_⟩, Nat.le_refl _⟩, rfl, rfl⟩
  · obtain ⟨x, k, t0⟩ := e
    simp only at he
    simp [storeSecond, he]
  · exact r.congr fun _ _ => rfl
  · rw [i]; simp
  · intro y hy
    simp only [List.mem_append, List.mem_cons] at hy
    simp only [cells, List.map_append, List.map_cons, List.nodup_cons, List.nodup_append, List.mem_cons] at hnd
    rcases hy with hy | rfl | hy
    · have : y.1 ≠ e.1 := hnd.2.2.2 y.1 (List.mem_map_of_mem hy) e.1 (Or.inl rfl)
      simp only [if_neg this]; exact d y (by simp [hy])
    · simp
    · have : y.1 ≠ e.1 := fun q => hnd.2.2.1.1 (q ▸ List.mem_map_of_mem hy)
      simp only [if_neg this]; exact d y (by simp [hy])
  · intro x hx _
    have : x ≠ e.1 := by rintro rfl; exact hx (by simp [cells])
    simp [this]
  · intro x hx hx'; exact absurd ((hcells x).1 hx) hx'
  · intro x hx hx'; exact absurd ((hcells x).2 hx) hx'
  · intro x hx
    have : x ≠ e.1 := fun q => Nat.lt_irrefl _ (Nat.lt_of_lt_of_le hl (q ▸ hx))
    simp only [if_neg this]
    exact w.unused x hx

/-! ### Iteration -/

theorem walkFwd_owns {h : Heap V} {hd : Addr} {es : List (Addr × V)} (o : Owns h hd es) (A B : List (Addr × V))
    (e : es = A ++ B) : walkFwd hd ((B.map Prod.fst).headD hd) A h = .ok (es, h) := by
  induction B generalizing A with
  | nil => rw [walkFwd]; simp [e]
  | cons x B ih =>
    have hx : x.1 ≠ hd := by
      have := o.cells_nodup
      rw [e] at this
      simp only [cells, List.map_append, List.map_cons, List.nodup_cons, List.mem_append, List.mem_cons, not_or] at this
      exact fun q => this.1.2.1 q.symm
    have hn := (e ▸ o : Owns h hd (A ++ x :: B)).nextNode
    obtain ⟨t, r, b, i, d⟩ := o
    rw [walkFwd]
    simp only [List.map_cons, List.headD_cons]
    rw [if_neg hx]
    simp only [Prog.bind_app, dataOf_eq (d x (by rw [e]; simp)), Res.bind_ok, hn]
    exact ih (A ++ [(x.1, x.2)]) (by rw [e]; simp)

theorem Owns.entries {h : Heap V} {hd : Addr} {es : List (Addr × V)} (o : Owns h hd es) :
    entries hd h = .ok (es, h) := by
  unfold Rb.entries
  simp only [Prog.bind_app, o.begin_, Res.bind_ok]
  exact walkFwd_owns o [] es rfl

theorem walkBwd_owns {h : Heap V} {hd : Addr} {es : List (Addr × V)} (o : Owns h hd es)
    (R : List (Addr × V)) : ∀ (B : List (Addr × V)), es = R.reverse ++ B →
    walkBwd ((es.map Prod.fst).headD hd) ((B.map Prod.fst).headD hd) B.reverse h = .ok (es.reverse, h) := by
  induction R with
  | nil =>
    intro B e
    simp only [List.reverse_nil, List.nil_append] at e
    subst e
    rw [walkBwd]; simp
  | cons x R ih =>
    intro B e
    have e' : es = R.reverse ++ x :: B := by rw [e]; simp
    have hx : (B.map Prod.fst).headD hd ≠ (es.map Prod.fst).headD hd := by
      have hn := o.cells_nodup
      have hne : (es.map Prod.fst).headD hd ∈ (R.reverse ++ [x]).map Prod.fst := by
        cases hR : R.reverse with
        | nil => rw [e', hR]; simp
        | cons y R' => rw [e', hR]; simp
      intro q
      rw [← q] at hne
      rw [e', show R.reverse ++ x :: B = (R.reverse ++ [x]) ++ B by simp] at hn
      simp only [cells, List.map_append, List.nodup_cons, List.nodup_append] at hn
      simp only [List.map_append] at hne
      cases B with
      | nil => exact hn.1 (by simpa using hne)
      | cons y B => exact hn.2.2.2 y.1 (by simpa using hne) y.1 (by simp) rfl
    have hp : Rb.iterPrev ((B.map Prod.fst).headD hd) h = .ok (x.1, h) := by
      cases B with
      | nil =>
        have := o.iterPrev_end
        rw [e'] at this
        simpa using this
      | cons y B =>
        have := (show Owns h hd ((R.reverse ++ [x]) ++ y :: B) by rw [e'] at o; simpa using o).iterPrev
        simpa using this
    have hd' : h.data x.1 = some x.2 := by
      obtain ⟨t, r, b, i, d⟩ := o
      exact d x (by rw [e']; simp)
    rw [walkBwd, if_neg hx]
    simp only [Prog.bind_app, hp, Res.bind_ok, dataOf_eq hd']
    have := ih (x :: B) e'
    simpa using this

theorem Owns.entriesBackward {h : Heap V} {hd : Addr} {es : List (Addr × V)} (o : Owns h hd es) :
    entriesBackward hd h = .ok (es.reverse, h) := by
  unfold Rb.entriesBackward
  simp only [Prog.bind_app, o.begin_, Res.bind_ok]
  have := walkBwd_owns o es.reverse [] (by simp)
  simpa using this

theorem eqLoop_owns (eqv : V → V → Bool) {h : Heap V} {a b : Addr} {es1 es2 : List (Addr × V)} (o1 : Owns h a es1)
    (o2 : Owns h b es2) (A1 B1 A2 B2 : List (Addr × V)) (e1 : es1 = A1 ++ B1) (e2 : es2 = A2 ++ B2) :
    eqLoop eqv ((B1.map Prod.fst).headD a) a ((B2.map Prod.fst).headD b) b h =
      .ok (decide (B1.length = B2.length) && (List.zipWith (fun x y => eqv x.2 y.2) B1 B2).all id, h) := by
  induction B1 generalizing A1 A2 B2 with
  | nil =>
    rw [eqLoop]
    simp only [List.map_nil, List.headD_nil, ne_eq, not_true_eq_false, false_and, if_false, Prog.pure_app,
      List.length_nil, List.zipWith_nil_left, List.all_nil, Bool.and_true, decide_true, Bool.true_and]
    cases B2 with
    | nil => simp
    | cons y B2 =>
      have hn := o2.cells_nodup
      rw [e2] at hn
      simp only [cells, List.map_append, List.map_cons, List.nodup_cons, List.mem_append, List.mem_cons, not_or] at hn
      simp [Ne.symm hn.1.2.1]
  | cons x B1 ih =>
    have hn1 := o1.cells_nodup
    rw [e1] at hn1
    simp only [cells, List.map_append, List.map_cons, List.nodup_cons, List.mem_append, List.mem_cons, not_or] at hn1
    rw [eqLoop]
    cases B2 with
    | nil =>
      simp [Ne.symm hn1.1.2.1]
    | cons y B2 =>
      have hn2 := o2.cells_nodup
      rw [e2] at hn2
      simp only [cells, List.map_append, List.map_cons, List.nodup_cons, List.mem_append, List.mem_cons, not_or] at hn2
      have nx := (e1 ▸ o1 : Owns h a (A1 ++ x :: B1)).nextNode
      have ny := (e2 ▸ o2 : Owns h b (A2 ++ y :: B2)).nextNode
      have dx : h.data x.1 = some x.2 := by
        obtain ⟨t, r, b, i, d⟩ := o1; exact d x (by rw [e1]; simp)
      have dy : h.data y.1 = some y.2 := by
        obtain ⟨t, r, b, i, d⟩ := o2; exact d y (by rw [e2]; simp)
      rw [if_pos (by simpa using ⟨Ne.symm hn1.1.2.1, Ne.symm hn2.1.2.1⟩)]
      simp only [List.map_cons, List.headD_cons, Prog.bind_app, dataOf_eq dx, dataOf_eq dy, Res.bind_ok, Prog.ite_app,
        Prog.pure_app]
      cases hq : eqv x.2 y.2 with
      | false => simp [hq]
      | true =>
        simp only [Bool.not_true, Bool.false_eq_true, if_false, nx, Res.bind_ok, ny]
        rw [ih (A1 ++ [x]) (A2 ++ [y]) B2 (by rw [e1]; simp) (by rw [e2]; simp)]
        simp [hq]

theorem opEq_owns (eqv : V → V → Bool) {h : Heap V} {a b : Addr} {es1 es2 : List (Addr × V)} (o1 : Owns h a es1)
    (o2 : Owns h b es2) : opEq eqv a b h =
      .ok (decide (es1.length = es2.length) && (List.zipWith (fun x y => eqv x.2 y.2) es1 es2).all id, h) := by
  unfold opEq
  simp only [Prog.bind_app, o1.begin_, o2.begin_, Res.bind_ok]
  exact eqLoop_owns eqv o1 o2 [] es1 [] es2 rfl rfl

/-! ### Worlds -/

/-- Memory holds exactly the containers `ws` and nothing else. -/
structure World (h : Heap V) (ws : List (Addr × List (Addr × V))) : Prop where
  wf : Wf h
  owns : ∀ w ∈ ws, Owns h w.1 w.2
  nodup : (ws.flatMap fun w => cells w.1 w.2).Nodup
  tight : ∀ x, (h.node x).isSome → x ∈ ws.flatMap fun w => cells w.1 w.2

abbrev allCells (ws : List (Addr × List (Addr × V))) : List Addr := ws.flatMap fun w => cells w.1 w.2

theorem World.disj {h : Heap V} {L R : List (Addr × List (Addr × V))} {w : Addr × List (Addr × V)}
    (W : World h (L ++ w :: R)) {x : Addr} (hx : x ∈ cells w.1 w.2) : x ∉ allCells L ∧ x ∉ allCells R := by
  have := W.nodup
  simp only [List.flatMap_append, List.flatMap_cons, List.nodup_append] at this
  refine ⟨fun hm => this.2.2 x hm x (by simp only [List.mem_append]; exact Or.inl hx) rfl,
    fun hm => this.2.1.2.2 x hx x hm rfl⟩

/-- One container changed. -/
theorem World.step {h h' : Heap V} {L R : List (Addr × List (Addr × V))} {hd : Addr} {es es' : List (Addr × V)}
    (W : World h (L ++ (hd, es) :: R)) (ef : Effect (cells hd es) (cells hd es') h h') (o : Owns h' hd es') :
    World h' (L ++ (hd, es') :: R) := by
  have hold : ∀ x ∈ allCells L ++ allCells R, (h.node x).isSome := by
    intro x hx
    simp only [allCells, List.mem_append, List.mem_flatMap] at hx
    rcases hx with ⟨w, hw, hx⟩ | ⟨w, hw, hx⟩
    · exact (W.owns w (by simp [hw])).cells_live hx
    · exact (W.owns w (by simp [hw])).cells_live hx
  have hother : ∀ x ∈ allCells L ++ allCells R, x ∉ cells hd es ∧ x ∉ cells hd es' := by
    intro x hx
    have h1 : x ∉ cells hd es := by
      intro hm
      have := W.disj hm
      simp only [List.mem_append] at hx
      rcases hx with hx | hx
      · exact this.1 hx
      · exact this.2 hx
    refine ⟨h1, fun hm => ?_⟩
    exact Nat.lt_irrefl _ (Nat.lt_of_lt_of_le (W.wf.lt (hold x hx)) (ef.fresh x hm h1))
  refine ⟨ef.wf, ?_, ?_, ?_⟩
  · intro w hw
    simp only [List.mem_append, List.mem_cons] at hw
    have key : w ∈ L ∨ w ∈ R → Owns h' w.1 w.2 := by
      intro hw
      refine (W.owns w (by simp only [List.mem_append, List.mem_cons]; grind)).frame W.wf ef fun x hx => (hother x ?_).1
      simp only [allCells, List.mem_append, List.mem_flatMap]
      rcases hw with hw | hw
      · exact Or.inl ⟨w, hw, hx⟩
      · exact Or.inr ⟨w, hw, hx⟩
    rcases hw with hw | rfl | hw
    · exact key (Or.inl hw)
    · exact o
    · exact key (Or.inr hw)
  · have hn := W.nodup
    simp only [List.flatMap_append, List.flatMap_cons, List.nodup_append] at hn ⊢
    refine ⟨hn.1, ⟨o.cells_nodup, hn.2.1.2.1, ?_⟩, ?_⟩
    · intro x hx y hy q
      subst q
      exact (hother x (by simp only [List.mem_append]; exact Or.inr hy)).2 hx
    · intro x hx y hy q
      subst q
      simp only [List.mem_append] at hy
      rcases hy with hy | hy
      · exact (hother x (by simp only [List.mem_append]; exact Or.inl hx)).2 hy
      · exact hn.2.2 x hx x (by simp only [List.mem_append]; exact Or.inr hy) rfl
  · intro x hx
    by_cases h1 : x ∈ cells hd es'
    · simp only [List.flatMap_append, List.flatMap_cons, List.mem_append]; exact Or.inr (Or.inl h1)
    · by_cases h2 : x ∈ cells hd es
      · rw [(ef.freed x h2 h1).1] at hx; simp at hx
      · rw [(ef.frame x h2 h1).1] at hx
        have := W.tight x hx
        simp only [List.flatMap_append, List.flatMap_cons, List.mem_append] at this ⊢
        rcases this with q | q | q
        · exact Or.inl q
        · exact absurd q h2
        · exact Or.inr (Or.inr q)

/-- A container was created. -/
theorem World.add {h h' : Heap V} {ws : List (Addr × List (Addr × V))} {hd : Addr} {es' : List (Addr × V)}
    (W : World h ws) (ef : Effect [] (cells hd es') h h') (o : Owns h' hd es') : World h' (ws ++ [(hd, es')]) := by
  have hother : ∀ x ∈ allCells ws, x ∉ cells hd es' := by
    intro x hx hm
    simp only [allCells, List.mem_flatMap] at hx
    obtain ⟨w, hw, hx⟩ := hx
    exact Nat.lt_irrefl _ (Nat.lt_of_lt_of_le ((W.owns w hw).lt W.wf hx) (ef.fresh x hm (by simp)))
  refine ⟨ef.wf, ?_, ?_, ?_⟩
  · intro w hw
    simp only [List.mem_append, List.mem_cons, List.not_mem_nil, or_false] at hw
    rcases hw with hw | rfl
    · exact (W.owns w hw).frame W.wf ef (by simp)
    · exact o
  · simp only [List.flatMap_append, List.flatMap_cons, List.flatMap_nil, List.append_nil, List.nodup_append]
    refine ⟨W.nodup, o.cells_nodup, ?_⟩
    intro x hx y hy q
    subst q
    exact hother x hx hy
  · intro x hx
    simp only [List.flatMap_append, List.flatMap_cons, List.flatMap_nil, List.append_nil, List.mem_append]
    by_cases h1 : x ∈ cells hd es'
    · exact Or.inr h1
    · rw [(ef.frame x (by simp) h1).1] at hx
      exact Or.inl (W.tight x hx)

/-- A container was destroyed. -/
theorem World.drop {h h' : Heap V} {L R : List (Addr × List (Addr × V))} {hd : Addr} {es : List (Addr × V)}
    (W : World h (L ++ (hd, es) :: R)) (ef : Effect (cells hd es) [] h h') : World h' (L ++ R) := by
  refine ⟨ef.wf, ?_, ?_, ?_⟩
  · intro w hw
    refine (W.owns w (by simp only [List.mem_append, List.mem_cons] at hw ⊢; grind)).frame W.wf ef fun x hx hm => ?_
    have := W.disj hm
    simp only [List.mem_append] at hw
    rcases hw with hw | hw
    · exact this.1 (List.mem_flatMap.2 ⟨w, hw, hx⟩)
    · exact this.2 (List.mem_flatMap.2 ⟨w, hw, hx⟩)
  · have hn := W.nodup
    simp only [List.flatMap_append, List.flatMap_cons, List.nodup_append] at hn ⊢
    refine ⟨hn.1, hn.2.1.2.1, fun x hx y hy q => hn.2.2 x hx y (by simp only [List.mem_append]; exact Or.inr hy) q⟩
  · intro x hx
    by_cases h2 : x ∈ cells hd es
    · rw [(ef.freed x h2 (by simp)).1] at hx; simp at hx
    · rw [(ef.frame x h2 (by simp)).1] at hx
      have := W.tight x hx
      simp only [List.flatMap_append, List.flatMap_cons, List.mem_append] at this ⊢
      rcases this with q | q | q
      · exact Or.inl q
      · exact absurd q h2
      · exact Or.inr q

/-- Only comparisons were counted. -/
theorem World.tick {h : Heap V} {ws : List (Addr × List (Addr × V))} (W : World h ws) (n : Nat) :
    World (h.tick n) ws := ⟨W.wf.tick n, fun w hw => (W.owns w hw).tick n, W.nodup, W.tight⟩

/-- What the rest of the program may do to memory between two calls on containers: write to storage that belongs to no container,
take and give back storage for itself, and compare keys. Every node keeps its contents; the address the allocator hands out next is
any one beyond the nodes in use, so that storage given back may be handed out again. -/
structure Env (h h' : Heap V) : Prop where
  node : h'.node = h.node
  data : h'.data = h.data
  wf : Wf h'

theorem Owns.env {h h' : Heap V} {hd : Addr} {es : List (Addr × V)} (o : Owns h hd es) (e : Env h h') : Owns h' hd es :=
  o.congr fun x _ => ⟨by rw [e.node], by rw [e.data]⟩

theorem World.env {h h' : Heap V} {ws : List (Addr × List (Addr × V))} (W : World h ws) (e : Env h h') : World h' ws :=
  ⟨e.wf, fun w hw => (W.owns w hw).env e, W.nodup, fun x hx => W.tight x (by rw [← e.node]; exact hx)⟩

end Verif.Rb
