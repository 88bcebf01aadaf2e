import Verif.Rb.MapSim
/-!
# Every call on `ttl::map` objects does what the mathematical map says
-/
set_option linter.unusedSimpArgs false
set_option linter.unusedSectionVars false
namespace Verif.Rb.MapApi
open Verif Tree
variable {K T : Type} [DecidableEq K] [DecidableEq T] {lt : K → K → Bool}

/-- Conclusion of the step theorem. -/
def StepOk (lt : K → K → Bool) (dflt : T) (ws : List (Addr × List (Addr × (K × T)))) (ms : List (K → Option T))
    (h : Heap (K × T)) (op : Op K T) : Prop :=
  ∃ out h' ws' ms', exec lt dflt (ws.map Prod.fst) op h = .ok ((out, ws'.map Prod.fst), h') ∧ World h' ws' ∧
    SpecStep lt dflt ms op out ms' ∧ Sim (Rel lt) ws' ms'

theorem objs_none {α β : Type} {ws : List (α × β)} {i : Nat} (h : ws[i]? = none) : (ws.map Prod.fst)[i]? = none := by
  simp [h]

theorem objs_some {α β : Type} {ws : List (α × β)} {i : Nat} {a b} (h : ws[i]? = some (a, b)) :
    (ws.map Prod.fst)[i]? = some a := by
  simp [h]

theorem map_eraseIdx {α β : Type} (f : α → β) (l : List α) (i : Nat) : (l.eraseIdx i).map f = (l.map f).eraseIdx i := by
  induction l generalizing i with
  | nil => rfl
  | cons a l ih => cases i with
    | zero => rfl
    | succ i => simp [ih]

/-- Calls on one object. -/
theorem on_ok {h : Heap (K × T)} {ws : List (Addr × List (Addr × (K × T)))} {ms : List (K → Option T)}
    (W : World h ws) (S : Sim (Rel lt) ws ms) (i : Nat) (f : Addr → Prog (Heap (K × T)) (Out K T))
    (P : (K → Option T) → Out K T → (K → Option T) → Prop)
    (hf : ∀ hd es m, Wf h → Owns h hd es → Ascending lt Prod.fst es → Abs es m → ∃ out h' es' m',
      f hd h = .ok (out, h') ∧ Owns h' hd es' ∧ Effect (cells hd es) (cells hd es') h h' ∧
      Ascending lt Prod.fst es' ∧ Abs es' m' ∧ P m out m') :
    ∃ out h' ws' ms', on (ws.map Prod.fst) i f h = .ok ((out, ws'.map Prod.fst), h') ∧ World h' ws' ∧
      At ms i out ms' P ∧ Sim (Rel lt) ws' ms' := by
  cases hi : ws[i]? with
  | none =>
    refine ⟨.skip, h, ws, ms, ?_, W, ?_, S⟩
    · unfold on; rw [objs_none hi]; rfl
    · unfold At; rw [S.none hi]; exact ⟨rfl, rfl⟩
  | some w =>
    obtain ⟨hd, es⟩ := w
    obtain ⟨m, hm, ha, hab⟩ := S.some hi
    obtain ⟨out, h', es', m', e, o', ef, ha', hab', hp⟩ :=
      hf hd es m W.wf (W.owns _ (List.mem_of_getElem? hi)) ha hab
    refine ⟨out, h', ws.set i (hd, es'), ms.set i m', ?_, W.set hi ef o', ?_, S.set i ⟨ha', hab'⟩⟩
    · unfold on; rw [objs_some hi, map_fst_set hi]
      simp only [Prog.bind_app, e, Res.bind_ok, Prog.pure_app]
    · unfold At; rw [hm]; exact ⟨m', hp, rfl⟩

/-- Read-only calls on one object. -/
theorem find?_fst_abs {es : List (Addr × (K × T))} {m : K → Option T} (hm : Abs es m) (p : K → Bool) :
    (es.find? (fun e => p e.2.1) = none ∧ ∀ k t, m k = some t → p k = false) ∨
    ∃ A e B, es = A ++ e :: B ∧ p e.2.1 = true ∧ (∀ x ∈ A, p x.2.1 = false) ∧
      es.find? (fun e => p e.2.1) = some e ∧ m e.2.1 = some e.2.2 := by
  cases hq : es.find? (fun e => p e.2.1) with
  | none =>
    left
    rw [List.find?_eq_none] at hq
    refine ⟨rfl, fun k t hk => ?_⟩
    have := (hm k t).1 hk
    simp only [List.mem_map] at this
    obtain ⟨e, he, q⟩ := this
    have := hq e he
    rw [q] at this
    simpa using this
  | some e =>
    right
    have he := List.mem_of_find?_eq_some hq
    obtain ⟨h1, A, B, h2, h3⟩ := List.find?_eq_some_iff_append.1 hq
    exact ⟨A, e, B, h2, h1, fun x hx => by simpa using h3 x hx, rfl, hm.present he⟩

theorem step_ok (ho : StrictTotalOrder lt) (dflt : T) {h : Heap (K × T)} {ws : List (Addr × List (Addr × (K × T)))}
    {ms : List (K → Option T)} (W : World h ws) (S : Sim (Rel lt) ws ms) (op : Op K T)
    (hns : ∀ i, op ≠ .assign i i) : StepOk lt dflt ws ms h op := by
  cases op with
  | create =>
    obtain ⟨h', e, o, ef, _, _⟩ := newTree_owns W.wf
    refine ⟨.unit, h', ws ++ [(h.next, [])], ms ++ [nothing], ?_, W.add ef o, ⟨rfl, rfl⟩, S.append ⟨List.Pairwise.nil, abs_nil⟩⟩
    simp only [exec, Prog.bind_app, e, Res.bind_ok, Prog.pure_app, List.map_append, List.map_cons, List.map_nil]
  | ofRange kvs =>
    obtain ⟨h1, e1, o1, f1, _, _⟩ := newTree_owns W.wf
    obtain ⟨h2, es, e2, o2, a2, b2, f2⟩ := insertRange_abs ho kvs f1.wf o1 List.Pairwise.nil abs_nil
    refine ⟨.unit, h2, ws ++ [(h.next, es)], ms ++ [addAll nothing kvs], ?_, W.add (f1.trans W.wf f2) o2, ⟨rfl, rfl⟩, S.append ⟨a2, b2⟩⟩
    simp only [exec, rangeCtor, Prog.bind_app, e1, e2, Res.bind_ok, Prog.pure_app, List.map_append, List.map_cons, List.map_nil]
  | copyOf i =>
    cases hi : ws[i]? with
    | none =>
      refine ⟨.skip, h, ws, ms, ?_, W, ?_, S⟩
      · simp only [exec]; rw [objs_none hi]; rfl
      · simp only [SpecStep]; rw [S.none hi]; simp
    | some w =>
      obtain ⟨hd, es⟩ := w
      obtain ⟨m, hm, ha, hab⟩ := S.some hi
      obtain ⟨h', es', e, o', s, ef⟩ := copyCtor_owns W.wf (W.owns _ (List.mem_of_getElem? hi))
      refine ⟨.unit, h', ws ++ [(h.next, es')], ms ++ [m], ?_, W.add ef o', ?_, S.append ⟨ascending_values s ha, hab.values s⟩⟩
      · simp only [exec]; rw [objs_some hi]
        simp only [Prog.bind_app, e, Res.bind_ok, Prog.pure_app, List.map_append, List.map_cons, List.map_nil]
      · simp only [SpecStep]; rw [hm]; simp
  | assign i j =>
    cases hi : ws[i]? with
    | none =>
      refine ⟨.skip, h, ws, ms, ?_, W, ?_, S⟩
      · simp only [exec]; rw [objs_none hi]; rfl
      · simp only [SpecStep]; rw [S.none hi]; simp
    | some w =>
      obtain ⟨hd, es⟩ := w
      obtain ⟨m, hm, ha, hab⟩ := S.some hi
      cases hj : ws[j]? with
      | none =>
        refine ⟨.skip, h, ws, ms, ?_, W, ?_, S⟩
        · simp only [exec]; rw [objs_none hj, objs_some hi]; rfl
        · simp only [SpecStep]; rw [S.none hj, hm]; simp
      | some w2 =>
        obtain ⟨hd2, es2⟩ := w2
        obtain ⟨m2, hm2, ha2, hab2⟩ := S.some hj
        have hij : i ≠ j := fun e => hns i (by rw [e])
        obtain ⟨h', es', e, o', s, ef⟩ := opAssign_owns W.wf (W.owns _ (List.mem_of_getElem? hi))
          (W.owns _ (List.mem_of_getElem? hj)) (W.disj_idx hi hj hij)
        refine ⟨.unit, h', ws.set i (hd, es'), ms.set i m2, ?_, W.set hi ef o', ?_,
          S.set i ⟨ascending_values s ha2, hab2.values s⟩⟩
        · simp only [exec]; rw [objs_some hi, objs_some hj, map_fst_set hi]
          simp only [Prog.bind_app, e, Res.bind_ok, Prog.pure_app]
        · simp only [SpecStep]; rw [hm, hm2]; simp
  | destroy i =>
    cases hi : ws[i]? with
    | none =>
      refine ⟨.skip, h, ws, ms, ?_, W, ?_, S⟩
      · simp only [exec]; rw [objs_none hi]; rfl
      · simp only [SpecStep]; rw [S.none hi]; simp
    | some w =>
      obtain ⟨hd, es⟩ := w
      obtain ⟨m, hm, ha, hab⟩ := S.some hi
      obtain ⟨h', e, ef⟩ := destroy_owns W.wf (W.owns _ (List.mem_of_getElem? hi))
      refine ⟨.unit, h', ws.eraseIdx i, ms.eraseIdx i, ?_, W.erase hi ef, ?_, S.eraseIdx i⟩
      · simp only [exec]; rw [objs_some hi]
        simp only [Prog.bind_app, e, Res.bind_ok, Prog.pure_app]
        rw [map_eraseIdx]
      · simp only [SpecStep]; rw [hm]; simp
  | insert i k t =>
    refine on_ok W S i _ _ fun hd es m w o ha hm => ?_
    obtain ⟨a, h', es', e, o', ha', hm', ef, _⟩ := insert_abs ho w o ha hm k t
    exact ⟨_, h', es', _, by simp only [Prog.bind_app, e, Res.bind_ok, Prog.pure_app], o', ef, ha', hm', rfl, rfl⟩
  | insertRange i kvs =>
    refine on_ok W S i _ _ fun hd es m w o ha hm => ?_
    obtain ⟨h', es', e, o', ha', hm', ef⟩ := insertRange_abs ho kvs w o ha hm
    exact ⟨_, h', es', _, by simp only [Prog.bind_app, e, Res.bind_ok, Prog.pure_app], o', ef, ha', hm', rfl, rfl⟩
  | put i k t =>
    refine on_ok W S i _ _ fun hd es m w o ha hm => ?_
    obtain ⟨A, e, B, h1, e1, o1, a1, m1, f1, he⟩ := subscript_abs ho w o ha hm dflt k
    obtain ⟨h2, e2, o2, f2, _, _⟩ := storeSecond_owns f1.wf o1 t
    refine ⟨_, h2, _, _, by simp only [Prog.bind_app, e1, e2, Res.bind_ok, Prog.pure_app], o2, f1.trans w f2, ?_, m1.store ho a1,
      rfl, ?_⟩
    · have : (A ++ (e.1, (e.2.1, t)) :: B).map (fun x : Addr × (K × T) => x.2.1) = (A ++ e :: B).map (fun x => x.2.1) := by simp
      have h1 : ((A ++ e :: B).map (fun x : Addr × (K × T) => x.2.1)).Pairwise fun a b => lt a b = true := by
        rw [List.pairwise_map]; exact a1
      rw [← this, List.pairwise_map] at h1
      exact h1
    · rw [he, set_set]
  | get i k =>
    refine on_ok W S i _ _ fun hd es m w o ha hm => ?_
    obtain ⟨A, e, B, h1, e1, o1, a1, m1, f1, he⟩ := subscript_abs ho w o ha hm dflt k
    have hd := Owns.data_mem o1 (e := e) (by simp)
    refine ⟨_, h1, _, _, by simp only [Prog.bind_app, e1, Res.bind_ok, dataOf, hd, Prog.pure_app]; rfl, o1, f1, a1, m1, ?_, rfl⟩
    rw [he]
  | erase i k =>
    refine on_ok W S i _ _ fun hd es m w o ha hm => ?_
    obtain ⟨h', _, _, hc⟩ := erase_owns ho w o ha k
    rcases hc with ⟨hno, e, o', ef⟩ | ⟨A, x, B, rfl, hk, e, o', ef⟩
    · refine ⟨_, h', es, _, by simp only [Prog.bind_app, e, Res.bind_ok, Prog.pure_app]; rfl, o', ef, ha, hm, ?_, ?_⟩
      · rw [hm.absent hno, if_neg (by simp)]
      · rw [del_absent (hm.absent hno)]
    · refine ⟨_, h', _, _, by simp only [Prog.bind_app, e, Res.bind_ok, Prog.pure_app]; rfl, o', ef, ascending_remove ha, hm.remove ho ha, ?_, ?_⟩
      · have := hm.present (e := x) (by simp)
        rw [hk] at this; rw [this, if_pos (by simp)]
      · rw [hk]
  | find i k =>
    refine on_ok W S i _ _ fun hd es m w o ha hm => ?_
    obtain ⟨n, hn, q⟩ := find_owns ho o ha k
    rcases find?_abs ho ha hm k with ⟨f1, f2⟩ | ⟨A, e, B, rfl, hk, f1, f2⟩
    · rw [f1] at q
      simp only [Option.map_none, Option.getD_none] at q
      refine ⟨_, h.tick n, es, m, by simp only [Prog.bind_app, q, Res.bind_ok, if_true, Prog.pure_app]; rfl, o.tick n, Effect.tick w _ n, ha, hm, ?_, rfl⟩
      rw [f2]
    · rw [f1] at q
      simp only [Option.map_some, Option.getD_some] at q
      have hne : e.1 ≠ hd := Owns.mem_ne o (by simp)
      have hdat := Owns.data_mem (o.tick n) (e := e) (by simp)
      refine ⟨_, h.tick n, _, m, by simp only [Prog.bind_app, q, Res.bind_ok, if_neg hne, Prog.ite_app, dataOf, hdat, Prog.pure_app]; rfl,
        o.tick n, Effect.tick w _ n, ha, hm, ?_, rfl⟩
      rw [f2]
  | count i k =>
    refine on_ok W S i _ _ fun hd es m w o ha hm => ?_
    obtain ⟨n, hn, q⟩ := find_owns ho o ha k
    rcases find?_abs ho ha hm k with ⟨f1, f2⟩ | ⟨A, e, B, rfl, hk, f1, f2⟩
    · rw [f1] at q
      simp only [Option.map_none, Option.getD_none] at q
      refine ⟨_, h.tick n, es, m, by simp only [countKey, Prog.bind_app, q, Res.bind_ok, Prog.pure_app]; rfl, o.tick n, Effect.tick w _ n, ha, hm, ?_, rfl⟩
      rw [f2]; simp
    · rw [f1] at q
      simp only [Option.map_some, Option.getD_some] at q
      have hne : e.1 ≠ hd := Owns.mem_ne o (by simp)
      refine ⟨_, h.tick n, _, m, by simp only [countKey, Prog.bind_app, q, Res.bind_ok, Prog.pure_app]; rfl,
        o.tick n, Effect.tick w _ n, ha, hm, ?_, rfl⟩
      rw [f2]; simp [hne]
  | empty i =>
    refine on_ok W S i _ _ fun hd es m w o ha hm => ?_
    refine ⟨_, h, es, m, by simp only [Prog.bind_app, o.empty, Res.bind_ok, Prog.pure_app]; rfl, o, Effect.refl w _, ha, hm, _, rfl, ?_, rfl⟩
    cases es with
    | nil => simp only [List.isEmpty_nil, true_iff]; intro k; exact hm.absent (by simp)
    | cons e es =>
      simp only [List.isEmpty_cons, Bool.false_eq_true, false_iff]
      intro hall
      have := hm.present (e := e) (by simp)
      rw [hall] at this; cases this
  | clear i =>
    refine on_ok W S i _ _ fun hd es m w o ha hm => ?_
    obtain ⟨h', e, o', ef, _⟩ := clear_owns w o
    exact ⟨_, h', [], _, by simp only [Prog.bind_app, e, Res.bind_ok, Prog.pure_app], o', ef, List.Pairwise.nil, abs_nil, rfl, rfl⟩
  | iterate i =>
    refine on_ok W S i _ _ fun hd es m w o ha hm => ?_
    refine ⟨_, h, es, m, by simp only [Prog.bind_app, o.entries, Res.bind_ok, Prog.pure_app], o, Effect.refl w _, ha, hm, _, rfl,
      ⟨?_, fun k t => (hm k t).symm⟩, rfl⟩
    rw [List.pairwise_map]; exact ha
  | iterateBack i =>
    refine on_ok W S i _ _ fun hd es m w o ha hm => ?_
    refine ⟨_, h, es, m, by simp only [Prog.bind_app, o.entriesBackward, Res.bind_ok, Prog.pure_app]; rfl, o, Effect.refl w _, ha, hm, _, rfl,
      ⟨?_, fun k t => ?_⟩, rfl⟩
    · rw [List.map_reverse, List.reverse_reverse, List.pairwise_map]; exact ha
    · rw [List.map_reverse, List.reverse_reverse]; exact (hm k t).symm
  | equal i j =>
    cases hi : ws[i]? with
    | none =>
      refine ⟨.skip, h, ws, ms, ?_, W, ?_, S⟩
      · simp only [exec]; rw [objs_none hi]; rfl
      · simp only [SpecStep]; rw [S.none hi]; simp
    | some w =>
      obtain ⟨hd, es⟩ := w
      obtain ⟨m, hm, ha, hab⟩ := S.some hi
      cases hj : ws[j]? with
      | none =>
        refine ⟨.skip, h, ws, ms, ?_, W, ?_, S⟩
        · simp only [exec]; rw [objs_none hj, objs_some hi]; rfl
        · simp only [SpecStep]; rw [S.none hj, hm]; simp
      | some w2 =>
        obtain ⟨hd2, es2⟩ := w2
        obtain ⟨m2, hm2, ha2, hab2⟩ := S.some hj
        obtain ⟨b, e, hb⟩ : ∃ b, opEq (fun x y : K × T => decide (x.1 = y.1) && decide (x.2 = y.2)) hd hd2 h = .ok (b, h) ∧
            (b = true ↔ m = m2) :=
          ⟨_, opEq_owns _ (W.owns _ (List.mem_of_getElem? hi)) (W.owns _ (List.mem_of_getElem? hj)),
            equal_iff ho ha ha2 hab hab2⟩
        refine ⟨.bool b, h, ws, ms, ?_, W, ?_, S⟩
        · simp only [exec]; rw [objs_some hi, objs_some hj]
          simp only [Prog.bind_app, e, Res.bind_ok, Prog.pure_app]
        · simp only [SpecStep]; rw [hm, hm2]
          exact ⟨b, rfl, hb, trivial⟩
  | lower i k =>
    refine on_ok W S i _ _ fun hd es m w o ha hm => ?_
    obtain ⟨n, hn, q⟩ := lowerBound_owns ho.toStrictWeak o (ha.weak ho) k
    rcases find?_fst_abs hm (fun x => !lt x k) with ⟨f1, f2⟩ | ⟨A, e, B, rfl, hk, hA, f1, f2⟩
    · rw [f1] at q
      simp only [Option.map_none, Option.getD_none] at q
      refine ⟨_, h.tick n, es, m, by simp only [Prog.bind_app, q, Res.bind_ok, if_true, Prog.pure_app], o.tick n, Effect.tick w _ n, ha, hm, rfl, Or.inl ⟨rfl, ?_⟩⟩
      intro k' t hk'
      simpa using f2 k' t hk'
    · rw [f1] at q
      simp only [Option.map_some, Option.getD_some] at q
      have hne : e.1 ≠ hd := Owns.mem_ne o (by simp)
      have hdat := Owns.data_mem (o.tick n) (e := e) (by simp)
      refine ⟨_, h.tick n, _, m, by simp only [Prog.bind_app, q, Res.bind_ok, if_neg hne, Prog.ite_app, dataOf, hdat, Prog.pure_app],
        o.tick n, Effect.tick w _ n, ha, hm, rfl, Or.inr ⟨_, _, rfl, f2, by simpa using hk, ?_⟩⟩
      intro k' t' hm' hlt
      have hmem := (hm k' t').1 hm'
      simp only [List.mem_map, List.mem_append, List.mem_cons] at hmem
      obtain ⟨x, hx, hxe⟩ := hmem
      simp only [Ascending, List.pairwise_append, List.pairwise_cons, List.mem_cons] at ha
      rcases hx with hx | rfl | hx
      · have := hA x hx
        rw [hxe] at this
        simp [hlt] at this
      · rw [hxe]; exact ho.irrefl _
      · have := ha.2.1.1 x hx
        rw [hxe] at this
        exact ho.asymm this

end Verif.Rb.MapApi
