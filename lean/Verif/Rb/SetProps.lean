import Verif.Rb.SetSpec
import Verif.Rb.MapStep
import Verif.Rb.Reach
/-!
# C02: `ttl::set` is a finite set, over every history
-/
set_option linter.unusedSimpArgs false
set_option linter.unusedSectionVars false
namespace Verif.Rb.SetApi
open Verif Tree
open MapApi (objs_none objs_some map_eraseIdx)
variable {K : Type} [DecidableEq K] {lt : K → K → Bool}

/-- The elements are exactly the members of `s`. -/
def Abs (es : List (Addr × K)) (s : K → Bool) : Prop := ∀ k, s k = true ↔ k ∈ es.map Prod.snd

/-- Concrete and mathematical objects correspond. -/
def Rel (lt : K → K → Bool) (w : Addr × List (Addr × K)) (s : K → Bool) : Prop :=
  Ascending lt id w.2 ∧ Abs w.2 s

theorem Abs.values {es es' : List (Addr × K)} {s : K → Bool} (h : Abs es s) (e : es'.map Prod.snd = es.map Prod.snd) :
    Abs es' s := by intro k; rw [h k, e]

theorem abs_nil : Abs ([] : List (Addr × K)) nothing := by intro k; simp [nothing]

theorem Abs.absent {es : List (Addr × K)} {s : K → Bool} (h : Abs es s) {k : K} (hno : ∀ e ∈ es, e.2 ≠ k) : s k = false := by
  cases hs : s k with
  | false => rfl
  | true =>
    obtain ⟨e, he, q⟩ := List.mem_map.1 ((h k).1 hs)
    exact absurd q (hno e he)

theorem Abs.present {es : List (Addr × K)} {s : K → Bool} (h : Abs es s) {e} (he : e ∈ es) : s e.2 = true :=
  (h _).2 (List.mem_map_of_mem he)

theorem insert_abs (ho : StrictTotalOrder lt) {h : Heap K} {hd : Addr} {es : List (Addr × K)} {s : K → Bool}
    (w : Wf h) (o : Owns h hd es) (ha : Ascending lt id es) (hm : Abs es s) (k : K) :
    ∃ a h' es', insertUnique lt id hd k h = .ok ((a, !s k), h') ∧ Owns h' hd es' ∧
      Ascending lt id es' ∧ Abs es' (add s k) ∧ Effect (cells hd es) (cells hd es') h h' := by
  obtain ⟨n, hn, hc⟩ := insertUnique_owns ho w o ha k
  rcases hc with ⟨e, he, hk, q⟩ | ⟨A, B, h', rfl, hA, hB, q, o', ef, _, _⟩
  · have hp := hm.present he
    simp only [id_eq] at hk
    rw [hk] at hp
    refine ⟨e.1, h.tick n, es, by rw [q, hp]; rfl, o.tick n, ha, ?_, Effect.tick w _ n⟩
    have : add s k = s := by
      funext k'; unfold add
      by_cases e : k' = k
      · subst e; simp [hp]
      · simp [e]
    rw [this]; exact hm
  · have hno : s k = false := hm.absent (by
      intro e he
      simp only [List.mem_append] at he
      rcases he with he | he
      · exact ho.ne_of_lt (hA e he)
      · exact (ho.ne_of_lt (hB e he)).symm)
    refine ⟨h.next, h', _, by rw [q, hno]; rfl, o', ascending_insert ho ha hA hB, ?_, ef⟩
    intro k'
    have := hm k'
    simp only [add, List.map_append, List.map_cons, List.mem_append, List.mem_cons, Bool.or_eq_true, decide_eq_true_eq] at this ⊢
    grind

theorem addAll_cons (s : K → Bool) (k : K) (ks : List K) : addAll (add s k) ks = addAll s (k :: ks) := by
  funext k'
  unfold addAll add
  by_cases h1 : k' = k <;> by_cases h2 : k' ∈ ks <;> simp [h1, h2]

theorem insertRange_abs (ho : StrictTotalOrder lt) {hd : Addr} (ks : List K) :
    ∀ {h : Heap K} {es : List (Addr × K)} {s : K → Bool}
    (_w : Wf h) (_o : Owns h hd es) (_ha : Ascending lt id es) (_hm : Abs es s),
    ∃ h' es', insertRange lt id hd ks h = .ok ((), h') ∧ Owns h' hd es' ∧
      Ascending lt id es' ∧ Abs es' (addAll s ks) ∧ Effect (cells hd es) (cells hd es') h h' := by
  induction ks with
  | nil =>
    intro h es s w o ha hm
    refine ⟨h, es, rfl, o, ha, ?_, Effect.refl w _⟩
    have : addAll s [] = s := by funext k; simp [addAll]
    rw [this]; exact hm
  | cons k ks ih =>
    intro h es s w o ha hm
    obtain ⟨a, h1, es1, q1, o1, a1, m1, f1⟩ := insert_abs ho w o ha hm k
    obtain ⟨h2, es2, q2, o2, a2, m2, f2⟩ := ih f1.wf o1 a1 m1
    refine ⟨h2, es2, ?_, o2, a2, addAll_cons s k ks ▸ m2, f1.trans w f2⟩
    unfold insertRange
    simp only [Prog.bind_app, q1, Res.bind_ok, q2]

theorem find?_abs {es : List (Addr × K)} {s : K → Bool} (hm : Abs es s) (p : K → Bool) :
    (es.find? (fun e => p e.2) = none ∧ ∀ k, s k = true → p k = false) ∨
    ∃ A e B, es = A ++ e :: B ∧ p e.2 = true ∧ (∀ x ∈ A, p x.2 = false) ∧
      es.find? (fun e => p e.2) = some e ∧ s e.2 = true := by
  cases hq : es.find? (fun e => p e.2) with
  | none =>
    left
    rw [List.find?_eq_none] at hq
    refine ⟨rfl, fun k hk => ?_⟩
    obtain ⟨e, he, q⟩ := List.mem_map.1 ((hm k).1 hk)
    have := hq e he
    rw [q] at this
    simpa using this
  | some e =>
    right
    have he := List.mem_of_find?_eq_some hq
    obtain ⟨h1, A, B, h2, h3⟩ := List.find?_eq_some_iff_append.1 hq
    exact ⟨A, e, B, h2, h1, fun x hx => by simpa using h3 x hx, rfl, hm.present he⟩

/-- Ascending lists with the same members are equal. -/
theorem ascending_ext (ho : StrictTotalOrder lt) {l1 l2 : List K} (p1 : l1.Pairwise fun a b => lt a b = true)
    (p2 : l2.Pairwise fun a b => lt a b = true) (hm : ∀ x, x ∈ l1 ↔ x ∈ l2) : l1 = l2 := by
  induction l1 generalizing l2 with
  | nil => cases l2 with
    | nil => rfl
    | cons y l2 => exact absurd ((hm y).2 (by simp)) (by simp)
  | cons x l1 ih =>
    cases l2 with
    | nil => exact absurd ((hm x).1 (by simp)) (by simp)
    | cons y l2 =>
      rw [List.pairwise_cons] at p1 p2
      have hxy : x = y := by
        have h1 := (hm x).1 (by simp)
        have h2 := (hm y).2 (by simp)
        simp only [List.mem_cons] at h1 h2
        rcases h1 with h1 | h1
        · exact h1
        · rcases h2 with h2 | h2
          · exact h2.symm
          · have := ho.trans _ _ _ (p2.1 x h1) (p1.1 y h2)
            rw [ho.irrefl] at this; cases this
      subst hxy
      congr 1
      refine ih p1.2 p2.2 fun z => ?_
      have := hm z
      simp only [List.mem_cons] at this
      constructor
      · intro hz
        rcases this.1 (Or.inr hz) with e | e
        · subst e; have := p1.1 z hz; rw [ho.irrefl] at this; cases this
        · exact e
      · intro hz
        rcases this.2 (Or.inr hz) with e | e
        · subst e; have := p2.1 z hz; rw [ho.irrefl] at this; cases this
        · exact e

theorem equal_iff (ho : StrictTotalOrder lt) {es1 es2 : List (Addr × K)} {s1 s2 : K → Bool}
    (a1 : Ascending lt id es1) (a2 : Ascending lt id es2) (b1 : Abs es1 s1) (b2 : Abs es2 s2) :
    (decide (es1.length = es2.length) &&
      (List.zipWith (fun x y : Addr × K => decide (x.2 = y.2)) es1 es2).all id) = true ↔ s1 = s2 := by
  have key : (decide (es1.length = es2.length) &&
      (List.zipWith (fun x y : Addr × K => decide (x.2 = y.2)) es1 es2).all id) = true ↔
      es1.map Prod.snd = es2.map Prod.snd := by
    clear a1 a2 b1 b2
    induction es1 generalizing es2 with
    | nil => cases es2 <;> simp
    | cons x es1 ih =>
      cases es2 with
      | nil => simp
      | cons y es2 =>
        have := @ih es2
        simp only [List.length_cons, Nat.add_right_cancel_iff, List.zipWith_cons_cons, List.all_cons, id_eq, List.map_cons,
          List.cons.injEq, Bool.and_eq_true, decide_eq_true_eq] at this ⊢
        grind
  rw [key]
  constructor
  · intro e
    funext k
    have h1 := b1 k
    have h2 := b2 k
    rw [e] at h1
    cases q1 : s1 k <;> cases q2 : s2 k <;> simp_all
  · intro e
    subst e
    refine ascending_ext ho (by rw [List.pairwise_map]; exact a1) (by rw [List.pairwise_map]; exact a2) fun x => ?_
    rw [← b1 x, ← b2 x]

/-- Conclusion of the step theorem. -/
def StepOk (lt : K → K → Bool) (ws : List (Addr × List (Addr × K))) (ss : List (K → Bool)) (h : Heap K) (op : Op K) : Prop :=
  ∃ out h' ws' ss', exec lt (ws.map Prod.fst) op h = .ok ((out, ws'.map Prod.fst), h') ∧ World h' ws' ∧
    SpecStep lt ss op out ss' ∧ Sim (Rel lt) ws' ss'

/-- Calls on one object. -/
theorem on_ok {h : Heap K} {ws : List (Addr × List (Addr × K))} {ss : List (K → Bool)}
    (W : World h ws) (S : Sim (Rel lt) ws ss) (i : Nat) (f : Addr → Prog (Heap K) (Out K))
    (P : (K → Bool) → Out K → (K → Bool) → Prop)
    (hf : ∀ hd es m, Wf h → Owns h hd es → Ascending lt id es → Abs es m → ∃ out h' es' m',
      f hd h = .ok (out, h') ∧ Owns h' hd es' ∧ Effect (cells hd es) (cells hd es') h h' ∧
      Ascending lt id es' ∧ Abs es' m' ∧ P m out m') :
    ∃ out h' ws' ss', on (ws.map Prod.fst) i f h = .ok ((out, ws'.map Prod.fst), h') ∧ World h' ws' ∧
      At ss i out ss' P ∧ Sim (Rel lt) ws' ss' := by
  cases hi : ws[i]? with
  | none =>
    refine ⟨.skip, h, ws, ss, ?_, W, ?_, S⟩
    · unfold on; rw [objs_none hi]; rfl
    · unfold At; rw [S.none hi]; exact ⟨rfl, rfl⟩
  | some w =>
    obtain ⟨hd, es⟩ := w
    obtain ⟨m, hm, ha, hab⟩ := S.some hi
    obtain ⟨out, h', es', m', e, o', ef, ha', hab', hp⟩ :=
      hf hd es m W.wf (W.owns _ (List.mem_of_getElem? hi)) ha hab
    refine ⟨out, h', ws.set i (hd, es'), ss.set i m', ?_, W.set hi ef o', ?_, S.set i ⟨ha', hab'⟩⟩
    · unfold on; rw [objs_some hi, map_fst_set hi]
      simp only [Prog.bind_app, e, Res.bind_ok, Prog.pure_app]
    · unfold At; rw [hm]; exact ⟨m', hp, rfl⟩

theorem Owns_data_mem {h : Heap K} {hd : Addr} {es : List (Addr × K)} (o : Owns h hd es) {e} (he : e ∈ es) :
    h.data e.1 = some e.2 := by
  obtain ⟨t, r, b, i, d⟩ := o; exact d e he

theorem Owns_mem_ne {h : Heap K} {hd : Addr} {es : List (Addr × K)} (o : Owns h hd es) {e} (he : e ∈ es) :
    e.1 ≠ hd := by
  have := o.cells_nodup
  simp only [cells, List.nodup_cons] at this
  exact fun q => this.1 (q ▸ List.mem_map_of_mem he)

theorem step_ok (ho : StrictTotalOrder lt) {h : Heap K} {ws : List (Addr × List (Addr × K))}
    {ss : List (K → Bool)} (W : World h ws) (S : Sim (Rel lt) ws ss) (op : Op K)
    (hns : ∀ i, op ≠ .assign i i) : StepOk lt ws ss h op := by
  cases op with
  | create =>
    obtain ⟨h', e, o, ef, _, _⟩ := newTree_owns W.wf
    refine ⟨.unit, h', ws ++ [(h.next, [])], ss ++ [nothing], ?_, W.add ef o, ⟨rfl, rfl⟩, S.append ⟨List.Pairwise.nil, abs_nil⟩⟩
    simp only [exec, Prog.bind_app, e, Res.bind_ok, Prog.pure_app, List.map_append, List.map_cons, List.map_nil]
  | ofRange ks =>
    obtain ⟨h1, e1, o1, f1, _, _⟩ := newTree_owns W.wf
    obtain ⟨h2, es, e2, o2, a2, b2, f2⟩ := insertRange_abs ho ks f1.wf o1 List.Pairwise.nil abs_nil
    refine ⟨.unit, h2, ws ++ [(h.next, es)], ss ++ [addAll nothing ks], ?_, W.add (f1.trans W.wf f2) o2, ⟨rfl, rfl⟩, S.append ⟨a2, b2⟩⟩
    simp only [exec, rangeCtor, Prog.bind_app, e1, e2, Res.bind_ok, Prog.pure_app, List.map_append, List.map_cons, List.map_nil]
  | copyOf i =>
    cases hi : ws[i]? with
    | none =>
      refine ⟨.skip, h, ws, ss, ?_, W, ?_, S⟩
      · simp only [exec]; rw [objs_none hi]; rfl
      · simp only [SpecStep]; rw [S.none hi]; simp
    | some w =>
      obtain ⟨hd, es⟩ := w
      obtain ⟨m, hm, ha, hab⟩ := S.some hi
      obtain ⟨h', es', e, o', s, ef⟩ := copyCtor_owns W.wf (W.owns _ (List.mem_of_getElem? hi))
      refine ⟨.unit, h', ws ++ [(h.next, es')], ss ++ [m], ?_, W.add ef o', ?_, S.append ⟨ascending_values s ha, hab.values s⟩⟩
      · simp only [exec]; rw [objs_some hi]
        simp only [Prog.bind_app, e, Res.bind_ok, Prog.pure_app, List.map_append, List.map_cons, List.map_nil]
      · simp only [SpecStep]; rw [hm]; simp
  | assign i j =>
    cases hi : ws[i]? with
    | none =>
      refine ⟨.skip, h, ws, ss, ?_, W, ?_, S⟩
      · simp only [exec]; rw [objs_none hi]; rfl
      · simp only [SpecStep]; rw [S.none hi]; simp
    | some w =>
      obtain ⟨hd, es⟩ := w
      obtain ⟨m, hm, ha, hab⟩ := S.some hi
      cases hj : ws[j]? with
      | none =>
        refine ⟨.skip, h, ws, ss, ?_, W, ?_, S⟩
        · simp only [exec]; rw [objs_none hj, objs_some hi]; rfl
        · simp only [SpecStep]; rw [S.none hj, hm]; simp
      | some w2 =>
        obtain ⟨hd2, es2⟩ := w2
        obtain ⟨m2, hm2, ha2, hab2⟩ := S.some hj
        have hij : i ≠ j := fun e => hns i (by rw [e])
        obtain ⟨h', es', e, o', s, ef⟩ := opAssign_owns W.wf (W.owns _ (List.mem_of_getElem? hi))
          (W.owns _ (List.mem_of_getElem? hj)) (W.disj_idx hi hj hij)
        refine ⟨.unit, h', ws.set i (hd, es'), ss.set i m2, ?_, W.set hi ef o', ?_,
          S.set i ⟨ascending_values s ha2, hab2.values s⟩⟩
        · simp only [exec]; rw [objs_some hi, objs_some hj, map_fst_set hi]
          simp only [Prog.bind_app, e, Res.bind_ok, Prog.pure_app]
        · simp only [SpecStep]; rw [hm, hm2]; simp
  | destroy i =>
    cases hi : ws[i]? with
    | none =>
      refine ⟨.skip, h, ws, ss, ?_, W, ?_, S⟩
      · simp only [exec]; rw [objs_none hi]; rfl
      · simp only [SpecStep]; rw [S.none hi]; simp
    | some w =>
      obtain ⟨hd, es⟩ := w
      obtain ⟨m, hm, ha, hab⟩ := S.some hi
      obtain ⟨h', e, ef⟩ := destroy_owns W.wf (W.owns _ (List.mem_of_getElem? hi))
      refine ⟨.unit, h', ws.eraseIdx i, ss.eraseIdx i, ?_, W.erase hi ef, ?_, S.eraseIdx i⟩
      · simp only [exec]; rw [objs_some hi]
        simp only [Prog.bind_app, e, Res.bind_ok, Prog.pure_app]
        rw [map_eraseIdx]
      · simp only [SpecStep]; rw [hm]; simp
  | insert i k =>
    refine on_ok W S i _ _ fun hd es m w o ha hm => ?_
    obtain ⟨a, h', es', e, o', ha', hm', ef⟩ := insert_abs ho w o ha hm k
    exact ⟨_, h', es', _, by simp only [Prog.bind_app, e, Res.bind_ok, Prog.pure_app], o', ef, ha', hm', rfl, rfl⟩
  | insertRange i ks =>
    refine on_ok W S i _ _ fun hd es m w o ha hm => ?_
    obtain ⟨h', es', e, o', ha', hm', ef⟩ := insertRange_abs ho ks w o ha hm
    exact ⟨_, h', es', _, by simp only [Prog.bind_app, e, Res.bind_ok, Prog.pure_app], o', ef, ha', hm', rfl, rfl⟩
  | erase i k =>
    refine on_ok W S i _ _ fun hd es m w o ha hm => ?_
    obtain ⟨h', _, _, hc⟩ := erase_owns ho w o ha k
    rcases hc with ⟨hno, e, o', ef⟩ | ⟨A, x, B, rfl, hk, e, o', ef⟩
    · have hs : m k = false := hm.absent (by simpa using hno)
      refine ⟨.nat 0, h', es, m, by simp only [Prog.bind_app, e, Res.bind_ok, Prog.pure_app], o', ef, ha, hm, ?_, ?_⟩
      · simp [hs]
      · funext k'; unfold del; by_cases e : k' = k
        · subst e; simp [hs]
        · simp [e]
    · simp only [id_eq] at hk
      have hs := hm.present (e := x) (by simp)
      rw [hk] at hs
      refine ⟨.nat 1, h', _, del m k, by simp only [Prog.bind_app, e, Res.bind_ok, Prog.pure_app], o', ef, ascending_remove ha, ?_, ?_, rfl⟩
      · intro k'
        have h1 := hm k'
        have hx : ∀ y ∈ A ++ B, y.2 ≠ k := by
          simp only [Ascending, List.pairwise_append, List.pairwise_cons, List.mem_cons, id_eq] at ha
          intro y hy
          simp only [List.mem_append] at hy
          rcases hy with hy | hy
          · rw [← hk]; exact ho.ne_of_lt (ha.2.2 y hy x (Or.inl rfl))
          · rw [← hk]; exact (ho.ne_of_lt (ha.2.1.1 y hy)).symm
        simp only [del, Bool.and_eq_true, Bool.not_eq_true', decide_eq_false_iff_not, List.mem_map, List.mem_append, List.mem_cons] at h1 hx ⊢
        rw [h1]
        constructor
        · rintro ⟨hne, y, hy, rfl⟩
          refine ⟨y, ?_, rfl⟩
          rcases hy with hy | rfl | hy
          · exact Or.inl hy
          · exact absurd hk hne
          · exact Or.inr hy
        · rintro ⟨y, hy, rfl⟩
          exact ⟨hx y hy, y, by rcases hy with hy | hy <;> simp [hy], rfl⟩
      · simp [hs]
  | find i k =>
    refine on_ok W S i _ _ fun hd es m w o ha hm => ?_
    obtain ⟨n, hn, q⟩ := find_owns ho o ha k
    rcases find?_abs hm (fun x => decide (x = k)) with ⟨f1, f2⟩ | ⟨A, e, B, rfl, hk, _, f1, f2⟩
    · simp only [id_eq] at q
      rw [f1] at q
      simp only [Option.map_none, Option.getD_none] at q
      have hs : m k = false := by
        cases h1 : m k with
        | false => rfl
        | true => simpa using f2 k h1
      refine ⟨.elem none, h.tick n, es, m, by simp only [Prog.bind_app, q, Res.bind_ok, if_true, Prog.pure_app], o.tick n, Effect.tick w _ n, ha, hm, ?_, rfl⟩
      simp [hs]
    · simp only [id_eq] at q
      rw [f1] at q
      simp only [Option.map_some, Option.getD_some] at q
      simp only [decide_eq_true_eq] at hk
      have hne : e.1 ≠ hd := Owns_mem_ne o (by simp)
      have hdat := Owns_data_mem (o.tick n) (e := e) (by simp)
      refine ⟨.elem (some e.2), h.tick n, _, m, by simp only [Prog.bind_app, q, Res.bind_ok, if_neg hne, Prog.ite_app, dataOf, hdat, Prog.pure_app],
        o.tick n, Effect.tick w _ n, ha, hm, ?_, rfl⟩
      rw [hk] at f2 ⊢; simp [f2]
  | count i k =>
    refine on_ok W S i _ _ fun hd es m w o ha hm => ?_
    obtain ⟨n, hn, q⟩ := find_owns ho o ha k
    rcases find?_abs hm (fun x => decide (x = k)) with ⟨f1, f2⟩ | ⟨A, e, B, rfl, hk, _, f1, f2⟩
    · simp only [id_eq] at q
      rw [f1] at q
      simp only [Option.map_none, Option.getD_none] at q
      have hs : m k = false := by
        cases h1 : m k with
        | false => rfl
        | true => simpa using f2 k h1
      refine ⟨.nat 0, h.tick n, es, m, by simp only [countKey, Prog.bind_app, q, Res.bind_ok, Prog.pure_app]; simp, o.tick n, Effect.tick w _ n, ha, hm, ?_, rfl⟩
      simp [hs]
    · simp only [id_eq] at q
      rw [f1] at q
      simp only [Option.map_some, Option.getD_some] at q
      simp only [decide_eq_true_eq] at hk
      have hne : e.1 ≠ hd := Owns_mem_ne o (by simp)
      refine ⟨.nat 1, h.tick n, _, m, by simp only [countKey, Prog.bind_app, q, Res.bind_ok, Prog.pure_app]; simp [hne],
        o.tick n, Effect.tick w _ n, ha, hm, ?_, rfl⟩
      rw [hk] at f2; simp [f2]
  | empty i =>
    refine on_ok W S i _ _ fun hd es m w o ha hm => ?_
    refine ⟨_, h, es, m, by simp only [Prog.bind_app, o.empty, Res.bind_ok, Prog.pure_app]; rfl, o, Effect.refl w _, ha, hm, _, rfl, ?_, rfl⟩
    cases es with
    | nil => simp only [List.isEmpty_nil, true_iff]; intro k; exact hm.absent (by simp)
    | cons e es =>
      simp only [List.isEmpty_cons, Bool.false_eq_true, false_iff]
      intro hall
      have := hm.present (e := e) (by simp)
      rw [hall] at this; cases this
  | clear i =>
    refine on_ok W S i _ _ fun hd es m w o ha hm => ?_
    obtain ⟨h', e, o', ef, _⟩ := clear_owns w o
    exact ⟨_, h', [], _, by simp only [Prog.bind_app, e, Res.bind_ok, Prog.pure_app], o', ef, List.Pairwise.nil, abs_nil, rfl, rfl⟩
  | iterate i =>
    refine on_ok W S i _ _ fun hd es m w o ha hm => ?_
    refine ⟨_, h, es, m, by simp only [Prog.bind_app, o.entries, Res.bind_ok, Prog.pure_app], o, Effect.refl w _, ha, hm, _, rfl,
      ⟨?_, fun k => (hm k).symm⟩, rfl⟩
    rw [List.pairwise_map]; exact ha
  | iterateBack i =>
    refine on_ok W S i _ _ fun hd es m w o ha hm => ?_
    refine ⟨_, h, es, m, by simp only [Prog.bind_app, o.entriesBackward, Res.bind_ok, Prog.pure_app]; rfl, o, Effect.refl w _, ha, hm, _, rfl,
      ⟨?_, fun k => ?_⟩, rfl⟩
    · rw [List.map_reverse, List.reverse_reverse, List.pairwise_map]; exact ha
    · rw [List.map_reverse, List.reverse_reverse]; exact (hm k).symm
  | equal i j =>
    cases hi : ws[i]? with
    | none =>
      refine ⟨.skip, h, ws, ss, ?_, W, ?_, S⟩
      · simp only [exec]; rw [objs_none hi]; rfl
      · simp only [SpecStep]; rw [S.none hi]; simp
    | some w =>
      obtain ⟨hd, es⟩ := w
      obtain ⟨m, hm, ha, hab⟩ := S.some hi
      cases hj : ws[j]? with
      | none =>
        refine ⟨.skip, h, ws, ss, ?_, W, ?_, S⟩
        · simp only [exec]; rw [objs_none hj, objs_some hi]; rfl
        · simp only [SpecStep]; rw [S.none hj, hm]; simp
      | some w2 =>
        obtain ⟨hd2, es2⟩ := w2
        obtain ⟨m2, hm2, ha2, hab2⟩ := S.some hj
        obtain ⟨b, e, hb⟩ : ∃ b, opEq (fun x y : K => decide (x = y)) hd hd2 h = .ok (b, h) ∧
            (b = true ↔ m = m2) :=
          ⟨_, opEq_owns _ (W.owns _ (List.mem_of_getElem? hi)) (W.owns _ (List.mem_of_getElem? hj)),
            equal_iff ho ha ha2 hab hab2⟩
        refine ⟨.bool b, h, ws, ss, ?_, W, ?_, S⟩
        · simp only [exec]; rw [objs_some hi, objs_some hj]
          simp only [Prog.bind_app, e, Res.bind_ok, Prog.pure_app]
        · simp only [SpecStep]; rw [hm, hm2]
          exact ⟨b, rfl, hb, trivial⟩
  | lower i k =>
    refine on_ok W S i _ _ fun hd es m w o ha hm => ?_
    obtain ⟨n, hn, q⟩ := lowerBound_owns ho.toStrictWeak o (ha.weak ho) k
    rcases find?_abs hm (fun x => !lt x k) with ⟨f1, f2⟩ | ⟨A, e, B, rfl, hk, hA, f1, f2⟩
    · simp only [id_eq] at q
      rw [f1] at q
      simp only [Option.map_none, Option.getD_none] at q
      refine ⟨.elem none, h.tick n, es, m, by simp only [Prog.bind_app, q, Res.bind_ok, if_true, Prog.pure_app], o.tick n, Effect.tick w _ n, ha, hm, rfl, Or.inl ⟨rfl, ?_⟩⟩
      intro k' hk'
      simpa using f2 k' hk'
    · simp only [id_eq] at q
      rw [f1] at q
      simp only [Option.map_some, Option.getD_some] at q
      have hne : e.1 ≠ hd := Owns_mem_ne o (by simp)
      have hdat := Owns_data_mem (o.tick n) (e := e) (by simp)
      refine ⟨.elem (some e.2), h.tick n, _, m, by simp only [Prog.bind_app, q, Res.bind_ok, if_neg hne, Prog.ite_app, dataOf, hdat, Prog.pure_app],
        o.tick n, Effect.tick w _ n, ha, hm, rfl, Or.inr ⟨_, rfl, f2, by simpa using hk, ?_⟩⟩
      intro k' hm' hlt
      obtain ⟨x, hx, rfl⟩ := List.mem_map.1 ((hm k').1 hm')
      simp only [List.mem_append, List.mem_cons] at hx
      simp only [Ascending, List.pairwise_append, List.pairwise_cons, List.mem_cons, id_eq] at ha
      rcases hx with hx | rfl | hx
      · have := hA x hx
        simp [hlt] at this
      · exact ho.irrefl _
      · exact ho.asymm (ha.2.1.1 x hx)

theorem run_ok (ho : StrictTotalOrder lt) (ops : List (Op K)) (hns : NoSelfAssign ops) :
    ∀ {h : Heap K} {ws : List (Addr × List (Addr × K))} {ss : List (K → Bool)}
    (_W : World h ws) (_S : Sim (Rel lt) ws ss),
    ∃ outs h' ws' ss', run lt (ws.map Prod.fst) ops h = .ok ((outs, ws'.map Prod.fst), h') ∧ World h' ws' ∧
      SpecRun lt ss ops outs ss' ∧ Sim (Rel lt) ws' ss' := by
  induction ops with
  | nil => intro h ws ss W S; exact ⟨[], h, ws, ss, rfl, W, .nil, S⟩
  | cons op ops ih =>
    intro h ws ss W S
    obtain ⟨out, h1, ws1, ss1, e1, W1, s1, S1⟩ := step_ok ho W S op (fun i q => hns i (by simp [q]))
    obtain ⟨outs, h2, ws2, ss2, e2, W2, s2, S2⟩ := ih (fun i q => hns i (by simp [q])) W1 S1
    refine ⟨out :: outs, h2, ws2, ss2, ?_, W2, .cons s1 s2, S2⟩
    unfold run
    simp only [Prog.bind_app, e1, Res.bind_ok, e2, Prog.pure_app]

/-- **C02.** Every client program over `ttl::set` objects that assigns no object to itself runs to completion without
undefined behaviour, and everything it observes is what mathematical finite sets give. -/
theorem set_history (ho : StrictTotalOrder lt) (junk : Addr → RbNode) (ops : List (Op K))
    (hns : NoSelfAssign ops) : ∃ outs objs h' ss, run lt [] ops (emptyMemory junk) = .ok ((outs, objs), h') ∧
      SpecRun lt [] ops outs ss ∧ objs.length = ss.length := by
  obtain ⟨ws, W, hw, _⟩ := Inv.start (lt := lt) (keyOf := (id : K → K)) junk
  have : ws = [] := by simpa using hw
  subst this
  obtain ⟨outs, h', ws', ss', e, _, s, S⟩ := run_ok ho ops hns W Sim.nil
  exact ⟨outs, _, h', ss', e, s, by rw [List.length_map]; exact S.len⟩

/-- A concrete program meeting the hypotheses; the specification forces these outputs. -/
example (junk : Addr → RbNode) : ∃ objs h', run (fun a b : Nat => decide (a < b)) []
      [.create, .insert 0 5, .insert 0 5, .erase 0 3, .count 0 5] (emptyMemory junk) =
    .ok (([.unit, .bool true, .bool false, .nat 0, .nat 1], objs), h') := by
  obtain ⟨outs, objs, h', ss, e, s, _⟩ := set_history natOrder junk
    [.create, .insert 0 5, .insert 0 5, .erase 0 3, .count 0 5] (by intro i; simp)
  refine ⟨objs, h', ?_⟩
  rw [e]
  congr 3
  cases s with | cons s1 s =>
  cases s with | cons s2 s =>
  cases s with | cons s3 s =>
  cases s with | cons s4 s =>
  cases s with | cons s5 s =>
  cases s
  obtain ⟨rfl, rfl⟩ := s1
  obtain ⟨_, ⟨rfl, rfl⟩, rfl⟩ := s2
  obtain ⟨_, ⟨rfl, rfl⟩, rfl⟩ := s3
  obtain ⟨_, ⟨rfl, rfl⟩, rfl⟩ := s4
  obtain ⟨_, ⟨rfl, rfl⟩, rfl⟩ := s5
  rfl

end Verif.Rb.SetApi
