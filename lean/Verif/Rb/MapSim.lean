import Verif.Rb.World
import Verif.Rb.MapSpec
import Verif.Sim
/-!
# The model of `ttl::map` simulates the mathematical maps
-/
set_option linter.unusedSimpArgs false
set_option linter.unusedSectionVars false
namespace Verif.Rb
open Verif Tree
variable {K V T : Type}

section Generic
variable [DecidableEq K] {lt : K → K → Bool} {keyOf : V → K}

theorem World.set {h h' : Heap V} {ws : List (Addr × List (Addr × V))} {i : Nat} {hd : Addr}
    {es es' : List (Addr × V)} (W : World h ws) (hi : ws[i]? = some (hd, es))
    (ef : Effect (cells hd es) (cells hd es') h h') (o : Owns h' hd es') : World h' (ws.set i (hd, es')) := by
  obtain ⟨hlt, hw⟩ := List.getElem?_eq_some_iff.1 hi
  have e : ws = ws.take i ++ (hd, es) :: ws.drop (i + 1) := by
    rw [← hw, List.getElem_cons_drop, List.take_append_drop]
  have e' : ws.set i (hd, es') = ws.take i ++ (hd, es') :: ws.drop (i + 1) := by
    rw [List.set_eq_take_append_cons_drop, if_pos hlt]
  rw [e']
  rw [e] at W
  exact W.step ef o

theorem World.erase {h h' : Heap V} {ws : List (Addr × List (Addr × V))} {i : Nat} {hd : Addr}
    {es : List (Addr × V)} (W : World h ws) (hi : ws[i]? = some (hd, es))
    (ef : Effect (cells hd es) [] h h') : World h' (ws.eraseIdx i) := by
  obtain ⟨hlt, hw⟩ := List.getElem?_eq_some_iff.1 hi
  have e : ws = ws.take i ++ (hd, es) :: ws.drop (i + 1) := by
    rw [← hw, List.getElem_cons_drop, List.take_append_drop]
  rw [List.eraseIdx_eq_take_drop_succ]
  rw [e] at W
  exact W.drop ef

theorem World.disj_idx {h : Heap V} {ws : List (Addr × List (Addr × V))} {i j : Nat} {w w' : Addr × List (Addr × V)}
    (W : World h ws) (hi : ws[i]? = some w) (hj : ws[j]? = some w') (hij : i ≠ j) :
    ∀ x ∈ cells w'.1 w'.2, x ∉ cells w.1 w.2 := by
  obtain ⟨hlt, hw⟩ := List.getElem?_eq_some_iff.1 hi
  have e : ws = ws.take i ++ w :: ws.drop (i + 1) := by
    rw [← hw, List.getElem_cons_drop, List.take_append_drop]
  intro x hx hx'
  rw [e] at W
  have hd := W.disj hx'
  rcases Nat.lt_or_gt_of_ne hij with q | q
  · refine hd.2 (List.mem_flatMap.2 ⟨w', ?_, hx⟩)
    rw [List.mem_iff_getElem?]
    refine ⟨j - (i + 1), ?_⟩
    rw [List.getElem?_drop, show i + 1 + (j - (i + 1)) = j by omega]; exact hj
  · refine hd.1 (List.mem_flatMap.2 ⟨w', ?_, hx⟩)
    rw [List.mem_iff_getElem?]
    refine ⟨j, ?_⟩
    rw [List.getElem?_take, if_pos q]; exact hj

theorem ascending_insert {A B : List (Addr × V)} {n : Addr} {v : V} (ho : StrictTotalOrder lt)
    (ha : Ascending lt keyOf (A ++ B)) (hA : ∀ e ∈ A, lt (keyOf e.2) (keyOf v) = true)
    (hB : ∀ e ∈ B, lt (keyOf v) (keyOf e.2) = true) : Ascending lt keyOf (A ++ (n, v) :: B) := by
  simp only [Ascending, List.pairwise_append, List.pairwise_cons, List.mem_cons] at ha ⊢
  refine ⟨ha.1, ⟨hB, ha.2.1⟩, ?_⟩
  intro a hx b hb
  rcases hb with rfl | hb
  · exact hA a hx
  · exact ha.2.2 a hx b hb

theorem ascending_remove {A B : List (Addr × V)} {e : Addr × V} (ha : Ascending lt keyOf (A ++ e :: B)) :
    Ascending lt keyOf (A ++ B) :=
  ha.sublist (List.Sublist.append (List.Sublist.refl A) (List.sublist_cons_self e B))

theorem ascending_values {es es' : List (Addr × V)} (h : es'.map Prod.snd = es.map Prod.snd)
    (ha : Ascending lt keyOf es) : Ascending lt keyOf es' := by
  have h1 : (es.map Prod.snd).Pairwise fun a b => lt (keyOf a) (keyOf b) = true := by
    rw [List.pairwise_map]; exact ha
  rw [← h, List.pairwise_map] at h1
  exact h1

end Generic

namespace MapApi
variable [DecidableEq K] {lt : K → K → Bool}

/-- The elements are exactly the pairs of `m`. -/
def Abs (es : List (Addr × (K × T))) (m : K → Option T) : Prop :=
  ∀ k t, m k = some t ↔ (k, t) ∈ es.map Prod.snd

theorem Abs.values {es es' : List (Addr × (K × T))} {m : K → Option T} (h : Abs es m)
    (e : es'.map Prod.snd = es.map Prod.snd) : Abs es' m := by
  intro k t; rw [h k t, e]

theorem abs_nil : Abs ([] : List (Addr × (K × T))) nothing := by intro k t; simp [nothing]

theorem Abs.absent {es : List (Addr × (K × T))} {m : K → Option T} (h : Abs es m) {k : K}
    (hno : ∀ e ∈ es, e.2.1 ≠ k) : m k = none := by
  cases hm : m k with
  | none => rfl
  | some t =>
    have := (h k t).1 hm
    simp only [List.mem_map] at this
    obtain ⟨e, he, q⟩ := this
    exact absurd (by rw [q]) (hno e he)

theorem Abs.present {es : List (Addr × (K × T))} {m : K → Option T} (h : Abs es m) {e} (he : e ∈ es) :
    m e.2.1 = some e.2.2 := (h _ _).2 (List.mem_map_of_mem he)

theorem Abs.insert {A B : List (Addr × (K × T))} {m : K → Option T} {n : Addr} {k : K} {t : T}
    (h : Abs (A ++ B) m) (hno : m k = none) : Abs (A ++ (n, (k, t)) :: B) (MapApi.set m k t) := by
  intro k' t'
  have := h k' t'
  simp only [List.map_append, List.map_cons, List.mem_append, List.mem_cons, Prod.mk.injEq] at this ⊢
  unfold MapApi.set
  split
  · next e =>
    subst e
    rw [hno] at this
    simp only [reduceCtorEq, false_iff, not_or] at this
    simp only [Option.some.injEq, true_and]
    grind
  · next e => simp only [e, false_and, false_or]; exact this

theorem Abs.store {A B : List (Addr × (K × T))} {m : K → Option T} {e : Addr × (K × T)} {t : T}
    (ho : StrictTotalOrder lt) (ha : Ascending lt Prod.fst (A ++ e :: B)) (h : Abs (A ++ e :: B) m) :
    Abs (A ++ (e.1, (e.2.1, t)) :: B) (MapApi.set m e.2.1 t) := by
  intro k' t'
  have := h k' t'
  simp only [Ascending, List.pairwise_append, List.pairwise_cons, List.mem_cons] at ha
  simp only [List.map_append, List.map_cons, List.mem_append, List.mem_cons, Prod.mk.injEq, List.mem_map] at this ⊢
  unfold MapApi.set
  split
  · next q =>
    subst q
    simp only [Option.some.injEq, true_and]
    constructor
    · intro q; exact Or.inr (Or.inl q.symm)
    · rintro (⟨y, hy, q⟩ | q | ⟨y, hy, q⟩)
      · exfalso
        have := ha.2.2 y hy e (Or.inl rfl)
        rw [q] at this
        simp [ho.irrefl] at this
      · exact q.symm
      · exfalso
        have := ha.2.1.1 y hy
        rw [q] at this
        simp [ho.irrefl] at this
  · next q =>
    simp only [q, false_and, false_or]
    rw [this]
    constructor
    · rintro (q' | q' | q')
      · exact Or.inl q'
      · rw [← q'] at q; exact absurd rfl q
      · exact Or.inr q'
    · rintro (q' | q')
      · exact Or.inl q'
      · exact Or.inr (Or.inr q')

theorem Abs.remove {A B : List (Addr × (K × T))} {m : K → Option T} {e : Addr × (K × T)}
    (ho : StrictTotalOrder lt) (ha : Ascending lt Prod.fst (A ++ e :: B)) (h : Abs (A ++ e :: B) m) :
    Abs (A ++ B) (del m e.2.1) := by
  intro k' t'
  have := h k' t'
  simp only [Ascending, List.pairwise_append, List.pairwise_cons, List.mem_cons] at ha
  simp only [List.map_append, List.map_cons, List.mem_append, List.mem_cons, Prod.mk.injEq, List.mem_map] at this ⊢
  unfold del
  split
  · next q =>
    subst q
    simp only [reduceCtorEq, false_iff, not_or, not_exists, not_and]
    constructor
    · intro y hy q
      have := ha.2.2 y hy e (Or.inl rfl)
      rw [q] at this
      simp [ho.irrefl] at this
    · intro y hy q
      have := ha.2.1.1 y hy
      rw [q] at this
      simp [ho.irrefl] at this
  · next q =>
    rw [this]
    constructor
    · rintro (q' | q' | q')
      · exact Or.inl q'
      · rw [← q'] at q; exact absurd rfl q
      · exact Or.inr q'
    · rintro (q' | q')
      · exact Or.inl q'
      · exact Or.inr (Or.inr q')

theorem del_absent {m : K → Option T} {k : K} (h : m k = none) : del m k = m := by
  funext k'; unfold del; split
  · next e => subst e; exact h.symm
  · rfl

theorem set_same {m : K → Option T} {k : K} {t : T} (h : m k = some t) : MapApi.set m k t = m := by
  funext k'; unfold MapApi.set; split
  · next e => subst e; exact h.symm
  · rfl

theorem set_set (m : K → Option T) (k : K) (t t' : T) : MapApi.set (MapApi.set m k t) k t' = MapApi.set m k t' := by
  funext k'; unfold MapApi.set; split <;> rfl

/-- Concrete and mathematical objects correspond. -/
def Rel (lt : K → K → Bool) (w : Addr × List (Addr × (K × T))) (m : K → Option T) : Prop :=
  Ascending lt Prod.fst w.2 ∧ Abs w.2 m

/-! ### Single-object operations on the abstraction -/

theorem insert_abs (ho : StrictTotalOrder lt) {h : Heap (K × T)} {hd : Addr} {es : List (Addr × (K × T))} {m : K → Option T}
    (w : Wf h) (o : Owns h hd es) (ha : Ascending lt Prod.fst es) (hm : Abs es m) (k : K) (t : T) :
    ∃ a h' es', insertUnique lt Prod.fst hd (k, t) h = .ok ((a, (m k).isNone), h') ∧ Owns h' hd es' ∧
      Ascending lt Prod.fst es' ∧ Abs es' (add m k t) ∧ Effect (cells hd es) (cells hd es') h h' ∧
      ∃ v, (a, (k, v)) ∈ es' ∧ ((m k).isNone = true → v = t) := by
  obtain ⟨n, hn, hc⟩ := insertUnique_owns ho w o ha (k, t)
  rcases hc with ⟨e, he, hk, q⟩ | ⟨A, B, h', rfl, hA, hB, q, o', ef, _, _⟩
  · have hp := hm.present he
    simp only at hk
    rw [hk] at hp
    refine ⟨e.1, h.tick n, es, ?_, o.tick n, ha, ?_, Effect.tick w _ n, e.2.2, ?_, ?_⟩
    · rw [q, hp]; rfl
    · unfold add; rw [hp]; exact hm
    · rw [← hk]; exact he
    · rw [hp]; simp
  · have hno : m k = none := hm.absent (by
      intro e he
      simp only [List.mem_append] at he
      rcases he with he | he
      · exact ho.ne_of_lt (hA e he)
      · exact (ho.ne_of_lt (hB e he)).symm)
    refine ⟨h.next, h', _, by rw [q, hno]; rfl, o', ascending_insert ho ha hA hB, ?_, ef, t, by simp, fun _ => rfl⟩
    unfold add; rw [hno]; exact hm.insert hno

theorem insertRange_abs (ho : StrictTotalOrder lt) {hd : Addr} (kvs : List (K × T)) :
    ∀ {h : Heap (K × T)} {es : List (Addr × (K × T))} {m : K → Option T}
    (w : Wf h) (o : Owns h hd es) (ha : Ascending lt Prod.fst es) (hm : Abs es m),
    ∃ h' es', insertRange lt Prod.fst hd kvs h = .ok ((), h') ∧ Owns h' hd es' ∧
      Ascending lt Prod.fst es' ∧ Abs es' (addAll m kvs) ∧ Effect (cells hd es) (cells hd es') h h' := by
  induction kvs with
  | nil => intro h es m w o ha hm; exact ⟨h, es, rfl, o, ha, hm, Effect.refl w _⟩
  | cons kv kvs ih =>
    intro h es m w o ha hm
    obtain ⟨a, h1, es1, q1, o1, a1, m1, f1, _⟩ := insert_abs ho w o ha hm kv.1 kv.2
    obtain ⟨h2, es2, q2, o2, a2, m2, f2⟩ := ih f1.wf o1 a1 m1
    refine ⟨h2, es2, ?_, o2, a2, m2, f1.trans w f2⟩
    unfold insertRange
    simp only [Prog.bind_app, q1, Res.bind_ok, q2]

theorem find?_abs (ho : StrictTotalOrder lt) {es : List (Addr × (K × T))} {m : K → Option T} (ha : Ascending lt Prod.fst es)
    (hm : Abs es m) (k : K) :
    (es.find? (fun e => decide (e.2.1 = k)) = none ∧ m k = none) ∨
    ∃ A e B, es = A ++ e :: B ∧ e.2.1 = k ∧ es.find? (fun e => decide (e.2.1 = k)) = some e ∧ m k = some e.2.2 := by
  cases hq : es.find? (fun e => decide (e.2.1 = k)) with
  | none =>
    left
    rw [List.find?_eq_none] at hq
    exact ⟨rfl, hm.absent fun e he => by simpa using hq e he⟩
  | some e =>
    right
    have he := List.mem_of_find?_eq_some hq
    have hk := List.find?_some hq
    simp only [decide_eq_true_eq] at hk
    obtain ⟨A, B, rfl⟩ := List.append_of_mem he
    exact ⟨A, e, B, rfl, hk, rfl, by rw [← hk]; exact hm.present he⟩

theorem Owns.data_mem {V : Type} {h : Heap V} {hd : Addr} {es : List (Addr × V)} (o : Owns h hd es) {e} (he : e ∈ es) :
    h.data e.1 = some e.2 := by
  obtain ⟨t, r, b, i, d⟩ := o; exact d e he

theorem Owns.mem_ne {V : Type} {h : Heap V} {hd : Addr} {es : List (Addr × V)} (o : Owns h hd es) {e} (he : e ∈ es) :
    e.1 ≠ hd := by
  have := o.cells_nodup
  simp only [cells, List.nodup_cons] at this
  exact fun q => this.1 (q ▸ List.mem_map_of_mem he)

theorem subscript_abs (ho : StrictTotalOrder lt) {h : Heap (K × T)} {hd : Addr} {es : List (Addr × (K × T))}
    {m : K → Option T} (w : Wf h) (o : Owns h hd es) (ha : Ascending lt Prod.fst es) (hm : Abs es m) (dflt : T) (k : K) :
    ∃ A e B h', subscript lt dflt hd k h = .ok (e.1, h') ∧ Owns h' hd (A ++ e :: B) ∧
      Ascending lt Prod.fst (A ++ e :: B) ∧ Abs (A ++ e :: B) (MapApi.set m k ((m k).getD dflt)) ∧
      Effect (cells hd es) (cells hd (A ++ e :: B)) h h' ∧ e.2 = (k, (m k).getD dflt) := by
  obtain ⟨n, hn, q⟩ := find_owns ho o ha k
  rcases find?_abs ho ha hm k with ⟨f1, f2⟩ | ⟨A, e, B, rfl, hk, f1, f2⟩
  · rw [f1] at q
    simp only [Option.map_none, Option.getD_none] at q
    obtain ⟨a, h', es', q', o', a', m', ef, v, hv, hvt⟩ := insert_abs ho (w.tick n) (o.tick n) ha hm k dflt
    rw [f2] at hvt
    have hv' := hvt rfl
    subst hv'
    obtain ⟨A, B, rfl⟩ := List.append_of_mem hv
    refine ⟨A, (a, (k, v)), B, h', ?_, o', a', ?_, ef.of_tick, by rw [f2]; rfl⟩
    · unfold subscript
      simp only [Prog.bind_app, q, Res.bind_ok, if_true, q', Prog.pure_app]
    · rw [f2]; unfold add at m'; rw [f2] at m'; exact m'
  · rw [f1] at q
    simp only [Option.map_some, Option.getD_some] at q
    have hne : e.1 ≠ hd := Owns.mem_ne o (by simp)
    refine ⟨A, e, B, h.tick n, ?_, o.tick n, ha, ?_, Effect.tick w _ n, ?_⟩
    · unfold subscript
      simp only [Prog.bind_app, q, Res.bind_ok, if_neg hne, Prog.ite_app, Prog.pure_app]
    · rw [f2, Option.getD_some, set_same f2]; exact hm
    · rw [f2]; rw [← hk]; rfl

theorem equal_iff [DecidableEq T] (ho : StrictTotalOrder lt) {es1 es2 : List (Addr × (K × T))} {m1 m2 : K → Option T}
    (a1 : Ascending lt Prod.fst es1) (a2 : Ascending lt Prod.fst es2) (b1 : Abs es1 m1) (b2 : Abs es2 m2) :
    (decide (es1.length = es2.length) &&
      (List.zipWith (fun x y : Addr × (K × T) => decide (x.2.1 = y.2.1) && decide (x.2.2 = y.2.2)) es1 es2).all id) = true ↔
    m1 = m2 := by
  have key : (decide (es1.length = es2.length) &&
      (List.zipWith (fun x y : Addr × (K × T) => decide (x.2.1 = y.2.1) && decide (x.2.2 = y.2.2)) es1 es2).all id) = true ↔
      es1.map Prod.snd = es2.map Prod.snd := by
    clear a1 a2 b1 b2
    induction es1 generalizing es2 with
    | nil => cases es2 <;> simp
    | cons x es1 ih =>
      cases es2 with
      | nil => simp
      | cons y es2 =>
        have := @ih es2
        obtain ⟨x1, x2, x3⟩ := x
        obtain ⟨y1, y2, y3⟩ := y
        simp only [List.length_cons, Nat.add_right_cancel_iff, List.zipWith_cons_cons, List.all_cons, id_eq, List.map_cons,
          List.cons.injEq, Prod.mk.injEq, Bool.and_eq_true, decide_eq_true_eq] at this ⊢
        grind
  rw [key]
  constructor
  · intro e
    funext k
    cases h1 : m1 k with
    | some t => exact ((b2 k t).2 (e ▸ (b1 k t).1 h1)).symm
    | none =>
      cases h2 : m2 k with
      | none => rfl
      | some t => have := (b1 k t).2 (e ▸ (b2 k t).1 h2); rw [h1] at this; cases this
  · intro e
    subst e
    -- two strictly ascending lists with the same members
    have p1 : (es1.map Prod.snd).Pairwise fun a b => lt a.1 b.1 = true := by rw [List.pairwise_map]; exact a1
    have p2 : (es2.map Prod.snd).Pairwise fun a b => lt a.1 b.1 = true := by rw [List.pairwise_map]; exact a2
    have hm : ∀ x, x ∈ es1.map Prod.snd ↔ x ∈ es2.map Prod.snd := fun x => by
      rw [← b1 x.1 x.2, ← b2 x.1 x.2]
    generalize es1.map Prod.snd = l1 at *
    generalize es2.map Prod.snd = l2 at *
    clear key b1 b2 a1 a2
    induction l1 generalizing l2 with
    | nil => cases l2 with
      | nil => rfl
      | cons y l2 => exact absurd ((hm y).2 (by simp)) (by simp)
    | cons x l1 ih =>
      cases l2 with
      | nil => exact absurd ((hm x).1 (by simp)) (by simp)
      | cons y l2 =>
        rw [List.pairwise_cons] at p1 p2
        have hxy : x = y := by
          have h1 := (hm x).1 (by simp)
          have h2 := (hm y).2 (by simp)
          simp only [List.mem_cons] at h1 h2
          rcases h1 with h1 | h1
          · exact h1
          · rcases h2 with h2 | h2
            · exact h2.symm
            · have q1 := p2.1 x h1
              have q2 := p1.1 y h2
              have := ho.trans _ _ _ q1 q2
              rw [ho.irrefl] at this; cases this
        subst hxy
        congr 1
        refine ih p1.2 l2 p2.2 fun z => ?_
        have := hm z
        simp only [List.mem_cons] at this
        constructor
        · intro hz
          rcases this.1 (Or.inr hz) with e | e
          · subst e; have := p1.1 z hz; rw [ho.irrefl] at this; cases this
          · exact e
        · intro hz
          rcases this.2 (Or.inr hz) with e | e
          · subst e; have := p2.1 z hz; rw [ho.irrefl] at this; cases this
          · exact e

end MapApi
end Verif.Rb
