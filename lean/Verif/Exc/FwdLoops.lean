import Verif.Exc.FwdModel
import Verif.Seq.RunFwd
/-!
# The insertion loops of the singly linked lists when something throws
-/
set_option linter.unusedVariables false
set_option linter.unusedSimpArgs false
namespace Verif.Exc.XSList
open Verif Verif.Seq Verif.Seq.SNode Verif.Exc
open Verif.Seq.DList (Arg readArg)
variable {T : Type} {h h' : Heap T} {p : Addr}

/-- Memory after `new node(v)`. -/
def made (h : Heap T) (v : T) : Heap T := { h with val := upd h.val h.fresh (some v), live := upd h.live h.fresh true, fresh := h.fresh + 1 }

theorem newNode_points {v : T} {P : Nat → Heap T → Prop} (p : P 0 h) : Points (newNode v) h 1 h.fresh (made h v) P :=
  Points.seq_call (Points.point_ p) rfl

theorem insertVals_points : ∀ (vs : List T) {h h' : Heap T} {p b : Addr}, SList.insertVals p vs h = .ok (b, h') →
    Points (insertVals p vs) h vs.length b h' fun k t => ∃ b', SList.insertVals p (vs.take k) h = .ok (b', t)
  | [], h, h', p, b, q => by cases q; exact Points.pure_
  | v :: vs, h, h', p, b, q => by
    rw [List.length_cons, Nat.add_comm]
    simp only [SList.insertVals, Prog.bind_app, newNode_eq, Res.bind_ok] at q
    refine Points.seq (newNode_points ⟨p, rfl⟩) ?_
    unfold made
    cases g : insertAfter p h.fresh { h with val := upd h.val h.fresh (some v), live := upd h.live h.fresh true, fresh := h.fresh + 1 } with
    | ub f => rw [g] at q; cases q
    | diverge => rw [g] at q; cases q
    | ok y =>
      obtain ⟨a, h1⟩ := y
      rw [g] at q
      refine Points.call_seq (a := a) (s' := h1) g ((insertVals_points vs q).imp fun k t l ⟨b', e⟩ => ⟨b', ?_⟩)
      rw [Nat.add_comm 1 k, List.take_succ_cons]
      simp only [SList.insertVals, Prog.bind_app, newNode_eq, Res.bind_ok, g, e]

theorem made_live (w : Wf h) {v : T} {x : Addr} (l : h.live x = true) : (made h v).live x = true := by
  show upd h.live h.fresh true x = true
  rw [upd_other _ _ (w.ne_fresh l)]; exact l

theorem made_wf (w : Wf h) {v : T} : Wf (made h v) := by
  refine ⟨Nat.succ_pos _, ?_, ?_⟩
  · show upd h.live h.fresh true 0 = false
    rw [upd_other _ _ (Nat.ne_of_lt w.pos)]; exact w.null
  · intro x hx
    by_cases q : x = h.fresh
    · rw [q]; exact Nat.lt_succ_self _
    · have : upd h.live h.fresh true x = true := hx
      rw [upd_other _ _ q] at this; exact Nat.lt_succ_of_lt (w.used x this)

theorem insA_wf {a n : Addr} (w : Wf h) : Wf (insA h a n) := ⟨w.pos, w.null, w.used⟩

theorem made_fresh {v : T} : (made h v).live h.fresh = true := upd_same _ _ _

theorem readable_step (w : Wf h) {v u : T} {value : Arg T} (rd : Readable h v value) : Readable (insA (made h u) p h.fresh) v value := by
  cases value with
  | ext x => exact rd
  | elem a =>
    have hf : a ≠ h.fresh := w.ne_fresh rd.1
    refine ⟨made_live (v := u) w rd.1, ?_⟩
    show upd h.val h.fresh (some u) a = some v
    rw [upd_other _ _ hf]; exact rd.2

/-- The value argument is the same for every new node. -/
theorem insertN_run {value : Arg T} {v : T} : ∀ (n : Nat) {h : Heap T} {p : Addr}, Wf h → h.live p = true → Readable h v value →
    ∀ k, insertN p n value k h = insertVals p (List.replicate n v) k h
  | 0, h, p, w, lp, rd, k => rfl
  | n + 1, h, p, w, lp, rd, 0 => by
    simp only [insertN, List.replicate_succ, insertVals, Thr.bind_app, Thr.call_app, rd.read, Res.bind_ok, Thr.after_ret, newNode, Thr.point_zero,
      Thr.after_thrown]
  | n + 1, h, p, w, lp, rd, k + 1 => by
    have ih := insertN_run n (insA_wf (made_wf (v := v) w) (a := p) (n := h.fresh)) (p := h.fresh) (made_fresh (v := v)) (readable_step w rd) k
    have ia := insertAfter_eq (h := made h v) (made_live w lp) made_fresh
    simp only [insertN, List.replicate_succ, insertVals, Thr.bind_app, Thr.call_app, rd.read, Res.bind_ok, Thr.after_ret, newNode, Thr.point_succ,
      newNode_eq]
    change (((insertAfter p h.fresh (made h v)).bind _).bind _) = (((insertAfter p h.fresh (made h v)).bind _).bind _)
    rw [ia]
    exact ih

theorem insertN_run' {value : Arg T} {v : T} : ∀ (n : Nat) {h : Heap T} {p : Addr}, Wf h → h.live p = true → Readable h v value →
    SList.insertN p n value h = SList.insertVals p (List.replicate n v) h
  | 0, h, p, w, lp, rd => rfl
  | n + 1, h, p, w, lp, rd => by
    have ih := insertN_run' n (insA_wf (made_wf (v := v) w) (a := p) (n := h.fresh)) (p := h.fresh) (made_fresh (v := v)) (readable_step w rd)
    have ia := insertAfter_eq (h := made h v) (made_live w lp) made_fresh
    simp only [SList.insertN, List.replicate_succ, SList.insertVals, Prog.bind_app, rd.read, Res.bind_ok, newNode_eq]
    change ((insertAfter p h.fresh (made h v)).bind _) = ((insertAfter p h.fresh (made h v)).bind _)
    rw [ia]
    exact ih

theorem insertN_points {value : Arg T} {v : T} {n : Nat} {b : Addr} (w : Wf h) (lp : h.live p = true) (rd : Readable h v value)
    (q : SList.insertN p n value h = .ok (b, h')) :
    Points (insertN p n value) h n b h' fun k t => ∃ b', SList.insertVals p (List.replicate k v) h = .ok (b', t) := by
  rw [insertN_run' n w lp rd] at q
  have X := insertVals_points _ q
  rw [List.length_replicate] at X
  refine ⟨fun k => by rw [insertN_run n w lp rd]; exact X.returns k, fun k l => ?_⟩
  obtain ⟨t, x, b', y⟩ := X.throws k l
  refine ⟨t, by rw [insertN_run n w lp rd]; exact x, b', ?_⟩
  rwa [List.take_replicate, Nat.min_eq_left (Nat.le_of_lt l)] at y

/-- The loop over iterators is the loop over the values (compare `SList.insertNodes_run`). -/
theorem insertNodes_run : ∀ (es : List (Addr × T)) {h : Heap T} {p f l : Addr}, Wf h → h.live p = true →
    Run h f es l → (∀ e ∈ es, e.1 ≠ p) → ∀ k, insertNodes p f l k h = insertVals p (es.map Prod.snd) k h
  | [], h, p, f, l, w, lp, r, hd, k => by
    rw [insertNodes]; simp only [Run] at r; simp [r, insertVals]
  | e :: es, h, p, f, l, w, lp, r, hd, 0 => by
    obtain ⟨rfl, r2, r3, r4, r5⟩ := r
    rw [insertNodes]
    simp only [Thr.ite_app, ne_eq, r2, not_false_eq_true, if_true, Thr.bind_app, Thr.call_app, getVal_eq r3 r4, Res.bind_ok, Thr.after_ret, newNode,
      Thr.point_zero, Thr.after_thrown, List.map_cons, insertVals]
  | e :: es, h, p, f, l, w, lp, r, hd, j + 1 => by
    obtain ⟨rfl, r2, r3, r4, r5⟩ := r
    have ib := insertAfter_eq (h := made h e.2) (p := p) (n := h.fresh) (made_live w lp) made_fresh
    let h2 := insA (made h e.2) p h.fresh
    have k : ∀ x ∈ e :: es, h2.next x.1 = h.next x.1 ∧ h2.val x.1 = h.val x.1 ∧ h2.live x.1 = h.live x.1 := by
      intro x hx
      have xl : h.live x.1 = true := (Run.live (f := e.1) (l := l) (es := e :: es) ⟨rfl, r2, r3, r4, r5⟩ x hx).1
      have x1 := w.ne_fresh xl
      have x2 := hd x hx
      refine ⟨?_, upd_other _ _ x1, upd_other _ _ x1⟩
      show upd (upd h.next h.fresh (h.next p)) p h.fresh x.1 = _
      rw [upd_other _ _ x2, upd_other _ _ x1]
    have rr : Run h2 (h2.next e.1) es l := by
      rw [(k e (by simp)).1]; exact r5.frame fun x hx => k x (List.mem_cons_of_mem _ hx)
    have ih := insertNodes_run es (p := h.fresh) (insA_wf (made_wf w)) (made_fresh (v := e.2)) rr (by
      intro x hx
      exact w.ne_fresh (Run.live (f := e.1) (l := l) (es := e :: es) ⟨rfl, r2, r3, r4, r5⟩ x (List.mem_cons_of_mem _ hx)).1) j
    have l2 : h2.live e.1 = true := by rw [(k e (by simp)).2.2]; exact r3
    rw [insertNodes]
    simp only [Thr.ite_app, ne_eq, r2, not_false_eq_true, if_true, Thr.bind_app, Thr.call_app, getVal_eq r3 r4, Res.bind_ok, Thr.after_ret, newNode,
      Thr.point_succ, newNode_eq, List.map_cons, insertVals]
    change (((insertAfter p h.fresh (made h e.2)).bind _).bind _) = (((insertAfter p h.fresh (made h e.2)).bind _).bind _)
    rw [ib]
    simp only [Res.bind_ok, Thr.after_ret]
    change (((getNext e.1 h2).bind _).bind _) = _
    rw [getNext_eq l2]
    exact ih

theorem insertNodes_points {es : List (Addr × T)} {f l b : Addr} (w : Wf h) (lp : h.live p = true) (r : Run h f es l) (hd : ∀ e ∈ es, e.1 ≠ p)
    (q : SList.insertNodes p f l h = .ok (b, h')) :
    Points (insertNodes p f l) h es.length b h' fun k t => ∃ b', SList.insertVals p ((es.map Prod.snd).take k) h = .ok (b', t) := by
  rw [SList.insertNodes_run es w lp r hd] at q
  have X := insertVals_points _ q
  rw [List.length_map] at X
  refine ⟨fun k => by rw [insertNodes_run es w lp r hd]; exact X.returns k, fun k l => ?_⟩
  obtain ⟨t, x, b', y⟩ := X.throws k l
  exact ⟨t, by rw [insertNodes_run es w lp r hd]; exact x, b', y⟩

end Verif.Exc.XSList

/-! ## Constructors that throw -/
namespace Verif.Exc.XSList
open Verif Verif.Seq Verif.Seq.SNode Verif.Exc
open Verif.Seq.DList (fresh)
variable {T σ : Type} {h t : Heap T}

/-- Memory `t` differs from memory `h` by nodes that hold the values `vs` and belong to no list: they can never be released. `E` are the lists that
exist. -/
structure Leaked (E : Addr → Prop) (h t : Heap T) (vs : List T) : Prop where
  /-- storage in use after: the storage in use before, and one more node for each of `vs` -/
  live : ∀ x, t.live x = true ↔ h.live x = true ∨ ∃ j, j < vs.length ∧ x = h.fresh + 1 + j
  /-- the elements are there -/
  values : ∀ (j : Nat) (v : T), vs[j]? = some v → getVal (h.fresh + 1 + j) t = .ok (v, t)
  /-- every list has the elements it had -/
  others : ∀ d, E d → ∀ fs, SList.entries d h = .ok (fs, h) → SList.entries d t = .ok (fs, t)
  /-- the allocator goes on beyond the storage in use -/
  wf : Wf t

theorem fresh_get : ∀ (vs : List T) (a j : Nat), (fresh a vs)[j]? = vs[j]?.map fun v => (a + j, v)
  | [], a, j => by simp [fresh]
  | v :: vs, a, 0 => by simp [fresh]
  | v :: vs, a, j + 1 => by simp [fresh, fresh_get vs (a + 1) j, Nat.add_assoc, Nat.add_comm 1 j]

theorem mem_fresh {vs : List T} {a x : Nat} : x ∈ (fresh a vs).map Prod.fst ↔ ∃ j, j < vs.length ∧ x = a + j := by
  rw [List.mem_iff_getElem?]
  simp only [List.getElem?_map, fresh_get]
  constructor
  · rintro ⟨j, e⟩
    cases q : vs[j]? with
    | none => rw [q] at e; simp at e
    | some v =>
      rw [q] at e
      exact ⟨j, (List.getElem?_eq_some_iff.1 q).1, by simpa using e.symm⟩
  · rintro ⟨j, l, rfl⟩
    exact ⟨j, by simp [List.getElem?_eq_getElem l]⟩

/-- The object under construction disappears, its elements stay. -/
theorem leaked_of {I : Iface T σ} {S : Addr → Option σ} (W : World I h S) {s : σ} {vs : List T} (W' : World I t (upd S h.fresh (some s)))
    (of : σ → List (Addr × T)) (ce : ∀ c s, I.cells c s = scells c (of s)) (sl : ∀ {m : Heap T} {c s}, I.own m c s → Slist m c (of s))
    (es : of s = fresh (h.fresh + 1) vs) :
    ∃ t', freeRaw h.fresh t = .ok ((), t') ∧ Leaked (fun c => S c ≠ none) h t' vs ∧ ∀ d s, S d = some s → I.own t' d s := by
  have o := W'.own h.fresh s (upd_same _ _ _)
  have r : Slist t h.fresh (fresh (h.fresh + 1) vs) := es ▸ sl o
  have nf : ∀ d s, S d = some s → d ≠ h.fresh := fun d s q => W.wf.ne_fresh (I.live (W.own d s q) d (I.self _ _))
  have own : ∀ x, t.live x = true ↔ h.live x = true ∨ x = h.fresh ∨ ∃ j, j < vs.length ∧ x = h.fresh + 1 + j := by
    intro x
    constructor
    · intro l
      obtain ⟨c, s', q, m⟩ := W'.tight x l
      by_cases e : c = h.fresh
      · subst e
        rw [upd_same] at q; cases q
        rw [ce, es] at m
        rcases List.mem_cons.1 m with m | m
        · exact .inr (.inl m)
        · exact .inr (.inr (mem_fresh.1 m))
      · rw [upd_other _ _ e] at q
        exact .inl (I.live (W.own c s' q) x m)
    · rintro (l | rfl | m)
      · obtain ⟨c, s', q, m⟩ := W.tight x l
        have e := nf c s' q
        exact I.live (W'.own c s' (by rw [upd_other _ _ e]; exact q)) x m
      · exact r.head
      · exact r.live x (List.mem_cons_of_mem _ (mem_fresh.2 m))
  have keep : ∀ d s', S d = some s' → I.own { t with live := upd t.live h.fresh false } d s' ∧ I.own t d s' := by
    intro d s' q
    have e := nf d s' q
    have q' : (upd S h.fresh (some s)) d = some s' := by rw [upd_other _ _ e]; exact q
    have o := W'.own d s' q'
    refine ⟨I.frame o fun x hx => ?_, o⟩
    have : x ≠ h.fresh := fun g => W'.disj d s' h.fresh _ q' (upd_same _ _ _) e x hx (by rw [g]; exact I.self _ _)
    exact ⟨rfl, rfl, rfl, rfl, upd_other _ _ this⟩
  have wt : Wf { t with live := upd t.live h.fresh false } := by
    refine ⟨W'.wf.pos, ?_, ?_⟩
    · show upd t.live h.fresh false 0 = false
      rw [upd_other _ _ (Nat.ne_of_lt W.wf.pos)]; exact W'.wf.null
    · intro x hx
      have hx : upd t.live h.fresh false x = true := hx
      by_cases e : x = h.fresh
      · rw [e, upd_same] at hx; cases hx
      · rw [upd_other _ _ e] at hx; exact W'.wf.used x hx
  refine ⟨_, freeRaw_eq r.head, ⟨?_, ?_, ?_, wt⟩, fun d s' q => (keep d s' q).1⟩
  · intro x
    show upd t.live h.fresh false x = true ↔ _
    by_cases e : x = h.fresh
    · subst e
      rw [upd_same]
      constructor
      · intro q; cases q
      · rintro (l | ⟨j, _, l⟩)
        · exact absurd rfl (W.wf.ne_fresh l)
        · exact absurd (show h.fresh = h.fresh + 1 + j from l) (by omega)
    · rw [upd_other _ _ e, own]
      constructor
      · rintro (l | l | l)
        · exact .inl l
        · exact absurd l e
        · exact .inr l
      · rintro (l | l)
        · exact .inl l
        · exact .inr (.inr l)
  · intro j v q
    have m : (h.fresh + 1 + j, v) ∈ fresh (h.fresh + 1) vs := List.mem_iff_getElem?.2 ⟨j, by rw [fresh_get, q]; rfl⟩
    obtain ⟨lv, vv⟩ := r.data _ m
    refine getVal_eq ?_ vv
    show upd t.live h.fresh false _ = true
    rw [upd_other _ _ (show h.fresh + 1 + j ≠ h.fresh by omega)]; exact lv
  · intro d hd fs hf
    cases q : S d with
    | none => exact absurd q hd
    | some s' =>
      obtain ⟨o', ot⟩ := keep d s' q
      have s1 := (sl (W.own d s' q)).entries W.wf
      rw [hf] at s1; cases s1
      exact (sl o').entries wt

end Verif.Exc.XSList
