import Verif.Seq.Ring
/-!
# The remaining members of `ttl::list` on intact lists
-/
set_option linter.unusedVariables false
set_option linter.unusedSimpArgs false
namespace Verif.Seq.DList
open Verif Verif.Seq
variable {T : Type}

/-! ## Observers -/

/-- Elements laid out on a path. -/
structure Laid (h : Heap T) (p : Addr) (es : List (Addr × T)) (z : Addr) : Prop where
  path : Path h p (es.map Prod.fst) z
  data : ∀ e ∈ es, h.live e.1 = true ∧ h.val e.1 = some e.2
  stop : z ∉ es.map Prod.fst

theorem Laid.tail {h : Heap T} {p : Addr} {e : Addr × T} {es : List (Addr × T)} {z : Addr} (l : Laid h p (e :: es) z) :
    Laid h e.1 es z :=
  ⟨l.path.2, fun x hx => l.data x (List.mem_cons_of_mem _ hx), fun q => l.stop (List.mem_cons_of_mem _ q)⟩

theorem Laid.next {h : Heap T} {p : Addr} {es : List (Addr × T)} {z : Addr} (l : Laid h p es z) :
    h.next p = posOf z (es.map Prod.fst) := l.path.next_head

theorem Ring.laid {h : Heap T} {c : Addr} {es : List (Addr × T)} (r : Ring h c es) : Laid h c es c :=
  ⟨Chain.path r.links, r.data, (List.nodup_cons.1 r.nodup).1⟩

theorem entriesFrom_ok {h : Heap T} {z : Addr} : ∀ {es : List (Addr × T)} {p : Addr}, Laid h p es z →
    entriesFrom z (posOf z (es.map Prod.fst)) h = .ok (es, h)
  | [], p, l => by rw [entriesFrom]; simp
  | e :: es, p, l => by
    obtain ⟨l1, l2⟩ := l.data e (by simp)
    have hne : e.1 ≠ z := fun q => l.stop (by simp [q])
    rw [entriesFrom]
    simp only [List.map_cons, posOf_cons, Prog.ite_app, if_pos hne, Prog.bind_app, getVal_eq l1 l2, Res.bind_ok, getNext_eq l1,
      l.tail.next, entriesFrom_ok l.tail, Prog.pure_app]

theorem Ring.entries {h : Heap T} {c : Addr} {es : List (Addr × T)} (r : Ring h c es) : entries c h = .ok (es, h) := by
  unfold DList.entries
  simp only [Prog.bind_app, getNext_eq r.head, Res.bind_ok, r.next_head]
  exact entriesFrom_ok r.laid

theorem Cleared.entries {h : Heap T} {c : Addr} (r : Cleared h c) : entries c h = .ok ([], h) := by
  unfold DList.entries
  simp only [Prog.bind_app, getNext_eq r.head, Res.bind_ok, r.loop]
  rw [entriesFrom]; simp

theorem backwardFrom_ok {h : Heap T} {c : Addr} : ∀ (n : Nat) {A B : List (Addr × T)}, A.length = n → Ring h c (A ++ B) →
    backwardFrom (posOf c ((A ++ B).map Prod.fst)) (posOf c (B.map Prod.fst)) h = .ok (A.reverse, h)
  | 0, A, B, hn, r => by
    obtain rfl := List.length_eq_zero_iff.1 hn
    rw [backwardFrom]; simp
  | n + 1, A, B, hn, r => by
    rcases List.eq_nil_or_concat A with h0 | ⟨A', e, hA⟩
    · subst h0; simp at hn
    · rw [List.concat_eq_append] at hA
      subst hA
      have hl : Links h c (A'.map Prod.fst ++ e.1 :: B.map Prod.fst) := by have := r.links; simpa using this
      have nd := r.nodup
      obtain ⟨lp, _⟩ := r.pos_live
      have hprev : h.prev (posOf c (B.map Prod.fst)) = e.1 := by
        obtain ⟨X, a, p, Y, k⟩ := exists_cut c (A'.map Prod.fst ++ [e.1]) (B.map Prod.fst)
        obtain ⟨c1, e1, e2, c2⟩ := k.links.1 (by simpa using hl)
        rw [← k.pos, e2]
        have := k.left
        rw [← List.cons_append] at this
        have q := List.append_inj_right' this rfl
        simp at q; exact q.symm
      obtain ⟨l1, l2⟩ := r.data e (by simp)
      have hne : posOf c (B.map Prod.fst) ≠ posOf c ((A' ++ [e] ++ B).map Prod.fst) := by
        intro q
        have m : posOf c ((A' ++ [e] ++ B).map Prod.fst) ∈ (A' ++ [e]).map Prod.fst := by
          cases A' <;> simp
        rw [← q] at m
        have m2 : posOf c (B.map Prod.fst) ∈ B.map Prod.fst ++ [c] := by cases B <;> simp
        simp only [List.map_append, List.nodup_cons, List.nodup_append, List.mem_append] at nd m m2
        grind
      rw [backwardFrom]
      simp only [Prog.ite_app, if_pos hne, Prog.bind_app, getPrev_eq lp, Res.bind_ok, hprev, getVal_eq l1 l2]
      have ih := backwardFrom_ok n (A := A') (B := e :: B) (by simpa using hn) (by simpa using r)
      have e1 : posOf c ((A' ++ [e] ++ B).map Prod.fst) = posOf c ((A' ++ e :: B).map Prod.fst) := by simp
      simp only [List.map_cons, posOf_cons] at ih
      rw [e1, ih]
      simp

theorem Ring.backward {h : Heap T} {c : Addr} {es : List (Addr × T)} (r : Ring h c es) :
    entriesBackward c h = .ok (es.reverse, h) := by
  unfold entriesBackward
  simp only [Prog.bind_app, getNext_eq r.head, Res.bind_ok, r.next_head]
  have := backwardFrom_ok es.length (A := es) (B := []) rfl (by simpa using r)
  simpa using this

theorem sizeLoop_ok {h : Heap T} {z : Addr} : ∀ {es : List (Addr × T)} {p : Addr} (n : Nat), Laid h p es z →
    sizeLoop z (posOf z (es.map Prod.fst)) n h = .ok (n + es.length, h)
  | [], p, n, l => by rw [sizeLoop]; simp
  | e :: es, p, n, l => by
    obtain ⟨l1, l2⟩ := l.data e (by simp)
    have hne : e.1 ≠ z := fun q => l.stop (by simp [q])
    rw [sizeLoop]
    simp only [List.map_cons, posOf_cons, Prog.ite_app, if_pos hne, Prog.bind_app, Res.bind_ok, getNext_eq l1, l.tail.next,
      sizeLoop_ok _ l.tail, List.length_cons, Nat.add_assoc, Nat.add_comm 1]

theorem Ring.size {h : Heap T} {c : Addr} {es : List (Addr × T)} (r : Ring h c es) : size c h = .ok (es.length, h) := by
  unfold DList.size
  simp only [Prog.bind_app, getNext_eq r.head, Res.bind_ok, r.next_head]
  have := sizeLoop_ok 0 r.laid
  simpa using this

theorem Ring.empty {h : Heap T} {c : Addr} {es : List (Addr × T)} (r : Ring h c es) :
    empty c h = .ok (es.isEmpty, h) := by
  unfold DList.empty
  simp only [Prog.bind_app, getNext_eq r.head, Res.bind_ok, r.next_head, Prog.pure_app]
  cases es with
  | nil => simp
  | cons e es =>
    have : e.1 ≠ c := fun q => r.laid.stop (by simp [q])
    simp [this]

theorem Ring.front {h : Heap T} {c : Addr} {e : Addr × T} {es : List (Addr × T)} (r : Ring h c (e :: es)) :
    front c h = .ok (e.2, h) := by
  unfold DList.front
  obtain ⟨l1, l2⟩ := r.data e (by simp)
  simp only [Prog.bind_app, getNext_eq r.head, Res.bind_ok, r.next_head, List.map_cons, posOf_cons, getVal_eq l1 l2]

theorem Ring.back {h : Heap T} {c : Addr} {e : Addr × T} {es : List (Addr × T)} (r : Ring h c (es ++ [e])) :
    back c h = .ok (e.2, h) := by
  unfold DList.back
  obtain ⟨l1, l2⟩ := r.data e (by simp)
  simp only [Prog.bind_app, getPrev_eq r.head, Res.bind_ok, r.prev_last, getVal_eq l1 l2]

/-- Two sequences of elements have the same length and equal elements at corresponding positions. -/
def same (eqv : T → T → Bool) : List (Addr × T) → List (Addr × T) → Bool
  | [], [] => true
  | e :: es, f :: fs => eqv e.2 f.2 && same eqv es fs
  | _, _ => false

theorem same_iff {eqv : T → T → Bool} : ∀ {es fs : List (Addr × T)}, same eqv es fs = true ↔
    es.length = fs.length ∧ ∀ (i : Nat) x y, es[i]? = some x → fs[i]? = some y → eqv x.2 y.2 = true
  | [], [] => by simp [same]
  | [], f :: fs => by simp [same]
  | e :: es, [] => by simp [same]
  | e :: es, f :: fs => by
    simp only [same, Bool.and_eq_true, same_iff (es := es) (fs := fs), List.length_cons, Nat.add_right_cancel_iff]
    constructor
    · rintro ⟨a, b, c⟩
      refine ⟨b, fun i x y => ?_⟩
      cases i with
      | zero => simp only [List.getElem?_cons_zero, Option.some.injEq]; rintro rfl rfl; exact a
      | succ i => simp only [List.getElem?_cons_succ]; exact c i x y
    · rintro ⟨b, c⟩
      exact ⟨c 0 e f rfl rfl, b, fun i x y p q => c (i + 1) x y p q⟩

theorem negated {eqv : T → T → Bool} {b : Bool} {es fs : List (Addr × T)}
    (i : b = true ↔ es.length = fs.length ∧ ∀ (i : Nat) x y, es[i]? = some x → fs[i]? = some y → eqv x.2 y.2 = true) :
    (!b) = true ↔ es.length ≠ fs.length ∨ ∃ (i : Nat) (x y : Addr × T), es[i]? = some x ∧ fs[i]? = some y ∧ eqv x.2 y.2 = false := by
  cases b with
  | true =>
    obtain ⟨l, a⟩ := i.1 rfl
    simp only [Bool.not_true, Bool.false_eq_true, false_iff, not_or, not_exists]
    refine ⟨fun q => q l, fun k x y ⟨p, q, r⟩ => ?_⟩
    rw [a k x y p q] at r
    cases r
  | false =>
    simp only [Bool.not_false, true_iff]
    by_cases l : es.length = fs.length
    · refine Or.inr (Classical.byContradiction fun no => ?_)
      refine absurd (i.2 ⟨l, fun k x y p q => ?_⟩) (by simp)
      cases r : eqv x.2 y.2 with
      | true => rfl
      | false => exact absurd ⟨k, x, y, p, q, r⟩ no
    · exact Or.inl l

theorem same_values [DecidableEq T] {b : Bool} {es fs : List (Addr × T)}
    (i : b = true ↔ es.length = fs.length ∧ ∀ (i : Nat) x y, es[i]? = some x → fs[i]? = some y → (fun a b : T => decide (a = b)) x.2 y.2 = true) :
    b = decide (es.map Prod.snd = fs.map Prod.snd) := by
  rw [Bool.eq_iff_iff, i, decide_eq_true_eq]
  constructor
  · rintro ⟨l, e⟩
    refine List.ext_getElem? fun k => ?_
    simp only [List.getElem?_map]
    cases p : es[k]? with
    | none => rw [List.getElem?_eq_none_iff] at p; rw [List.getElem?_eq_none (by omega)]
    | some x =>
      have k1 := (List.getElem?_eq_some_iff.1 p).1
      have := e k x fs[k] p (List.getElem?_eq_getElem (by omega))
      rw [List.getElem?_eq_getElem (by omega)]
      simp only [decide_eq_true_eq] at this
      simp [this]
  · intro e
    have l : es.length = fs.length := by have := congrArg List.length e; simpa using this
    refine ⟨l, fun k x y p q => ?_⟩
    have := congrArg (·[k]?) e
    simp only [List.getElem?_map, p, q, Option.map_some, Option.some.injEq] at this
    simp [this]

theorem equalLoop_ok {eqv : T → T → Bool} {h : Heap T} {y z : Addr} : ∀ {es fs : List (Addr × T)} {p q : Addr},
    Laid h p es y → Laid h q fs z →
    equalLoop eqv (posOf y (es.map Prod.fst)) y (posOf z (fs.map Prod.fst)) z h = .ok (same eqv es fs, h)
  | [], fs, p, q, l, m => by
    rw [equalLoop]
    cases fs with
    | nil => simp [same]
    | cons f fs =>
      have : f.1 ≠ z := fun q => m.stop (by simp [q])
      simp [this, same]
  | e :: es, [], p, q, l, m => by
    rw [equalLoop]
    have : e.1 ≠ y := fun q => l.stop (by simp [q])
    simp [this, same]
  | e :: es, f :: fs, p, q, l, m => by
    have h1 : e.1 ≠ y := fun q => l.stop (by simp [q])
    have h2 : f.1 ≠ z := fun q => m.stop (by simp [q])
    obtain ⟨l1, l2⟩ := l.data e (by simp)
    obtain ⟨m1, m2⟩ := m.data f (by simp)
    rw [equalLoop]
    simp only [List.map_cons, posOf_cons, Prog.ite_app, Prog.bind_app, Res.bind_ok, getVal_eq l1 l2, getVal_eq m1 m2]
    rw [if_pos ⟨h1, h2⟩]
    by_cases hv : eqv e.2 f.2 = true
    · rw [if_pos hv]
      simp only [Res.bind_ok, getNext_eq l1, getNext_eq m1, l.tail.next, m.tail.next, equalLoop_ok l.tail m.tail]
      simp [hv, same]
    · rw [if_neg hv]
      simp [hv, same]

theorem Ring.equals {eqv : T → T → Bool} {h : Heap T} {a b : Addr} {es fs : List (Addr × T)} (r : Ring h a es) (s : Ring h b fs) :
    equals eqv a b h = .ok (same eqv es fs, h) := by
  unfold DList.equals
  simp only [Prog.bind_app, getNext_eq r.head, getNext_eq s.head, Res.bind_ok, r.next_head, s.next_head]
  exact equalLoop_ok r.laid s.laid

/-! ## Construction, copying, clearing -/

theorem create_ok {h : Heap T} (w : Wf h) : ∃ h', create h = .ok (h.fresh, h') ∧ Ring h' h.fresh [] ∧
    Effect (fun _ => False) (· ∈ cells h.fresh ([] : List (Addr × T))) h h' ∧ h'.fresh = h.fresh + 1 := by
  have n0 : (0 : Nat) ≠ h.fresh := Nat.ne_of_lt w.pos
  let h1 : Heap T := { h with
    val := upd h.val h.fresh none
    live := upd h.live h.fresh true
    prev := upd h.prev h.fresh h.fresh
    next := upd h.next h.fresh h.fresh
    fresh := h.fresh + 1 }
  refine ⟨h1, ?_, ⟨?_, ?_, ?_, ?_, ?_⟩, ⟨?_, ?_, ?_, ?_, ⟨?_, ?_, ?_⟩, ?_⟩, rfl⟩
  · unfold create init
    simp only [Prog.bind_app, newRaw_eq, Res.bind_ok, setNext, setPrev, upd_same, if_true, Prog.pure_app, h1]
  · simp [h1]
  · simp [h1]
  · simp [Links, Chain, h1]
  · simp
  · simp
  · intro x _ hx lx
    have : x ≠ h.fresh := w.ne_fresh lx
    constructor <;> simp [h1, upd, this]
  · intro x _ hx lx
    have : x ≠ h.fresh := fun q => hx (by simp [cells, q])
    simp [h1, upd, this, lx]
  · intro x _ hx
    simp [cells] at hx; subst hx; exact w.fresh_dead (Nat.le_refl _)
  · intro x hx; exact absurd hx id
  · exact Nat.succ_pos _
  · simp [h1, upd, n0, w.null]
  · intro x lx
    by_cases q : x = h.fresh
    · rw [q]; exact Nat.lt_succ_self _
    · simp only [h1, upd_other _ _ q] at lx; exact Nat.lt_succ_of_lt (w.used x lx)
  · exact Nat.le_succ _

/-- Everything an effect does not own stays. -/
theorem Effect.laid {C C' : Addr → Prop} {h h' : Heap T} (ef : Effect C C' h h') {p : Addr} {es : List (Addr × T)} {z : Addr}
    (l : Laid h p es z) (lp : h.live p = true) (hp : ∀ x ∈ p :: es.map Prod.fst, ¬ C x) : Laid h' p es z := by
  have lv : ∀ x ∈ p :: es.map Prod.fst, h.live x = true := by
    intro x hx
    simp only [List.mem_cons, List.mem_map] at hx
    rcases hx with rfl | ⟨e, he, rfl⟩
    · exact lp
    · exact (l.data e he).1
  have s : ∀ x ∈ p :: es.map Prod.fst, Same h h' x := by
    intro x hx
    refine ef.frame x (hp x hx) (fun q => ?_) (lv x hx)
    have := ef.grown x (hp x hx) q
    rw [lv x hx] at this; cases this
  refine ⟨l.path.congr (fun x hx => (s x hx).next), ?_, l.stop⟩
  intro e he
  have := s e.1 (by simp only [List.mem_cons, List.mem_map]; exact .inr ⟨e, he, rfl⟩)
  exact ⟨this.live.trans (l.data e he).1, this.val.trans (l.data e he).2⟩

/-- Inserting the elements of another list (or of another part of memory). -/
theorem insertNodes_ok : ∀ (fs : List (Addr × T)) {h : Heap T} {c : Addr} {A B : List (Addr × T)} {p z : Addr}, Wf h →
    Ring h c (A ++ B) → Laid h p fs z → h.live p = true → (∀ x ∈ p :: fs.map Prod.fst, x ∉ cells c (A ++ B)) →
    ∃ h', insertNodes (posOf c (B.map Prod.fst)) (posOf z (fs.map Prod.fst)) z h = .ok ((), h') ∧
      Ring h' c (A ++ (fresh h.fresh (fs.map Prod.snd) ++ B)) ∧
      Effect (· ∈ cells c (A ++ B)) (· ∈ cells c (A ++ (fresh h.fresh (fs.map Prod.snd) ++ B))) h h' ∧
      h'.fresh = h.fresh + fs.length
  | [], h, c, A, B, p, z, w, r, l, lp, hd => by
    refine ⟨h, ?_, r, Effect.refl w, rfl⟩
    rw [insertNodes]; simp
  | f :: fs, h, c, A, B, p, z, w, r, l, lp, hd => by
    obtain ⟨l1, l2⟩ := l.data f (by simp)
    have hne : f.1 ≠ z := fun q => l.stop (by simp [q])
    obtain ⟨h1, q, r1, ef, fr⟩ := insert_ok w r f.2
    have m : Laid h1 f.1 fs z := Effect.laid ef l.tail l1 (fun x hx => hd x (List.mem_cons_of_mem _ hx))
    have l1' : h1.live f.1 = true := by
      have nc : f.1 ∉ cells c (A ++ B) := hd f.1 (by simp)
      rw [(ef.frame f.1 nc (fun q => by have := ef.grown _ nc q; rw [l1] at this; cases this) l1).live]; exact l1
    obtain ⟨h', q', r', ef', fr'⟩ := insertNodes_ok fs (A := A ++ [(h.fresh, f.2)]) (B := B) ef.wf (by simpa using r1) m l1' (by
      intro x hx hx'
      have hx0 : x ∈ p :: (f :: fs).map Prod.fst := List.mem_cons_of_mem _ hx
      have := hd x hx0
      have lx : h.live x = true := by
        simp only [List.mem_cons, List.mem_map] at hx
        rcases hx with rfl | ⟨e, he, rfl⟩
        · exact l1
        · exact (l.data e (List.mem_cons_of_mem _ he)).1
      have := w.ne_fresh lx
      simp [cells] at hx' hd
      grind)
    rw [fr] at r' ef' fr'
    refine ⟨h', ?_, by simpa [fresh] using r', ?_, by rw [fr']; simp; omega⟩
    · rw [insertNodes]
      unfold insert at q
      simp only [Prog.bind_app, newNode_eq, Res.bind_ok] at q
      simp only [List.map_cons, posOf_cons, Prog.ite_app, if_pos hne, Prog.bind_app, getVal_eq l1 l2, Res.bind_ok, newNode_eq, q]
      simp only [getNext_eq l1', Res.bind_ok, m.next]
      exact q'
    · simpa [fresh] using ef.trans (by simpa using ef')

/-- `clear()`: everything is freed, only `head_.prev` is not reset. -/
theorem clear_path : ∀ (es : List (Addr × T)) {h : Heap T} {c : Addr}, Wf h → Laid h c es c → h.live c = true → h.val c = none →
    (c :: es.map Prod.fst).Nodup → ∃ h', clear c h = .ok ((), h') ∧ Cleared h' c ∧ h'.prev = h.prev ∧
      Effect (· ∈ cells c es) (· ∈ cells c ([] : List (Addr × T))) h h' ∧ h'.fresh = h.fresh
  | [], h, c, w, l, lc, vc, nd => by
    refine ⟨h, ?_, ⟨lc, vc, l.next⟩, rfl, Effect.refl w, rfl⟩
    rw [clear]
    simp only [Prog.bind_app, getNext_eq lc, Res.bind_ok, l.next]; simp
  | e :: es, h, c, w, l, lc, vc, nd => by
    obtain ⟨l1, l2⟩ := l.data e (by simp)
    have hne : e.1 ≠ c := fun q => l.stop (by simp [q])
    simp only [List.map_cons, List.nodup_cons, List.mem_cons, not_or] at nd
    let h1 : Heap T := { h with next := upd h.next c (posOf c (es.map Prod.fst)), val := upd h.val e.1 none, live := upd h.live e.1 false }
    have ef : Effect (· ∈ cells c (e :: es)) (· ∈ cells c es) h h1 := by
      refine ⟨?_, ?_, ?_, ?_, ⟨w.pos, ?_, ?_⟩, Nat.le_refl _⟩
      · intro x hx hx' lx
        have q1 : x ≠ c := fun q => hx (by simp [cells, q])
        have q2 : x ≠ e.1 := fun q => hx (by simp [cells, q])
        constructor <;> simp [h1, upd, q1, q2]
      · intro x hx hx' lx; simp [h1, upd, lx]
      · intro x hx hx'; exact absurd (by simp [cells] at hx' ⊢; grind) hx
      · intro x hx hx'
        have : x = e.1 := by simp [cells] at hx hx'; grind
        simp [h1, upd, this]
      · simp [h1, upd, w.null]
      · intro x lx; exact w.used x (by simp [h1, upd] at lx; exact lx.2)
    have m : Laid h1 c es c := by
      refine ⟨?_, ?_, fun q => l.stop (List.mem_cons_of_mem _ q)⟩
      · have hp := l.tail.path
        cases es with
        | nil => show upd h.next c (posOf c []) c = c; simp
        | cons f es =>
          obtain ⟨p1, p2⟩ := hp
          refine ⟨by simp [h1], p2.congr ?_⟩
          intro x hx
          show upd h.next c _ x = h.next x
          exact upd_other _ _ (by simp only [List.map_cons, List.mem_cons] at hx nd; grind)
      · intro x hx
        have hx1 : x.1 ≠ e.1 := by
          intro q; exact nd.2.1 (q ▸ List.mem_map_of_mem hx)
        have := l.data x (List.mem_cons_of_mem _ hx)
        simp only [h1, upd_other _ _ hx1]; exact this
    obtain ⟨h', q, cl, pr, ef', fr⟩ := clear_path es ef.wf m (by simp [h1, upd, Ne.symm hne, lc]) (by simp [h1, upd, vc])
      (by simp only [List.nodup_cons]; exact ⟨fun q => nd.1.2 q, nd.2.2⟩)
    refine ⟨h', ?_, cl, pr, ef.trans ef', fr⟩
    rw [clear]
    simp only [Prog.bind_app, getNext_eq lc, Res.bind_ok, l.next, List.map_cons, posOf_cons, Prog.ite_app, if_pos hne, getNext_eq l1,
      l.tail.next, setNext, lc, if_true]
    rw [delete_eq (h := { h with next := upd h.next c (posOf c (es.map Prod.fst)) }) (v := e.2) l1 l2]
    exact q

theorem clear_ok {h : Heap T} {c : Addr} {es : List (Addr × T)} (w : Wf h) (r : Ring h c es) :
    ∃ h', clear c h = .ok ((), h') ∧ Cleared h' c ∧ h'.prev = h.prev ∧
      Effect (· ∈ cells c es) (· ∈ cells c ([] : List (Addr × T))) h h' ∧ h'.fresh = h.fresh :=
  clear_path es w r.laid r.head r.bare r.nodup

theorem clear_nil {h : Heap T} {c : Addr} (lc : h.live c = true) (lo : h.next c = c) : clear c h = .ok ((), h) := by
  rw [clear]; simp [getNext_eq lc, lo]

theorem freeRaw_ok {h : Heap T} {c : Addr} (w : Wf h) (l : h.live c = true) : ∃ h', freeRaw c h = .ok ((), h') ∧
    Effect (· ∈ cells c ([] : List (Addr × T))) (fun _ => False) h h' ∧ h'.fresh = h.fresh := by
  refine ⟨_, freeRaw_eq l, ⟨?_, ?_, ?_, ?_, ⟨w.pos, ?_, ?_⟩, Nat.le_refl _⟩, rfl⟩
  · intro x hx _ lx
    have q1 : x ≠ c := fun q => hx (by simp [cells, q])
    constructor <;> simp [upd, q1]
  · intro x hx _ lx; simp [upd, lx]
  · intro x _ hx; exact absurd hx id
  · intro x hx _; simp [cells] at hx; simp [upd, hx]
  · simp [upd, w.null]
  · intro x lx; exact w.used x (by simp [upd] at lx; exact lx.2)

end Verif.Seq.DList
