import Verif.Seq.SPath
/-!
# Operations on singly linked chains
-/
set_option linter.unusedVariables false
set_option linter.unusedSimpArgs false
namespace Verif.Seq
open Verif
open DList (posOf posOf_nil posOf_cons Laid Relink Arg readArg fresh)
variable {T : Type}

/-- Insert a new node behind the elements `A`. -/
theorem newInsert_ok {h : Heap T} {c : Addr} {A B : List (Addr × T)} (w : Wf h) (r : Slist h c (A ++ B)) (v : T) :
    ∃ h', (do SNode.insertAfter (lastOf c (A.map Prod.fst)) (← newNode v) : Prog (Heap T) Addr) h = .ok (h.fresh, h') ∧
      Slist h' c (A ++ (h.fresh, v) :: B) ∧ Effect (· ∈ scells c (A ++ B)) (· ∈ scells c (A ++ (h.fresh, v) :: B)) h h' ∧
      h'.fresh = h.fresh + 1 ∧ h'.tail = h.tail := by
  let h1 : Heap T := { h with val := upd h.val h.fresh (some v), live := upd h.live h.fresh true, fresh := h.fresh + 1 }
  have sm : ∀ x, x ≠ h.fresh → Same h h1 x := by
    intro x hx; constructor <;> simp [h1, upd, hx]
  have nf : ∀ x ∈ scells c (A ++ B), x ≠ h.fresh := fun x hx => w.ne_fresh (r.live x hx)
  have hn : h.fresh ∉ scells c (A ++ B) := fun q => nf _ q rfl
  have r1 : Slist h1 c (A ++ B) := r.frame fun x hx => sm x (nf x hx)
  have lp := r1.last_live
  have lf : h1.live h.fresh = true := by simp [h1]
  have m1 : lastOf c (A.map Prod.fst) ∈ scells c (A ++ B) := Slist.last_mem
  have n0 : (0 : Nat) ≠ h.fresh := Nat.ne_of_lt w.pos
  refine ⟨insA h1 (lastOf c (A.map Prod.fst)) h.fresh, ?_, r1.insA lf (by simp [h1]) hn, ⟨?_, ?_, ?_, ?_, ⟨?_, ?_, ?_⟩, ?_⟩, rfl, rfl⟩
  · simp only [Prog.bind_app, newNode_eq, Res.bind_ok]; exact insertAfter_eq lp lf
  · intro x hx hx' lx
    have q1 : x ≠ h.fresh := w.ne_fresh lx
    have q2 : x ≠ lastOf c (A.map Prod.fst) := fun q => hx (q ▸ m1)
    constructor <;> simp [insA, h1, upd, q1, q2]
  · intro x hx hx' lx
    have q1 : x ≠ h.fresh := fun q => hx' (by simp [scells, q])
    simp [insA, h1, upd, q1, lx]
  · intro x hx hx'
    have : x = h.fresh := by simp only [scells, List.map_append, List.map_cons, List.mem_cons, List.mem_append] at hx hx'; grind
    rw [this]; exact w.fresh_dead (Nat.le_refl _)
  · intro x hx hx'
    exact absurd (by simp only [scells, List.map_append, List.map_cons, List.mem_cons, List.mem_append] at hx ⊢; grind) hx'
  · exact Nat.succ_pos _
  · simp [insA, h1, upd, n0, w.null]
  · intro x lx
    by_cases q : x = h.fresh
    · rw [q]; exact Nat.lt_succ_self _
    · simp only [insA, h1, upd_other _ _ q] at lx; exact Nat.lt_succ_of_lt (w.used x lx)
  · exact Nat.le_succ _

theorem insertVals_ok : ∀ (vs : List T) {h : Heap T} {c : Addr} {A B : List (Addr × T)}, Wf h → Slist h c (A ++ B) →
    ∃ h', SList.insertVals (lastOf c (A.map Prod.fst)) vs h = .ok (lastOf c ((A ++ fresh h.fresh vs).map Prod.fst), h') ∧
      Slist h' c (A ++ (fresh h.fresh vs ++ B)) ∧
      Effect (· ∈ scells c (A ++ B)) (· ∈ scells c (A ++ (fresh h.fresh vs ++ B))) h h' ∧
      h'.fresh = h.fresh + vs.length ∧ h'.tail = h.tail
  | [], h, c, A, B, w, r => ⟨h, by simp [SList.insertVals, fresh], r, Effect.refl w, rfl, rfl⟩
  | v :: vs, h, c, A, B, w, r => by
    obtain ⟨h1, q, r1, ef, fr, tl⟩ := newInsert_ok w r v
    obtain ⟨h', q', r', ef', fr', tl'⟩ := insertVals_ok vs (A := A ++ [(h.fresh, v)]) (B := B) ef.wf (by simpa using r1)
    rw [fr] at r' ef' fr' q'
    refine ⟨h', ?_, by simpa [fresh] using r', ?_, by rw [fr']; simp; omega, tl'.trans tl⟩
    · unfold SList.insertVals
      simp only [Prog.bind_app, newNode_eq, Res.bind_ok] at q ⊢
      rw [q]
      simp only [Res.bind_ok]
      simp only [List.map_append, List.map_cons, List.map_nil, lastOf_concat] at q'
      rw [q']; simp [fresh]
    · simpa [fresh] using ef.trans (by simpa using ef')

/-- The argument can be read and has value `v`. -/
def Readable (h : Heap T) (v : T) : Arg T → Prop
  | .ext w => w = v
  | .elem a => h.live a = true ∧ h.val a = some v

theorem Readable.read {h : Heap T} {v : T} {a : Arg T} (r : Readable h v a) : readArg a h = .ok (v, h) := by
  cases a with
  | ext w => cases r; rfl
  | elem a => exact getVal_eq r.1 r.2

theorem insertN_ok {value : Arg T} {v : T} : ∀ (n : Nat) {h : Heap T} {c : Addr} {A B : List (Addr × T)}, Wf h → Slist h c (A ++ B) →
    Readable h v value →
    SList.insertN (lastOf c (A.map Prod.fst)) n value h = SList.insertVals (lastOf c (A.map Prod.fst)) (List.replicate n v) h
  | 0, h, c, A, B, w, r, rd => rfl
  | n + 1, h, c, A, B, w, r, rd => by
    obtain ⟨h1, q, r1, ef, fr, tl⟩ := newInsert_ok w r v
    have rd1 : Readable h1 v value := by
      cases value with
      | ext w => exact rd
      | elem a =>
        simp only [Prog.bind_app, newNode_eq, Res.bind_ok] at q
        have hf : a ≠ h.fresh := w.ne_fresh rd.1
        rw [insertAfter_eq (by simp only [upd_other _ _ (w.ne_fresh (r.last_live))]; exact r.last_live) (by simp)] at q
        simp only [Res.ok.injEq, Prod.mk.injEq, true_and] at q
        subst q
        simp only [Readable, insA, upd_other _ _ hf]; exact rd
    have ih := insertN_ok n (A := A ++ [(h.fresh, v)]) (B := B) ef.wf (by simpa using r1) rd1
    simp only [List.map_append, List.map_cons, List.map_nil, lastOf_concat] at ih
    rw [List.replicate_succ]
    unfold SList.insertN SList.insertVals
    simp only [Prog.bind_app, newNode_eq, Res.bind_ok, rd.read] at q ⊢
    rw [q]
    simp only [Res.bind_ok, ih]

/-- What an effect does not own stays readable. -/
theorem Effect.keeps {C C' : Addr → Prop} {h h' : Heap T} (ef : Effect C C' h h') {x : Addr} (l : h.live x = true) (hx : ¬ C x) :
    Same h h' x := by
  refine ef.frame x hx (fun q => ?_) l
  have := ef.grown x hx q
  rw [l] at this; cases this

theorem insertNodes_ok : ∀ (fs : List (Addr × T)) {h : Heap T} {c : Addr} {A B : List (Addr × T)} {p z : Addr}, Wf h →
    Slist h c (A ++ B) → Laid h p fs z → h.live p = true → (∀ x ∈ p :: fs.map Prod.fst, x ∉ scells c (A ++ B)) →
    ∃ h', SList.insertNodes (lastOf c (A.map Prod.fst)) (posOf z (fs.map Prod.fst)) z h =
        .ok (lastOf c ((A ++ fresh h.fresh (fs.map Prod.snd)).map Prod.fst), h') ∧
      Slist h' c (A ++ (fresh h.fresh (fs.map Prod.snd) ++ B)) ∧
      Effect (· ∈ scells c (A ++ B)) (· ∈ scells c (A ++ (fresh h.fresh (fs.map Prod.snd) ++ B))) h h' ∧
      h'.fresh = h.fresh + fs.length ∧ h'.tail = h.tail
  | [], h, c, A, B, p, z, w, r, l, lp, hd => by
    refine ⟨h, ?_, r, Effect.refl w, rfl, rfl⟩
    rw [SList.insertNodes]; simp [fresh]
  | f :: fs, h, c, A, B, p, z, w, r, l, lp, hd => by
    obtain ⟨l1, l2⟩ := l.data f (by simp)
    have hne : f.1 ≠ z := fun q => l.stop (by simp [q])
    obtain ⟨h1, q, r1, ef, fr, tl⟩ := newInsert_ok w r f.2
    have m : Laid h1 f.1 fs z := DList.Effect.laid ef l.tail l1 (fun x hx => hd x (List.mem_cons_of_mem _ hx))
    have l1' : h1.live f.1 = true := by
      rw [(ef.keeps l1 (hd f.1 (by simp))).live]; exact l1
    obtain ⟨h', q', r', ef', fr', tl'⟩ := insertNodes_ok fs (A := A ++ [(h.fresh, f.2)]) (B := B) ef.wf (by simpa using r1) m l1' (by
      intro x hx hx'
      have hx0 : x ∈ p :: (f :: fs).map Prod.fst := List.mem_cons_of_mem _ hx
      have := hd x hx0
      have lx : h.live x = true := by
        simp only [List.mem_cons, List.mem_map] at hx
        rcases hx with rfl | ⟨e, he, rfl⟩
        · exact l1
        · exact (l.data e (List.mem_cons_of_mem _ he)).1
      have := w.ne_fresh lx
      simp [scells] at hx' hd
      grind)
    rw [fr] at r' ef' fr' q'
    refine ⟨h', ?_, by simpa [fresh] using r', ?_, by rw [fr']; simp; omega, tl'.trans tl⟩
    · rw [SList.insertNodes]
      simp only [Prog.bind_app, newNode_eq, Res.bind_ok] at q
      simp only [List.map_cons, posOf_cons, Prog.ite_app, if_pos hne, Prog.bind_app, getVal_eq l1 l2, Res.bind_ok, newNode_eq, q]
      simp only [getNext_eq l1', Res.bind_ok, m.next]
      simp only [List.map_append, List.map_cons, List.map_nil, lastOf_concat] at q'
      rw [q']; simp [fresh]
    · simpa [fresh] using ef.trans (by simpa using ef')

/-! ## Removing nodes -/

theorem delNext_ok {h : Heap T} {c : Addr} {A B : List (Addr × T)} {e : Addr × T} (w : Wf h) (r : Slist h c (A ++ e :: B)) :
    ∃ h', SNode.unlinkNext (lastOf c (A.map Prod.fst)) h = .ok (e.1, unlA h (lastOf c (A.map Prod.fst))) ∧
      delete e.1 (unlA h (lastOf c (A.map Prod.fst))) = .ok ((), h') ∧
      Slist h' c (A ++ B) ∧ Effect (· ∈ scells c (A ++ e :: B)) (· ∈ scells c (A ++ B)) h h' ∧
      h'.fresh = h.fresh ∧ h'.tail = h.tail ∧ h'.live e.1 = false ∧ (∀ x, x ≠ e.1 → h'.live x = h.live x) := by
  have nx := r.next_at
  simp only [List.map_cons, posOf_cons] at nx
  obtain ⟨l1, l2⟩ := r.data e (by simp)
  have lp := r.last_live
  have r1 := r.unlA
  have nd := r.nodup
  have ne : e.1 ∉ scells c (A ++ B) := by
    simp only [scells, List.map_append, List.map_cons, List.nodup_cons, List.nodup_append, List.mem_append, List.mem_cons, not_or] at nd ⊢
    grind
  have m1 : lastOf c (A.map Prod.fst) ∈ scells c (A ++ B) := Slist.last_mem
  let h1 := unlA h (lastOf c (A.map Prod.fst))
  refine ⟨{ h1 with val := upd h1.val e.1 none, live := upd h1.live e.1 false }, ?_, ?_, ?_, ⟨?_, ?_, ?_, ?_, ⟨w.pos, ?_, ?_⟩, Nat.le_refl _⟩,
    rfl, rfl, ?_, ?_⟩
  · rw [unlinkNext_eq lp (by rw [nx]; exact l1), nx]
  · exact delete_eq (h := h1) l1 l2
  · have : ∀ x ∈ scells c (A ++ B), x ≠ e.1 := fun x hx q => ne (q ▸ hx)
    refine ⟨?_, ?_, r1.path.congr (fun _ _ => rfl), r1.nodup, ?_⟩
    · simp only [upd_other _ _ (this c (by simp [scells]))]; exact r1.head
    · simp only [upd_other _ _ (this c (by simp [scells]))]; exact r1.bare
    · intro x hx
      have : x.1 ≠ e.1 := this x.1 (by simp only [scells, List.mem_cons, List.mem_map]; exact .inr ⟨x, hx, rfl⟩)
      simp only [upd_other _ _ this]; exact r1.data x hx
  · intro x hx hx' lx
    have q1 : x ≠ e.1 := fun q => hx (by simp [scells, q])
    have q2 : x ≠ lastOf c (A.map Prod.fst) := fun q => hx' (q ▸ m1)
    constructor <;> simp [h1, unlA, upd, q1, q2]
  · intro x _ _ lx
    have : h1.live x = false := lx
    simp only [upd]; split <;> simp_all
  · intro x hx hx'; exact absurd (by simp only [scells, List.map_append, List.map_cons, List.mem_cons, List.mem_append] at hx' ⊢; grind) hx
  · intro x hx hx'
    have : x = e.1 := by simp only [scells, List.map_append, List.map_cons, List.mem_cons, List.mem_append] at hx hx'; grind
    simp [this]
  · have : h1.live 0 = false := w.null
    simp only [upd]; split <;> simp_all
  · intro x lx
    refine w.used x ?_
    simp only [upd] at lx
    split at lx
    · cases lx
    · exact lx
  · simp
  · intro x hx; simp only [upd_other _ _ hx]; rfl

theorem eraseLoop_ok : ∀ (M : List (Addr × T)) {h : Heap T} {c : Addr} {A B : List (Addr × T)}, Wf h → Slist h c (A ++ (M ++ B)) →
    ∃ h', SList.eraseLoop (lastOf c (A.map Prod.fst)) (posOf 0 (B.map Prod.fst)) h = .ok ((), h') ∧ Slist h' c (A ++ B) ∧
      Effect (· ∈ scells c (A ++ (M ++ B))) (· ∈ scells c (A ++ B)) h h' ∧ h'.fresh = h.fresh ∧ h'.tail = h.tail ∧
      (∀ x ∈ M.map Prod.fst, h'.live x = false)
  | [], h, c, A, B, w, r => by
    refine ⟨h, ?_, r, Effect.refl w, rfl, rfl, by simp⟩
    have nx := r.next_at
    rw [SList.eraseLoop]
    simp only [Prog.bind_app, getNext_eq r.last_live, Res.bind_ok, nx]
    simp
  | e :: M, h, c, A, B, w, r => by
    obtain ⟨h1, u, d, r1, ef, fr, tl, dd, _⟩ := delNext_ok (A := A) (B := M ++ B) w r
    obtain ⟨h', q, r', ef', fr', tl', dd'⟩ := eraseLoop_ok M (A := A) (B := B) ef.wf r1
    have nx := r.next_at
    have nd := r.nodup
    have hne : e.1 ≠ posOf 0 (B.map Prod.fst) := by
      cases B with
      | nil => exact w.ne_zero (r.data e (by simp)).1
      | cons b B =>
        simp only [List.map_append, List.map_cons, posOf_cons, List.cons_append, List.nodup_cons, List.nodup_append] at nd ⊢
        grind
    refine ⟨h', ?_, r', ef.trans ef', fr'.trans fr, tl'.trans tl, ?_⟩
    · rw [SList.eraseLoop]
      simp only [List.map_append, List.map_cons, List.cons_append, posOf_cons] at nx
      simp only [Prog.bind_app, getNext_eq r.last_live, Res.bind_ok, nx, Prog.ite_app, if_pos hne, u, d, q]
    · intro x hx
      simp only [List.map_cons, List.mem_cons] at hx
      by_cases q : x ∈ M.map Prod.fst
      · exact dd' x q
      · rcases hx with rfl | hx
        · refine ef'.dead _ ?_ ?_ dd
          · simp only [scells, List.map_append, List.map_cons, List.cons_append, List.nodup_cons, List.nodup_append, List.mem_cons, List.mem_append] at nd ⊢
            grind
          · simp only [scells, List.map_append, List.map_cons, List.cons_append, List.nodup_cons, List.nodup_append, List.mem_cons, List.mem_append] at nd ⊢
            grind
        · exact absurd hx q

theorem clearLoop_eq (c : Addr) : ∀ (es : List (Addr × T)) {h : Heap T}, Wf h → Slist h c es →
    SList.clearLoop c h = SList.eraseLoop c 0 h
  | [], h, w, r => by
    rw [SList.clearLoop, SList.eraseLoop]
    simp only [Prog.bind_app, getNext_eq r.head, Res.bind_ok, r.next_head]; simp
  | e :: es, h, w, r => by
    obtain ⟨h1, u, d, r1, ef, fr, tl, dd, _⟩ := delNext_ok (A := []) (B := es) w r
    have hne : e.1 ≠ 0 := w.ne_zero (r.data e (by simp)).1
    simp only [List.map_nil, lastOf_nil] at u d
    rw [SList.clearLoop, SList.eraseLoop]
    simp only [Prog.bind_app, getNext_eq r.head, Res.bind_ok, r.next_head, List.map_cons, posOf_cons, Prog.ite_app, if_pos hne, u, d]
    exact clearLoop_eq c es ef.wf r1

theorem clearLoop_ok {h : Heap T} {c : Addr} {es : List (Addr × T)} (w : Wf h) (r : Slist h c es) :
    ∃ h', SList.clearLoop c h = .ok ((), h') ∧ Slist h' c ([] : List (Addr × T)) ∧
      Effect (· ∈ scells c es) (· ∈ scells c ([] : List (Addr × T))) h h' ∧ h'.fresh = h.fresh ∧ h'.tail = h.tail ∧
      (∀ x ∈ es.map Prod.fst, h'.live x = false) := by
  obtain ⟨h', q, r', ef, fr, tl, dd⟩ := eraseLoop_ok es (A := []) (B := []) w (by simpa using r)
  refine ⟨h', ?_, r', by simpa using ef, fr, tl, dd⟩
  rw [clearLoop_eq c es w r]; exact q

/-! ## Observers -/

theorem Slist.entries {h : Heap T} {c : Addr} {es : List (Addr × T)} (w : Wf h) (r : Slist h c es) :
    SList.entries c h = .ok (es, h) := by
  unfold SList.entries
  simp only [Prog.bind_app, getNext_eq r.head, Res.bind_ok, r.next_head]
  exact DList.entriesFrom_ok (r.laid w)

theorem Slist.equals {eqv : T → T → Bool} {h : Heap T} {a b : Addr} {es fs : List (Addr × T)} (w : Wf h) (r : Slist h a es)
    (s : Slist h b fs) : SList.equals eqv a b h = .ok (DList.same eqv es fs, h) := by
  unfold SList.equals
  simp only [Prog.bind_app, getNext_eq r.head, getNext_eq s.head, Res.bind_ok, r.next_head, s.next_head]
  exact DList.equalLoop_ok (r.laid w) (s.laid w)

theorem Slist.front {h : Heap T} {c : Addr} {e : Addr × T} {es : List (Addr × T)} (r : Slist h c (e :: es)) :
    SList.front c h = .ok (e.2, h) := by
  obtain ⟨l1, l2⟩ := r.data e (by simp)
  simp only [SList.front, Prog.bind_app, getNext_eq r.head, Res.bind_ok, r.next_head, List.map_cons, posOf_cons, getVal_eq l1 l2]

theorem posAt_path {h : Heap T} : ∀ (A : List Addr) {c : Addr} {z : Addr}, Path h c A z → (∀ x ∈ c :: A, h.live x = true) →
    SList.posAt c A.length h = .ok (lastOf c A, h)
  | [], c, z, p, lv => rfl
  | a :: A, c, z, p, lv => by
    simp only [List.length_cons, SList.posAt, Prog.bind_app, getNext_eq (lv c (by simp)), Res.bind_ok, p.1]
    exact posAt_path A p.2 (fun x hx => lv x (List.mem_cons_of_mem _ hx))

/-- The iterator at position `i` (0 is `before_begin()`). -/
theorem Slist.posAt {h : Heap T} {c : Addr} {es : List (Addr × T)} (r : Slist h c es) {i : Nat} (hi : i ≤ es.length) :
    SList.posAt c i h = .ok (lastOf c ((es.take i).map Prod.fst), h) := by
  have sp : es = es.take i ++ es.drop i := (List.take_append_drop i es).symm
  have p := r.path
  rw [sp, List.map_append, Path.split] at p
  have := posAt_path ((es.take i).map Prod.fst) p.1 (by
    intro x hx
    refine r.live x ?_
    simp only [scells, List.mem_cons] at hx ⊢
    rcases hx with hx | hx
    · exact .inl hx
    · exact .inr (((List.take_sublist i es).map Prod.fst).subset hx))
  rw [show ((es.take i).map Prod.fst).length = i by simp; omega] at this
  exact this

theorem posAt_succ {c : Addr} : ∀ (i : Nat) {c : Addr} {h : Heap T} {p : Addr}, SList.posAt c i h = .ok (p, h) → h.live p = true →
    SList.posAt c (i + 1) h = .ok (h.next p, h)
  | 0, c, h, p, q, l => by
    simp only [SList.posAt, Prog.pure_app, Res.ok.injEq, Prod.mk.injEq] at q
    obtain ⟨rfl, _⟩ := q
    simp only [SList.posAt, Prog.bind_app, getNext_eq l, Res.bind_ok, Prog.pure_app]
  | i + 1, c, h, p, q, l => by
    rw [SList.posAt] at q ⊢
    simp only [Prog.bind_app] at q ⊢
    by_cases lc : h.live c = true
    · rw [getNext_eq lc] at q ⊢
      simp only [Res.bind_ok] at q ⊢
      exact posAt_succ i (c := 0) q l
    · rw [getNext_dead (by simpa using lc)] at q; cases q

/-- Position `len + 1` is `end()`; in general position `i + 1` is the `i`-th element. -/
theorem Slist.posAt_elem {h : Heap T} {c : Addr} {es : List (Addr × T)} (r : Slist h c es) {i : Nat} (hi : i ≤ es.length) :
    SList.posAt c (i + 1) h = .ok (posOf 0 ((es.drop i).map Prod.fst), h) := by
  have sp : es = es.take i ++ es.drop i := (List.take_append_drop i es).symm
  have l : h.live (lastOf c ((es.take i).map Prod.fst)) = true := Slist.last_live (B := es.drop i) (by rw [← sp]; exact r)
  rw [posAt_succ (c := 0) i (r.posAt hi) l]
  rw [Slist.next_at (B := es.drop i) (by rw [← sp]; exact r)]

end Verif.Seq
