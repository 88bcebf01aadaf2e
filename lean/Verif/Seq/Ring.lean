import Verif.Seq.Chain2
/-!
# What it means that memory holds a `ttl::list`, and the members that insert and erase
-/
set_option linter.unusedVariables false
set_option linter.unusedSimpArgs false
namespace Verif.Seq.DList
open Verif Verif.Seq
variable {T : Type}

/-- The list at `c` is intact and holds the elements `es` (node address and value), in order. -/
structure Ring (h : Heap T) (c : Addr) (es : List (Addr × T)) : Prop where
  head : h.live c = true
  bare : h.val c = none
  links : Links h c (es.map Prod.fst)
  nodup : (c :: es.map Prod.fst).Nodup
  data : ∀ e ∈ es, h.live e.1 = true ∧ h.val e.1 = some e.2

/-- Mathematical state of a `ttl::list` object: intact with these elements, or emptied by `clear()` while it
had elements (which leaves `head_.prev` dangling). -/
inductive LState (T : Type) where
  | ring (es : List (Addr × T))
  | cleared

/-- The list at `c` has been emptied by `clear()`: nothing is known about `head_.prev`. -/
structure Cleared (h : Heap T) (c : Addr) : Prop where
  head : h.live c = true
  bare : h.val c = none
  loop : h.next c = c

/-- The elements of a list in a given state. -/
def LState.elems : LState T → List (Addr × T)
  | .ring es => es
  | .cleared => []

/-- The addresses owned by the list at `c`. -/
def cells (c : Addr) (es : List (Addr × T)) : List Addr := c :: es.map Prod.fst

theorem Ring.live {h : Heap T} {c : Addr} {es : List (Addr × T)} (r : Ring h c es) : ∀ x ∈ cells c es, h.live x = true := by
  intro x hx
  simp only [cells, List.mem_cons, List.mem_map] at hx
  rcases hx with rfl | ⟨e, he, rfl⟩
  · exact r.head
  · exact (r.data e he).1

theorem Chain.frame {h h' : Heap T} {l : List Addr} (c : Chain h l) (e : ∀ x ∈ l, Same h h' x) : Chain h' l :=
  c.congr (fun x hx => (e x ((List.dropLast_sublist _).subset hx)).next) (fun x hx => (e x (List.mem_of_mem_tail hx)).prev)

theorem Ring.frame {h h' : Heap T} {c : Addr} {es : List (Addr × T)} (r : Ring h c es)
    (e : ∀ x ∈ cells c es, Same h h' x) : Ring h' c es := by
  have ec := e c (by simp [cells])
  refine ⟨ec.live.trans r.head, ec.val.trans r.bare, r.links.frame ?_, r.nodup, ?_⟩
  · intro x hx
    simp only [List.mem_cons, List.mem_append, List.not_mem_nil, or_false] at hx
    rcases hx with rfl | hx | rfl
    · exact ec
    · exact e x (by simp only [cells, List.mem_cons]; exact .inr hx)
    · exact ec
  · intro a ha
    have ea := e a.1 (by simp only [cells, List.mem_cons, List.mem_map]; exact .inr ⟨a, ha, rfl⟩)
    exact ⟨ea.live.trans (r.data a ha).1, ea.val.trans (r.data a ha).2⟩

/-- `ttl::list` as a kind of container. -/
def iface : Iface T (LState T) where
  own h c s := match s with | .ring es => Ring h c es | .cleared => Cleared h c
  cells c s := cells c s.elems
  frame := by
    intro h h' c s o e
    cases s with
    | ring es => exact Ring.frame o e
    | cleared =>
      have ec := e c (by simp [cells])
      exact ⟨ec.live.trans o.head, ec.val.trans o.bare, ec.next.trans o.loop⟩
  live := by
    intro h c s o
    cases s with
    | ring es => exact Ring.live o
    | cleared => intro x hx; simp [cells, LState.elems] at hx; subst hx; exact o.head
  self := by intro c s; simp [cells]

/-! ## insert -/

theorem Ring.pos_live {h : Heap T} {c : Addr} {A B : List (Addr × T)} (r : Ring h c (A ++ B)) :
    h.live (posOf c (B.map Prod.fst)) = true ∧ h.live (h.prev (posOf c (B.map Prod.fst))) = true := by
  constructor
  · apply r.live
    cases B with
    | nil => simp [cells]
    | cons b B => simp [cells]
  · apply r.live
    have hl : Links h c (A.map Prod.fst ++ B.map Prod.fst) := by have := r.links; rwa [List.map_append] at this
    have := hl.prev_pos
    simp only [cells, List.mem_cons, List.map_append, List.mem_append] at this ⊢
    grind

theorem insert_ok {h : Heap T} {c : Addr} {A B : List (Addr × T)} (w : Wf h) (r : Ring h c (A ++ B)) (v : T) :
    ∃ h', insert (posOf c (B.map Prod.fst)) v h = .ok (h.fresh, h') ∧ Ring h' c (A ++ (h.fresh, v) :: B) ∧
      Effect (· ∈ cells c (A ++ B)) (· ∈ cells c (A ++ (h.fresh, v) :: B)) h h' ∧ h'.fresh = h.fresh + 1 := by
  have hl : Links h c (A.map Prod.fst ++ B.map Prod.fst) := by have := r.links; rwa [List.map_append] at this
  have hn : (c :: (A.map Prod.fst ++ B.map Prod.fst)).Nodup := by have := r.nodup; rwa [List.map_append] at this
  have hf : h.fresh ∉ c :: (A.map Prod.fst ++ B.map Prod.fst) := by
    intro q
    have := w.ne_fresh (r.live h.fresh (by simpa only [cells, List.map_append] using q))
    exact this rfl
  obtain ⟨lp, lq⟩ := r.pos_live
  have mp : posOf c (B.map Prod.fst) ∈ cells c (A ++ B) := by
    cases B with
    | nil => simp [cells]
    | cons b B => simp [cells]
  have mq : h.prev (posOf c (B.map Prod.fst)) ∈ cells c (A ++ B) := by
    have := hl.prev_pos; simp only [cells, List.mem_cons, List.map_append, List.mem_append] at this ⊢; grind
  have np := w.ne_fresh lp
  have nq := w.ne_fresh lq
  let h1 : Heap T := { h with val := upd h.val h.fresh (some v), live := upd h.live h.fresh true, fresh := h.fresh + 1 }
  have l1 : ∀ x, h.live x = true → h1.live x = true := by
    intro x hx; show upd h.live h.fresh true x = true; rw [upd_other _ _ (w.ne_fresh hx)]; exact hx
  have hl1 : Links h1 c (A.map Prod.fst ++ B.map Prod.fst) := Chain.congr hl (fun _ _ => rfl) (fun _ _ => rfl)
  refine ⟨insB h1 (posOf c (B.map Prod.fst)) h.fresh, ?_, ⟨?_, ?_, ?_, ?_, ?_⟩, ⟨?_, ?_, ?_, ?_, ⟨?_, ?_, ?_⟩, ?_⟩, rfl⟩
  · unfold insert
    simp only [Prog.bind_app, newNode_eq, Res.bind_ok]
    exact insertBefore_eq (h := h1) (l1 _ lp) (l1 _ lq) (by simp [h1])
  · exact l1 _ r.head
  · show upd h.val h.fresh (some v) c = none
    rw [upd_other _ _ (w.ne_fresh r.head)]; exact r.bare
  · have := insB_links hl1 hn hf
    simpa using this
  · simp only [List.map_append, List.map_cons, List.nodup_cons, List.nodup_append, List.mem_append, List.mem_cons] at hn hf ⊢
    grind
  · intro e he
    simp only [List.mem_append, List.mem_cons] at he
    by_cases q : e = (h.fresh, v)
    · subst q; simp [insB, h1]
    · have he' : e ∈ A ++ B := by simp only [List.mem_append]; grind
      obtain ⟨d1, d2⟩ := r.data e he'
      refine ⟨l1 _ d1, ?_⟩
      show upd h.val h.fresh (some v) e.1 = some e.2
      rw [upd_other _ _ (w.ne_fresh d1)]; exact d2
  · intro x hx hx' lx
    have e1 : x ≠ h.fresh := w.ne_fresh lx
    have e2 : x ≠ posOf c (B.map Prod.fst) := fun q => hx (q ▸ mp)
    have e3 : x ≠ h.prev (posOf c (B.map Prod.fst)) := fun q => hx (q ▸ mq)
    constructor <;> simp [insB, h1, upd, e1, e2, e3]
  · intro x hx hx' lx
    have e1 : x ≠ h.fresh := fun q => hx' (by simp [cells, q])
    simp [insB, h1, upd, e1, lx]
  · intro x hx hx'
    have : x = h.fresh := by simp [cells] at hx hx'; grind
    subst this; exact w.fresh_dead (Nat.le_refl _)
  · intro x hx hx'; exact absurd (by simp [cells] at hx ⊢; grind) hx'
  · exact Nat.succ_pos _
  · show upd h.live h.fresh true 0 = false
    rw [upd_other _ _ (Ne.symm (Nat.ne_of_gt w.pos))]; exact w.null
  · intro x lx
    change upd h.live h.fresh true x = true at lx
    show x < h.fresh + 1
    by_cases q : x = h.fresh
    · rw [q]; exact Nat.lt_succ_self _
    · rw [upd_other _ _ q] at lx; exact Nat.lt_succ_of_lt (w.used x lx)
  · exact Nat.le_succ _

/-! ## erase -/

/-- Unlinking and deleting a node. -/
theorem unlink_delete_ok {h : Heap T} {c : Addr} {A B : List (Addr × T)} {e : Addr × T} (w : Wf h)
    (r : Ring h c (A ++ e :: B)) :
    ∃ h', unlink e.1 h = .ok ((), unl h e.1) ∧ delete e.1 (unl h e.1) = .ok ((), h') ∧ h.live e.1 = true ∧
      h.next e.1 = posOf c (B.map Prod.fst) ∧ Ring h' c (A ++ B) ∧
      Effect (· ∈ cells c (A ++ e :: B)) (· ∈ cells c (A ++ B)) h h' ∧ h'.fresh = h.fresh ∧
      (∀ x, x ≠ e.1 → h'.live x = h.live x ∧ h'.val x = h.val x) ∧ h'.live e.1 = false := by
  obtain ⟨x, v⟩ := e
  have hl : Links h c (A.map Prod.fst ++ x :: B.map Prod.fst) := by have := r.links; rwa [List.map_append] at this
  have hn : (c :: (A.map Prod.fst ++ x :: B.map Prod.fst)).Nodup := by have := r.nodup; rwa [List.map_append] at this
  obtain ⟨e1, e2⟩ := hl.at_node
  obtain ⟨lx, vx⟩ := r.data (x, v) (by simp)
  have mn : h.next x ∈ cells c (A ++ B) := by
    rw [e1]; cases B with
    | nil => simp [cells]
    | cons b B => simp [cells]
  have mp : h.prev x ∈ cells c (A ++ B) := by
    simp only [cells, List.mem_cons, List.map_append, List.mem_append] at e2 ⊢; grind
  have sub : ∀ y, y ∈ cells c (A ++ B) → y ∈ cells c (A ++ (x, v) :: B) := by
    intro y hy; simp only [cells, List.mem_cons, List.map_append, List.mem_append, List.map_cons] at hy ⊢; grind
  have hxs : x ∉ cells c (A ++ B) := by
    simp only [cells, List.mem_cons, List.map_append, List.mem_append, List.nodup_cons, List.nodup_append] at hn ⊢; grind
  have ln := r.live _ (sub _ mn)
  have lp := r.live _ (sub _ mp)
  have nx : h.next x ≠ x := fun q => hxs (q ▸ mn)
  have lx' : (unl h x).live x = true := lx
  refine ⟨_, unlink_eq lx ln lp nx, delete_eq lx' vx, lx, e1, ⟨?_, ?_, ?_, ?_, ?_⟩, ⟨?_, ?_, ?_, ?_, ⟨?_, ?_, ?_⟩, ?_⟩, rfl, ?_, ?_⟩
  · show upd h.live x false c = true
    rw [upd_other _ _ (fun q => hxs (by simp [cells, q]))]; exact r.head
  · show upd h.val x none c = none
    rw [upd_other _ _ (fun q => hxs (by simp [cells, q]))]; exact r.bare
  · have := unl_links hl hn
    rw [List.map_append]
    exact Chain.congr this (fun _ _ => rfl) (fun _ _ => rfl)
  · simp only [List.nodup_cons, List.map_append, List.mem_append, List.nodup_append, List.mem_cons] at hn ⊢; grind
  · intro e he
    have hne : e.1 ≠ x := by
      intro q; apply hxs
      simp only [cells, List.mem_cons, List.mem_map]; exact .inr ⟨e, he, q⟩
    have := r.data e (by simp only [List.mem_append, List.mem_cons] at he ⊢; grind)
    simp only [upd_other _ _ hne]; exact this
  · intro y hy hy' ly
    have q1 : y ≠ x := fun q => hy (by simp [cells, q])
    have q2 : y ≠ h.next x := fun q => hy' (q ▸ mn)
    have q3 : y ≠ h.prev x := fun q => hy' (q ▸ mp)
    constructor <;> simp [unl, upd, q1, q2, q3]
  · intro y hy hy' ly
    simp [unl, upd]; grind
  · intro y hy hy'; exact absurd (sub y hy') hy
  · intro y hy hy'
    have : y = x := by simp only [cells, List.mem_cons, List.map_append, List.mem_append, List.map_cons] at hy hy'; grind
    simp [this]
  · exact w.pos
  · show upd h.live x false 0 = false
    simp [upd, w.null]
  · intro y ly
    change upd h.live x false y = true at ly
    exact w.used y (by simp [upd] at ly; exact ly.2)
  · exact Nat.le_refl _
  · intro y hy; simp [upd, hy, unl]
  · simp [upd]

theorem erase_ok {h : Heap T} {c : Addr} {A B : List (Addr × T)} {e : Addr × T} (w : Wf h) (r : Ring h c (A ++ e :: B)) :
    ∃ h', erase e.1 h = .ok (posOf c (B.map Prod.fst), h') ∧ Ring h' c (A ++ B) ∧
      Effect (· ∈ cells c (A ++ e :: B)) (· ∈ cells c (A ++ B)) h h' ∧ h'.fresh = h.fresh ∧ h'.live e.1 = false := by
  obtain ⟨h', u, d, l, nx, r', ef, fr, _, dd⟩ := unlink_delete_ok w r
  refine ⟨h', ?_, r', ef, fr, dd⟩
  unfold erase
  simp only [Prog.bind_app, getNext_eq l, Res.bind_ok, u, d, nx, Prog.pure_app]

theorem Ring.next_head {h : Heap T} {c : Addr} {es : List (Addr × T)} (r : Ring h c es) :
    h.next c = posOf c (es.map Prod.fst) := r.links.next_head

theorem Ring.prev_last {h : Heap T} {c : Addr} {A : List (Addr × T)} {e : Addr × T} (r : Ring h c (A ++ [e])) :
    h.prev c = e.1 := by
  have hl : Links h c (A.map Prod.fst ++ [e.1]) := by have := r.links; simpa using this
  obtain ⟨X, a, p, Y, k⟩ := exists_cut c (A.map Prod.fst ++ [e.1]) []
  obtain ⟨c1, e1, e2, c2⟩ := k.links.1 (by simpa using hl)
  have hp : p = c := k.pos
  rw [← hp, e2]
  have := k.left
  rw [← List.cons_append] at this
  have q := List.append_inj_right' this rfl
  simp at q; exact q.symm

/-! ## The other members that insert -/

theorem pushFront_ok {h : Heap T} {c : Addr} {es : List (Addr × T)} (w : Wf h) (r : Ring h c es) (v : T) :
    ∃ h', pushFront c v h = .ok ((), h') ∧ Ring h' c ((h.fresh, v) :: es) ∧
      Effect (· ∈ cells c es) (· ∈ cells c ((h.fresh, v) :: es)) h h' ∧ h'.fresh = h.fresh + 1 := by
  obtain ⟨h', q, r', ef, fr⟩ := insert_ok (A := []) w r v
  refine ⟨h', ?_, r', ef, fr⟩
  unfold insert at q
  unfold pushFront
  simp only [Prog.bind_app, getNext_eq r.head, Res.bind_ok, r.next_head, newNode_eq] at q ⊢
  rw [q]; rfl

theorem pushBack_ok {h : Heap T} {c : Addr} {es : List (Addr × T)} (w : Wf h) (r : Ring h c es) (v : T) :
    ∃ h', pushBack c v h = .ok ((), h') ∧ Ring h' c (es ++ [(h.fresh, v)]) ∧
      Effect (· ∈ cells c es) (· ∈ cells c (es ++ [(h.fresh, v)])) h h' ∧ h'.fresh = h.fresh + 1 := by
  obtain ⟨h', q, r', ef, fr⟩ := insert_ok (A := es) (B := []) w (by simpa using r) v
  refine ⟨h', ?_, r', by simpa using ef, fr⟩
  unfold insert at q
  unfold pushBack
  simp only [Prog.bind_app, newNode_eq, Res.bind_ok, List.map_nil, posOf_nil] at q ⊢
  rw [q]; rfl

theorem popFront_ok {h : Heap T} {c : Addr} {e : Addr × T} {es : List (Addr × T)} (w : Wf h) (r : Ring h c (e :: es)) :
    ∃ h', popFront c h = .ok ((), h') ∧ Ring h' c es ∧ Effect (· ∈ cells c (e :: es)) (· ∈ cells c es) h h' ∧
      h'.fresh = h.fresh ∧ h'.live e.1 = false := by
  obtain ⟨h', u, d, l, nx, r', ef, fr, _, dd⟩ := unlink_delete_ok (A := []) w r
  refine ⟨h', ?_, r', ef, fr, dd⟩
  unfold popFront
  simp only [Prog.bind_app, getNext_eq r.head, Res.bind_ok, r.next_head, List.map_cons, posOf_cons, u, d]

theorem popBack_ok {h : Heap T} {c : Addr} {e : Addr × T} {es : List (Addr × T)} (w : Wf h) (r : Ring h c (es ++ [e])) :
    ∃ h', popBack c h = .ok ((), h') ∧ Ring h' c es ∧ Effect (· ∈ cells c (es ++ [e])) (· ∈ cells c es) h h' ∧
      h'.fresh = h.fresh ∧ h'.live e.1 = false := by
  obtain ⟨h', u, d, l, nx, r', ef, fr, _, dd⟩ := unlink_delete_ok (A := es) (B := []) w r
  refine ⟨h', ?_, by simpa using r', by simpa using ef, fr, dd⟩
  unfold popBack
  simp only [Prog.bind_app, getPrev_eq r.head, Res.bind_ok, r.prev_last, u, d]

/-- New nodes for the values `vs`, allocated one after the other from address `a` on. -/
def fresh (a : Addr) : List T → List (Addr × T)
  | [] => []
  | v :: vs => (a, v) :: fresh (a + 1) vs

theorem insertVals_ok : ∀ (vs : List T) {h : Heap T} {c : Addr} {A B : List (Addr × T)}, Wf h → Ring h c (A ++ B) →
    ∃ h', insertVals (posOf c (B.map Prod.fst)) vs h = .ok ((), h') ∧ Ring h' c (A ++ (fresh h.fresh vs ++ B)) ∧
      Effect (· ∈ cells c (A ++ B)) (· ∈ cells c (A ++ (fresh h.fresh vs ++ B))) h h' ∧
      h'.fresh = h.fresh + vs.length
  | [], h, c, A, B, w, r => ⟨h, rfl, r, Effect.refl w, rfl⟩
  | v :: vs, h, c, A, B, w, r => by
    obtain ⟨h1, q, r1, ef, fr⟩ := insert_ok w r v
    obtain ⟨h', q', r', ef', fr'⟩ := insertVals_ok vs (A := A ++ [(h.fresh, v)]) (B := B) ef.wf (by simpa using r1)
    rw [fr] at r' ef' fr'
    refine ⟨h', ?_, by simpa [fresh] using r', ?_, by rw [fr']; simp; omega⟩
    · unfold insertVals
      unfold insert at q
      simp only [Prog.bind_app, newNode_eq, Res.bind_ok] at q ⊢
      rw [q]; exact q'
    · simpa [fresh] using ef.trans (by simpa using ef')

theorem insertN_eq : ∀ (n : Nat) (p : Addr) (v : T), insertN p n v = insertVals p (List.replicate n v)
  | 0, _, _ => rfl
  | n + 1, p, v => by
    rw [List.replicate_succ, insertN, insertVals]; simp only [insertN_eq n]

end Verif.Seq.DList
