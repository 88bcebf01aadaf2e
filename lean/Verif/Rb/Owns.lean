import Verif.Rb.Copy
import Verif.Rb.MapModel
/-!
# Containers as sequences of elements

`Owns h hd es`: the container whose header is at `hd` holds the elements `es`, as (node, value) pairs in
iteration order. For every operation: what it does to that sequence and to the rest of memory.
-/
set_option linter.unusedSimpArgs false
set_option linter.unusedSectionVars false
namespace Verif.Rb
open Verif Tree
variable {K V T : Type}

/-- Unused addresses hold nothing. -/
structure Wf (h : Heap V) : Prop where
  pos : 0 < h.next
  unused : ∀ x, h.next ≤ x → h.node x = none ∧ h.data x = none

/-- The container at `hd` holds `es`. -/
def Owns (h : Heap V) (hd : Addr) (es : List (Addr × V)) : Prop :=
  ∃ t, RepTree h hd t ∧ Balanced t ∧ t.inorder = es.map Prod.fst ∧ ∀ e ∈ es, h.data e.1 = some e.2

/-- Nodes of a container: its header and its elements. -/
abbrev cells (hd : Addr) (es : List (Addr × V)) : List Addr := hd :: es.map Prod.fst

/-- A call whose footprint was `F` and is `F'` afterwards. -/
structure Effect (F F' : List Addr) (h h' : Heap V) : Prop where
  frame : ∀ x, x ∉ F → x ∉ F' → h'.node x = h.node x ∧ h'.data x = h.data x
  fresh : ∀ x ∈ F', x ∉ F → h.next ≤ x
  freed : ∀ x ∈ F, x ∉ F' → h'.node x = none ∧ h'.data x = none
  wf : Wf h'
  next : h.next ≤ h'.next

theorem Wf.lt {h : Heap V} (w : Wf h) {x : Addr} (hx : (h.node x).isSome) : x < h.next := by
  rcases Nat.lt_or_ge x h.next with q | q
  · exact q
  · rw [(w.unused x q).1] at hx; simp at hx

theorem Wf.tick {h : Heap V} (w : Wf h) (n : Nat) : Wf (h.tick n) := ⟨w.pos, w.unused⟩

theorem Effect.tick {h : Heap V} (w : Wf h) (F : List Addr) (n : Nat) : Effect F F h (h.tick n) :=
  ⟨fun _ _ _ => ⟨rfl, rfl⟩, fun _ h1 h2 => absurd h1 h2, fun _ h1 h2 => absurd h1 h2, w.tick n, Nat.le_refl _⟩

theorem Owns.tick {h : Heap V} {hd : Addr} {es : List (Addr × V)} (o : Owns h hd es) (n : Nat) :
    Owns (h.tick n) hd es := by
  obtain ⟨t, r, b, i, d⟩ := o
  exact ⟨t, r.tick n, b, i, d⟩

theorem Owns.cells_live {h : Heap V} {hd : Addr} {es : List (Addr × V)} (o : Owns h hd es) {x : Addr}
    (hx : x ∈ cells hd es) : (h.node x).isSome := by
  obtain ⟨t, r, b, i, d⟩ := o
  simp only [cells, List.mem_cons] at hx
  rcases hx with rfl | hx
  · rw [r.header]; rfl
  · exact r.rep.live (by rw [i]; exact hx)

theorem Owns.cells_nodup {h : Heap V} {hd : Addr} {es : List (Addr × V)} (o : Owns h hd es) :
    (cells hd es).Nodup := by
  obtain ⟨t, r, b, i, d⟩ := o
  rw [cells, ← i, List.nodup_cons]
  exact ⟨r.hd_not, r.nodup⟩

theorem Owns.zero_not {h : Heap V} {hd : Addr} {es : List (Addr × V)} (o : Owns h hd es) : 0 ∉ cells hd es := by
  obtain ⟨t, r, b, i, d⟩ := o
  simp only [cells, ← i, List.mem_cons, not_or]
  exact ⟨r.hd_ne.symm, r.rep.zero_not⟩

theorem Owns.congr {h h' : Heap V} {hd : Addr} {es : List (Addr × V)} (o : Owns h hd es)
    (hn : ∀ x ∈ cells hd es, h'.node x = h.node x ∧ h'.data x = h.data x) : Owns h' hd es := by
  obtain ⟨t, r, b, i, d⟩ := o
  refine ⟨t, r.congr ?_, b, i, ?_⟩
  · intro x hx
    refine (hn x ?_).1
    rw [cells, ← i]; simpa using hx
  · intro e he
    rw [(hn e.1 (by simp only [cells, List.mem_cons, List.mem_map]; exact Or.inr ⟨e, he, rfl⟩)).2]
    exact d e he

/-- A container not touched by a call keeps its elements. -/
theorem Owns.frame {h h' : Heap V} {hd : Addr} {es : List (Addr × V)} {F F' : List Addr} (o : Owns h hd es)
    (w : Wf h) (ef : Effect F F' h h') (hdis : ∀ x ∈ cells hd es, x ∉ F) : Owns h' hd es := by
  refine o.congr fun x hx => ef.frame x (hdis x hx) fun hx' => ?_
  exact Nat.lt_irrefl _ (Nat.lt_of_lt_of_le (w.lt (o.cells_live hx)) (ef.fresh x hx' (hdis x hx)))

theorem Balanced.height {t : Tree} (hb : Balanced t) : t.height ≤ 2 * Nat.log2 (t.size + 1) := by
  obtain ⟨hr, n, hb⟩ := hb
  obtain ⟨h1, h2⟩ := hb.height
  rw [hr] at h1
  have : n ≤ Nat.log2 (t.size + 1) := (Nat.le_log2 (by omega)).2 h2
  simp at h1
  omega

theorem size_of {t : Tree} {es : List (Addr × V)} (i : t.inorder = es.map Prod.fst) : t.size = es.length := by
  rw [size_eq, i, List.length_map]

/-- Keys read off the heap. -/
def kfOf (keyOf : V → K) (dflt : K) (h : Heap V) (x : Addr) : K :=
  match h.data x with
  | some v => keyOf v
  | none => dflt

theorem kfOf_mem {keyOf : V → K} {dflt : K} {h : Heap V} {e : Addr × V} (hd : h.data e.1 = some e.2) :
    kfOf keyOf dflt h e.1 = keyOf e.2 := by simp [kfOf, hd]

theorem keys_of {keyOf : V → K} {dflt : K} {h : Heap V} {es : List (Addr × V)}
    (d : ∀ e ∈ es, h.data e.1 = some e.2) : Keys keyOf h (es.map Prod.fst) (kfOf keyOf dflt h) := by
  intro x hx
  simp only [List.mem_map] at hx
  obtain ⟨e, he, rfl⟩ := hx
  exact ⟨e.2, d e he, (kfOf_mem (d e he)).symm⟩

section
variable [DecidableEq K] {lt : K → K → Bool} {keyOf : V → K}

/-- Strictly ascending keys. -/
abbrev Ascending (lt : K → K → Bool) (keyOf : V → K) (es : List (Addr × V)) : Prop :=
  es.Pairwise fun a b => lt (keyOf a.2) (keyOf b.2) = true
/-- Ascending keys, equal ones allowed. -/
abbrev WeakAscending (lt : K → K → Bool) (keyOf : V → K) (es : List (Addr × V)) : Prop :=
  es.Pairwise fun a b => lt (keyOf b.2) (keyOf a.2) = false

theorem Ascending.weak (ho : StrictTotalOrder lt) {es : List (Addr × V)} (h : Ascending lt keyOf es) :
    WeakAscending lt keyOf es := h.imp fun q => ho.asymm q

theorem sortedBy_of {dflt : K} {h : Heap V} {es : List (Addr × V)}
    (d : ∀ e ∈ es, h.data e.1 = some e.2) (ha : Ascending lt keyOf es) :
    SortedBy lt (kfOf keyOf dflt h) (es.map Prod.fst) := by
  rw [SortedBy, List.pairwise_map]
  refine ha.imp_of_mem ?_
  intro a b hx hy q
  rw [kfOf_mem (d a hx), kfOf_mem (d b hy)]; exact q

theorem weakSortedBy_of {dflt : K} {h : Heap V} {es : List (Addr × V)}
    (d : ∀ e ∈ es, h.data e.1 = some e.2) (ha : WeakAscending lt keyOf es) :
    WeakSortedBy lt (kfOf keyOf dflt h) (es.map Prod.fst) := by
  rw [WeakSortedBy, List.pairwise_map]
  refine ha.imp_of_mem ?_
  intro a b hx hy q
  rw [kfOf_mem (d a hx), kfOf_mem (d b hy)]; exact q

theorem find?_map_congr {es : List (Addr × V)} {p : Addr → Bool} {q : Addr × V → Bool}
    (hpq : ∀ e ∈ es, p e.1 = q e) : (es.map Prod.fst).find? p = (es.find? q).map Prod.fst := by
  induction es with
  | nil => rfl
  | cons e es ih =>
    simp only [List.map_cons, List.find?_cons, hpq e (by simp)]
    cases q e
    · exact ih fun e he => hpq e (by simp [he])
    · rfl

theorem sorted_inj {α : Type} (ho : StrictTotalOrder lt) {kf : α → K} {l : List α}
    (hs : l.Pairwise fun a b => lt (kf a) (kf b) = true) {x y : α} (hx : x ∈ l) (hy : y ∈ l) (e : kf x = kf y) :
    x = y := by
  induction l with
  | nil => simp at hx
  | cons z l ih =>
    rw [List.pairwise_cons] at hs
    simp only [List.mem_cons] at hx hy
    rcases hx with rfl | hx <;> rcases hy with rfl | hy
    · rfl
    · exact absurd e (ho.ne_of_lt (hs.1 y hy))
    · exact absurd e.symm (ho.ne_of_lt (hs.1 x hx))
    · exact ih hs.2 hx hy

theorem find_owns (ho : StrictTotalOrder lt) {h : Heap V} {hd : Addr} {es : List (Addr × V)} (o : Owns h hd es)
    (ha : Ascending lt keyOf es) (key : K) :
    ∃ n, n ≤ 2 * Nat.log2 (es.length + 1) ∧ find lt keyOf hd key h =
      .ok (((es.find? fun e => decide (keyOf e.2 = key)).map Prod.fst).getD hd, h.tick n) := by
  obtain ⟨t, r, b, i, d⟩ := o
  obtain ⟨n, x, hn, e, hx⟩ := findLoop_spec ho key r.rep (by rw [i]; exact keys_of (keyOf := keyOf) (dflt := key) d)
    (by rw [i]; exact sortedBy_of d ha)
  refine ⟨n, by rw [← size_of i]; exact Nat.le_trans hn b.height, ?_⟩
  unfold find
  simp only [Prog.bind_app, root_of_zip r, Res.bind_ok, e, Prog.pure_app]
  congr 2
  rw [← find?_map_congr (p := fun x => decide (kfOf keyOf key h x = key))
    (fun e he => by rw [kfOf_mem (d e he)]), ← i]
  rcases hx with ⟨h1, h2⟩ | ⟨h1, h2⟩
  · have hx0 : x ≠ 0 := fun e => r.rep.zero_not (e ▸ h1)
    rw [if_pos hx0]
    have : t.inorder.find? (fun x => decide (kfOf keyOf key h x = key)) = some x := by
      cases hq : t.inorder.find? (fun x => decide (kfOf keyOf key h x = key)) with
      | none =>
        rw [List.find?_eq_none] at hq
        exact absurd (by simpa using h2) (hq x h1)
      | some y =>
        have hy := List.mem_of_find?_eq_some hq
        have hy2 := List.find?_some hq
        simp only [decide_eq_true_eq] at hy2
        -- both have the key, keys are strictly ascending
        have hs : SortedBy lt (kfOf keyOf key h) t.inorder := by rw [i]; exact sortedBy_of d ha
        by_cases hxy : x = y
        · rw [hxy]
        · exfalso
          exact hxy (sorted_inj ho hs h1 hy (h2.trans hy2.symm))
    rw [this]; rfl
  · rw [h1, if_neg (by simp)]
    have : t.inorder.find? (fun x => decide (kfOf keyOf key h x = key)) = none := by
      rw [List.find?_eq_none]; intro y hy; simpa using h2 y hy
    rw [this]; rfl

theorem lowerBound_owns (ho : StrictWeakOrder lt) {h : Heap V} {hd : Addr} {es : List (Addr × V)}
    (o : Owns h hd es) (ha : WeakAscending lt keyOf es) (key : K) :
    ∃ n, n ≤ 2 * Nat.log2 (es.length + 1) ∧ lowerBound lt keyOf hd key h =
      .ok (((es.find? fun e => !lt (keyOf e.2) key).map Prod.fst).getD hd, h.tick n) := by
  obtain ⟨t, r, b, i, d⟩ := o
  obtain ⟨n, hn, e⟩ := lowerLoop_spec ho key r.rep (by rw [i]; exact keys_of (keyOf := keyOf) (dflt := key) d)
    (by rw [i]; exact weakSortedBy_of d ha) hd
  refine ⟨n, by rw [← size_of i]; exact Nat.le_trans hn b.height, ?_⟩
  unfold lowerBound
  simp only [Prog.bind_app, root_of_zip r, Res.bind_ok, e, Prog.pure_app]
  rw [i, find?_map_congr (p := fun x => !lt (kfOf keyOf key h x) key) (fun e he => by rw [kfOf_mem (d e he)])]

theorem upperBound_owns (ho : StrictWeakOrder lt) {h : Heap V} {hd : Addr} {es : List (Addr × V)}
    (o : Owns h hd es) (ha : WeakAscending lt keyOf es) (key : K) :
    ∃ n, n ≤ 2 * Nat.log2 (es.length + 1) ∧ upperBound lt keyOf hd key h =
      .ok (((es.find? fun e => lt key (keyOf e.2)).map Prod.fst).getD hd, h.tick n) := by
  obtain ⟨t, r, b, i, d⟩ := o
  obtain ⟨n, hn, e⟩ := upperLoop_spec ho key r.rep (by rw [i]; exact keys_of (keyOf := keyOf) (dflt := key) d)
    (by rw [i]; exact weakSortedBy_of d ha) hd
  refine ⟨n, by rw [← size_of i]; exact Nat.le_trans hn b.height, ?_⟩
  unfold upperBound
  simp only [Prog.bind_app, root_of_zip r, Res.bind_ok, e, Prog.pure_app]
  rw [i, find?_map_congr (p := fun x => lt key (kfOf keyOf key h x)) (fun e he => by rw [kfOf_mem (d e he)])]

theorem countP_map_congr {es : List (Addr × V)} {p : Addr → Bool} {q : Addr × V → Bool}
    (hpq : ∀ e ∈ es, p e.1 = q e) : (es.map Prod.fst).countP p = es.countP q := by
  rw [List.countP_map]
  exact List.countP_congr fun e he => by simp [hpq e he]

theorem count_owns (ho : StrictTotalOrder lt) {h : Heap V} {hd : Addr} {es : List (Addr × V)}
    (o : Owns h hd es) (ha : Ascending lt keyOf es) (key : K) :
    ∃ n, n ≤ 2 * Nat.log2 (es.length + 1) ∧ count lt keyOf hd key h =
      .ok (es.countP fun e => decide (keyOf e.2 = key), h.tick n) := by
  obtain ⟨t, r, b, i, d⟩ := o
  obtain ⟨n, hn, e⟩ := countLoop_spec ho key r.rep (by rw [i]; exact keys_of (keyOf := keyOf) (dflt := key) d)
    (by rw [i]; exact sortedBy_of d ha) 0
  refine ⟨n, by rw [← size_of i]; exact Nat.le_trans hn b.height, ?_⟩
  unfold count
  simp only [Prog.bind_app, root_of_zip r, Res.bind_ok, e, Prog.pure_app]
  rw [i, countP_map_congr (p := fun x => decide (kfOf keyOf key h x = key)) (fun e he => by rw [kfOf_mem (d e he)])]
  simp

/-! ### Walking -/

theorem Owns.nextNode {h : Heap V} {hd : Addr} {A B : List (Addr × V)} {e : Addr × V}
    (o : Owns h hd (A ++ e :: B)) : nextNode e.1 h = .ok ((B.map Prod.fst).headD hd, h) := by
  obtain ⟨t, r, b, i, d⟩ := o
  exact nextNode_spec r (by rw [i, List.map_append, List.map_cons])

theorem Owns.prevNode {h : Heap V} {hd : Addr} {A B : List (Addr × V)} {e : Addr × V}
    (o : Owns h hd (A ++ e :: B)) : prevNode e.1 h = .ok ((A.map Prod.fst).getLastD hd, h) := by
  obtain ⟨t, r, b, i, d⟩ := o
  exact prevNode_spec r (by rw [i, List.map_append, List.map_cons])

theorem Owns.begin_ {h : Heap V} {hd : Addr} {es : List (Addr × V)} (o : Owns h hd es) :
    begin_ hd h = .ok ((es.map Prod.fst).headD hd, h) := by
  obtain ⟨t, r, b, i, d⟩ := o
  unfold Rb.begin_
  simp only [Prog.bind_app, root_of_zip r, Res.bind_ok, Prog.ite_app, Prog.pure_app]
  by_cases ht : t = leaf
  · subst ht; rw [← i]; simp
  · rw [if_pos (fun e => ht (r.rep.addr_eq_zero.1 e)), minNode_spec r.rep ht hd, i]

theorem Owns.empty {h : Heap V} {hd : Addr} {es : List (Addr × V)} (o : Owns h hd es) :
    empty hd h = .ok (es.isEmpty, h) := by
  obtain ⟨t, r, b, i, d⟩ := o
  unfold Rb.empty
  simp only [Prog.bind_app, root_of_zip r, Res.bind_ok, Prog.pure_app]
  congr 2
  cases t with
  | leaf => cases es <;> simp at i ⊢
  | node a c l rr =>
    cases es with
    | nil => simp at i
    | cons e es => simp [r.rep.addr_ne]

/-- `--` on an element. -/
theorem Owns.iterPrev {h : Heap V} {hd : Addr} {A B : List (Addr × V)} {e : Addr × V}
    (o : Owns h hd (A ++ e :: B)) : iterPrev e.1 h = .ok ((A.map Prod.fst).getLastD hd, h) := by
  have hp := o.prevNode
  obtain ⟨t, r, b, i, d⟩ := o
  obtain ⟨k, c, l, rr, rfl⟩ := exists_zip (t := t) (x := e.1) (by rw [i]; simp)
  obtain ⟨hc, htr, hhd, hnd⟩ := repTree_zip.1 r
  obtain ⟨h1, h2, h3, h4⟩ := htr
  have hp0 : ctxParent hd k ≠ 0 := by
    intro e0
    have hm := ctxParent_mem hd k
    rw [e0, mem_ctxNodes] at hm
    rcases hm with hm | hm | hm
    · exact r.hd_ne hm.symm
    · exact r.rep.zero_not (by rw [inorder_zip]; simp [hm])
    · exact r.rep.zero_not (by rw [inorder_zip]; simp [hm])
  unfold Rb.iterPrev
  simp only [Prog.bind_app, nd_eq h1, Res.bind_ok, Prog.ite_app, if_neg hp0, hp]
  cases c with
  | false => simp
  | true =>
    simp only [beq_self_eq_true, if_true]
    -- the parent is a tree node (the root is black), so its parent is not this node
    rcases k with _ | ⟨f, k⟩
    · have := b.1; simp at this
    · have hpar : ∃ n, h.node (ctxParent hd (f :: k)) = some n ∧ n.parent = ctxParent hd k := by
        cases f with
        | L a c' r' => exact ⟨_, hc.1, rfl⟩
        | R a c' l' => exact ⟨_, hc.1, rfl⟩
      obtain ⟨n, hn, hnp⟩ := hpar
      simp only [nd_eq hn, Res.bind_ok, hnp]
      have hne : ctxParent hd k ≠ e.1 := by
        intro e'
        have hm := ctxParent_mem hd k
        rw [e'] at hm
        have hm' : e.1 ∈ ctxNodes hd (f :: k) := by
          rw [mem_ctxNodes] at hm ⊢
          rcases hm with hm | hm | hm
          · exact Or.inl hm
          · refine Or.inr (Or.inl ?_)
            cases f <;> simp [pre, hm]
          · refine Or.inr (Or.inr ?_)
            cases f <;> simp [post, hm]
        exact nodup_disj hnd (x := e.1) (by simp) hm'
      rw [if_neg hne]
      exact hp

/-- `--end()`. -/
theorem Owns.iterPrev_end {h : Heap V} {hd : Addr} {es : List (Addr × V)}
    (o : Owns h hd es) : Rb.iterPrev hd h = .ok ((es.map Prod.fst).getLastD hd, h) := by
  obtain ⟨t, r, b, i, d⟩ := o
  unfold Rb.iterPrev
  have hh := r.header
  simp only [Prog.bind_app, nd_eq hh, Res.bind_ok, Prog.ite_app, Prog.pure_app]
  by_cases ht : t = leaf
  · subst ht; rw [← i]; simp
  · rw [if_neg (fun e => ht (r.rep.addr_eq_zero.1 e))]
    obtain ⟨k1, k2, k3, k4⟩ := r.rep.kids ht
    simp only [beq_self_eq_true, if_true, nd_eq k1, Res.bind_ok]
    rw [maxNode_spec r.rep ht hd, i]

end
end Verif.Rb
