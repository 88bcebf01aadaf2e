import Verif.Rb.ContainerProps
/-!
# Trees with equal keys: `rbtree::insert_equal` and `rbtree::count` (C12, C13)
-/
set_option linter.unusedSimpArgs false
set_option linter.unusedSectionVars false
set_option linter.unusedVariables false
namespace Verif.Rb.Multi
open Verif Tree
variable {K V : Type}

/-- Calls of a client using a tree as a multiset. -/
inductive Call (K V : Type) where
  | create
  | copyOf (src : Addr)
  | assign (dst src : Addr)
  | destroy (c : Addr)
  /-- `c.insert_equal(v)` -/
  | insert (c : Addr) (v : V)
  | clear (c : Addr)

/-- The containers a call mentions. -/
def Call.args : Call K V → List Addr
  | .create => []
  | .copyOf s => [s]
  | .assign d s => [d, s]
  | .destroy c => [c]
  | .insert c _ => [c]
  | .clear c => [c]

/-- Its containers are alive and it is not a self-assignment. -/
def Call.Legal (objs : List Addr) (c : Call K V) : Prop :=
  (∀ a ∈ c.args, a ∈ objs) ∧ ∀ a, c ≠ .assign a a

/-- Execute a call. -/
def call [DecidableEq K] (lt : K → K → Bool) (keyOf : V → K) (objs : List Addr) :
    Call K V → Prog (Heap V) (List Addr)
  | .create => do pure (objs ++ [← newTree])
  | .copyOf s => do pure (objs ++ [← copyCtor s])
  | .assign d s => do opAssign d s; pure objs
  | .destroy c => do destroy c; pure (objs.erase c)
  | .insert c v => do let _ ← insertEqual lt keyOf c v; pure objs
  | .clear c => do clear c; pure objs

/-- Reachable states. Between the calls the rest of the program does what `Env` allows. -/
inductive Reach [DecidableEq K] (lt : K → K → Bool) (keyOf : V → K) : List Addr → Heap V → Prop where
  | start (junk : Addr → RbNode) : Reach lt keyOf [] (emptyMemory junk)
  | step {objs h objs' h'} (c : Call K V) : Reach lt keyOf objs h → c.Legal objs →
      call lt keyOf objs c h = .ok (objs', h') → Reach lt keyOf objs' h'
  | env {objs h h'} : Reach lt keyOf objs h → Env h h' → Reach lt keyOf objs h'

variable [DecidableEq K] {lt : K → K → Bool} {keyOf : V → K}

/-- Memory holds exactly the containers `objs`, each a weakly sorted balanced tree. -/
def Inv (lt : K → K → Bool) (keyOf : V → K) (objs : List Addr) (h : Heap V) : Prop :=
  ∃ ws, World h ws ∧ ws.map Prod.fst = objs ∧ ∀ w ∈ ws, WeakAscending lt keyOf w.2

theorem weak_values {es es' : List (Addr × V)} (h : es'.map Prod.snd = es.map Prod.snd)
    (ha : WeakAscending lt keyOf es) : WeakAscending lt keyOf es' := by
  have h1 : (es.map Prod.snd).Pairwise fun a b => lt (keyOf b) (keyOf a) = false := by
    rw [List.pairwise_map]; exact ha
  rw [← h, List.pairwise_map] at h1
  exact h1

theorem weak_insert (ho : StrictWeakOrder lt) {A B : List (Addr × V)} {n : Addr} {v : V} (ha : WeakAscending lt keyOf (A ++ B))
    (hA : ∀ e ∈ A, lt (keyOf v) (keyOf e.2) = false) (hB : ∀ e ∈ B, lt (keyOf v) (keyOf e.2) = true) :
    WeakAscending lt keyOf (A ++ (n, v) :: B) := by
  simp only [WeakAscending, List.pairwise_append, List.pairwise_cons, List.mem_cons] at ha ⊢
  refine ⟨ha.1, ⟨fun b hb => ho.asymm (hB b hb), ha.2.1⟩, ?_⟩
  intro a hx b hb
  rcases hb with rfl | hb
  · exact hA a hx
  · exact ha.2.2 a hx b hb

theorem call_ok (ho : StrictWeakOrder lt) {objs : List Addr} {h : Heap V} (I : Inv lt keyOf objs h) (c : Call K V)
    (hl : c.Legal objs) : ∃ objs' h', call lt keyOf objs c h = .ok (objs', h') ∧ Inv lt keyOf objs' h' := by
  obtain ⟨ws, W, rfl, ha⟩ := I
  have one : ∀ hd, hd ∈ ws.map Prod.fst → ∀ p : Prog (Heap V) (List Addr),
      (∀ es, Owns h hd es → WeakAscending lt keyOf es → ∃ h' es', p h = .ok (ws.map Prod.fst, h') ∧ Owns h' hd es' ∧
        WeakAscending lt keyOf es' ∧ Effect (cells hd es) (cells hd es') h h') →
      ∃ objs' h', p h = .ok (objs', h') ∧ Inv lt keyOf objs' h' := by
    intro hd hm p hp
    obtain ⟨L, es, R, e⟩ := split_at hm
    have hw : (hd, es) ∈ ws := by rw [e]; simp
    obtain ⟨h', es', q, o', a', ef⟩ := hp es (W.owns _ hw) (ha _ hw)
    refine ⟨_, h', q, ⟨L ++ (hd, es') :: R, (e ▸ W).step ef o', by rw [e]; simp, ?_⟩⟩
    intro w hw
    simp only [List.mem_append, List.mem_cons] at hw
    rcases hw with hw | rfl | hw
    · exact ha w (by rw [e]; simp [hw])
    · exact a'
    · exact ha w (by rw [e]; simp [hw])
  have plus : ∀ (p : Prog (Heap V) (List Addr)) (es' : List (Addr × V)) (h' : Heap V),
      p h = .ok (ws.map Prod.fst ++ [h.next], h') → Owns h' h.next es' → WeakAscending lt keyOf es' →
      Effect [] (cells h.next es') h h' → ∃ objs' h', p h = .ok (objs', h') ∧ Inv lt keyOf objs' h' := by
    intro p es' h' q o' a' ef
    refine ⟨_, h', q, ⟨ws ++ [(h.next, es')], W.add ef o', by simp, ?_⟩⟩
    intro w hw
    simp only [List.mem_append, List.mem_cons, List.not_mem_nil, or_false] at hw
    rcases hw with hw | rfl
    · exact ha w hw
    · exact a'
  obtain ⟨hargs, hns⟩ := hl
  cases c with
  | create =>
    obtain ⟨h', e, o, ef, _, _⟩ := newTree_owns W.wf
    exact plus _ [] h' (by simp only [call, Prog.bind_app, e, Res.bind_ok, Prog.pure_app]) o List.Pairwise.nil ef
  | copyOf s =>
    obtain ⟨L, es, R, e⟩ := split_at (hargs s (by simp [Call.args]))
    have hw : (s, es) ∈ ws := by rw [e]; simp
    obtain ⟨h', es', e, o', sv, ef⟩ := copyCtor_owns W.wf (W.owns _ hw)
    exact plus _ es' h' (by simp only [call, Prog.bind_app, e, Res.bind_ok, Prog.pure_app]) o' (weak_values sv (ha _ hw)) ef
  | assign d s =>
    have hne : s ≠ d := fun e => hns d (by rw [e])
    obtain ⟨L, es, R, e⟩ := split_at (hargs s (by simp [Call.args]))
    have hw : (s, es) ∈ ws := by rw [e]; simp
    refine one d (hargs d (by simp [Call.args])) _ fun es0 o0 _ => ?_
    have hdis : ∀ x ∈ cells s es, x ∉ cells d es0 := by
      intro x hx hx'
      obtain ⟨L', es1, R', e'⟩ := split_at (hargs d (by simp [Call.args]))
      have o1 := W.owns (d, es1) (by rw [e']; simp)
      have q := o0.entries.symm.trans o1.entries
      simp only [Res.ok.injEq, Prod.mk.injEq, and_true] at q
      subst q
      have hq := (e' ▸ W : World h (L' ++ (d, es0) :: R')).disj hx'
      rw [e'] at hw
      simp only [List.mem_append, List.mem_cons, Prod.mk.injEq] at hw
      rcases hw with hw | ⟨hw, _⟩ | hw
      · exact hq.1 (List.mem_flatMap.2 ⟨_, hw, hx⟩)
      · exact hne hw
      · exact hq.2 (List.mem_flatMap.2 ⟨_, hw, hx⟩)
    obtain ⟨h', es', e', o', sv, ef⟩ := opAssign_owns W.wf o0 (W.owns _ hw) hdis
    exact ⟨h', es', by simp only [call, Prog.bind_app, e', Res.bind_ok, Prog.pure_app], o', weak_values sv (ha _ hw), ef⟩
  | destroy c =>
    obtain ⟨L, es, R, e⟩ := split_at (hargs c (by simp [Call.args]))
    obtain ⟨h', e', ef⟩ := destroy_owns W.wf (W.owns (c, es) (by rw [e]; simp))
    refine ⟨_, h', by simp only [call, Prog.bind_app, e', Res.bind_ok, Prog.pure_app]; rfl, ⟨L ++ R, (e ▸ W).drop ef, ?_, ?_⟩⟩
    · exact (erase_map_split W e).symm
    · intro w hw
      refine ha w ?_
      rw [e]
      simp only [List.mem_append, List.mem_cons] at hw ⊢
      grind
  | insert c v =>
    refine one c (hargs c (by simp [Call.args])) _ fun es o a => ?_
    obtain ⟨n, A, B, h', hn, rfl, hA, hB, q, o', ef, _, _⟩ := insertEqual_owns ho W.wf o a v
    exact ⟨h', _, by simp only [call, Prog.bind_app, q, Res.bind_ok, Prog.pure_app], o', weak_insert ho a hA hB, ef⟩
  | clear c =>
    refine one c (hargs c (by simp [Call.args])) _ fun es o a => ?_
    obtain ⟨h', q, o', ef, _⟩ := clear_owns W.wf o
    exact ⟨h', [], by simp only [call, Prog.bind_app, q, Res.bind_ok, Prog.pure_app], o', List.Pairwise.nil, ef⟩

theorem Reach.inv (ho : StrictWeakOrder lt) {objs : List Addr} {h : Heap V} (r : Reach lt keyOf objs h) :
    Inv lt keyOf objs h := by
  induction r with
  | start junk =>
    exact ⟨[], ⟨⟨Nat.zero_lt_one, fun _ _ => ⟨rfl, rfl⟩⟩, by simp, by simp, by simp [emptyMemory]⟩, rfl, by simp⟩
  | step c _ hl e ih =>
    obtain ⟨objs', h', e', I⟩ := call_ok ho ih c hl
    rw [e] at e'
    simp only [Res.ok.injEq, Prod.mk.injEq] at e'
    obtain ⟨rfl, rfl⟩ := e'
    exact I
  | env _ e ih =>
    obtain ⟨ws, W, q, a⟩ := ih
    exact ⟨ws, W.env e, q, a⟩

theorem Reach.owns (ho : StrictWeakOrder lt) {objs : List Addr} {h : Heap V} (r : Reach lt keyOf objs h) {c : Addr}
    (hc : c ∈ objs) : ∃ es, Owns h c es ∧ WeakAscending lt keyOf es ∧ Wf h := by
  obtain ⟨ws, W, rfl, ha⟩ := r.inv ho
  obtain ⟨L, es, R, e⟩ := split_at hc
  have hw : (c, es) ∈ ws := by rw [e]; simp
  exact ⟨es, W.owns _ hw, ha _ hw, W.wf⟩

/-! ## C12 -/

/-- `insert_equal(v)` always adds exactly one element, on a new node, behind every element not greater than it and before every
greater one; all other elements keep their nodes, values and order. -/
theorem insert_equal_stable (ho : StrictWeakOrder lt) {objs : List Addr} {h : Heap V} (r : Reach lt keyOf objs h) {c : Addr}
    (hc : c ∈ objs) (v : V) : ∃ A B x h', entries c h = .ok (A ++ B, h) ∧ insertEqual lt keyOf c v h = .ok (x, h') ∧
      entries c h' = .ok (A ++ (x, v) :: B, h') ∧ h.node x = none ∧ (∀ e ∈ A, lt (keyOf v) (keyOf e.2) = false) ∧
      (∀ e ∈ B, lt (keyOf v) (keyOf e.2) = true) := by
  obtain ⟨es, o, a, w⟩ := r.owns ho hc
  obtain ⟨n, A, B, h', hn, rfl, hA, hB, q, o', ef, _, _⟩ := insertEqual_owns ho w o a v
  exact ⟨A, B, _, h', o.entries, q, o'.entries, (w.unused _ (Nat.le_refl _)).1, hA, hB⟩

/-- Iteration over a multiset is weakly ascending, forwards and backwards. -/
theorem multi_iteration (ho : StrictWeakOrder lt) {objs : List Addr} {h : Heap V} (r : Reach lt keyOf objs h) {c : Addr}
    (hc : c ∈ objs) : ∃ es, entries c h = .ok (es, h) ∧ entriesBackward c h = .ok (es.reverse, h) ∧
      es.Pairwise (fun a b => lt (keyOf b.2) (keyOf a.2) = false) ∧ (es.map Prod.fst).Nodup := by
  obtain ⟨es, o, a, w⟩ := r.owns ho hc
  have hn := o.cells_nodup
  simp only [cells, List.nodup_cons] at hn
  exact ⟨es, o.entries, o.entriesBackward, a, hn.2⟩

/-- `rbtree::lower_bound` and `upper_bound` delimit exactly the elements equivalent to `k`, duplicates included. -/
theorem multi_bounds (ho : StrictWeakOrder lt) {objs : List Addr} {h : Heap V} (r : Reach lt keyOf objs h) {c : Addr}
    (hc : c ∈ objs) (k : K) : ∃ A M B h1 h2, entries c h = .ok (A ++ M ++ B, h) ∧
      lowerBound lt keyOf c k h = .ok (((M ++ B).map Prod.fst).headD c, h1) ∧
      upperBound lt keyOf c k h = .ok ((B.map Prod.fst).headD c, h2) ∧
      (∀ e ∈ A, lt (keyOf e.2) k = true) ∧ (∀ e ∈ M, lt (keyOf e.2) k = false ∧ lt k (keyOf e.2) = false) ∧
      (∀ e ∈ B, lt k (keyOf e.2) = true) := by
  obtain ⟨es, o, a, w⟩ := r.owns ho hc
  obtain ⟨n, hn, q⟩ := lowerBound_owns ho o a k
  obtain ⟨n2, hn2, q2⟩ := upperBound_owns ho o a k
  obtain ⟨A, R, rfl, hA, hR, hf⟩ := Container.split_find es fun e => !lt (keyOf e.2) k
  rw [hf, Container.head_getD] at q
  obtain ⟨M, B, rfl, hM, hB, hf2⟩ := Container.split_find R fun e => lt k (keyOf e.2)
  have hA' : ∀ e ∈ A, lt (keyOf e.2) k = true := fun e he => by simpa using hA e he
  have hfA : (A ++ (M ++ B)).find? (fun e => lt k (keyOf e.2)) = B.head? := by
    rw [List.find?_append, hf2]
    have : A.find? (fun e => lt k (keyOf e.2)) = none := by
      rw [List.find?_eq_none]
      intro e he
      simp [ho.asymm (hA' e he)]
    rw [this]; rfl
  rw [hfA, Container.head_getD] at q2
  have hRall : ∀ e ∈ M ++ B, lt (keyOf e.2) k = false := by
    intro e he
    simp only [WeakAscending, List.pairwise_append] at a
    generalize hR' : M ++ B = R at *
    cases R with
    | nil => simp at he
    | cons b R =>
      have h1 : lt (keyOf b.2) k = false := by simpa using hR b rfl
      simp only [List.mem_cons] at he
      rcases he with rfl | he
      · exact h1
      · have a2 := (show List.Pairwise (fun a b => lt (keyOf b.2) (keyOf a.2) = false) (b :: R) by
          have := a.2.1; rw [← List.pairwise_append, hR'] at this; exact this)
        exact ho.negTrans _ _ _ ((List.pairwise_cons.1 a2).1 e he) h1
  refine ⟨A, M, B, _, _, by rw [o.entries]; simp, q, q2, hA', fun e he => ⟨hRall e (by simp [he]), hM e he⟩, ?_⟩
  intro e he
  cases B with
  | nil => simp at he
  | cons b B =>
    have h1 : lt k (keyOf b.2) = true := hB b rfl
    simp only [List.mem_cons] at he
    rcases he with rfl | he
    · exact h1
    · simp only [WeakAscending, List.pairwise_append, List.pairwise_cons] at a
      exact ho.lt_of_lt_of_not_lt h1 (a.2.1.2.1.1 e he)

/-! ## C13 -/

/-- On a tree that may hold equal keys. -/
theorem countLoop_weak (ho : StrictTotalOrder lt) {kf : Addr → K} (key : K) {h : Heap V} {t : Tree} {p : Addr}
    (hr : Rep h t p) (hk : Keys keyOf h t.inorder kf) (hs : WeakSortedBy lt kf t.inorder) (acc : Nat) :
    ∃ n m, countLoop lt keyOf key t.addr acc h = .ok (acc + m, h.tick n) ∧
      m ≤ t.inorder.countP (fun x => decide (kf x = key)) ∧ (m = 0 → t.inorder.countP (fun x => decide (kf x = key)) = 0) ∧ m ≤ t.height := by
  induction t generalizing p h acc with
  | leaf =>
    refine ⟨0, 0, ?_, by simp, by simp, Nat.zero_le _⟩
    rw [countLoop]; simp [tick_zero]
  | node a c l r ihl ihr =>
    obtain ⟨h1, h2, h3, h4⟩ := hr
    obtain ⟨v, hv, hkv⟩ := hk a (by simp)
    obtain ⟨s1, s2, s3, s4⟩ := weak_node hs
    have h1' : (h.tick 1).node a = some ⟨p, l.addr, r.addr, c⟩ := h1
    rw [countLoop]
    rw [if_neg (show (Tree.node a c l r).addr ≠ 0 from h2)]
    simp only [addr_node, Prog.bind_app, dataOf_eq hv, Res.bind_ok, less_app, hkv, Prog.ite_app, nd_eq h1']
    have zl : ∀ {lst : List Addr}, (∀ y ∈ lst, kf y ≠ key) → lst.countP (fun x => decide (kf x = key)) = 0 := by
      intro lst hl
      rw [List.countP_eq_zero]
      intro y hy; simp [hl y hy]
    rcases ho.trichotomy (kf a) key with hlt | heq | hgt
    · rw [if_pos hlt]
      obtain ⟨n, m, q1, q2, q3, q4⟩ := ihr (h := h.tick 1) (p := a) (h4.congr fun _ _ => rfl)
        (fun y hy => hk y (by simp [hy])) s4 acc
      have z1 := zl (lst := l.inorder) fun y hy e => by have := s1 y hy; rw [e, hlt] at this; cases this
      refine ⟨1 + n, m, by rw [q1, tick_tick], ?_, ?_, by simp only [Tree.height]; omega⟩
      · simp only [inorder_node, List.countP_append, List.countP_cons, z1]; omega
      · intro hm; have := q3 hm
        simp [List.countP_append, List.countP_cons, z1, this, ho.ne_of_lt hlt]
    · have hnl : lt (kf a) key = false := by rw [heq]; exact ho.irrefl _
      rw [if_neg (by simp [hnl]), if_pos heq]
      obtain ⟨n, m, q1, q2, q3, q4⟩ := ihl (h := h.tick 1) (p := a) (h3.congr fun _ _ => rfl)
        (fun y hy => hk y (by simp [hy])) s3 (acc + 1)
      refine ⟨1 + n, m + 1, by rw [q1, tick_tick]; congr 2; omega, ?_, by omega, by simp only [Tree.height]; omega⟩
      simp only [inorder_node, List.countP_append, List.countP_cons, heq, decide_true, if_true]; omega
    · rw [if_neg (by simp [ho.asymm hgt]), if_neg (ho.ne_of_lt hgt).symm]
      obtain ⟨n, m, q1, q2, q3, q4⟩ := ihl (h := h.tick 1) (p := a) (h3.congr fun _ _ => rfl)
        (fun y hy => hk y (by simp [hy])) s3 acc
      have z1 := zl (lst := r.inorder) fun y hy e => by have := s2 y hy; rw [e, hgt] at this; cases this
      refine ⟨1 + n, m, by rw [q1, tick_tick], ?_, ?_, by simp only [Tree.height]; omega⟩
      · simp only [inorder_node, List.countP_append, List.countP_cons, z1]; omega
      · intro hm; have := q3 hm
        simp [List.countP_append, List.countP_cons, z1, this, (ho.ne_of_lt hgt).symm]

/-- What `rbtree::count` guarantees with equal keys: never more than the number of matching elements, 0 only if there is none, and never more than
`2 * log2 (n + 1)`, the length of the longest path. Missing from C13: equality, see `count_counterexample`. -/
theorem count_bounds_partial (ho : StrictTotalOrder lt) {objs : List Addr} {h : Heap V} (r : Reach lt keyOf objs h) {c : Addr}
    (hc : c ∈ objs) (k : K) : ∃ es n h', entries c h = .ok (es, h) ∧ count lt keyOf c k h = .ok (n, h') ∧
      n ≤ es.countP (fun e => decide (keyOf e.2 = k)) ∧ (n = 0 ↔ ∀ e ∈ es, keyOf e.2 ≠ k) ∧ n ≤ 2 * Nat.log2 (es.length + 1) := by
  obtain ⟨es, o, a, w⟩ := r.owns ho.toStrictWeak hc
  have oe := o.entries
  obtain ⟨t, rt, b, i, d⟩ := o
  obtain ⟨n, m, q1, q2, q3, q4⟩ := countLoop_weak ho k rt.rep (by rw [i]; exact keys_of (keyOf := keyOf) (dflt := k) d)
    (by rw [i]; exact weakSortedBy_of d a) 0
  rw [i, countP_map_congr (p := fun x => decide (kfOf keyOf k h x = k)) (q := fun e => decide (keyOf e.2 = k))
    (fun e he => by rw [kfOf_mem (d e he)])] at q2 q3
  refine ⟨es, m, h.tick n, oe, ?_, q2, ?_, by rw [← size_of i]; exact Nat.le_trans q4 b.height⟩
  · unfold count
    simp only [Prog.bind_app, root_of_zip rt, Res.bind_ok, q1, Prog.pure_app]
    rw [Nat.zero_add]
  · constructor
    · intro hm
      have := q3 hm
      rw [List.countP_eq_zero] at this
      intro e he; simpa using this e he
    · intro hno
      have : es.countP (fun e => decide (keyOf e.2 = k)) = 0 := by
        rw [List.countP_eq_zero]; intro e he; simpa using hno e he
      omega

/-- **C13 fails for every large group of equal elements.** In whatever order they were inserted: if more than `2 * log2 (n + 1)` of the `n` elements have the key `k`,
`count(k)` is less than their number; in particular whenever there are seven or more elements, all with the key `k`. -/
theorem count_wrong_for_many (ho : StrictTotalOrder lt) {objs : List Addr} {h : Heap V} (r : Reach lt keyOf objs h) {c : Addr}
    (hc : c ∈ objs) {es : List (Addr × V)} (he : entries c h = .ok (es, h)) (k : K)
    (many : 2 * Nat.log2 (es.length + 1) < es.countP (fun e => decide (keyOf e.2 = k)) ∨ (∀ e ∈ es, keyOf e.2 = k) ∧ 7 ≤ es.length) :
    ∃ n h', count lt keyOf c k h = .ok (n, h') ∧ n < es.countP (fun e => decide (keyOf e.2 = k)) := by
  obtain ⟨es', n, h', e, q, _, _, l⟩ := count_bounds_partial ho r hc k
  rw [he] at e; cases e
  refine ⟨n, h', q, ?_⟩
  rcases many with m | ⟨a, m⟩
  · omega
  · have : es.countP (fun e => decide (keyOf e.2 = k)) = es.length := by rw [List.countP_eq_length]; intro e he; simp [a e he]
    rw [this]
    have p : 2 ^ Nat.log2 (es.length + 1) ≤ es.length + 1 := Nat.log2_self_le (by omega)
    have g : 3 ≤ Nat.log2 (es.length + 1) := (Nat.le_log2 (by omega)).2 (by omega)
    have grow : ∀ j, 3 ≤ j → 2 * j + 2 ≤ 2 ^ j := by
      intro j hj
      induction j with
      | zero => omega
      | succ j ih =>
        by_cases q : j = 2
        · subst q; decide
        · have := ih (by omega); rw [Nat.pow_succ]; omega
    have := grow _ g
    omega

/-- On a container with unique keys (every `ttl::map` and `ttl::set`), `count` is exact. -/
theorem count_unique_partial (ho : StrictTotalOrder lt) {objs : List Addr} {h : Heap V} (r : Rb.Reach lt keyOf objs h) {c : Addr}
    (hc : c ∈ objs) (k : K) : ∃ es h', entries c h = .ok (es, h) ∧
      count lt keyOf c k h = .ok (es.countP (fun e => decide (keyOf e.2 = k)), h') := by
  obtain ⟨es, o, a, w⟩ := Rb.Reach.owns ho r hc
  obtain ⟨n, hn, q⟩ := count_owns ho o a k
  exact ⟨es, _, o.entries, q⟩

/-- The only balanced tree shape with three nodes. -/
theorem three_shape {t : Tree} {a b c : Addr} (hb : Balanced t) (i : t.inorder = [a, b, c]) :
    ∃ k1 k2 k3, t = .node b k1 (.node a k2 .leaf .leaf) (.node c k3 .leaf .leaf) := by
  obtain ⟨hr, n, hb⟩ := hb
  rcases t with _ | ⟨x, k, l, r⟩
  · simp at i
  · have hk : k = false := hr
    subst hk
    obtain ⟨m, rfl, hl, hrr, hred⟩ := hb
    have hlen := congrArg List.length i
    simp only [inorder_node, List.length_append, List.length_cons, List.length_nil] at hlen
    rcases l with _ | ⟨y, ky, ll, lr⟩
    · -- left empty: black height 0, so the right child is red: impossible
      have hm : m = 0 := hl
      subst hm
      rcases r with _ | ⟨z, kz, rl, rr⟩
      · simp at hlen
      · have : kz = false := hred
        subst this
        obtain ⟨m', h0, _⟩ := hrr
        omega
    · rcases r with _ | ⟨z, kz, rl, rr⟩
      · have hm : m = 0 := hrr
        subst hm
        cases ky with
        | false => obtain ⟨m', h0, _⟩ := hl; omega
        | true =>
          obtain ⟨h1, h2, h3, h4⟩ := hl
          exfalso
          rcases ll with _ | ⟨u, ku, _, _⟩
          · rcases lr with _ | ⟨u, ku, _, _⟩
            · simp at hlen
            · have : ku = false := h4
              subst this
              obtain ⟨m', h0, _⟩ := h2; omega
          · have : ku = false := h3
            subst this
            obtain ⟨m', h0, _⟩ := h1; omega
      · simp only [inorder_node, List.length_append, List.length_cons] at hlen
        have e1 : ll = .leaf := by
          cases ll with
          | leaf => rfl
          | node => simp only [inorder_node, List.length_append, List.length_cons] at hlen; omega
        have e2 : lr = .leaf := by
          cases lr with
          | leaf => rfl
          | node => simp only [inorder_node, List.length_append, List.length_cons] at hlen; omega
        have e3 : rl = .leaf := by
          cases rl with
          | leaf => rfl
          | node => simp only [inorder_node, List.length_append, List.length_cons] at hlen; omega
        have e4 : rr = .leaf := by
          cases rr with
          | leaf => rfl
          | node => simp only [inorder_node, List.length_append, List.length_cons] at hlen; omega
        subst e1 e2 e3 e4
        simp only [inorder_node, inorder_leaf, List.nil_append, List.cons_append, List.cons.injEq, and_true] at i
        obtain ⟨rfl, rfl, rfl⟩ := i
        exact ⟨_, _, _, rfl⟩

/-- Any tree holding three elements with the same key reports a count of two. -/
theorem count_of_three (ho : StrictTotalOrder lt) {h : Heap V} {c : Addr} {e1 e2 e3 : Addr × V} {k : K}
    (o : Owns h c [e1, e2, e3]) (h1 : keyOf e1.2 = k) (h2 : keyOf e2.2 = k) (h3 : keyOf e3.2 = k) :
    ∃ h', count lt keyOf c k h = .ok (2, h') := by
  obtain ⟨t, rt, b, i, d⟩ := o
  obtain ⟨k1, k2, k3, rfl⟩ := three_shape b i
  have hroot := root_of_zip rt
  obtain ⟨n2, z2, ⟨n1, z1, _, _⟩, ⟨n3, z3, _, _⟩⟩ := rt.rep
  have d1 := d e1 (by simp)
  have d2 := d e2 (by simp)
  have d3 := d e3 (by simp)
  have f2 : (h.tick 1).node e2.1 = some ⟨c, e1.1, e3.1, k1⟩ := n2
  have f1 : ((h.tick 1).tick 1).node e1.1 = some ⟨e2.1, 0, 0, k2⟩ := n1
  have g1 : (h.tick 1).data e1.1 = some e1.2 := d1
  refine ⟨(h.tick 1).tick 1, ?_⟩
  unfold count
  simp only [Prog.bind_app, hroot, Res.bind_ok]
  rw [countLoop]
  rw [if_neg (show (Tree.node e2.1 k1 (.node e1.1 k2 .leaf .leaf) (.node e3.1 k3 .leaf .leaf)).addr ≠ 0 from z2)]
  simp only [addr_node]
  simp only [Prog.bind_app, dataOf_eq d2, Res.bind_ok, less_app, Prog.ite_app, nd_eq f2, h2, ho.irrefl, Bool.false_eq_true, if_false, if_true]
  rw [countLoop]
  rw [if_neg z1]
  simp only [Prog.bind_app, dataOf_eq g1, Res.bind_ok, less_app, Prog.ite_app, nd_eq f1, h1, ho.irrefl, Bool.false_eq_true, if_false, if_true]
  rw [countLoop]
  simp

/-- Any number of `insert_equal(5)` into one tree is a reachable history. -/
theorem exists_fives (n : Nat) : ∃ h es, Reach (fun a b : Nat => decide (a < b)) id [1] h ∧ entries 1 h = .ok (es, h) ∧
    es.map Prod.snd = List.replicate n 5 := by
  let j : Addr → RbNode := fun _ => ⟨0, 0, 0, false⟩
  have ho := natOrder.toStrictWeak
  have r0 : Reach (fun a b : Nat => decide (a < b)) id [] (emptyMemory j) := .start j
  obtain ⟨ws, W, hw, _⟩ := r0.inv ho
  obtain ⟨h1, q1, o1, f1, _, _⟩ := newTree_owns W.wf
  have r1 : Reach (fun a b : Nat => decide (a < b)) id [1] h1 := r0.step .create ⟨by simp [Call.args], by simp⟩ (by
    simp only [call, Prog.bind_app, q1, Res.bind_ok, Prog.pure_app]; rfl)
  have step : ∀ (l : List Nat) (h : Heap Nat), Reach (fun a b : Nat => decide (a < b)) id [1] h →
      (∃ es, entries 1 h = .ok (es, h) ∧ es.map Prod.snd = l ∧ ∀ e ∈ es, e.2 = 5) →
      ∃ h', Reach (fun a b : Nat => decide (a < b)) id [1] h' ∧ ∃ es, entries 1 h' = .ok (es, h') ∧ es.map Prod.snd = l ++ [5] ∧
        ∀ e ∈ es, e.2 = 5 := by
    intro l h r ⟨es, he, hv, h5⟩
    obtain ⟨A, B, x, h', e, q, e', _, hA, hB⟩ := insert_equal_stable ho r (c := 1) (by simp) 5
    rw [he] at e
    simp only [Res.ok.injEq, Prod.mk.injEq, and_true] at e
    subst e
    have hB0 : B = [] := by
      cases B with
      | nil => rfl
      | cons b B =>
        have h1 := hB b (by simp)
        have h2 := h5 b (by simp)
        simp [h2] at h1
    subst hB0
    refine ⟨h', r.step (.insert 1 5) ⟨by simp [Call.args], by simp⟩ (by simp only [call, Prog.bind_app, q, Res.bind_ok, Prog.pure_app]), _, e', ?_, ?_⟩
    · rw [List.append_nil] at hv; simp [hv]
    · intro e he'
      simp only [List.mem_append, List.mem_cons, List.not_mem_nil, or_false] at he'
      rcases he' with he' | rfl
      · exact h5 e (by simp [he'])
      · rfl
  have all : ∃ h, Reach (fun a b : Nat => decide (a < b)) id [1] h ∧ ∃ es, entries 1 h = .ok (es, h) ∧
      es.map Prod.snd = List.replicate n 5 ∧ ∀ e ∈ es, e.2 = 5 := by
    induction n with
    | zero => exact ⟨h1, r1, [], o1.entries, rfl, by simp⟩
    | succ n ih =>
      obtain ⟨h, r, s⟩ := ih
      rw [List.replicate_succ']
      exact step _ h r s
  obtain ⟨h, r, es, e, v, _⟩ := all
  exact ⟨h, es, r, e, v⟩

/-- C13 is false as stated: after three `insert_equal(5)` the tree holds three fives, but `count(5)` is two. -/
theorem count_counterexample : ∃ c h es h', Reach (fun a b : Nat => decide (a < b)) id [c] h ∧ entries c h = .ok (es, h) ∧
    es.map Prod.snd = [5, 5, 5] ∧ count (fun a b : Nat => decide (a < b)) id c 5 h = .ok (2, h') := by
  have ho := natOrder.toStrictWeak
  obtain ⟨h4, es, r4, e4, v4⟩ := exists_fives 3
  simp only [List.replicate] at v4
  obtain ⟨es', o4, _, _⟩ := r4.owns ho (c := 1) (by simp)
  rw [o4.entries] at e4
  simp only [Res.ok.injEq, Prod.mk.injEq, and_true] at e4
  subst e4
  rcases es' with _ | ⟨x, _ | ⟨y, _ | ⟨z, _ | ⟨u, es'⟩⟩⟩⟩
  · simp at v4
  · simp at v4
  · simp at v4
  · simp only [List.map_cons, List.map_nil, List.nil_append, List.cons_append, List.cons.injEq, and_true] at v4
    obtain ⟨h', q⟩ := count_of_three natOrder (keyOf := id) (k := 5) o4 v4.1 v4.2.1 v4.2.2
    exact ⟨1, h4, _, h', r4, o4.entries, by simp [v4], q⟩
  · simp at v4

/-- The hypotheses of `count_wrong_for_many` are met: after a thousand `insert_equal(5)` the tree holds a thousand fives, and `count(5)` answers less. -/
example : ∃ h es n h', Reach (fun a b : Nat => decide (a < b)) id [1] h ∧ entries 1 h = .ok (es, h) ∧
    es.countP (fun e => decide (id e.2 = 5)) = 1000 ∧ count (fun a b : Nat => decide (a < b)) id 1 5 h = .ok (n, h') ∧ n < 1000 := by
  obtain ⟨h, es, r, e, v⟩ := exists_fives 1000
  have l : es.length = 1000 := by rw [← List.length_map (f := Prod.snd), v, List.length_replicate]
  have a : ∀ x ∈ es, x.2 = 5 := fun x hx => List.eq_of_mem_replicate (v ▸ List.mem_map_of_mem (f := Prod.snd) hx)
  have c : es.countP (fun e => decide (id e.2 = 5)) = 1000 := by rw [← l, List.countP_eq_length]; intro x hx; simp [a x hx]
  obtain ⟨n, h', q, lt⟩ := count_wrong_for_many natOrder r (by simp) e 5 (.inr ⟨a, by omega⟩)
  exact ⟨h, es, n, h', r, e, c, q, by omega⟩

end Verif.Rb.Multi
