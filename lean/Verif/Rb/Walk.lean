import Verif.Rb.Remove
/-!
# Searching and walking, on the heap
-/
set_option linter.unusedSimpArgs false
set_option linter.unusedSectionVars false
namespace Verif.Rb
open Verif Tree
variable {K V : Type}

theorem exists_zip {t : Tree} {x : Addr} (hx : x ∈ t.inorder) : ∃ k c l r, t = zip k (.node x c l r) := by
  suffices ∀ (k0 : List Frame), ∃ k c l r, zip k0 t = zip k (.node x c l r) from this []
  induction t with
  | leaf => simp at hx
  | node a c l r ihl ihr =>
    intro k0
    simp only [inorder_node, List.mem_append, List.mem_cons] at hx
    rcases hx with hx | rfl | hx
    · obtain ⟨k, c', l', r', e⟩ := ihl hx (.L a c r :: k0)
      exact ⟨k, c', l', r', e⟩
    · exact ⟨k0, c, l, r, rfl⟩
    · obtain ⟨k, c', l', r', e⟩ := ihr hx (.R a c l :: k0)
      exact ⟨k, c', l', r', e⟩

theorem split_unique {α : Type} {A B A' B' : List α} {x : α} (hn : (A ++ x :: B).Nodup)
    (e : A ++ x :: B = A' ++ x :: B') : A = A' ∧ B = B' := by
  induction A generalizing A' with
  | nil =>
    cases A' with
    | nil => simpa using e
    | cons y A' =>
      simp only [List.nil_append, List.cons_append, List.cons.injEq] at e
      obtain ⟨rfl, rfl⟩ := e
      simp at hn
  | cons y A ih =>
    cases A' with
    | nil =>
      simp only [List.nil_append, List.cons_append, List.cons.injEq] at e
      obtain ⟨rfl, rfl⟩ := e
      simp at hn
    | cons z A' =>
      simp only [List.cons_append, List.cons.injEq] at e
      obtain ⟨rfl, e⟩ := e
      obtain ⟨h1, h2⟩ := ih (by simp only [List.cons_append, List.nodup_cons] at hn; exact hn.2) e
      exact ⟨by rw [h1], h2⟩

theorem minNode_spec {h : Heap V} {t : Tree} {p : Addr} (hr : Rep h t p) (ht : t ≠ leaf) (d : Addr) :
    minNode t.addr h = .ok (t.inorder.headD d, h) := by
  induction t generalizing p d with
  | leaf => exact absurd rfl ht
  | node a c l r ihl _ =>
    obtain ⟨h1, h2, h3, h4⟩ := hr
    rw [minNode]
    rw [if_neg (show (Tree.node a c l r).addr ≠ 0 from h2)]
    simp only [addr_node, Prog.bind_app, nd_eq h1, Res.bind_ok, Prog.ite_app]
    by_cases hl : l = leaf
    · subst hl; simp
    · rw [if_neg (fun e => hl (h3.addr_eq_zero.1 e)), ihl h3 hl d]
      rcases l with _ | ⟨b, cb, bl, br⟩
      · exact absurd rfl hl
      · cases hq : (Tree.node b cb bl br).inorder with
        | nil => simp at hq
        | cons y ys => simp only [inorder_node] at hq; simp [hq]

theorem maxNode_spec {h : Heap V} {t : Tree} {p : Addr} (hr : Rep h t p) (ht : t ≠ leaf) (d : Addr) :
    maxNode t.addr h = .ok (t.inorder.getLastD d, h) := by
  induction t generalizing p d with
  | leaf => exact absurd rfl ht
  | node a c l r _ ihr =>
    obtain ⟨h1, h2, h3, h4⟩ := hr
    rw [maxNode]
    rw [if_neg (show (Tree.node a c l r).addr ≠ 0 from h2)]
    simp only [addr_node, Prog.bind_app, nd_eq h1, Res.bind_ok, Prog.ite_app]
    by_cases hl : r = leaf
    · subst hl; simp
    · rw [if_neg (fun e => hl (h4.addr_eq_zero.1 e)), ihr h4 hl a]
      rw [inorder_node]
      cases hq : r.inorder with
      | nil => rcases r with _ | ⟨b, cb, bl, br⟩
               · exact absurd rfl hl
               · simp at hq
      | cons y ys => simp [List.getLast?_cons_cons, List.getLast?_eq_some_getLast]

theorem nextUp_spec {h : Heap V} {hd : Addr} {k : List Frame} {t : Tree} (hr : RepTree h hd (zip k t))
    (ht : t ≠ leaf) : nextUp t.addr h = .ok ((post k).headD hd, h) := by
  induction k generalizing t with
  | nil =>
    obtain ⟨hc, htr, hhd, hnd⟩ := repTree_zip.1 hr
    obtain ⟨k1, k2, k3, k4⟩ := htr.kids ht
    rw [nextUp]
    have := hr.header
    simp only [zip_nil] at this
    simp only [Prog.bind_app, nd_eq k1, Res.bind_ok, ctxParent, nd_eq this, if_neg k2, Prog.ite_app, Prog.pure_app]
    simp [post]
  | cons f k ih =>
    obtain ⟨hc, htr, hhd, hnd⟩ := repTree_zip.1 hr
    obtain ⟨k1, k2, k3, k4⟩ := htr.kids ht
    rw [nextUp]
    cases f with
    | L a c r =>
      have hne : t.addr ≠ r.addr := by
        intro e
        rcases r with _ | ⟨b, cb, bl, br⟩
        · exact k2 e
        · rcases t with _ | ⟨x, cx, xl, xr⟩
          · exact ht rfl
          · simp only [addr_node] at e
            subst e
            exact nodup_disj hnd (x := x) (by simp) (by simp [ctxNodes])
      have ha := hc.1
      simp only [Prog.bind_app, nd_eq k1, Res.bind_ok, ctxParent_L, nd_eq ha, if_neg hne, Prog.ite_app, Prog.pure_app]
      simp [post]
    | R a c l =>
      have ha := hc.1
      simp only [Prog.bind_app, nd_eq k1, Res.bind_ok, ctxParent_R, nd_eq ha, if_true, Prog.ite_app]
      have := ih (t := .node a c l t) hr (by simp)
      simp only [addr_node] at this
      rw [this]
      simp [post]

theorem prevUp_spec {h : Heap V} {hd : Addr} {k : List Frame} {t : Tree} (hr : RepTree h hd (zip k t))
    (ht : t ≠ leaf) : prevUp t.addr h = .ok ((pre k).getLastD hd, h) := by
  induction k generalizing t with
  | nil =>
    obtain ⟨hc, htr, hhd, hnd⟩ := repTree_zip.1 hr
    obtain ⟨k1, k2, k3, k4⟩ := htr.kids ht
    rw [prevUp]
    have := hr.header
    simp only [zip_nil] at this
    simp only [Prog.bind_app, nd_eq k1, Res.bind_ok, ctxParent, nd_eq this, if_neg k2, Prog.ite_app, Prog.pure_app]
    simp [pre]
  | cons f k ih =>
    obtain ⟨hc, htr, hhd, hnd⟩ := repTree_zip.1 hr
    obtain ⟨k1, k2, k3, k4⟩ := htr.kids ht
    rw [prevUp]
    cases f with
    | R a c r =>
      have hne : t.addr ≠ r.addr := by
        intro e
        rcases r with _ | ⟨b, cb, bl, br⟩
        · exact k2 e
        · rcases t with _ | ⟨x, cx, xl, xr⟩
          · exact ht rfl
          · simp only [addr_node] at e
            subst e
            exact nodup_disj hnd (x := x) (by simp) (by simp [ctxNodes])
      have ha := hc.1
      simp only [Prog.bind_app, nd_eq k1, Res.bind_ok, ctxParent_R, nd_eq ha, if_neg hne, Prog.ite_app, Prog.pure_app]
      simp [pre]
    | L a c l =>
      have ha := hc.1
      simp only [Prog.bind_app, nd_eq k1, Res.bind_ok, ctxParent_L, nd_eq ha, if_true, Prog.ite_app]
      have := ih (t := .node a c t l) hr (by simp)
      simp only [addr_node] at this
      rw [this]
      simp [pre]

/-- `next_node` is the in-order successor, the header after the last node. -/
theorem nextNode_spec {h : Heap V} {hd : Addr} {t : Tree} (hr : RepTree h hd t) {A B : List Addr} {x : Addr}
    (e : t.inorder = A ++ x :: B) : nextNode x h = .ok (B.headD hd, h) := by
  obtain ⟨k, c, l, r, rfl⟩ := exists_zip (t := t) (x := x) (by rw [e]; simp)
  have hi : (zip k (.node x c l r)).inorder = (pre k ++ l.inorder) ++ x :: (r.inorder ++ post k) := by
    rw [inorder_zip]; simp
  have hn := hr.nodup
  rw [hi] at hn
  obtain ⟨_, hB⟩ := split_unique hn (hi.symm.trans e)
  subst hB
  obtain ⟨hc, htr, hhd, hnd⟩ := repTree_zip.1 hr
  obtain ⟨h1, h2, h3, h4⟩ := htr
  unfold nextNode
  simp only [Prog.bind_app, nd_eq h1, Res.bind_ok, Prog.ite_app]
  by_cases hrl : r = leaf
  · subst hrl
    simp only [addr_leaf, ne_eq, not_true_eq_false, if_false, inorder_leaf, List.nil_append]
    have hup := nextUp_spec hr (by simp)
    simp only [addr_node] at hup
    rcases k with _ | ⟨f, k⟩
    · have := hr.header
      simp only [zip_nil, addr_node] at this
      simp only [ctxParent, nd_eq this, Res.bind_ok, if_neg h2]
      exact hup
    · cases f with
      | L a c' r' =>
        have ha := hc.1
        simp only [addr_node] at ha
        simp only [ctxParent_L, nd_eq ha, Res.bind_ok, if_true, Prog.pure_app]
        simp [post]
      | R a c' l' =>
        have ha := hc.1
        simp only [ctxParent_R, nd_eq ha, Res.bind_ok]
        rw [hup]
        split
        · next e' =>
          exfalso
          rcases l' with _ | ⟨b, cb, bl, br⟩
          · exact h2 e'
          · simp only [addr_node] at e'
            subst e'
            exact nodup_disj hnd (x := x) (by simp) (by simp [ctxNodes])
        · rfl
  · rw [if_pos (fun e => hrl (h4.addr_eq_zero.1 e)), minNode_spec h4 hrl hd]
    rcases r with _ | ⟨b, cb, bl, br⟩
    · exact absurd rfl hrl
    · cases hq : (Tree.node b cb bl br).inorder with
      | nil => simp at hq
      | cons y ys => simp

/-- `prev_node` is the in-order predecessor, the header before the first node. -/
theorem prevNode_spec {h : Heap V} {hd : Addr} {t : Tree} (hr : RepTree h hd t) {A B : List Addr} {x : Addr}
    (e : t.inorder = A ++ x :: B) : prevNode x h = .ok (A.getLastD hd, h) := by
  obtain ⟨k, c, l, r, rfl⟩ := exists_zip (t := t) (x := x) (by rw [e]; simp)
  have hi : (zip k (.node x c l r)).inorder = (pre k ++ l.inorder) ++ x :: (r.inorder ++ post k) := by
    rw [inorder_zip]; simp
  have hn := hr.nodup
  rw [hi] at hn
  obtain ⟨hA, _⟩ := split_unique hn (hi.symm.trans e)
  subst hA
  obtain ⟨hc, htr, hhd, hnd⟩ := repTree_zip.1 hr
  obtain ⟨h1, h2, h3, h4⟩ := htr
  unfold prevNode
  simp only [Prog.bind_app, nd_eq h1, Res.bind_ok, Prog.ite_app]
  by_cases hrl : l = leaf
  · subst hrl
    simp only [addr_leaf, ne_eq, not_true_eq_false, if_false, inorder_leaf, List.append_nil]
    have hup := prevUp_spec hr (by simp)
    simp only [addr_node] at hup
    rcases k with _ | ⟨f, k⟩
    · have := hr.header
      simp only [zip_nil, addr_node] at this
      simp only [ctxParent, nd_eq this, Res.bind_ok, if_neg h2]
      exact hup
    · cases f with
      | R a c' r' =>
        have ha := hc.1
        simp only [addr_node] at ha
        simp only [ctxParent_R, nd_eq ha, Res.bind_ok, if_true, Prog.pure_app]
        simp [pre]
      | L a c' l' =>
        have ha := hc.1
        simp only [ctxParent_L, nd_eq ha, Res.bind_ok]
        rw [hup]
        split
        · next e' =>
          exfalso
          rcases l' with _ | ⟨b, cb, bl, br⟩
          · exact h2 e'
          · simp only [addr_node] at e'
            subst e'
            exact nodup_disj hnd (x := x) (by simp) (by simp [ctxNodes])
        · rfl
  · rw [if_pos (fun e => hrl (h3.addr_eq_zero.1 e)), maxNode_spec h3 hrl ((pre k).getLastD hd)]
    simp

section
variable [DecidableEq K] {lt : K → K → Bool} {keyOf : V → K}

theorem Keys.sub {keyOf : V → K} {h : Heap V} {l l' : List Addr} {kf} (hk : Keys keyOf h l kf)
    (hs : ∀ x ∈ l', x ∈ l) : Keys keyOf h l' kf := fun x hx => hk x (hs x hx)

/-- `find` in a strictly sorted tree. -/
theorem findLoop_spec (ho : StrictTotalOrder lt) {kf : Addr → K} (key : K) {h : Heap V} {t : Tree} {p : Addr}
    (hr : Rep h t p) (hk : Keys keyOf h t.inorder kf) (hs : SortedBy lt kf t.inorder) :
    ∃ n x, n ≤ t.height ∧ findLoop lt keyOf key t.addr h = .ok (x, h.tick n) ∧
      ((x ∈ t.inorder ∧ kf x = key) ∨ (x = 0 ∧ ∀ y ∈ t.inorder, kf y ≠ key)) := by
  induction t generalizing p h with
  | leaf =>
    refine ⟨0, 0, Nat.le_refl _, ?_, Or.inr ⟨rfl, by simp⟩⟩
    rw [findLoop]; simp [tick_zero]
  | node a c l r ihl ihr =>
    obtain ⟨h1, h2, h3, h4⟩ := hr
    obtain ⟨v, hv, hkv⟩ := hk a (by simp)
    obtain ⟨s1, s2, s3, s4⟩ := sorted_node hs
    have h1' : (h.tick 1).node a = some ⟨p, l.addr, r.addr, c⟩ := h1
    rw [findLoop]
    rw [if_neg (show (Tree.node a c l r).addr ≠ 0 from h2)]
    simp only [addr_node, Prog.bind_app, dataOf_eq hv, Res.bind_ok, less_app, hkv, Prog.ite_app, nd_eq h1']
    rcases ho.trichotomy key (kf a) with hlt | heq | hgt
    · rw [if_pos hlt]
      obtain ⟨n, x, q1, q2, q3⟩ := ihl (h := h.tick 1) (p := a) (h3.congr fun _ _ => rfl)
        (fun y hy => hk y (by simp [hy])) s3
      refine ⟨1 + n, x, by simp only [Tree.height]; omega, by rw [q2, tick_tick], ?_⟩
      rcases q3 with ⟨q3, q4⟩ | ⟨q3, q4⟩
      · exact Or.inl ⟨by simp [q3], q4⟩
      · refine Or.inr ⟨q3, ?_⟩
        intro y hy
        simp only [inorder_node, List.mem_append, List.mem_cons] at hy
        rcases hy with hy | rfl | hy
        · exact q4 y hy
        · exact (ho.ne_of_lt hlt).symm
        · exact (ho.ne_of_lt (ho.trans _ _ _ hlt (s2 y hy))).symm
    · refine ⟨1, a, by simp only [Tree.height]; omega, ?_, Or.inl ⟨by simp, heq.symm⟩⟩
      simp [heq, ho.irrefl]
    · rw [ho.asymm hgt]
      simp only [Bool.false_eq_true, if_false, if_neg (ho.ne_of_lt hgt).symm]
      obtain ⟨n, x, q1, q2, q3⟩ := ihr (h := h.tick 1) (p := a) (h4.congr fun _ _ => rfl)
        (fun y hy => hk y (by simp [hy])) s4
      refine ⟨1 + n, x, by simp only [Tree.height]; omega, by rw [q2, tick_tick], ?_⟩
      rcases q3 with ⟨q3, q4⟩ | ⟨q3, q4⟩
      · exact Or.inl ⟨by simp [q3], q4⟩
      · refine Or.inr ⟨q3, ?_⟩
        intro y hy
        simp only [inorder_node, List.mem_append, List.mem_cons] at hy
        rcases hy with hy | rfl | hy
        · exact ho.ne_of_lt (ho.trans _ _ _ (s1 y hy) hgt)
        · exact ho.ne_of_lt hgt
        · exact q4 y hy

/-- Sorted, equal keys allowed. -/
abbrev WeakSortedBy (lt : K → K → Bool) (kf : Addr → K) (l : List Addr) : Prop :=
  l.Pairwise fun x y => lt (kf y) (kf x) = false

theorem weak_node {kf : Addr → K} {a c l r} (hs : WeakSortedBy lt kf (Tree.node a c l r).inorder) :
    (∀ x ∈ l.inorder, lt (kf a) (kf x) = false) ∧ (∀ x ∈ r.inorder, lt (kf x) (kf a) = false) ∧
    WeakSortedBy lt kf l.inorder ∧ WeakSortedBy lt kf r.inorder := by
  simp only [WeakSortedBy, inorder_node, List.pairwise_append, List.pairwise_cons, List.mem_cons] at hs ⊢
  exact ⟨fun x hx => hs.2.2 x hx a (Or.inl rfl), hs.2.1.1, hs.1, hs.2.1.2⟩

/-- `lower_bound`: the first node whose key is not less than `key`. -/
theorem lowerLoop_spec (ho : StrictWeakOrder lt) {kf : Addr → K} (key : K) {h : Heap V} {t : Tree} {p : Addr}
    (hr : Rep h t p) (hk : Keys keyOf h t.inorder kf) (hs : WeakSortedBy lt kf t.inorder) (prev : Addr) :
    ∃ n, n ≤ t.height ∧ lowerLoop lt keyOf key t.addr prev h =
      .ok ((t.inorder.find? fun x => !lt (kf x) key).getD prev, h.tick n) := by
  induction t generalizing p h prev with
  | leaf =>
    refine ⟨0, Nat.le_refl _, ?_⟩
    rw [lowerLoop]; simp [tick_zero]
  | node a c l r ihl ihr =>
    obtain ⟨h1, h2, h3, h4⟩ := hr
    obtain ⟨v, hv, hkv⟩ := hk a (by simp)
    obtain ⟨s1, s2, s3, s4⟩ := weak_node hs
    have h1' : (h.tick 1).node a = some ⟨p, l.addr, r.addr, c⟩ := h1
    rw [lowerLoop]
    rw [if_neg (show (Tree.node a c l r).addr ≠ 0 from h2)]
    simp only [addr_node, Prog.bind_app, dataOf_eq hv, Res.bind_ok, less_app, hkv, Prog.ite_app, nd_eq h1']
    by_cases hlt : lt (kf a) key = true
    · rw [if_pos hlt]
      obtain ⟨n, q1, q2⟩ := ihr (h := h.tick 1) (p := a) (h4.congr fun _ _ => rfl)
        (fun y hy => hk y (by simp [hy])) s4 prev
      refine ⟨1 + n, by simp only [Tree.height]; omega, ?_⟩
      rw [q2, tick_tick]
      have hnone : l.inorder.find? (fun x => !lt (kf x) key) = none := by
        rw [List.find?_eq_none]
        intro x hx
        have := ho.lt_of_not_lt_of_lt (s1 x hx) hlt
        simp [this]
      simp [List.find?_append, hnone, hlt, List.find?_cons]
    · rw [if_neg hlt]
      have hlt' : lt (kf a) key = false := by simpa using hlt
      obtain ⟨n, q1, q2⟩ := ihl (h := h.tick 1) (p := a) (h3.congr fun _ _ => rfl)
        (fun y hy => hk y (by simp [hy])) s3 a
      refine ⟨1 + n, by simp only [Tree.height]; omega, ?_⟩
      rw [q2, tick_tick]
      cases hq : l.inorder.find? (fun x => !lt (kf x) key) <;>
        simp [List.find?_append, hq, hlt', List.find?_cons]

/-- `upper_bound`: the first node whose key is greater than `key`. -/
theorem upperLoop_spec (ho : StrictWeakOrder lt) {kf : Addr → K} (key : K) {h : Heap V} {t : Tree} {p : Addr}
    (hr : Rep h t p) (hk : Keys keyOf h t.inorder kf) (hs : WeakSortedBy lt kf t.inorder) (prev : Addr) :
    ∃ n, n ≤ t.height ∧ upperLoop lt keyOf key t.addr prev h =
      .ok ((t.inorder.find? fun x => lt key (kf x)).getD prev, h.tick n) := by
  induction t generalizing p h prev with
  | leaf =>
    refine ⟨0, Nat.le_refl _, ?_⟩
    rw [upperLoop]; simp [tick_zero]
  | node a c l r ihl ihr =>
    obtain ⟨h1, h2, h3, h4⟩ := hr
    obtain ⟨v, hv, hkv⟩ := hk a (by simp)
    obtain ⟨s1, s2, s3, s4⟩ := weak_node hs
    have h1' : (h.tick 1).node a = some ⟨p, l.addr, r.addr, c⟩ := h1
    rw [upperLoop]
    rw [if_neg (show (Tree.node a c l r).addr ≠ 0 from h2)]
    simp only [addr_node, Prog.bind_app, dataOf_eq hv, Res.bind_ok, less_app, hkv, Prog.ite_app, nd_eq h1']
    by_cases hlt : lt key (kf a) = true
    · rw [if_pos hlt]
      obtain ⟨n, q1, q2⟩ := ihl (h := h.tick 1) (p := a) (h3.congr fun _ _ => rfl)
        (fun y hy => hk y (by simp [hy])) s3 a
      refine ⟨1 + n, by simp only [Tree.height]; omega, ?_⟩
      rw [q2, tick_tick]
      cases hq : l.inorder.find? (fun x => lt key (kf x)) <;>
        simp [List.find?_append, hq, hlt, List.find?_cons]
    · rw [if_neg hlt]
      have hlt' : lt key (kf a) = false := by simpa using hlt
      obtain ⟨n, q1, q2⟩ := ihr (h := h.tick 1) (p := a) (h4.congr fun _ _ => rfl)
        (fun y hy => hk y (by simp [hy])) s4 prev
      refine ⟨1 + n, by simp only [Tree.height]; omega, ?_⟩
      rw [q2, tick_tick]
      have hnone : l.inorder.find? (fun x => lt key (kf x)) = none := by
        rw [List.find?_eq_none]
        intro x hx
        have := ho.negTrans _ _ _ hlt' (s1 x hx)
        simp [this]
      simp [List.find?_append, hnone, hlt', List.find?_cons]

/-- `count` in a strictly sorted tree. -/
theorem countLoop_spec (ho : StrictTotalOrder lt) {kf : Addr → K} (key : K) {h : Heap V} {t : Tree} {p : Addr}
    (hr : Rep h t p) (hk : Keys keyOf h t.inorder kf) (hs : SortedBy lt kf t.inorder) (acc : Nat) :
    ∃ n, n ≤ t.height ∧ countLoop lt keyOf key t.addr acc h =
      .ok (acc + t.inorder.countP fun x => decide (kf x = key), h.tick n) := by
  induction t generalizing p h acc with
  | leaf =>
    refine ⟨0, Nat.le_refl _, ?_⟩
    rw [countLoop]; simp [tick_zero]
  | node a c l r ihl ihr =>
    obtain ⟨h1, h2, h3, h4⟩ := hr
    obtain ⟨v, hv, hkv⟩ := hk a (by simp)
    obtain ⟨s1, s2, s3, s4⟩ := sorted_node hs
    have h1' : (h.tick 1).node a = some ⟨p, l.addr, r.addr, c⟩ := h1
    rw [countLoop]
    rw [if_neg (show (Tree.node a c l r).addr ≠ 0 from h2)]
    simp only [addr_node, Prog.bind_app, dataOf_eq hv, Res.bind_ok, less_app, hkv, Prog.ite_app, nd_eq h1']
    have zl : ∀ {lst : List Addr}, (∀ y ∈ lst, kf y ≠ key) → lst.countP (fun x => decide (kf x = key)) = 0 := by
      intro lst hl
      rw [List.countP_eq_zero]
      intro y hy; simp [hl y hy]
    rcases ho.trichotomy (kf a) key with hlt | heq | hgt
    · rw [if_pos hlt]
      obtain ⟨n, q1, q2⟩ := ihr (h := h.tick 1) (p := a) (h4.congr fun _ _ => rfl)
        (fun y hy => hk y (by simp [hy])) s4 acc
      refine ⟨1 + n, by simp only [Tree.height]; omega, ?_⟩
      rw [q2, tick_tick]
      have z1 := zl (lst := l.inorder) fun y hy => ho.ne_of_lt (ho.trans _ _ _ (s1 y hy) hlt)
      simp [List.countP_append, z1, ho.ne_of_lt hlt, List.countP_cons]
    · have hnl : lt (kf a) key = false := by rw [heq]; exact ho.irrefl _
      rw [if_neg (by simp [hnl]), if_pos heq]
      obtain ⟨n, q1, q2⟩ := ihl (h := h.tick 1) (p := a) (h3.congr fun _ _ => rfl)
        (fun y hy => hk y (by simp [hy])) s3 (acc + 1)
      refine ⟨1 + n, by simp only [Tree.height]; omega, ?_⟩
      rw [q2, tick_tick]
      have z1 := zl (lst := r.inorder) fun y hy => by rw [← heq]; exact (ho.ne_of_lt (s2 y hy)).symm
      simp only [inorder_node, List.countP_append, List.countP_cons, z1, heq, decide_true, if_true]
      congr 2; omega
    · rw [if_neg (by simp [ho.asymm hgt]), if_neg (ho.ne_of_lt hgt).symm]
      obtain ⟨n, q1, q2⟩ := ihl (h := h.tick 1) (p := a) (h3.congr fun _ _ => rfl)
        (fun y hy => hk y (by simp [hy])) s3 acc
      refine ⟨1 + n, by simp only [Tree.height]; omega, ?_⟩
      rw [q2, tick_tick]
      have z1 := zl (lst := r.inorder) fun y hy => (ho.ne_of_lt (ho.trans _ _ _ hgt (s2 y hy))).symm
      simp [List.countP_append, z1, (ho.ne_of_lt hgt).symm, List.countP_cons]

/-- The search loop of `insert_equal`. -/
theorem insEqLoop_spec (ho : StrictWeakOrder lt) {kf : Addr → K} {key : K} {h : Heap V} {hd : Addr}
    {k : List Frame} {t : Tree} (hr : RepTree h hd (zip k t)) (hk : Keys keyOf h t.inorder kf)
    (hlo : ∀ x ∈ pre k, lt key (kf x) = false) (hhi : ∀ x ∈ post k, lt key (kf x) = true)
    (hs : WeakSortedBy lt kf t.inorder) :
    ∃ n k', n ≤ t.height ∧ zip k' leaf = zip k t ∧ (∀ x ∈ pre k', lt key (kf x) = false) ∧
      (∀ x ∈ post k', lt key (kf x) = true) ∧
      insEqLoop lt keyOf hd key (ctxEdge k) (ctxParent hd k) h =
          .ok ((ctxEdge k', ctxParent hd k'), h.tick n) := by
  induction t generalizing k h with
  | leaf =>
    refine ⟨0, k, Nat.zero_le _, rfl, hlo, hhi, ?_⟩
    rw [insEqLoop]
    simp [(repTree_zip.1 hr).1.rd, tick_zero]
  | node a c l r ihl ihr =>
    obtain ⟨hc, htr, _, _⟩ := repTree_zip.1 hr
    obtain ⟨h1, h2, h3, h4⟩ := htr
    obtain ⟨v, hv, hkv⟩ := hk a (by simp)
    obtain ⟨s1, s2, s3, s4⟩ := weak_node hs
    have hrd := hc.rd
    simp only [addr_node] at hrd
    rw [insEqLoop]
    simp only [hrd, if_neg h2, Prog.bind_app, dataOf_eq hv, Res.bind_ok, less_app, hkv, Prog.ite_app]
    by_cases hlt : lt key (kf a) = true
    · rw [if_pos hlt]
      obtain ⟨n, k', q1, q2, q3, q4, q5⟩ := ihl (h := h.tick 1) (k := .L a c r :: k) (hr.tick 1)
        (fun y hy => hk y (by simp [hy])) hlo (by
          intro x hx
          simp only [post, List.cons_append, List.mem_cons, List.mem_append] at hx
          rcases hx with rfl | hx | hx
          · exact hlt
          · exact ho.lt_of_lt_of_not_lt hlt (s2 x hx)
          · exact hhi x hx) s3
      refine ⟨1 + n, k', by simp only [Tree.height]; omega, q2, q3, q4, ?_⟩
      simp only [ctxEdge_L, ctxParent_L] at q5
      rw [q5, tick_tick]
    · rw [if_neg hlt]
      have hlt' : lt key (kf a) = false := by simpa using hlt
      obtain ⟨n, k', q1, q2, q3, q4, q5⟩ := ihr (h := h.tick 1) (k := .R a c l :: k) (hr.tick 1)
        (fun y hy => hk y (by simp [hy])) (by
          intro x hx
          simp only [pre, List.mem_append, List.mem_cons, List.not_mem_nil, or_false] at hx
          rcases hx with hx | hx | rfl
          · exact hlo x hx
          · exact ho.negTrans _ _ _ hlt' (s1 x hx)
          · exact hlt') hhi s4
      refine ⟨1 + n, k', by simp only [Tree.height]; omega, q2, q3, q4, ?_⟩
      simp only [ctxEdge_R, ctxParent_R] at q5
      rw [q5, tick_tick]

end
end Verif.Rb
