import Verif.Rb.Balance
import Verif.Order
/-!
# Searching and insertion, on the heap
-/
set_option linter.unusedSimpArgs false
set_option linter.unusedSectionVars false
namespace Verif.Rb
open Verif Tree
variable {K V : Type}

/-- Like `Upd`, and at most `c` comparisons were made. -/
structure UpdN (c : Nat) (S : List Addr) (h h' : Heap V) : Prop where
  node : ∀ x, x ∉ S → h'.node x = h.node x
  live : ∀ x, (h'.node x).isSome = (h.node x).isSome
  data : h'.data = h.data
  next : h'.next = h.next
  junk : h'.junk = h.junk
  cmps : h'.cmps ≤ h.cmps + c

theorem Upd.toN {S : List Addr} {h h' : Heap V} (u : Upd S h h') (c : Nat) : UpdN c S h h' :=
  ⟨u.node, u.live, u.data, u.next, u.junk, by rw [u.cmps]; omega⟩
theorem UpdN.trans {c c' d : Nat} {S : List Addr} {h1 h2 h3 : Heap V} (a : UpdN c S h1 h2)
    (b : UpdN c' S h2 h3) (hd : c + c' ≤ d) : UpdN d S h1 h3 :=
  ⟨fun x hx => (b.node x hx).trans (a.node x hx), fun x => (b.live x).trans (a.live x),
    b.data.trans a.data, b.next.trans a.next, b.junk.trans a.junk,
    by have := a.cmps; have := b.cmps; omega⟩
theorem UpdN.mono {c c' : Nat} {S S' : List Addr} {h h' : Heap V} (a : UpdN c S h h')
    (hs : ∀ x ∈ S, x ∈ S') (hc : c ≤ c') : UpdN c' S' h h' :=
  ⟨fun x hx => a.node x fun hx' => hx (hs x hx'), a.live, a.data, a.next, a.junk, by have := a.cmps; omega⟩
theorem UpdN.refl (c : Nat) (S : List Addr) (h : Heap V) : UpdN c S h h :=
  (Upd.refl S h).toN c
theorem UpdN.tick (n : Nat) (S : List Addr) (h : Heap V) : UpdN n S h (h.tick n) :=
  ⟨fun _ _ => rfl, fun _ => rfl, rfl, rfl, rfl, Nat.le_refl _⟩

theorem RepTree.congr {h h' : Heap V} {hd : Addr} {t : Tree} (hr : RepTree h hd t)
    (hag : ∀ x, x = hd ∨ x ∈ t.inorder → h'.node x = h.node x) : RepTree h' hd t :=
  ⟨hr.rep.congr fun x hx => hag x (Or.inr hx), (hag hd (Or.inl rfl)).trans hr.header, hr.hd_ne, hr.hd_not,
    hr.nodup⟩

theorem RepTree.tick {h : Heap V} {hd : Addr} {t : Tree} (hr : RepTree h hd t) (n : Nat) :
    RepTree (h.tick n) hd t := hr.congr fun _ _ => rfl

theorem tick_tick (h : Heap V) (n m : Nat) : (h.tick n).tick m = h.tick (n + m) := by
  simp [Heap.tick, Nat.add_assoc]
theorem tick_zero (h : Heap V) : h.tick 0 = h := rfl
@[simp] theorem tick_node (h : Heap V) (n : Nat) : (h.tick n).node = h.node := rfl
@[simp] theorem tick_data (h : Heap V) (n : Nat) : (h.tick n).data = h.data := rfl
@[simp] theorem tick_next (h : Heap V) (n : Nat) : (h.tick n).next = h.next := rfl

@[simp] theorem less_app (lt : K → K → Bool) (a b : K) (h : Heap V) : less lt a b h = .ok (lt a b, h.tick 1) := rfl

theorem dataOf_eq {h : Heap V} {a : Addr} {v : V} (hv : h.data a = some v) : dataOf a h = .ok (v, h) := by
  simp [dataOf, hv]

@[simp] theorem ctxEdge_L (a c r k) : ctxEdge (.L a c r :: k) = .left a := rfl
@[simp] theorem ctxEdge_R (a c l k) : ctxEdge (.R a c l :: k) = .right a := rfl
@[simp] theorem ctxParent_L (hd a c r k) : ctxParent hd (.L a c r :: k) = a := rfl
@[simp] theorem ctxParent_R (hd a c l k) : ctxParent hd (.R a c l :: k) = a := rfl

/-- Keys of the nodes of a tree. -/
def Keys (keyOf : V → K) (h : Heap V) (l : List Addr) (kf : Addr → K) : Prop :=
  ∀ x ∈ l, ∃ v, h.data x = some v ∧ keyOf v = kf x

section
variable [DecidableEq K] {lt : K → K → Bool} {keyOf : V → K}

/-- Where a descending search for `key` currently is. -/
structure At (lt : K → K → Bool) (keyOf : V → K) (kf : Addr → K) (key : K) (h : Heap V) (hd : Addr)
    (k : List Frame) (t : Tree) : Prop where
  rep : RepTree h hd (zip k t)
  keys : Keys keyOf h (zip k t).inorder kf
  lo : ∀ x ∈ pre k, lt (kf x) key = true
  hi : ∀ x ∈ post k, lt key (kf x) = true

theorem At.node {kf : Addr → K} {key : K} {h : Heap V} {hd : Addr} {k a c l r}
    (w : At lt keyOf kf key h hd k (.node a c l r)) :
    ∃ p, h.node a = some ⟨p, l.addr, r.addr, c⟩ ∧ a ≠ 0 ∧ p = ctxParent hd k ∧
      ∃ v, h.data a = some v ∧ keyOf v = kf a := by
  obtain ⟨hc, ht, hne, hnd⟩ := repTree_zip.1 w.rep
  exact ⟨_, ht.1, ht.2.1, rfl, w.keys a (by rw [inorder_zip]; simp)⟩

theorem At.rd {kf : Addr → K} {key : K} {h : Heap V} {hd : Addr} {k t}
    (w : At lt keyOf kf key h hd k t) : rdE hd (ctxEdge k) h = .ok (t.addr, h) :=
  (repTree_zip.1 w.rep).1.rd

theorem At.goL {kf : Addr → K} {key : K} {h : Heap V} {hd : Addr} {k a c l r} {n : Nat}
    (w : At lt keyOf kf key h hd k (.node a c l r)) (hlt : lt key (kf a) = true)
    (hr : ∀ x ∈ r.inorder, lt key (kf x) = true) :
    At lt keyOf kf key (h.tick n) hd (.L a c r :: k) l := by
  refine ⟨w.rep.tick n, w.keys, w.lo, ?_⟩
  intro x hx
  simp only [post, List.cons_append, List.mem_cons, List.mem_append] at hx
  rcases hx with rfl | hx | hx
  · exact hlt
  · exact hr x hx
  · exact w.hi x hx

theorem At.goR {kf : Addr → K} {key : K} {h : Heap V} {hd : Addr} {k a c l r} {n : Nat}
    (w : At lt keyOf kf key h hd k (.node a c l r)) (hlt : lt (kf a) key = true)
    (hl : ∀ x ∈ l.inorder, lt (kf x) key = true) :
    At lt keyOf kf key (h.tick n) hd (.R a c l :: k) r := by
  refine ⟨w.rep.tick n, w.keys, ?_, w.hi⟩
  intro x hx
  simp only [pre, List.mem_append, List.mem_cons, List.not_mem_nil, or_false] at hx
  rcases hx with hx | hx | rfl
  · exact w.lo x hx
  · exact hl x hx
  · exact hlt

/-- Strictly sorted by key. -/
abbrev SortedBy (lt : K → K → Bool) (kf : Addr → K) (l : List Addr) : Prop :=
  l.Pairwise fun x y => lt (kf x) (kf y) = true

theorem sorted_node {kf : Addr → K} {a c l r} (hs : SortedBy lt kf (Tree.node a c l r).inorder) :
    (∀ x ∈ l.inorder, lt (kf x) (kf a) = true) ∧ (∀ x ∈ r.inorder, lt (kf a) (kf x) = true) ∧
    SortedBy lt kf l.inorder ∧ SortedBy lt kf r.inorder := by
  simp only [SortedBy, inorder_node, List.pairwise_append, List.pairwise_cons, List.mem_cons] at hs ⊢
  exact ⟨fun x hx => hs.2.2 x hx a (Or.inl rfl), hs.2.1.1, hs.1, hs.2.1.2⟩

/-- The search loop of `insert_unique`. -/
theorem insUqLoop_spec (ho : StrictTotalOrder lt) {kf : Addr → K} {key : K} {h : Heap V} {hd : Addr}
    {k : List Frame} {t : Tree} (w : At lt keyOf kf key h hd k t) (hs : SortedBy lt kf t.inorder) :
    ∃ n, n ≤ t.height ∧
    ((∃ x ∈ t.inorder, kf x = key ∧
        insUqLoop lt keyOf hd key (ctxEdge k) (ctxParent hd k) h = .ok (.inl x, h.tick n)) ∨
     (∃ k', zip k' leaf = zip k t ∧ At lt keyOf kf key (h.tick n) hd k' leaf ∧
        insUqLoop lt keyOf hd key (ctxEdge k) (ctxParent hd k) h =
          .ok (.inr (ctxEdge k', ctxParent hd k'), h.tick n))) := by
  induction t generalizing k h with
  | leaf =>
    refine ⟨0, Nat.zero_le _, Or.inr ⟨k, rfl, w, ?_⟩⟩
    rw [insUqLoop]
    simp [w.rd, tick_zero]
  | node a c l r ihl ihr =>
    obtain ⟨p, hn, ha, hp, v, hv, hkv⟩ := w.node
    obtain ⟨s1, s2, s3, s4⟩ := sorted_node hs
    have hrd := w.rd
    simp only [addr_node] at hrd
    rcases ho.trichotomy key (kf a) with hlt | heq | hgt
    · obtain ⟨n, hn1, hcase⟩ := ihl (w.goL (n := 1) hlt fun x hx => ho.trans _ _ _ hlt (s2 x hx)) s3
      have e : insUqLoop lt keyOf hd key (ctxEdge k) (ctxParent hd k) h =
          insUqLoop lt keyOf hd key (ctxEdge (.L a c r :: k)) (ctxParent hd (.L a c r :: k)) (h.tick 1) := by
        rw [insUqLoop]
        simp [hrd, ha, dataOf_eq hv, hkv, hlt]
      refine ⟨1 + n, by simp only [Tree.height]; omega, ?_⟩
      rw [e]
      rw [tick_tick] at hcase
      rcases hcase with ⟨x, hx, h1, h2⟩ | ⟨k', h1, h2, h3⟩
      · exact Or.inl ⟨x, by simp [hx], h1, h2⟩
      · exact Or.inr ⟨k', h1, h2, h3⟩
    · refine ⟨1, by simp only [Tree.height]; omega, Or.inl ⟨a, by simp, heq.symm, ?_⟩⟩
      rw [insUqLoop]
      simp [hrd, ha, dataOf_eq hv, hkv, heq, ho.irrefl]
    · obtain ⟨n, hn1, hcase⟩ := ihr (w.goR (n := 1) hgt fun x hx => ho.trans _ _ _ (s1 x hx) hgt) s4
      have hnl : lt key (kf a) = false := ho.asymm hgt
      have hne : key ≠ kf a := by rintro rfl; rw [ho.irrefl] at hgt; cases hgt
      have e : insUqLoop lt keyOf hd key (ctxEdge k) (ctxParent hd k) h =
          insUqLoop lt keyOf hd key (ctxEdge (.R a c l :: k)) (ctxParent hd (.R a c l :: k)) (h.tick 1) := by
        rw [insUqLoop]
        simp [hrd, ha, dataOf_eq hv, hkv, hnl, hne]
      refine ⟨1 + n, by simp only [Tree.height]; omega, ?_⟩
      rw [e]
      rw [tick_tick] at hcase
      rcases hcase with ⟨x, hx, h1, h2⟩ | ⟨k', h1, h2, h3⟩
      · exact Or.inl ⟨x, by simp [hx], h1, h2⟩
      · exact Or.inr ⟨k', h1, h2, h3⟩

end

/-! ## Linking a new node -/

/-- `rebalLoop` is `rebal`. -/
theorem rebalLoop_spec {h : Heap V} {hd : Addr} {k : List Frame} {t : Tree}
    (hr : RepTree h hd (zip k t)) :
    ∃ h', rebalLoop hd (ctxParent hd k) h = .ok ((), h') ∧ RepTree h' hd (rebal k t) ∧
      Upd (foot hd k t) h h' := by
  induction k generalizing t h with
  | nil =>
    refine ⟨h, ?_, hr, Upd.refl _ _⟩
    rw [rebalLoop]; simp [ctxParent]
  | cons f k ih =>
    have hne : f.addr ≠ hd := addr_ne_hd hr
    have hpl : f.plug t ≠ leaf := by cases f <;> simp
    obtain ⟨hc, ht, _, _⟩ := (repTree_zip (k := k) (t := f.plug t)).1 hr
    obtain ⟨k1, k2, k3, k4⟩ := ht.kids hpl
    rw [Frame.addr_plug] at k1
    rw [rebalLoop]
    rw [if_neg (show ctxParent hd (f :: k) ≠ hd from hne)]
    simp only [ctxParent, Prog.bind_app, nd_eq k1, Res.bind_ok, isRed_eq k3, isRed_eq k4, Prog.ite_app]
    unfold rebal
    split
    · next hcond =>
      obtain ⟨e1, ⟨n, e2, hn⟩, e3, h1, h2, e4, e5, r, u⟩ := step_fixup hr
      obtain ⟨h', e6, r', u'⟩ := ih r
      refine ⟨h', ?_, r', u.trans (u'.mono foot_fixup)⟩
      rw [nd_eq k1] at e2
      simp only [Res.ok.injEq, Prod.mk.injEq] at e2
      simp only [e1, Res.bind_ok, e3, e4, e5, nd_eq k1]
      exact e6
    · exact ⟨h, rfl, hr, Upd.refl _ _⟩

/-- Painting the root black. -/
theorem blackRoot_spec {h : Heap V} {hd : Addr} {t : Tree} (hr : RepTree h hd t) (ht : t ≠ leaf) :
    ∃ h', setColor t.addr BLACK h = .ok ((), h') ∧ RepTree h' hd (t.recolor BLACK) ∧
      Upd (hd :: t.inorder) h h' := by
  obtain ⟨r1, r2, r3, r4, r5⟩ := hr
  rcases t with _ | ⟨a, c, l, r⟩
  · exact absurd rfl ht
  obtain ⟨h1, h2, h3, h4⟩ := r1
  have hnd := r5
  simp only [inorder_node, List.nodup_append, List.nodup_cons, List.mem_cons] at hnd
  refine ⟨_, upd_eq _ h1, ⟨⟨setNode_node_self _ _ _, h2, h3.congr fun x hx => ?_, h4.congr fun x hx => ?_⟩,
    (setNode_node_ne _ _ ?_).trans r2, r3, r4, r5⟩, Upd.setNode _ h1 (by simp)⟩
  · exact setNode_node_ne _ _ (hnd.2.2 x hx a (Or.inl rfl))
  · exact setNode_node_ne _ _ (ne_of_mem hx hnd.2.1.1)
  · rintro rfl; exact r4 (by simp)

@[simp] theorem alloc_node (h : Heap V) (v : V) (x : Addr) :
    (h.alloc v).node x = if x = h.next then some (h.junk h.next) else h.node x := rfl
@[simp] theorem alloc_next (h : Heap V) (v : V) : (h.alloc v).next = h.next + 1 := rfl
@[simp] theorem alloc_cmps (h : Heap V) (v : V) : (h.alloc v).cmps = h.cmps := rfl
theorem alloc_data (h : Heap V) (v : V) (x : Addr) :
    (h.alloc v).data x = if x = h.next then some v else h.data x := rfl

@[simp] theorem newNode_app (h : Heap V) (v : V) : newNode v h = .ok (h.next, h.alloc v) := rfl

theorem rebal_ne {k : List Frame} {t : Tree} (ht : t ≠ leaf) : rebal k t ≠ leaf := by
  intro e
  have := congrArg Tree.inorder e
  rw [inorder_rebal, inorder_zip] at this
  rcases t with _ | ⟨a, c, l, r⟩
  · exact ht rfl
  · simp at this

/-- `new node`, linking and rebalancing. -/
theorem linkNew_spec {h : Heap V} {hd : Addr} {k : List Frame} (v : V)
    (hr : RepTree h hd (zip k leaf)) (hlt : ∀ x ∈ ctxNodes hd k, x < h.next) :
    ∃ h', linkNew hd v (ctxEdge k) (ctxParent hd k) h = .ok (h.next, h') ∧
      RepTree h' hd ((rebal k (.node h.next RED leaf leaf)).recolor BLACK) ∧
      Upd (h.next :: ctxNodes hd k) (h.alloc v) h' := by
  obtain ⟨hc, _, hne, hnd⟩ := repTree_zip.1 hr
  have hnd : (ctxNodes hd k).Nodup := by simpa using hnd
  have hn0 : h.next ≠ 0 := by
    have := hlt hd (mem_ctxNodes.2 (Or.inl rfl))
    exact Nat.ne_of_gt (Nat.lt_of_le_of_lt (Nat.zero_le _) this)
  have hfresh : h.next ∉ ctxNodes hd k := fun hm => Nat.lt_irrefl _ (hlt _ hm)
  -- new node, setParent
  let n := h.next
  let h1 := h.alloc v
  have g1 : h1.node n = some (h.junk n) := by simp [h1, n]
  let h2 := h1.setNode n { h.junk n with parent := ctxParent hd k }
  have hc2 : RepCtx h2 hd k leaf.addr := hc.congr fun y hy => by
    have : y ≠ n := ne_of_mem hy hfresh
    have hy2 : y ≠ h.next := this
    simp only [h2, h1, setNode_node, if_neg this, alloc_node, if_neg hy2]
  obtain ⟨h3, e3, r3, u3⟩ := hc2.wr hnd n
  have hpn : n ∉ [ctxParent hd k] := by
    simp only [List.mem_singleton]
    intro e
    have := ctxParent_mem hd k
    rw [← e] at this
    exact hfresh this
  have g3 : h3.node n = some { h.junk n with parent := ctxParent hd k } := by
    rw [u3.node n hpn]; simp [h2]
  -- colour, right, left
  let h4 := h3.setNode n ⟨ctxParent hd k, (h.junk n).left, (h.junk n).right, RED⟩
  let h5 := h4.setNode n ⟨ctxParent hd k, (h.junk n).left, 0, RED⟩
  let h6 := h5.setNode n ⟨ctxParent hd k, 0, 0, RED⟩
  have g4 : h4.node n = some ⟨ctxParent hd k, (h.junk n).left, (h.junk n).right, RED⟩ := by simp [h4]
  have g5 : h5.node n = some ⟨ctxParent hd k, (h.junk n).left, 0, RED⟩ := by simp [h5]
  have g6 : h6.node n = some ⟨ctxParent hd k, 0, 0, RED⟩ := by simp [h6]
  have keep : ∀ {hh : Heap V} {rec : RbNode}, RepCtx hh hd k n → RepCtx (hh.setNode n rec) hd k n :=
    fun hx => hx.congr fun y hy => setNode_node_ne _ _ (ne_of_mem hy hfresh)
  have r4 : RepCtx h4 hd k n := keep r3
  have r5 : RepCtx h5 hd k n := keep r4
  have r6 : RepCtx h6 hd k n := keep r5
  have R6 : RepTree h6 hd (zip k (.node n RED leaf leaf)) := by
    refine repTree_zip.2 ⟨r6, ⟨g6, hn0, trivial, trivial⟩, hne, ?_⟩
    simp only [inorder_node, inorder_leaf, List.nil_append, List.cons_append, List.nodup_cons]
    exact ⟨hfresh, hnd⟩
  obtain ⟨h7, e7, R7, u7⟩ := rebalLoop_spec R6
  have hnl := rebal_ne (k := k) (t := .node n RED leaf leaf) (by simp)
  obtain ⟨h8, e8, R8, u8⟩ := blackRoot_spec R7 hnl
  have hS : n ∈ n :: ctxNodes hd k := by simp
  refine ⟨h8, ?_, R8, ?_⟩
  · unfold linkNew insertRebalance setParent setColor setRight setLeft
    simp only [Prog.bind_app, Res.bind_ok, newNode_app]
    change ((upd n _ h1).bind _) = _
    rw [upd_eq _ g1]
    simp only [Res.bind_ok]
    change ((wrE hd (ctxEdge k) n h2).bind _) = _
    rw [e3]
    simp only [Res.bind_ok, r3.rd]
    rw [upd_eq _ g3]
    simp only [Res.bind_ok]
    change (((rdE hd (ctxEdge k) h4).bind _).bind _) = _
    simp only [Res.bind_ok, r4.rd]
    rw [upd_eq _ g4]
    simp only [Res.bind_ok]
    change (((rdE hd (ctxEdge k) h5).bind _).bind _) = _
    simp only [Res.bind_ok, r5.rd]
    rw [upd_eq _ g5]
    simp only [Res.bind_ok]
    change ((((rebalLoop hd (ctxParent hd k) h6).bind _).bind _)) = _
    rw [e7]
    simp only [Res.bind_ok, root_of_zip R7]
    unfold setColor at e8
    rw [e8]
    rfl
  · have a1 : Upd (n :: ctxNodes hd k) h1 h2 := Upd.setNode _ g1 hS
    have a2 : Upd (n :: ctxNodes hd k) h2 h3 := u3.mono fun x hx => by
      simp only [List.mem_singleton] at hx; subst hx; simp [ctxParent_mem]
    have a3 : Upd (n :: ctxNodes hd k) h3 h4 := Upd.setNode _ g3 hS
    have a4 : Upd (n :: ctxNodes hd k) h4 h5 := Upd.setNode _ g4 hS
    have a5 : Upd (n :: ctxNodes hd k) h5 h6 := Upd.setNode _ g5 hS
    have a6 : Upd (n :: ctxNodes hd k) h6 h7 := u7.mono fun x hx => by
      simpa [foot] using hx
    have a7 : Upd (n :: ctxNodes hd k) h7 h8 := u8.mono fun x hx => by
      rw [inorder_rebal, ← (perm_zip hd k (.node n RED leaf leaf)).mem_iff] at hx
      simpa using hx
    exact (((((a1.trans a2).trans a3).trans a4).trans a5).trans a6).trans a7

end Verif.Rb
