import Verif.Rb.Local
/-!
# Focus on a subtree of a represented tree

Proof machinery: splitting "the heap holds `zip k t`" into the context `k` and the focus `t`, reading
and writing the edge between them, and the climbing loops.
-/
set_option linter.unusedSimpArgs false
namespace Verif.Rb
open Verif Tree
variable {V : Type}

/-- The heap holds the context `k`, with `x` in its hole. -/
def RepCtx (h : Heap V) (hd : Addr) : List Frame → Addr → Prop
  | [], x => h.node hd = some ⟨x, 0, 0, RED⟩
  | .L a c r :: k, x => h.node a = some ⟨ctxParent hd k, x, r.addr, c⟩ ∧ a ≠ 0 ∧ Rep h r a ∧
      RepCtx h hd k a
  | .R a c l :: k, x => h.node a = some ⟨ctxParent hd k, l.addr, x, c⟩ ∧ a ≠ 0 ∧ Rep h l a ∧
      RepCtx h hd k a

/-- Nodes of a context, header included. -/
def ctxNodes (hd : Addr) : List Frame → List Addr
  | [] => [hd]
  | .L a _ r :: k => a :: (r.inorder ++ ctxNodes hd k)
  | .R a _ l :: k => a :: (l.inorder ++ ctxNodes hd k)

theorem mem_ctxNodes {hd x : Addr} {k : List Frame} :
    x ∈ ctxNodes hd k ↔ x = hd ∨ x ∈ pre k ∨ x ∈ post k := by
  induction k with
  | nil => simp [ctxNodes, pre, post]
  | cons f k ih =>
    cases f <;> simp [ctxNodes, pre, post, ih] <;> grind

theorem ctxParent_mem (hd : Addr) (k : List Frame) : ctxParent hd k ∈ ctxNodes hd k := by
  rcases k with _ | ⟨f, k⟩
  · simp [ctxParent, ctxNodes]
  · cases f <;> simp [ctxParent, ctxNodes]

theorem repZip_iff {h : Heap V} {hd : Addr} {k : List Frame} {t : Tree} :
    (Rep h (zip k t) hd ∧ h.node hd = some ⟨(zip k t).addr, 0, 0, RED⟩) ↔
      (RepCtx h hd k t.addr ∧ Rep h t (ctxParent hd k)) := by
  induction k generalizing t with
  | nil => simp [RepCtx, ctxParent]; exact And.comm
  | cons f k ih =>
    rw [zip_cons, ih]
    cases f <;> simp [RepCtx, ctxParent, Rep] <;> grind

/-- All the nodes of `zip k t` and the header are distinct. -/
theorem perm_zip (hd : Addr) (k : List Frame) (t : Tree) :
    (t.inorder ++ ctxNodes hd k).Perm (hd :: (zip k t).inorder) := by
  induction k generalizing t with
  | nil => simp only [ctxNodes, zip_nil]; exact List.perm_append_singleton _ _
  | cons f k ih =>
    rw [zip_cons]
    refine List.Perm.trans ?_ (ih _)
    cases f with
    | L a c r => simp [ctxNodes]
    | R a c l =>
      simp only [ctxNodes, Frame.plug_R, inorder_node, List.append_assoc, List.cons_append]
      refine List.Perm.trans (List.perm_middle) ?_
      refine List.Perm.trans ?_ (List.perm_middle).symm
      refine List.Perm.cons _ ?_
      rw [← List.append_assoc, ← List.append_assoc]
      exact List.Perm.append_right _ List.perm_append_comm

/-- Splitting a represented tree at a focus. -/
theorem repTree_zip {h : Heap V} {hd : Addr} {k : List Frame} {t : Tree} :
    RepTree h hd (zip k t) ↔ (RepCtx h hd k t.addr ∧ Rep h t (ctxParent hd k) ∧ hd ≠ 0 ∧
      (t.inorder ++ ctxNodes hd k).Nodup) := by
  have hp := (perm_zip hd k t).nodup_iff
  rw [hp, List.nodup_cons]
  constructor
  · rintro ⟨h1, h2, h3, h4, h5⟩
    obtain ⟨a, b⟩ := repZip_iff.1 ⟨h1, h2⟩
    exact ⟨a, b, h3, h4, h5⟩
  · rintro ⟨h1, h2, h3, h4, h5⟩
    obtain ⟨a, b⟩ := repZip_iff.2 ⟨h1, h2⟩
    exact ⟨a, b, h3, h4, h5⟩

theorem RepCtx.congr {h h' : Heap V} {hd : Addr} {k : List Frame} {x : Addr} (hr : RepCtx h hd k x)
    (hag : ∀ y ∈ ctxNodes hd k, h'.node y = h.node y) : RepCtx h' hd k x := by
  induction k generalizing x with
  | nil => exact (hag hd (by simp [ctxNodes])).trans hr
  | cons f k ih =>
    cases f <;>
    · obtain ⟨h1, h2, h3, h4⟩ := hr
      refine ⟨(hag _ (by simp [ctxNodes])).trans h1, h2, h3.congr fun y hy => hag y ?_,
        ih h4 fun y hy => hag y ?_⟩ <;> simp [ctxNodes, hy]

theorem RepCtx.rd {h : Heap V} {hd : Addr} {k : List Frame} {x : Addr} (hr : RepCtx h hd k x) :
    rdE hd (ctxEdge k) h = .ok (x, h) := by
  rcases k with _ | ⟨f, k⟩
  · simp [ctxEdge, rdE, nd_eq hr]
  · cases f <;> simp [ctxEdge, rdE, nd_eq hr.1]

theorem RepCtx.rootLive {h : Heap V} {hd : Addr} {k : List Frame} {x : Addr} (hr : RepCtx h hd k x) :
    h.node hd = some ⟨(zip k (.node x RED .leaf .leaf)).addr, 0, 0, RED⟩ := by
  suffices ∀ t : Tree, t.addr = x → h.node hd = some ⟨(zip k t).addr, 0, 0, RED⟩ from this _ rfl
  induction k generalizing x with
  | nil => rintro t rfl; exact hr
  | cons f k ih =>
    intro t _
    cases f <;> exact ih hr.2.2.2 _ rfl

/-- Writing the edge replaces the address in the hole. -/
theorem RepCtx.wr {h : Heap V} {hd : Addr} {k : List Frame} {x : Addr} (hr : RepCtx h hd k x)
    (hnd : (ctxNodes hd k).Nodup) (y : Addr) :
    ∃ h', wrE hd (ctxEdge k) y h = .ok ((), h') ∧ RepCtx h' hd k y ∧ Upd [ctxParent hd k] h h' := by
  rcases k with _ | ⟨f, k⟩
  · exact ⟨_, upd_eq _ hr, setNode_node_self _ _ _, Upd.setNode _ hr (by simp [ctxParent])⟩
  · cases f with
    | L a c r =>
      obtain ⟨h1, h2, h3, h4⟩ := hr
      simp only [ctxNodes, List.nodup_cons, List.mem_append, not_or] at hnd
      refine ⟨_, upd_eq _ h1, ⟨setNode_node_self _ _ _, h2, h3.congr fun z hz => ?_,
        h4.congr fun z hz => ?_⟩, Upd.setNode _ h1 (by simp [ctxParent])⟩
      · exact setNode_node_ne _ _ (ne_of_mem hz hnd.1.1)
      · exact setNode_node_ne _ _ (ne_of_mem hz hnd.1.2)
    | R a c r =>
      obtain ⟨h1, h2, h3, h4⟩ := hr
      simp only [ctxNodes, List.nodup_cons, List.mem_append, not_or] at hnd
      refine ⟨_, upd_eq _ h1, ⟨setNode_node_self _ _ _, h2, h3.congr fun z hz => ?_,
        h4.congr fun z hz => ?_⟩, Upd.setNode _ h1 (by simp [ctxParent])⟩
      · exact setNode_node_ne _ _ (ne_of_mem hz hnd.1.1)
      · exact setNode_node_ne _ _ (ne_of_mem hz hnd.1.2)

theorem nodup_right {α : Type} {l m : List α} (h : (l ++ m).Nodup) : m.Nodup :=
  (List.nodup_append.1 h).2.1
theorem nodup_left {α : Type} {l m : List α} (h : (l ++ m).Nodup) : l.Nodup :=
  (List.nodup_append.1 h).1
theorem nodup_disj {α : Type} {l m : List α} (h : (l ++ m).Nodup) {x : α} (hx : x ∈ l) : x ∉ m :=
  fun hm => (List.nodup_append.1 h).2.2 x hx x hm rfl

/-- Everything that may be touched when working on `zip k t`. -/
abbrev foot (hd : Addr) (k : List Frame) (t : Tree) : List Addr := t.inorder ++ ctxNodes hd k

/-- `*e = f(*e)` at the focus. -/
theorem step_local {h : Heap V} {hd : Addr} {k : List Frame} {t t' : Tree}
    {f : Addr → Prog (Heap V) Addr} (hf : Local f t t') (hin : t'.inorder = t.inorder)
    (hr : RepTree h hd (zip k t)) :
    ∃ h1 h', f t.addr h = .ok (t'.addr, h1) ∧ wrE hd (ctxEdge k) t'.addr h1 = .ok ((), h') ∧
      RepTree h' hd (zip k t') ∧ Upd (foot hd k t) h h' := by
  obtain ⟨hc, ht, hne, hnd⟩ := repTree_zip.1 hr
  obtain ⟨h1, e1, r1, u1⟩ := hf h _ ht (nodup_left hnd)
  have hc1 : RepCtx h1 hd k t.addr := hc.congr fun y hy => u1.node y fun hy' => nodup_disj hnd hy' hy
  obtain ⟨h2, e2, r2, u2⟩ := hc1.wr (nodup_right hnd) t'.addr
  refine ⟨h1, h2, e1, e2, repTree_zip.2 ⟨r2, r1.congr fun x hx => u2.node x ?_, hne, by rw [hin]; exact hnd⟩,
    (u1.mono fun x hx => by simp [foot, hx]).trans (u2.mono fun x hx => ?_)⟩
  · rw [hin] at hx
    have := nodup_disj hnd hx
    simp only [List.mem_singleton]
    rintro rfl
    exact this (ctxParent_mem _ _)
  · simp only [List.mem_singleton] at hx
    subst hx
    simp [foot, ctxParent_mem]

theorem root_of_zip {h : Heap V} {hd : Addr} {t : Tree} (hr : RepTree h hd t) :
    rootOf hd h = .ok (t.addr, h) := by
  simp [rootOf, nd_eq hr.header]

theorem zip_addr_mem (k : List Frame) (f : Frame) (t : Tree) :
    (zip (f :: k) t).addr ∈ ctxNodes 0 (f :: k) := by
  induction k generalizing f t with
  | nil => cases f <;> simp [ctxNodes]
  | cons g k ih =>
    rw [zip_cons]
    have := ih g (f.plug t)
    cases f
    · exact List.mem_cons_of_mem _ (List.mem_append_right _ this)
    · exact List.mem_cons_of_mem _ (List.mem_append_right _ this)

/-- The edge leading to the innermost node of a context. -/
theorem edgeOf_ctx {h : Heap V} {hd : Addr} {f : Frame} {k : List Frame} {t : Tree}
    (hr : RepTree h hd (zip (f :: k) t)) : edgeOf hd f.addr h = .ok (ctxEdge k, h) := by
  obtain ⟨hc, ht, hne, hnd⟩ := (repTree_zip (k := k) (t := f.plug t)).1 hr
  have hroot : rootOf hd h = .ok ((zip k (f.plug t)).addr, h) := root_of_zip hr
  have haddr : (f.plug t).addr = f.addr := Frame.addr_plug f t
  rcases k with _ | ⟨g, k⟩
  · simp [edgeOf, hroot, haddr, ctxEdge]
  · have hfa : f.addr ∈ (f.plug t).inorder := by cases f <;> simp
    have hfn := nodup_disj hnd hfa
    have hne2 : f.addr ≠ (zip k (g.plug (f.plug t))).addr := by
      intro e
      apply hfn
      rw [e]
      have := zip_addr_mem k g (f.plug t)
      rw [mem_ctxNodes] at this ⊢
      rw [zip_cons] at this
      rcases this with h0 | h0
      · exfalso
        have hz := hr.rep.zero_not
        rw [inorder_zip] at hz
        rw [← e] at h0
        have : f.addr ∈ pre (f :: g :: k) ++ (t.inorder ++ post (f :: g :: k)) := by
          cases f <;> simp [pre, post]
        rw [h0] at this
        exact hz this
      · exact Or.inr h0
    have hf0 : h.node f.addr = some ⟨g.addr, (f.plug t).left.addr, (f.plug t).right.addr, (f.plug t).red⟩ := by
      have := (ht.kids (by cases f <;> simp)).1
      rw [haddr] at this
      exact this
    have hcg := hc
    cases g with
    | L a c r =>
      simp only [RepCtx] at hcg
      simp only [Frame.plug_L] at hne2
      simp [edgeOf, hroot, zip_cons, hne2, nd_eq hf0, nd_eq hcg.1, haddr, ctxEdge]
    | R a c l =>
      simp only [RepCtx] at hcg
      have : f.addr ≠ l.addr := by
        intro e
        cases l with
        | leaf =>
          have hz := ht.kids (by cases f <;> simp)
          rw [haddr, e] at hz
          exact hz.2.1 rfl
        | node b cb l1 r1 =>
          apply hfn
          rw [e]
          simp [ctxNodes]
      simp only [Frame.plug_R] at hne2
      simp [edgeOf, hroot, zip_cons, hne2, nd_eq hf0, nd_eq hcg.1, haddr, ctxEdge, this]

/-- Pure counterpart of the climbing loops: `fixup` at every node of the path. -/
def climb : List Frame → Tree → Tree
  | [], t => t
  | f :: k, t => climb k (f.plug t).fixup

@[simp] theorem climb_nil (t) : climb [] t = t := rfl
@[simp] theorem climb_cons (f k t) : climb (f :: k) t = climb k (f.plug t).fixup := rfl
theorem climb_append (k1 k2 : List Frame) (t : Tree) : climb (k1 ++ k2) t = climb k2 (climb k1 t) := by
  induction k1 generalizing t with
  | nil => rfl
  | cons f k ih => simp [ih]

theorem inorder_climb (k : List Frame) (t : Tree) : (climb k t).inorder = (zip k t).inorder := by
  induction k generalizing t with
  | nil => rfl
  | cons f k ih => rw [climb_cons, ih, zip_cons, inorder_zip, inorder_zip, inorder_fixup]

/-- One `e = edge(parent); *e = fixup(*e)` round. -/
theorem step_fixup {h : Heap V} {hd : Addr} {f : Frame} {k : List Frame} {t : Tree}
    (hr : RepTree h hd (zip (f :: k) t)) :
    edgeOf hd f.addr h = .ok (ctxEdge k, h) ∧
    (∃ n, nd f.addr h = .ok (n, h) ∧ n.parent = ctxParent hd k) ∧
    rdE hd (ctxEdge k) h = .ok (f.addr, h) ∧
    ∃ h1 h', fixup f.addr h = .ok ((f.plug t).fixup.addr, h1) ∧
      wrE hd (ctxEdge k) (f.plug t).fixup.addr h1 = .ok ((), h') ∧
      RepTree h' hd (zip k (f.plug t).fixup) ∧ Upd (foot hd (f :: k) t) h h' := by
  have hne : f.plug t ≠ leaf := by cases f <;> simp
  obtain ⟨hc, ht, _, _⟩ := (repTree_zip (k := k) (t := f.plug t)).1 hr
  obtain ⟨h1, h2, e1, e2, r, u⟩ := step_local (k := k) (local_fixup hne) (inorder_fixup _) (by rw [← zip_cons]; exact hr)
  refine ⟨edgeOf_ctx hr, ⟨⟨ctxParent hd k, (f.plug t).left.addr, (f.plug t).right.addr, (f.plug t).red⟩,
    nd_eq ?_, rfl⟩, ?_, h1, h2, ?_, e2, r, u.mono ?_⟩
  · have := (ht.kids hne).1
    rw [Frame.addr_plug] at this
    exact this
  · have := hc.rd
    rw [Frame.addr_plug] at this
    exact this
  · rw [Frame.addr_plug] at e1; exact e1
  · intro x hx
    cases f <;> simp [foot, ctxNodes] at hx ⊢ <;> grind

theorem foot_fixup {hd : Addr} {f : Frame} {k : List Frame} {t : Tree} :
    ∀ x ∈ foot hd k (f.plug t).fixup, x ∈ foot hd (f :: k) t := by
  intro x hx
  simp only [foot, inorder_fixup] at hx
  cases f <;> simp [foot, ctxNodes] at hx ⊢ <;> grind

theorem addr_ne_hd {h : Heap V} {hd : Addr} {f : Frame} {k : List Frame} {t : Tree}
    (hr : RepTree h hd (zip (f :: k) t)) : f.addr ≠ hd := by
  intro e
  have := hr.hd_not
  rw [inorder_zip] at this
  apply this
  rw [← e]
  cases f <;> simp [pre, post]

/-- `climbLoop` runs `fixup` along the whole path. -/
theorem climbLoop_spec {h : Heap V} {hd : Addr} {k : List Frame} {t : Tree}
    (hr : RepTree h hd (zip k t)) :
    ∃ h', climbLoop hd (ctxParent hd k) h = .ok ((), h') ∧ RepTree h' hd (climb k t) ∧
      Upd (foot hd k t) h h' := by
  induction k generalizing t h with
  | nil =>
    refine ⟨h, ?_, hr, Upd.refl _ _⟩
    rw [climbLoop]; simp [ctxParent]
  | cons f k ih =>
    obtain ⟨e1, ⟨n, e2, hn⟩, e3, h1, h2, e4, e5, r, u⟩ := step_fixup hr
    obtain ⟨h', e6, r', u'⟩ := ih r
    refine ⟨h', ?_, r', u.trans (u'.mono foot_fixup)⟩
    rw [climbLoop]
    have hne : f.addr ≠ hd := addr_ne_hd hr
    rw [if_neg (show ctxParent hd (f :: k) ≠ hd from hne)]
    simp only [ctxParent, Prog.bind_app, Res.bind_ok, e1, e2, e3, e4, e5, hn, Prog.ite_app]
    exact e6

theorem addr_mem_ctxNodes (hd : Addr) (k1 : List Frame) (g : Frame) (k : List Frame) :
    g.addr ∈ ctxNodes hd (k1 ++ g :: k) := by
  induction k1 with
  | nil => cases g <;> simp [ctxNodes]
  | cons f' k1 ih => cases f' <;> simp [ctxNodes, ih]

/-- `dmUp` runs `fixup` along the inner part of the path. -/
theorem dmUp_spec {h : Heap V} {hd : Addr} {k1 k : List Frame} {t : Tree}
    (hr : RepTree h hd (zip (k1 ++ k) t)) :
    ∃ h', dmUp hd (ctxEdge k) (ctxEdge (k1 ++ k)) (ctxParent hd (k1 ++ k)) h = .ok ((), h') ∧
      RepTree h' hd (zip k (climb k1 t)) ∧ Upd (foot hd (k1 ++ k) t) h h' := by
  induction k1 generalizing t h with
  | nil =>
    refine ⟨h, ?_, hr, Upd.refl _ _⟩
    rw [dmUp]; simp
  | cons f k1 ih =>
    obtain ⟨e1, ⟨n, e2, hn⟩, e3, h1, h2, e4, e5, r, u⟩ := step_fixup hr
    obtain ⟨h', e6, r', u'⟩ := ih r
    refine ⟨h', ?_, r', u.trans (u'.mono foot_fixup)⟩
    have hne : ctxEdge k ≠ ctxEdge (f :: k1 ++ k) := by
      intro e
      obtain ⟨_, _, _, hnd⟩ := repTree_zip.1 hr
      have hnd := nodup_right hnd
      have hfa : f.addr ∉ ctxNodes hd (k1 ++ k) := by
        cases f <;> simp [ctxNodes] at hnd ⊢ <;> grind
      have key : ∀ g k', k = g :: k' → g.addr ∈ ctxNodes hd (k1 ++ k) := by
        rintro g k' rfl
        exact addr_mem_ctxNodes hd k1 g k'
      rcases k with _ | ⟨g, k⟩
      · cases f <;> simp [ctxEdge] at e
      · have := key g k rfl
        cases f <;> cases g <;> simp [ctxEdge] at e <;> subst e <;> exact hfa this
    rw [dmUp]
    have : f :: k1 ++ k = f :: (k1 ++ k) := rfl
    rw [if_neg hne]
    simp only [Prog.bind_app, this, ctxParent, Res.bind_ok, e1, e2, e3, e4, e5, hn,
      Prog.ite_app]
    exact e6

end Verif.Rb
