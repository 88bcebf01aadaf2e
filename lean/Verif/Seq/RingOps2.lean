import Verif.Seq.RingOps
/-!
# Members of `ttl::list` that move nodes: splice, swap, reverse, merge
-/
set_option linter.unusedVariables false
set_option linter.unusedSimpArgs false
namespace Verif.Seq.DList
open Verif Verif.Seq
variable {T : Type}

/-- Only `next` and `prev` of cells in `C` changed. -/
structure Relink (C : Addr → Prop) (h h' : Heap T) : Prop where
  val : h'.val = h.val
  live : h'.live = h.live
  tail : h'.tail = h.tail
  fresh : h'.fresh = h.fresh
  next : ∀ x, ¬ C x → h'.next x = h.next x
  prev : ∀ x, ¬ C x → h'.prev x = h.prev x

theorem Relink.wf {C : Addr → Prop} {h h' : Heap T} (k : Relink C h h') (w : Wf h) : Wf h' :=
  ⟨by rw [k.fresh]; exact w.pos, by rw [k.live]; exact w.null, by rw [k.live, k.fresh]; exact w.used⟩

theorem Relink.effect {C C' : Addr → Prop} {h h' : Heap T} (k : Relink C h h') (w : Wf h) (e : ∀ x, C x ↔ C' x) :
    Effect C C' h h' := by
  refine ⟨?_, ?_, ?_, ?_, k.wf w, Nat.le_of_eq k.fresh.symm⟩
  · intro x hx _ _; exact ⟨k.next x hx, k.prev x hx, by rw [k.tail], by rw [k.val], by rw [k.live]⟩
  · intro x _ _ l; rw [k.live]; exact l
  · intro x h1 h2; exact absurd ((e x).2 h2) h1
  · intro x h1 h2; exact absurd ((e x).1 h1) h2

theorem Relink.trans {C : Addr → Prop} {h h' h'' : Heap T} (a : Relink C h h') (b : Relink C h' h'') : Relink C h h'' :=
  ⟨b.val.trans a.val, b.live.trans a.live, b.tail.trans a.tail, b.fresh.trans a.fresh,
    fun x hx => (b.next x hx).trans (a.next x hx), fun x hx => (b.prev x hx).trans (a.prev x hx)⟩

theorem Relink.refl {C : Addr → Prop} {h : Heap T} : Relink C h h :=
  ⟨rfl, rfl, rfl, rfl, fun _ _ => rfl, fun _ _ => rfl⟩

theorem Relink.mono {C D : Addr → Prop} {h h' : Heap T} (k : Relink C h h') (e : ∀ x, C x → D x) : Relink D h h' :=
  ⟨k.val, k.live, k.tail, k.fresh, fun x hx => k.next x (fun q => hx (e x q)), fun x hx => k.prev x (fun q => hx (e x q))⟩

theorem Ring.relink {C : Addr → Prop} {h h' : Heap T} (k : Relink C h h') {c : Addr} {es : List (Addr × T)}
    (lc : h.live c = true) (vc : h.val c = none) (nd : (c :: es.map Prod.fst).Nodup)
    (d : ∀ e ∈ es, h.live e.1 = true ∧ h.val e.1 = some e.2) (ln : Links h' c (es.map Prod.fst)) : Ring h' c es :=
  ⟨by rw [k.live]; exact lc, by rw [k.val]; exact vc, ln, nd, fun e he => by rw [k.live, k.val]; exact d e he⟩

/-- Untouched list. -/
theorem Relink.ring {C : Addr → Prop} {h h' : Heap T} (k : Relink C h h') {c : Addr} {es : List (Addr × T)}
    (r : Ring h c es) (hd : ∀ x ∈ cells c es, ¬ C x) : Ring h' c es :=
  r.frame fun x hx => ⟨k.next x (hd x hx), k.prev x (hd x hx), by rw [k.tail], by rw [k.val], by rw [k.live]⟩

/-! ## splice -/

theorem spl_relink (h : Heap T) (p f l : Addr) (C : Addr → Prop) (hp : C p) (hf : C f) (hl : C l) (hp' : C (h.prev p))
    (hf' : C (h.prev f)) (hl' : C (h.prev l)) : Relink C h (spl h p f l) := by
  refine ⟨rfl, rfl, rfl, rfl, ?_, ?_⟩
  · intro x hx
    have q1 : x ≠ h.prev p := fun q => hx (q ▸ hp')
    have q2 : x ≠ h.prev f := fun q => hx (q ▸ hf')
    have q3 : x ≠ h.prev l := fun q => hx (q ▸ hl')
    simp [spl, upd, q1, q2, q3]
  · intro x hx
    have q1 : x ≠ p := fun q => hx (q ▸ hp)
    have q2 : x ≠ f := fun q => hx (q ▸ hf)
    have q3 : x ≠ l := fun q => hx (q ▸ hl)
    simp [spl, upd, q1, q2, q3]

theorem Ring.pos_cells {h : Heap T} {c : Addr} {A B : List (Addr × T)} (r : Ring h c (A ++ B)) :
    posOf c (B.map Prod.fst) ∈ cells c (A ++ B) ∧ h.prev (posOf c (B.map Prod.fst)) ∈ cells c (A ++ B) := by
  have hl : Links h c (A.map Prod.fst ++ B.map Prod.fst) := by have := r.links; rwa [List.map_append] at this
  constructor
  · cases B <;> simp [cells]
  · have := hl.prev_pos; simp only [cells, List.mem_cons, List.map_append, List.mem_append] at this ⊢; grind

/-- Splicing a non-empty range of one list into another list. -/
theorem splice_two {h : Heap T} {c d : Addr} {A B P Q : List (Addr × T)} {f : Addr × T} {M : List (Addr × T)}
    (r : Ring h c (A ++ B)) (s : Ring h d (P ++ ((f :: M) ++ Q)))
    (hd : ∀ x ∈ cells c (A ++ B), x ∉ cells d (P ++ ((f :: M) ++ Q))) :
    ∃ h', nodeSplice (posOf c (B.map Prod.fst)) f.1 (posOf d (Q.map Prod.fst)) h = .ok ((), h') ∧
      Ring h' c (A ++ ((f :: M) ++ B)) ∧ Ring h' d (P ++ Q) ∧
      Relink (fun x => x ∈ cells c (A ++ B) ∨ x ∈ cells d (P ++ ((f :: M) ++ Q))) h h' := by
  have s' : Ring h d ((P ++ (f :: M)) ++ Q) := by simpa using s
  obtain ⟨m1, m2⟩ := r.pos_cells
  obtain ⟨m3, m4⟩ := s'.pos_cells
  obtain ⟨m5, m6⟩ := s.pos_cells (A := P) (B := (f :: M) ++ Q)
  have e0 : posOf d (((f :: M) ++ Q).map Prod.fst) = f.1 := rfl
  rw [e0] at m5 m6
  have e1 : cells d (P ++ (f :: M) ++ Q) = cells d (P ++ (f :: M ++ Q)) := by simp
  rw [e1] at m3 m4
  have rl := spl_relink h (posOf c (B.map Prod.fst)) f.1 (posOf d (Q.map Prod.fst))
    (fun x => x ∈ cells c (A ++ B) ∨ x ∈ cells d (P ++ ((f :: M) ++ Q))) (.inl m1) (.inr m5) (.inr m3) (.inl m2) (.inr m6) (.inr m4)
  have n1 := r.nodup; have n2 := s.nodup
  have ll := spl_links_two (h := h) (c := c) (d := d) (A := A.map Prod.fst) (B := B.map Prod.fst) (P := P.map Prod.fst)
    (M := (f :: M).map Prod.fst) (Q := Q.map Prod.fst) (f := f.1) (M' := M.map Prod.fst)
    (by have := r.links; rwa [List.map_append] at this)
    (by have := s.links; rwa [List.map_append, List.map_append] at this) rfl (by
      rw [List.nodup_append]
      refine ⟨by simpa using n1, by simpa using n2, ?_⟩
      intro x hx y hy q
      subst q
      exact hd x (by simpa [cells] using hx) (by simpa [cells] using hy))
  refine ⟨_, nodeSplice_eq (r.live _ m1) (s.live _ m5) (s.live _ m3) (r.live _ m2) (s.live _ m6) (s.live _ m4)
    (fun q => hd _ m1 (q ▸ m5)), ?_, ?_, rl⟩
  · refine Ring.relink rl r.head r.bare ?_ ?_ ?_
    · simp only [cells, List.map_append, List.map_cons, List.nodup_cons, List.mem_append, List.nodup_append, List.mem_cons] at n1 n2 hd ⊢
      grind
    · intro e he
      simp only [List.mem_append] at he
      rcases he with he | he | he
      · exact r.data e (by simp [he])
      · exact s.data e (by simp only [List.mem_append]; exact .inr (.inl he))
      · exact r.data e (by simp [he])
    · simpa using ll.1
  · refine Ring.relink rl s.head s.bare ?_ ?_ ?_
    · simp only [List.map_append, List.map_cons, List.nodup_cons, List.mem_append, List.nodup_append, List.mem_cons] at n2 ⊢
      grind
    · intro e he; exact s.data e (by simp only [List.mem_append] at he ⊢; grind)
    · simpa using ll.2

/-- Splicing a non-empty range forward within a list: `[f, g)` moves before the position behind it. -/
theorem splice_right {h : Heap T} {c : Addr} {A B M N : List (Addr × T)} {f g : Addr × T}
    (r : Ring h c (A ++ ((f :: M) ++ ((g :: N) ++ B)))) :
    ∃ h', nodeSplice (posOf c (B.map Prod.fst)) f.1 g.1 h = .ok ((), h') ∧
      Ring h' c (A ++ ((g :: N) ++ ((f :: M) ++ B))) ∧
      Relink (· ∈ cells c (A ++ ((f :: M) ++ ((g :: N) ++ B)))) h h' := by
  obtain ⟨m1, m2⟩ := r.pos_cells (A := A) (B := (f :: M) ++ ((g :: N) ++ B))
  obtain ⟨m3, m4⟩ := (show Ring h c ((A ++ (f :: M)) ++ ((g :: N) ++ B)) by simpa using r).pos_cells
  obtain ⟨m5, m6⟩ := (show Ring h c ((A ++ (f :: M) ++ (g :: N)) ++ B) by simpa using r).pos_cells
  have e1 : cells c ((A ++ (f :: M)) ++ ((g :: N) ++ B)) = cells c (A ++ ((f :: M) ++ ((g :: N) ++ B))) := by simp
  have e2 : cells c ((A ++ (f :: M) ++ (g :: N)) ++ B) = cells c (A ++ ((f :: M) ++ ((g :: N) ++ B))) := by simp
  rw [e1] at m3 m4; rw [e2] at m5 m6
  change f.1 ∈ _ at m1; change h.prev f.1 ∈ _ at m2; change g.1 ∈ _ at m3; change h.prev g.1 ∈ _ at m4
  have nd := r.nodup
  have rl := spl_relink h (posOf c (B.map Prod.fst)) f.1 g.1 (· ∈ cells c (A ++ ((f :: M) ++ ((g :: N) ++ B)))) m5 m1 m3 m6 m2 m4
  have ll := spl_links_right (h := h) (c := c) (A := A.map Prod.fst) (B := B.map Prod.fst)
    (M := (f :: M).map Prod.fst) (N := (g :: N).map Prod.fst) (f := f.1) (M' := M.map Prod.fst) (g := g.1) (N' := N.map Prod.fst)
    (by have := r.links; simpa using this) rfl rfl (by simpa using nd)
  have hne : f.1 ≠ posOf c (B.map Prod.fst) := by
    have m : posOf c (B.map Prod.fst) ∈ B.map Prod.fst ++ [c] := by cases B <;> simp
    intro q; rw [← q] at m
    simp only [List.map_append, List.map_cons, List.nodup_cons, List.mem_append, List.nodup_append, List.mem_cons] at nd m
    grind
  refine ⟨_, nodeSplice_eq (r.live _ m5) (r.live _ m1) (r.live _ m3) (r.live _ m6) (r.live _ m2) (r.live _ m4) hne, ?_, rl⟩
  refine Ring.relink rl r.head r.bare ?_ ?_ ?_
  · simp only [List.map_append, List.map_cons, List.nodup_cons, List.mem_append, List.nodup_append, List.mem_cons] at nd ⊢
    grind
  · intro e he; exact r.data e (by simp only [List.mem_append] at he ⊢; grind)
  · simpa using ll

/-- Splicing a non-empty range backward within a list. -/
theorem splice_left {h : Heap T} {c : Addr} {A B M N : List (Addr × T)} {f g : Addr × T}
    (r : Ring h c (A ++ ((g :: N) ++ ((f :: M) ++ B)))) :
    ∃ h', nodeSplice g.1 f.1 (posOf c (B.map Prod.fst)) h = .ok ((), h') ∧
      Ring h' c (A ++ ((f :: M) ++ ((g :: N) ++ B))) ∧
      Relink (· ∈ cells c (A ++ ((g :: N) ++ ((f :: M) ++ B)))) h h' := by
  obtain ⟨m1, m2⟩ := r.pos_cells (A := A) (B := (g :: N) ++ ((f :: M) ++ B))
  obtain ⟨m3, m4⟩ := (show Ring h c ((A ++ (g :: N)) ++ ((f :: M) ++ B)) by simpa using r).pos_cells
  obtain ⟨m5, m6⟩ := (show Ring h c ((A ++ (g :: N) ++ (f :: M)) ++ B) by simpa using r).pos_cells
  have e1 : cells c ((A ++ (g :: N)) ++ ((f :: M) ++ B)) = cells c (A ++ ((g :: N) ++ ((f :: M) ++ B))) := by simp
  have e2 : cells c ((A ++ (g :: N) ++ (f :: M)) ++ B) = cells c (A ++ ((g :: N) ++ ((f :: M) ++ B))) := by simp
  rw [e1] at m3 m4; rw [e2] at m5 m6
  change g.1 ∈ _ at m1; change h.prev g.1 ∈ _ at m2; change f.1 ∈ _ at m3; change h.prev f.1 ∈ _ at m4
  have nd := r.nodup
  have rl := spl_relink h g.1 f.1 (posOf c (B.map Prod.fst)) (· ∈ cells c (A ++ ((g :: N) ++ ((f :: M) ++ B)))) m1 m3 m5 m2 m4 m6
  have ll := spl_links_left (h := h) (c := c) (A := A.map Prod.fst) (B := B.map Prod.fst)
    (M := (f :: M).map Prod.fst) (N := (g :: N).map Prod.fst) (f := f.1) (M' := M.map Prod.fst) (g := g.1) (N' := N.map Prod.fst)
    (by have := r.links; simpa using this) rfl rfl (by simpa using nd)
  have hne : f.1 ≠ g.1 := by
    simp only [List.map_append, List.map_cons, List.nodup_cons, List.mem_append, List.nodup_append, List.mem_cons] at nd
    grind
  refine ⟨_, nodeSplice_eq (r.live _ m1) (r.live _ m3) (r.live _ m5) (r.live _ m2) (r.live _ m4) (r.live _ m6) hne, ?_, rl⟩
  refine Ring.relink rl r.head r.bare ?_ ?_ ?_
  · simp only [List.map_append, List.map_cons, List.nodup_cons, List.mem_append, List.nodup_append, List.mem_cons] at nd ⊢
    grind
  · intro e he; exact r.data e (by simp only [List.mem_append] at he ⊢; grind)
  · simpa using ll

/-! ## reverse -/

theorem reverse_ok {h : Heap T} {c : Addr} {es : List (Addr × T)} (r : Ring h c es) :
    ∃ h', reverse c h = .ok ((), h') ∧ Ring h' c es.reverse ∧ Relink (· ∈ cells c es) h h' := by
  obtain ⟨h', q, q1, q2, q3, q4, q5, q6⟩ := reverseLoop_eq (es.map Prod.fst) c h r.laid.path (r.live) r.nodup r.laid.stop
  have rl : Relink (· ∈ cells c es) h h' := ⟨q1, q2, q3, q4, fun x hx => (q6 x hx).1, fun x hx => (q6 x hx).2⟩
  refine ⟨h', q, Ring.relink rl r.head r.bare ?_ ?_ ?_, rl⟩
  · have := r.nodup
    rw [List.map_reverse, List.nodup_cons, List.mem_reverse, List.Nodup, List.pairwise_reverse]
    rw [List.nodup_cons] at this
    exact ⟨this.1, this.2.imp (fun a => Ne.symm a)⟩
  · intro e he; exact r.data e (by simpa using he)
  · rw [List.map_reverse]; exact reverse_links r.links q5

/-! ## swap -/

theorem swap_ok {h : Heap T} {a b : Addr} {es fs : List (Addr × T)} (r : Ring h a es) (s : Ring h b fs)
    (hd : ∀ x ∈ cells a es, x ∉ cells b fs) (he : es ≠ []) (hf : fs ≠ []) :
    ∃ h', swap a b h = .ok ((), h') ∧ Ring h' a fs ∧ Ring h' b es ∧
      Relink (fun x => x ∈ cells a es ∨ x ∈ cells b fs) h h' := by
  have n1 := r.nodup; have n2 := s.nodup
  have na := r.next_head; have nb := s.next_head
  obtain ⟨p1, p2⟩ := (show Ring h a (es ++ []) by simpa using r).pos_cells
  obtain ⟨p3, p4⟩ := (show Ring h b (fs ++ []) by simpa using s).pos_cells
  simp only [List.map_nil, posOf_nil, List.append_nil] at p1 p2 p3 p4
  have mna : h.next a ∈ es.map Prod.fst := by rw [na]; cases es with | nil => exact absurd rfl he | cons e es => simp
  have mnb : h.next b ∈ fs.map Prod.fst := by rw [nb]; cases fs with | nil => exact absurd rfl hf | cons e es => simp
  have mpb : h.prev b ∈ fs.map Prod.fst := by
    rcases List.eq_nil_or_concat fs with q | ⟨F, e, q⟩
    · exact absurd q hf
    · rw [List.concat_eq_append] at q; subst q; rw [s.prev_last]; simp
  have mpa : h.prev a ∈ es.map Prod.fst := by
    rcases List.eq_nil_or_concat es with q | ⟨F, e, q⟩
    · exact absurd q he
    · rw [List.concat_eq_append] at q; subst q; rw [r.prev_last]; simp
  have d : ∀ x ∈ a :: es.map Prod.fst, x ∉ b :: fs.map Prod.fst := hd
  have sa := r.laid.stop; have sb := s.laid.stop
  have hab : a ≠ b := fun q => d a (by simp) (by simp [q])
  have ia : ∀ x ∈ es.map Prod.fst, x ∈ cells a es := fun x hx => List.mem_cons_of_mem _ hx
  have ib : ∀ x ∈ fs.map Prod.fst, x ∈ cells b fs := fun x hx => List.mem_cons_of_mem _ hx
  have ll := swp_links (h := h) (a := a) (b := b) (M := es.map Prod.fst) (N := fs.map Prod.fst) (by simpa using he) (by simpa using hf)
    r.links s.links (by
      rw [List.nodup_append]
      exact ⟨n1, n2, fun x hx y hy q => d x hx (q ▸ hy)⟩)
  have rl : Relink (fun x => x ∈ cells a es ∨ x ∈ cells b fs) h (swp h a b) := by
    refine ⟨rfl, rfl, rfl, rfl, ?_, ?_⟩
    · intro x hx
      have q1 : x ≠ a := fun q => hx (.inl (q ▸ p1))
      have q2 : x ≠ b := fun q => hx (.inr (q ▸ p3))
      have q3 : x ≠ h.prev b := fun q => hx (.inr (q ▸ ib _ mpb))
      have q4 : x ≠ h.prev a := fun q => hx (.inl (q ▸ ia _ mpa))
      simp [swp, upd, q1, q2, q3, q4]
    · intro x hx
      have q1 : x ≠ a := fun q => hx (.inl (q ▸ p1))
      have q2 : x ≠ b := fun q => hx (.inr (q ▸ p3))
      have q3 : x ≠ h.next b := fun q => hx (.inr (q ▸ ib _ mnb))
      have q4 : x ≠ h.next a := fun q => hx (.inl (q ▸ ia _ mna))
      simp [swp, upd, q1, q2, q3, q4]
  refine ⟨swp h a b, nodeSwap_eq r.head s.head (r.live _ (ia _ mna)) (r.live _ (ia _ mpa)) (s.live _ (ib _ mnb))
    (s.live _ (ib _ mpb)) hab (fun q => sa (q ▸ mna)) (fun q => sb (q ▸ mnb)) ?_ ?_ ?_ ?_ (fun q => sb (q ▸ mpb)),
    Ring.relink rl r.head r.bare ?_ s.data ll.1, Ring.relink rl s.head s.bare ?_ r.data ll.2, rl⟩
  · intro q; exact d b (List.mem_cons_of_mem _ (q ▸ mna)) (by simp)
  · intro q; exact d a (by simp) (List.mem_cons_of_mem _ (q ▸ mnb))
  · intro q; exact d b (List.mem_cons_of_mem _ (q ▸ mpa)) (by simp)
  · intro q; exact d a (by simp) (List.mem_cons_of_mem _ (q ▸ mpb))
  · rw [List.nodup_cons] at n2 ⊢
    exact ⟨fun q => d a (by simp) (List.mem_cons_of_mem _ q), n2.2⟩
  · rw [List.nodup_cons] at n1 ⊢
    exact ⟨fun q => d b (List.mem_cons_of_mem _ q) (by simp), n1.2⟩

/-- The half swap: the empty (or cleared) list `a` takes over the elements of `b`. -/
theorem half_ok {h : Heap T} {a b : Addr} {fs : List (Addr × T)} (la : h.live a = true) (va : h.val a = none) (s : Ring h b fs)
    (hd : a ∉ cells b fs) (hf : fs ≠ []) :
    ∃ h', halfSwap a b h = .ok ((), h') ∧ Ring h' a fs ∧ Ring h' b [] ∧
      Relink (fun x => x = a ∨ x ∈ cells b fs) h h' := by
  have n2 := s.nodup
  have nb := s.next_head
  have mnb : h.next b ∈ fs.map Prod.fst := by rw [nb]; cases fs with | nil => exact absurd rfl hf | cons e es => simp
  have mpb : h.prev b ∈ fs.map Prod.fst := by
    rcases List.eq_nil_or_concat fs with q | ⟨F, e, q⟩
    · exact absurd q hf
    · rw [List.concat_eq_append] at q; subst q; rw [s.prev_last]; simp
  have sb := s.laid.stop
  have hab : a ≠ b := fun q => hd (by simp [cells, q])
  have ib : ∀ x ∈ fs.map Prod.fst, x ∈ cells b fs := fun x hx => List.mem_cons_of_mem _ hx
  have ll := half_links (h := h) (a := a) (b := b) (M := fs.map Prod.fst) (by simpa using hf) s.links (by
    rw [List.nodup_cons]; exact ⟨hd, n2⟩)
  have rl : Relink (fun x => x = a ∨ x ∈ cells b fs) h (half h a b) := by
    refine ⟨rfl, rfl, rfl, rfl, ?_, ?_⟩
    · intro x hx
      have q1 : x ≠ a := fun q => hx (.inl q)
      have q2 : x ≠ b := fun q => hx (.inr (by simp [cells, q]))
      have q3 : x ≠ h.prev b := fun q => hx (.inr (q ▸ ib _ mpb))
      simp [half, upd, q1, q2, q3]
    · intro x hx
      have q1 : x ≠ a := fun q => hx (.inl q)
      have q2 : x ≠ b := fun q => hx (.inr (by simp [cells, q]))
      have q3 : x ≠ h.next b := fun q => hx (.inr (q ▸ ib _ mnb))
      simp [half, upd, q1, q2, q3]
  refine ⟨half h a b, halfSwap_eq la s.head (s.live _ (ib _ mnb)) (s.live _ (ib _ mpb)) hab (fun q => sb (q ▸ mnb)),
    Ring.relink rl la va ?_ s.data ll.1, Ring.relink rl s.head s.bare (by simp) (by simp) ll.2, rl⟩
  rw [List.nodup_cons] at n2 ⊢
  exact ⟨fun q => hd (ib _ q), n2.2⟩

theorem swap_left_empty {h : Heap T} {a b : Addr} {fs : List (Addr × T)} (la : h.live a = true) (va : h.val a = none)
    (lo : h.next a = a) (s : Ring h b fs) (hd : a ∉ cells b fs) (hf : fs ≠ []) :
    ∃ h', swap a b h = .ok ((), h') ∧ Ring h' a fs ∧ Ring h' b [] ∧ Relink (fun x => x = a ∨ x ∈ cells b fs) h h' := by
  obtain ⟨h', q, r⟩ := half_ok la va s hd hf
  refine ⟨h', ?_, r⟩
  unfold swap nodeSwap
  simp only [Prog.bind_app, getNext_eq la, Res.bind_ok, lo, Prog.ite_app]
  rw [if_neg (by simp)]; exact q

theorem swap_right_empty {h : Heap T} {a b : Addr} {es : List (Addr × T)} (lb : h.live b = true) (vb : h.val b = none)
    (lo : h.next b = b) (r : Ring h a es) (hd : b ∉ cells a es) (he : es ≠ []) :
    ∃ h', swap a b h = .ok ((), h') ∧ Ring h' b es ∧ Ring h' a [] ∧ Relink (fun x => x = b ∨ x ∈ cells a es) h h' := by
  obtain ⟨h', q, r'⟩ := half_ok lb vb r hd he
  refine ⟨h', ?_, r'⟩
  have : a ≠ h.next a := by
    rw [r.next_head]; intro q
    have m : a ∈ es.map Prod.fst := by
      cases es with
      | nil => exact absurd rfl he
      | cons e es => rw [List.map_cons, posOf_cons] at q; simp [← q]
    exact r.laid.stop m
  unfold swap nodeSwap
  simp only [Prog.bind_app, getNext_eq r.head, getNext_eq lb, Res.bind_ok, lo, Prog.ite_app]
  rw [if_pos this, if_neg (by simp)]; exact q

end Verif.Seq.DList
