import Verif.Vec.Model
/-!
# What the loops of `ttl::vector` do to the layout of a block
-/
set_option linter.unusedVariables false
set_option linter.unusedSimpArgs false
namespace Verif.Vec
open Verif
variable {T ρ : Type} {b b' n g c : Nat} {xs ys : List T}

theorem sub_of {h h' : Heap ρ T} (hs : ∀ b n, h.size b = some n → h'.size b = some n) (hv : ∀ b i v, h.slot b i = some v → h'.slot b i = some v) : h.Sub h' :=
  fun b i v ⟨⟨n, q1, q2⟩, q3⟩ => ⟨⟨n, hs b n q1, q2⟩, hv b i v q3⟩

theorem slot_lay_mono {h : Heap ρ T} {ws zs : List T} {k : Nat} (hl : h.slot b = lay xs 0 []) (e : zs = xs ++ ws) :
    ∀ b' i v, h.slot b' i = some v → (h.lay b zs 0 []).slot b' i = some v := by
  intro b' i v q
  by_cases e' : b' = b
  · subst e' e; rw [hl, lay_nil] at q
    rw [lay_slot_same, lay_nil]
    have : i < xs.length := (List.getElem?_eq_some_iff.1 q).1
    show (xs ++ ws)[i]? = some v
    rw [List.getElem?_append_left this]; exact q
  · rw [lay_slot_other _ _ _ _ _ e']; exact q

theorem sub_append {h : Heap ρ T} (ws : List T) (hl : h.slot b = lay xs 0 []) : h.Sub (h.lay b (xs ++ ws) 0 []) :=
  sub_of (fun _ _ q => q) (slot_lay_mono (k := 0) hl rfl)

theorem sub_set {h h' : Heap ρ T} (c : Nat) (r : ρ) (q : h.Sub h') : h.Sub (h'.setObj c r) := q

/-- Anything readable when block `b` holds only the prefix `xs` of its elements stays readable whatever else happens in `b`. -/
theorem sub_prefix {h : Heap ρ T} (xs : List T) (zs : List T) (g : Nat) (ys : List T) : (h.lay b xs 0 []).Sub (h.lay b (xs ++ zs) g ys) := by
  refine sub_of (fun _ _ q => q) ?_
  intro b' i v q
  by_cases e' : b' = b
  · subst e'; rw [lay_slot_same, lay_nil] at q
    rw [lay_slot_same]
    have : i < xs.length := (List.getElem?_eq_some_iff.1 q).1
    exact lay_left _ _ (by rw [List.getElem?_append_left this]; exact q)
  · rw [lay_slot_other _ _ _ _ _ e'] at q ⊢; exact q

theorem fillBack_ok {e eo : Ptr} : ∀ (ws xs : List T) (s : Src T) (h g : Mem T), h.obj c = some ⟨e, ⟨b, xs.length⟩, eo⟩ → (0 < n → h.size b = some n) →
    xs.length + ws.length ≤ n → h.slot b = lay xs 0 [] → Gives g s ws → g.Sub h →
    fillBack c ws.length s h = .ok ((), (h.lay b (xs ++ ws) 0 []).setObj c ⟨e, ⟨b, xs.length + ws.length⟩, eo⟩)
  | [], xs, s, h, g, ho, hs, hn, hl, hg, hsub => by
    simp only [List.append_nil, List.length_nil, Nat.add_zero]
    rw [lay_self h b xs 0 [] hl, set_self h c _ ho]; rfl
  | w :: ws, xs, s, h, g, ho, hs, hn, hl, hg, hsub => by
    simp only [List.length_cons] at hn ⊢
    have hs' := hs (by omega)
    simp only [fillBack, Prog.bind_app, hg.next hsub, Res.bind_ok, appendOne, getObj_eq ho, setObj_eq ho, ptr_add]
    rw [construct_end (h := h.setObj c _) (v := w) hs' (by omega) hl]
    simp only [Res.bind_ok, set_lay]
    rw [fillBack_ok (e := e) (eo := eo) ws (xs ++ [w]) s.succ ((h.lay b (xs ++ [w]) 0 []).setObj c ⟨e, ⟨b, xs.length + 1⟩, eo⟩) g (by simp) hs (by simp; omega) (by simp) hg.2 (hsub.trans (sub_set _ _ (sub_append [w] hl)))]
    simp [Nat.add_comm, Nat.add_left_comm, Nat.add_assoc]

theorem copyAll_ok {d b2 : Nat} {e eo : Ptr} {rd : Rep} (ne : d ≠ c) : ∀ (ws xs : List T) (i : Nat) (h g : Mem T), h.obj c = some ⟨e, ⟨b, xs.length⟩, eo⟩ →
    h.obj d = some rd → rd.last = ⟨b2, i + ws.length⟩ → (0 < n → h.size b = some n) → xs.length + ws.length ≤ n → h.slot b = lay xs 0 [] →
    Gives g (.range ⟨b2, i⟩) ws → g.Sub h →
    copyAll c d ⟨b2, i⟩ h = .ok ((), (h.lay b (xs ++ ws) 0 []).setObj c ⟨e, ⟨b, xs.length + ws.length⟩, eo⟩)
  | [], xs, i, h, g, ho, hd, hr, hs, hn, hl, hg, hsub => by
    simp only [List.append_nil, List.length_nil, Nat.add_zero] at hr ⊢
    rw [lay_self h b xs 0 [] hl, set_self h c _ ho, copyAll]
    simp [end_, getObj_eq hd, hr]
  | w :: ws, xs, i, h, g, ho, hd, hr, hs, hn, hl, hg, hsub => by
    simp only [List.length_cons] at hn hr ⊢
    have hs' := hs (by omega)
    have hne : ¬ (Ptr.mk b2 i = ⟨b2, i + (ws.length + 1)⟩) := by simp
    have nx := hg.next hsub
    simp only [Src.next, Src.deref, Prog.bind_app, Prog.pure_app, Res.bind_ok, Arg.get] at nx
    have rd' : read ⟨b2, i⟩ h = .ok (w, h) := by
      cases q : read ⟨b2, i⟩ h with
      | ok x => rw [q] at nx; simp at nx; rw [show x = (w, h) from Prod.ext nx.1 nx.2]
      | ub f => rw [q] at nx; simp at nx
      | diverge => rw [q] at nx; simp at nx
    rw [copyAll]
    simp only [end_, Prog.bind_app, getObj_eq hd, hr, Res.bind_ok, Prog.pure_app, Prog.ite_app, if_neg hne, rd', appendOne, getObj_eq ho, setObj_eq ho, ptr_add]
    rw [construct_end (h := h.setObj c _) (v := w) hs' (by omega) hl]
    simp only [Res.bind_ok, set_lay]
    rw [copyAll_ok (e := e) (eo := eo) ne ws (xs ++ [w]) (i + 1) ((h.lay b (xs ++ [w]) 0 []).setObj c ⟨e, ⟨b, xs.length + 1⟩, eo⟩) g (by simp) (by rw [set_obj_other _ _ _ ne]; exact hd) (by rw [hr]; simp; omega) hs (by simp; omega) (by simp) hg.2
      (hsub.trans (sub_set _ _ (sub_append [w] hl)))]
    simp [Nat.add_comm, Nat.add_left_comm, Nat.add_assoc]

/-- Reverse induction on lists. -/
theorem rev_ind {α : Type} {P : List α → Prop} (h0 : P []) (h1 : ∀ xs a, P xs → P (xs ++ [a])) : ∀ l, P l := by
  intro l
  have : ∀ n (l : List α), l.length = n → P l := by
    intro n
    induction n with
    | zero => intro l hl; rw [List.eq_nil_of_length_eq_zero hl]; exact h0
    | succ n ih =>
      intro l hl
      rcases List.eq_nil_or_concat l with rfl | ⟨xs, a, rfl⟩
      · exact h0
      · rw [List.concat_eq_append] at hl ⊢; exact h1 xs a (ih xs (by simpa using hl))
  exact this _ l rfl

theorem shrinkTo_ok {e eo : Ptr} (ws : List T) : ∀ (h : Mem T), h.obj c = some ⟨e, ⟨b, xs.length + ws.length⟩, eo⟩ → (0 < n → h.size b = some n) →
    xs.length + ws.length ≤ n → h.slot b = lay (xs ++ ws) 0 [] →
    shrinkTo c ⟨b, xs.length⟩ h = .ok ((), (h.lay b xs 0 []).setObj c ⟨e, ⟨b, xs.length⟩, eo⟩) := by
  induction ws using rev_ind with
  | h0 =>
    intro h ho hs hn hl
    simp only [List.append_nil, List.length_nil, Nat.add_zero] at ho hl hn
    rw [lay_self h b xs 0 [] hl, set_self h c _ ho, shrinkTo]
    simp [getObj_eq ho, less_eq]
  | h1 ws a ih =>
    intro h ho hs hn hl
    simp only [List.length_append, List.length_singleton] at ho hn
    have hs' := hs (by omega)
    rw [show xs.length + (ws.length + 1) = xs.length + ws.length + 1 by omega] at ho
    rw [shrinkTo]
    simp only [Prog.bind_app, getObj_eq ho, Res.bind_ok, less_eq, show xs.length < xs.length + ws.length + 1 by omega, decide_true, if_true, dec_eq, setObj_eq ho]
    have hlen : xs.length + ws.length = (xs ++ ws).length := by simp
    rw [hlen, destruct_left (h := h.setObj c _) hs' (by simp; omega) (by rw [set_slot, hl, List.append_assoc])]
    simp only [Res.bind_ok, set_lay]
    rw [ih ((h.lay b (xs ++ ws) (0 + 1) []).setObj c ⟨e, ⟨b, (xs ++ ws).length⟩, eo⟩) (by simp) hs (by omega) (by simp [lay_gap _ (0 + 1) 0])]
    simp

theorem copyTo_ok (ne : b ≠ b') : ∀ (ws xs : List T) (i : Nat) (h : Heap ρ T), (∀ k v, ws[k]? = some v → h.Holds b (i + k) v) →
    (0 < n → h.size b' = some n) → xs.length + ws.length ≤ n → h.slot b' = lay xs 0 [] →
    copyTo ⟨b, i⟩ ⟨b, i + ws.length⟩ ⟨b', xs.length⟩ h = .ok (⟨b', xs.length + ws.length⟩, h.lay b' (xs ++ ws) 0 [])
  | [], xs, i, h, hr, hs, hn, hl => by
    simp only [List.append_nil, List.length_nil, Nat.add_zero]
    rw [lay_self h b' xs 0 [] hl, copyTo]; simp
  | w :: ws, xs, i, h, hr, hs, hn, hl => by
    simp only [List.length_cons] at hn ⊢
    have hs' := hs (by omega)
    have hne : ¬ (Ptr.mk b i = ⟨b, i + (ws.length + 1)⟩) := by simp
    have h0 := hr 0 w rfl
    rw [copyTo]
    simp only [Prog.ite_app, if_neg hne, Prog.bind_app, (show Heap.Holds h b i w from h0).read, Res.bind_ok]
    rw [construct_end (v := w) hs' (by omega) hl]
    simp only [Res.bind_ok, ptr_add]
    have := copyTo_ok ne ws (xs ++ [w]) (i + 1) (h.lay b' (xs ++ [w]) 0 []) (by
      intro k v q
      obtain ⟨⟨m, h1, h2⟩, h3⟩ := hr (k + 1) v (by simpa using q)
      rw [show i + 1 + k = i + (k + 1) by omega]
      exact ⟨⟨m, h1, h2⟩, by rw [lay_slot_other _ _ _ _ _ ne]; exact h3⟩) hs (by simp; omega) (by simp)
    simp only [List.length_append, List.length_singleton, lay_lay, List.append_assoc, List.singleton_append] at this
    rw [show i + (ws.length + 1) = i + 1 + ws.length by omega, this, show xs.length + 1 + ws.length = xs.length + (ws.length + 1) by omega]

theorem destroyDown_ok (ws : List T) : ∀ (h : Heap ρ T), (0 < n → h.size b = some n) → xs.length + ws.length ≤ n → h.slot b = lay (xs ++ ws) 0 [] →
    destroyDown ⟨b, xs.length + ws.length⟩ ⟨b, xs.length⟩ h = .ok ((), h.lay b xs 0 []) := by
  induction ws using rev_ind with
  | h0 =>
    intro h hs hn hl
    simp only [List.append_nil, List.length_nil, Nat.add_zero] at hl hn ⊢
    rw [lay_self h b xs 0 [] hl, destroyDown]
    simp [less_eq]
  | h1 ws a ih =>
    intro h hs hn hl
    simp only [List.length_append, List.length_singleton] at hn ⊢
    have hs' := hs (by omega)
    rw [destroyDown]
    simp only [Prog.bind_app, less_eq, Res.bind_ok, show xs.length < xs.length + (ws.length + 1) by omega, decide_true, if_true]
    simp only [Prog.bind_app, ← Nat.add_assoc, dec_eq, Res.bind_ok]
    have hlen : xs.length + ws.length = (xs ++ ws).length := by simp
    rw [hlen, destruct_left (h := h) hs' (by simp; omega) (by rw [hl, List.append_assoc])]
    simp only [Res.bind_ok]
    rw [← hlen, ih (h.lay b (xs ++ ws) (0 + 1) []) hs (by omega) (by simp [lay_gap _ (0 + 1) 0])]
    simp

theorem fillAt_ok : ∀ (ws xs : List T) (s : Src T) (h g : Heap ρ T) (m : Nat), (0 < n → h.size b = some n) →
    xs.length + ws.length ≤ n → h.slot b = lay xs (ws.length + m) ys → Gives g s ws → g.Sub h → (∀ zs m', g.Sub (h.lay b (xs ++ zs) m' ys)) →
    fillAt ws.length s ⟨b, xs.length⟩ h = .ok (⟨b, xs.length + ws.length⟩, h.lay b (xs ++ ws) m ys)
  | [], xs, s, h, g, m, hs, hn, hl, hg, hsub, hk => by
    simp only [List.append_nil, List.length_nil, Nat.add_zero, Nat.zero_add] at hl ⊢
    rw [lay_self h b xs m ys hl]; rfl
  | w :: ws, xs, s, h, g, m, hs, hn, hl, hg, hsub, hk => by
    simp only [List.length_cons] at hn hl ⊢
    have hs' := hs (by omega)
    simp only [fillAt, Prog.bind_app, hg.next hsub, Res.bind_ok]
    rw [construct_left (v := w) (g := ws.length + m) hs' (by omega) (by rw [hl]; congr 1; omega)]
    simp only [Res.bind_ok, ptr_add]
    have := fillAt_ok ws (xs ++ [w]) s.succ (h.lay b (xs ++ [w]) (ws.length + m) ys) g m hs (by simp; omega) (by simp) hg.2 (hk [w] _)
      (by intro zs m'; rw [lay_lay, List.append_assoc]; exact hk _ _)
    simp only [List.length_append, List.length_singleton, lay_lay, List.append_assoc, List.singleton_append] at this
    rw [this, show xs.length + 1 + ws.length = xs.length + (ws.length + 1) by omega]

theorem shiftUp_ok (ws : List T) : ∀ (ys : List T) (h : Heap ρ T), h.size b = some n → xs.length + ws.length + (g + 1) ≤ n →
    h.slot b = lay (xs ++ ws) (g + 1) ys →
    shiftUp ⟨b, xs.length + ws.length⟩ ⟨b, xs.length⟩ ⟨b, xs.length + ws.length + (g + 1)⟩ h = .ok ((), h.lay b xs (g + 1) (ws ++ ys)) := by
  induction ws using rev_ind with
  | h0 =>
    intro ys h hs hn hl
    simp only [List.append_nil, List.length_nil, Nat.add_zero, List.nil_append] at hl hn ⊢
    rw [lay_self h b xs _ ys hl, shiftUp]; simp
  | h1 ws a ih =>
    intro ys h hs hn hl
    simp only [List.length_append, List.length_singleton] at hn ⊢
    have hne : ¬ (Ptr.mk b (xs.length + (ws.length + 1)) = ⟨b, xs.length⟩) := by simp
    have hlen : xs.length + ws.length = (xs ++ ws).length := by simp
    rw [shiftUp]
    simp only [Prog.ite_app, if_neg hne]
    simp only [Prog.bind_app, ← Nat.add_assoc, dec_eq, Res.bind_ok]
    rw [← List.append_assoc] at hl
    rw [show xs.length + ws.length + 1 + g = (xs ++ ws ++ [a]).length + g by simp; omega, hlen,
      read_left (h := h) (xs := xs ++ ws) (a := a) (zs := []) hs (by simp; omega) hl]
    simp only [Res.bind_ok]
    rw [construct_right hs (by simp; omega) hl]
    simp only [Res.bind_ok]
    rw [destruct_left (h := Heap.lay h b _ _ _) (xs := xs ++ ws) hs (by simp; omega) (lay_slot_same ..)]
    simp only [Res.bind_ok, lay_lay]
    have := ih (a :: ys) (h.lay b (xs ++ ws) (g + 1) (a :: ys)) hs (by omega) (by simp)
    rw [show (xs ++ ws ++ [a]).length + g = xs.length + ws.length + (g + 1) by simp; omega, ← hlen, this]
    simp

theorem destroyBack_ok (ws : List T) : ∀ (g : Nat) (h : Heap ρ T), (0 < n → h.size b = some n) → xs.length + ws.length ≤ n → h.slot b = lay (xs ++ ws) g ys →
    destroyBack ⟨b, xs.length⟩ ⟨b, xs.length + ws.length⟩ h = .ok ((), h.lay b xs (g + ws.length) ys) := by
  induction ws using rev_ind with
  | h0 =>
    intro g h hs hn hl
    simp only [List.append_nil, List.length_nil, Nat.add_zero] at hl hn ⊢
    rw [lay_self h b xs g ys hl, destroyBack]; simp
  | h1 ws a ih =>
    intro g h hs hn hl
    simp only [List.length_append, List.length_singleton] at hn ⊢
    have hs' := hs (by omega)
    have hne : ¬ (Ptr.mk b xs.length = ⟨b, xs.length + (ws.length + 1)⟩) := by simp
    have hlen : xs.length + ws.length = (xs ++ ws).length := by simp
    rw [destroyBack]
    simp only [Prog.ite_app, if_neg hne]
    simp only [Prog.bind_app, ← Nat.add_assoc, dec_eq, Res.bind_ok]
    rw [hlen, destruct_left (h := h) hs' (by simp; omega) (by rw [hl, List.append_assoc])]
    simp only [Res.bind_ok]
    rw [← hlen, ih (g + 1) (h.lay b (xs ++ ws) (g + 1) ys) hs (by omega) (by simp), lay_lay, show g + 1 + ws.length = g + ws.length + 1 by omega]

theorem shiftDown_ok : ∀ (ws xs : List T) (h : Heap ρ T), (0 < n → h.size b = some n) → xs.length + (g + 1) + ws.length ≤ n → h.slot b = lay xs (g + 1) ws →
    shiftDown ⟨b, xs.length + (g + 1)⟩ ⟨b, xs.length + (g + 1) + ws.length⟩ ⟨b, xs.length⟩ h = .ok (⟨b, xs.length + ws.length⟩, h.lay b (xs ++ ws) 0 [])
  | [], xs, h, hs, hn, hl => by
    simp only [List.append_nil, List.length_nil, Nat.add_zero] at hl ⊢
    rw [lay_self h b xs 0 [] (by rw [hl, lay_gap]), shiftDown]; simp
  | w :: ws, xs, h, hs, hn, hl => by
    simp only [List.length_cons] at hn ⊢
    have hs' := hs (by omega)
    have hne : ¬ (Ptr.mk b (xs.length + (g + 1)) = ⟨b, xs.length + (g + 1) + (ws.length + 1)⟩) := by simp
    rw [shiftDown]
    simp only [Prog.ite_app, if_neg hne, Prog.bind_app]
    rw [read_right hs' (by omega) hl]
    simp only [Res.bind_ok]
    rw [construct_left (v := w) hs' (by omega) hl]
    simp only [Res.bind_ok]
    rw [show xs.length + (g + 1) = (xs ++ [w]).length + g by simp; omega,
      destruct_right (h := Heap.lay h b _ _ _) (xs := xs ++ [w]) hs' (by simp; omega) (lay_slot_same ..)]
    simp only [Res.bind_ok, lay_lay, ptr_add]
    have := shiftDown_ok ws (xs ++ [w]) (h.lay b (xs ++ [w]) (g + 1) ws) hs (by simp; omega) (by simp)
    simp only [List.length_append, List.length_singleton, lay_lay, List.append_assoc, List.singleton_append] at this ⊢
    rw [show xs.length + 1 + g + 1 = xs.length + 1 + (g + 1) by omega, show xs.length + 1 + g + (ws.length + 1) = xs.length + 1 + (g + 1) + ws.length by omega, this,
      show xs.length + 1 + ws.length = xs.length + (ws.length + 1) by omega]

theorem walk_ok {i : Nat} : ∀ (ws : List T) (i : Nat) (h : Heap ρ T), (∀ k v, ws[k]? = some v → h.Holds b (i + k) v) →
    walk ⟨b, i⟩ ⟨b, i + ws.length⟩ h = .ok (ws, h)
  | [], i, h, hr => by rw [walk]; simp
  | w :: ws, i, h, hr => by
    simp only [List.length_cons]
    have hne : ¬ (Ptr.mk b i = ⟨b, i + (ws.length + 1)⟩) := by simp
    have h0 := hr 0 w rfl
    rw [walk]
    simp only [Prog.ite_app, if_neg hne, Prog.bind_app, (show Heap.Holds h b i w from h0).read, Res.bind_ok, ptr_add]
    have := walk_ok (i := i) ws (i + 1) h (by
      intro k v q; rw [show i + 1 + k = i + (k + 1) by omega]; exact hr (k + 1) v (by simpa using q))
    rw [show i + (ws.length + 1) = i + 1 + ws.length by omega, this]; rfl

theorem equalPtr_ok (eq : T → T → Bool) : ∀ (ws zs : List T) (i j : Nat) (h : Heap ρ T), (∀ k v, ws[k]? = some v → h.Holds b (i + k) v) →
    (∀ k v, zs[k]? = some v → h.Holds b' (j + k) v) →
    equalPtr eq ⟨b, i⟩ ⟨b, i + ws.length⟩ ⟨b', j⟩ ⟨b', j + zs.length⟩ h = .ok (decide (ws.length = zs.length) && (ws.zip zs).all fun p => eq p.1 p.2, h)
  | [], [], i, j, h, _, _ => by rw [equalPtr]; simp
  | [], z :: zs, i, j, h, _, _ => by rw [equalPtr]; simp
  | w :: ws, [], i, j, h, _, _ => by rw [equalPtr]; simp
  | w :: ws, z :: zs, i, j, h, hr, hq => by
    simp only [List.length_cons]
    have hne : (Ptr.mk b i ≠ ⟨b, i + (ws.length + 1)⟩ ∧ Ptr.mk b' j ≠ ⟨b', j + (zs.length + 1)⟩) := by simp
    have h0 := hr 0 w rfl
    have h1 := hq 0 z rfl
    rw [equalPtr]
    simp only [Prog.ite_app, if_pos hne, Prog.bind_app, (show Heap.Holds h b i w from h0).read, (show Heap.Holds h b' j z from h1).read, Res.bind_ok, ptr_add]
    have := equalPtr_ok eq ws zs (i + 1) (j + 1) h
      (by intro k v q; rw [show i + 1 + k = i + (k + 1) by omega]; exact hr (k + 1) v (by simpa using q))
      (by intro k v q; rw [show j + 1 + k = j + (k + 1) by omega]; exact hq (k + 1) v (by simpa using q))
    rw [show i + (ws.length + 1) = i + 1 + ws.length by omega, show j + (zs.length + 1) = j + 1 + zs.length by omega, this]
    by_cases q : eq w z <;> simp [q]

end Verif.Vec
