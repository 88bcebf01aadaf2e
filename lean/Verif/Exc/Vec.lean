import Verif.Exc.VecModel
/-!
# The loops of `ttl::vector` when element copies throw
-/
set_option linter.unusedVariables false
set_option linter.unusedSimpArgs false
namespace Verif.Exc.XVec
open Verif Verif.Vec Verif.Exc
variable {T ρ : Type} {b b' n g c : Nat} {xs ys : List T}

theorem construct_points {h h' : Heap ρ T} {p : Ptr} {v : T} {P : Nat → Heap ρ T → Prop} (e : Vec.construct p v h = .ok ((), h')) (p0 : P 0 h) :
    Points (construct p v) h 1 () h' P := Points.seq (m := 0) (Points.point_ p0) (Points.call_ e)

theorem copyTo_points (ne : b ≠ b') : ∀ (ws xs : List T) (i : Nat) (h : Heap ρ T), (∀ k v, ws[k]? = some v → h.Holds b (i + k) v) →
    (0 < n → h.size b' = some n) → xs.length + ws.length ≤ n → h.slot b' = lay xs 0 [] →
    Points (copyTo ⟨b, i⟩ ⟨b, i + ws.length⟩ ⟨b', xs.length⟩) h ws.length ⟨b', xs.length + ws.length⟩ (h.lay b' (xs ++ ws) 0 [])
      fun k t => t = h.lay b' (xs ++ ws.take k) 0 []
  | [], xs, i, h, hr, hs, hn, hl => by
    simp only [List.append_nil, List.length_nil, Nat.add_zero]
    rw [lay_self h b' xs 0 [] hl, copyTo, if_pos rfl]; exact Points.pure_
  | w :: ws, xs, i, h, hr, hs, hn, hl => by
    simp only [List.length_cons] at hn ⊢
    have hs' := hs (by omega)
    have hne : ¬ (Ptr.mk b i = ⟨b, i + (ws.length + 1)⟩) := by simp
    have h0 := hr 0 w rfl
    rw [copyTo, if_neg hne]
    have := copyTo_points ne ws (xs ++ [w]) (i + 1) (h.lay b' (xs ++ [w]) 0 []) (by
      intro k v q
      obtain ⟨⟨m, h1, h2⟩, h3⟩ := hr (k + 1) v (by simpa using q)
      rw [show i + 1 + k = i + (k + 1) by omega]
      exact ⟨⟨m, h1, h2⟩, by rw [lay_slot_other _ _ _ _ _ ne]; exact h3⟩) hs (by simp; omega) (by simp)
    simp only [List.length_append, List.length_singleton, lay_lay, List.append_assoc, List.singleton_append] at this
    rw [show i + (ws.length + 1) = i + 1 + ws.length by omega, show xs.length + (ws.length + 1) = xs.length + 1 + ws.length by omega, Nat.add_comm ws.length 1]
    refine Points.call_seq (show Heap.Holds h b i w from h0).read (Points.seq (construct_points (construct_end (v := w) hs' (by omega) hl) ?_) (this.imp ?_))
    · simp [lay_self h b' xs 0 [] hl]
    · intro k t _ e; rw [e, Nat.add_comm 1 k, List.take_succ_cons]

theorem fillAt_points : ∀ (ws xs : List T) (s : Src T) (h g : Heap ρ T) (m : Nat), (0 < n → h.size b = some n) →
    xs.length + ws.length ≤ n → h.slot b = lay xs (ws.length + m) ys → Gives g s ws → g.Sub h → (∀ zs m', g.Sub (h.lay b (xs ++ zs) m' ys)) →
    Points (fillAt ws.length s ⟨b, xs.length⟩) h ws.length ⟨b, xs.length + ws.length⟩ (h.lay b (xs ++ ws) m ys)
      fun k t => t = h.lay b (xs ++ ws.take k) (ws.length - k + m) ys
  | [], xs, s, h, g, m, hs, hn, hl, hg, hsub, hk => by
    simp only [List.append_nil, List.length_nil, Nat.add_zero, Nat.zero_add] at hl ⊢
    rw [lay_self h b xs m ys hl]; exact Points.pure_
  | w :: ws, xs, s, h, g, m, hs, hn, hl, hg, hsub, hk => by
    simp only [List.length_cons] at hn hl ⊢
    have hs' := hs (by omega)
    have := fillAt_points ws (xs ++ [w]) s.succ (h.lay b (xs ++ [w]) (ws.length + m) ys) g m hs (by simp; omega) (by simp) hg.2 (hk [w] _)
      (by intro zs m'; rw [lay_lay, List.append_assoc]; exact hk _ _)
    simp only [List.length_append, List.length_singleton, lay_lay, List.append_assoc, List.singleton_append] at this
    rw [show xs.length + (ws.length + 1) = xs.length + 1 + ws.length by omega]
    have e1 : fillAt (ws.length + 1) s ⟨b, xs.length⟩ = (do
      let (v, s') ← Thr.call s.next
      construct (ρ := ρ) ⟨b, xs.length⟩ v
      fillAt ws.length s' (Ptr.mk b xs.length + 1)) := rfl
    rw [e1]
    refine Points.call_seq (hg.next hsub) ?_
    have e2 : lay xs (ws.length + 1 + m) ys = lay xs (ws.length + m + 1) ys := by congr 1; omega
    have : Points (construct (ρ := ρ) ⟨b, xs.length⟩ w >>= fun _ => fillAt ws.length s.succ (Ptr.mk b xs.length + 1)) h (1 + ws.length) ⟨b, xs.length + 1 + ws.length⟩
        (h.lay b (xs ++ w :: ws) m ys) fun k t => t = h.lay b (xs ++ (w :: ws).take k) (ws.length + 1 - k + m) ys := by
      refine Points.seq (construct_points (construct_left (v := w) (g := ws.length + m) hs' (by omega) (by rw [hl, e2])) ?_) (this.imp ?_)
      · simp [lay_self h b xs _ ys hl]
      · intro k t _ e; rw [e, Nat.add_comm 1 k, List.take_succ_cons, Nat.add_sub_add_right]
    rw [Nat.add_comm ws.length 1] at *
    exact this

theorem appendOne_points {e eo : Ptr} {h : Mem T} {w : T} {P : Nat → Mem T → Prop} (ho : h.obj c = some ⟨e, ⟨b, xs.length⟩, eo⟩) (hs : h.size b = some n) (hn : xs.length < n)
    (hl : h.slot b = lay xs 0 []) (p0 : P 0 ((h.lay b xs 0 []).setObj c ⟨e, ⟨b, xs.length + 1⟩, eo⟩)) :
    Points (appendOne c w) h 1 () ((h.lay b (xs ++ [w]) 0 []).setObj c ⟨e, ⟨b, xs.length + 1⟩, eo⟩) P := by
  rw [lay_self h b xs 0 [] hl] at p0
  exact Points.call_seq (getObj_eq ho) (Points.call_seq (setObj_eq ho) (construct_points (construct_end (h := h.setObj c _) (v := w) hs hn hl) p0))

theorem fillBack_points {e eo : Ptr} : ∀ (ws xs : List T) (s : Src T) (h g : Mem T), h.obj c = some ⟨e, ⟨b, xs.length⟩, eo⟩ → (0 < n → h.size b = some n) →
    xs.length + ws.length ≤ n → h.slot b = lay xs 0 [] → Gives g s ws → g.Sub h →
    Points (fillBack c ws.length s) h ws.length () ((h.lay b (xs ++ ws) 0 []).setObj c ⟨e, ⟨b, xs.length + ws.length⟩, eo⟩)
      fun k t => t = (h.lay b (xs ++ ws.take k) 0 []).setObj c ⟨e, ⟨b, xs.length + k + 1⟩, eo⟩
  | [], xs, s, h, g, ho, hs, hn, hl, hg, hsub => by
    simp only [List.append_nil, List.length_nil, Nat.add_zero]
    rw [lay_self h b xs 0 [] hl, set_self h c _ ho]; exact Points.pure_
  | w :: ws, xs, s, h, g, ho, hs, hn, hl, hg, hsub => by
    simp only [List.length_cons] at hn ⊢
    have hs' := hs (by omega)
    have := fillBack_points (e := e) (eo := eo) ws (xs ++ [w]) s.succ ((h.lay b (xs ++ [w]) 0 []).setObj c ⟨e, ⟨b, xs.length + 1⟩, eo⟩) g (by simp) hs (by simp; omega) (by simp) hg.2 (hsub.trans (sub_set _ _ (sub_append [w] hl)))
    simp only [List.length_append, List.length_singleton, lay_lay, List.append_assoc, List.singleton_append, set_lay, set_set] at this
    rw [Nat.add_comm ws.length 1, ← Nat.add_assoc]
    have e1 : fillBack c (1 + ws.length) s = (do
      let (v, s') ← Thr.call s.next
      appendOne c v
      fillBack c ws.length s') := by rw [Nat.add_comm]; rfl
    rw [e1]
    refine Points.call_seq (hg.next hsub) ?_
    show Points (appendOne c w >>= fun _ => fillBack c ws.length s.succ) _ _ _ _ _
    refine Points.seq (appendOne_points ho hs' (by omega) hl ?_) (this.imp ?_)
    · simp
    · intro k t _ e; rw [e, Nat.add_comm 1 k, List.take_succ_cons, show xs.length + 1 + k + 1 = xs.length + (k + 1) + 1 by omega]

theorem read_of_gives {h g : Mem T} {b2 i : Nat} {w : T} {ws : List T} (hg : Gives g (.range ⟨b2, i⟩) (w :: ws)) (hsub : g.Sub h) : read ⟨b2, i⟩ h = .ok (w, h) := by
  have nx := hg.next hsub
  simp only [Src.next, Src.deref, Prog.bind_app, Prog.pure_app, Res.bind_ok, Arg.get] at nx
  cases q : read ⟨b2, i⟩ h with
  | ok x => rw [q] at nx; simp at nx; rw [show x = (w, h) from Prod.ext nx.1 nx.2]
  | ub f => rw [q] at nx; simp at nx
  | diverge => rw [q] at nx; simp at nx

theorem copyAll_points {d b2 : Nat} {e eo : Ptr} {rd : Rep} (ne : d ≠ c) : ∀ (ws xs : List T) (i : Nat) (h g : Mem T), h.obj c = some ⟨e, ⟨b, xs.length⟩, eo⟩ →
    h.obj d = some rd → rd.last = ⟨b2, i + ws.length⟩ → (0 < n → h.size b = some n) → xs.length + ws.length ≤ n → h.slot b = lay xs 0 [] →
    Gives g (.range ⟨b2, i⟩) ws → g.Sub h →
    Points (copyAll c d ⟨b2, i⟩) h ws.length () ((h.lay b (xs ++ ws) 0 []).setObj c ⟨e, ⟨b, xs.length + ws.length⟩, eo⟩)
      fun k t => t = (h.lay b (xs ++ ws.take k) 0 []).setObj c ⟨e, ⟨b, xs.length + k + 1⟩, eo⟩
  | [], xs, i, h, g, ho, hd, hr, hs, hn, hl, hg, hsub => by
    simp only [List.append_nil, List.length_nil, Nat.add_zero] at hr ⊢
    rw [lay_self h b xs 0 [] hl, set_self h c _ ho, copyAll]
    refine Points.call_seq (a := ⟨b2, i⟩) (s' := h) (by simp [end_, getObj_eq hd, hr]) ?_
    rw [if_pos rfl]; exact Points.pure_
  | w :: ws, xs, i, h, g, ho, hd, hr, hs, hn, hl, hg, hsub => by
    simp only [List.length_cons] at hn hr ⊢
    have hs' := hs (by omega)
    have hne : ¬ (Ptr.mk b2 i = ⟨b2, i + (ws.length + 1)⟩) := by simp
    have := copyAll_points (e := e) (eo := eo) ne ws (xs ++ [w]) (i + 1) ((h.lay b (xs ++ [w]) 0 []).setObj c ⟨e, ⟨b, xs.length + 1⟩, eo⟩) g (by simp) (by rw [set_obj_other _ _ _ ne]; exact hd) (by rw [hr]; simp; omega) hs (by simp; omega) (by simp) hg.2
      (hsub.trans (sub_set _ _ (sub_append [w] hl)))
    simp only [List.length_append, List.length_singleton, lay_lay, List.append_assoc, List.singleton_append, set_lay, set_set] at this
    rw [copyAll, Nat.add_comm ws.length 1, ← Nat.add_assoc]
    refine Points.call_seq (a := ⟨b2, i + (ws.length + 1)⟩) (s' := h) (by simp [end_, getObj_eq hd, hr]) ?_
    rw [if_neg hne]
    refine Points.call_seq (read_of_gives hg hsub) (Points.seq (appendOne_points ho hs' (by omega) hl ?_) (this.imp ?_))
    · simp
    · intro k t _ e; rw [e, Nat.add_comm 1 k, List.take_succ_cons, show xs.length + 1 + k + 1 = xs.length + (k + 1) + 1 by omega]

theorem shiftUp_points (ws : List T) : ∀ (ys : List T) (h : Heap ρ T), h.size b = some n → xs.length + ws.length + (g + 1) ≤ n →
    h.slot b = lay (xs ++ ws) (g + 1) ys →
    Points (shiftUp ⟨b, xs.length + ws.length⟩ ⟨b, xs.length⟩ ⟨b, xs.length + ws.length + (g + 1)⟩) h ws.length () (h.lay b xs (g + 1) (ws ++ ys))
      fun k t => t = h.lay b (xs ++ ws.take (ws.length - k)) (g + 1) (ws.drop (ws.length - k) ++ ys) := by
  induction ws using rev_ind with
  | h0 =>
    intro ys h hs hn hl
    simp only [List.append_nil, List.length_nil, Nat.add_zero, List.nil_append] at hl hn ⊢
    rw [lay_self h b xs _ ys hl, shiftUp, if_pos rfl]; exact Points.pure_
  | h1 ws a ih =>
    intro ys h hs hn hl
    simp only [List.length_append, List.length_singleton] at hn ⊢
    have hne : ¬ (Ptr.mk b (xs.length + (ws.length + 1)) = ⟨b, xs.length⟩) := by simp
    have hlen : xs.length + ws.length = (xs ++ ws).length := by simp
    have := ih (a :: ys) (h.lay b (xs ++ ws) (g + 1) (a :: ys)) hs (by omega) (by simp)
    rw [← List.append_assoc] at hl
    rw [shiftUp, if_neg hne]
    refine Points.call_seq (a := ⟨b, xs.length + ws.length + (g + 1)⟩) (by
      rw [show xs.length + (ws.length + 1) + (g + 1) = xs.length + ws.length + (g + 1) + 1 by omega]; exact dec_eq _ _) ?_
    refine Points.call_seq (a := ⟨b, xs.length + ws.length⟩) (by rw [← Nat.add_assoc]; exact dec_eq _ _) ?_
    refine Points.call_seq (a := a) (by rw [hlen]; exact read_left (h := h) (xs := xs ++ ws) (a := a) (zs := []) hs (by simp; omega) hl) ?_
    rw [Nat.add_comm ws.length 1]
    have e1 : xs.length + ws.length + (g + 1) = (xs ++ ws ++ [a]).length + g := by simp; omega
    refine Points.seq (s' := h.lay b (xs ++ ws ++ [a]) g (a :: ys)) (construct_points (by rw [e1]; exact construct_right (v := a) hs (by simp; omega) hl) ?_) ?_
    · rw [Nat.sub_zero, show 1 + ws.length = (ws ++ [a]).length by simp [Nat.add_comm], List.take_length, List.drop_length, List.nil_append, ← List.append_assoc, lay_self _ _ _ _ _ hl]
    · refine Points.call_seq (by rw [hlen]; exact destruct_left (h := h.lay b (xs ++ ws ++ [a]) g (a :: ys)) (xs := xs ++ ws) hs (by simp; omega) (lay_slot_same ..)) ?_
      simp only [lay_lay, List.append_assoc, List.singleton_append] at this ⊢
      refine this.imp ?_
      intro k t hk e
      rw [e, show 1 + ws.length - (1 + k) = ws.length - k by omega, List.take_append_of_le_length (by omega), List.drop_append_of_le_length (by omega), List.append_assoc]; rfl

theorem shiftDown_points : ∀ (ws xs : List T) (h : Heap ρ T), (0 < n → h.size b = some n) → xs.length + (g + 1) + ws.length ≤ n → h.slot b = lay xs (g + 1) ws →
    Points (shiftDown ⟨b, xs.length + (g + 1)⟩ ⟨b, xs.length + (g + 1) + ws.length⟩ ⟨b, xs.length⟩) h ws.length ⟨b, xs.length + ws.length⟩ (h.lay b (xs ++ ws) 0 [])
      fun k t => t = h.lay b (xs ++ ws.take k) (g + 1) (ws.drop k)
  | [], xs, h, hs, hn, hl => by
    simp only [List.append_nil, List.length_nil, Nat.add_zero] at hl ⊢
    rw [lay_self h b xs 0 [] (by rw [hl, lay_gap]), shiftDown, if_pos rfl]; exact Points.pure_
  | w :: ws, xs, h, hs, hn, hl => by
    simp only [List.length_cons] at hn ⊢
    have hs' := hs (by omega)
    have hne : ¬ (Ptr.mk b (xs.length + (g + 1)) = ⟨b, xs.length + (g + 1) + (ws.length + 1)⟩) := by simp
    have := shiftDown_points ws (xs ++ [w]) (h.lay b (xs ++ [w]) (g + 1) ws) hs (by simp; omega) (by simp)
    simp only [List.length_append, List.length_singleton, lay_lay, List.append_assoc, List.singleton_append] at this ⊢
    rw [shiftDown, if_neg hne]
    refine Points.call_seq (read_right hs' (by omega) hl) ?_
    rw [Nat.add_comm ws.length 1]
    refine Points.seq (construct_points (construct_left (v := w) hs' (by omega) hl) ?_) ?_
    · simp [lay_self h b _ _ _ hl]
    · refine Points.call_seq (s' := h.lay b (xs ++ [w]) (g + 1) ws) (a := ()) ?_ ?_
      · rw [show xs.length + (g + 1) = (xs ++ [w]).length + g by simp; omega,
          destruct_right (h := Heap.lay h b _ _ _) (xs := xs ++ [w]) hs' (by simp; omega) (lay_slot_same ..), lay_lay]
      · have e1 : (Ptr.mk b (xs.length + (g + 1)) + 1 : Ptr) = ⟨b, xs.length + 1 + (g + 1)⟩ := by simp; omega
        have e2 : Ptr.mk b (xs.length + (g + 1) + (1 + ws.length)) = ⟨b, xs.length + 1 + (g + 1) + ws.length⟩ := by simp; omega
        have e3 : Ptr.mk b (xs.length + (1 + ws.length)) = ⟨b, xs.length + 1 + ws.length⟩ := by simp; omega
        rw [e1, e2, e3]
        refine this.imp ?_
        intro k t _ e; rw [e, Nat.add_comm 1 k, List.take_succ_cons, List.drop_succ_cons]

end Verif.Exc.XVec
