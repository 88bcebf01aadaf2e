import Verif.Exc.FvModel
/-!
# The loops of `ttl::fixed_vector` when element copies throw
-/
set_option linter.unusedVariables false
set_option linter.unusedSimpArgs false
namespace Verif.Exc.XFv
open Verif Verif.Vec.FV Verif.Exc
open Verif.Vec hiding CArg CSrc Call Legal Mem Reach Ret State World appendOne arg_ok assign assignN assignRange at_ at_ok back back_ok begin_ begin_ok capacity capacity_ok clear clear_ok copies_val copyAll copyAll_ok copyOf create ctor ctorN ctorRange destroy empty empty_ok empty₀ end_ end_ok equal erase eraseRange eraseRange_end exec front insert insertN insertRange insertValues notEqual popBack popBack_ok pushAll pushBack put_exists put_other put_put put_same put_self resize resizeX retOf shrinkTo shrinkTo_ok size size_ok spec src_ok step_ok store sub_made swap swap_ok toList vals_some world_start
open Verif.Exc.XVec (construct shiftUp shiftDown construct_points shiftUp_points shiftDown_points)
variable {T : Type} {N n c d i j a : Nat} {xs ys zs vs ws us : List T} {h h' : Mem T}

/-- Memory when the constructor of the element behind `zs` in `c` has thrown: `last_` counts the element, but there is none. -/
def torn (h : Mem T) (c : Nat) (zs : List T) : Mem T := (h.lay c zs 0 []).setObj c ⟨c, zs.length + 1⟩

@[simp] theorem torn_fv : torn (fv h c vs) c ws = torn h c ws := by simp [torn, fv]

theorem appendOne_points {P : Nat → Mem T → Prop} (v : IsFV N h c xs) (hn : xs.length < N) (w : T) (p0 : P 0 (torn h c xs)) :
    Points (appendOne c w) h 1 () (fv h c (xs ++ [w])) P := by
  have := construct_end (h := h.setObj c ⟨c, xs.length + 1⟩) (v := w) v.size hn v.slot
  refine Points.call_seq (getObj_eq v.obj) (Points.call_seq (setObj_eq v.obj) (construct_points (h' := fv h c (xs ++ [w])) ?_ ?_))
  · show Vec.construct ⟨c, xs.length⟩ w (h.setObj c ⟨c, xs.length + 1⟩) = _
    rw [this]; simp [fv]
  · simp only [torn, lay_self h c xs 0 [] v.slot] at p0; exact p0

theorem fill_points : ∀ (ws xs : List T) (s : Src T) (h g : Mem T), IsFV N h c xs → Gives g s ws → g.Sub h →
    Points (fill N c ws.length s) h (min ws.length (N - xs.length)) () (fv h c ((xs ++ ws).take N)) fun k t => t = torn h c (xs ++ ws.take k)
  | [], xs, s, h, g, v, hg, hs => by
    rw [List.append_nil, List.take_of_length_le v.le, fv_self v, List.length_nil, Nat.zero_min]; exact Points.pure_
  | w :: ws, xs, s, h, g, v, hg, hs => by
    have le := v.le
    have e1 : fill N c (w :: ws).length s = (do
      let b ← Thr.call (full N c)
      if b then pure () else do
        let (v, s') ← Thr.call s.next
        appendOne c v
        fill N c ws.length s') := rfl
    rw [e1]
    refine Points.call_seq (full_ok v) ?_
    by_cases q : xs.length = N
    · simp only [q, decide_true, if_true, Nat.sub_self, Nat.min_zero]
      rw [List.take_append_of_le_length (by omega), List.take_of_length_le (by omega), fv_self v]; exact Points.pure_
    · simp only [q, decide_false, Bool.false_eq_true, if_false]
      refine Points.call_seq (hg.next hs) ?_
      have t := fill_points ws (xs ++ [w]) s.succ _ g (isFV_fv v (by simp; omega)) hg.2 (hs.trans (sub_fv_append v [w]))
      rw [fv_fv, List.append_assoc, List.singleton_append] at t
      refine Points.cast (n := 1 + min ws.length (N - (xs ++ [w]).length)) (by simp; omega) ?_
      refine Points.seq (appendOne_points v (by omega) w ?_) (t.imp ?_)
      · simp
      · intro k t _ e; rw [e, torn_fv, Nat.add_comm 1 k, List.take_succ_cons, List.append_assoc]; rfl

theorem pushBack_points (v : IsFV N h c xs) {x : Arg T} {w : T} (hx : x.get h = .ok (w, h)) :
    Points (pushBack N c x) h (min 1 (N - xs.length)) () (fv h c ((xs ++ [w]).take N)) fun k t => t = torn h c xs := by
  have le := v.le
  refine Points.call_seq (full_ok v) ?_
  by_cases q : xs.length = N
  · simp only [q, decide_true, if_true, Nat.sub_self, Nat.min_zero]
    rw [List.take_append_of_le_length (by omega), List.take_of_length_le (by omega), fv_self v]; exact Points.pure_
  · simp only [q, decide_false, Bool.false_eq_true, if_false]
    rw [List.take_of_length_le (by simp; omega)]
    exact Points.call_seq hx (Points.cast (n := 1) (by omega) (appendOne_points v (by omega) w rfl))

theorem pushAll_points : ∀ (ws xs : List T) (s : Src T) (h g : Mem T), IsFV N h c xs → Gives g s ws → g.Sub h →
    Points (pushAll N c ws.length s) h (min ws.length (N - xs.length)) () (fv h c ((xs ++ ws).take N)) fun k t => t = torn h c (xs ++ ws.take k)
  | [], xs, s, h, g, v, hg, hs => by
    rw [List.append_nil, List.take_of_length_le v.le, fv_self v, List.length_nil, Nat.zero_min]; exact Points.pure_
  | w :: ws, xs, s, h, g, v, hg, hs => by
    have le := v.le
    obtain ⟨⟨x, q1, q2⟩, hg2⟩ := hg
    have e1 : pushAll N c (w :: ws).length s = (do
      let b ← Thr.call (full N c)
      if b then pure () else do
        let a ← Thr.call s.deref
        pushBack N c a
        pushAll N c ws.length s.succ) := rfl
    rw [e1]
    refine Points.call_seq (full_ok v) ?_
    by_cases q : xs.length = N
    · simp only [q, decide_true, if_true, Nat.sub_self, Nat.min_zero]
      rw [List.take_append_of_le_length (by omega), List.take_of_length_le (by omega), fv_self v]; exact Points.pure_
    · simp only [q, decide_false, Bool.false_eq_true, if_false]
      refine Points.call_seq (q1 h) ?_
      have t := pushAll_points ws (xs ++ [w]) s.succ _ g (isFV_fv v (by simp; omega)) hg2 (hs.trans (sub_fv_append v [w]))
      rw [fv_fv, List.append_assoc, List.singleton_append] at t
      have b := pushBack_points v (q2 h hs)
      rw [List.take_of_length_le (l := xs ++ [w]) (by simp; omega)] at b
      refine Points.cast (n := min 1 (N - xs.length) + min ws.length (N - (xs ++ [w]).length)) (by simp; omega) ?_
      refine Points.seq (b.imp ?_) (t.imp ?_)
      · intro k t hk e; rw [show k = 0 by omega, e]; simp
      · intro k t _ e; rw [e, torn_fv, show min 1 (N - xs.length) + k = k + 1 by omega, List.take_succ_cons, List.append_assoc]; rfl

theorem copyFull_points (ne : d ≠ c) : ∀ (ws xs : List T) (i : Nat) (h : Mem T), IsFV N h c xs → IsFV N h d ys → i ≤ ys.length → ys.drop i = ws →
    Points (copyFull N c d ⟨d, i⟩) h (min ws.length (N - xs.length)) () (fv h c ((xs ++ ws).take N)) fun k t => t = torn h c (xs ++ ws.take k)
  | [], xs, i, h, v, vd, hi, e => by
    have : i = ys.length := by have := congrArg List.length e; simp at this; omega
    subst this
    rw [List.append_nil, List.take_of_length_le v.le, fv_self v, copyFull, List.length_nil, Nat.zero_min]
    refine Points.call_seq (end_ok vd) ?_
    rw [if_pos rfl]; exact Points.pure_
  | w :: ws, xs, i, h, v, vd, hi, e => by
    have le := v.le
    have hi' : i < ys.length := by have := congrArg List.length e; simp at this; omega
    have hw : ys[i]? = some w := by rw [← List.head?_drop, e]; rfl
    have hne : ¬ (Ptr.mk d i = ⟨d, ys.length⟩) := by simp; omega
    rw [copyFull]
    refine Points.call_seq (end_ok vd) ?_
    rw [if_neg hne]
    refine Points.call_seq (full_ok v) ?_
    by_cases q : xs.length = N
    · simp only [q, decide_true, if_true, Nat.sub_self, Nat.min_zero]
      rw [List.take_append_of_le_length (by omega), List.take_of_length_le (by omega), fv_self v]; exact Points.pure_
    · simp only [q, decide_false, Bool.false_eq_true, if_false]
      refine Points.call_seq (vd.holds hw).read ?_
      have t := copyFull_points ne ws (xs ++ [w]) (i + 1) _ (isFV_fv v (by simp; omega)) (isFV_fv_other vd ne) (by omega) (by rw [← List.drop_drop, e]; rfl)
      rw [fv_fv, List.append_assoc, List.singleton_append] at t
      refine Points.cast (n := 1 + min ws.length (N - (xs ++ [w]).length)) (by simp; omega) ?_
      refine Points.seq (appendOne_points v (by omega) w ?_) (t.imp ?_)
      · simp
      · intro k t _ e; rw [e, torn_fv, Nat.add_comm 1 k, List.take_succ_cons, List.append_assoc]; rfl

theorem copyAll_points (ne : d ≠ c) : ∀ (ws xs : List T) (i : Nat) (h : Mem T), IsFV N h c xs → IsFV N h d ys → i ≤ ys.length → ys.drop i = ws → xs.length + ws.length ≤ N →
    Points (copyAll c d ⟨d, i⟩) h ws.length () (fv h c (xs ++ ws)) fun k t => t = torn h c (xs ++ ws.take k)
  | [], xs, i, h, v, vd, hi, e, room => by
    have : i = ys.length := by have := congrArg List.length e; simp at this; omega
    subst this
    rw [List.append_nil, fv_self v, copyAll]
    refine Points.call_seq (end_ok vd) ?_
    rw [if_pos rfl]; exact Points.pure_
  | w :: ws, xs, i, h, v, vd, hi, e, room => by
    have le := v.le
    simp only [List.length_cons] at room
    have hi' : i < ys.length := by have := congrArg List.length e; simp at this; omega
    have hw : ys[i]? = some w := by rw [← List.head?_drop, e]; rfl
    have hne : ¬ (Ptr.mk d i = ⟨d, ys.length⟩) := by simp; omega
    rw [copyAll]
    refine Points.call_seq (end_ok vd) ?_
    rw [if_neg hne]
    refine Points.call_seq (vd.holds hw).read ?_
    have t := copyAll_points ne ws (xs ++ [w]) (i + 1) _ (isFV_fv v (by simp; omega)) (isFV_fv_other vd ne) (by omega) (by rw [← List.drop_drop, e]; rfl) (by simp; omega)
    rw [fv_fv, List.append_assoc, List.singleton_append] at t
    refine Points.cast (n := 1 + ws.length) (by simp; omega) ?_
    refine Points.seq (appendOne_points v (by omega) w ?_) (t.imp ?_)
    · simp
    · intro k t _ e; rw [e, torn_fv, Nat.add_comm 1 k, List.take_succ_cons, List.append_assoc]; rfl

theorem moveTail_points {a b : Nat} (ne : a ≠ b) : ∀ (ws xs : List T) (i : Nat) (h : Mem T), IsFV N h a xs → h.obj b = some ⟨b, i + ws.length⟩ →
    (∀ k v, ws[k]? = some v → h.Holds b (i + k) v) → xs.length + ws.length ≤ N →
    Points (moveTail a b ⟨b, i⟩) h ws.length ⟨b, i + ws.length⟩ (fv h a (xs ++ ws)) fun k t => t = torn h a (xs ++ ws.take k)
  | [], xs, i, h, v, ho, hr, le => by
    rw [moveTail, List.append_nil, fv_self v]
    refine Points.call_seq (getObj_eq ho) ?_
    refine Points.call_seq (less_eq ..) ?_
    simp only [List.length_nil, Nat.add_zero, Nat.lt_irrefl, decide_false, Bool.false_eq_true, if_false]
    exact Points.pure_
  | w :: ws, xs, i, h, v, ho, hr, le => by
    simp only [List.length_cons] at ho le ⊢
    have lt : i < i + (ws.length + 1) := by omega
    have r0 := (hr 0 w rfl).read
    rw [Nat.add_zero] at r0
    rw [moveTail]
    refine Points.call_seq (getObj_eq ho) ?_
    refine Points.call_seq (less_eq ..) ?_
    simp only [lt, decide_true, if_true]
    refine Points.call_seq r0 ?_
    have t := moveTail_points ne ws (xs ++ [w]) (i + 1) (fv h a (xs ++ [w])) (isFV_fv v (by simp; omega)) (by rw [fv_obj_other (Ne.symm ne), ho]; congr 2; omega)
      (by
        intro k u e
        obtain ⟨q1, q2⟩ := hr (k + 1) u (by simpa using e)
        rw [show i + 1 + k = i + (k + 1) by omega]
        exact ⟨q1, by rw [fv_slot_other (Ne.symm ne)]; exact q2⟩)
      (by simp; omega)
    rw [fv_fv, List.append_assoc, List.singleton_append, show i + 1 + ws.length = i + (ws.length + 1) by omega] at t
    refine Points.cast (n := 1 + ws.length) (by omega) ?_
    refine Points.seq (appendOne_points v (by omega) w ?_) (t.imp ?_)
    · simp
    · intro k t _ e; rw [e, torn_fv, Nat.add_comm 1 k, List.take_succ_cons, List.append_assoc]; rfl

theorem fillTo_fits_points : ∀ (us xs : List T) (s : Src T) (h g : Mem T), h.size c = some N → xs.length + us.length ≤ N → h.slot c = lay xs us.length ys →
    Gives g s us → g.Sub h → (∀ zs m', g.Sub (h.lay c (xs ++ zs) m' ys)) →
    Points (fillTo ⟨c, N⟩ us.length s ⟨c, xs.length⟩) h us.length () (h.lay c (xs ++ us) 0 ys) fun k t => t = h.lay c (xs ++ us.take k) (us.length - k) ys
  | [], xs, s, h, g, hs, hn, hl, hg, hsub, hk => by
    simp only [List.append_nil, List.length_nil] at hl ⊢
    rw [lay_self h c xs 0 ys hl]; exact Points.pure_
  | u :: us, xs, s, h, g, hs, hn, hl, hg, hsub, hk => by
    simp only [List.length_cons] at hn hl ⊢
    have lt : xs.length < N := by omega
    have e1 : fillTo ⟨c, N⟩ (us.length + 1) s ⟨c, xs.length⟩ = (do
      let b ← Thr.call (less ⟨c, xs.length⟩ ⟨c, N⟩)
      if b then do
        let (v, s') ← Thr.call s.next
        construct ⟨c, xs.length⟩ v
        fillTo ⟨c, N⟩ us.length s' (Ptr.mk c xs.length + 1)
      else pure ()) := rfl
    rw [e1]
    refine Points.call_seq (less_eq ..) ?_
    simp only [lt, decide_true, if_true]
    refine Points.call_seq (hg.next hsub) ?_
    have := fillTo_fits_points us (xs ++ [u]) s.succ (h.lay c (xs ++ [u]) us.length ys) g hs (by simp; omega) (by simp) hg.2 (hk [u] _)
      (by intro zs m'; rw [lay_lay, List.append_assoc]; exact hk _ _)
    simp only [List.length_append, List.length_singleton, lay_lay, List.append_assoc, List.singleton_append] at this
    refine Points.cast (n := 1 + us.length) (by omega) ?_
    refine Points.seq (construct_points (construct_left (v := u) (g := us.length) hs lt hl) ?_) (this.imp ?_)
    · simp [lay_self h c xs _ ys hl]
    · intro k t _ e; rw [e, Nat.add_comm 1 k, List.take_succ_cons, Nat.add_sub_add_right]

theorem fillTo_over_points : ∀ (us xs : List T) (s : Src T) (h g : Mem T), h.size c = some N → xs.length ≤ N → h.slot c = lay xs 0 [] →
    Gives g s us → g.Sub h → (∀ zs, g.Sub (h.lay c (xs ++ zs) 0 [])) →
    Points (fillTo ⟨c, N⟩ us.length s ⟨c, xs.length⟩) h (min us.length (N - xs.length)) () (h.lay c ((xs ++ us).take N) 0 []) fun k t => t = h.lay c (xs ++ us.take k) 0 []
  | [], xs, s, h, g, hs, hn, hl, hg, hsub, hk => by
    rw [List.append_nil, List.take_of_length_le hn, lay_self h c xs 0 [] hl, List.length_nil, Nat.zero_min]; exact Points.pure_
  | u :: us, xs, s, h, g, hs, hn, hl, hg, hsub, hk => by
    simp only [List.length_cons]
    have e1 : fillTo ⟨c, N⟩ (us.length + 1) s ⟨c, xs.length⟩ = (do
      let b ← Thr.call (less ⟨c, xs.length⟩ ⟨c, N⟩)
      if b then do
        let (v, s') ← Thr.call s.next
        construct ⟨c, xs.length⟩ v
        fillTo ⟨c, N⟩ us.length s' (Ptr.mk c xs.length + 1)
      else pure ()) := rfl
    rw [e1]
    refine Points.call_seq (less_eq ..) ?_
    by_cases lt : xs.length < N
    · simp only [lt, decide_true, if_true]
      refine Points.call_seq (hg.next hsub) ?_
      have := fillTo_over_points us (xs ++ [u]) s.succ (h.lay c (xs ++ [u]) 0 []) g hs (by simp; omega) (by simp) hg.2 (hk [u])
        (by intro zs; rw [lay_lay, List.append_assoc]; exact hk _)
      simp only [List.length_append, List.length_singleton, lay_lay, List.append_assoc, List.singleton_append] at this
      refine Points.cast (n := 1 + min us.length (N - (xs.length + 1))) (by omega) ?_
      refine Points.seq (construct_points (construct_end (v := u) hs lt hl) ?_) (this.imp ?_)
      · simp [lay_self h c xs _ [] hl]
      · intro k t _ e; rw [e, Nat.add_comm 1 k, List.take_succ_cons]
    · simp only [lt, decide_false, Bool.false_eq_true, if_false, show N - xs.length = 0 by omega, Nat.min_zero]
      rw [List.take_append_of_le_length (by omega), List.take_of_length_le hn, lay_self h c xs 0 [] hl]; exact Points.pure_

/-! ## What a throwing call leaves behind -/

/-- `last_` of `c` counts a slot that holds no object. -/
def Hole (N : Nat) (h : Mem T) (c : Nat) : Prop := ∃ n j, h.obj c = some ⟨c, n⟩ ∧ h.size c = some N ∧ n ≤ N ∧ j < n ∧ h.slot c j = none

/-- From `h` to `t` the fixed vector `c` got a hole; nothing else has changed. -/
structure Ruined (N : Nat) (h t : Mem T) (c : Nat) : Prop where
  others : ∀ d, d ≠ c → t.obj d = h.obj d ∧ t.slot d = h.slot d
  size : t.size = h.size
  fresh : t.fresh = h.fresh
  hole : Hole N t c

theorem torn_ruined (hs : h.size c = some N) (hz : zs.length < N) : Ruined N h (torn h c zs) c where
  others d q := ⟨upd_other _ _ q, upd_other _ _ q⟩
  size := rfl
  fresh := rfl
  hole := ⟨zs.length + 1, zs.length, set_obj_same .., hs, hz, Nat.lt_succ_self _, by
    simp only [torn, set_slot, lay_slot_same, lay_nil]; simp⟩

theorem gap_ruined {m g : Nat} (hs : h.size c = some N) (hm : m ≤ N) (hg : xs.length < m) (l : ys = [] ∨ 0 < g) :
    Ruined N h ((h.lay c xs g ys).setObj c ⟨c, m⟩) c where
  others d q := ⟨upd_other _ _ q, upd_other _ _ q⟩
  size := rfl
  fresh := rfl
  hole := ⟨m, xs.length, set_obj_same .., hs, hm, hg, by
    simp only [set_slot, lay_slot_same]
    rcases l with rfl | l
    · rw [lay_nil]; simp
    · exact lay_raw _ _ _ (Nat.le_refl _) (by omega)⟩

end Verif.Exc.XFv
