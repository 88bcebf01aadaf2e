import Verif.Vec.FModel
import Verif.Vec.Loops
/-!
# What the loops and member functions of `ttl::fixed_vector` do
-/
set_option linter.unusedVariables false
set_option linter.unusedSimpArgs false
namespace Verif.Vec.FV
open Verif Verif.Vec
variable {T : Type} {N n c d i j a : Nat} {xs ys zs vs ws us : List T} {h h' : Mem T}

/-- `c` is a fixed vector with the elements `vs`: exactly the slots `[0, size())` of its storage hold objects. -/
structure IsFV (N : Nat) (h : Mem T) (c : Nat) (vs : List T) : Prop where
  obj : h.obj c = some ⟨c, vs.length⟩
  slot : h.slot c = lay vs 0 []
  size : h.size c = some N
  le : vs.length ≤ N

/-- Memory after the fixed vector `c` got the elements `vs`. -/
def fv (h : Mem T) (c : Nat) (vs : List T) : Mem T := (h.lay c vs 0 []).setObj c ⟨c, vs.length⟩

theorem isFV_fv (v : IsFV N h c vs) (hw : ws.length ≤ N) : IsFV N (fv h c ws) c ws :=
  ⟨set_obj_same .., lay_slot_same .., v.size, hw⟩
theorem fv_self (v : IsFV N h c vs) : fv h c vs = h := by
  simp only [fv]; rw [lay_self _ _ _ _ _ v.slot, set_self _ _ _ v.obj]
@[simp] theorem fv_fv : fv (fv h c vs) c ws = fv h c ws := by simp [fv]
theorem fv_obj_other (q : d ≠ c) : (fv h c vs).obj d = h.obj d := upd_other _ _ q
theorem fv_slot_other (q : d ≠ c) : (fv h c vs).slot d = h.slot d := upd_other _ _ q
@[simp] theorem fv_size : (fv h c vs).size = h.size := rfl
@[simp] theorem fv_fresh : (fv h c vs).fresh = h.fresh := rfl

theorem isFV_fv_other (v : IsFV N h d ys) (q : d ≠ c) : IsFV N (fv h c vs) d ys :=
  ⟨(fv_obj_other q).trans v.obj, (fv_slot_other q).trans v.slot, v.size, v.le⟩

theorem IsFV.holds (v : IsFV N h c vs) {k : Nat} {a : T} (q : vs[k]? = some a) : h.Holds c k a := by
  have hk : k < vs.length := (List.getElem?_eq_some_iff.1 q).1
  have := v.le
  exact ⟨⟨N, v.size, by omega⟩, by rw [v.slot, lay_nil]; exact q⟩

theorem begin_ok (v : IsFV N h c vs) : begin_ c h = .ok (⟨c, 0⟩, h) := by simp [begin_, getObj_eq v.obj, elements]
theorem end_ok (v : IsFV N h c vs) : end_ c h = .ok (⟨c, vs.length⟩, h) := by simp [end_, getObj_eq v.obj]
theorem size_ok (v : IsFV N h c vs) : size c h = .ok (vs.length, h) := by simp [size, getObj_eq v.obj, elements, diff_eq]
theorem empty_ok (v : IsFV N h c vs) : empty c h = .ok (vs.isEmpty, h) := by
  simp only [empty, Prog.bind_app, getObj_eq v.obj, Res.bind_ok, Prog.pure_app, elements]
  cases vs <;> simp
theorem full_ok (v : IsFV N h c vs) : full N c h = .ok (decide (vs.length = N), h) := by
  simp only [full, Prog.bind_app, getObj_eq v.obj, Res.bind_ok, Prog.pure_app, eoe]
  by_cases q : vs.length = N <;> simp [q]
theorem capacity_ok (v : IsFV N h c vs) : capacity N c h = .ok (N, h) := by simp [capacity, getObj_eq v.obj]
theorem at_ok (v : IsFV N h c vs) (i : Nat) : at_ c i h = .ok (⟨c, i⟩, h) := by simp [at_, getObj_eq v.obj, elements]
theorem back_ok (v : IsFV N h c vs) (q : vs ≠ []) : back c h = .ok (⟨c, vs.length - 1⟩, h) := by
  have : vs.length ≠ 0 := by intro e; exact q (List.eq_nil_of_length_eq_zero e)
  simp only [back, Prog.bind_app, end_ok v, Res.bind_ok]
  obtain ⟨k, hk⟩ := Nat.exists_eq_succ_of_ne_zero this
  rw [hk]; exact dec_eq _ _

theorem sub_fv_append (v : IsFV N h c xs) (ws : List T) : h.Sub (fv h c (xs ++ ws)) := sub_set _ _ (sub_append ws v.slot)

theorem appendOne_ok (v : IsFV N h c xs) (hn : xs.length < N) (w : T) : appendOne c w h = .ok ((), fv h c (xs ++ [w])) := by
  simp only [appendOne, Prog.bind_app, getObj_eq v.obj, setObj_eq v.obj, Res.bind_ok]
  rw [construct_end (h := h.setObj c _) (v := w) v.size hn v.slot]
  simp [fv]

theorem fill_ok : ∀ (ws xs : List T) (s : Src T) (h g : Mem T), IsFV N h c xs → Gives g s ws → g.Sub h →
    fill N c ws.length s h = .ok ((), fv h c ((xs ++ ws).take N))
  | [], xs, s, h, g, v, hg, hs => by
    rw [List.append_nil, List.take_of_length_le v.le, fv_self v]; rfl
  | w :: ws, xs, s, h, g, v, hg, hs => by
    have le := v.le
    simp only [List.length_cons, fill, Prog.bind_app, full_ok v, Res.bind_ok, Prog.ite_app, decide_eq_true_eq]
    by_cases q : xs.length = N
    · rw [if_pos q, List.take_append_of_le_length (by omega), List.take_of_length_le (by omega), fv_self v]; rfl
    · rw [if_neg q]
      simp only [Prog.bind_app, hg.next hs, Res.bind_ok, appendOne_ok v (by omega)]
      rw [fill_ok ws (xs ++ [w]) s.succ _ g (isFV_fv v (by simp; omega)) hg.2 (hs.trans (sub_fv_append v [w]))]
      simp

theorem pushBack_ok (v : IsFV N h c xs) {x : Arg T} {w : T} (hx : x.get h = .ok (w, h)) : pushBack N c x h = .ok ((), fv h c ((xs ++ [w]).take N)) := by
  have le := v.le
  simp only [pushBack, Prog.bind_app, full_ok v, Res.bind_ok, Prog.ite_app, decide_eq_true_eq]
  by_cases q : xs.length = N
  · rw [if_pos q, List.take_append_of_le_length (by omega), List.take_of_length_le (by omega), fv_self v]; rfl
  · rw [if_neg q]
    simp only [Prog.bind_app, hx, Res.bind_ok, appendOne_ok v (show xs.length < N by omega)]
    rw [List.take_of_length_le (by simp; omega)]

theorem pushAll_ok : ∀ (ws xs : List T) (s : Src T) (h g : Mem T), IsFV N h c xs → Gives g s ws → g.Sub h →
    pushAll N c ws.length s h = .ok ((), fv h c ((xs ++ ws).take N))
  | [], xs, s, h, g, v, hg, hs => by
    rw [List.append_nil, List.take_of_length_le v.le, fv_self v]; rfl
  | w :: ws, xs, s, h, g, v, hg, hs => by
    have le := v.le
    obtain ⟨⟨x, q1, q2⟩, hg2⟩ := hg
    simp only [List.length_cons, pushAll, Prog.bind_app, full_ok v, Res.bind_ok, Prog.ite_app, decide_eq_true_eq]
    by_cases q : xs.length = N
    · rw [if_pos q, List.take_append_of_le_length (by omega), List.take_of_length_le (by omega), fv_self v]; rfl
    · rw [if_neg q]
      simp only [Prog.bind_app, q1, Res.bind_ok, pushBack_ok v (q2 h hs)]
      rw [List.take_of_length_le (l := xs ++ [w]) (by simp; omega)]
      rw [pushAll_ok ws (xs ++ [w]) s.succ _ g (isFV_fv v (by simp; omega)) hg2 (hs.trans (sub_fv_append v [w]))]
      simp

theorem copyFull_ok (ne : d ≠ c) : ∀ (ws xs : List T) (i : Nat) (h : Mem T), IsFV N h c xs → IsFV N h d ys → i ≤ ys.length → ys.drop i = ws →
    copyFull N c d ⟨d, i⟩ h = .ok ((), fv h c ((xs ++ ws).take N))
  | [], xs, i, h, v, vd, hi, e => by
    have : i = ys.length := by have := congrArg List.length e; simp at this; omega
    subst this
    rw [List.append_nil, List.take_of_length_le v.le, fv_self v, copyFull]
    simp [end_ok vd]
  | w :: ws, xs, i, h, v, vd, hi, e => by
    have le := v.le
    have hi' : i < ys.length := by have := congrArg List.length e; simp at this; omega
    have hw : ys[i]? = some w := by rw [← List.head?_drop, e]; rfl
    have hne : ¬ (Ptr.mk d i = ⟨d, ys.length⟩) := by simp; omega
    rw [copyFull]
    simp only [Prog.bind_app, end_ok vd, Res.bind_ok, Prog.ite_app, if_neg hne, full_ok v, decide_eq_true_eq]
    by_cases q : xs.length = N
    · rw [if_pos q, List.take_append_of_le_length (by omega), List.take_of_length_le (by omega), fv_self v]; rfl
    · rw [if_neg q]
      simp only [Prog.bind_app, (vd.holds hw).read, Res.bind_ok, appendOne_ok v (show xs.length < N by omega), ptr_add]
      rw [copyFull_ok ne ws (xs ++ [w]) (i + 1) _ (isFV_fv v (by simp; omega)) (isFV_fv_other vd ne) (by omega) (by rw [← List.drop_drop, e]; rfl)]
      simp

theorem copyAll_ok (ne : d ≠ c) : ∀ (ws xs : List T) (i : Nat) (h : Mem T), IsFV N h c xs → IsFV N h d ys → i ≤ ys.length → ys.drop i = ws → xs.length + ws.length ≤ N →
    copyAll c d ⟨d, i⟩ h = .ok ((), fv h c (xs ++ ws))
  | [], xs, i, h, v, vd, hi, e, room => by
    have : i = ys.length := by have := congrArg List.length e; simp at this; omega
    subst this
    rw [List.append_nil, fv_self v, copyAll]
    simp [end_ok vd]
  | w :: ws, xs, i, h, v, vd, hi, e, room => by
    have le := v.le
    simp only [List.length_cons] at room
    have hi' : i < ys.length := by have := congrArg List.length e; simp at this; omega
    have hw : ys[i]? = some w := by rw [← List.head?_drop, e]; rfl
    have hne : ¬ (Ptr.mk d i = ⟨d, ys.length⟩) := by simp; omega
    rw [copyAll]
    simp only [Prog.bind_app, end_ok vd, Res.bind_ok, Prog.ite_app, if_neg hne]
    simp only [Prog.bind_app, (vd.holds hw).read, Res.bind_ok, appendOne_ok v (show xs.length < N by omega), ptr_add]
    rw [copyAll_ok ne ws (xs ++ [w]) (i + 1) _ (isFV_fv v (by simp; omega)) (isFV_fv_other vd ne) (by omega) (by rw [← List.drop_drop, e]; rfl) (by simp; omega)]
    simp

theorem pop_step (v : IsFV N h c (xs ++ [w])) :
    (do let p ← dec (← getObj c); setObj c p; destruct p : Prog (Mem T) Unit) h = .ok ((), fv h c xs) := by
  have ho := v.obj
  have le := v.le
  simp only [List.length_append, List.length_singleton] at ho le
  simp only [Prog.bind_app, getObj_eq ho, Res.bind_ok, dec_eq, setObj_eq ho]
  rw [destruct_left (h := h.setObj c _) (xs := xs) (a := w) v.size (by omega) v.slot]
  simp only [set_lay, fv]
  simp [Heap.lay, lay_gap xs (0 + 1) 0]

theorem popBack_ok (v : IsFV N h c vs) (q : vs ≠ []) : popBack c h = .ok ((), fv h c vs.dropLast) := by
  rcases List.eq_nil_or_concat vs with rfl | ⟨zs, a, rfl⟩
  · exact absurd rfl q
  rw [List.concat_eq_append] at v ⊢
  rw [List.dropLast_concat]; exact pop_step v

theorem clear_ok (vs : List T) : ∀ (h : Mem T), IsFV N h c vs → clear c h = .ok ((), fv h c []) := by
  induction vs using rev_ind with
  | h0 =>
    intro h v
    rw [fv_self v, clear]
    simp [empty_ok v]
  | h1 vs a ih =>
    intro h v
    have le := v.le
    have ps := pop_step v
    rw [clear]
    simp only [Prog.bind_app, empty_ok v, Res.bind_ok, Prog.ite_app, show (vs ++ [a]).isEmpty = false by simp, if_false, Bool.false_eq_true]
    have : ∀ (k : Prog (Mem T) Unit), (do let p ← dec (← getObj c); setObj c p; destruct p; k : Prog (Mem T) Unit) h = k (fv h c vs) := by
      intro k
      simp only [Prog.bind_app] at ps ⊢
      cases e1 : getObj c h with
      | ok x =>
        rw [e1] at ps
        simp only [Res.bind_ok] at ps ⊢
        cases e2 : dec x.1 x.2 with
        | ok y =>
          rw [e2] at ps
          simp only [Res.bind_ok] at ps ⊢
          cases e3 : setObj c y.1 y.2 with
          | ok z => rw [e3] at ps; simp only [Res.bind_ok] at ps ⊢; rw [ps]; rfl
          | ub f => rw [e3] at ps; cases ps
          | diverge => rw [e3] at ps; cases ps
        | ub f => rw [e2] at ps; cases ps
        | diverge => rw [e2] at ps; cases ps
      | ub f => rw [e1] at ps; cases ps
      | diverge => rw [e1] at ps; cases ps
    have t := this (clear c)
    simp only [Prog.bind_app] at t
    rw [t, ih _ (isFV_fv v (by simp at le; omega)), fv_fv]

theorem shrinkTo_ok (ws : List T) : ∀ (h : Mem T), IsFV N h c (xs ++ ws) → shrinkTo c ⟨c, xs.length⟩ h = .ok ((), fv h c xs) := by
  induction ws using rev_ind with
  | h0 =>
    intro h v
    rw [List.append_nil] at v
    rw [fv_self v, shrinkTo]
    simp [getObj_eq v.obj, less_eq]
  | h1 ws a ih =>
    intro h v
    have le := v.le
    rw [← List.append_assoc] at v
    have ho := v.obj
    have hl : (xs ++ ws ++ [a]).length = (xs ++ ws).length + 1 := by simp; omega
    have le' := v.le
    rw [hl] at ho le'
    have lt : xs.length < (xs ++ ws).length + 1 := by simp; omega
    rw [shrinkTo]
    simp only [Prog.bind_app, getObj_eq ho, Res.bind_ok, less_eq, decide_eq_true_eq, Prog.ite_app, if_pos lt, dec_eq, setObj_eq ho]
    rw [destruct_left (h := h.setObj c _) (xs := xs ++ ws) (a := a) v.size (by omega) v.slot]
    simp only [Res.bind_ok, set_lay]
    have e : (h.lay c (xs ++ ws) (0 + 1) []).setObj c ⟨c, (xs ++ ws).length⟩ = fv h c (xs ++ ws) := by
      simp only [fv, Heap.lay, lay_gap (xs ++ ws) (0 + 1) 0]
    rw [e, ih _ (isFV_fv v (by omega)), fv_fv]

theorem dropTail_ok (ws : List T) : ∀ (h : Mem T), h.size c = some N → h.slot c = lay (xs ++ ws) 0 [] → xs.length + ws.length ≤ N →
    dropTail ⟨c, N⟩ ⟨c, xs.length⟩ ⟨c, xs.length + ws.length⟩ ⟨c, xs.length + ws.length + n⟩ h =
      .ok ((⟨c, xs.length + min ws.length (N - n - xs.length)⟩, ⟨c, xs.length + min ws.length (N - n - xs.length) + n⟩),
        h.lay c (xs ++ ws.take (N - n - xs.length)) 0 []) := by
  induction ws using rev_ind with
  | h0 =>
    intro h hs hl le
    simp only [List.append_nil, List.length_nil, Nat.add_zero, Nat.zero_min, List.take_nil] at hl ⊢
    rw [lay_self h c xs 0 [] hl, dropTail]
    simp only [Prog.bind_app, less_eq, Res.bind_ok]
    split <;> rfl
  | h1 ws a ih =>
    intro h hs hl le
    simp only [List.length_append, List.length_singleton] at le ⊢
    rw [dropTail]
    simp only [Prog.bind_app, less_eq, Res.bind_ok, decide_eq_true_eq, Prog.ite_app]
    by_cases q : N < xs.length + (ws.length + 1) + n
    · have hne : ¬ (Ptr.mk c (xs.length + (ws.length + 1)) = ⟨c, xs.length⟩) := by simp
      simp only [if_pos q, if_neg hne]
      rw [show xs.length + (ws.length + 1) = (xs ++ ws).length + 1 by simp; omega,
        show (xs ++ ws).length + 1 + n = (xs ++ ws).length + n + 1 by omega]
      simp only [Prog.bind_app, dec_eq, Res.bind_ok]
      rw [destruct_left (h := h) (xs := xs ++ ws) (a := a) hs (by simp; omega) (by rw [hl, List.append_assoc])]
      simp only [Res.bind_ok, dec_eq]
      have t := ih (h.lay c (xs ++ ws) (0 + 1) []) hs (by simp [lay_gap _ (0 + 1) 0]) (by omega)
      rw [show (xs ++ ws).length = xs.length + ws.length by simp, t, lay_lay]
      have e1 : min ws.length (N - n - xs.length) = min (ws.length + 1) (N - n - xs.length) := by omega
      rw [e1, List.take_append_of_le_length (by omega)]
    · simp only [if_neg q]
      rw [show min (ws.length + 1) (N - n - xs.length) = ws.length + 1 by omega, List.take_of_length_le (by simp; omega), lay_self h c _ 0 [] hl]
      rfl

theorem fillTo_fits : ∀ (us xs : List T) (s : Src T) (h g : Mem T), h.size c = some N → xs.length + us.length ≤ N → h.slot c = lay xs us.length ys →
    Gives g s us → g.Sub h → (∀ zs m', g.Sub (h.lay c (xs ++ zs) m' ys)) → fillTo ⟨c, N⟩ us.length s ⟨c, xs.length⟩ h = .ok ((), h.lay c (xs ++ us) 0 ys)
  | [], xs, s, h, g, hs, hn, hl, hg, hsub, hk => by
    simp only [List.append_nil, List.length_nil] at hl ⊢
    rw [lay_self h c xs 0 ys hl]; rfl
  | u :: us, xs, s, h, g, hs, hn, hl, hg, hsub, hk => by
    simp only [List.length_cons] at hn hl ⊢
    have lt : xs.length < N := by omega
    simp only [fillTo, Prog.bind_app, less_eq, Res.bind_ok, decide_eq_true_eq, Prog.ite_app, if_pos lt, hg.next hsub]
    rw [construct_left (v := u) (g := us.length) hs lt hl]
    simp only [Res.bind_ok, ptr_add]
    have := fillTo_fits us (xs ++ [u]) s.succ (h.lay c (xs ++ [u]) us.length ys) g hs (by simp; omega) (by simp) hg.2 (hk [u] _)
      (by intro zs m'; rw [lay_lay, List.append_assoc]; exact hk _ _)
    simp only [List.length_append, List.length_singleton, lay_lay, List.append_assoc, List.singleton_append] at this
    exact this

theorem fillTo_over : ∀ (us xs : List T) (s : Src T) (h g : Mem T), h.size c = some N → xs.length ≤ N → h.slot c = lay xs 0 [] →
    Gives g s us → g.Sub h → (∀ zs, g.Sub (h.lay c (xs ++ zs) 0 [])) → fillTo ⟨c, N⟩ us.length s ⟨c, xs.length⟩ h = .ok ((), h.lay c ((xs ++ us).take N) 0 [])
  | [], xs, s, h, g, hs, hn, hl, hg, hsub, hk => by
    rw [List.append_nil, List.take_of_length_le hn, lay_self h c xs 0 [] hl]; rfl
  | u :: us, xs, s, h, g, hs, hn, hl, hg, hsub, hk => by
    simp only [List.length_cons, fillTo, Prog.bind_app, less_eq, Res.bind_ok, decide_eq_true_eq, Prog.ite_app]
    by_cases lt : xs.length < N
    · rw [if_pos lt]
      simp only [Prog.bind_app, hg.next hsub, Res.bind_ok]
      rw [construct_end (v := u) hs lt hl]
      simp only [Res.bind_ok, ptr_add]
      have := fillTo_over us (xs ++ [u]) s.succ (h.lay c (xs ++ [u]) 0 []) g hs (by simp; omega) (by simp) hg.2 (hk [u])
        (by intro zs; rw [lay_lay, List.append_assoc]; exact hk _)
      simp only [List.length_append, List.length_singleton, lay_lay, List.append_assoc, List.singleton_append] at this
      exact this
    · rw [if_neg lt, List.take_append_of_le_length (by omega), List.take_of_length_le hn, lay_self h c xs 0 [] hl]; rfl

/-- Memory when an insertion of `n` elements before `vs.drop i` has made room for them. -/
def gap (N : Nat) (h : Mem T) (c : Nat) (vs : List T) (i n : Nat) : Mem T :=
  (h.lay c (vs.take i) n ((vs.drop i).take (N - n - i))).setObj c ⟨c, min N (vs.length + n)⟩

theorem insert_start (v : IsFV N h c vs) (hi : i < vs.length) (hn : 0 < n) (s : Src T) :
    insertValues N c ⟨c, i⟩ n s h = (do fillTo ⟨c, N⟩ n s ⟨c, i⟩; return (← begin_ c) + i : Prog (Mem T) Ptr) (gap N h c vs i n) := by
  have le := v.le
  have ht : (vs.take i).length = i := by simp; omega
  have hd : (vs.drop i).length = vs.length - i := by simp
  have hn' : n ≠ 0 := by omega
  simp only [insertValues, Prog.bind_app, begin_ok v, Res.bind_ok, diff_eq _ (Nat.zero_le _), Nat.sub_zero, if_pos hn', end_ok v, less_eq, Prog.ite_app, decide_eq_true_eq, if_pos hi,
    elements, eoe, getObj_eq v.obj, ptr_add, Nat.zero_add]
  have c1 := dropTail_ok (N := N) (n := n) (c := c) (xs := vs.take i) (vs.drop i) h v.size (by rw [List.take_append_drop]; exact v.slot) (by rw [ht, hd]; omega)
  rw [ht, hd, show i + (vs.length - i) = vs.length by omega] at c1
  rw [c1]
  simp only [Res.bind_ok, less_eq, Prog.pure_app]
  generalize hk : min (vs.length - i) (N - n - i) = k
  have ho : (if decide (N < i + k + n) = true then (Ptr.mk c N) else ⟨c, i + k + n⟩) = ⟨c, min N (vs.length + n)⟩ := by
    by_cases q : N < i + k + n
    · simp only [decide_eq_true_eq, if_pos q]; congr 1; omega
    · simp only [decide_eq_true_eq, if_neg q]; congr 1; omega
  rw [ho, setObj_eq (h := Heap.lay h c _ _ _) (by exact v.obj)]
  simp only [Res.bind_ok]
  have hlt : ((vs.drop i).take (N - n - i)).length = k := by simp; omega
  by_cases q : k = 0
  · have e0 : (vs.drop i).take (N - n - i) = [] := List.eq_nil_of_length_eq_zero (by omega)
    have e1 : (h.lay c (vs.take i ++ (vs.drop i).take (N - n - i)) 0 []).setObj c ⟨c, min N (vs.length + n)⟩ = gap N h c vs i n := by
      simp only [gap, e0, List.append_nil, Heap.lay, lay_gap _ n 0]
    rw [q, Nat.add_zero, e1, shiftUp]
    simp only [if_true, Prog.pure_app, Res.bind_ok]
  · obtain ⟨g, hgg⟩ : ∃ g, n = g + 1 := ⟨n - 1, by omega⟩
    have c2 := shiftUp_ok (n := N) (b := c) (g := g) (xs := vs.take i) ((vs.drop i).take (N - n - i)) []
      ((h.lay c (vs.take i ++ (vs.drop i).take (N - n - i)) 0 []).setObj c ⟨c, min N (vs.length + n)⟩) v.size (by rw [ht, hlt]; omega)
      (by rw [set_slot, lay_slot_same, lay_gap])
    rw [ht, hlt, ← hgg, List.append_nil, show i + k + n = min N (vs.length + n) by omega, set_lay, lay_lay] at c2
    rw [c2]
    simp only [Res.bind_ok]; rfl

theorem insert_ok (v : IsFV N h c vs) (hi : i ≤ vs.length) (s : Src T) (hg : Gives (h.lay c (vs.take i) 0 []) s us) :
    insertValues N c ⟨c, i⟩ us.length s h = .ok (⟨c, i⟩, fv h c ((vs.take i ++ us ++ vs.drop i).take N)) := by
  have le := v.le
  have ht : (vs.take i).length = i := by simp; omega
  have hd : (vs.drop i).length = vs.length - i := by simp
  by_cases hn : us.length = 0
  · have : us = [] := List.eq_nil_of_length_eq_zero hn
    subst this
    rw [List.append_nil, List.take_append_drop, List.take_of_length_le le, fv_self v]
    simp [insertValues, begin_ok v, diff_eq]
  · by_cases q : i < vs.length
    · rw [insert_start v q (by omega)]
      have sub0 : (h.lay c (vs.take i) 0 []).Sub (gap N h c vs i us.length) := by
        refine sub_set _ _ ?_
        have := sub_prefix (h := h) (b := c) (vs.take i) [] us.length ((vs.drop i).take (N - us.length - i))
        rwa [List.append_nil] at this
      by_cases fits : i + us.length ≤ N
      · have c1 := fillTo_fits (N := N) (c := c) (ys := (vs.drop i).take (N - us.length - i)) us (vs.take i) s (gap N h c vs i us.length) (h.lay c (vs.take i) 0 [])
          v.size (by omega) (by simp only [gap, set_slot, lay_slot_same]) hg sub0
          (by intro zs m'; simp only [gap, set_lay, lay_lay]; exact sub_set _ _ (sub_prefix _ _ _ _))
        rw [ht] at c1
        have e : (vs.take i ++ us ++ vs.drop i).take N = vs.take i ++ us ++ (vs.drop i).take (N - us.length - i) := by
          rw [List.take_append, List.take_of_length_le (l := vs.take i ++ us) (by rw [List.length_append, ht]; omega), List.length_append, ht,
            show N - (i + us.length) = N - us.length - i by omega]
        simp only [Prog.bind_app, c1, Res.bind_ok]
        simp only [begin_, Prog.bind_app, gap, set_lay, lay_lay, getObj_eq (set_obj_same ..), Res.bind_ok, Prog.pure_app, elements, ptr_add, Nat.zero_add]
        have hlen : (vs.take i ++ us ++ (vs.drop i).take (N - us.length - i)).length = min N (vs.length + us.length) := by
          rw [List.length_append, List.length_append, ht, List.length_take, hd]; omega
        simp only [fv, e, hlen, Heap.lay, lay_zero (vs.take i ++ us)]
      · have e0 : (vs.drop i).take (N - us.length - i) = [] := by rw [show N - us.length - i = 0 by omega, List.take_zero]
        have eg : gap N h c vs i us.length = (h.lay c (vs.take i) 0 []).setObj c ⟨c, min N (vs.length + us.length)⟩ := by
          simp only [gap, e0, Heap.lay, lay_gap _ us.length 0]
        have c1 := fillTo_over (N := N) (c := c) us (vs.take i) s (gap N h c vs i us.length) (h.lay c (vs.take i) 0 [])
          v.size (by omega) (by rw [eg, set_slot, lay_slot_same]) hg sub0
          (by intro zs; rw [eg, set_lay, lay_lay]; exact sub_set _ _ (sub_prefix _ _ _ _))
        rw [ht] at c1
        have e : (vs.take i ++ us ++ vs.drop i).take N = (vs.take i ++ us).take N := by
          rw [List.take_append_of_le_length (by rw [List.length_append, ht]; omega)]
        simp only [Prog.bind_app, c1, Res.bind_ok]
        simp only [begin_, Prog.bind_app, eg, set_lay, lay_lay, getObj_eq (set_obj_same ..), Res.bind_ok, Prog.pure_app, elements, ptr_add, Nat.zero_add]
        have hlen : ((vs.take i ++ us).take N).length = min N (vs.length + us.length) := by
          rw [List.length_take, List.length_append, ht]; omega
        simp only [fv, e, hlen]
    · have hi' : i = vs.length := by omega
      subst hi'
      simp only [List.take_length, List.drop_length, List.append_nil] at hg ⊢
      rw [lay_self _ _ _ _ _ v.slot] at hg
      have c1 := fill_ok us vs s h h v hg (Heap.Sub.refl _)
      have v' := isFV_fv (ws := (vs ++ us).take N) v (by simp; omega)
      simp only [insertValues, Prog.bind_app, begin_ok v, Res.bind_ok, diff_eq _ (Nat.zero_le _), Nat.sub_zero, if_pos hn, end_ok v, less_eq, Prog.ite_app, decide_eq_true_eq, if_neg q, c1,
        begin_ok v', Prog.pure_app, ptr_add, Nat.zero_add]

/-- The argument is an element that the insertion has just moved away or dropped. -/
theorem insert_gap_ub (v : IsFV N h c vs) (hi : i ≤ a) (ha : a < vs.length) (hn : a < i + n) :
    insertN N c ⟨c, i⟩ n (.slot ⟨c, a⟩) h = .ub .lifetime := by
  have le := v.le
  obtain ⟨m, rfl⟩ : ∃ m, n = m + 1 := ⟨n - 1, by omega⟩
  have ht : (vs.take i).length = i := by simp; omega
  have lt : i < N := by omega
  rw [insertN, insert_start v (by omega) (by omega)]
  simp only [fillTo, Prog.bind_app, less_eq, Res.bind_ok, decide_eq_true_eq, Prog.ite_app, if_pos lt, Src.next, Src.deref, Arg.get, Prog.pure_app]
  rw [read_raw (n := N) (h := gap N h c vs i (m + 1)) (p := ⟨c, a⟩) (by exact v.size) (by show a < N; omega)]
  · rfl
  · show upd h.slot c (lay _ _ _) c a = none
    rw [upd_same]
    exact lay_raw _ _ _ (by omega) (by omega)

theorem fillTo_same {p : Ptr} {v : T} : ∀ (n : Nat) (xs : List T) (h : Mem T), h.size c = some N → xs.length + n ≤ N →
    h.slot c = lay xs n ys → (∀ zs k, zs.length + k = xs.length + n → read p (h.lay c zs k ys) = .ok (v, h.lay c zs k ys)) →
    fillTo ⟨c, N⟩ n (.counter (.slot p)) ⟨c, xs.length⟩ h = .ok ((), h.lay c (xs ++ List.replicate n v) 0 ys)
  | 0, xs, h, hs, hn, hl, hr => by
    simp only [List.replicate_zero, List.append_nil] at hl ⊢
    rw [lay_self h c xs 0 ys hl]; rfl
  | n + 1, xs, h, hs, hn, hl, hr => by
    have r0 := hr xs (n + 1) rfl
    rw [lay_self h c xs _ ys hl] at r0
    have lt : xs.length < N := by omega
    simp only [fillTo, Prog.bind_app, less_eq, Res.bind_ok, decide_eq_true_eq, Prog.ite_app, if_pos lt, Src.next, Src.deref, Arg.get, Prog.pure_app, r0]
    rw [construct_left (v := v) (g := n) hs lt hl]
    simp only [Res.bind_ok, ptr_add, Src.succ]
    have := fillTo_same (p := p) (v := v) n (xs ++ [v]) (h.lay c (xs ++ [v]) n ys) hs (by simp; omega) (by simp)
      (by intro zs k e; rw [lay_lay]; exact hr zs k (by simp at e; omega))
    simp only [List.length_append, List.length_singleton, lay_lay, List.append_assoc, List.singleton_append] at this
    rw [this]; rfl

/-- The argument is an element further behind: the insertion takes the element that has moved to its old place. -/
theorem insert_shifted_ok (v : IsFV N h c vs) (hi : i + n ≤ a) (ha : a < vs.length) (hn : 0 < n) {w : T} (hw : vs[a - n]? = some w) :
    insertN N c ⟨c, i⟩ n (.slot ⟨c, a⟩) h = .ok (⟨c, i⟩, fv h c ((vs.take i ++ List.replicate n w ++ vs.drop i).take N)) := by
  have le := v.le
  have ht : (vs.take i).length = i := by simp; omega
  have hd : (vs.drop i).length = vs.length - i := by simp
  rw [insertN, insert_start v (by omega) hn]
  have c1 := fillTo_same (N := N) (c := c) (ys := (vs.drop i).take (N - n - i)) (p := ⟨c, a⟩) (v := w) n (vs.take i) (gap N h c vs i n) v.size (by rw [ht]; omega)
    (by simp only [gap, set_slot, lay_slot_same])
    (by
      intro zs k e
      refine read_eq (n := N) (h := Heap.lay _ _ _ _ _) v.size (by show a < N; omega) ?_
      rw [lay_slot_same]
      show lay zs k ((vs.drop i).take (N - n - i)) a = some w
      rw [ht] at e
      have e1 : ¬ a < zs.length := by omega
      have e2 : ¬ a < zs.length + k := by omega
      simp only [lay, if_neg e1, if_neg e2]
      rw [List.getElem?_take_of_lt (by omega), List.getElem?_drop, show i + (a - (zs.length + k)) = a - n by omega]; exact hw)
  rw [ht] at c1
  have e : (vs.take i ++ List.replicate n w ++ vs.drop i).take N = vs.take i ++ List.replicate n w ++ (vs.drop i).take (N - n - i) := by
    rw [List.take_append, List.take_of_length_le (l := vs.take i ++ _) (by rw [List.length_append, ht, List.length_replicate]; omega), List.length_append, ht, List.length_replicate,
      show N - (i + n) = N - n - i by omega]
  simp only [Prog.bind_app, c1, Res.bind_ok]
  simp only [begin_, Prog.bind_app, gap, set_lay, lay_lay, getObj_eq (set_obj_same ..), Res.bind_ok, Prog.pure_app, elements, ptr_add, Nat.zero_add]
  have hlen : (vs.take i ++ List.replicate n w ++ (vs.drop i).take (N - n - i)).length = min N (vs.length + n) := by
    rw [List.length_append, List.length_append, ht, List.length_take, List.length_replicate, hd]; omega
  simp only [fv, e, hlen, Heap.lay, lay_zero (vs.take i ++ _)]

theorem eraseRange_ok (v : IsFV N h c vs) (hij : i < j) (hj : j ≤ vs.length) :
    eraseRange c ⟨c, i⟩ ⟨c, j⟩ h = .ok (⟨c, i⟩, fv h c (vs.take i ++ vs.drop j)) := by
  have le := v.le
  have ht : (vs.take i).length = i := by simp; omega
  have hm : ((vs.drop i).take (j - i)).length = j - i := by simp; omega
  have hd : (vs.drop j).length = vs.length - j := by simp
  have split : vs = (vs.take i ++ (vs.drop i).take (j - i)) ++ vs.drop j := by
    have e1 := List.take_append_drop (j - i) (vs.drop i)
    rw [List.drop_drop, show i + (j - i) = j by omega] at e1
    rw [List.append_assoc, e1, List.take_append_drop]
  simp only [eraseRange, Prog.bind_app, begin_ok v, Res.bind_ok, diff_eq _ (Nat.zero_le _), Nat.sub_zero, elements, ptr_add, Nat.zero_add]
  have c1 := destroyBack_ok (n := N) (b := c) (xs := vs.take i) (ys := vs.drop j) ((vs.drop i).take (j - i)) 0 h (fun _ => v.size) (by rw [ht, hm]; omega)
    (by rw [lay_zero, ← split]; exact v.slot)
  rw [ht, hm, show i + (j - i) = j by omega, Nat.zero_add] at c1
  rw [c1]
  simp only [Res.bind_ok, getObj_eq (h := Heap.lay h c _ _ _) (by exact v.obj)]
  obtain ⟨g, hg⟩ : ∃ g, j - i = g + 1 := ⟨j - i - 1, by omega⟩
  have c2 := shiftDown_ok (n := N) (b := c) (g := g) (vs.drop j) (vs.take i) (h.lay c (vs.take i) (j - i) (vs.drop j)) (fun _ => v.size)
    (by rw [ht, hd]; omega) (by rw [lay_slot_same, hg])
  rw [ht, hd, ← hg, show i + (j - i) = j by omega, show j + (vs.length - j) = vs.length by omega, lay_lay] at c2
  rw [c2]
  simp only [Res.bind_ok, setObj_eq (h := Heap.lay h c _ _ _) (by exact v.obj), begin_, Prog.bind_app, Prog.pure_app, getObj_eq (set_obj_same ..), ptr_add, Nat.zero_add, elements]
  simp only [fv, List.length_append, ht, hd]

theorem eraseRange_end (v : IsFV N h c vs) : eraseRange c ⟨c, vs.length⟩ ⟨c, vs.length⟩ h = .ok (⟨c, vs.length⟩, h) := by
  simp only [eraseRange, Prog.bind_app, begin_ok v, Res.bind_ok, diff_eq _ (Nat.zero_le _), Nat.sub_zero, ptr_add, Nat.zero_add, elements]
  rw [destroyBack]
  simp only [if_true, Prog.pure_app, Res.bind_ok, getObj_eq v.obj]
  rw [shiftDown]
  simp only [if_true, Prog.pure_app, Res.bind_ok, setObj_eq v.obj, begin_, Prog.bind_app, getObj_eq (set_obj_same ..), ptr_add, Nat.zero_add, elements]
  rw [set_self _ _ _ v.obj]

theorem erase_empty_ub (v : IsFV N h c vs) (hi : i < vs.length) : eraseRange c ⟨c, i⟩ ⟨c, i⟩ h = .ub .lifetime := by
  have le := v.le
  have hh := v.holds (List.getElem?_eq_getElem hi)
  simp only [eraseRange, Prog.bind_app, begin_ok v, Res.bind_ok, diff_eq _ (Nat.zero_le _), Nat.sub_zero, ptr_add, Nat.zero_add, elements]
  rw [destroyBack]
  simp only [if_true, Prog.pure_app, Res.bind_ok, getObj_eq v.obj]
  rw [shiftDown]
  have ne : ¬ (Ptr.mk c i = ⟨c, vs.length⟩) := by simp; omega
  simp only [Prog.ite_app, if_neg ne, Prog.bind_app, hh.read, Res.bind_ok]
  rw [construct_live (n := N) v.size (by show i < N; omega) hh.2]; rfl

theorem store_ok (v : IsFV N h c vs) (hi : i < vs.length) {x : Arg T} {w : T} (hx : x.get h = .ok (w, h)) :
    store c i x h = .ok ((), fv h c (vs.set i w)) := by
  have le := v.le
  have ht : (vs.take i).length = i := by simp; omega
  have e : vs = vs.take i ++ vs[i] :: vs.drop (i + 1) := by
    rw [← List.drop_eq_getElem_cons hi, List.take_append_drop]
  have e' : vs.set i w = vs.take i ++ w :: vs.drop (i + 1) := by
    rw [List.set_eq_take_append_cons_drop]; simp [hi]
  simp only [store, Prog.bind_app, hx, Res.bind_ok, at_ok v]
  have c1 := write_left (h := h) (b := c) (xs := vs.take i) (a := vs[i]) (zs := vs.drop (i + 1)) (v := w) (g := 0) (ys := []) v.size (by omega)
    (by rw [← e]; exact v.slot)
  rw [ht] at c1
  rw [c1, ← e']
  simp only [fv, List.length_set]
  rw [set_self]; exact v.obj

end Verif.Vec.FV
