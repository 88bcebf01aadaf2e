import Verif.Vec.FLoops
/-!
# `swap`, assignment and resize of `ttl::fixed_vector`
-/
set_option linter.unusedVariables false
set_option linter.unusedSimpArgs false
namespace Verif.Vec.FV
open Verif Verif.Vec
variable {T : Type} {N n c d x i j a : Nat} {xs ys zs vs ws us : List T} {h h' : Mem T}

theorem heap_ext {ρ : Type} {g k : Heap ρ T} (h1 : g.obj = k.obj) (h2 : g.size = k.size) (h3 : g.slot = k.slot) (h4 : g.fresh = k.fresh) : g = k := by
  cases g; cases k; simp_all

/-- `swap_ranges` has exchanged the first `|u1|` elements and goes on behind them. -/
theorem swapRanges_go {ρ : Type} {a b n m e : Nat} {q1 q2 : List T} (ne : a ≠ b) : ∀ (u1 u2 p1 p2 : List T) (h : Heap ρ T), u1.length = u2.length →
    h.size a = some n → h.size b = some m → p1.length + u1.length ≤ n → p2.length + u2.length ≤ m → p1.length + u1.length ≤ e →
    h.slot a = lay (p1 ++ u1 ++ q1) 0 [] → h.slot b = lay (p2 ++ u2 ++ q2) 0 [] →
    swapRanges ⟨a, p1.length⟩ ⟨a, e⟩ ⟨b, p2.length⟩ h =
      swapRanges ⟨a, p1.length + u1.length⟩ ⟨a, e⟩ ⟨b, p2.length + u2.length⟩ ((h.lay a (p1 ++ u2 ++ q1) 0 []).lay b (p2 ++ u1 ++ q2) 0 [])
  | [], [], p1, p2, h, hl, sa, sb, la, lb, le, ha, hb => by
    simp only [List.append_nil, List.length_nil, Nat.add_zero] at *
    rw [lay_self _ _ _ _ _ ha, lay_self _ _ _ _ _ hb]
  | [], v :: u2, p1, p2, h, hl, sa, sb, la, lb, le, ha, hb => by simp at hl
  | v :: u1, [], p1, p2, h, hl, sa, sb, la, lb, le, ha, hb => by simp at hl
  | v :: u1, w :: u2, p1, p2, h, hl, sa, sb, la, lb, le, ha, hb => by
    simp only [List.length_cons, List.append_assoc, List.cons_append] at *
    have hne : ¬ (Ptr.mk a p1.length = ⟨a, e⟩) := by simp; omega
    rw [swapRanges]
    simp only [Prog.ite_app, if_neg hne]
    simp only [Prog.bind_app, read_left sa (show p1.length < n by omega) ha, read_left sb (show p2.length < m by omega) hb, Res.bind_ok,
      write_left (v := w) sa (show p1.length < n by omega) ha]
    have hb1 : (h.lay a (p1 ++ w :: (u1 ++ q1)) 0 []).slot b = lay (p2 ++ w :: (u2 ++ q2)) 0 [] := by
      rw [lay_slot_other _ _ _ _ _ (Ne.symm ne)]; exact hb
    rw [write_left (h := h.lay a (p1 ++ w :: (u1 ++ q1)) 0 []) (v := v) sb (show p2.length < m by omega) hb1]
    simp only [Res.bind_ok, ptr_add]
    have t := swapRanges_go (a := a) (b := b) (n := n) (m := m) (e := e) (q1 := q1) (q2 := q2) ne u1 u2 (p1 ++ [w]) (p2 ++ [v])
      ((h.lay a (p1 ++ w :: (u1 ++ q1)) 0 []).lay b (p2 ++ v :: (u2 ++ q2)) 0 []) (by omega) sa sb (by simp; omega) (by simp; omega) (by simp; omega)
      (by rw [lay_slot_other _ _ _ _ _ ne, lay_slot_same]; simp) (by rw [lay_slot_same]; simp)
    simp only [List.length_append, List.length_singleton, List.append_assoc, List.singleton_append] at t
    rw [t, show p1.length + 1 + u1.length = p1.length + (u1.length + 1) by omega, show p2.length + 1 + u2.length = p2.length + (u2.length + 1) by omega]
    congr 1
    refine heap_ext rfl rfl ?_ rfl
    simp only [lay_slot]
    rw [upd_comm _ _ _ (Ne.symm ne)]
    simp

theorem swapRanges_end {ρ : Type} {h : Heap ρ T} {p o : Ptr} : swapRanges p p o h = .ok (o, h) := by
  rw [swapRanges]; simp

/-- A range exchanged with itself. -/
theorem swapRanges_self {ρ : Type} {b : Nat} : ∀ (ws : List T) (i : Nat) (h : Heap ρ T), (∀ k v, ws[k]? = some v → h.Holds b (i + k) v) →
    swapRanges ⟨b, i⟩ ⟨b, i + ws.length⟩ ⟨b, i⟩ h = .ok (⟨b, i + ws.length⟩, h)
  | [], i, h, hr => swapRanges_end
  | w :: ws, i, h, hr => by
    have h0 := hr 0 w rfl
    obtain ⟨⟨n, s1, s2⟩, s3⟩ := h0
    simp only [Nat.add_zero] at s2 s3
    have hne : ¬ (Ptr.mk b i = ⟨b, i + (w :: ws).length⟩) := by simp
    have same : ({ h with slot := upd h.slot b (upd (h.slot b) i (some w)) } : Heap ρ T) = h := by
      have e : upd (h.slot b) i (some w) = h.slot b := by rw [← s3]; exact upd_self _ _
      refine heap_ext rfl rfl ?_ rfl
      show upd h.slot b _ = h.slot
      rw [e]; exact upd_self _ _
    rw [swapRanges]
    simp only [Prog.ite_app, if_neg hne]
    simp only [Prog.bind_app, read_eq (p := ⟨b, i⟩) s1 s2 s3, Res.bind_ok, write_eq (p := ⟨b, i⟩) (v := w) s1 s2 s3, same, ptr_add]
    have := swapRanges_self (b := b) ws (i + 1) h fun k v e => by
      have := hr (k + 1) v (by simpa using e); rwa [show i + 1 + k = i + (k + 1) by omega]
    rw [List.length_cons, show i + (ws.length + 1) = i + 1 + ws.length by omega]; exact this

theorem moveTail_ok {a b : Nat} (ne : a ≠ b) : ∀ (ws xs : List T) (i : Nat) (h : Mem T), IsFV N h a xs → h.obj b = some ⟨b, i + ws.length⟩ →
    (∀ k v, ws[k]? = some v → h.Holds b (i + k) v) → xs.length + ws.length ≤ N →
    moveTail a b ⟨b, i⟩ h = .ok (⟨b, i + ws.length⟩, fv h a (xs ++ ws))
  | [], xs, i, h, v, ho, hr, le => by
    rw [moveTail, List.append_nil, fv_self v]
    simp [getObj_eq ho, less_eq]
  | w :: ws, xs, i, h, v, ho, hr, le => by
    simp only [List.length_cons] at ho le ⊢
    have lt : i < i + (ws.length + 1) := by omega
    have r0 := (hr 0 w rfl).read
    rw [Nat.add_zero] at r0
    rw [moveTail]
    simp only [Prog.bind_app, getObj_eq ho, Res.bind_ok, less_eq, decide_eq_true_eq, Prog.ite_app, if_pos lt, r0, appendOne_ok v (show xs.length < N by omega), ptr_add]
    have t := moveTail_ok ne ws (xs ++ [w]) (i + 1) (fv h a (xs ++ [w])) (isFV_fv v (by simp; omega)) (by rw [fv_obj_other (Ne.symm ne), ho]; congr 2; omega)
      (by
        intro k u e
        obtain ⟨q1, q2⟩ := hr (k + 1) u (by simpa using e)
        rw [show i + 1 + k = i + (k + 1) by omega]
        exact ⟨q1, by rw [fv_slot_other (Ne.symm ne)]; exact q2⟩)
      (by simp; omega)
    rw [t, fv_fv, show i + 1 + ws.length = i + (ws.length + 1) by omega]
    simp

/-- `swap` with a fixed vector that is not shorter. -/
theorem swap_ok (v : IsFV N h c xs) (vx : IsFV N h x ys) (ne : c ≠ x) (le : xs.length ≤ ys.length) : swap c x h = .ok ((), fv (fv h c ys) x xs) := by
  have l1 := v.le
  have l2 := vx.le
  by_cases lt : xs.length < ys.length
  · have ht : (ys.take xs.length).length = xs.length := by simp; omega
    have hy := List.take_append_drop xs.length ys
    have hd : (ys.drop xs.length).length = ys.length - xs.length := by simp
    have g := swapRanges_go (a := c) (b := x) (n := N) (m := N) (e := xs.length) (q1 := []) (q2 := ys.drop xs.length) ne xs (ys.take xs.length) [] [] h ht.symm v.size vx.size
      (by simp; omega) (by simp; omega) (by simp) (by simp [v.slot]) (by rw [List.nil_append, hy]; exact vx.slot)
    simp only [List.length_nil, Nat.zero_add, List.nil_append, List.append_nil, ht, swapRanges_end] at g
    generalize hh1 : (h.lay c (ys.take xs.length) 0 []).lay x (xs ++ ys.drop xs.length) 0 [] = h1 at g
    have o1 : h1.obj = h.obj := by rw [← hh1]; rfl
    have s1 : h1.size = h.size := by rw [← hh1]; rfl
    have sx : h1.slot x = lay (xs ++ ys.drop xs.length) 0 [] := by rw [← hh1]; exact lay_slot_same ..
    have v1 : IsFV N h1 c (ys.take xs.length) :=
      ⟨by rw [o1, ht]; exact v.obj, by rw [← hh1, lay_slot_other _ _ _ _ _ ne]; exact lay_slot_same .., by rw [s1]; exact v.size, by omega⟩
    have m1 := moveTail_ok ne (ys.drop xs.length) (ys.take xs.length) xs.length h1 v1 (by rw [o1, vx.obj, hd]; congr 2; omega)
      (by
        intro k u e
        have hk := (List.getElem?_eq_some_iff.1 e).1
        refine ⟨⟨N, by rw [s1]; exact vx.size, by simp at hk; omega⟩, ?_⟩
        rw [sx, lay_nil]
        show (xs ++ ys.drop xs.length)[xs.length + k]? = some u
        rw [List.getElem?_append_right (by omega), show xs.length + k - xs.length = k by omega]; exact e)
      (by omega)
    rw [hd, show xs.length + (ys.length - xs.length) = ys.length by omega, hy] at m1
    have ho2 : (fv h1 c ys).obj x = some ⟨x, ys.length⟩ := by rw [fv_obj_other (Ne.symm ne), o1]; exact vx.obj
    have dd := destroyDown_ok (n := N) (b := x) (xs := xs) (ys.drop xs.length) ((fv h1 c ys).setObj x ⟨x, xs.length⟩) (fun _ => by show h1.size x = _; rw [s1]; exact vx.size) (by omega)
      (by rw [set_slot, fv_slot_other (Ne.symm ne)]; exact sx)
    rw [hd, show xs.length + (ys.length - xs.length) = ys.length by omega] at dd
    simp only [swap, Prog.bind_app, size_ok v, size_ok vx, Res.bind_ok, lt, decide_true, if_true, elements, ptr_add, Nat.zero_add, g, m1, setObj_eq ho2, getObj_eq (set_obj_same ..), dd]
    congr 2
    refine heap_ext ?_ ?_ ?_ ?_
    · show upd (upd h1.obj c _) x _ = upd (upd h.obj c _) x _
      rw [o1]
    · exact s1
    · show upd (upd h1.slot c _) x _ = upd (upd h.slot c _) x _
      rw [← hh1]
      simp only [lay_slot]
      rw [upd_comm _ _ _ (Ne.symm ne)]; simp
    · rw [← hh1]; rfl
  · have e : xs.length = ys.length := by omega
    have g := swapRanges_go (a := x) (b := c) (n := N) (m := N) (e := ys.length) (q1 := []) (q2 := []) (Ne.symm ne) ys xs [] [] h e.symm vx.size v.size
      (by simp; omega) (by simp; omega) (by simp) (by simp [vx.slot]) (by simp [v.slot])
    simp only [List.length_nil, Nat.zero_add, List.nil_append, List.append_nil, swapRanges_end] at g
    generalize hh1 : (h.lay x xs 0 []).lay c ys 0 [] = h1 at g
    have o1 : h1.obj = h.obj := by rw [← hh1]; rfl
    have ho : h1.obj c = some ⟨c, ys.length⟩ := by rw [o1, ← e]; exact v.obj
    have mt : moveTail x c ⟨c, ys.length⟩ h1 = .ok (⟨c, ys.length⟩, h1) := by
      rw [moveTail]; simp [getObj_eq ho, less_eq]
    have nlt : ¬ ys.length < ys.length := by omega
    simp only [swap, Prog.bind_app, size_ok v, size_ok vx, Res.bind_ok, e, nlt, decide_false, Bool.false_eq_true, if_false, elements, ptr_add, Nat.zero_add, g, mt, setObj_eq ho, getObj_eq (set_obj_same ..)]
    rw [destroyDown]
    simp only [Prog.bind_app, less_eq, Res.bind_ok, nlt, decide_false, Bool.false_eq_true, if_false, Prog.ite_app, Prog.pure_app]
    congr 2
    refine heap_ext ?_ ?_ ?_ ?_
    · show upd h1.obj c _ = upd (upd h.obj c _) x _
      rw [o1, upd_comm _ _ _ ne, e]
      congr 1
      have := upd_self h.obj x
      rw [vx.obj] at this; exact this.symm
    · rw [← hh1]; rfl
    · show h1.slot = upd (upd h.slot c _) x _
      rw [← hh1]
      simp only [lay_slot]
      rw [upd_comm _ _ _ (Ne.symm ne)]
    · rw [← hh1]; rfl

/-- `swap` with itself. -/
theorem swap_self (v : IsFV N h c xs) : swap c c h = .ok ((), h) := by
  have nlt : ¬ xs.length < xs.length := by omega
  have g := swapRanges_self (b := c) xs 0 h (fun k u e => by rw [Nat.zero_add]; exact v.holds e)
  rw [Nat.zero_add] at g
  have mt : moveTail c c ⟨c, xs.length⟩ h = .ok (⟨c, xs.length⟩, h) := by
    rw [moveTail]; simp [getObj_eq v.obj, less_eq]
  simp only [swap, Prog.bind_app, size_ok v, Res.bind_ok, nlt, decide_false, Bool.false_eq_true, if_false, elements, ptr_add, Nat.zero_add, g, mt, setObj_eq v.obj, getObj_eq (set_obj_same ..)]
  rw [destroyDown]
  simp only [Prog.bind_app, less_eq, Res.bind_ok, nlt, decide_false, Bool.false_eq_true, if_false, Prog.ite_app, Prog.pure_app]
  rw [set_self _ _ _ v.obj]

/-- `swap` with a shorter fixed vector reads behind the end of the shorter one. -/
theorem swap_longer_ub (v : IsFV N h c xs) (vx : IsFV N h x ys) (lt : ys.length < xs.length) : swap c x h = .ub .lifetime := by
  have l1 := v.le
  have l2 := vx.le
  have ne : c ≠ x := by
    rintro rfl
    have a := v.obj; rw [vx.obj] at a; simp only [Option.some.injEq, Ptr.mk.injEq] at a; omega
  have ht : (xs.take ys.length).length = ys.length := by simp; omega
  have hy := List.take_append_drop ys.length xs
  have nlt : ¬ xs.length < ys.length := by omega
  have g := swapRanges_go (a := x) (b := c) (n := N) (m := N) (e := xs.length) (q1 := []) (q2 := xs.drop ys.length) (Ne.symm ne) ys (xs.take ys.length) [] [] h ht.symm vx.size v.size
    (by simp; omega) (by simp; omega) (by simp; omega) (by simp [vx.slot]) (by rw [List.nil_append, hy]; exact v.slot)
  simp only [List.length_nil, Nat.zero_add, List.nil_append, List.append_nil] at g
  have hne : ¬ (Ptr.mk x ys.length = ⟨x, xs.length⟩) := by simp; omega
  rw [swapRanges] at g
  simp only [swap, Prog.bind_app, size_ok v, size_ok vx, Res.bind_ok, nlt, decide_false, Bool.false_eq_true, if_false, elements, ptr_add, Nat.zero_add]
  rw [swapRanges, g, swapRanges]
  simp only [Prog.ite_app, if_neg hne]
  simp only [Prog.bind_app]
  rw [read_raw (n := N) (p := ⟨x, ys.length⟩) (by exact vx.size) (by show ys.length < N; omega)]
  · rfl
  · show ((h.lay x _ 0 []).lay c _ 0 []).slot x ys.length = none
    rw [lay_slot_other _ _ _ _ _ (Ne.symm ne), lay_slot_same, lay_nil]
    show (xs.take ys.length)[ys.length]? = none
    rw [List.getElem?_eq_none]; simp; omega

theorem take_replicate_append (le : vs.length ≤ N) (dv : T) : (vs ++ List.replicate ((if N < n then N else n) - vs.length) dv).take N = (vs ++ List.replicate (n - vs.length) dv).take N := by
  rw [List.take_append, List.take_append, List.take_replicate, List.take_replicate]
  congr 2
  split <;> omega

theorem resize_ok (v : IsFV N h c vs) (dv : T) (n : Nat) :
    resize N dv c n h = .ok ((), fv h c (if n < vs.length then vs.take n else (vs ++ List.replicate (n - vs.length) dv).take N)) := by
  have le := v.le
  by_cases q : n < vs.length
  · have ht : (vs.take n).length = n := by simp; omega
    have t := shrinkTo_ok (N := N) (c := c) (xs := vs.take n) (vs.drop n) h (by rw [List.take_append_drop]; exact v)
    rw [ht] at t
    simp only [resize, Prog.bind_app, size_ok v, Res.bind_ok, if_pos q, elements, ptr_add, Nat.zero_add, t]
  · have t := insert_ok v (Nat.le_refl _) (.counter (.ext dv)) (us := List.replicate ((if N < n then N else n) - vs.length) dv) (gives_counter (fun _ _ => rfl) _)
    rw [List.length_replicate, List.take_length, List.drop_length, List.append_nil, take_replicate_append le] at t
    simp only [resize, Prog.bind_app, size_ok v, Res.bind_ok, if_neg q, end_ok v, insertN, t, Prog.pure_app]

theorem resizeX_ok (v : IsFV N h c vs) (dv : T) (n : Nat) {x : Arg T} {w : T} (g : ∀ k : Mem T, h.Sub k → x.get k = .ok (w, k)) :
    resizeX N dv c n x h = .ok ((), fv h c (if n < vs.length then vs.take n else (vs ++ List.replicate (n - vs.length) w).take N)) := by
  have le := v.le
  by_cases q : n < vs.length
  · have t := resize_ok v dv n
    rw [if_pos q] at t ⊢
    simp only [resizeX, Prog.bind_app, size_ok v, Res.bind_ok, if_pos q, t]
  · have t := insert_ok v (Nat.le_refl _) (.counter x) (us := List.replicate (n - vs.length) w) (by
      rw [List.take_length, lay_self _ _ _ _ _ v.slot]; exact gives_counter g _)
    rw [List.length_replicate, List.take_length, List.drop_length, List.append_nil] at t
    simp only [resizeX, Prog.bind_app, size_ok v, Res.bind_ok, if_neg q, end_ok v, insertN, t, Prog.pure_app]

theorem assign_ok (v : IsFV N h c xs) (vd : IsFV N h d ys) : assign c d h = .ok ((), fv h c (if d = c then [] else ys)) := by
  have v1 := isFV_fv (ws := []) v (Nat.zero_le _)
  by_cases q : d = c
  · subst q
    have e3 : copyAll d d ⟨d, 0⟩ (fv h d []) = .ok ((), fv h d []) := by
      rw [copyAll]; simp [end_ok v1]
    simp only [assign, Prog.bind_app, clear_ok xs h v, Res.bind_ok, begin_ok v1, e3, if_true]
  · have vd1 := isFV_fv_other (vs := []) vd q
    have t := copyAll_ok q ys [] 0 (fv h c []) v1 vd1 (Nat.zero_le _) rfl (by simp; exact vd.le)
    rw [List.nil_append, fv_fv] at t
    simp only [assign, Prog.bind_app, clear_ok xs h v, Res.bind_ok, begin_ok vd1, t, if_neg q]

theorem assignN_ok (v : IsFV N h c xs) {s : Src T} (g : Gives (h.lay c [] 0 []) s ws) : assignRange N c ws.length s h = .ok ((), fv h c (ws.take N)) := by
  have v1 := isFV_fv (ws := []) v (Nat.zero_le _)
  have t := fill_ok ws [] s (fv h c []) _ v1 g (sub_set _ _ (Heap.Sub.refl _))
  rw [List.nil_append, fv_fv] at t
  simp only [assignRange, Prog.bind_app, clear_ok xs h v, Res.bind_ok, t]

/-- `assign` with own elements as the source destroys them before they are copied. -/
theorem assign_own_ub (v : IsFV N h c xs) (ha : a < xs.length) (hn : 0 < n) {s : Src T} (hd : ∀ k : Mem T, s.deref k = .ok (.slot ⟨c, a⟩, k)) :
    assignRange N c n s h = .ub .lifetime := by
  have le := v.le
  have v1 := isFV_fv (ws := []) v (Nat.zero_le _)
  obtain ⟨m, rfl⟩ : ∃ m, n = m + 1 := ⟨n - 1, by omega⟩
  have q : ¬ (0 = N) := by omega
  simp only [assignRange, Prog.bind_app, clear_ok xs h v, Res.bind_ok, fill, full_ok v1, List.length_nil, decide_eq_true_eq, Prog.ite_app, if_neg q, Src.next, hd, Arg.get]
  rw [read_raw (n := N) (p := ⟨c, a⟩) (by exact v.size) (by show a < N; omega)]
  · rfl
  · show (fv h c []).slot c a = none
    rw [v1.slot, lay_nil]; simp

end Verif.Vec.FV
