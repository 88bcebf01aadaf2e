import Verif.Exc.FvOps
/-!
# `swap` of `ttl::fixed_vector` when element copies throw
-/
set_option linter.unusedVariables false
set_option linter.unusedSimpArgs false
namespace Verif.Exc.XFv
open Verif Verif.Vec.FV Verif.Exc
open Verif.Vec hiding CArg CSrc Call Legal Mem Reach Ret State World appendOne arg_ok assign assignN assignRange at_ at_ok back back_ok begin_ begin_ok capacity capacity_ok clear clear_ok copies_val copyAll copyAll_ok copyOf create ctor ctorN ctorRange destroy empty empty_ok empty₀ end_ end_ok equal erase eraseRange eraseRange_end exec front insert insertN insertRange insertValues notEqual popBack popBack_ok pushAll pushBack put_exists put_other put_put put_same put_self resize resizeX retOf shrinkTo shrinkTo_ok size size_ok spec src_ok step_ok store sub_made swap swap_ok toList vals_some world_start
variable {T ρ : Type} {N n c d x i j a : Nat} {xs ys zs vs ws us : List T} {h h' : Mem T} {dv : T}

theorem swapRanges_end_points {h : Heap ρ T} {p o : Ptr} {P : Nat → Heap ρ T → Prop} : Points (swapRanges p p o) h 0 o h P := by
  rw [swapRanges, if_pos rfl]; exact Points.pure_

/-- Of the elements `u1` and `u2`, which `swap_ranges` exchanges, the throwing operation `k` has left: in the first range `(k + 1) / 3` elements are from the second
one, in the second `k / 3` from the first. -/
def mixed (u1 u2 : List T) (j : Nat) : List T := u2.take j ++ u1.drop j

theorem mixed_cons (u w : T) (u1 u2 : List T) (j : Nat) : mixed (u :: u1) (w :: u2) (j + 1) = w :: mixed u1 u2 j := rfl
theorem mixed_zero (u1 u2 : List T) : mixed u1 u2 0 = u1 := rfl
theorem mixed_length (e : u1.length = u2.length) (j : Nat) : (mixed u1 u2 j).length = (u1 : List T).length := by simp [mixed]; omega

theorem swapRanges_points {a b n m : Nat} {q1 q2 : List T} (ne : a ≠ b) : ∀ (u1 u2 p1 p2 : List T) (h : Heap ρ T), u1.length = u2.length →
    h.size a = some n → h.size b = some m → p1.length + u1.length ≤ n → p2.length + u2.length ≤ m →
    h.slot a = lay (p1 ++ u1 ++ q1) 0 [] → h.slot b = lay (p2 ++ u2 ++ q2) 0 [] →
    Points (swapRanges ⟨a, p1.length⟩ ⟨a, p1.length + u1.length⟩ ⟨b, p2.length⟩) h (3 * u1.length) ⟨b, p2.length + u2.length⟩
      ((h.lay a (p1 ++ u2 ++ q1) 0 []).lay b (p2 ++ u1 ++ q2) 0 [])
      fun k t => t = (h.lay a (p1 ++ mixed u1 u2 ((k + 1) / 3) ++ q1) 0 []).lay b (p2 ++ mixed u2 u1 (k / 3) ++ q2) 0 []
  | [], [], p1, p2, h, hl, sa, sb, la, lb, ha, hb => by
    simp only [List.append_nil, List.length_nil, Nat.add_zero, Nat.mul_zero] at *
    rw [lay_self _ _ _ _ _ ha, lay_self _ _ _ _ _ hb]; exact swapRanges_end_points
  | [], v :: u2, p1, p2, h, hl, sa, sb, la, lb, ha, hb => by simp at hl
  | v :: u1, [], p1, p2, h, hl, sa, sb, la, lb, ha, hb => by simp at hl
  | v :: u1, w :: u2, p1, p2, h, hl, sa, sb, la, lb, ha, hb => by
    simp only [List.length_cons, List.append_assoc, List.cons_append] at *
    have hne : ¬ (Ptr.mk a p1.length = ⟨a, p1.length + (u1.length + 1)⟩) := by simp
    have hb1 : (h.lay a (p1 ++ w :: (u1 ++ q1)) 0 []).slot b = lay (p2 ++ w :: (u2 ++ q2)) 0 [] := by
      rw [lay_slot_other _ _ _ _ _ (Ne.symm ne)]; exact hb
    have t := swapRanges_points (a := a) (b := b) (n := n) (m := m) (q1 := q1) (q2 := q2) ne u1 u2 (p1 ++ [w]) (p2 ++ [v])
      ((h.lay a (p1 ++ w :: (u1 ++ q1)) 0 []).lay b (p2 ++ v :: (u2 ++ q2)) 0 []) (by omega) sa sb (by simp; omega) (by simp; omega)
      (by rw [lay_slot_other _ _ _ _ _ ne, lay_slot_same]; simp) (by rw [lay_slot_same]; simp)
    simp only [List.length_append, List.length_singleton, List.append_assoc, List.singleton_append] at t
    have comm : ∀ x y x' y' : List T, (((h.lay a x 0 []).lay b y 0 []).lay a x' 0 []).lay b y' 0 [] = (h.lay a x' 0 []).lay b y' 0 [] := by
      intro x y x' y'
      refine heap_ext rfl rfl ?_ rfl
      simp only [lay_slot]
      rw [upd_comm _ _ _ (Ne.symm ne)]
      simp
    rw [swapRanges, if_neg hne]
    refine Points.cast (n := 1 + (1 + (1 + 3 * u1.length))) (by omega) ?_
    refine Points.call_seq (read_left sa (show p1.length < n by omega) ha) ?_
    refine Points.seq (Points.point_ ?_) ?_
    · simp only [Nat.zero_add, Nat.reduceDiv, mixed_zero, List.cons_append]
      rw [lay_self _ _ _ _ _ ha, lay_self _ _ _ _ _ hb]
    refine Points.call_seq (read_left sb (show p2.length < m by omega) hb) ?_
    refine Points.seq (Points.point_ ?_) ?_
    · simp only [Nat.add_zero, Nat.reduceAdd, Nat.reduceDiv, mixed_zero, List.cons_append]
      rw [lay_self _ _ _ _ _ ha, lay_self _ _ _ _ _ hb]
    refine Points.call_seq (write_left (v := w) sa (show p1.length < n by omega) ha) ?_
    refine Points.seq (Points.point_ ?_) ?_
    · simp only [Nat.add_zero, Nat.reduceAdd, Nat.reduceDiv, mixed_zero, List.cons_append]
      rw [show mixed (v :: u1) (w :: u2) 1 = w :: u1 from rfl, List.cons_append, lay_self _ _ _ _ _ hb1]
    refine Points.call_seq (write_left (h := h.lay a (p1 ++ w :: (u1 ++ q1)) 0 []) (v := v) sb (show p2.length < m by omega) hb1) ?_
    rw [show p1.length + 1 + u1.length = p1.length + (u1.length + 1) by omega, show p2.length + 1 + u2.length = p2.length + (u2.length + 1) by omega, comm] at t
    refine t.imp ?_
    intro k t hk e
    rw [e, comm]
    rw [show (1 + (1 + (1 + k)) + 1) / 3 = (k + 1) / 3 + 1 by omega, show (1 + (1 + (1 + k))) / 3 = k / 3 + 1 by omega, mixed_cons, mixed_cons]

/-- A range exchanged with itself. -/
theorem swapRanges_self_points {b : Nat} : ∀ (ws : List T) (i : Nat) (h : Heap ρ T), (∀ k v, ws[k]? = some v → h.Holds b (i + k) v) →
    Points (swapRanges ⟨b, i⟩ ⟨b, i + ws.length⟩ ⟨b, i⟩) h (3 * ws.length) ⟨b, i + ws.length⟩ h fun _ t => t = h
  | [], i, h, hr => swapRanges_end_points
  | w :: ws, i, h, hr => by
    have h0 := hr 0 w rfl
    obtain ⟨⟨n, s1, s2⟩, s3⟩ := h0
    simp only [Nat.add_zero] at s2 s3
    have hne : ¬ (Ptr.mk b i = ⟨b, i + (w :: ws).length⟩) := by simp
    have same : ({ h with slot := upd h.slot b (upd (h.slot b) i (some w)) } : Heap ρ T) = h := by
      have e : upd (h.slot b) i (some w) = h.slot b := by rw [← s3]; exact upd_self _ _
      refine heap_ext rfl rfl ?_ rfl
      show upd h.slot b _ = h.slot
      rw [e]; exact upd_self _ _
    have wr : write ⟨b, i⟩ w h = .ok ((), h) := by rw [write_eq (p := ⟨b, i⟩) (v := w) s1 s2 s3, same]
    have := swapRanges_self_points (b := b) ws (i + 1) h fun k v e => by
      have := hr (k + 1) v (by simpa using e); rwa [show i + 1 + k = i + (k + 1) by omega]
    rw [List.length_cons, show i + (ws.length + 1) = i + 1 + ws.length by omega]
    rw [List.length_cons, show i + (ws.length + 1) = i + 1 + ws.length by omega] at hne
    rw [swapRanges, if_neg hne]
    refine Points.cast (n := 1 + (1 + (1 + 3 * ws.length))) (by omega) ?_
    refine Points.call_seq (read_eq (p := ⟨b, i⟩) s1 s2 s3) (Points.seq (Points.point_ rfl) ?_)
    refine Points.call_seq (read_eq (p := ⟨b, i⟩) s1 s2 s3) (Points.seq (Points.point_ rfl) ?_)
    refine Points.call_seq wr (Points.seq (Points.point_ rfl) ?_)
    exact Points.call_seq wr this

/-- Memory when `c` has `vs` and `d` has `ws`. -/
theorem lay2_fv (v : IsFV N h c xs) (vd : IsFV N h d ys) (ne : c ≠ d) (e1 : vs.length = xs.length) (e2 : ws.length = ys.length) :
    (h.lay c vs 0 []).lay d ws 0 [] = fv (fv h c vs) d ws := by
  refine heap_ext ?_ rfl rfl rfl
  show h.obj = upd (upd h.obj c _) d _
  rw [e1, e2, ← v.obj, upd_self, ← vd.obj, upd_self]

theorem fv_comm (ne : c ≠ d) : fv (fv h c vs) d ws = fv (fv h d ws) c vs := by
  refine heap_ext ?_ rfl ?_ rfl
  · exact upd_comm _ _ _ ne
  · exact upd_comm _ _ _ ne

/-- What a `swap` of `c` with the longer `d` leaves when the operation `k` throws. -/
def swapLeft (h : Mem T) (c d : Nat) (xs ys : List T) (k : Nat) : Mem T :=
  if xs.length = ys.length then fv (fv h c (mixed xs ys (k / 3))) d (mixed ys xs ((k + 1) / 3))
  else if k < 3 * xs.length then fv (fv h c (mixed xs (ys.take xs.length) ((k + 1) / 3))) d (mixed ys xs (k / 3))
  else torn (fv h d (xs ++ ys.drop xs.length)) c (ys.take (xs.length + (k - 3 * xs.length)))

theorem swap_points (v : IsFV N h c xs) (vx : IsFV N h x ys) (ne : c ≠ x) (le : xs.length ≤ ys.length) :
    Points (swap c x) h (3 * xs.length + (ys.length - xs.length)) () (fv (fv h c ys) x xs) fun k t => t = swapLeft h c x xs ys k := by
  have l1 := v.le
  have l2 := vx.le
  unfold swap
  refine Points.call_seq (size_ok v) (Points.call_seq (size_ok vx) ?_)
  by_cases lt : xs.length < ys.length
  · have ht : (ys.take xs.length).length = xs.length := by simp; omega
    have hy := List.take_append_drop xs.length ys
    have hd : (ys.drop xs.length).length = ys.length - xs.length := by simp
    have nel : ¬ xs.length = ys.length := by omega
    have g := swapRanges_points (a := c) (b := x) (n := N) (m := N) (q1 := []) (q2 := ys.drop xs.length) ne xs (ys.take xs.length) [] [] h ht.symm v.size vx.size
      (by simp; omega) (by simp; omega) (by simp [v.slot]) (by rw [List.nil_append, hy]; exact vx.slot)
    simp only [List.length_nil, Nat.zero_add, List.nil_append, List.append_nil, ht] at g
    rw [lay2_fv v vx ne (by simp; omega) (by simp; omega)] at g
    have v1 : IsFV N (fv h c (ys.take xs.length)) c (ys.take xs.length) := isFV_fv v (by omega)
    have vx1 : IsFV N (fv (fv h c (ys.take xs.length)) x (xs ++ ys.drop xs.length)) x (xs ++ ys.drop xs.length) :=
      isFV_fv (isFV_fv_other (c := c) vx (Ne.symm ne)) (by simp; omega)
    have v2 : IsFV N (fv (fv h c (ys.take xs.length)) x (xs ++ ys.drop xs.length)) c (ys.take xs.length) := isFV_fv_other v1 ne
    have m1 := moveTail_points ne (ys.drop xs.length) (ys.take xs.length) xs.length _ v2 (by rw [vx1.obj]; simp)
      (by
        intro k u e
        refine vx1.holds ?_
        rw [List.getElem?_append_right (by omega), show xs.length + k - xs.length = k by omega]; exact e)
      (by omega)
    rw [hd, show xs.length + (ys.length - xs.length) = ys.length by omega, hy, ← fv_comm ne, fv_fv] at m1
    simp only [if_pos lt, elements, ptr_add, Nat.zero_add]
    refine Points.call_seq (size_ok v) ?_
    refine Points.seq (g.imp ?_) (Points.cast (Nat.add_zero _) (Points.seq (m := 0) (m1.imp ?_) ?_))
    · intro k t hk e
      rw [e, swapLeft, if_neg nel, if_pos hk]
      have kk : k / 3 < xs.length := by omega
      have e1 : mixed (ys.take xs.length) xs (k / 3) ++ ys.drop xs.length = mixed ys xs (k / 3) := by
        simp only [mixed, List.append_assoc]
        congr 1
        rw [List.drop_take]
        have := List.take_append_drop (xs.length - k / 3) (ys.drop (k / 3))
        rw [List.drop_drop, show k / 3 + (xs.length - k / 3) = xs.length by omega] at this
        exact this
      rw [e1]
      exact lay2_fv v vx ne (mixed_length ht.symm _) (by simp [mixed]; omega)
    · intro k t hk e
      rw [e, swapLeft, if_neg nel, if_neg (by omega), show 3 * xs.length + k - 3 * xs.length = k by omega]
      have e1 : ys.take xs.length ++ (ys.drop xs.length).take k = ys.take (xs.length + k) := by rw [List.take_add]
      rw [e1, fv_comm ne, torn_fv]
    · have ho2 : (fv (fv h c ys) x (xs ++ ys.drop xs.length)).obj x = some ⟨x, ys.length⟩ := by
        rw [(isFV_fv (ws := xs ++ ys.drop xs.length) (isFV_fv_other (c := c) (vs := ys) vx (Ne.symm ne)) (by simp; omega)).obj]; simp; omega
      have dd := destroyDown_ok (n := N) (b := x) (xs := xs) (ys.drop xs.length) ((fv (fv h c ys) x (xs ++ ys.drop xs.length)).setObj x ⟨x, xs.length⟩) (fun _ => vx.size) (by omega)
        (by rw [set_slot]; exact (isFV_fv (ws := xs ++ ys.drop xs.length) (isFV_fv_other (c := c) (vs := ys) vx (Ne.symm ne)) (by simp; omega)).slot)
      rw [hd, show xs.length + (ys.length - xs.length) = ys.length by omega] at dd
      refine Points.call_ ?_
      simp only [Prog.bind_app, setObj_eq ho2, Res.bind_ok, getObj_eq (set_obj_same ..), dd]
      congr 2
      simp [fv]
  · have e : xs.length = ys.length := by omega
    have g := swapRanges_points (a := x) (b := c) (n := N) (m := N) (q1 := []) (q2 := []) (Ne.symm ne) ys xs [] [] h e.symm vx.size v.size
      (by simp; omega) (by simp; omega) (by simp [vx.slot]) (by simp [v.slot])
    simp only [List.length_nil, Nat.zero_add, List.nil_append, List.append_nil, e] at g
    rw [lay2_fv vx v (Ne.symm ne) (by omega) (by omega)] at g
    have v1 : IsFV N (fv (fv h x xs) c ys) c ys := isFV_fv (isFV_fv_other v ne) (by omega)
    have nlt : ¬ ys.length < ys.length := by omega
    simp only [if_neg lt, elements, ptr_add, Nat.zero_add]
    refine Points.call_seq (size_ok v) ?_
    rw [e, Nat.sub_self, fv_comm ne]
    refine Points.seq (m := 0) (g.imp ?_) (Points.seq (n := 0) (m := 0) (a := ⟨c, ys.length⟩) (s' := fv (fv h x xs) c ys) ?_ ?_)
    · intro k t hk e'
      rw [e', swapLeft, if_pos e]
      rw [lay2_fv vx v (Ne.symm ne) (mixed_length e.symm _) (mixed_length e _), fv_comm ne]
    · rw [moveTail]
      refine Points.call_seq (getObj_eq v1.obj) (Points.call_seq (less_eq ..) ?_)
      simp only [nlt, decide_false, Bool.false_eq_true, if_false]; exact Points.pure_
    · refine Points.call_ ?_
      rw [Prog.bind_app, setObj_eq v1.obj, set_self _ _ _ v1.obj]
      simp only [Res.bind_ok, Prog.bind_app, getObj_eq v1.obj]
      rw [destroyDown]
      simp only [Prog.bind_app, less_eq, Res.bind_ok, nlt, decide_false, Bool.false_eq_true, if_false, Prog.ite_app, Prog.pure_app]

/-- `swap` with itself. -/
theorem swap_self_points (v : IsFV N h c xs) : Points (swap c c) h (3 * xs.length) () h fun _ t => t = h := by
  have nlt : ¬ xs.length < xs.length := by omega
  have g := swapRanges_self_points (b := c) xs 0 h (fun k u e => by rw [Nat.zero_add]; exact v.holds e)
  rw [Nat.zero_add] at g
  unfold swap
  refine Points.call_seq (size_ok v) (Points.call_seq (size_ok v) ?_)
  simp only [if_neg nlt, elements, ptr_add, Nat.zero_add]
  refine Points.call_seq (size_ok v) ?_
  refine Points.seq (m := 0) g (Points.seq (n := 0) (m := 0) (a := ⟨c, xs.length⟩) (s' := h) ?_ ?_)
  · rw [moveTail]
    refine Points.call_seq (getObj_eq v.obj) (Points.call_seq (less_eq ..) ?_)
    simp only [nlt, decide_false, Bool.false_eq_true, if_false]; exact Points.pure_
  · refine Points.call_ ?_
    rw [Prog.bind_app, setObj_eq v.obj, set_self _ _ _ v.obj]
    simp only [Res.bind_ok, Prog.bind_app, getObj_eq v.obj]
    rw [destroyDown]
    simp only [Prog.bind_app, less_eq, Res.bind_ok, nlt, decide_false, Bool.false_eq_true, if_false, Prog.ite_app, Prog.pure_app]

end Verif.Exc.XFv
