import Verif.Exc.Fv
/-!
# The members of `ttl::fixed_vector` when element copies throw
-/
set_option linter.unusedVariables false
set_option linter.unusedSimpArgs false
namespace Verif.Exc.XFv
open Verif Verif.Vec.FV Verif.Exc
open Verif.Vec hiding CArg CSrc Call Legal Mem Reach Ret State World appendOne arg_ok assign assignN assignRange at_ at_ok back back_ok begin_ begin_ok capacity capacity_ok clear clear_ok copies_val copyAll copyAll_ok copyOf create ctor ctorN ctorRange destroy empty empty_ok empty₀ end_ end_ok equal erase eraseRange eraseRange_end exec front insert insertN insertRange insertValues notEqual popBack popBack_ok pushAll pushBack put_exists put_other put_put put_same put_self resize resizeX retOf shrinkTo shrinkTo_ok size size_ok spec src_ok step_ok store sub_made swap swap_ok toList vals_some world_start
open Verif.Exc.XVec (construct shiftUp shiftDown construct_points shiftUp_points shiftDown_points)
variable {T : Type} {N n c d i j a : Nat} {xs ys zs vs ws us : List T} {h h' : Mem T} {dv : T}

/-- How many elements an insertion of `n` elements at position `i` of `len` copies: those it moves and those it makes. -/
def insPts (N len i n : Nat) : Nat := if n = 0 then 0 else if i < len then min (len - i) (N - n - i) + min n (N - i) else min n (N - len)

theorem insertMid_points (v : IsFV N h c vs) (hi : i < vs.length) (hn : 0 < us.length) (s : Src T) (hg : Gives (h.lay c (vs.take i) 0 []) s us) :
    Points (insertValues N c ⟨c, i⟩ us.length s) h (min (vs.length - i) (N - us.length - i) + min us.length (N - i)) ⟨c, i⟩
      (fv h c ((vs.take i ++ us ++ vs.drop i).take N)) fun _ t => Ruined N h t c := by
  have le := v.le
  have ht : (vs.take i).length = i := by simp; omega
  have hd : (vs.drop i).length = vs.length - i := by simp
  have hn' : us.length ≠ 0 := by omega
  generalize hnn : us.length = n at *
  have c1 := dropTail_ok (N := N) (n := n) (c := c) (xs := vs.take i) (vs.drop i) h v.size (by rw [List.take_append_drop]; exact v.slot) (by rw [ht, hd]; omega)
  rw [ht, hd, show i + (vs.length - i) = vs.length by omega] at c1
  generalize hk : min (vs.length - i) (N - n - i) = k at *
  have hlt : ((vs.drop i).take (N - n - i)).length = k := by simp; omega
  have ho : (if decide (N < i + k + n) = true then (Ptr.mk c N) else ⟨c, i + k + n⟩) = ⟨c, min N (vs.length + n)⟩ := by
    by_cases q : N < i + k + n
    · simp only [decide_eq_true_eq, if_pos q]; congr 1; omega
    · simp only [decide_eq_true_eq, if_neg q]; congr 1; omega
  unfold insertValues
  refine Points.call_seq (begin_ok v) ?_
  refine Points.call_seq (a := i) (s' := h) (diff_eq _ (Nat.zero_le _)) ?_
  rw [if_pos hn']
  simp only [elements, eoe, ptr_add, Nat.zero_add]
  -- the tail
  have up : Points (shiftUp ⟨c, i + k⟩ ⟨c, i⟩ ⟨c, min N (vs.length + n)⟩)
      ((h.lay c (vs.take i ++ (vs.drop i).take (N - n - i)) 0 []).setObj c ⟨c, min N (vs.length + n)⟩) k () (gap N h c vs i n) fun _ t => Ruined N h t c := by
    by_cases q : k = 0
    · have e0 : (vs.drop i).take (N - n - i) = [] := List.eq_nil_of_length_eq_zero (by omega)
      have e1 : (h.lay c (vs.take i ++ (vs.drop i).take (N - n - i)) 0 []).setObj c ⟨c, min N (vs.length + n)⟩ = gap N h c vs i n := by
        simp only [gap, e0, List.append_nil, Heap.lay, lay_gap _ n 0]
      rw [q, Nat.add_zero, e1, XVec.shiftUp, if_pos rfl]; exact Points.pure_
    · obtain ⟨g, hgg⟩ : ∃ g, n = g + 1 := ⟨n - 1, by omega⟩
      have c2 := shiftUp_points (n := N) (b := c) (g := g) (xs := vs.take i) ((vs.drop i).take (N - n - i)) []
        ((h.lay c (vs.take i ++ (vs.drop i).take (N - n - i)) 0 []).setObj c ⟨c, min N (vs.length + n)⟩) v.size (by rw [ht, hlt]; omega)
        (by rw [set_slot, lay_slot_same, lay_gap])
      rw [ht, hlt, ← hgg, List.append_nil, show i + k + n = min N (vs.length + n) by omega, set_lay, lay_lay] at c2
      refine c2.imp ?_
      intro j t hj e
      rw [e, set_lay, lay_lay]
      refine gap_ruined v.size (by omega) ?_ (.inr (by omega))
      simp only [List.length_append, ht, List.length_take, hlt]; omega
  -- the new elements
  have new : Points (fillTo ⟨c, N⟩ n s ⟨c, i⟩) (gap N h c vs i n) (min n (N - i)) () (fv h c ((vs.take i ++ us ++ vs.drop i).take N)) fun _ t => Ruined N h t c := by
    have sub0 : (h.lay c (vs.take i) 0 []).Sub (gap N h c vs i n) := by
      refine sub_set _ _ ?_
      have := sub_prefix (h := h) (b := c) (vs.take i) [] n ((vs.drop i).take (N - n - i))
      rwa [List.append_nil] at this
    by_cases fits : i + n ≤ N
    · have c3 := fillTo_fits_points (N := N) (c := c) (ys := (vs.drop i).take (N - n - i)) us (vs.take i) s (gap N h c vs i n) (h.lay c (vs.take i) 0 [])
        v.size (by omega) (by simp only [gap, set_slot, lay_slot_same, hnn]) hg sub0
        (by intro zs m'; simp only [gap, set_lay, lay_lay]; exact sub_set _ _ (sub_prefix _ _ _ _))
      rw [ht, hnn] at c3
      have e : (vs.take i ++ us ++ vs.drop i).take N = vs.take i ++ us ++ (vs.drop i).take (N - n - i) := by
        rw [List.take_append, List.take_of_length_le (l := vs.take i ++ us) (by rw [List.length_append, ht]; omega), List.length_append, ht, hnn,
          show N - (i + n) = N - n - i by omega]
      have hlen : (vs.take i ++ us ++ (vs.drop i).take (N - n - i)).length = min N (vs.length + n) := by
        rw [List.length_append, List.length_append, ht, hlt, hnn]; omega
      have e2 : (gap N h c vs i n).lay c (vs.take i ++ us) 0 ((vs.drop i).take (N - n - i)) = fv h c ((vs.take i ++ us ++ vs.drop i).take N) := by
        rw [e]
        simp only [fv, gap, set_lay, lay_lay, hlen]
        simp only [Heap.lay, lay_zero (vs.take i ++ us)]
      rw [e2] at c3
      refine (Points.cast (by omega) c3).imp ?_
      intro j t hj e
      rw [e]
      simp only [gap, set_lay, lay_lay]
      refine gap_ruined v.size (by omega) ?_ (.inr (by omega))
      simp only [List.length_append, ht, List.length_take, hnn]; omega
    · have e0 : (vs.drop i).take (N - n - i) = [] := by rw [show N - n - i = 0 by omega, List.take_zero]
      have eg : gap N h c vs i n = (h.lay c (vs.take i) 0 []).setObj c ⟨c, min N (vs.length + n)⟩ := by
        simp only [gap, e0, Heap.lay, lay_gap _ n 0]
      have c3 := fillTo_over_points (N := N) (c := c) us (vs.take i) s (gap N h c vs i n) (h.lay c (vs.take i) 0 [])
        v.size (by omega) (by rw [eg, set_slot, lay_slot_same]) hg sub0
        (by intro zs; rw [eg, set_lay, lay_lay]; exact sub_set _ _ (sub_prefix _ _ _ _))
      rw [ht, hnn] at c3
      have e : (vs.take i ++ us ++ vs.drop i).take N = (vs.take i ++ us).take N := by
        rw [List.take_append_of_le_length (by rw [List.length_append, ht]; omega)]
      have hlen : ((vs.take i ++ us).take N).length = min N (vs.length + n) := by
        rw [List.length_take, List.length_append, ht]; omega
      have e2 : (gap N h c vs i n).lay c ((vs.take i ++ us).take N) 0 [] = fv h c ((vs.take i ++ us ++ vs.drop i).take N) := by
        simp only [fv, eg, set_lay, lay_lay, e, hlen]
      rw [e2] at c3
      refine c3.imp ?_
      intro j t hj e
      rw [e, eg]
      simp only [set_lay, lay_lay]
      refine gap_ruined v.size (by omega) ?_ (.inl rfl)
      simp only [List.length_append, ht, List.length_take, hnn]; omega
  refine Points.call_seq (end_ok v) ?_
  refine Points.call_seq (less_eq ..) ?_
  simp only [hi, decide_true, if_true]
  refine Points.call_seq (getObj_eq v.obj) ?_
  refine Points.call_seq (by simp only [ptr_add]; exact c1) ?_
  refine Points.call_seq (less_eq ..) ?_
  simp only [ho]
  refine Points.call_seq (setObj_eq (h := Heap.lay h c _ _ _) (by exact v.obj)) ?_
  refine Points.seq up (Points.cast (Nat.add_zero _) (Points.seq (m := 0) new ?_))
  refine Points.call_seq (begin_ok (isFV_fv (ws := (vs.take i ++ us ++ vs.drop i).take N) v (take_le _))) ?_
  have : (⟨c, i⟩ : Ptr) = Ptr.mk c 0 + i := by simp
  rw [this]; exact Points.pure_

theorem insertValues_points (v : IsFV N h c vs) (hi : i ≤ vs.length) (s : Src T) (hg : Gives (h.lay c (vs.take i) 0 []) s us) :
    Points (insertValues N c ⟨c, i⟩ us.length s) h (insPts N vs.length i us.length) ⟨c, i⟩
      (fv h c ((vs.take i ++ us ++ vs.drop i).take N)) fun _ t => Ruined N h t c := by
  have le := v.le
  have e0 : (⟨c, i⟩ : Ptr) = Ptr.mk c 0 + i := by simp
  by_cases hn : us.length = 0
  · have : us = [] := List.eq_nil_of_length_eq_zero hn
    subst this
    rw [List.append_nil, List.take_append_drop, List.take_of_length_le le, fv_self v]
    simp only [insPts, List.length_nil, if_true]
    unfold insertValues
    refine Points.call_seq (begin_ok v) ?_
    refine Points.call_seq (a := i) (s' := h) (diff_eq _ (Nat.zero_le _)) ?_
    rw [if_neg (by simp)]
    refine Points.call_seq (begin_ok v) ?_
    rw [e0]; exact Points.pure_
  · by_cases q : i < vs.length
    · simp only [insPts, if_neg hn, if_pos q]
      exact insertMid_points v q (by omega) s hg
    · have hi' : i = vs.length := by omega
      subst hi'
      simp only [insPts, if_neg hn, if_neg q]
      simp only [List.take_length, List.drop_length, List.append_nil] at hg ⊢
      rw [lay_self _ _ _ _ _ v.slot] at hg
      have c1 := fill_points us vs s h h v hg (Heap.Sub.refl _)
      unfold insertValues
      refine Points.call_seq (begin_ok v) ?_
      refine Points.call_seq (a := vs.length) (s' := h) (diff_eq _ (Nat.zero_le _)) ?_
      rw [if_pos hn]
      refine Points.call_seq (end_ok v) ?_
      refine Points.call_seq (less_eq ..) ?_
      simp only [q, decide_false, Bool.false_eq_true, if_false]
      refine Points.cast (Nat.add_zero _) (Points.seq (n := min us.length (N - vs.length)) (m := 0) (a := ()) (s' := fv h c ((vs ++ us).take N)) (c1.imp ?_) ?_)
      · intro k t hk e
        rw [e]
        refine torn_ruined v.size ?_
        simp only [List.length_append, List.length_take]; omega
      · refine Points.call_seq (begin_ok (isFV_fv (ws := (vs ++ us).take N) v (take_le _))) ?_
        rw [e0]; exact Points.pure_

theorem eraseRange_points (v : IsFV N h c vs) (hij : i < j) (hj : j ≤ vs.length) :
    Points (eraseRange c ⟨c, i⟩ ⟨c, j⟩) h (vs.length - j) ⟨c, i⟩ (fv h c (vs.take i ++ vs.drop j)) fun _ t => Ruined N h t c := by
  have le := v.le
  have ht : (vs.take i).length = i := by simp; omega
  have hm : ((vs.drop i).take (j - i)).length = j - i := by simp; omega
  have hd : (vs.drop j).length = vs.length - j := by simp
  have split : vs = (vs.take i ++ (vs.drop i).take (j - i)) ++ vs.drop j := by
    have e1 := List.take_append_drop (j - i) (vs.drop i)
    rw [List.drop_drop, show i + (j - i) = j by omega] at e1
    rw [List.append_assoc, e1, List.take_append_drop]
  have c1 := destroyBack_ok (n := N) (b := c) (xs := vs.take i) (ys := vs.drop j) ((vs.drop i).take (j - i)) 0 h (fun _ => v.size) (by rw [ht, hm]; omega)
    (by rw [lay_zero, ← split]; exact v.slot)
  rw [ht, hm, show i + (j - i) = j by omega, Nat.zero_add] at c1
  obtain ⟨g, hg⟩ : ∃ g, j - i = g + 1 := ⟨j - i - 1, by omega⟩
  have c2 := shiftDown_points (n := N) (b := c) (g := g) (vs.drop j) (vs.take i) (h.lay c (vs.take i) (j - i) (vs.drop j)) (fun _ => v.size)
    (by rw [ht, hd]; omega) (by rw [lay_slot_same, hg])
  rw [ht, hd, ← hg, show i + (j - i) = j by omega, show j + (vs.length - j) = vs.length by omega, lay_lay] at c2
  unfold eraseRange
  refine Points.call_seq (begin_ok v) ?_
  refine Points.call_seq (a := i) (s' := h) (diff_eq _ (Nat.zero_le _)) ?_
  refine Points.call_seq (begin_ok v) ?_
  refine Points.call_seq (a := j) (s' := h) (diff_eq _ (Nat.zero_le _)) ?_
  simp only [elements, ptr_add, Nat.zero_add]
  refine Points.call_seq c1 ?_
  refine Points.call_seq (getObj_eq (h := Heap.lay h c _ _ _) (by exact v.obj)) ?_
  refine Points.seq (m := 0) (c2.imp ?_) ?_
  · intro k t hk e
    rw [e, lay_lay]
    have := gap_ruined (N := N) (h := h) (c := c) (xs := vs.take i ++ (vs.drop j).take k) (ys := (vs.drop j).drop k) (m := vs.length) (g := j - i) v.size le
      (by simp only [List.length_append, ht, List.length_take, hd]; omega) (.inr (by omega))
    rw [set_self] at this
    · exact this
    · exact v.obj
  · refine Points.call_seq (setObj_eq (h := Heap.lay h c _ _ _) (by exact v.obj)) ?_
    have v' : IsFV N (fv h c (vs.take i ++ vs.drop j)) c (vs.take i ++ vs.drop j) := isFV_fv v (by simp only [List.length_append, ht, hd]; omega)
    have e : (h.lay c (vs.take i ++ vs.drop j) 0 []).setObj c ⟨c, i + (vs.length - j)⟩ = fv h c (vs.take i ++ vs.drop j) := by
      simp only [fv, List.length_append, ht, hd]
    rw [e]
    refine Points.call_seq (begin_ok v') ?_
    have e0 : (⟨c, i⟩ : Ptr) = Ptr.mk c 0 + i := by simp
    rw [e0]; exact Points.pure_

theorem eraseRange_end_points {P : Nat → Mem T → Prop} (v : IsFV N h c vs) : Points (eraseRange c ⟨c, vs.length⟩ ⟨c, vs.length⟩) h 0 ⟨c, vs.length⟩ h P := by
  unfold eraseRange
  refine Points.call_seq (begin_ok v) ?_
  refine Points.call_seq (a := vs.length) (s' := h) (diff_eq _ (Nat.zero_le _)) ?_
  refine Points.call_seq (begin_ok v) ?_
  refine Points.call_seq (a := vs.length) (s' := h) (diff_eq _ (Nat.zero_le _)) ?_
  simp only [elements, ptr_add, Nat.zero_add]
  refine Points.call_seq (a := ()) (s' := h) (by rw [destroyBack]; simp) ?_
  refine Points.call_seq (getObj_eq v.obj) ?_
  refine Points.seq (n := 0) (m := 0) (a := ⟨c, vs.length⟩) (s' := h) (by rw [XVec.shiftDown, if_pos rfl]; exact Points.pure_) ?_
  refine Points.call_seq (s' := h) (by rw [setObj_eq v.obj, set_self _ _ _ v.obj]) ?_
  refine Points.call_seq (begin_ok v) ?_
  have e0 : (⟨c, vs.length⟩ : Ptr) = Ptr.mk c 0 + vs.length := by simp
  rw [e0]; exact Points.pure_

theorem resize_points (v : IsFV N h c vs) (dv : T) (n : Nat) :
    Points (resize N dv c n) h (if n < vs.length then 0 else 1 + insPts N vs.length vs.length ((if N < n then N else n) - vs.length)) ()
      (fv h c (if n < vs.length then vs.take n else (vs ++ List.replicate (n - vs.length) dv).take N)) fun k t => (k = 0 ∧ t = h) ∨ 0 < k ∧ Ruined N h t c := by
  have le := v.le
  unfold resize
  refine Points.call_seq (size_ok v) ?_
  by_cases q : n < vs.length
  · have ht : (vs.take n).length = n := by simp; omega
    have t := shrinkTo_ok (N := N) (c := c) (xs := vs.take n) (vs.drop n) h (by rw [List.take_append_drop]; exact v)
    rw [ht] at t
    simp only [if_pos q, elements, ptr_add, Nat.zero_add]
    exact Points.call_ t
  · have t := insertValues_points v (Nat.le_refl _) (.counter (.ext dv)) (us := List.replicate ((if N < n then N else n) - vs.length) dv) (gives_counter (fun _ _ => rfl) _)
    rw [List.length_replicate, List.take_length, List.drop_length, List.append_nil, take_replicate_append le] at t
    simp only [if_neg q]
    refine Points.call_seq (end_ok v) (Points.call_seq (size_ok v) (Points.seq (Points.point_ (.inl ⟨rfl, rfl⟩)) ?_))
    refine Points.seq_pure (g := fun _ => ()) (t.imp ?_)
    intro k t _ r; exact .inr ⟨by omega, r⟩

theorem resizeX_points (v : IsFV N h c vs) (dv : T) (n : Nat) {x : Arg T} {w : T} (g : ∀ k : Mem T, h.Sub k → x.get k = .ok (w, k)) :
    Points (resizeX N dv c n x) h (if n < vs.length then 0 else insPts N vs.length vs.length (n - vs.length)) ()
      (fv h c (if n < vs.length then vs.take n else (vs ++ List.replicate (n - vs.length) w).take N)) fun _ t => Ruined N h t c := by
  have le := v.le
  unfold resizeX
  refine Points.call_seq (size_ok v) ?_
  by_cases q : n < vs.length
  · have t := resize_points v dv n
    rw [if_pos q] at t ⊢
    rw [if_pos q] at t ⊢
    rw [if_pos q]
    exact t.imp fun k _ hk _ => absurd hk (Nat.not_lt_zero _)
  · have t := insertValues_points v (Nat.le_refl _) (.counter x) (us := List.replicate (n - vs.length) w) (by
      rw [List.take_length, lay_self _ _ _ _ _ v.slot]; exact gives_counter g _)
    rw [List.length_replicate, List.take_length, List.drop_length, List.append_nil] at t
    simp only [if_neg q]
    exact Points.call_seq (end_ok v) (Points.call_seq (size_ok v) (Points.seq_pure (g := fun _ => ()) t))

/-- `assign` to `[]` with other elements only. -/
theorem fv_ruined (v : IsFV N h c vs) {t : Mem T} (r : Ruined N (fv h c ws) t c) : Ruined N h t c :=
  ⟨fun d q => by rw [(r.others d q).1, (r.others d q).2]; exact ⟨fv_obj_other q, fv_slot_other q⟩, r.size, r.fresh, r.hole⟩

theorem assign_points (v : IsFV N h c xs) (vd : IsFV N h d ys) :
    Points (assign c d) h (if d = c then 0 else ys.length) () (fv h c (if d = c then [] else ys)) fun _ t => Ruined N h t c := by
  have v1 := isFV_fv (ws := []) v (Nat.zero_le _)
  unfold assign
  refine Points.call_seq (clear_ok xs h v) ?_
  by_cases q : d = c
  · subst q
    rw [if_pos rfl, if_pos rfl]
    refine Points.call_seq (begin_ok v1) ?_
    rw [copyAll]
    refine Points.call_seq (end_ok v1) ?_
    rw [if_pos (by rfl)]; exact Points.pure_
  · have vd1 := isFV_fv_other (vs := []) vd q
    have t := copyAll_points q ys [] 0 (fv h c []) v1 vd1 (Nat.zero_le _) rfl (by simp; exact vd.le)
    rw [List.nil_append, fv_fv] at t
    rw [if_neg q, if_neg q]
    refine Points.call_seq (begin_ok vd1) (t.imp ?_)
    intro k t hk e
    have := vd.le
    rw [e, torn_fv]
    exact torn_ruined v.size (by simp; omega)

theorem assignValues_points (v : IsFV N h c xs) {s : Src T} (g : Gives (h.lay c [] 0 []) s ws) :
    Points (assignValues N c ws.length s) h (min ws.length N) () (fv h c (ws.take N)) fun _ t => Ruined N h t c := by
  have v1 := isFV_fv (ws := []) v (Nat.zero_le _)
  have t := fill_points ws [] s (fv h c []) _ v1 g (sub_set _ _ (Heap.Sub.refl _))
  rw [List.nil_append, fv_fv] at t
  refine Points.call_seq (clear_ok xs h v) (t.imp ?_)
  intro k t hk e
  simp only [List.length_nil] at hk
  rw [e, torn_fv]
  exact torn_ruined v.size (by simp; omega)

theorem store_points (v : IsFV N h c vs) (hi : i < vs.length) {x : Arg T} {w : T} (hx : x.get h = .ok (w, h)) :
    Points (store c i x) h 1 () (fv h c (vs.set i w)) fun _ t => t = h := by
  have e := store_ok v hi hx
  simp only [Vec.FV.store, Prog.bind_app, hx, Res.bind_ok, at_ok v] at e
  exact Points.call_seq hx (Points.call_seq (at_ok v i) (Points.seq (m := 0) (Points.point_ rfl) (Points.call_ e)))

end Verif.Exc.XFv
