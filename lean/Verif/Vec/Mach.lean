import Verif.Vec.MachModel
import Verif.Vec.Props2
/-!
# `ttl::vector` with the numbers of a machine: theorems
-/
set_option linter.unusedVariables false
set_option linter.unusedSimpArgs false
set_option linter.unusedSectionVars false
namespace Verif.Vec
open Verif
variable {T : Type} {M : Machine} {dv : T} {h h' : Mem T} {S : State T} {c d n m i j a : Nat} {s s' : VS T} {vs ws : List T} {cap : Nat} {p : Ptr}

namespace Machine

theorem small_of_half (q : M.Room n) : n * M.sz < M.W := q.bytes
theorem half_mono (q : M.Room n) (le : m ≤ n) : M.Room m := by
  have := Nat.mul_le_mul_right M.sz le
  exact ⟨Nat.lt_of_le_of_lt this q.bytes, by have := q.count; omega⟩
theorem lt_of_small (q : n * M.sz < M.W) : n < M.W := Nat.lt_of_le_of_lt (Nat.le_mul_of_pos_right n M.one) q
theorem half_count (q : M.Room n) : 2 * n < M.W := q.count

/-- Up to half of the memory there is always room. -/
theorem room_of_half (q : 2 * (n * M.sz) < M.W) : M.Room n := by
  have := Nat.le_mul_of_pos_right n M.one
  exact ⟨by omega, by omega⟩

/-- If elements take two bytes or more, there is room for `max_size()` elements. -/
theorem room_of_maxSize (q : 2 ≤ M.sz) (le : n * M.sz < M.W) : M.Room n :=
  ⟨le, by have := Nat.mul_le_mul_left n q; omega⟩

theorem le_maxSize : n ≤ M.maxSize ↔ n * M.sz < M.W := by
  have := M.pos
  rw [maxSize, Nat.le_div_iff_mul_le M.one]; omega

theorem alloc_eq (q : n * M.sz < M.W) : (M.alloc n : Prog (Mem T) Ptr) = Vec.alloc n := by
  rw [alloc, Nat.mod_eq_of_lt q, Nat.mul_div_cancel _ M.one]

theorem toDifference_eq (q : M.Room n) : M.toDifference n = n := if_pos (half_count q)

theorem reserve_eq (ho : h.obj c = some s.rep) (small : n * M.sz < M.W) (ad : M.addr s.blk + max n s.cap * M.sz < M.W) :
    M.reserve c n h = Vec.reserve c n h := by
  have a1 : M.addr s.blk + n * M.sz < M.W := by
    have := Nat.mul_le_mul_right M.sz (Nat.le_max_left n s.cap); omega
  have a2 : M.addr s.blk + s.cap * M.sz < M.W := by
    have := Nat.mul_le_mul_right M.sz (Nat.le_max_right n s.cap); omega
  have e : (decide ((M.addr s.blk + n * M.sz) % M.W < (M.addr s.blk + s.cap * M.sz) % M.W)) = decide (n < s.cap) := by
    rw [Nat.mod_eq_of_lt a1, Nat.mod_eq_of_lt a2, decide_eq_decide]
    have := Nat.mul_lt_mul_right (a := M.sz) (b := n) (c := s.cap) M.one
    omega
  simp only [reserve, Vec.reserve, Prog.bind_app, getObj_eq ho, Res.bind_ok, VS.rep, ptr_add, Nat.zero_add, less, less_eq, if_true, e, Prog.ite_app, alloc_eq small]

theorem insertValues_eq (v : IsVec h c s) (small : (s.vals.length + n) * M.sz < M.W) {src : Src T} :
    M.insertValues c ⟨s.blk, i⟩ n src h = Vec.insertValues c ⟨s.blk, i⟩ n src h := by
  have lt := lt_of_small small
  have le := v.le
  have e : (s.vals.length + n) % M.W = s.vals.length + n := Nat.mod_eq_of_lt lt
  have e2 : (M.alloc (s.vals.length + n) : Prog (Mem T) Ptr) = Vec.alloc (s.vals.length + n) := alloc_eq small
  simp only [insertValues, Vec.insertValues, Prog.bind_app, getObj_eq v.obj, Res.bind_ok, VS.rep, diff_eq _ (Nat.zero_le _), Nat.sub_zero, Prog.ite_app,
    diff_eq _ le, size_ok v, e, e2]

theorem insertN_eq (v : IsVec h c s) (half : M.Room (s.vals.length + n)) {x : Arg T} :
    M.insertN c ⟨s.blk, i⟩ n x h = Vec.insertN c ⟨s.blk, i⟩ n x h := by
  rw [insertN, toDifference_eq (half_mono half (Nat.le_add_left n _)), insertValues_eq v (small_of_half half), Vec.insertN]

theorem pushBack_eq (v : IsVec h c s) (half : M.Room (s.vals.length + 1)) {x : Arg T} : M.pushBack c x h = Vec.pushBack c x h := by
  simp only [pushBack, Vec.pushBack, Prog.bind_app, getObj_eq v.obj, Res.bind_ok, VS.rep, less_eq, Prog.ite_app, decide_eq_true_eq, end_ok v, insertN_eq v half]

theorem pushAll_eq : ∀ (ws : List T) (h : Mem T) (s : VS T) (src : Src T) (g : Mem T), Base h → IsVec h c s → Gives g src ws → g.Sub (h.lay s.blk [] 0 []) →
    M.Room (s.vals.length + ws.length) → M.pushAll c ws.length src h = Vec.pushAll c ws.length src h
  | [], h, s, src, g, B, v, hg, hs, half => rfl
  | w :: ws, h, s, src, g, B, v, hg, hs, half => by
    have le := v.le
    simp only [List.length_cons] at half
    obtain ⟨⟨a, q1, q2⟩, hg2⟩ := hg
    have sub0 : (h.lay s.blk [] 0 []).Sub h := by
      have := sub_prefix (h := h) (b := s.blk) [] s.vals 0 []
      rwa [List.nil_append, lay_self h _ _ _ _ v.slot] at this
    obtain ⟨h1, e1, k1, f1, _⟩ := pushBack_change B v (x := a) (a := w) (fun k hk => q2 k ((hs.trans sub0).trans hk))
    have B1 := k1.base B v
    have v1 := k1.vec
    have hs1 : g.Sub (h1.lay (s.ins h.fresh s.vals.length [w]).blk [] 0 []) := by
      refine hs.trans ?_
      intro b i y ⟨⟨m, p1, p2⟩, p3⟩
      have e1 : b ≠ s.blk := by intro e; subst e; rw [lay_slot_same, lay_nil] at p3; simp at p3
      have e2 : b ≠ (s.ins h.fresh s.vals.length [w]).blk := by
        intro e
        rcases k1.moved with ⟨a1, _⟩ | ⟨a1, _⟩
        · exact e1 (e.trans a1)
        · rw [← e] at a1; have := (B.gone _ a1).1; simp only [lay_size] at p1; rw [this] at p1; cases p1
      have kk := k1.keep b e1 e2
      rw [lay_slot_other _ _ _ _ _ e1] at p3
      exact ⟨⟨m, kk.1.trans p1, p2⟩, by rw [lay_slot_other _ _ _ _ _ e2, kk.2]; exact p3⟩
    have ll : (s.ins h.fresh s.vals.length [w]).vals.length = s.vals.length + 1 := by rw [VecProps.ins_vals, ins_length (Nat.le_refl _)]; rfl
    have e2 := pushAll_eq ws h1 _ src.succ g B1 v1 hg2 hs1 (by rw [ll, Nat.add_assoc, Nat.add_comm 1]; exact half)
    simp only [List.length_cons, pushAll, Vec.pushAll, Prog.bind_app, q1, Res.bind_ok, pushBack_eq v (half_mono half (by omega)), e1, e2]

theorem createN_eq (small : n * M.sz < M.W) : (M.createN n : Prog (Mem T) Nat) = Vec.createN n := by
  simp only [createN, Vec.createN, alloc_eq small]

theorem resize_eq (v : IsVec h c s) (half : M.Room n) : M.resize dv c n h = Vec.resize dv c n h := by
  simp only [resize, Vec.resize, Prog.bind_app, size_ok v, Res.bind_ok, Prog.ite_app, end_ok v]
  split
  · rfl
  · rw [insertN_eq v (by rw [show s.vals.length + (n - s.vals.length) = n by omega]; exact half)]

theorem resizeX_eq (v : IsVec h c s) (half : M.Room n) {x : Arg T} : M.resizeX dv c n x h = Vec.resizeX dv c n x h := by
  simp only [resizeX, Vec.resizeX, Prog.bind_app, size_ok v, Res.bind_ok, Prog.ite_app, end_ok v]
  split
  · exact resize_eq v half
  · rw [insertN_eq v (by rw [show s.vals.length + (n - s.vals.length) = n by omega]; exact half)]

/-- A call whose request fits does on the machine what it does with natural numbers. -/
theorem exec_eq (W : World h S) (k : Call T) (lg : Legal S k) (ft : M.Fits S k) : M.exec dv k h = Vec.exec dv k h := by
  have B := W.base
  obtain ⟨half, ad⟩ := ft
  cases k with
  | ctor n =>
    have half : M.Room n := half
    simp only [exec, Vec.exec, ctor, Vec.ctor, createN_eq (small_of_half half)]
  | ctorN n a =>
    have half : M.Room n := half
    simp only [exec, Vec.exec, ctorN, Vec.ctorN, createN_eq (small_of_half half)]
  | copyOf d =>
    obtain ⟨t, ht⟩ := lg
    simp only [asks, vals_some ht] at half
    simp only [exec, Vec.exec, copyOf, Vec.copyOf, Prog.bind_app, size_ok (W.vec d t ht), Res.bind_ok, createN_eq (small_of_half half)]
  | ctorRange r =>
    obtain ⟨x, e0, g1, g2⟩ := src_ok W lg
    simp only [asks] at half
    have W1 := W.made
    have v1 := W1.vec h.fresh _ (put_same ..)
    obtain ⟨h1, e1, k1, f1⟩ := reserve_change W1.base v1 (r.vals' S).length
    have B1 := k1.base W1.base v1
    have s1 : (VS.reserve (⟨[], 0, 0⟩ : VS T) h.made.fresh (r.vals' S).length) = ⟨[], (r.vals' S).length, h.fresh + 1⟩ := by
      simp only [VS.reserve, Nat.not_lt_zero, if_false]; rfl
    rw [s1] at k1
    have sl := k1.vec.slot
    have e2 := pushAll_eq (M := M) (r.vals' S) h1 _ x h B1 k1.vec g1 (by
      rw [lay_self _ _ _ _ _ sl]
      exact (sub_made W).trans (sub_of_change_empty W1.base v1 k1)) (by simpa using half)
    have e3 := reserve_eq (M := M) (n := (r.vals' S).length) v1.obj (small_of_half half) (by
      show M.addr 0 + max _ 0 * M.sz < M.W
      rw [M.null, Nat.zero_add, Nat.max_eq_left (Nat.zero_le _)]; exact small_of_half half)
    simp only [exec, Vec.exec, Prog.bind_app, e0, Res.bind_ok, ctorRange, Vec.ctorRange, create_ok, e3, e1, e2]
  | assign c d =>
    obtain ⟨⟨s, hc⟩, ⟨t, hd⟩⟩ := lg
    have v := W.vec c s hc
    have hg := get_some hc
    have hgd := get_some hd
    have k0 := become_change v [] (Nat.zero_le _)
    have W0 := W.chg hc k0
    simp only [asks, hgd] at half
    have ad := ad c rfl
    simp only [asks, hgd, hg] at ad
    have vd0 : ∃ t', IsVec (h.vec c (s.become [])) d t' ∧ t'.cap = t.cap := by
      by_cases q : d = c
      · subst q; rw [hc] at hd; cases hd; exact ⟨_, k0.vec, rfl⟩
      · exact ⟨t, W0.vec d t (by rw [put_other _ q]; exact hd), rfl⟩
    obtain ⟨t', vd0, et⟩ := vd0
    have e1 : Vec.clear c h = .ok ((), h.vec c (s.become [])) := clear_ok v
    have e2 : M.reserve c t'.cap (h.vec c (s.become [])) = _ := reserve_eq (s := s.become []) k0.vec.obj (by rw [et]; exact small_of_half half) (by rw [et]; exact ad)
    simp only [exec, Vec.exec, assign, Vec.assign, Prog.bind_app, e1, Res.bind_ok, capacity_ok vd0, e2]
  | assignN c n a =>
    obtain ⟨⟨s, hc⟩, va, ho⟩ := lg
    have v := W.vec c s hc
    have hg := get_some hc
    obtain ⟨x, w, e0, ev, g1, g2⟩ := arg_ok W va
    have k0 := become_change v [] (Nat.zero_le _)
    have ad := ad c rfl
    simp only [asks, hg] at half ad
    have e1 : Vec.clear c h = .ok ((), h.vec c (s.become [])) := clear_ok v
    have e2 : M.reserve c n (h.vec c (s.become [])) = _ := reserve_eq (s := s.become []) k0.vec.obj (small_of_half half) ad
    simp only [exec, Vec.exec, assignN, Vec.assignN, Prog.bind_app, e0, e1, Res.bind_ok, e2]
  | assignRange c r =>
    obtain ⟨⟨s, hc⟩, vr, ho⟩ := lg
    have v := W.vec c s hc
    have hg := get_some hc
    obtain ⟨x, e0, g1, g2⟩ := src_ok W vr
    have g3 := g2 c s 0 hc (by cases r with | vals _ => trivial | range d i j => intro e; exact absurd e ho)
    rw [List.take_zero] at g3
    simp only [asks] at half
    have k0 := become_change v [] (Nat.zero_le _)
    have e3 := pushAll_eq (M := M) (r.vals' S) _ _ x _ (k0.base B v) k0.vec g3 (by
      have := lay_self _ _ _ _ _ k0.vec.slot
      simp only [VS.become] at this ⊢
      rw [this]; exact k0.sub B v) (by simpa [VS.become] using half)
    have e1 : Vec.clear c h = .ok ((), h.vec c (s.become [])) := clear_ok v
    simp only [exec, Vec.exec, assignRange, Vec.assignRange, Prog.bind_app, e0, e1, Res.bind_ok, e3]
  | resize c n =>
    obtain ⟨s, hc⟩ := lg
    have half : M.Room n := half
    simp only [exec, Vec.exec, Prog.bind_app, resize_eq (W.vec c s hc) half]
  | resizeX c n a =>
    obtain ⟨⟨s, hc⟩, va⟩ := lg
    obtain ⟨x, w, e0, ev, g1, g2⟩ := arg_ok W va
    have half : M.Room n := half
    simp only [exec, Vec.exec, Prog.bind_app, e0, Res.bind_ok, resizeX_eq (W.vec c s hc) half]
  | reserve c n =>
    obtain ⟨s, hc⟩ := lg
    have ad := ad c rfl
    simp only [asks, get_some hc] at half ad
    simp only [exec, Vec.exec, Prog.bind_app, reserve_eq (W.vec c s hc).obj (small_of_half half) ad]
  | insert c i a =>
    obtain ⟨⟨s, hc⟩, hi, va, hs⟩ := lg
    have v := W.vec c s hc
    obtain ⟨x, w, e0, ev, g1, g2⟩ := arg_ok W va
    simp only [asks, vals_some hc] at half
    simp only [exec, Vec.exec, Prog.bind_app, e0, Res.bind_ok, begin_ok v, ptr_add, Nat.zero_add, insert, Vec.insert, insertValues_eq v (small_of_half half)]
  | insertN c i n a =>
    obtain ⟨⟨s, hc⟩, hi, va, hs⟩ := lg
    have v := W.vec c s hc
    obtain ⟨x, w, e0, ev, g1, g2⟩ := arg_ok W va
    simp only [asks, vals_some hc] at half
    simp only [exec, Vec.exec, Prog.bind_app, e0, Res.bind_ok, begin_ok v, ptr_add, Nat.zero_add, insertN_eq v half]
  | insertRange c i r =>
    obtain ⟨⟨s, hc⟩, hi, vr, hs⟩ := lg
    have v := W.vec c s hc
    obtain ⟨x, e0, g1, g2⟩ := src_ok W vr
    simp only [asks, vals_some hc] at half
    simp only [exec, Vec.exec, Prog.bind_app, e0, Res.bind_ok, begin_ok v, ptr_add, Nat.zero_add, insertRange, Vec.insertRange, insertValues_eq v (small_of_half half)]
  | pushBack c a =>
    obtain ⟨⟨s, hc⟩, va⟩ := lg
    obtain ⟨x, w, e0, ev, g1, g2⟩ := arg_ok W va
    simp only [asks, vals_some hc] at half
    simp only [exec, Vec.exec, Prog.bind_app, e0, Res.bind_ok, pushBack_eq (W.vec c s hc) half]
  | _ => rfl

end Machine
end Verif.Vec
