import Verif.Vec.Loops
/-!
# What the member functions of `ttl::vector` do to a vector
-/
set_option linter.unusedVariables false
set_option linter.unusedSimpArgs false
namespace Verif.Vec
open Verif
variable {T : Type} {b n c d i : Nat} {xs ys ws : List T} {h h' : Mem T}

/-- A vector as a mathematical object: elements, capacity and identity of the block holding the elements (`0` if there is none). -/
structure VS (T : Type) where
  vals : List T
  cap : Nat
  blk : Nat

/-- The data members of such a vector. -/
def VS.rep (s : VS T) : Rep := ⟨⟨s.blk, 0⟩, ⟨s.blk, s.vals.length⟩, ⟨s.blk, s.cap⟩⟩

/-- `c` is a vector in state `s`: exactly the slots `[0, size())` of its block hold objects. -/
structure IsVec (h : Mem T) (c : Nat) (s : VS T) : Prop where
  obj : h.obj c = some s.rep
  slot : h.slot s.blk = lay s.vals 0 []
  blk : s.blk ≠ 0 → h.size s.blk = some s.cap
  zero : s.blk = 0 → s.cap = 0
  le : s.vals.length ≤ s.cap

/-- Properties of every memory. -/
structure Base (h : Mem T) : Prop where
  pos : 0 < h.fresh
  null : h.size 0 = none
  nullSlot : h.slot 0 = lay [] 0 []
  gone : ∀ b, h.fresh ≤ b → h.size b = none ∧ h.slot b = lay [] 0 []
  objs : ∀ c, h.fresh ≤ c → h.obj c = none

variable {s s' : VS T}

theorem IsVec.size (v : IsVec h c s) (q : 0 < s.cap) : h.size s.blk = some s.cap :=
  v.blk fun e => by have := v.zero e; omega

theorem IsVec.holds (v : IsVec h c s) {k : Nat} {a : T} (q : s.vals[k]? = some a) : h.Holds s.blk k a := by
  have hk : k < s.vals.length := (List.getElem?_eq_some_iff.1 q).1
  have := v.le
  exact ⟨⟨s.cap, v.size (by omega), by omega⟩, by rw [v.slot, lay_nil]; exact q⟩

theorem IsVec.lt_fresh (B : Base h) (v : IsVec h c s) : s.blk < h.fresh := by
  apply Decidable.byContradiction; intro k
  have := (B.gone s.blk (by omega)).1
  rw [v.blk (by have := B.pos; omega)] at this; cases this

theorem IsVec.obj_lt (B : Base h) (v : IsVec h c s) : c < h.fresh := by
  apply Decidable.byContradiction; intro k
  have := B.objs c (by omega)
  rw [v.obj] at this; cases this

/-- Memory after a change of the vector `c` inside its block. -/
def Heap.vec (h : Mem T) (c : Nat) (s : VS T) : Mem T := (h.lay s.blk s.vals 0 []).setObj c s.rep
/-- Memory after a change of the vector `c` that moved it to the fresh block and released the old block. -/
def Heap.moved (h : Mem T) (c : Nat) (b : Nat) (vs : List T) (cap : Nat) : Mem T :=
  { obj := upd h.obj c (some (VS.rep ⟨vs, cap, h.fresh⟩)), size := upd (upd h.size h.fresh (some cap)) b none,
    slot := upd (upd h.slot h.fresh (Vec.lay vs 0 [])) b (Vec.lay [] 0 []), fresh := h.fresh + 1 }

theorem vec_self (v : IsVec h c s) : h.vec c s = h := by
  simp only [Heap.vec]; rw [lay_self _ _ _ _ _ v.slot, set_self _ _ _ v.obj]

theorem isVec_vec (v : IsVec h c s) (vs : List T) (q : vs.length ≤ s.cap) : IsVec (h.vec c ⟨vs, s.cap, s.blk⟩) c ⟨vs, s.cap, s.blk⟩ :=
  ⟨by simp [Heap.vec], by simp [Heap.vec], v.blk, v.zero, q⟩

theorem isVec_moved (B : Base h) (hb : b < h.fresh) {vs : List T} (q : vs.length ≤ n) : IsVec (h.moved c b vs n) c ⟨vs, n, h.fresh⟩ := by
  have ne : h.fresh ≠ b := by omega
  refine ⟨upd_same .., ?_, ?_, ?_, q⟩
  · show upd (upd h.slot h.fresh _) b _ h.fresh = _
    rw [upd_other _ _ ne, upd_same]
  · intro _; show upd (upd h.size h.fresh _) b _ h.fresh = _
    rw [upd_other _ _ ne, upd_same]
  · intro e; have := B.pos; simp only at e; omega

theorem vec_vec (h : Mem T) (c : Nat) (s : VS T) (vs : List T) : (h.vec c s).vec c ⟨vs, s.cap, s.blk⟩ = h.vec c ⟨vs, s.cap, s.blk⟩ := by
  simp [Heap.vec]

theorem begin_ok (v : IsVec h c s) : begin_ c h = .ok (⟨s.blk, 0⟩, h) := by simp [begin_, getObj_eq v.obj, VS.rep]
theorem end_ok (v : IsVec h c s) : end_ c h = .ok (⟨s.blk, s.vals.length⟩, h) := by simp [end_, getObj_eq v.obj, VS.rep]
theorem size_ok (v : IsVec h c s) : size c h = .ok (s.vals.length, h) := by
  simp [size, getObj_eq v.obj, VS.rep, diff_eq]
theorem empty_ok (v : IsVec h c s) : empty c h = .ok (s.vals.isEmpty, h) := by
  simp only [empty, Prog.bind_app, size_ok v, Res.bind_ok, Prog.pure_app]
  cases s.vals <;> simp
theorem capacity_ok (v : IsVec h c s) : capacity c h = .ok (s.cap, h) := by
  simp [capacity, getObj_eq v.obj, VS.rep, diff_eq]
theorem at_ok (v : IsVec h c s) (i : Nat) : at_ c i h = .ok (⟨s.blk, i⟩, h) := by
  simp [at_, getObj_eq v.obj, VS.rep]
theorem back_ok (v : IsVec h c s) (q : s.vals ≠ []) : back c h = .ok (⟨s.blk, s.vals.length - 1⟩, h) := by
  have : s.vals.length ≠ 0 := by intro e; exact q (List.eq_nil_of_length_eq_zero e)
  simp only [back, Prog.bind_app, end_ok v, Res.bind_ok]
  obtain ⟨k, hk⟩ := Nat.exists_eq_succ_of_ne_zero this
  rw [hk]; exact dec_eq _ _

theorem shrink_ok (v : IsVec h c s) (hn : n ≤ s.vals.length) :
    shrinkTo c ⟨s.blk, n⟩ h = .ok ((), h.vec c ⟨s.vals.take n, s.cap, s.blk⟩) := by
  have hl : (s.vals.take n).length = n := by simp [hn]
  have := shrinkTo_ok (xs := s.vals.take n) (n := s.cap) (c := c) (b := s.blk) (e := ⟨s.blk, 0⟩) (eo := ⟨s.blk, s.cap⟩) (s.vals.drop n) h
    (by rw [v.obj, VS.rep, ← List.length_append, List.take_append_drop]) v.size (by rw [← List.length_append, List.take_append_drop]; exact v.le)
    (by rw [List.take_append_drop]; exact v.slot)
  rw [hl] at this
  rw [this]; simp [Heap.vec, VS.rep, hl]

theorem clear_ok (v : IsVec h c s) : clear c h = .ok ((), h.vec c ⟨[], s.cap, s.blk⟩) := by
  simp only [clear, Prog.bind_app, begin_ok v, Res.bind_ok]
  have := shrink_ok (n := 0) v (by omega)
  simpa using this

theorem popBack_ok (v : IsVec h c s) (q : s.vals ≠ []) : popBack c h = .ok ((), h.vec c ⟨s.vals.dropLast, s.cap, s.blk⟩) := by
  obtain ⟨vs, cap, b⟩ := s
  rcases List.eq_nil_or_concat vs with rfl | ⟨zs, a, rfl⟩
  · exact absurd rfl q
  rw [List.concat_eq_append] at v ⊢
  have ho := v.obj
  have hl := v.le
  simp only [VS.rep, List.length_append, List.length_singleton] at ho hl
  simp only [popBack, Prog.bind_app, getObj_eq ho, Res.bind_ok, dec_eq, setObj_eq ho]
  rw [destruct_left (h := h.setObj c _) (xs := zs) (a := a) (v.size (by simp; omega)) (by simp; omega) v.slot]
  simp only [set_lay, Heap.vec, List.dropLast_concat]
  simp [Heap.lay, lay_gap zs (0 + 1) 0, VS.rep]

theorem free_moved (B : Base h) (hb : b < h.fresh) (hs : b ≠ 0 → h.size b ≠ none) {vs : List T} {cap : Nat} (k : Mem T) 
    (k1 : k.size = upd h.size h.fresh (some cap)) : free ⟨b, 0⟩ k = .ok ((), { k with size := upd (upd h.size h.fresh (some cap)) b none }) := by
  have ne : b ≠ h.fresh := by omega
  by_cases q : b = 0
  · subst q
    simp only [free, Ptr.null, if_true]
    have : upd (upd h.size h.fresh (some cap)) 0 none = upd h.size h.fresh (some cap) := by
      funext x; simp only [upd]; split
      · rename_i e; subst e; rw [if_neg ne]; exact B.null.symm
      · rfl
    rw [this, ← k1]
  · have hn : ¬ (Ptr.mk b 0 = Ptr.null) := by simp [Ptr.null, q]
    simp only [free, if_neg hn, k1, upd_other _ _ ne]
    cases e : h.size b with
    | none => exact absurd e (hs q)
    | some m => simp

theorem reserve_ok (B : Base h) (v : IsVec h c s) (n : Nat) :
    reserve c n h = .ok ((), if n < s.cap then h else h.moved c s.blk s.vals n) := by
  have hb := v.lt_fresh B
  simp only [reserve, Prog.bind_app, getObj_eq v.obj, Res.bind_ok, VS.rep, ptr_add, Nat.zero_add, less_eq, decide_eq_true_eq, Prog.ite_app]
  split
  · rfl
  · rename_i q
    have le := v.le
    simp only [alloc, Res.bind_ok]
    let h1 : Mem T := { h with size := upd h.size h.fresh (some n), slot := upd h.slot h.fresh (fun _ => none), fresh := h.fresh + 1 }
    have h1s : h1.size h.fresh = some n := upd_same ..
    have h1l : h1.slot h.fresh = lay [] 0 [] := by rw [lay_nil]; funext i; simp [h1]
    have c1 := copyTo_ok (n := n) (b := s.blk) (b' := h.fresh) (by omega) s.vals [] 0 h1 (by
      intro k a hk
      obtain ⟨⟨m, e1, e2⟩, e3⟩ := v.holds hk
      rw [Nat.zero_add]
      exact ⟨⟨m, by show upd _ _ _ _ = _; rw [upd_other _ _ (by omega)]; exact e1, e2⟩, by show upd h.slot h.fresh _ s.blk k = _; rw [upd_other _ _ (by omega)]; exact e3⟩)
      (fun _ => h1s) (by simp; omega) h1l
    simp only [List.length_nil, Nat.zero_add, List.nil_append] at c1
    rw [show copyTo _ _ _ _ = _ from c1]
    simp only [Res.bind_ok]
    have c2 := destroyDown_ok (n := s.cap) (b := s.blk) (xs := []) s.vals (h1.lay h.fresh s.vals 0 []) (by
      intro k; show upd _ _ _ _ = _; rw [upd_other _ _ (by omega)]; exact v.size k) (by simp; exact le)
      (by rw [lay_slot_other _ _ _ _ _ (by omega)]; show upd _ _ _ _ = _; rw [upd_other _ _ (by omega)]; exact v.slot)
    simp only [List.length_nil, Nat.zero_add] at c2
    rw [c2]
    simp only [Res.bind_ok]
    rw [free_moved B hb (fun q => by rw [v.blk q]; simp) (vs := s.vals) (cap := n) _ rfl]
    simp only [Res.bind_ok]
    rw [setObj_eq (r := s.rep) (by exact v.obj)]
    simp only [Heap.setObj, Heap.moved, Heap.lay, h1, VS.rep, upd_upd, ptr_add, Nat.zero_add]

theorem sub_alloc (B : Base h) (n : Nat) (zs : List T) (m : Nat) (ys : List T) :
    h.Sub (Heap.lay ({ h with size := upd h.size h.fresh (some n), slot := upd h.slot h.fresh (fun _ => none), fresh := h.fresh + 1 } : Mem T) h.fresh zs m ys) := by
  intro b i a ⟨⟨k, q1, q2⟩, q3⟩
  have ne : b ≠ h.fresh := by intro e; subst e; rw [(B.gone _ (Nat.le_refl _)).1] at q1; cases q1
  exact ⟨⟨k, by show upd _ _ _ _ = _; rw [upd_other _ _ ne]; exact q1, q2⟩, by rw [lay_slot_other _ _ _ _ _ ne]; show upd h.slot h.fresh _ b i = _; rw [upd_other _ _ ne]; exact q3⟩

theorem insertValues_zero (v : IsVec h c s) (src : Src T) : insertValues c ⟨s.blk, i⟩ 0 src h = .ok (⟨s.blk, i⟩, h) := by
  simp [insertValues, getObj_eq v.obj, VS.rep, diff_eq, begin_]

theorem insertValues_moved (B : Base h) (v : IsVec h c s) (hi : i ≤ s.vals.length) (src : Src T) (hg : Gives h src ws) (hw : ws ≠ []) (room : s.cap < s.vals.length + ws.length) :
    insertValues c ⟨s.blk, i⟩ ws.length src h =
      .ok (⟨h.fresh, i⟩, h.moved c s.blk (s.vals.take i ++ ws ++ s.vals.drop i) (s.vals.length + ws.length)) := by
  have hb := v.lt_fresh B
  have le := v.le
  have hpos : 0 < ws.length := List.length_pos_iff.2 hw
  have room' : s.cap - s.vals.length < ws.length := by omega
  simp only [insertValues, Prog.bind_app, getObj_eq v.obj, Res.bind_ok, VS.rep, diff_eq _ (Nat.zero_le _), Nat.sub_zero, hpos, if_true,
    diff_eq _ le, room', if_true, size_ok v, alloc, bind_assoc]
  generalize hN : s.vals.length + ws.length = N
  let h1 : Mem T := { h with size := upd h.size h.fresh (some N), slot := upd h.slot h.fresh (fun _ => none), fresh := h.fresh + 1 }
  have h1s : h1.size h.fresh = some N := upd_same ..
  have h1l : h1.slot h.fresh = lay [] 0 [] := by rw [lay_nil]; funext i; simp [h1]
  have ht : (s.vals.take i).length = i := by simp [hi]
  have hd : (s.vals.drop i).length = s.vals.length - i := by simp
  have old : ∀ (zs : List T), ∀ k a, s.vals[k]? = some a → (h1.lay h.fresh zs 0 []).Holds s.blk k a := by
    intro zs k a hk
    obtain ⟨⟨m, e1, e2⟩, e3⟩ := v.holds hk
    exact ⟨⟨m, by show upd _ _ _ _ = _; rw [upd_other _ _ (by omega)]; exact e1, e2⟩,
      by rw [lay_slot_other _ _ _ _ _ (by omega)]; show upd h.slot h.fresh _ s.blk k = _; rw [upd_other _ _ (by omega)]; exact e3⟩
  have c1 := copyTo_ok (n := N) (b := s.blk) (b' := h.fresh) (by omega) (s.vals.take i) [] 0 h1 (by
    intro k a hk
    rw [← lay_self h1 _ _ _ _ h1l, Nat.zero_add]
    refine old _ k a ?_
    have : k < i := by have := (List.getElem?_eq_some_iff.1 hk).1; omega
    rw [List.getElem?_take_of_lt this] at hk; exact hk) (fun _ => h1s) (by simp; omega) h1l
  simp only [List.length_nil, Nat.zero_add, List.nil_append, ht] at c1
  rw [show copyTo _ _ _ _ = _ from c1]
  simp only [Res.bind_ok]
  have c2 := fillAt_ok (n := N) (b := h.fresh) (ys := []) ws (s.vals.take i) src (h1.lay h.fresh (s.vals.take i) 0 []) h 0 (fun _ => h1s) (by rw [ht]; omega)
    (by rw [lay_slot_same, lay_gap]) hg (sub_alloc B _ _ _ _) (by intro zs m'; rw [lay_lay]; exact sub_alloc B _ _ _ _)
  rw [ht] at c2
  rw [c2]
  simp only [Res.bind_ok, lay_lay]
  have c3 := copyTo_ok (n := N) (b := s.blk) (b' := h.fresh) (by omega) (s.vals.drop i) (s.vals.take i ++ ws) i (h1.lay h.fresh (s.vals.take i ++ ws) 0 []) (by
    intro k a hk
    rw [List.getElem?_drop] at hk; exact old _ _ a hk) (fun _ => h1s) (by rw [List.length_append, ht, hd]; omega) (lay_slot_same ..)
  rw [List.length_append, ht, hd, show i + (s.vals.length - i) = s.vals.length by omega, show i + ws.length + (s.vals.length - i) = N by omega, lay_lay] at c3
  rw [c3]
  simp only [Res.bind_ok]
  have c4 := destroyDown_ok (n := s.cap) (b := s.blk) (xs := []) s.vals (h1.lay h.fresh (s.vals.take i ++ ws ++ s.vals.drop i) 0 []) (by
    intro k; show upd _ _ _ _ = _; rw [upd_other _ _ (by omega)]; exact v.size k) (by simp; exact le)
    (by rw [lay_slot_other _ _ _ _ _ (by omega)]; show upd _ _ _ _ = _; rw [upd_other _ _ (by omega)]; exact v.slot)
  simp only [List.length_nil, Nat.zero_add] at c4
  rw [c4]
  simp only [Res.bind_ok]
  rw [free_moved B hb (fun q => by rw [v.blk q]; simp) (vs := s.vals) (cap := N) _ rfl]
  simp only [Res.bind_ok]
  rw [setObj_eq (r := s.rep) (by exact v.obj)]
  have hlen : (s.vals.take i ++ ws ++ s.vals.drop i).length = N := by rw [List.length_append, List.length_append, ht, hd]; omega
  simp only [begin_, Prog.bind_app, Res.bind_ok, Prog.pure_app, getObj_eq (set_obj_same ..), ptr_add, Nat.zero_add]
  simp only [Heap.setObj, Heap.moved, Heap.lay, h1, VS.rep, upd_upd, hlen]

theorem insertValues_here (v : IsVec h c s) (hi : i ≤ s.vals.length) (src : Src T) (hg : Gives (h.lay s.blk (s.vals.take i) 0 []) src ws) (hw : ws ≠ [])
    (room : s.vals.length + ws.length ≤ s.cap) :
    insertValues c ⟨s.blk, i⟩ ws.length src h = .ok (⟨s.blk, i⟩, h.vec c ⟨s.vals.take i ++ ws ++ s.vals.drop i, s.cap, s.blk⟩) := by
  have le := v.le
  have hpos : 0 < ws.length := List.length_pos_iff.2 hw
  have room' : ¬ s.cap - s.vals.length < ws.length := by omega
  have hs := v.size (by omega)
  have ht : (s.vals.take i).length = i := by simp [hi]
  have hd : (s.vals.drop i).length = s.vals.length - i := by simp
  have htd := List.take_append_drop i s.vals
  have hlen : (s.vals.take i ++ ws ++ s.vals.drop i).length = s.vals.length + ws.length := by rw [List.length_append, List.length_append, ht, hd]; omega
  simp only [insertValues, Prog.bind_app, getObj_eq v.obj, Res.bind_ok, VS.rep, diff_eq _ (Nat.zero_le _), Nat.sub_zero, hpos, if_true,
    diff_eq _ le, room', if_false, less_eq, Prog.ite_app, decide_eq_true_eq]
  split
  · rename_i q
    simp only [Prog.bind_app, Prog.ite_app, less_eq, Res.bind_ok, decide_eq_true_eq, if_pos q, setObj_eq v.obj, ptr_add, Nat.zero_add]
    obtain ⟨g, hgg⟩ : ∃ g, ws.length = g + 1 := ⟨ws.length - 1, by omega⟩
    let h1 : Mem T := h.setObj c ⟨⟨s.blk, 0⟩, ⟨s.blk, s.vals.length + ws.length⟩, ⟨s.blk, s.cap⟩⟩
    have c1 := shiftUp_ok (n := s.cap) (b := s.blk) (g := g) (xs := s.vals.take i) (s.vals.drop i) [] h1 hs (by rw [ht, hd]; omega)
      (by rw [htd, set_slot, v.slot, lay_gap])
    rw [ht, hd, show i + (s.vals.length - i) = s.vals.length by omega, ← hgg, List.append_nil] at c1
    rw [c1]
    simp only [Res.bind_ok]
    have c2 := fillAt_ok (n := s.cap) (b := s.blk) (ys := s.vals.drop i) ws (s.vals.take i) src (h1.lay s.blk (s.vals.take i) ws.length (s.vals.drop i))
      (h.lay s.blk (s.vals.take i) 0 []) 0 (fun _ => hs) (by rw [ht]; omega) (by rw [lay_slot_same]; rfl) hg
      (by simp only [h1, set_lay]; refine sub_set _ _ ?_; have := sub_prefix (h := h) (b := s.blk) (s.vals.take i) [] ws.length (s.vals.drop i); rwa [List.append_nil] at this)
      (by intro zs m'; rw [lay_lay]; simp only [h1, set_lay]; exact sub_set _ _ (sub_prefix _ _ _ _))
    rw [ht] at c2
    rw [c2]
    simp only [Res.bind_ok, lay_lay, begin_, Prog.bind_app, Prog.pure_app, h1, set_lay, getObj_eq (set_obj_same ..), ptr_add, Nat.zero_add]
    simp only [Heap.vec, VS.rep, hlen, Heap.lay, lay_zero (s.vals.take i ++ ws)]
  · rename_i q
    have hi' : i = s.vals.length := by omega
    subst hi'
    simp only [List.take_length, List.drop_length, List.append_nil] at hg ⊢
    rw [lay_self _ _ _ _ _ v.slot] at hg
    rw [fillBack_ok (n := s.cap) ws s.vals src h h v.obj v.size room v.slot hg (Heap.Sub.refl _)]
    simp only [Res.bind_ok, begin_, Prog.bind_app, Prog.pure_app, getObj_eq (set_obj_same ..), ptr_add, Nat.zero_add]
    simp [Heap.vec, VS.rep]

end Verif.Vec
