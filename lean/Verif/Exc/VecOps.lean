import Verif.Exc.VecFrame
/-!
# The members of `ttl::vector` when allocation or element copies throw
-/
set_option linter.unusedVariables false
set_option linter.unusedSimpArgs false
namespace Verif.Exc.XVec
open Verif Verif.Vec Verif.Exc
variable {T : Type} {b n c d i j : Nat} {xs ys ws : List T} {h h' : Mem T} {s s' : VS T}

/-- Memory `h` with a new block of `cap` slots, of which the first hold `zs`, and that no vector knows of. -/
def spill (h : Mem T) (cap : Nat) (zs : List T) : Mem T :=
  Heap.lay ({ h with size := upd h.size h.fresh (some cap), slot := upd h.slot h.fresh (fun _ => none), fresh := h.fresh + 1 } : Mem T) h.fresh zs 0 []

/-- What an exception in a call that was about to move to a new block leaves: nothing, or the new block with the copies made so far. -/
def Spilled (h : Mem T) (cap : Nat) (vs : List T) : Nat → Mem T → Prop
  | 0, t => t = h
  | j + 1, t => t = spill h cap (vs.take j)

theorem alloc_points {P : Nat → Mem T → Prop} (p0 : P 0 h) : Points (alloc n) h 1 ⟨h.fresh, 0⟩ (spill h n []) P := by
  have : Vec.alloc n h = .ok (⟨h.fresh, 0⟩, spill h n []) := by
    simp only [Vec.alloc, spill, Heap.lay]
    rw [upd_upd, show (lay ([] : List T) 0 []) = fun _ => none from by funext i; exact lay_nil_none i]
  exact Points.seq (m := 0) (Points.point_ p0) (Points.call_ this)

theorem spill_size (h : Mem T) (n : Nat) (zs : List T) : (spill h n zs).size h.fresh = some n := upd_same ..
theorem spill_slot (h : Mem T) (n : Nat) (zs : List T) : (spill h n zs).slot h.fresh = lay zs 0 [] := lay_slot_same ..
theorem spill_size_other (h : Mem T) (n : Nat) (zs : List T) (q : b ≠ h.fresh) : (spill h n zs).size b = h.size b := upd_other _ _ q
theorem spill_slot_other (h : Mem T) (n : Nat) (zs : List T) (q : b ≠ h.fresh) : (spill h n zs).slot b = h.slot b := by
  show upd (upd h.slot h.fresh _) h.fresh _ b = _
  rw [upd_other _ _ q, upd_other _ _ q]
theorem spill_lay (h : Mem T) (n : Nat) (zs zs' : List T) : Heap.lay (spill h n zs) h.fresh zs' 0 [] = spill h n zs' := by
  simp only [spill, lay_lay]

theorem spill_gap (h : Mem T) (n : Nat) (zs zs' : List T) (g : Nat) : Heap.lay (spill h n zs) h.fresh zs' g [] = spill h n zs' := by
  rw [← spill_lay h n zs zs']; simp only [Heap.lay, lay_gap zs' g 0]

theorem take_take_append {α : Type} (xs ys : List α) (k : Nat) : (xs ++ ys).take (xs.length + k) = xs ++ ys.take k := by
  rw [List.take_append, List.take_of_length_le (by omega), Nat.add_sub_cancel_left]

theorem spill_holds (B : Base h) {a : T} (n : Nat) (zs : List T) (q : h.Holds b i a) : (spill h n zs).Holds b i a := sub_alloc B n zs 0 [] b i a q

/-- The end of the two moving members: the old elements and the old block go. -/
theorem leave_old (B : Base h) (v : IsVec h c s) (n : Nat) (zs : List T) (m : Nat) :
    ((do destroyDown ⟨s.blk, s.vals.length⟩ ⟨s.blk, 0⟩
         free ⟨s.blk, 0⟩
         setObj c ⟨⟨h.fresh, 0⟩, ⟨h.fresh, zs.length⟩, ⟨h.fresh, n⟩⟩ : Prog (Mem T) Unit) (spill h n zs)) = .ok ((), h.moved c s.blk zs n) := by
  have hb := v.lt_fresh B
  have ne : s.blk ≠ h.fresh := by omega
  have c2 := destroyDown_ok (n := s.cap) (b := s.blk) (xs := []) s.vals (spill h n zs) (by
    intro k; rw [spill_size_other _ _ _ ne]; exact v.size k) (by simp; exact v.le) (by rw [spill_slot_other _ _ _ ne]; exact v.slot)
  simp only [List.length_nil, Nat.zero_add] at c2
  simp only [Prog.bind_app]
  rw [c2]
  simp only [Res.bind_ok]
  rw [free_moved B hb (fun q => by rw [v.blk q]; simp) (vs := s.vals) (cap := n) _ rfl]
  simp only [Res.bind_ok]
  rw [setObj_eq (r := s.rep) (by exact v.obj)]
  simp only [Heap.setObj, Heap.moved, Heap.lay, spill, VS.rep, upd_upd, ptr_add, Nat.zero_add]

theorem reserve_stays (v : IsVec h c s) (q : n < s.cap) {P : Nat → Mem T → Prop} : Points (reserve c n) h 0 () h P := by
  refine Points.call_seq (getObj_eq v.obj) ?_
  refine Points.call_seq (a := true) (s' := h) (by simp [VS.rep, less_eq, q]) ?_
  rw [if_pos rfl]; exact Points.pure_

theorem reserve_moves (B : Base h) (v : IsVec h c s) (q : s.cap ≤ n) :
    Points (reserve c n) h (1 + s.vals.length) () (h.moved c s.blk s.vals n) (Spilled h n s.vals) := by
  have hb := v.lt_fresh B
  have ne : s.blk ≠ h.fresh := by omega
  have le := v.le
  refine Points.call_seq (getObj_eq v.obj) ?_
  refine Points.call_seq (a := false) (s' := h) (by simp [VS.rep, less_eq, q]) ?_
  rw [if_neg (by simp)]
  refine Points.seq (alloc_points rfl) ?_
  have c1 := copyTo_points (n := n) (b := s.blk) (b' := h.fresh) (by omega) s.vals [] 0 (spill h n []) (by
    intro k a hk; rw [Nat.zero_add]; exact spill_holds B _ _ (v.holds hk)) (fun _ => spill_size ..) (by simp; omega) (spill_slot ..)
  simp only [List.length_nil, Nat.zero_add, List.nil_append, spill_lay] at c1
  refine Points.seq (m := 0) (c1.imp ?_) (Points.call_ ?_)
  · intro k t _ e; rw [Nat.add_comm]; exact e
  · have := leave_old B v n s.vals 0
    simpa [VS.rep] using this

theorem insertValues_none (v : IsVec h c s) (src : Src T) {P : Nat → Mem T → Prop} : Points (insertValues c ⟨s.blk, i⟩ 0 src) h 0 ⟨s.blk, i⟩ h P := by
  refine Points.call_seq (getObj_eq v.obj) (Points.call_seq (a := i) (s' := h) (by simp [VS.rep, diff_eq]) ?_)
  simp only [Nat.lt_irrefl, if_false, pure_bind]
  refine Points.call_seq (begin_ok v) ?_
  have := Points.pure_ (σ := Mem T) (a := (Ptr.mk s.blk 0 + i)) (s := h) (P := P)
  simpa using this

theorem insertValues_moves (B : Base h) (v : IsVec h c s) (hi : i ≤ s.vals.length) (src : Src T) (hg : Gives h src ws) (hw : ws ≠ []) (room : s.cap < s.vals.length + ws.length) :
    Points (insertValues c ⟨s.blk, i⟩ ws.length src) h (1 + (s.vals.length + ws.length)) ⟨h.fresh, i⟩
      (h.moved c s.blk (s.vals.take i ++ ws ++ s.vals.drop i) (s.vals.length + ws.length))
      (Spilled h (s.vals.length + ws.length) (s.vals.take i ++ ws ++ s.vals.drop i)) := by
  have hb := v.lt_fresh B
  have ne : s.blk ≠ h.fresh := by omega
  have le := v.le
  have hpos : 0 < ws.length := List.length_pos_iff.2 hw
  have room' : s.cap - s.vals.length < ws.length := by omega
  have ht : (s.vals.take i).length = i := by simp [hi]
  have hd : (s.vals.drop i).length = s.vals.length - i := by simp
  refine Points.call_seq (getObj_eq v.obj) (Points.call_seq (a := i) (s' := h) (by simp [VS.rep, diff_eq]) ?_)
  rw [if_pos hpos]
  generalize hN : s.vals.length + ws.length = N
  have hlen : (s.vals.take i ++ ws ++ s.vals.drop i).length = N := by rw [List.length_append, List.length_append, ht, hd]; omega
  have key : Points (insertBody c s.rep ⟨s.blk, i⟩ i ws.length src) h (1 + N) () (h.moved c s.blk (s.vals.take i ++ ws ++ s.vals.drop i) N)
        (Spilled h N (s.vals.take i ++ ws ++ s.vals.drop i)) := by
    refine Points.call_seq (a := s.cap - s.vals.length) (s' := h) (by simp [VS.rep, diff_eq, le]) ?_
    rw [if_pos room']
    refine Points.call_seq (size_ok v) ?_
    rw [hN]
    refine Points.seq (alloc_points rfl) ?_
    have c1 := copyTo_points (n := N) (b := s.blk) (b' := h.fresh) ne (s.vals.take i) [] 0 (spill h N []) (by
      intro k a hk
      have : k < i := by have := (List.getElem?_eq_some_iff.1 hk).1; omega
      rw [List.getElem?_take_of_lt this] at hk
      rw [Nat.zero_add]; exact spill_holds B _ _ (v.holds hk)) (fun _ => spill_size ..) (by simp; omega) (spill_slot ..)
    simp only [List.length_nil, Nat.zero_add, List.nil_append, ht, spill_lay] at c1
    have c2 := fillAt_points (n := N) (b := h.fresh) (ys := []) ws (s.vals.take i) src (spill h N (s.vals.take i)) h 0 (fun _ => spill_size ..) (by rw [ht]; omega)
      (by rw [spill_slot, lay_gap]) hg (sub_alloc B _ _ _ _) (by intro zs m'; simp only [spill, lay_lay]; exact sub_alloc B _ _ _ _)
    simp only [ht, spill_lay] at c2
    have c3 := copyTo_points (n := N) (b := s.blk) (b' := h.fresh) ne (s.vals.drop i) (s.vals.take i ++ ws) i (spill h N (s.vals.take i ++ ws)) (by
      intro k a hk
      rw [List.getElem?_drop] at hk; exact spill_holds B _ _ (v.holds hk)) (fun _ => spill_size ..) (by rw [List.length_append, ht, hd]; omega) (spill_slot ..)
    rw [List.length_append, ht, hd, show i + (s.vals.length - i) = s.vals.length by omega, show i + ws.length + (s.vals.length - i) = N by omega] at c3
    simp only [spill_lay] at c3
    have eN : N = i + (ws.length + ((s.vals.length - i) + 0)) := by omega
    have e1 : (s.vals.take i ++ ws ++ s.vals.drop i).length = i + (ws.length + (s.vals.length - i)) := by omega
    have sp : ∀ k t, t = spill h N ((s.vals.take i ++ ws ++ s.vals.drop i).take k) → Spilled h N (s.vals.take i ++ ws ++ s.vals.drop i) (1 + k) t := by
      intro k t e; rw [Nat.add_comm]; exact e
    have main : Points (do
        let o ← copyTo s.rep.elems ⟨s.blk, i⟩ ⟨h.fresh, 0⟩
        let o ← fillAt ws.length src o
        let o ← copyTo ⟨s.blk, i⟩ s.rep.last o
        Thr.call (do
          destroyDown s.rep.last s.rep.elems
          free s.rep.elems
          setObj c ⟨⟨h.fresh, 0⟩, o, Ptr.mk h.fresh 0 + N⟩) : Thr (Mem T) Unit) (spill h N []) (i + (ws.length + ((s.vals.length - i) + 0))) ()
        (h.moved c s.blk (s.vals.take i ++ ws ++ s.vals.drop i) N) fun k t => Spilled h N (s.vals.take i ++ ws ++ s.vals.drop i) (1 + k) t := by
      refine Points.seq (c1.imp ?_) (Points.seq (c2.imp ?_) (Points.seq (c3.imp ?_) (Points.call_ ?_)))
      · intro k t hk e
        refine sp k t ?_
        rw [e, List.append_assoc, List.take_append_of_le_length (by omega)]
      · intro k t hk e
        refine sp (i + k) t ?_
        rw [e, spill_gap, List.append_assoc]
        have := take_take_append (s.vals.take i) (ws ++ s.vals.drop i) k
        rw [ht] at this
        rw [this, List.take_append_of_le_length (by omega)]
      · intro k t hk e
        refine sp (i + (ws.length + k)) t ?_
        have := take_take_append (s.vals.take i ++ ws) (s.vals.drop i) k
        rw [List.length_append, ht] at this
        rw [e, ← Nat.add_assoc, this]
      · have := leave_old B v N (s.vals.take i ++ ws ++ s.vals.drop i) 0
        rw [hlen] at this
        simpa [VS.rep] using this
    rw [← eN] at main
    exact main
  refine Points.seq (m := 0) key ?_
  refine Points.call_seq (a := ⟨h.fresh, 0⟩) (s' := h.moved c s.blk (s.vals.take i ++ ws ++ s.vals.drop i) N)
    (begin_ok (isVec_moved (c := c) (n := N) B hb (by omega))) ?_
  have := Points.pure_ (σ := Mem T) (a := (Ptr.mk h.fresh 0 + i)) (s := h.moved c s.blk (s.vals.take i ++ ws ++ s.vals.drop i) N)
    (P := fun k t => Spilled h N (s.vals.take i ++ ws ++ s.vals.drop i) (1 + N + k) t)
  simpa using this

/-! ## Members that work in place -/

/-- The vector `c` counts a slot that holds no object. -/
structure Broken (t : Mem T) (c : Nat) (s : VS T) : Prop where
  obj : ∃ m i, t.obj c = some ⟨⟨s.blk, 0⟩, ⟨s.blk, m⟩, ⟨s.blk, s.cap⟩⟩ ∧ m ≤ s.cap ∧ i < m ∧ t.slot s.blk i = none
  size : t.size s.blk = some s.cap

/-- Only the data members of `c` and the slots of block `b` differ. -/
structure Only (h t : Mem T) (c b : Nat) : Prop where
  obj : ∀ d, d ≠ c → t.obj d = h.obj d
  size : t.size = h.size
  slot : ∀ b', b' ≠ b → t.slot b' = h.slot b'
  fresh : t.fresh = h.fresh

theorem only_lay_set (h : Mem T) (c b : Nat) (xs : List T) (g : Nat) (ys : List T) (r : Rep) : Only h ((h.lay b xs g ys).setObj c r) c b :=
  ⟨fun d q => set_obj_other _ _ _ q, rfl, fun b' q => lay_slot_other _ _ _ _ _ q, rfl⟩
theorem only_lay (h : Mem T) (c b : Nat) (xs : List T) (g : Nat) (ys : List T) : Only h (h.lay b xs g ys) c b :=
  ⟨fun d q => rfl, rfl, fun b' q => lay_slot_other _ _ _ _ _ q, rfl⟩

theorem fillBack_breaks (v : IsVec h c s) {src : Src T} {g : Mem T} (hg : Gives g src ws) (hsub : g.Sub h) (room : s.vals.length + ws.length ≤ s.cap) :
    Points (fillBack c ws.length src) h ws.length () (h.vec c ⟨s.vals ++ ws, s.cap, s.blk⟩) fun k t => Broken t c s ∧ Only h t c s.blk := by
  have X := fillBack_points (n := s.cap) ws s.vals src h g v.obj v.size room v.slot hg hsub
  have e : h.vec c ⟨s.vals ++ ws, s.cap, s.blk⟩ = (h.lay s.blk (s.vals ++ ws) 0 []).setObj c ⟨⟨s.blk, 0⟩, ⟨s.blk, s.vals.length + ws.length⟩, ⟨s.blk, s.cap⟩⟩ := by
    simp [Heap.vec, VS.rep]
  rw [e]
  refine X.imp ?_
  rintro k t hk rfl
  refine ⟨⟨⟨s.vals.length + k + 1, s.vals.length + k, set_obj_same .., by omega, by omega, ?_⟩, v.size (by omega)⟩, only_lay_set ..⟩
  rw [set_slot, lay_slot_same, lay_nil]
  exact List.getElem?_eq_none (by simp; omega)

theorem copyAll_breaks (v : IsVec h c s) {t : VS T} (vd : IsVec h d t) (ne : d ≠ c) (room : s.vals.length + t.vals.length ≤ s.cap) :
    Points (copyAll c d ⟨t.blk, 0⟩) h t.vals.length () (h.vec c ⟨s.vals ++ t.vals, s.cap, s.blk⟩) fun k t => Broken t c s ∧ Only h t c s.blk := by
  have hg : Gives h (.range ⟨t.blk, 0⟩) t.vals := gives_range _ _ fun k a e => by rw [Nat.zero_add]; exact vd.holds e
  have X := copyAll_points (n := s.cap) (b2 := t.blk) (rd := t.rep) ne t.vals s.vals 0 h h v.obj vd.obj (by simp [VS.rep]) v.size room v.slot hg (Heap.Sub.refl _)
  have e : h.vec c ⟨s.vals ++ t.vals, s.cap, s.blk⟩ = (h.lay s.blk (s.vals ++ t.vals) 0 []).setObj c ⟨⟨s.blk, 0⟩, ⟨s.blk, s.vals.length + t.vals.length⟩, ⟨s.blk, s.cap⟩⟩ := by
    simp [Heap.vec, VS.rep]
  rw [e]
  refine X.imp ?_
  rintro k t' hk rfl
  refine ⟨⟨⟨s.vals.length + k + 1, s.vals.length + k, set_obj_same .., by omega, by omega, ?_⟩, v.size (by omega)⟩, only_lay_set ..⟩
  rw [set_slot, lay_slot_same, lay_nil]
  exact List.getElem?_eq_none (by simp; omega)

theorem insertValues_breaks (v : IsVec h c s) (hi : i ≤ s.vals.length) (src : Src T) (hg : Gives (h.lay s.blk (s.vals.take i) 0 []) src ws) (hw : ws ≠ [])
    (room : s.vals.length + ws.length ≤ s.cap) :
    Points (insertValues c ⟨s.blk, i⟩ ws.length src) h (s.vals.length - i + ws.length) ⟨s.blk, i⟩ (h.vec c ⟨s.vals.take i ++ ws ++ s.vals.drop i, s.cap, s.blk⟩)
      fun k t => Broken t c s ∧ Only h t c s.blk := by
  have le := v.le
  have hpos : 0 < ws.length := List.length_pos_iff.2 hw
  have room' : ¬ s.cap - s.vals.length < ws.length := by omega
  have hs := v.size (by omega)
  have ht : (s.vals.take i).length = i := by simp [hi]
  have hd : (s.vals.drop i).length = s.vals.length - i := by simp
  have htd := List.take_append_drop i s.vals
  have hlen : (s.vals.take i ++ ws ++ s.vals.drop i).length = s.vals.length + ws.length := by rw [List.length_append, List.length_append, ht, hd]; omega
  have fin : ∀ n, Points (insertBody c s.rep ⟨s.blk, i⟩ i ws.length src) h n () (h.vec c ⟨s.vals.take i ++ ws ++ s.vals.drop i, s.cap, s.blk⟩)
      (fun k t => Broken t c s ∧ Only h t c s.blk) →
      Points (insertValues c ⟨s.blk, i⟩ ws.length src) h n ⟨s.blk, i⟩ (h.vec c ⟨s.vals.take i ++ ws ++ s.vals.drop i, s.cap, s.blk⟩)
        fun k t => Broken t c s ∧ Only h t c s.blk := by
    intro n key
    refine Points.call_seq (getObj_eq v.obj) (Points.call_seq (a := i) (s' := h) (by simp [VS.rep, diff_eq]) ?_)
    rw [if_pos hpos]
    refine Points.seq (m := 0) key ?_
    have vv := isVec_vec v (s.vals.take i ++ ws ++ s.vals.drop i) (by omega)
    refine Points.call_seq (begin_ok vv) ?_
    have := Points.pure_ (σ := Mem T) (a := (Ptr.mk s.blk 0 + i)) (s := h.vec c ⟨s.vals.take i ++ ws ++ s.vals.drop i, s.cap, s.blk⟩)
      (P := fun k t => Broken t c s ∧ Only h t c s.blk)
    simpa using this
  by_cases q : i < s.vals.length
  · refine fin ((s.vals.length - i) + (ws.length + 0)) ?_
    refine Points.call_seq (a := s.cap - s.vals.length) (s' := h) (by simp [VS.rep, diff_eq, le]) ?_
    rw [if_neg room']
    refine Points.call_seq (a := true) (s' := h) (by simp [VS.rep, less_eq, q]) ?_
    rw [if_pos rfl]
    refine Points.call_seq (setObj_eq v.obj) ?_
    obtain ⟨g, hgg⟩ : ∃ g, ws.length = g + 1 := ⟨ws.length - 1, by omega⟩
    generalize hh1 : h.setObj c ⟨s.rep.elems, s.rep.last + ws.length, s.rep.eoe⟩ = h1
    have h1e : ∀ zs m ys, Broken (Heap.lay h1 s.blk zs m ys) c s ∧ Only h (Heap.lay h1 s.blk zs m ys) c s.blk ↔
        ∃ j, j < s.vals.length + ws.length ∧ lay zs m ys j = none := by
      intro zs m ys
      subst hh1
      constructor
      · rintro ⟨⟨⟨m', j, o, _, l, e⟩, _⟩, _⟩
        rw [set_lay, set_obj_same] at o
        rw [lay_slot_same] at e
        cases o
        exact ⟨j, l, e⟩
      · rintro ⟨j, l, e⟩
        exact ⟨⟨⟨s.vals.length + ws.length, j, set_obj_same .., room, l, by rw [lay_slot_same]; exact e⟩, hs⟩, only_lay_set ..⟩
    have c1 := shiftUp_points (n := s.cap) (b := s.blk) (g := g) (xs := s.vals.take i) (s.vals.drop i) [] h1 (by subst hh1; exact hs) (by rw [ht, hd]; omega)
      (by subst hh1; rw [htd, set_slot, v.slot, lay_gap])
    rw [ht, hd, show i + (s.vals.length - i) = s.vals.length by omega, ← hgg, List.append_nil] at c1
    have c2 := fillAt_points (n := s.cap) (b := s.blk) (ys := s.vals.drop i) ws (s.vals.take i) src (h1.lay s.blk (s.vals.take i) ws.length (s.vals.drop i))
      (h.lay s.blk (s.vals.take i) 0 []) 0 (fun _ => by subst hh1; exact hs) (by rw [ht]; omega) (by rw [lay_slot_same]; rfl) hg
      (by subst hh1; simp only [set_lay]; refine sub_set _ _ ?_; have := sub_prefix (h := h) (b := s.blk) (s.vals.take i) [] ws.length (s.vals.drop i); rwa [List.append_nil] at this)
      (by intro zs m'; rw [lay_lay]; subst hh1; simp only [set_lay]; exact sub_set _ _ (sub_prefix _ _ _ _))
    simp only [ht, lay_lay] at c2
    refine Points.seq (c1.imp ?_) ?_
    · rintro k t hk rfl
      rw [List.append_nil, h1e]
      refine ⟨i + (s.vals.length - i - k), by omega, lay_raw _ _ _ ?_ ?_⟩
      · rw [List.length_append, ht, List.length_take, hd]; omega
      · rw [List.length_append, ht, List.length_take, hd]; omega
    · have e : h.vec c ⟨s.vals.take i ++ ws ++ s.vals.drop i, s.cap, s.blk⟩ = h1.lay s.blk (s.vals.take i ++ ws) 0 (s.vals.drop i) := by
        subst hh1
        simp only [Heap.vec, VS.rep, hlen, Heap.lay, lay_zero (s.vals.take i ++ ws), Heap.setObj, ptr_add]
      rw [e, show s.rep.elems + i = Ptr.mk s.blk i by simp [VS.rep]]
      refine Points.seq (m := 0) (c2.imp ?_) Points.pure_
      rintro k t hk rfl
      rw [h1e]
      refine ⟨i + k, by omega, lay_raw _ _ _ ?_ ?_⟩
      · rw [List.length_append, ht, List.length_take]; omega
      · rw [List.length_append, ht, List.length_take]; omega
  · have hi' : i = s.vals.length := by omega
    refine Points.cast (n := ws.length) (by omega) (fin _ ?_)
    refine Points.call_seq (a := s.cap - s.vals.length) (s' := h) (by simp [VS.rep, diff_eq, le]) ?_
    rw [if_neg room']
    refine Points.call_seq (a := false) (s' := h) (by simp [VS.rep, less_eq]; omega) ?_
    rw [if_neg (by simp)]
    subst hi'
    simp only [List.take_length, List.drop_length, List.append_nil] at hg ⊢
    rw [lay_self _ _ _ _ _ v.slot] at hg
    exact fillBack_breaks v hg (Heap.Sub.refl _) room

theorem pushBack_breaks (v : IsVec h c s) {x : Arg T} {a : T} (hx : x.get h = .ok (a, h)) (room : s.vals.length < s.cap) :
    Points (pushBack c x) h 1 () (h.vec c ⟨s.vals ++ [a], s.cap, s.blk⟩) fun k t => Broken t c s ∧ Only h t c s.blk := by
  refine Points.call_seq (getObj_eq v.obj) (Points.call_seq (a := true) (s' := h) (by simp [VS.rep, less_eq, room]) ?_)
  rw [if_pos rfl]
  refine Points.call_seq hx ?_
  have X := appendOne_points (n := s.cap) (w := a) (P := fun k t => Broken t c s ∧ Only h t c s.blk) v.obj (v.size (by omega)) room v.slot (by
    refine ⟨⟨⟨s.vals.length + 1, s.vals.length, set_obj_same .., by omega, by omega, ?_⟩, v.size (by omega)⟩, only_lay_set ..⟩
    rw [set_slot, lay_slot_same, lay_nil]
    exact List.getElem?_eq_none (Nat.le_refl _))
  have e : h.vec c ⟨s.vals ++ [a], s.cap, s.blk⟩ = (h.lay s.blk (s.vals ++ [a]) 0 []).setObj c ⟨⟨s.blk, 0⟩, ⟨s.blk, s.vals.length + 1⟩, ⟨s.blk, s.cap⟩⟩ := by
    simp [Heap.vec, VS.rep]
  rw [e]; exact X

theorem pushBack_moves (B : Base h) (v : IsVec h c s) {x : Arg T} {a : T} (hx : ∀ k : Mem T, h.Sub k → x.get k = .ok (a, k)) (room : s.vals.length = s.cap) :
    Points (pushBack c x) h (1 + (s.vals.length + 1)) () (h.moved c s.blk (s.vals ++ [a]) (s.vals.length + 1))
      (Spilled h (s.vals.length + 1) (s.vals ++ [a])) := by
  refine Points.call_seq (getObj_eq v.obj) (Points.call_seq (a := false) (s' := h) (by simp [VS.rep, less_eq]; omega) ?_)
  rw [if_neg (by simp)]
  refine Points.call_seq (end_ok v) ?_
  have X := insertValues_moves (ws := [a]) (i := s.vals.length) B v (Nat.le_refl _) (.counter x) ⟨⟨x, fun _ => rfl, hx⟩, trivial⟩ (by simp) (by simp; omega)
  simp only [List.take_length, List.drop_length, List.append_nil, List.length_singleton] at X
  exact Points.seq (m := 0) X Points.pure_

/-- Moving the elements behind the erased ones down may throw; `last_` is only changed at the end. -/
theorem eraseRange_breaks (v : IsVec h c s) (hij : i < j) (hj : j ≤ s.vals.length) :
    Points (eraseRange c ⟨s.blk, i⟩ ⟨s.blk, j⟩) h (s.vals.length - j) ⟨s.blk, i⟩ (h.vec c ⟨s.vals.take i ++ s.vals.drop j, s.cap, s.blk⟩)
      fun k t => Broken t c s ∧ Only h t c s.blk := by
  have le := v.le
  have hs := v.size (by omega)
  have ht : (s.vals.take i).length = i := by simp; omega
  have hm : ((s.vals.drop i).take (j - i)).length = j - i := by simp; omega
  have hd : (s.vals.drop j).length = s.vals.length - j := by simp
  have e0 : s.vals = s.vals.take i ++ (s.vals.drop i).take (j - i) ++ s.vals.drop j := by
    rw [List.append_assoc, show s.vals.drop j = (s.vals.drop i).drop (j - i) by rw [List.drop_drop]; congr 1; omega, List.take_append_drop, List.take_append_drop]
  refine Points.call_seq (getObj_eq v.obj) ?_
  refine Points.call_seq (a := i) (s' := h) (by simp [VS.rep, diff_eq]) ?_
  refine Points.call_seq (a := j) (s' := h) (by simp [VS.rep, diff_eq]) ?_
  obtain ⟨g, hg⟩ : ∃ g, j - i = g + 1 := ⟨j - i - 1, by omega⟩
  have c1 := destroyBack_ok (n := s.cap) (b := s.blk) (xs := s.vals.take i) (ys := s.vals.drop j) ((s.vals.drop i).take (j - i)) 0 h (fun _ => hs) (by rw [ht, hm]; omega)
    (by rw [lay_zero, ← e0]; exact v.slot)
  rw [ht, hm, show i + (j - i) = j by omega, Nat.zero_add] at c1
  refine Points.call_seq (a := ()) (by simpa [VS.rep] using c1) ?_
  have c2 := shiftDown_points (n := s.cap) (b := s.blk) (g := g) (s.vals.drop j) (s.vals.take i) (h.lay s.blk (s.vals.take i) (j - i) (s.vals.drop j)) (fun _ => hs)
    (by rw [ht, hd]; omega) (by rw [lay_slot_same, hg])
  simp only [ht, hd, lay_lay] at c2
  rw [show i + (g + 1) = j by omega, show j + (s.vals.length - j) = s.vals.length by omega] at c2
  have hz : (s.vals.take i ++ s.vals.drop j).length = i + (s.vals.length - j) := by rw [List.length_append, ht, hd]
  have e1 : s.rep.elems + j = Ptr.mk s.blk j := by simp [VS.rep]
  have e2 : s.rep.elems + i = Ptr.mk s.blk i := by simp [VS.rep]
  rw [e1, e2]
  refine Points.seq (m := 0) (c2.imp ?_) ?_
  · rintro k t hk rfl
    refine ⟨⟨⟨s.vals.length, i + k, v.obj, le, by omega, ?_⟩, hs⟩, only_lay ..⟩
    rw [lay_slot_same]
    refine lay_raw _ _ _ ?_ ?_
    · rw [List.length_append, ht, List.length_take, hd]; omega
    · rw [List.length_append, ht, List.length_take, hd]; omega
  · refine Points.call_seq (setObj_eq (h := h.lay _ _ _ _) v.obj) ?_
    have e : h.vec c ⟨s.vals.take i ++ s.vals.drop j, s.cap, s.blk⟩ =
        (h.lay s.blk (s.vals.take i ++ s.vals.drop j) 0 []).setObj c ⟨s.rep.elems, ⟨s.blk, i + (s.vals.length - j)⟩, s.rep.eoe⟩ := by
      simp only [Heap.vec, VS.rep, hz]
    rw [e]
    refine Points.call_seq (a := ⟨s.blk, 0⟩) (s' := (h.lay s.blk (s.vals.take i ++ s.vals.drop j) 0 []).setObj c ⟨s.rep.elems, ⟨s.blk, i + (s.vals.length - j)⟩, s.rep.eoe⟩) (by simp [begin_, getObj_eq (set_obj_same ..), VS.rep]) ?_
    have := Points.pure_ (σ := Mem T) (a := (Ptr.mk s.blk 0 + i)) (s := (h.lay s.blk (s.vals.take i ++ s.vals.drop j) 0 []).setObj c ⟨s.rep.elems, ⟨s.blk, i + (s.vals.length - j)⟩, s.rep.eoe⟩)
      (P := fun k t => Broken t c s ∧ Only h t c s.blk)
    simpa using this

/-! ## Using a broken vector -/

theorem shrinkTo_hole {e eo : Ptr} (hs : ∃ k, h.size b = some k ∧ n ≤ k) (hi : i < n) (hv : h.slot b i = none) : ∀ m (t : Mem T), i < m → m ≤ n → t.size = h.size →
    t.obj c = some ⟨e, ⟨b, m⟩, eo⟩ → t.slot b i = none → shrinkTo c ⟨b, 0⟩ t = .ub .lifetime := by
  obtain ⟨K, hK, hKn⟩ := hs
  intro m
  induction m with
  | zero => intro t h1; omega
  | succ m ih =>
    intro t h1 h2 hsz ho hn
    rw [shrinkTo]
    simp only [Prog.bind_app, getObj_eq ho, Res.bind_ok, less_eq, Nat.succ_pos, decide_true, if_true, dec_eq, setObj_eq ho]
    cases q : t.slot b m with
    | none => rw [destruct_raw (n := K) (by rw [set_size, hsz]; exact hK) (by show m < K; omega) (by exact q)]; rfl
    | some a =>
      rw [destruct_eq (n := K) (a := a) (by rw [set_size, hsz]; exact hK) (by show m < K; omega) (by exact q)]
      simp only [Res.bind_ok]
      have : i ≠ m := by rintro rfl; rw [hn] at q; cases q
      refine ih _ (by omega) (by omega) hsz (set_obj_same ..) ?_
      show upd t.slot b (upd (t.slot b) m none) b i = none
      rw [upd_same, upd_other _ _ this]; exact hn

/-- `clear()` of a broken vector destroys an object that does not exist. -/
theorem Broken.clear {t : Mem T} (k : Broken t c s) : clear c t = .ub .lifetime := by
  obtain ⟨⟨m, i, o, l, hi, hv⟩, hs⟩ := k
  simp only [Vec.clear, begin_, Prog.bind_app, getObj_eq o, Res.bind_ok, Prog.pure_app]
  exact shrinkTo_hole (n := m) (i := i) ⟨s.cap, hs, l⟩ hi hv m t hi (Nat.le_refl _) rfl o hv

theorem Broken.destroy {t : Mem T} (k : Broken t c s) : destroy c t = .ub .lifetime := by
  simp only [Vec.destroy, Prog.bind_app, k.clear, Res.bind_ub]

theorem walk_hole {t : Mem T} (hs : t.size b = some n) {m : Nat} (hm : m ≤ n) (hv : t.slot b i = none) : ∀ d j, j + d = i → i < m → walk ⟨b, j⟩ ⟨b, m⟩ t = .ub .lifetime := by
  intro d
  induction d with
  | zero =>
    intro j e l
    have hne : ¬ (Ptr.mk b j = ⟨b, m⟩) := by simp; omega
    rw [walk]
    simp only [Prog.ite_app, if_neg hne, Prog.bind_app]
    rw [read_raw hs (by show j < n; omega) (by show t.slot b j = none; rw [show j = i by omega]; exact hv)]; rfl
  | succ d ih =>
    intro j e l
    have hne : ¬ (Ptr.mk b j = ⟨b, m⟩) := by simp; omega
    rw [walk]
    simp only [Prog.ite_app, if_neg hne, Prog.bind_app, ptr_add]
    cases q : t.slot b j with
    | none => rw [read_raw hs (by show j < n; omega) (by exact q)]; rfl
    | some a =>
      rw [read_eq hs (by show j < n; omega) (by exact q)]
      simp only [Res.bind_ok, ih (j + 1) (by omega) l, Res.bind_ub]

/-- Iterating over a broken vector reads an object that does not exist. -/
theorem Broken.toList {t : Mem T} (k : Broken t c s) : toList c t = .ub .lifetime := by
  obtain ⟨⟨m, i, o, l, hi, hv⟩, hs⟩ := k
  simp only [Vec.toList, begin_, end_, Prog.bind_app, getObj_eq o, Res.bind_ok, Prog.pure_app]
  exact walk_hole hs l hv i 0 (by omega) hi

end Verif.Exc.XVec
