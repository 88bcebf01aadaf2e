import Verif.Vec.Ops
/-!
# Member functions of `ttl::vector`, continued
-/
set_option linter.unusedVariables false
set_option linter.unusedSimpArgs false
namespace Verif.Vec
open Verif
variable {T : Type} {b n c d i j : Nat} {xs ys ws : List T} {h h' h'' : Mem T} {s s' s'' : VS T}

/-- The call changed only the vector `c`, from state `s` to state `s'`; if it moved to another block, that block is new and the old one is
released, with nothing left in it. -/
structure Change (h h' : Mem T) (c : Nat) (s s' : VS T) : Prop where
  vec : IsVec h' c s'
  obj : ∀ d, d ≠ c → h'.obj d = h.obj d
  keep : ∀ b, b ≠ s.blk → b ≠ s'.blk → h'.size b = h.size b ∧ h'.slot b = h.slot b
  moved : (s'.blk = s.blk ∧ h'.size s.blk = h.size s.blk) ∨ (h.fresh ≤ s'.blk ∧ s'.blk < h'.fresh ∧ h'.size s.blk = none ∧ h'.slot s.blk = lay [] 0 [])
  fresh : h.fresh ≤ h'.fresh

theorem Change.blk_lt (B : Base h) (v : IsVec h c s) (k : Change h h' c s s') : s'.blk < h'.fresh := by
  have hb := v.lt_fresh B
  have hf := k.fresh
  rcases k.moved with ⟨q, _⟩ | ⟨q1, q2, q3, q4⟩ <;> omega

theorem Change.base (B : Base h) (v : IsVec h c s) (k : Change h h' c s s') : Base h' := by
  have hb := v.lt_fresh B
  have hf := k.fresh
  have hb' := k.blk_lt B v
  have hp := B.pos
  have z : h'.size 0 = none ∧ h'.slot 0 = lay [] 0 [] := by
    by_cases e : s.blk = 0
    · rcases k.moved with ⟨q1, q2⟩ | ⟨q1, q2, q3, q4⟩
      · have z := k.vec.zero (by omega)
        have sl := k.vec.slot
        rw [q1, e] at sl
        have le := k.vec.le
        rw [show s'.vals = [] from List.eq_nil_of_length_eq_zero (by omega)] at sl
        rw [e] at q2
        exact ⟨q2.trans B.null, sl⟩
      · rw [e] at q3 q4; exact ⟨q3, q4⟩
    · have e' : 0 ≠ s'.blk := by rcases k.moved with ⟨q1, q2⟩ | ⟨q1, q2, q3, q4⟩ <;> omega
      have := k.keep 0 (Ne.symm e) e'
      exact ⟨this.1.trans B.null, this.2.trans B.nullSlot⟩
  refine ⟨by omega, z.1, z.2, ?_, ?_⟩
  · intro b q
    have := k.keep b (by omega) (by omega)
    have g := B.gone b (by omega)
    exact ⟨this.1.trans g.1, this.2.trans g.2⟩
  · intro d q
    have := v.obj_lt B
    rw [k.obj d (by omega)]; exact B.objs d (by omega)

theorem Change.trans (B : Base h) (v : IsVec h c s) (k : Change h h' c s s') (k' : Change h' h'' c s' s'') : Change h h'' c s s'' := by
  have hb := v.lt_fresh B
  have hf := k.fresh
  have hf' := k'.fresh
  have hb' := k.blk_lt B v
  refine ⟨k'.vec, fun d q => (k'.obj d q).trans (k.obj d q), ?_, ?_, by omega⟩
  · intro b q1 q2
    by_cases e : b = s'.blk
    · subst e
      rcases k'.moved with ⟨a1, a2⟩ | ⟨a1, a2, a3, a4⟩
      · exact absurd a1.symm q2
      · rcases k.moved with ⟨b1, b2⟩ | ⟨b1, b2, b3, b4⟩
        · exact absurd b1 q1
        · have g := B.gone _ b1
          exact ⟨a3.trans g.1.symm, a4.trans g.2.symm⟩
    · have k1 := k.keep b q1 e
      have k2 := k'.keep b e q2
      exact ⟨k2.1.trans k1.1, k2.2.trans k1.2⟩
  · rcases k'.moved with ⟨a1, a2⟩ | ⟨a1, a2, a3, a4⟩
    · rcases k.moved with ⟨b1, b2⟩ | ⟨b1, b2, b3, b4⟩
      · exact .inl ⟨a1.trans b1, by rw [← b1, a2, b1]; exact b2⟩
      · have ne1 : s.blk ≠ s'.blk := by omega
        have k2 := k'.keep s.blk ne1 (by omega)
        exact .inr ⟨by omega, by omega, k2.1.trans b3, k2.2.trans b4⟩
    · rcases k.moved with ⟨b1, b2⟩ | ⟨b1, b2, b3, b4⟩
      · rw [b1] at a3 a4; exact .inr ⟨by omega, a2, a3, a4⟩
      · have k2 := k'.keep s.blk (by omega) (by omega)
        exact .inr ⟨by omega, by omega, k2.1.trans b3, k2.2.trans b4⟩

theorem Change.refl (v : IsVec h c s) : Change h h c s s :=
  ⟨v, fun _ _ => rfl, fun _ _ _ => ⟨rfl, rfl⟩, .inl ⟨rfl, rfl⟩, Nat.le_refl _⟩

theorem vec_change (v : IsVec h c s) (vs : List T) (q : vs.length ≤ s.cap) : Change h (h.vec c ⟨vs, s.cap, s.blk⟩) c s ⟨vs, s.cap, s.blk⟩ :=
  ⟨isVec_vec v vs q, fun d e => upd_other _ _ e, fun b e _ => ⟨rfl, lay_slot_other _ _ _ _ _ e⟩, .inl ⟨rfl, rfl⟩, Nat.le_refl _⟩

theorem moved_change (B : Base h) (v : IsVec h c s) (vs : List T) (q : vs.length ≤ n) : Change h (h.moved c s.blk vs n) c s ⟨vs, n, h.fresh⟩ := by
  have hb := v.lt_fresh B
  refine ⟨isVec_moved B hb q, fun d e => upd_other _ _ e, ?_, ?_, Nat.le_succ _⟩
  · intro b e1 e2
    constructor
    · show upd (upd h.size h.fresh _) s.blk _ b = _
      rw [upd_other _ _ e1, upd_other _ _ e2]
    · show upd (upd h.slot h.fresh _) s.blk _ b = _
      rw [upd_other _ _ e1, upd_other _ _ e2]
  · exact .inr ⟨Nat.le_refl _, Nat.lt_succ_self _, upd_same .., upd_same ..⟩

/-- Whatever can be read outside the block of `c` can still be read. -/
theorem Change.sub (B : Base h) (v : IsVec h c s) (k : Change h h' c s s') : (h.lay s.blk [] 0 []).Sub h' := by
  intro b i a ⟨⟨m, q1, q2⟩, q3⟩
  have e1 : b ≠ s.blk := by
    intro e; subst e; rw [lay_slot_same, lay_nil] at q3; simp at q3
  have e2 : b ≠ s'.blk := by
    intro e; subst e
    rcases k.moved with ⟨a1, _⟩ | ⟨a1, _⟩
    · exact e1 a1
    · have := (B.gone _ a1).1; simp only [lay_size] at q1; rw [this] at q1; cases q1
  have kk := k.keep b e1 e2
  rw [lay_slot_other _ _ _ _ _ e1] at q3
  exact ⟨⟨m, kk.1.trans q1, q2⟩, by rw [kk.2]; exact q3⟩

/-! ## Abstract effect -/

/-- Other elements in the same block. -/
def VS.become (s : VS T) (vs : List T) : VS T := ⟨vs, s.cap, s.blk⟩
/-- `reserve(n)`, where the next block is `f` -/
def VS.reserve (s : VS T) (f n : Nat) : VS T := if n < s.cap then s else ⟨s.vals, n, f⟩
/-- insertion of `ws` before position `i` -/
def VS.ins (s : VS T) (f i : Nat) (ws : List T) : VS T :=
  if ws = [] then s
  else if s.cap < s.vals.length + ws.length then ⟨s.vals.take i ++ ws ++ s.vals.drop i, s.vals.length + ws.length, f⟩
  else ⟨s.vals.take i ++ ws ++ s.vals.drop i, s.cap, s.blk⟩
/-- `ws` appended one by one -/
def VS.pushes (s : VS T) (f : Nat) (ws : List T) : VS T :=
  if s.cap < s.vals.length + ws.length then ⟨s.vals ++ ws, s.vals.length + ws.length, f + (s.vals.length + ws.length - s.cap) - 1⟩
  else ⟨s.vals ++ ws, s.cap, s.blk⟩

theorem reserve_change (B : Base h) (v : IsVec h c s) (n : Nat) :
    ∃ h', reserve c n h = .ok ((), h') ∧ Change h h' c s (s.reserve h.fresh n) ∧ h'.fresh = (if n < s.cap then h.fresh else h.fresh + 1) := by
  rw [reserve_ok B v n]
  simp only [VS.reserve]
  split
  · exact ⟨_, rfl, Change.refl v, rfl⟩
  · exact ⟨_, rfl, moved_change B v _ (by have := v.le; omega), rfl⟩

theorem ins_length (hi : i ≤ xs.length) : (xs.take i ++ ws ++ xs.drop i).length = xs.length + ws.length := by
  simp; omega

/-- The argument of an insertion at `i` can be used safely. -/
def SafeSrc (h : Mem T) (s : VS T) (i : Nat) (src : Src T) (ws : List T) : Prop :=
  ws ≠ [] → if s.cap < s.vals.length + ws.length then Gives h src ws else Gives (h.lay s.blk (s.vals.take i) 0 []) src ws

theorem insertValues_change (B : Base h) (v : IsVec h c s) (hi : i ≤ s.vals.length) {src : Src T} (hg : SafeSrc h s i src ws) :
    ∃ h', insertValues c ⟨s.blk, i⟩ ws.length src h = .ok (⟨(s.ins h.fresh i ws).blk, i⟩, h') ∧ Change h h' c s (s.ins h.fresh i ws) ∧
      h'.fresh = (if s.cap < s.vals.length + ws.length then h.fresh + 1 else h.fresh) := by
  by_cases e : ws = []
  · subst e
    have le := v.le
    refine ⟨h, ?_, ?_, ?_⟩
    · simp only [List.length_nil, insertValues_zero v, VS.ins, if_true]
    · simp only [VS.ins, if_true]; exact Change.refl v
    · rw [if_neg (by simp; omega)]
  · have hg := hg e
    simp only [VS.ins, if_neg e]
    by_cases q : s.cap < s.vals.length + ws.length
    · rw [if_pos q] at hg
      refine ⟨h.moved c s.blk (s.vals.take i ++ ws ++ s.vals.drop i) (s.vals.length + ws.length), ?_, ?_, ?_⟩
      · rw [if_pos q]; exact insertValues_moved B v hi src hg e q
      · rw [if_pos q]; exact moved_change B v _ (by rw [ins_length hi]; exact Nat.le_refl _)
      · rw [if_pos q]; rfl
    · rw [if_neg q] at hg
      refine ⟨h.vec c ⟨s.vals.take i ++ ws ++ s.vals.drop i, s.cap, s.blk⟩, ?_, ?_, ?_⟩
      · rw [if_neg q]; exact insertValues_here v hi src hg e (by omega)
      · rw [if_neg q]; exact vec_change v _ (by rw [ins_length hi]; omega)
      · rw [if_neg q]; rfl

theorem pushBack_change (B : Base h) (v : IsVec h c s) {x : Arg T} {a : T} (hx : ∀ k : Mem T, h.Sub k → x.get k = .ok (a, k)) :
    ∃ h', pushBack c x h = .ok ((), h') ∧ Change h h' c s (s.ins h.fresh s.vals.length [a]) ∧
      h'.fresh = (if s.cap < s.vals.length + 1 then h.fresh + 1 else h.fresh) ∧ (s.vals.length < s.cap → h.Sub h') := by
  have le := v.le
  simp only [pushBack, Prog.bind_app, getObj_eq v.obj, Res.bind_ok, VS.rep, less_eq, Prog.ite_app, decide_eq_true_eq]
  split
  · rename_i q
    simp only [Prog.bind_app, hx h (Heap.Sub.refl _), Res.bind_ok]
    have := fillBack_ok (c := c) (b := s.blk) (n := s.cap) (e := ⟨s.blk, 0⟩) (eo := ⟨s.blk, s.cap⟩) [a] s.vals (.vals [a]) h h v.obj v.size (by simp; omega) v.slot (gives_vals _)
      (Heap.Sub.refl _)
    simp only [List.length_singleton, fillBack, Src.next, Src.deref, Arg.get, Prog.bind_app, Prog.pure_app, Res.bind_ok] at this
    refine ⟨(h.lay s.blk (s.vals ++ [a]) 0 []).setObj c ⟨⟨s.blk, 0⟩, ⟨s.blk, s.vals.length + 1⟩, ⟨s.blk, s.cap⟩⟩, ?_, ?_, ?_, ?_⟩
    · cases g : appendOne c a h with
      | ok y => obtain ⟨⟨⟩, y⟩ := y; rw [g] at this; simpa using this
      | ub f => rw [g] at this; cases this
      | diverge => rw [g] at this; cases this
    · have e : s.ins h.fresh s.vals.length [a] = ⟨s.vals ++ [a], s.cap, s.blk⟩ := by
        simp only [VS.ins, List.cons_ne_nil, if_false, List.length_singleton, show ¬ s.cap < s.vals.length + 1 by omega]; simp
      rw [e]
      have := vec_change v (s.vals ++ [a]) (by simp; omega)
      simpa [Heap.vec, VS.rep] using this
    · rw [if_neg (by omega)]; rfl
    · intro _; exact sub_set _ _ (sub_append _ v.slot)
  · rename_i q
    have sf : SafeSrc h s s.vals.length (.counter x) [a] := by
      intro _; rw [if_pos (by simp; omega)]; exact gives_counter hx 1
    obtain ⟨h', e1, e2, e3⟩ := insertValues_change B v (Nat.le_refl _) sf
    refine ⟨h', ?_, e2, e3, fun k => absurd k q⟩
    simp only [Prog.bind_app, end_ok v, Res.bind_ok, insertN]
    rw [show insertValues c ⟨s.blk, s.vals.length⟩ 1 (.counter x) h = _ from e1]; rfl

theorem pushAll_change : ∀ (ws : List T) (h : Mem T) (s : VS T) (src : Src T) (g : Mem T), Base h → IsVec h c s → Gives g src ws → g.Sub (h.lay s.blk [] 0 []) → 
    ∃ h', pushAll c ws.length src h = .ok ((), h') ∧ Change h h' c s (s.pushes h.fresh ws)
  | [], h, s, src, g, B, v, hg, hs => by
    have le := v.le
    refine ⟨h, rfl, ?_⟩
    simp only [VS.pushes, List.length_nil, Nat.add_zero, show ¬ s.cap < s.vals.length by omega, if_false, List.append_nil]
    exact Change.refl v
  | w :: ws, h, s, src, g, B, v, hg, hs => by
    have le := v.le
    obtain ⟨⟨a, q1, q2⟩, hg2⟩ := hg
    have sub0 : (h.lay s.blk [] 0 []).Sub h := by
      have := sub_prefix (h := h) (b := s.blk) [] s.vals 0 []
      rwa [List.nil_append, lay_self h _ _ _ _ v.slot] at this
    obtain ⟨h1, e1, k1, f1, _⟩ := pushBack_change B v (x := a) (a := w) (fun k hk => q2 k ((hs.trans sub0).trans hk))
    have B1 := k1.base B v
    have v1 := k1.vec
    have hs1 : g.Sub (h1.lay (s.ins h.fresh s.vals.length [w]).blk [] 0 []) := by
      refine hs.trans ?_
      intro b i y ⟨⟨m, p1, p2⟩, p3⟩
      have e1 : b ≠ s.blk := by intro e; subst e; rw [lay_slot_same, lay_nil] at p3; simp at p3
      have e2 : b ≠ (s.ins h.fresh s.vals.length [w]).blk := by
        intro e
        rcases k1.moved with ⟨a1, _⟩ | ⟨a1, _⟩
        · exact e1 (e.trans a1)
        · rw [← e] at a1; have := (B.gone _ a1).1; simp only [lay_size] at p1; rw [this] at p1; cases p1
      have kk := k1.keep b e1 e2
      rw [lay_slot_other _ _ _ _ _ e1] at p3
      exact ⟨⟨m, kk.1.trans p1, p2⟩, by rw [lay_slot_other _ _ _ _ _ e2, kk.2]; exact p3⟩
    obtain ⟨h2, e2, k2⟩ := pushAll_change ws h1 _ src.succ g B1 v1 hg2 hs1
    refine ⟨h2, ?_, ?_⟩
    · simp only [List.length_cons, pushAll, Prog.bind_app, q1, Res.bind_ok, e1]; exact e2
    · have := k1.trans B v k2
      have e : (s.ins h.fresh s.vals.length [w]).pushes h1.fresh ws = s.pushes h.fresh (w :: ws) := by
        simp only [VS.ins, List.cons_ne_nil, if_false, List.length_singleton, List.take_length, List.drop_length, List.append_nil]
        by_cases q : s.cap < s.vals.length + 1
        · rw [if_pos q] at f1
          simp only [f1, if_pos q, VS.pushes, List.length_append, List.length_singleton, List.length_cons, List.length_nil, Nat.zero_add]
          have hc : s.cap = s.vals.length := by omega
          rw [if_pos (show s.cap < s.vals.length + (ws.length + 1) by omega)]
          split
          · simp only [List.append_assoc, List.singleton_append, VS.mk.injEq, true_and]; omega
          · have : ws = [] := List.eq_nil_of_length_eq_zero (by omega)
            subst this; simp; omega
        · rw [if_neg q] at f1
          simp only [f1, if_neg q, VS.pushes, List.length_append, List.length_singleton, List.length_cons, List.length_nil, Nat.zero_add]
          by_cases q' : s.cap < s.vals.length + 1 + ws.length
          · rw [if_pos q', if_pos (by omega)]; simp only [List.append_assoc, List.singleton_append, VS.mk.injEq, true_and]; omega
          · rw [if_neg q', if_neg (by omega)]; simp
      rwa [e] at this

theorem eraseRange_change (v : IsVec h c s) (hij : i < j) (hj : j ≤ s.vals.length) :
    ∃ h', eraseRange c ⟨s.blk, i⟩ ⟨s.blk, j⟩ h = .ok (⟨s.blk, i⟩, h') ∧ Change h h' c s ⟨s.vals.take i ++ s.vals.drop j, s.cap, s.blk⟩ ∧ h'.fresh = h.fresh := by
  have le := v.le
  have ht : (s.vals.take i).length = i := by simp; omega
  have hm : ((s.vals.drop i).take (j - i)).length = j - i := by simp; omega
  have hd : (s.vals.drop j).length = s.vals.length - j := by simp
  have split : s.vals = (s.vals.take i ++ (s.vals.drop i).take (j - i)) ++ s.vals.drop j := by
    have e1 := List.take_append_drop (j - i) (s.vals.drop i)
    rw [List.drop_drop, show i + (j - i) = j by omega] at e1
    rw [List.append_assoc, e1, List.take_append_drop]
  refine ⟨h.vec c ⟨s.vals.take i ++ s.vals.drop j, s.cap, s.blk⟩, ?_, vec_change v _ (by rw [List.length_append, ht, hd]; omega), rfl⟩
  simp only [eraseRange, Prog.bind_app, getObj_eq v.obj, Res.bind_ok, VS.rep, diff_eq _ (Nat.zero_le _), Nat.sub_zero, ptr_add, Nat.zero_add]
  have c1 := destroyBack_ok (n := s.cap) (b := s.blk) (xs := s.vals.take i) (ys := s.vals.drop j) ((s.vals.drop i).take (j - i)) 0 h v.size (by rw [ht, hm]; omega)
    (by rw [lay_zero, ← split]; exact v.slot)
  rw [ht, hm, show i + (j - i) = j by omega, Nat.zero_add] at c1
  rw [c1]
  simp only [Res.bind_ok]
  obtain ⟨g, hg⟩ : ∃ g, j - i = g + 1 := ⟨j - i - 1, by omega⟩
  have c2 := shiftDown_ok (n := s.cap) (b := s.blk) (g := g) (s.vals.drop j) (s.vals.take i) (h.lay s.blk (s.vals.take i) (j - i) (s.vals.drop j)) v.size
    (by rw [ht, hd]; omega) (by rw [lay_slot_same, hg])
  rw [ht, hd, ← hg, show i + (j - i) = j by omega, show j + (s.vals.length - j) = s.vals.length by omega, lay_lay] at c2
  rw [c2]
  simp only [Res.bind_ok, setObj_eq (h := Heap.lay _ _ _ _ _) (by exact v.obj), begin_, Prog.bind_app, Prog.pure_app, getObj_eq (set_obj_same ..), ptr_add, Nat.zero_add]
  simp only [Heap.vec, VS.rep, List.length_append, ht, hd]

theorem eraseRange_end (v : IsVec h c s) : eraseRange c ⟨s.blk, s.vals.length⟩ ⟨s.blk, s.vals.length⟩ h = .ok (⟨s.blk, s.vals.length⟩, h) := by
  simp only [eraseRange, Prog.bind_app, getObj_eq v.obj, Res.bind_ok, VS.rep, diff_eq _ (Nat.zero_le _), Nat.sub_zero, ptr_add, Nat.zero_add]
  rw [destroyBack]
  simp only [if_true, Prog.pure_app, Res.bind_ok]
  rw [shiftDown]
  simp only [if_true, Prog.pure_app, Res.bind_ok, setObj_eq v.obj, begin_, Prog.bind_app, getObj_eq (set_obj_same ..), ptr_add, Nat.zero_add]
  have := v.obj; simp only [VS.rep] at this
  rw [set_self _ _ _ this]

theorem store_change (v : IsVec h c s) (hi : i < s.vals.length) {x : Arg T} {a : T} (hx : x.get h = .ok (a, h)) :
    ∃ h', store c i x h = .ok ((), h') ∧ Change h h' c s ⟨s.vals.set i a, s.cap, s.blk⟩ ∧ h'.fresh = h.fresh := by
  have le := v.le
  have ht : (s.vals.take i).length = i := by simp; omega
  have e : s.vals = s.vals.take i ++ s.vals[i] :: s.vals.drop (i + 1) := by
    rw [← List.drop_eq_getElem_cons hi, List.take_append_drop]
  have e' : s.vals.set i a = s.vals.take i ++ a :: s.vals.drop (i + 1) := by
    rw [List.set_eq_take_append_cons_drop]; simp [hi]
  refine ⟨h.vec c ⟨s.vals.set i a, s.cap, s.blk⟩, ?_, vec_change v _ (by simp; omega), rfl⟩
  simp only [store, Prog.bind_app, hx, Res.bind_ok, at_ok v]
  have c1 := write_left (h := h) (b := s.blk) (xs := s.vals.take i) (a := s.vals[i]) (zs := s.vals.drop (i + 1)) (v := a) (g := 0) (ys := []) (v.size (by omega)) (by omega)
    (by rw [← e]; exact v.slot)
  rw [ht] at c1
  rw [c1, ← e']
  simp only [Heap.vec, VS.rep, List.length_set]
  rw [set_self]; exact v.obj

theorem swap_ok {r r' : Rep} (hc : h.obj c = some r) (hd : h.obj d = some r') :
    swap c d h = .ok ((), (h.setObj c r').setObj d r) := by
  by_cases q : d = c
  · subst q
    rw [hc] at hd; cases hd
    simp only [swap, swapField, Prog.bind_app, getObj_eq hc, setObj_eq hc, Res.bind_ok, set_self _ _ _ hc]
  · have q' : c ≠ d := Ne.symm q
    simp [swap, swapField, getObj_eq hc, getObj_eq hd, setObj_eq hc, getObj, setObj, Heap.setObj, hc, hd, upd_other _ _ q, upd_other _ _ q', upd_comm _ _ _ q']

end Verif.Vec
