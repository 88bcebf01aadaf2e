import Verif.Vec.Api
/-!
# Every legal call does what `spec` says
-/
set_option linter.unusedVariables false
set_option linter.unusedSimpArgs false
namespace Verif.Vec
open Verif
variable {T : Type} {h h' : Mem T} {S : State T} {c d n i j k : Nat} {s s' t : VS T} {ws : List T} {dv : T}

theorem World.holds (W : World h S) (hd : S d = some t) {a : T} (q : t.vals[k]? = some a) : h.Holds t.blk k a := (W.vec d t hd).holds q

theorem World.holds_prefix (W : World h S) (hc : S c = some s) (hd : S d = some t) {a : T} (q : t.vals[k]? = some a) (hb : d = c → k < i) :
    (h.lay s.blk (s.vals.take i) 0 []).Holds t.blk k a := by
  obtain ⟨q1, q2⟩ := W.holds hd q
  have hk : k < t.vals.length := (List.getElem?_eq_some_iff.1 q).1
  refine ⟨q1, ?_⟩
  by_cases e : d = c
  · subst e; rw [hc] at hd; cases hd
    rw [lay_slot_same, lay_nil]
    show (s.vals.take i)[k]? = some a
    rw [List.getElem?_take_of_lt (hb rfl)]; exact q
  · have : t.blk ≠ s.blk := by
      intro e'
      have z := W.disj d c t s hd hc e e'
      have := (W.vec d t hd).zero z
      have := (W.vec d t hd).le
      omega
    rw [lay_slot_other _ _ _ _ _ this]; exact q2

theorem arg_ok (W : World h S) {a : CArg T} (va : a.Valid S) :
    ∃ x v, a.expr h = .ok (x, h) ∧ a.val S = some v ∧ (∀ k : Mem T, h.Sub k → x.get k = .ok (v, k)) ∧
      ∀ c s i, S c = some s → a.Before c i → ∀ k : Mem T, (h.lay s.blk (s.vals.take i) 0 []).Sub k → x.get k = .ok (v, k) := by
  cases a with
  | ext v => exact ⟨.ext v, v, rfl, rfl, fun _ _ => rfl, fun _ _ _ _ _ _ _ => rfl⟩
  | elem d i =>
    obtain ⟨⟨t, ht⟩, hi⟩ := va
    rw [vals_some ht] at hi
    have q : t.vals[i]? = some t.vals[i] := List.getElem?_eq_getElem hi
    refine ⟨.slot ⟨t.blk, i⟩, t.vals[i], ?_, ?_, arg_slot (W.holds ht q), ?_⟩
    · simp only [CArg.expr, Prog.bind_app, at_ok (W.vec d t ht), Res.bind_ok, Prog.pure_app]
    · simp only [CArg.val, vals_some ht, q]
    · intro c s k hc hb
      exact arg_slot (W.holds_prefix hc ht q hb)

theorem src_ok (W : World h S) {r : CSrc T} (vr : r.Valid S) :
    ∃ x, r.expr h = .ok ((x, (r.vals' S).length), h) ∧ Gives h x (r.vals' S) ∧
      ∀ c s i, S c = some s → r.Before c i → Gives (h.lay s.blk (s.vals.take i) 0 []) x (r.vals' S) := by
  cases r with
  | vals vs => exact ⟨.vals vs, rfl, gives_vals _, fun _ _ _ _ _ => gives_vals _⟩
  | range d i j =>
    obtain ⟨⟨t, ht⟩, hij, hj⟩ := vr
    rw [vals_some ht] at hj
    have el : ∀ k v, ((t.vals.drop i).take (j - i))[k]? = some v → t.vals[i + k]? = some v ∧ i + k < j := by
      intro k v e
      have : k < j - i := by have := (List.getElem?_eq_some_iff.1 e).1; simp at this; omega
      rw [List.getElem?_take_of_lt this, List.getElem?_drop] at e
      exact ⟨e, by omega⟩
    refine ⟨.range ⟨t.blk, i⟩, ?_, ?_, ?_⟩
    · simp only [CSrc.expr, Prog.bind_app, begin_ok (W.vec d t ht), Res.bind_ok, Prog.pure_app, ptr_add, Nat.zero_add, CSrc.vals', vals_some ht]
      have : ((t.vals.drop i).take (j - i)).length = j - i := by simp; omega
      rw [this]
    · simp only [CSrc.vals', vals_some ht]
      exact gives_range _ _ fun k v e => W.holds ht (el k v e).1
    · intro c s k hc hb
      simp only [CSrc.vals', vals_some ht]
      exact gives_range _ _ fun m v e => W.holds_prefix hc ht (el m v e).1 (fun e' => by have := hb e'; have := (el m v e).2; omega)

theorem copies_val {a : CArg T} {v : T} (q : a.val S = some v) (n : Nat) : S.copies n a = List.replicate n v := by simp [State.copies, q]

theorem safe_counter (W : World h S) (hc : S c = some s) {x : Arg T} {v : T} (hi : i ≤ s.vals.length)
    (g1 : ∀ k : Mem T, h.Sub k → x.get k = .ok (v, k)) (g2 : a.Before c i → ∀ k : Mem T, (h.lay s.blk (s.vals.take i) 0 []).Sub k → x.get k = .ok (v, k))
    (q : CArg.Before c i a ∨ s.cap < s.vals.length + n ∨ i = s.vals.length) : SafeSrc h s i (.counter x) (List.replicate n v) := by
  intro _
  split
  · exact gives_counter g1 n
  · rename_i k
    rw [List.length_replicate] at k
    rcases q with q | q | q
    · exact gives_counter (g2 q) n
    · exact absurd q k
    · subst q
      have := (W.vec c s hc).slot
      rw [List.take_length, lay_self _ _ _ _ _ this]; exact gives_counter g1 n

/-- A call that only changes the vector `c`, given its effect on `c`. -/
theorem World.one (W : World h S) (hc : S c = some s) {r : Ret} {k : Call T} (q : ∃ h', exec dv k h = .ok (r, h') ∧ Change h h' c s s') (e1 : spec dv S h.fresh k = S.put c s')
    (e2 : retOf dv S h.fresh k = r) : ∃ h', exec dv k h = .ok (retOf dv S h.fresh k, h') ∧ World h' (spec dv S h.fresh k) ∧ h.fresh ≤ h'.fresh := by
  obtain ⟨h', q1, q2⟩ := q
  exact ⟨h', by rw [e2]; exact q1, by rw [e1]; exact W.chg hc q2, q2.fresh⟩

theorem VS.become_become (s : VS T) (vs ws : List T) : (s.become vs).become ws = s.become ws := rfl

theorem become_change (v : IsVec h c s) (vs : List T) (q : vs.length ≤ s.cap) : Change h (h.vec c (s.become vs)) c s (s.become vs) := vec_change v vs q

/-- `clear()`, then `reserve(m)`: an empty vector that has room for `m` elements. -/
theorem clear_reserve (B : Base h) (v : IsVec h c s) (m : Nat) :
    ∃ h', clear c h = .ok ((), h.vec c (s.become [])) ∧ reserve c m (h.vec c (s.become [])) = .ok ((), h') ∧ Change h h' c s ((s.become []).reserve h.fresh m) ∧
      m ≤ ((s.become []).reserve h.fresh m).cap ∧ ((s.become []).reserve h.fresh m).vals = [] := by
  have k1 : Change h _ c s (s.become []) := vec_change v [] (Nat.zero_le _)
  have B1 := k1.base B v
  obtain ⟨h', e, k2, _⟩ := reserve_change B1 k1.vec m
  refine ⟨h', clear_ok v, e, k1.trans B v k2, ?_, ?_⟩
  · simp only [VS.reserve]; split
    · rename_i q; simp only [VS.become] at q ⊢; omega
    · exact Nat.le_refl _
  · simp only [VS.reserve]; split <;> rfl

theorem fillBack_change (v : IsVec h c s) {src : Src T} {g : Mem T} (hg : Gives g src ws) (hs : g.Sub h) (room : s.vals.length + ws.length ≤ s.cap) :
    ∃ h', fillBack c ws.length src h = .ok ((), h') ∧ Change h h' c s (s.become (s.vals ++ ws)) := by
  have := fillBack_ok (n := s.cap) ws s.vals src h g v.obj v.size room v.slot hg hs
  refine ⟨_, this, ?_⟩
  have k := vec_change v (s.vals ++ ws) (by simp; omega)
  simpa [Heap.vec, VS.rep, VS.become] using k

theorem copyAll_change (v : IsVec h c s) (vd : IsVec h d t) (ne : d ≠ c) (room : s.vals.length + t.vals.length ≤ s.cap) :
    ∃ h', copyAll c d ⟨t.blk, 0⟩ h = .ok ((), h') ∧ Change h h' c s (s.become (s.vals ++ t.vals)) := by
  have hg : Gives h (.range ⟨t.blk, 0⟩) t.vals := gives_range _ _ fun k a e => by rw [Nat.zero_add]; exact vd.holds e
  have := copyAll_ok (n := s.cap) (b2 := t.blk) (rd := t.rep) ne t.vals s.vals 0 h h v.obj vd.obj (by simp [VS.rep]) v.size room v.slot hg (Heap.Sub.refl _)
  refine ⟨_, this, ?_⟩
  have k := vec_change v (s.vals ++ t.vals) (by simp; omega)
  simpa [Heap.vec, VS.rep, VS.become] using k

/-- The common start of the allocating constructors. -/
theorem createN_ok (W : World h S) (n : Nat) :
    ∃ h1, createN n h = .ok (h.fresh, h1) ∧ World h.made (S.put h.fresh ⟨[], 0, 0⟩) ∧ Change h.made h1 h.fresh ⟨[], 0, 0⟩ ⟨[], n, h.fresh + 1⟩ := by
  have W1 := W.made
  have v1 := W1.vec h.fresh _ (put_same ..)
  have k := moved_change (n := n) W1.base v1 [] (Nat.zero_le _)
  refine ⟨h.made.moved h.fresh 0 [] n, ?_, W1, k⟩
  simp only [createN, newObj, alloc, Prog.bind_app, Res.bind_ok, setObj, upd_same, Prog.pure_app, Heap.moved, Heap.made, VS.rep, upd_upd, ptr_add, Nat.zero_add, List.length_nil]
  have B := W.base
  congr 2
  have z1 : upd (upd h.size (h.fresh + 1) (some n)) 0 none = upd h.size (h.fresh + 1) (some n) := by
    have := upd_self (upd h.size (h.fresh + 1) (some n)) 0
    rw [upd_other _ _ (by omega : 0 ≠ h.fresh + 1), B.null] at this; exact this
  have z2 : upd (upd h.slot (h.fresh + 1) (lay [] 0 [])) 0 (lay [] 0 []) = upd h.slot (h.fresh + 1) (fun _ => none) := by
    have := upd_self (upd h.slot (h.fresh + 1) (lay [] 0 [])) 0
    rw [upd_other _ _ (by omega : 0 ≠ h.fresh + 1), B.nullSlot] at this
    rw [this]; congr 1
  rw [z1, z2]

theorem sub_made (W : World h S) : h.Sub h.made := fun _ _ _ q => q

theorem World.made_vec (W : World h S) (hd : S d = some t) : IsVec h.made d t ∧ d ≠ h.fresh := by
  have : d ≠ h.fresh := by have := (W.vec d t hd).obj_lt W.base; omega
  exact ⟨W.made.vec d t (by rw [put_other _ this]; exact hd), this⟩

theorem sub_of_change_empty {b : Nat} (B : Base h) (v : IsVec h c ⟨[], b, 0⟩) (k : Change h h' c ⟨[], b, 0⟩ s') : h.Sub h' := by
  have := k.sub B v
  simp only at this
  rw [lay_self _ _ _ _ _ v.slot] at this; exact this

theorem ctorFill (W : World h S) (n : Nat) {x : Arg T} {v : T} (g1 : ∀ k : Mem T, h.Sub k → x.get k = .ok (v, k)) :
    ∃ h', ((do let c ← createN n; fillBack c n (.counter x); return c : Prog (Mem T) Nat) h) = .ok (h.fresh, h') ∧
      World h' (S.put h.fresh ⟨List.replicate n v, n, h.fresh + 1⟩) ∧ h.fresh ≤ h'.fresh := by
  obtain ⟨h1, e1, W1, k1⟩ := createN_ok W n
  have v0 := W1.vec h.fresh _ (put_same ..)
  have hg : Gives h (.counter x) (List.replicate n v) := gives_counter g1 n
  obtain ⟨h2, e2, k2⟩ := fillBack_change (ws := List.replicate n v) k1.vec hg ((sub_made W).trans (sub_of_change_empty W1.base v0 k1)) (by simp)
  rw [List.length_replicate] at e2
  refine ⟨h2, ?_, ?_, ?_⟩
  · simp only [Prog.bind_app, e1, Res.bind_ok, e2, Prog.pure_app]
  · have := W1.chg (put_same ..) (k1.trans W1.base v0 k2)
    rw [put_put] at this
    simpa [VS.become] using this
  · have a := k1.fresh; have b := k2.fresh; simp only [Heap.made] at a; omega

theorem step_ok (W : World h S) (k : Call T) (lg : Legal S k) :
    ∃ h', exec dv k h = .ok (retOf dv S h.fresh k, h') ∧ World h' (spec dv S h.fresh k) ∧ h.fresh ≤ h'.fresh := by
  have B := W.base
  cases k with
  | create => exact ⟨h.made, rfl, W.made, Nat.le_succ _⟩
  | ctor n =>
    obtain ⟨h', e, W', f⟩ := ctorFill W n (x := .ext dv) (v := dv) (fun _ _ => rfl)
    refine ⟨h', ?_, W', f⟩
    show (ctor dv n h).bind _ = _
    rw [show ctor dv n h = _ from e]; rfl
  | ctorN n a =>
    obtain ⟨x, v, e0, ev, g1, g2⟩ := arg_ok W lg
    obtain ⟨h', e, W', f⟩ := ctorFill W n g1
    refine ⟨h', ?_, ?_, f⟩
    · simp only [exec, Prog.bind_app, e0, Res.bind_ok]
      rw [show ctorN n x h = _ from e]; rfl
    · simp only [spec, copies_val ev]; exact W'
  | copyOf d =>
    obtain ⟨t, ht⟩ := lg
    have vd := W.vec d t ht
    obtain ⟨vd1, ne⟩ := W.made_vec ht
    obtain ⟨h1, e1, W1, k1⟩ := createN_ok W t.vals.length
    have v0 := W1.vec h.fresh _ (put_same ..)
    have W2 := W1.chg (put_same ..) k1
    have vd2 := W2.vec d t (by rw [put_other _ ne, put_other _ ne]; exact ht)
    obtain ⟨h2, e2, k2⟩ := copyAll_change k1.vec vd2 ne (by simp)
    refine ⟨h2, ?_, ?_, ?_⟩
    · simp only [exec, copyOf, Prog.bind_app, size_ok vd, Res.bind_ok, e1, begin_ok vd2, e2, Prog.pure_app, retOf]
    · have := W1.chg (put_same ..) (k1.trans W1.base v0 k2)
      rw [put_put] at this
      simpa [VS.become, spec, vals_some ht] using this
    · have a := k1.fresh; have b := k2.fresh; simp only [Heap.made] at a; omega
  | ctorRange r =>
    obtain ⟨x, e0, g1, g2⟩ := src_ok W lg
    have W1 := W.made
    have v1 := W1.vec h.fresh _ (put_same ..)
    obtain ⟨h1, e1, k1, f1⟩ := reserve_change W1.base v1 (r.vals' S).length
    have B1 := k1.base W1.base v1
    have s1 : (VS.reserve (⟨[], 0, 0⟩ : VS T) h.made.fresh (r.vals' S).length) = ⟨[], (r.vals' S).length, h.fresh + 1⟩ := by
      simp only [VS.reserve, Nat.not_lt_zero, if_false]; rfl
    rw [s1] at k1
    have sl := k1.vec.slot
    obtain ⟨h2, e2, k2⟩ := pushAll_change (r.vals' S) h1 _ x h B1 k1.vec g1 (by
      rw [lay_self _ _ _ _ _ sl]
      exact (sub_made W).trans (sub_of_change_empty W1.base v1 k1))
    have s2 : (VS.pushes (⟨[], (r.vals' S).length, h.fresh + 1⟩ : VS T) h1.fresh (r.vals' S)) = ⟨r.vals' S, (r.vals' S).length, h.fresh + 1⟩ := by
      simp [VS.pushes]
    rw [s2] at k2
    refine ⟨h2, ?_, ?_, ?_⟩
    · simp only [exec, Prog.bind_app, e0, Res.bind_ok, ctorRange, create_ok, e1, e2, Prog.pure_app, retOf]
    · have := W1.chg (put_same ..) (k1.trans W1.base v1 k2)
      rw [put_put] at this; exact this
    · have a := k1.fresh; have b := k2.fresh; simp only [Heap.made] at a; omega
  | destroy c =>
    obtain ⟨s, hc⟩ := lg
    obtain ⟨h', e, W', f⟩ := W.destroy hc
    exact ⟨h', by simp only [exec, Prog.bind_app, e, Res.bind_ok]; rfl, W', by omega⟩
  | assign c d =>
    obtain ⟨⟨s, hc⟩, ⟨t, hd⟩⟩ := lg
    have v := W.vec c s hc
    have vd := W.vec d t hd
    have hg := get_some hc
    have hgd := get_some hd
    obtain ⟨h1, e1, e2, k1, room, emp⟩ := clear_reserve B v t.cap
    have k0 := become_change v [] (Nat.zero_le _)
    have W0 := W.chg hc k0
    have B1 := k1.base B v
    have W1 := W.chg hc k1
    by_cases q : d = c
    · subst q
      rw [hc] at hd; cases hd
      refine W.one hc (s' := (s.become []).reserve h.fresh s.cap) (r := .none) ⟨h1, ?_, k1⟩ ?_ rfl
      · have v1 := k1.vec
        simp only [exec, assign, Prog.bind_app, e1, Res.bind_ok, capacity_ok k0.vec, show (s.become []).cap = s.cap from rfl, e2, begin_ok v1]
        have e3 : copyAll d d ⟨((s.become []).reserve h.fresh s.cap).blk, 0⟩ h1 = .ok ((), h1) := by
          rw [copyAll]
          simp only [Prog.bind_app, end_ok v1, Res.bind_ok, emp, List.length_nil, if_true, Prog.pure_app]
        rw [e3]; rfl
      · simp only [spec, hg, if_true]
        congr 1
        simp only [VS.reserve]; split <;> rfl
    · have vd0 := W0.vec d t (by rw [put_other _ q]; exact hd)
      have vd1 := W1.vec d t (by rw [put_other _ q]; exact hd)
      obtain ⟨h2, e3, k2⟩ := copyAll_change k1.vec vd1 q (by rw [emp]; have := vd.le; simp; omega)
      refine W.one hc (r := .none) ⟨h2, ?_, k1.trans B v k2⟩ ?_ rfl
      · simp only [exec, assign, Prog.bind_app, e1, Res.bind_ok, capacity_ok vd0, e2, begin_ok vd1, e3, Prog.pure_app]
      · simp only [spec, hg, hgd, if_neg q, vals_some hd]
        rw [emp, List.nil_append]
  | assignN c n a =>
    obtain ⟨⟨s, hc⟩, va, ho⟩ := lg
    have v := W.vec c s hc
    have hg := get_some hc
    obtain ⟨x, w, e0, ev, g1, g2⟩ := arg_ok W va
    obtain ⟨h1, e1, e2, k1, room, emp⟩ := clear_reserve B v n
    have g3 := g2 c s 0 hc (by cases a with | ext _ => trivial | elem d i => intro e; exact absurd e ho)
    rw [List.take_zero] at g3
    obtain ⟨h2, e3, k2⟩ := fillBack_change (ws := List.replicate n w) k1.vec (gives_counter g3 n) (k1.sub B v) (by rw [emp]; simp; exact room)
    rw [List.length_replicate] at e3
    refine W.one hc (r := .none) ⟨h2, ?_, k1.trans B v k2⟩ ?_ rfl
    · simp only [exec, assignN, Prog.bind_app, e0, e1, Res.bind_ok, e2, e3, Prog.pure_app]
    · simp only [spec, hg, copies_val ev]; rw [emp, List.nil_append]
  | assignRange c r =>
    obtain ⟨⟨s, hc⟩, vr, ho⟩ := lg
    have v := W.vec c s hc
    have hg := get_some hc
    obtain ⟨x, e0, g1, g2⟩ := src_ok W vr
    have g3 := g2 c s 0 hc (by cases r with | vals _ => trivial | range d i j => intro e; exact absurd e ho)
    rw [List.take_zero] at g3
    have k0 := become_change v [] (Nat.zero_le _)
    obtain ⟨h2, e3, k2⟩ := pushAll_change (r.vals' S) _ _ x _ (k0.base B v) k0.vec g3 (by
      have := lay_self _ _ _ _ _ k0.vec.slot
      simp only [VS.become] at this ⊢
      rw [this]; exact k0.sub B v)
    refine W.one hc (r := .none) ⟨h2, ?_, k0.trans B v k2⟩ ?_ rfl
    · have e1 : clear c h = .ok ((), h.vec c (s.become [])) := clear_ok v
      have e3' : pushAll c (r.vals' S).length x (h.vec c (s.become [])) = .ok ((), h2) := e3
      simp only [exec, assignRange, Prog.bind_app, e0, e1, Res.bind_ok, e3', Prog.pure_app]
    · simp only [spec, hg]; rfl
  | resize c n =>
    obtain ⟨s, hc⟩ := lg
    have v := W.vec c s hc
    have hg := get_some hc
    by_cases q : n < s.vals.length
    · have k1 : Change h _ c s (s.become (s.vals.take n)) := vec_change v (s.vals.take n) (by have := v.le; simp; omega)
      refine W.one hc (r := .none) ⟨_, ?_, k1⟩ ?_ rfl
      · have e1 : shrinkTo c ⟨s.blk, n⟩ h = .ok ((), h.vec c (s.become (s.vals.take n))) := shrink_ok v (by omega)
        simp only [exec, resize, Prog.bind_app, size_ok v, Res.bind_ok, if_pos q, begin_ok v, ptr_add, Nat.zero_add, e1]; rfl
      · simp only [spec, vals_some hc, if_pos q, hg]
    · have sf : SafeSrc h s s.vals.length (.counter (.ext dv)) (List.replicate (n - s.vals.length) dv) :=
        safe_counter (a := .ext dv) W hc (Nat.le_refl _) (fun _ _ => rfl) (fun _ _ _ => rfl) (.inl trivial)
      obtain ⟨h', e1, k1, _⟩ := insertValues_change B v (Nat.le_refl _) sf
      rw [List.length_replicate] at e1
      refine W.one hc (r := .none) ⟨h', ?_, k1⟩ ?_ rfl
      · simp only [exec, resize, Prog.bind_app, size_ok v, Res.bind_ok, if_neg q, end_ok v, insertN, e1]; rfl
      · simp only [spec, vals_some hc, if_neg q, hg]
  | resizeX c n a =>
    obtain ⟨⟨s, hc⟩, va⟩ := lg
    have v := W.vec c s hc
    have hg := get_some hc
    obtain ⟨x, w, e0, ev, g1, g2⟩ := arg_ok W va
    by_cases q : n < s.vals.length
    · have k1 : Change h _ c s (s.become (s.vals.take n)) := vec_change v (s.vals.take n) (by have := v.le; simp; omega)
      refine W.one hc (r := .none) ⟨_, ?_, k1⟩ ?_ rfl
      · have e1 : shrinkTo c ⟨s.blk, n⟩ h = .ok ((), h.vec c (s.become (s.vals.take n))) := shrink_ok v (by omega)
        simp only [exec, resizeX, resize, Prog.bind_app, e0, size_ok v, Res.bind_ok, if_pos q, begin_ok v, ptr_add, Nat.zero_add, e1]; rfl
      · simp only [spec, vals_some hc, if_pos q, hg]
    · have sf : SafeSrc h s s.vals.length (.counter x) (List.replicate (n - s.vals.length) w) :=
        safe_counter (a := a) W hc (Nat.le_refl _) g1 (fun hb => g2 c s _ hc hb) (.inr (.inr rfl))
      obtain ⟨h', e1, k1, _⟩ := insertValues_change B v (Nat.le_refl _) sf
      rw [List.length_replicate] at e1
      refine W.one hc (r := .none) ⟨h', ?_, k1⟩ ?_ rfl
      · simp only [exec, resizeX, Prog.bind_app, e0, size_ok v, Res.bind_ok, if_neg q, end_ok v, insertN, e1]; rfl
      · simp only [spec, vals_some hc, if_neg q, hg, copies_val ev]
  | reserve c n =>
    obtain ⟨s, hc⟩ := lg
    obtain ⟨h', e1, k1, _⟩ := reserve_change B (W.vec c s hc) n
    refine W.one hc (r := .none) ⟨h', ?_, k1⟩ ?_ rfl
    · simp only [exec, Prog.bind_app, e1, Res.bind_ok]; rfl
    · simp only [spec, get_some hc]
  | insert c i a =>
    obtain ⟨⟨s, hc⟩, hi, va, hs⟩ := lg
    have v := W.vec c s hc
    have hg := get_some hc
    simp only [State.Moves, vals_some hc, hg] at hi hs
    obtain ⟨x, w, e0, ev, g1, g2⟩ := arg_ok W va
    have sf : SafeSrc h s i (.counter x) (List.replicate 1 w) := safe_counter (a := a) W hc hi g1 (fun hb => g2 c s _ hc hb) hs
    obtain ⟨h', e1, k1, _⟩ := insertValues_change B v hi sf
    rw [List.length_replicate] at e1
    refine W.one hc (r := .it ⟨(s.ins h.fresh i (List.replicate 1 w)).blk, i⟩) ⟨h', ?_, k1⟩ ?_ ?_
    · simp only [exec, insert, Prog.bind_app, e0, Res.bind_ok, begin_ok v, ptr_add, Nat.zero_add, e1]; rfl
    · simp only [spec, hg, copies_val ev]
    · simp only [retOf, spec, hg, copies_val ev, put_get]
  | insertN c i n a =>
    obtain ⟨⟨s, hc⟩, hi, va, hs⟩ := lg
    have v := W.vec c s hc
    have hg := get_some hc
    simp only [State.Moves, vals_some hc, hg] at hi hs
    obtain ⟨x, w, e0, ev, g1, g2⟩ := arg_ok W va
    have sf : SafeSrc h s i (.counter x) (List.replicate n w) := safe_counter (a := a) W hc hi g1 (fun hb => g2 c s _ hc hb) hs
    obtain ⟨h', e1, k1, _⟩ := insertValues_change B v hi sf
    rw [List.length_replicate] at e1
    refine W.one hc (r := .it ⟨(s.ins h.fresh i (List.replicate n w)).blk, i⟩) ⟨h', ?_, k1⟩ ?_ ?_
    · simp only [exec, insertN, Prog.bind_app, e0, Res.bind_ok, begin_ok v, ptr_add, Nat.zero_add, e1]; rfl
    · simp only [spec, hg, copies_val ev]
    · simp only [retOf, spec, hg, copies_val ev, put_get]
  | insertRange c i r =>
    obtain ⟨⟨s, hc⟩, hi, vr, hs⟩ := lg
    have v := W.vec c s hc
    have hg := get_some hc
    simp only [State.Moves, vals_some hc, hg] at hi hs
    obtain ⟨x, e0, g1, g2⟩ := src_ok W vr
    have sf : SafeSrc h s i x (r.vals' S) := by
      intro _
      split
      · exact g1
      · rename_i k
        rcases hs with q | q | q
        · exact g2 c s i hc q
        · exact absurd q k
        · subst q; rw [List.take_length, lay_self _ _ _ _ _ v.slot]; exact g1
    obtain ⟨h', e1, k1, _⟩ := insertValues_change B v hi sf
    refine W.one hc (r := .it ⟨(s.ins h.fresh i (r.vals' S)).blk, i⟩) ⟨h', ?_, k1⟩ ?_ ?_
    · simp only [exec, insertRange, Prog.bind_app, e0, Res.bind_ok, begin_ok v, ptr_add, Nat.zero_add, e1]; rfl
    · simp only [spec, hg]
    · simp only [retOf, spec, hg, put_get]
  | pushBack c a =>
    obtain ⟨⟨s, hc⟩, va⟩ := lg
    have hg := get_some hc
    obtain ⟨x, w, e0, ev, g1, g2⟩ := arg_ok W va
    obtain ⟨h', e1, k1, _⟩ := pushBack_change B (W.vec c s hc) g1
    refine W.one hc (r := .none) ⟨h', ?_, k1⟩ ?_ rfl
    · simp only [exec, Prog.bind_app, e0, Res.bind_ok, e1]; rfl
    · simp only [spec, hg, vals_some hc, copies_val ev]; rfl
  | popBack c =>
    obtain ⟨⟨s, hc⟩, ne⟩ := lg
    rw [vals_some hc] at ne
    have v := W.vec c s hc
    have k1 : Change h _ c s (s.become s.vals.dropLast) := vec_change v s.vals.dropLast (by have := v.le; simp; omega)
    refine W.one hc (r := .none) ⟨_, ?_, k1⟩ ?_ rfl
    · simp only [exec, Prog.bind_app, popBack_ok v ne, Res.bind_ok]; rfl
    · simp only [spec, get_some hc, vals_some hc]
  | erase c i =>
    obtain ⟨⟨s, hc⟩, hi⟩ := lg
    rw [vals_some hc] at hi
    have v := W.vec c s hc
    obtain ⟨h', e1, k1, _⟩ := eraseRange_change v (Nat.lt_succ_self i) hi
    refine W.one hc (r := .it ⟨s.blk, i⟩) ⟨h', ?_, k1⟩ ?_ ?_
    · simp only [exec, erase, Prog.bind_app, Res.bind_ok, begin_ok v, ptr_add, Nat.zero_add]
      rw [show eraseRange c ⟨s.blk, i⟩ ⟨s.blk, i + 1⟩ h = _ from e1]; rfl
    · simp only [spec, get_some hc, vals_some hc]; rfl
    · simp only [retOf, get_some hc]
  | eraseRange c i j =>
    obtain ⟨⟨s, hc⟩, hij, hj, he⟩ := lg
    rw [vals_some hc] at hj he
    have v := W.vec c s hc
    by_cases q : i < j
    · obtain ⟨h', e1, k1, _⟩ := eraseRange_change v q hj
      refine W.one hc (r := .it ⟨s.blk, i⟩) ⟨h', ?_, k1⟩ ?_ ?_
      · simp only [exec, Prog.bind_app, Res.bind_ok, begin_ok v, ptr_add, Nat.zero_add, e1]; rfl
      · simp only [spec, get_some hc, vals_some hc]; rfl
      · simp only [retOf, get_some hc]
    · have : i = j := by omega
      subst this
      have := he rfl
      subst this
      refine W.one hc (s' := s) (r := .it ⟨s.blk, s.vals.length⟩) ⟨h, ?_, Change.refl v⟩ ?_ ?_
      · simp only [exec, Prog.bind_app, Res.bind_ok, begin_ok v, ptr_add, Nat.zero_add, eraseRange_end v]; rfl
      · simp only [spec, get_some hc, vals_some hc, List.take_length, List.drop_length, List.append_nil]; rfl
      · simp only [retOf, get_some hc]
  | swap c d =>
    obtain ⟨⟨s, hc⟩, ⟨t, hd⟩⟩ := lg
    have W' := W.swapped hc hd
    refine ⟨(h.setObj c t.rep).setObj d s.rep, ?_, ?_, ?_⟩
    · simp only [exec, Prog.bind_app, swap_ok (W.vec c s hc).obj (W.vec d t hd).obj, Res.bind_ok]; rfl
    · simp only [spec, get_some hc, get_some hd]; exact W'
    · exact Nat.le_refl _
  | clear c =>
    obtain ⟨s, hc⟩ := lg
    have v := W.vec c s hc
    have k1 : Change h _ c s (s.become []) := vec_change v [] (Nat.zero_le _)
    refine W.one hc (r := .none) ⟨_, ?_, k1⟩ ?_ rfl
    · simp only [exec, Prog.bind_app, clear_ok v, Res.bind_ok]; rfl
    · simp only [spec, get_some hc]
  | store c i a =>
    obtain ⟨⟨s, hc⟩, hi, va⟩ := lg
    rw [vals_some hc] at hi
    obtain ⟨x, w, e0, ev, g1, g2⟩ := arg_ok W va
    obtain ⟨h', e1, k1, _⟩ := store_change (W.vec c s hc) hi (g1 h (Heap.Sub.refl _))
    refine W.one hc (r := .none) ⟨h', ?_, k1⟩ ?_ rfl
    · simp only [exec, Prog.bind_app, e0, Res.bind_ok, e1]; rfl
    · simp only [spec, ev, get_some hc, vals_some hc]; rfl

theorem world_start : World (empty₀ : Mem T) (fun _ => none) := by
  have e : (fun _ => none : Nat → Option T) = lay [] 0 [] := by funext i; exact (lay_nil_none i).symm
  refine ⟨⟨Nat.one_pos, rfl, e, fun b _ => ⟨rfl, e⟩, fun _ _ => rfl⟩, ?_, fun _ _ => rfl, ?_, ?_, ?_⟩
  · intro c s q; cases q
  · intro c d s s' q; cases q
  · intro b n q; cases q
  · intro b i v q; cases q

/-- Every reachable memory satisfies the invariant. -/
theorem Reach.world (R : Reach dv S h) : World h S := by
  induction R with
  | start => exact world_start
  | step k R lg e ih =>
    obtain ⟨h2, e2, W, _⟩ := step_ok (dv := dv) ih k lg
    rw [e] at e2; cases e2; exact W

end Verif.Vec
