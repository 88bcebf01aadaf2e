import Verif.Exc.VecCost
/-!
# What every member of `ttl::vector` costs

`Verif.Exc.VecModel` counts the operations of a call that may throw: allocations of storage and copies of elements. Here is the exact count for every legal call.
-/
set_option linter.unusedVariables false
set_option linter.unusedSimpArgs false
set_option linter.unusedSectionVars false
namespace Verif.Exc.XVec
open Verif Verif.Vec Verif.Exc Verif.Vec.VecProps
variable {T : Type} {b n m c d i j cap cap' : Nat} {vs us xs ys ws : List T} {h h' t : Mem T} {s s' : VS T} {S : State T} {dv : T} {p q : Ptr}

/-- The call returns after `n` operations that may throw. -/
def Takes {α : Type} (n : Nat) (x : Thr (Mem T) α) (h : Mem T) : Prop := ∃ a h', Points x h n a h' fun _ _ => True

theorem Takes.call {α β : Type} {p : Prog (Mem T) α} {f : α → Thr (Mem T) β} {a : α} (q : p h = .ok (a, h')) (e : Takes n (f a) h') : Takes n (Thr.call p >>= f) h := by
  obtain ⟨b, h2, X⟩ := e
  exact ⟨b, h2, Points.call_seq q X⟩
theorem Takes.pure {α β : Type} {x : Thr (Mem T) α} {g : α → β} (e : Takes n x h) : Takes n (x >>= fun a => Pure.pure (g a)) h := by
  obtain ⟨b, h2, X⟩ := e
  exact ⟨g b, h2, Points.seq_pure X⟩
theorem Takes.none {α : Type} {p : Prog (Mem T) α} {a : α} (q : p h = .ok (a, h')) : Takes 0 (Thr.call p) h := ⟨a, h', Points.call_ q⟩
theorem Takes.of {α : Type} {x : Thr (Mem T) α} {a : α} {P : Nat → Mem T → Prop} (X : Points x h n a h' P) : Takes n x h := ⟨a, h', X.imp fun _ _ _ _ => trivial⟩
theorem Takes.cast {α : Type} {x : Thr (Mem T) α} (e : n = m) (X : Takes n x h) : Takes m x h := e ▸ X
theorem Takes.seq {α β : Type} {x : Thr (Mem T) α} {f : α → Thr (Mem T) β} {a : α} {P : Nat → Mem T → Prop} (X : Points x h n a h' P) (Y : Takes m (f a) h') : Takes (n + m) (x >>= f) h := by
  obtain ⟨b, h2, Z⟩ := Y
  exact ⟨b, h2, Points.seq (X.imp fun _ _ _ _ => trivial) Z⟩

/-- `push_back` of `m` elements one after the other, from `len` elements and a given capacity: one copy each while there is room; then each makes a new block and copies
everything. -/
def pushPoints : Nat → Nat → Nat → Nat
  | len, cap, 0 => 0
  | len, cap, m + 1 => if len < cap then 1 + pushPoints (len + 1) cap m else (len + 2) + pushPoints (len + 1) (len + 1) m

/-- How many allocations and copies of elements a call makes. -/
def points (S : State T) : Call T → Nat
  | .ctor n => 1 + n
  | .ctorN n _ => 1 + n
  | .copyOf d => 1 + (S.vals d).length
  | .ctorRange r => 1 + (r.vals' S).length
  | .reserve c n => if n < (S.get c).cap then 0 else 1 + (S.vals c).length
  | .store _ _ _ => 1
  | .insert c i _ => insertionPoints (S.get c) i 1
  | .insertN c i n _ => insertionPoints (S.get c) i n
  | .insertRange c i r => insertionPoints (S.get c) i (r.vals' S).length
  | .pushBack c _ => insertionPoints (S.get c) (S.vals c).length 1
  | .resize c n => if n < (S.vals c).length then 0 else 1 + insertionPoints (S.get c) (S.vals c).length (n - (S.vals c).length)
  | .resizeX c n _ => if n < (S.vals c).length then 0 else insertionPoints (S.get c) (S.vals c).length (n - (S.vals c).length)
  | .erase c i => (S.vals c).length - (i + 1)
  | .eraseRange c _ j => (S.vals c).length - j
  | .assign c d => (if (S.get d).cap < (S.get c).cap then 0 else 1) + if d = c then 0 else (S.vals d).length
  | .assignN c n _ => (if n < (S.get c).cap then 0 else 1) + n
  | .assignRange c r => pushPoints 0 (S.get c).cap (r.vals' S).length
  | _ => 0

theorem takes_pushBack (W : World h S) (hc : S c = some s) {x : Arg T} {a : T} (hx : ∀ k : Mem T, h.Sub k → x.get k = .ok (a, k)) :
    ∃ h', Points (pushBack c x) h (insertionPoints s s.vals.length 1) () h' fun _ _ => True := by
  have v := W.vec c s hc
  have le := v.le
  by_cases q : s.vals.length < s.cap
  · exact ⟨_, Points.cast (by simp only [insertionPoints]; rw [if_neg (by omega), if_neg (by omega)]; omega) ((pushBack_breaks v (hx h (Heap.Sub.refl _)) q).imp fun _ _ _ _ => trivial)⟩
  · exact ⟨_, Points.cast (by simp only [insertionPoints]; rw [if_neg (by omega), if_pos (by omega)]) ((pushBack_moves W.base v hx (by omega)).imp fun _ _ _ _ => trivial)⟩

theorem takes_pushAll {S0 : State T} : ∀ (ws : List T) (h : Mem T) (s : VS T) (src : Src T) (g : Mem T), World h (S0.put c s) → Gives g src ws →
    g.Sub (h.lay s.blk [] 0 []) → Takes (pushPoints s.vals.length s.cap ws.length) (pushAll c ws.length src) h
  | [], h, s, src, g, W, hg, hs => ⟨_, _, Points.pure_⟩
  | w :: ws, h, s, src, g, W, hg, hs => by
    have B := W.base
    have v := W.vec c s (put_same ..)
    have le := v.le
    obtain ⟨⟨a, q1, q2⟩, hg2⟩ := hg
    have sub0 : (h.lay s.blk [] 0 []).Sub h := by
      have := sub_prefix (h := h) (b := s.blk) [] s.vals 0 []
      rwa [List.nil_append, lay_self h _ _ _ _ v.slot] at this
    have hx : ∀ k : Mem T, h.Sub k → a.get k = .ok (w, k) := fun k hk => q2 k ((hs.trans sub0).trans hk)
    obtain ⟨h1, e1, k1, f1, _⟩ := pushBack_change B v hx
    obtain ⟨h1', X⟩ := takes_pushBack W (put_same ..) hx
    have : h1' = h1 := by
      have := (sim_pushBack c a).erases _ _ _ _ _ (X.returns 0)
      rw [this] at e1; cases e1; rfl
    subst this
    have hs1 : g.Sub (h1'.lay (s.ins h.fresh s.vals.length [w]).blk [] 0 []) := by
      refine hs.trans ?_
      intro b i y ⟨⟨m, p1, p2⟩, p3⟩
      have e1 : b ≠ s.blk := by intro e; subst e; rw [lay_slot_same, lay_nil] at p3; simp at p3
      have e2 : b ≠ (s.ins h.fresh s.vals.length [w]).blk := by
        intro e
        rcases k1.moved with ⟨a1, _⟩ | ⟨a1, _⟩
        · exact e1 (e.trans a1)
        · rw [← e] at a1; have := (B.gone _ a1).1; simp only [lay_size] at p1; rw [this] at p1; cases p1
      have kk := k1.keep b e1 e2
      rw [lay_slot_other _ _ _ _ _ e1] at p3
      exact ⟨⟨m, kk.1.trans p1, p2⟩, by rw [lay_slot_other _ _ _ _ _ e2, kk.2]; exact p3⟩
    have W1 := W.chg (put_same ..) k1
    rw [put_put] at W1
    have Y := takes_pushAll ws h1' _ src.succ g W1 hg2 hs1
    refine Takes.cast ?_ (Takes.call (q1 h) (Takes.seq X Y))
    simp only [VS.ins, insertionPoints, pushPoints, List.length_cons]
    by_cases q : s.vals.length < s.cap
    · simp [show ¬ s.cap < s.vals.length + 1 by omega, q]
    · have : s.vals.length = s.cap := by omega
      simp [show s.cap < s.vals.length + 1 by omega, q, this]; omega

theorem takes_insertValues (W : World h S) (hc : S c = some s) (hi : i ≤ s.vals.length) {src : Src T} (sf : SafeSrc h s i src ws) :
    Takes (insertionPoints s i ws.length) (insertValues c ⟨s.blk, i⟩ ws.length src) h := by
  obtain ⟨a, h', X⟩ := insertValues_counted W hc hi sf
  exact .of X

theorem takes_reserve (W : World h S) (hc : S c = some s) (n : Nat) :
    ∃ h', Points (reserve c n) h (if n < s.cap then 0 else 1 + s.vals.length) () h' (fun _ _ => True) ∧ Change h h' c s (s.reserve h.fresh n) := by
  have v := W.vec c s hc
  obtain ⟨h', e, k, _⟩ := reserve_change W.base v n
  by_cases q : n < s.cap
  · have X := reserve_stays (T := T) (P := fun _ _ => True) v q
    refine ⟨h, Points.cast (if_pos q).symm X, ?_⟩
    have := (sim_reserve c n).erases _ _ _ _ _ (X.returns 0)
    rw [this] at e; cases e; exact k
  · have X := (reserve_moves W.base v (by omega : s.cap ≤ n)).imp (Q := fun _ _ => True) fun _ _ _ _ => trivial
    refine ⟨_, Points.cast (if_neg q).symm X, ?_⟩
    have := (sim_reserve c n).erases _ _ _ _ _ (X.returns 0)
    rw [this] at e; cases e; exact k

theorem takes_ctorN (W : World h S) (n : Nat) {x : Arg T} {v : T} (g1 : ∀ k : Mem T, h.Sub k → x.get k = .ok (v, k)) : Takes (1 + n) (ctorN n x) h := by
  obtain ⟨h1, X, W1, k1⟩ := createN_ends W n
  have v0 := W1.vec h.fresh _ (put_same ..)
  have W2 := W1.chg (put_same ..) k1
  rw [put_put] at W2
  have hg : Gives h (.counter x) (List.replicate n v) := gives_counter g1 n
  have Y := fillBack_breaks (ws := List.replicate n v) k1.vec hg ((sub_made W).trans (sub_of_change_empty W1.base v0 k1)) (by simp)
  rw [List.length_replicate] at Y
  refine .of (P := Unmade h S) (Points.call_seq create_ok (Points.seq_pure (g := fun _ => h.fresh) (unwinding_points (Points.seq (P := Halfway h S) (X.imp ?_) (Y.imp ?_)) fun k t _ y => halfway_drop W y)))
  · intro k t l e; exact ⟨fun _ => e, fun q => by omega⟩
  · intro k t l e; exact ⟨fun q => by omega, fun _ => new_damaged (s := ⟨[], n, h.fresh + 1⟩) W2 (Nat.le_refl _) e.1 e.2⟩

theorem takes_copyOf (W : World h S) {sd : VS T} (hd : S d = some sd) : Takes (1 + sd.vals.length) (copyOf d) h := by
  have vd := W.vec d sd hd
  obtain ⟨vd1, ne⟩ := W.made_vec hd
  obtain ⟨h1, X, W1, k1⟩ := createN_ends W sd.vals.length
  have W2 := W1.chg (put_same ..) k1
  rw [put_put] at W2
  have vd2 := W2.vec d sd (by rw [put_other _ ne]; exact hd)
  have Y := copyAll_breaks k1.vec vd2 ne (by simp)
  refine Takes.call (size_ok vd) (.of (P := Unmade h S) (Points.call_seq create_ok (Points.seq_pure (g := fun _ => h.fresh)
    (unwinding_points (Points.seq (P := Halfway h S) (X.imp ?_) (Points.call_seq (begin_ok vd2) (Y.imp ?_))) fun k t _ y => halfway_drop W y))))
  · intro k t l e; exact ⟨fun _ => e, fun q => by omega⟩
  · intro k t l e; exact ⟨fun q => by omega, fun _ => new_damaged (s := ⟨[], sd.vals.length, h.fresh + 1⟩) W2 (Nat.le_refl _) e.1 e.2⟩

theorem takes_ctorRange (W : World h S) {x : Src T} (g1 : Gives h x ws) : Takes (1 + ws.length) (ctorRange ws.length x) h := by
  have W1 := W.made
  have v1 := W1.vec h.fresh _ (put_same ..)
  have X := reserve_moves (n := ws.length) W1.base v1 (Nat.zero_le _)
  have k1 := moved_change (n := ws.length) W1.base v1 [] (Nat.zero_le _)
  have W2 := W1.chg (put_same ..) k1
  rw [put_put] at W2
  simp only [List.length_nil, Nat.add_zero] at X k1 W2
  have sl := k1.vec.slot
  obtain ⟨h', Y⟩ := pushAll_room ws _ _ x h W2 g1 (by
      simp only at sl ⊢
      rw [lay_self _ _ _ _ _ sl]
      exact (sub_made W).trans (sub_of_change_empty W1.base v1 k1)) (by simp)
  refine .of (P := Unmade h S) (Points.call_seq create_ok (Points.seq_pure (g := fun _ => h.fresh) (unwinding_points (Points.seq (P := Halfway h S) (X.imp ?_) (Y.imp ?_)) fun k t _ y => halfway_drop W y)))
  · intro k t l e
    have : k = 0 := by omega
    subst this; exact ⟨fun _ => e, fun q => by omega⟩
  · rintro k t l ⟨h1, vs, w1, w2, w3⟩
    exact ⟨fun q => by omega, fun _ => new_damaged (s := ⟨vs, ws.length, h.made.fresh⟩) w1 (Nat.le_refl _) w2 w3⟩

theorem takes_call (W : World h S) (q : Call T) (lg : Legal S q) : Takes (points S q) (exec dv q) h := by
  have plain : ∀ q' : Call T, exec dv q' = Thr.call (Vec.exec dv q') → Legal S q' → Takes 0 (exec dv q') h := by
    intro q' e l
    obtain ⟨h', e1, _, _⟩ := step_ok (dv := dv) W q' l
    rw [e]; exact Takes.none e1
  cases q with
  | create => exact plain .create rfl lg
  | destroy c => exact plain (.destroy c) rfl lg
  | popBack c => exact plain (.popBack c) rfl lg
  | swap c d => exact plain (.swap c d) rfl lg
  | clear c => exact plain (.clear c) rfl lg
  | ctor n => exact (takes_ctorN W n (x := .ext dv) (v := dv) (fun _ _ => rfl)).pure
  | ctorN n a =>
    obtain ⟨x, v, e0, ev, g1, g2⟩ := arg_ok W lg
    exact Takes.call e0 (takes_ctorN W n g1).pure
  | copyOf d =>
    obtain ⟨sd, hd⟩ := lg
    exact (takes_copyOf W hd).pure.cast (by simp only [points, vals_some hd])
  | ctorRange r =>
    obtain ⟨x, e0, g1, g2⟩ := src_ok W lg
    exact Takes.call e0 (takes_ctorRange W g1).pure
  | reserve c n =>
    obtain ⟨s, hc⟩ := lg
    obtain ⟨h', X, _⟩ := takes_reserve W hc n
    exact (Takes.pure (.of X)).cast (by simp only [points, get_some hc, vals_some hc])
  | store c i a =>
    obtain ⟨⟨s, hc⟩, hi, va⟩ := lg
    rw [vals_some hc] at hi
    obtain ⟨x, w, e0, ev, g1, g2⟩ := arg_ok W va
    have v := W.vec c s hc
    obtain ⟨h', e1, k1, _⟩ := store_change v hi (g1 h (Heap.Sub.refl _))
    simp only [Vec.store, Prog.bind_app, g1 h (Heap.Sub.refl _), Res.bind_ok, at_ok v] at e1
    exact Takes.call e0 (Takes.pure (Takes.call (g1 h (Heap.Sub.refl _)) (Takes.call (at_ok v i) (n := 1) (.of (P := fun _ _ => True) (Points.seq (n := 1) (m := 0) (Points.point_ trivial) (Points.call_ e1))))))
  | insert c i a =>
    obtain ⟨⟨s, hc⟩, hi, va, hs⟩ := lg
    have v := W.vec c s hc
    have hg := get_some hc
    simp only [State.Moves, vals_some hc, hg] at hi hs
    obtain ⟨x, w, e0, ev, g1, g2⟩ := arg_ok W va
    have sf : SafeSrc h s i (.counter x) (List.replicate 1 w) := safe_counter (a := a) W hc hi g1 (fun hb => g2 c s _ hc hb) hs
    have X := takes_insertValues W hc hi sf
    rw [List.length_replicate] at X
    refine Takes.call e0 (Takes.call (begin_ok v) (Takes.pure ?_))
    simp only [points, get_some hc]
    simpa using X
  | insertN c i n a =>
    obtain ⟨⟨s, hc⟩, hi, va, hs⟩ := lg
    have v := W.vec c s hc
    have hg := get_some hc
    simp only [State.Moves, vals_some hc, hg] at hi hs
    obtain ⟨x, w, e0, ev, g1, g2⟩ := arg_ok W va
    have sf : SafeSrc h s i (.counter x) (List.replicate n w) := safe_counter (a := a) W hc hi g1 (fun hb => g2 c s _ hc hb) hs
    have X := takes_insertValues W hc hi sf
    rw [List.length_replicate] at X
    refine Takes.call e0 (Takes.call (begin_ok v) (Takes.pure ?_))
    simp only [points, get_some hc]
    simpa using X
  | insertRange c i r =>
    obtain ⟨⟨s, hc⟩, hi, vr, hs⟩ := lg
    have v := W.vec c s hc
    have hg := get_some hc
    simp only [State.Moves, vals_some hc, hg] at hi hs
    obtain ⟨x, e0, g1, g2⟩ := src_ok W vr
    have sf : SafeSrc h s i x (r.vals' S) := by
      intro _
      split
      · exact g1
      · rename_i k
        rcases hs with q | q | q
        · exact g2 c s i hc q
        · exact absurd q k
        · subst q; rw [List.take_length, lay_self _ _ _ _ _ v.slot]; exact g1
    have X := takes_insertValues W hc hi sf
    refine Takes.call e0 (Takes.call (begin_ok v) (Takes.pure ?_))
    simp only [points, get_some hc]
    simpa using X
  | pushBack c a =>
    obtain ⟨⟨s, hc⟩, va⟩ := lg
    obtain ⟨x, w, e0, ev, g1, g2⟩ := arg_ok W va
    obtain ⟨h', X⟩ := takes_pushBack W hc g1
    exact (Takes.call e0 (Takes.pure (.of X))).cast (by simp only [points, get_some hc, vals_some hc])
  | resize c n =>
    obtain ⟨s, hc⟩ := lg
    have v := W.vec c s hc
    by_cases q : n < s.vals.length
    · obtain ⟨h', e1, _, _⟩ := step_ok (dv := dv) W (.resize c n) ⟨s, hc⟩
      have e2 : ∃ a, Vec.resize dv c n h = .ok (a, h') := by
        simp only [Vec.exec, Prog.bind_app] at e1
        cases g : Vec.resize dv c n h with
        | diverge => rw [g] at e1; cases e1
        | ub f => rw [g] at e1; cases e1
        | ok y => rw [g] at e1; cases e1; exact ⟨y.1, rfl⟩
      obtain ⟨a, e2⟩ := e2
      refine Takes.pure (Takes.call (size_ok v) ?_)
      rw [if_pos q]; exact (Takes.none e2).cast (by simp only [points, vals_some hc, if_pos q])
    · have sf : SafeSrc h s s.vals.length (.counter (.ext dv)) (List.replicate (n - s.vals.length) dv) :=
        safe_counter (a := .ext dv) W hc (Nat.le_refl _) (fun _ _ => rfl) (fun _ _ _ => rfl) (.inl trivial)
      obtain ⟨a, h', X⟩ := takes_insertValues W hc (Nat.le_refl _) sf
      rw [List.length_replicate] at X
      refine Takes.pure (Takes.call (size_ok v) ?_)
      rw [if_neg q]
      exact (Takes.call (end_ok v) (Takes.seq (h' := h) (n := 1) (P := fun _ _ => True) (Points.point_ trivial) (Takes.pure (g := fun _ => ()) (.of X)))).cast
        (by simp only [points, get_some hc, vals_some hc, if_neg q])
  | resizeX c n a =>
    obtain ⟨⟨s, hc⟩, va⟩ := lg
    have v := W.vec c s hc
    obtain ⟨x, w, e0, ev, g1, g2⟩ := arg_ok W va
    by_cases q : n < s.vals.length
    · obtain ⟨h', e1, _, _⟩ := step_ok (dv := dv) W (.resize c n) ⟨s, hc⟩
      have e2 : ∃ a, Vec.resize dv c n h = .ok (a, h') := by
        simp only [Vec.exec, Prog.bind_app] at e1
        cases g : Vec.resize dv c n h with
        | diverge => rw [g] at e1; cases e1
        | ub f => rw [g] at e1; cases e1
        | ok y => rw [g] at e1; cases e1; exact ⟨y.1, rfl⟩
      obtain ⟨a, e2⟩ := e2
      refine Takes.call e0 (Takes.pure (Takes.call (size_ok v) ?_))
      rw [if_pos q]; exact (Takes.none e2).cast (by simp only [points, vals_some hc, if_pos q])
    · have sf : SafeSrc h s s.vals.length (.counter x) (List.replicate (n - s.vals.length) w) :=
        safe_counter (a := a) W hc (Nat.le_refl _) g1 (fun hb => g2 c s _ hc hb) (.inr (.inr rfl))
      obtain ⟨a, h', X⟩ := takes_insertValues W hc (Nat.le_refl _) sf
      rw [List.length_replicate] at X
      refine Takes.call e0 (Takes.pure (Takes.call (size_ok v) ?_))
      rw [if_neg q]
      exact (Takes.call (end_ok v) (Takes.pure (g := fun _ => ()) (.of X))).cast (by simp only [points, get_some hc, vals_some hc, if_neg q])
  | erase c i =>
    obtain ⟨⟨s, hc⟩, hi⟩ := lg
    rw [vals_some hc] at hi
    have v := W.vec c s hc
    have X := eraseRange_breaks v (Nat.lt_succ_self i) hi
    refine (Takes.call (begin_ok v) (Takes.pure (n := s.vals.length - (i + 1)) (.of (h' := h.vec c ⟨s.vals.take i ++ s.vals.drop (i + 1), s.cap, s.blk⟩) (a := ⟨s.blk, i⟩) (P := fun k t => Broken t c s ∧ Only h t c s.blk) ?_))).cast
      (by simp only [points, vals_some hc])
    simpa using X
  | eraseRange c i j =>
    obtain ⟨⟨s, hc⟩, hij, hj, he⟩ := lg
    rw [vals_some hc] at hj he
    have v := W.vec c s hc
    have pe : points S (.eraseRange c i j) = s.vals.length - j := by simp only [points, vals_some hc]
    rw [pe]
    refine Takes.call (begin_ok v) (Takes.call (begin_ok v) (Takes.pure ?_))
    by_cases q : i < j
    · have X := eraseRange_breaks v q hj
      refine .of (h' := h.vec c ⟨s.vals.take i ++ s.vals.drop j, s.cap, s.blk⟩) (a := ⟨s.blk, i⟩) (P := fun k t => Broken t c s ∧ Only h t c s.blk) ?_
      simpa using X
    · have e : i = s.vals.length := by have : i = j := by omega
                                       have := he this; omega
      have e' : j = s.vals.length := by omega
      subst e; subst e'
      rw [Nat.sub_self]
      refine .of (h' := h) (a := Ptr.mk s.blk s.vals.length) (P := fun _ _ => True) ?_
      refine Points.call_seq (getObj_eq v.obj) (Points.call_seq (a := s.vals.length) (s' := h) (by simp [VS.rep, diff_eq])
        (Points.call_seq (a := s.vals.length) (s' := h) (by simp [VS.rep, diff_eq]) ?_))
      have e2 : (destroyBack (s.rep.elems + s.vals.length) (s.rep.elems + s.vals.length) : Prog (Mem T) Unit) h = .ok ((), h) := by rw [destroyBack]; simp
      refine Points.call_seq e2 ?_
      have e3 : Points (shiftDown (s.rep.elems + s.vals.length) s.rep.last (s.rep.elems + s.vals.length)) h 0 ⟨s.blk, s.vals.length⟩ h (fun _ _ => True) := by
        rw [shiftDown]
        rw [if_pos (by simp [VS.rep])]
        have := Points.pure_ (σ := Mem T) (a := Ptr.mk s.blk s.vals.length) (s := h) (P := fun _ _ => True)
        simpa [VS.rep] using this
      have eo : h.setObj c { s.rep with last := ⟨s.blk, s.vals.length⟩ } = h := by
        have : ({ s.rep with last := ⟨s.blk, s.vals.length⟩ } : Rep) = s.rep := rfl
        rw [this]; simp only [Heap.setObj]
        have := upd_self h.obj c
        rw [v.obj] at this; rw [this]
      refine Points.seq (m := 0) e3 (Points.call_seq (setObj_eq v.obj) ?_)
      rw [eo]
      refine Points.call_seq (begin_ok v) ?_
      have := Points.pure_ (σ := Mem T) (a := (Ptr.mk s.blk 0 + s.vals.length)) (s := h) (P := fun _ _ => True)
      simpa using this
  | assign c d =>
    obtain ⟨⟨s, hc⟩, ⟨sd, hd⟩⟩ := lg
    have v := W.vec c s hc
    have k0 := become_change v [] (Nat.zero_le _)
    have W0 := W.chg hc k0
    obtain ⟨sd', hd'⟩ : ∃ sd', (S.put c (s.become [])) d = some sd' := put_exists_other _ _ ⟨sd, hd⟩
    have ec : sd'.cap = sd.cap := by
      by_cases q : d = c
      · subst q; rw [put_same] at hd'; cases hd'; rw [hc] at hd; cases hd; rfl
      · rw [put_other _ q, hd] at hd'; cases hd'; rfl
    obtain ⟨h1, X, k1⟩ := takes_reserve W0 (put_same ..) sd'.cap
    have W1 := W0.chg (put_same ..) k1
    rw [put_put] at W1
    have emp : (VS.reserve (s.become []) (h.vec c (s.become [])).fresh sd'.cap).vals = [] := by simp only [VS.reserve]; split <;> rfl
    have room : sd'.cap ≤ (VS.reserve (s.become []) (h.vec c (s.become [])).fresh sd'.cap).cap := by
      simp only [VS.reserve]; split
      · omega
      · exact Nat.le_refl _
    have X' : Points (reserve c sd'.cap) (h.vec c (s.become [])) (if sd.cap < s.cap then 0 else 1) () h1 fun _ _ => True :=
      Points.cast (by rw [ec]; rfl) X
    refine Takes.pure (Takes.call (clear_ok v) (Takes.call (a := sd'.cap) (capacity_ok (W0.vec d sd' hd')) ?_))
    simp only [points, get_some hc, get_some hd, vals_some hd]
    generalize VS.reserve (s.become []) (h.vec c (s.become [])).fresh sd'.cap = s1 at k1 W1 emp room
    by_cases q : d = c
    · subst q
      have v1 := k1.vec
      rw [if_pos rfl]
      refine Takes.seq X' (.of (P := fun _ _ => True) (h' := h1) (a := ()) (Points.call_seq (begin_ok v1) ?_))
      rw [copyAll]
      refine Points.call_seq (end_ok v1) ?_
      rw [emp, List.length_nil, if_pos rfl]
      exact Points.pure_
    · have ed : sd' = sd := by rw [put_other _ q, hd] at hd'; cases hd'; rfl
      subst ed
      rw [if_neg q]
      have vd1 := W1.vec d sd' (by rw [put_other _ q]; exact hd)
      have le := vd1.le
      have Y := copyAll_breaks k1.vec vd1 q (by rw [emp]; simp; omega)
      exact Takes.seq X' (Takes.call (begin_ok vd1) (.of Y))
  | assignN c n a =>
    obtain ⟨⟨s, hc⟩, va, ho⟩ := lg
    have v := W.vec c s hc
    have B := W.base
    obtain ⟨x, w, e0, ev, g1, g2⟩ := arg_ok W va
    have k0 := become_change v [] (Nat.zero_le _)
    have W0 := W.chg hc k0
    obtain ⟨h1, X, k1⟩ := takes_reserve W0 (put_same ..) n
    have kk := k0.trans B v k1
    have g3 := g2 c s 0 hc (by cases a with | ext _ => trivial | elem d i => intro e; exact absurd e ho)
    rw [List.take_zero] at g3
    have emp : (VS.reserve (s.become []) (h.vec c (s.become [])).fresh n).vals = [] := by simp only [VS.reserve]; split <;> rfl
    have room : n ≤ (VS.reserve (s.become []) (h.vec c (s.become [])).fresh n).cap := by
      simp only [VS.reserve]; split
      · omega
      · exact Nat.le_refl _
    have X' : Points (reserve c n) (h.vec c (s.become [])) (if n < s.cap then 0 else 1) () h1 fun _ _ => True :=
      Points.cast rfl X
    generalize VS.reserve (s.become []) (h.vec c (s.become [])).fresh n = s1 at k1 kk emp room
    have Y := fillBack_breaks (ws := List.replicate n w) k1.vec (gives_counter g3 n) (kk.sub B v) (by rw [emp]; simp; exact room)
    rw [List.length_replicate] at Y
    exact (Takes.call e0 (Takes.pure (Takes.call (clear_ok v) (Takes.seq X' (.of Y))))).cast (by simp only [points, get_some hc])
  | assignRange c r =>
    obtain ⟨⟨s, hc⟩, vr, ho⟩ := lg
    have v := W.vec c s hc
    have B := W.base
    obtain ⟨x, e0, g1, g2⟩ := src_ok W vr
    have g3 := g2 c s 0 hc (by cases r with | vals _ => trivial | range d i j => intro e; exact absurd e ho)
    rw [List.take_zero] at g3
    have k0 := become_change v [] (Nat.zero_le _)
    have W0 := W.chg hc k0
    have Y := takes_pushAll (r.vals' S) _ (s.become []) x _ W0 g3 (by
      have := lay_self _ _ _ _ _ k0.vec.slot
      simp only [VS.become] at this ⊢
      rw [this]; exact k0.sub B v)
    exact (Takes.call e0 (Takes.pure (Takes.call (clear_ok v) Y))).cast (by simp only [points, get_some hc]; rfl)

/-- Every legal call makes exactly `points S q` allocations and copies of elements, whatever happened before. -/
theorem call_cost (R : XReach dv S h) (q : Call T) (lg : Legal S q) :
    ∃ h', Vec.exec dv q h = .ok (retOf dv S h.fresh q, h') ∧ Costs (exec dv q) h (points S q) h' := by
  obtain ⟨L, W, _⟩ := R.fine
  obtain ⟨a, m, X⟩ := takes_call (dv := dv) W.world q lg
  obtain ⟨h', Y, e, _⟩ := call_counted W q lg X
  exact ⟨h', e, Y.costs⟩

/-- The call returns, with the result and the memory it has when nothing throws (those the theorems about contents speak of), and makes exactly `n` allocations and copies. -/
def Spends (dv : T) (q : Call T) (h : Mem T) (n : Nat) : Prop := ∃ a h', Vec.exec dv q h = .ok (a, h') ∧ Costs (exec dv q) h n h'

theorem spends (R : XReach dv S h) {q : Call T} (lg : Legal S q) (e : points S q = n) : Spends dv q h n := by
  obtain ⟨h', a, b⟩ := call_cost R q lg
  exact ⟨_, h', a, e ▸ b⟩

/-- **C150, construction**: every constructor allocates once and copies each element once; the default constructor does nothing. -/
theorem making_cost (R : XReach dv S h) : Spends dv .create h 0 ∧ (∀ n, Spends dv (.ctor n) h (1 + n)) ∧ (∀ n (a : CArg T), a.Valid S → Spends dv (.ctorN n a) h (1 + n)) ∧
    (∀ r : CSrc T, r.Valid S → Spends dv (.ctorRange r) h (1 + (r.vals' S).length)) ∧
    ∀ d vs cap p, S.Exists d → Shows h d vs cap p → Spends dv (.copyOf d) h (1 + vs.length) :=
  ⟨spends R trivial rfl, fun n => spends R trivial rfl, fun n a va => spends R va rfl, fun r vr => spends R vr rfl, fun d vs cap p hd o =>
    spends R hd (by simp only [points, vals_some (xshown R hd o).1])⟩

/-- **C150, insertion**: `insert` of `m` elements at position `i` copies the elements behind `i` and the new ones if they fit; otherwise it allocates once and copies each old
and each new element once. `push_back` is insertion of one element at the end. -/
theorem insertion_cost (R : XReach dv S h) (hc : S.Exists c) (o : Shows h c vs cap p) :
    (∀ q : Call T, Legal S q → ∀ i m, (q = .insertRange c i (.vals xs) ∧ m = xs.length ∨ (∃ a, q = .insertN c i m a) ∨ (∃ a, q = .insert c i a ∧ m = 1) ∨
        (∃ d j k, q = .insertRange c i (.range d j k) ∧ m = k - j) ∨ ∃ a, q = .pushBack c a ∧ i = vs.length ∧ m = 1) → 0 < m →
      Spends dv q h (if vs.length + m ≤ cap then (vs.length - i) + m else 1 + (vs.length + m))) ∧
    (∀ i a, Legal S (.insertN c i 0 a) → Spends dv (.insertN c i 0 a) h 0) ∧ ∀ i, Legal S (.insertRange c i (.vals [])) → Spends dv (.insertRange c i (.vals [])) h 0 := by
  have hs := (xshown R hc o).1
  have ip : ∀ i m, 0 < m → insertionPoints (S.get c) i m = if vs.length + m ≤ cap then (vs.length - i) + m else 1 + (vs.length + m) := by
    intro i m hm
    simp only [insertionPoints, get_some hs]
    rw [if_neg (by omega)]
    by_cases q : vs.length + m ≤ cap
    · rw [if_neg (by omega), if_pos q]
    · rw [if_pos (by omega), if_neg q]
  refine ⟨?_, fun i a lg => spends R lg rfl, fun i lg => spends R lg rfl⟩
  rintro q lg i m (⟨rfl, rfl⟩ | ⟨a, rfl⟩ | ⟨a, rfl, rfl⟩ | ⟨d, j, k, rfl, rfl⟩ | ⟨a, rfl, rfl, rfl⟩) hm
  · exact spends R lg (ip _ _ hm)
  · exact spends R lg (ip _ _ hm)
  · exact spends R lg (ip _ _ hm)
  · have lg' := lg
    obtain ⟨_, _, ⟨e, l1, l2⟩, _⟩ := lg'
    refine spends R lg ?_
    simp only [points, CSrc.vals']
    rw [show (List.take (k - j) (List.drop j (S.vals d))).length = k - j by simp only [List.length_take, List.length_drop]; omega]
    exact ip _ _ hm
  · exact spends R lg ((by simp only [points, vals_some hs] : points S (.pushBack c a) = insertionPoints (S.get c) vs.length 1).trans (ip _ _ hm))

/-- **C150, removal**: `erase` copies exactly the elements behind the removed ones; `pop_back`, `clear`, the destructor and `swap` copy and allocate nothing, and neither does a
`resize` that shrinks. -/
theorem removal_cost (R : XReach dv S h) (hc : S.Exists c) (o : Shows h c vs cap p) :
    (∀ i, i < vs.length → Spends dv (.erase c i) h (vs.length - (i + 1))) ∧ (∀ i j, i < j → j ≤ vs.length → Spends dv (.eraseRange c i j) h (vs.length - j)) ∧
    (vs ≠ [] → Spends dv (.popBack c) h 0) ∧ Spends dv (.clear c) h 0 ∧ Spends dv (.destroy c) h 0 ∧ (∀ d, S.Exists d → Spends dv (.swap c d) h 0) ∧
    (∀ n, n < vs.length → Spends dv (.resize c n) h 0) ∧ ∀ n (a : CArg T), a.Valid S → n < vs.length → Spends dv (.resizeX c n a) h 0 := by
  have hs := (xshown R hc o).1
  have ev : S.vals c = vs := vals_some hs
  exact ⟨fun i hi => spends R ⟨hc, by rw [ev]; exact hi⟩ (by simp only [points, ev]),
    fun i j hij hj => spends R ⟨hc, by omega, by rw [ev]; exact hj, fun e => by omega⟩ (by simp only [points, ev]),
    fun ne => spends R ⟨hc, by rw [ev]; exact ne⟩ rfl, spends R hc rfl, spends R hc rfl, fun d hd => spends R ⟨hc, hd⟩ rfl,
    fun n l => spends R hc (by simp only [points, ev, if_pos l]), fun n a va l => spends R ⟨hc, va⟩ (by simp only [points, ev, if_pos l])⟩

/-- **C150, growth by resize**: `resize(n, x)` appends: it copies the new elements, and allocates and copies the old ones if they do not fit; `resize(n)` makes one temporary more.
A `resize` to the present size copies nothing. -/
theorem resize_cost (R : XReach dv S h) (hc : S.Exists c) (o : Shows h c vs cap p) (n : Nat) (l : vs.length ≤ n) :
    (∀ a : CArg T, a.Valid S → Spends dv (.resizeX c n a) h (if n ≤ cap then n - vs.length else 1 + n)) ∧
    Spends dv (.resize c n) h (1 + if n ≤ cap then n - vs.length else 1 + n) := by
  have hs := (xshown R hc o).1
  have ev : S.vals c = vs := vals_some hs
  have ip : insertionPoints (S.get c) vs.length (n - vs.length) = if n ≤ cap then n - vs.length else 1 + n := by
    have le : vs.length ≤ cap := by
      obtain ⟨L, W, _⟩ := R.fine
      exact (W.world.vec c _ hs).le
    simp only [insertionPoints, get_some hs]
    by_cases z : n = vs.length
    · subst z; simp [le]
    rw [if_neg (by omega)]
    by_cases q : n ≤ cap
    · rw [if_neg (by omega), if_pos q]; omega
    · rw [if_pos (by omega), if_neg q]; omega
  exact ⟨fun a va => spends R ⟨hc, va⟩ (by simp only [points, ev]; rw [if_neg (by omega), ip]), spends R hc (by simp only [points, ev]; rw [if_neg (by omega), ip])⟩

/-- **C150, reserve**: below the capacity `reserve` does nothing; it allocates and copies everything if more is asked for than there is. -/
theorem reserve_cost_partial (R : XReach dv S h) (hc : S.Exists c) (o : Shows h c vs cap p) (n : Nat) :
    (n < cap → Spends dv (.reserve c n) h 0) ∧ (cap < n → Spends dv (.reserve c n) h (1 + vs.length)) := by
  have hs := (xshown R hc o).1
  exact ⟨fun l => spends R hc (by simp only [points, get_some hs, if_pos l]), fun l => spends R hc (by simp only [points, get_some hs, vals_some hs, if_neg (show ¬ n < cap by omega)])⟩

/-- **C150, reserve of what is there**: `reserve(capacity())` allocates a block and copies every element, though the storage is large enough. -/
theorem reserve_capacity_moves (R : XReach dv S h) (hc : S.Exists c) (o : Shows h c vs cap p) : Spends dv (.reserve c cap) h (1 + vs.length) := by
  have hs := (xshown R hc o).1
  exact spends R hc (by simp only [points, get_some hs, vals_some hs, if_neg (Nat.lt_irrefl cap)])

/-- **C150, assignment**: `assign(n, x)` and `=` copy each new element once and allocate at most once. -/
theorem assignment_cost_partial (R : XReach dv S h) (hc : S.Exists c) (o : Shows h c vs cap p) :
    (∀ n (a : CArg T), a.Valid S → a.Outside c → (n < cap → Spends dv (.assignN c n a) h n) ∧ (cap < n → Spends dv (.assignN c n a) h (1 + n))) ∧
    ∀ d us cap' q, S.Exists d → d ≠ c → Shows h d us cap' q → (cap' < cap → Spends dv (.assign c d) h us.length) ∧ (cap < cap' → Spends dv (.assign c d) h (1 + us.length)) := by
  have hs := (xshown R hc o).1
  refine ⟨fun n a va ho => ⟨fun l => spends R ⟨hc, va, ho⟩ ?_, fun l => spends R ⟨hc, va, ho⟩ ?_⟩, fun d us cap' q hd ne od => ⟨fun l => spends R ⟨hc, hd⟩ ?_, fun l => spends R ⟨hc, hd⟩ ?_⟩⟩
  · simp only [points, get_some hs, if_pos l]; omega
  · simp only [points, get_some hs, if_neg (show ¬ n < cap by omega)]
  · simp only [points, get_some hs, get_some (xshown R hd od).1, vals_some (xshown R hd od).1, if_pos l, if_neg ne]; omega
  · simp only [points, get_some hs, get_some (xshown R hd od).1, vals_some (xshown R hd od).1, if_neg (show ¬ cap' < cap by omega), if_neg ne]

/-- **C150, assignment into equal room**: `assign(capacity(), x)` and `=` from a vector of the same capacity throw the storage away and allocate the same amount again. -/
theorem assignment_reallocates (R : XReach dv S h) (hc : S.Exists c) (o : Shows h c vs cap p) :
    (∀ a : CArg T, a.Valid S → a.Outside c → Spends dv (.assignN c cap a) h (1 + cap)) ∧
    ∀ d us q, S.Exists d → d ≠ c → Shows h d us cap q → Spends dv (.assign c d) h (1 + us.length) := by
  have hs := (xshown R hc o).1
  refine ⟨fun a va ho => spends R ⟨hc, va, ho⟩ ?_, fun d us q hd ne od => spends R ⟨hc, hd⟩ ?_⟩
  · simp only [points, get_some hs, if_neg (Nat.lt_irrefl cap)]
  · simp only [points, get_some hs, get_some (xshown R hd od).1, vals_some (xshown R hd od).1, if_neg (Nat.lt_irrefl cap), if_neg ne]

theorem pushPoints_room : ∀ m len cap, len + m ≤ cap → pushPoints len cap m = m
  | 0, _, _, _ => by simp only [pushPoints]
  | m + 1, len, cap, l => by
    simp only [pushPoints]
    rw [if_pos (by omega), pushPoints_room m _ _ (by omega)]; omega

theorem pushPoints_full : ∀ m len, 2 * pushPoints len len m = m * (2 * len + m + 3)
  | 0, _ => by simp [pushPoints]
  | m + 1, len => by
    have ih := pushPoints_full m (len + 1)
    simp only [pushPoints]
    rw [if_neg (by omega), Nat.mul_add, ih]
    simp only [Nat.mul_add, Nat.add_mul, Nat.mul_one, Nat.one_mul]
    have : m * (2 * len) = 2 * (m * len) := by rw [Nat.mul_left_comm]
    omega

theorem pushPoints_split : ∀ k m len, pushPoints len (len + k) (k + m) = k + pushPoints (len + k) (len + k) m
  | 0, m, len => by simp
  | k + 1, m, len => by
    rw [show k + 1 + m = (k + m) + 1 by omega]
    simp only [pushPoints]
    rw [if_pos (by omega), show len + (k + 1) = (len + 1) + k by omega, pushPoints_split k m (len + 1)]; omega

/-- **C150, assignment of a range**: `assign(first, last)` of at most `capacity()` elements copies each of them once. -/
theorem assign_range_cost_partial (R : XReach dv S h) (hc : S.Exists c) (o : Shows h c vs cap p) {r : CSrc T} (vr : r.Valid S) (ho : r.Outside c) (l : (r.vals' S).length ≤ cap) :
    Spends dv (.assignRange c r) h (r.vals' S).length := by
  have hs := (xshown R hc o).1
  exact spends R ⟨hc, vr, ho⟩ (by simp only [points, get_some hs]; exact pushPoints_room _ _ _ (by omega))

/-- **C150, assignment of a longer range**: with `e` elements more than the capacity, `assign(first, last)` makes one copy for each of the first `capacity()` elements and then allocates
`e` times, each time copying all elements so far: `capacity() + e * capacity() + e * (e + 3) / 2` operations. -/
theorem assign_range_quadratic (R : XReach dv S h) (hc : S.Exists c) (o : Shows h c vs cap p) {r : CSrc T} (vr : r.Valid S) (ho : r.Outside c) {e : Nat} (l : (r.vals' S).length = cap + e) :
    ∃ n, 2 * n = 2 * cap + e * (2 * cap + e + 3) ∧ Spends dv (.assignRange c r) h n := by
  have hs := (xshown R hc o).1
  refine ⟨pushPoints 0 cap (cap + e), ?_, spends R ⟨hc, vr, ho⟩ (by simp only [points, get_some hs, l])⟩
  have := pushPoints_split cap e 0
  rw [Nat.zero_add] at this
  rw [this, Nat.mul_add, pushPoints_full]

/-- So no number of allocations and copies proportional to the length of the range is enough: for every factor there is a range that costs more, already for an empty vector. -/
theorem assign_range_not_linear (v : T) (K : Nat) : ∃ (S : State T) (h : Mem T) (c : Nat) (xs : List T) (n : Nat), XReach dv S h ∧ S.Exists c ∧ Observes h c [] ∧
    Spends dv (.assignRange c (.vals xs)) h n ∧ K * (xs.length + 1) < n := by
  have R0 : Reach dv (fun _ => none) (empty₀ : Mem T) := Reach.start
  obtain ⟨h1, e1, R1⟩ : ∃ h1, Vec.exec dv (.create) (empty₀ : Mem T) = .ok (.obj 1, h1) ∧ Reach dv (spec dv (fun _ => none) 1 (.create)) h1 := by
    obtain ⟨h1, e, _⟩ := step_ok (dv := dv) R0.world (.create) trivial
    exact ⟨h1, e, R0.step _ trivial e⟩
  have hs : spec dv (fun _ => none) 1 (Call.create : Call T) 1 = some ⟨[], 0, 0⟩ := by simp only [spec]; exact put_same ..
  have o := isVec_observes (R1.world.vec 1 _ hs)
  have X := reach_xreach R1
  have lg : Legal (spec dv (fun _ => none) 1 (Call.create : Call T)) (.assignRange 1 (.vals (List.replicate (2 * K + 2) v))) := ⟨⟨_, hs⟩, trivial, trivial⟩
  refine ⟨_, h1, 1, List.replicate (2 * K + 2) v, pushPoints 0 0 (2 * K + 2), X, ⟨_, hs⟩, o, spends X lg (by simp only [points, get_some hs, CSrc.vals', List.length_replicate]), ?_⟩
  have f := pushPoints_full (2 * K + 2) 0
  rw [List.length_replicate]
  have : K * (2 * K + 2 + 1) ≤ K * (2 * K + 5) := Nat.mul_le_mul_left _ (by omega)
  have e : (2 * K + 2) * (2 * 0 + (2 * K + 2) + 3) = 2 * (K * (2 * K + 5)) + 2 * (2 * K + 5) := by
    rw [show 2 * 0 + (2 * K + 2) + 3 = 2 * K + 5 by omega, Nat.add_mul, Nat.mul_assoc]
  omega

/-- Four elements with room for ten, after an exception: inserting three at position 1 copies 3 + 3; inserting seven allocates and copies 11; `reserve(10)` copies all four;
`assign` of twelve values makes 10 + 12 + 13 operations. -/
example : ∃ (c d : Nat) (S : State Nat) (h : Mem Nat), XReach 0 S h ∧ Observes h c [5, 6, 7, 8] ∧ Observes h d [1, 2] ∧ Spends 0 (.insertN c 1 3 (.ext 9)) h 6 ∧
    Spends 0 (.insertRange c 1 (.vals [1, 2, 3, 4, 5, 6, 7])) h 12 ∧ Spends 0 (.eraseRange c 0 2) h 2 ∧ Spends 0 (.reserve c 10) h 5 ∧ Spends 0 (.reserve c 9) h 0 ∧
    Spends 0 (.copyOf c) h 5 ∧ Spends 0 (.assign d c) h 5 ∧ Spends 0 (.assign c d) h 2 ∧ Spends 0 (.resize c 6) h 3 ∧ Spends 0 (.assignN d 2 (.ext 0)) h 3 ∧
    Spends 0 (.assignRange c (.vals [1, 2, 3, 4, 5, 6, 7, 8, 9, 10, 11, 12])) h 35 := by
  obtain ⟨c, d, S, h, p, q, R, hc, hd, ne, oc, od, _⟩ := XVec.demo
  have ec := vals_some (xshown R hc oc).1
  refine ⟨c, d, S, h, R, oc.toObserves, od.toObserves,
    (insertion_cost (xs := []) R hc oc).1 (.insertN c 1 3 (.ext 9)) ⟨hc, by rw [ec]; simp, trivial, .inl trivial⟩ 1 3 (.inr (.inl ⟨_, rfl⟩)) (by decide),
    (insertion_cost (xs := [1, 2, 3, 4, 5, 6, 7]) R hc oc).1 (.insertRange c 1 (.vals [1, 2, 3, 4, 5, 6, 7])) ⟨hc, by rw [ec]; simp, trivial, .inl trivial⟩ 1 7 (.inl ⟨rfl, rfl⟩) (by decide),
    (removal_cost R hc oc).2.1 0 2 (by decide) (by decide), reserve_capacity_moves R hc oc, (reserve_cost_partial R hc oc 9).1 (by decide), (making_cost R).2.2.2.2 c _ _ _ hc oc,
    ((assignment_cost_partial R hd od).2 c _ _ _ hc ne oc).2 (by decide), ((assignment_cost_partial R hc oc).2 d _ _ _ hd (Ne.symm ne) od).1 (by decide),
    (resize_cost R hc oc 6 (by decide)).2, (assignment_reallocates R hd od).1 (.ext 0) trivial trivial, ?_⟩
  obtain ⟨n, e, X⟩ := assign_range_quadratic (e := 2) (r := .vals [1, 2, 3, 4, 5, 6, 7, 8, 9, 10, 11, 12]) R hc oc trivial trivial rfl
  have : n = 35 := by omega
  exact this ▸ X

end Verif.Exc.XVec
