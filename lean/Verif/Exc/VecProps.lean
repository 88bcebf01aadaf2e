import Verif.Exc.VecCalls
import Verif.Vec.Props
import Verif.Vec.Props2
/-!
# Properties of `ttl::vector` under exceptions (C128)
-/
set_option linter.unusedVariables false
set_option linter.unusedSimpArgs false
set_option linter.unusedSectionVars false
namespace Verif.Exc.XVec
open Verif Verif.Vec Verif.Exc Verif.Vec.VecProps
variable {T : Type} {b n c d i j : Nat} {xs ys ws : List T} {h h' t : Mem T} {s s' : VS T} {S : State T} {dv : T}

/-- **C128.** Every legal call in a memory without leaks: the points where it may throw, and what an exception there leaves. -/
theorem call_ends (W : World h S) (q : Call T) (lg : Legal S q) : Ends (exec dv q) h (After dv h S q) := by
  have plain : ∀ q' : Call T, exec dv q' = Thr.call (Vec.exec dv q') → Legal S q' → ∀ P, Ends (exec dv q') h P := by
    intro q' e l P
    obtain ⟨h', e1, _, _⟩ := step_ok (dv := dv) W q' l
    rw [e]; exact Ends.none e1
  cases q with
  | create => exact plain .create rfl lg _
  | destroy c => exact plain (.destroy c) rfl lg _
  | popBack c => exact plain (.popBack c) rfl lg _
  | swap c d => exact plain (.swap c d) rfl lg _
  | clear c => exact plain (.clear c) rfl lg _
  | ctor n => exact (ctorN_ends W n (x := .ext dv) (v := dv) (fun _ _ => rfl)).pure
  | ctorN n a =>
    obtain ⟨x, v, e0, ev, g1, g2⟩ := arg_ok W lg
    exact Ends.call e0 (ctorN_ends W n g1).pure
  | copyOf d =>
    obtain ⟨sd, hd⟩ := lg
    exact (copyOf_ends W hd).pure
  | ctorRange r =>
    obtain ⟨x, e0, g1, g2⟩ := src_ok W lg
    exact Ends.call e0 (ctorRange_ends W g1).pure
  | reserve c n =>
    obtain ⟨s, hc⟩ := lg
    obtain ⟨m, h', X, _⟩ := reserve_ends W hc n
    exact Ends.pure ⟨m, (), h', X⟩
  | store c i a =>
    obtain ⟨⟨s, hc⟩, hi, va⟩ := lg
    rw [vals_some hc] at hi
    obtain ⟨x, w, e0, ev, g1, g2⟩ := arg_ok W va
    have v := W.vec c s hc
    obtain ⟨h', e1, k1, _⟩ := store_change v hi (g1 h (Heap.Sub.refl _))
    simp only [Vec.store, Prog.bind_app, g1 h (Heap.Sub.refl _), Res.bind_ok, at_ok v] at e1
    exact Ends.call e0 (Ends.pure (Ends.call (g1 h (Heap.Sub.refl _)) (Ends.call (at_ok v i) ⟨1 + 0, (), h', Points.seq (Points.point_ (P := fun _ t => t = h) rfl) (Points.call_ e1)⟩)))
  | insert c i a =>
    obtain ⟨⟨s, hc⟩, hi, va, hs⟩ := lg
    have v := W.vec c s hc
    have hg := get_some hc
    simp only [State.Moves, vals_some hc, hg] at hi hs
    obtain ⟨x, w, e0, ev, g1, g2⟩ := arg_ok W va
    have sf : SafeSrc h s i (.counter x) (List.replicate 1 w) := safe_counter (a := a) W hc hi g1 (fun hb => g2 c s _ hc hb) hs
    have X := insertValues_ends W hc hi sf
    rw [List.length_replicate] at X
    refine Ends.call e0 (Ends.call (begin_ok v) (Ends.pure ?_))
    simpa [After] using X
  | insertN c i n a =>
    obtain ⟨⟨s, hc⟩, hi, va, hs⟩ := lg
    have v := W.vec c s hc
    have hg := get_some hc
    simp only [State.Moves, vals_some hc, hg] at hi hs
    obtain ⟨x, w, e0, ev, g1, g2⟩ := arg_ok W va
    have sf : SafeSrc h s i (.counter x) (List.replicate n w) := safe_counter (a := a) W hc hi g1 (fun hb => g2 c s _ hc hb) hs
    have X := insertValues_ends W hc hi sf
    rw [List.length_replicate] at X
    refine Ends.call e0 (Ends.call (begin_ok v) (Ends.pure ?_))
    simpa [After] using X
  | insertRange c i r =>
    obtain ⟨⟨s, hc⟩, hi, vr, hs⟩ := lg
    have v := W.vec c s hc
    have hg := get_some hc
    simp only [State.Moves, vals_some hc, hg] at hi hs
    obtain ⟨x, e0, g1, g2⟩ := src_ok W vr
    have sf : SafeSrc h s i x (r.vals' S) := by
      intro _
      split
      · exact g1
      · rename_i k
        rcases hs with q | q | q
        · exact g2 c s i hc q
        · exact absurd q k
        · subst q; rw [List.take_length, lay_self _ _ _ _ _ v.slot]; exact g1
    have X := insertValues_ends W hc hi sf
    refine Ends.call e0 (Ends.call (begin_ok v) (Ends.pure ?_))
    simpa [After] using X
  | pushBack c a =>
    obtain ⟨⟨s, hc⟩, va⟩ := lg
    obtain ⟨x, w, e0, ev, g1, g2⟩ := arg_ok W va
    obtain ⟨n, h', _, X⟩ := pushBack_ends W hc g1
    exact Ends.call e0 (Ends.pure ⟨n, _, h', X⟩)
  | resize c n =>
    obtain ⟨s, hc⟩ := lg
    have v := W.vec c s hc
    by_cases q : n < s.vals.length
    · obtain ⟨h', e1, _, _⟩ := step_ok (dv := dv) W (.resize c n) ⟨s, hc⟩
      have e2 : ∃ a, Vec.resize dv c n h = .ok (a, h') := by
        simp only [Vec.exec, Prog.bind_app] at e1
        cases g : Vec.resize dv c n h with
        | diverge => rw [g] at e1; cases e1
        | ub f => rw [g] at e1; cases e1
        | ok y => rw [g] at e1; cases e1; exact ⟨y.1, rfl⟩
      obtain ⟨a, e2⟩ := e2
      refine Ends.pure (Ends.call (size_ok v) ?_)
      rw [if_pos q]; exact Ends.none e2
    · have sf : SafeSrc h s s.vals.length (.counter (.ext dv)) (List.replicate (n - s.vals.length) dv) :=
        safe_counter (a := .ext dv) W hc (Nat.le_refl _) (fun _ _ => rfl) (fun _ _ _ => rfl) (.inl trivial)
      obtain ⟨m, a, h', X⟩ := insertValues_ends W hc (Nat.le_refl _) sf
      rw [List.length_replicate] at X
      refine Ends.pure (Ends.call (size_ok v) ?_)
      rw [if_neg q]
      refine Ends.call (end_ok v) ⟨1 + (m + 0), (), h', Points.seq (Points.point_ ?_) (Points.seq (X.imp ?_) Points.pure_)⟩
      · exact ⟨fun _ => rfl, fun l => absurd l (Nat.lt_irrefl 0)⟩
      · intro k t l y
        refine ⟨fun e => by omega, fun _ => ?_⟩
        rw [vals_some hc, Nat.add_sub_cancel_left]; exact y
  | resizeX c n a =>
    obtain ⟨⟨s, hc⟩, va⟩ := lg
    have v := W.vec c s hc
    obtain ⟨x, w, e0, ev, g1, g2⟩ := arg_ok W va
    by_cases q : n < s.vals.length
    · obtain ⟨h', e1, _, _⟩ := step_ok (dv := dv) W (.resize c n) ⟨s, hc⟩
      have e2 : ∃ a, Vec.resize dv c n h = .ok (a, h') := by
        simp only [Vec.exec, Prog.bind_app] at e1
        cases g : Vec.resize dv c n h with
        | diverge => rw [g] at e1; cases e1
        | ub f => rw [g] at e1; cases e1
        | ok y => rw [g] at e1; cases e1; exact ⟨y.1, rfl⟩
      obtain ⟨a, e2⟩ := e2
      refine Ends.call e0 (Ends.pure (Ends.call (size_ok v) ?_))
      rw [if_pos q]; exact Ends.none e2
    · have sf : SafeSrc h s s.vals.length (.counter x) (List.replicate (n - s.vals.length) w) :=
        safe_counter (a := a) W hc (Nat.le_refl _) g1 (fun hb => g2 c s _ hc hb) (.inr (.inr rfl))
      obtain ⟨m, a, h', X⟩ := insertValues_ends W hc (Nat.le_refl _) sf
      rw [List.length_replicate] at X
      refine Ends.call e0 (Ends.pure (Ends.call (size_ok v) ?_))
      rw [if_neg q]
      refine Ends.call (end_ok v) ⟨m + 0, (), h', Points.seq (X.imp ?_) Points.pure_⟩
      intro k t l y
      simp only [After, vals_some hc]; exact y
  | erase c i =>
    obtain ⟨⟨s, hc⟩, hi⟩ := lg
    rw [vals_some hc] at hi
    have v := W.vec c s hc
    have X := (eraseRange_breaks v (Nat.lt_succ_self i) hi).imp (Q := After dv h S (.erase c i)) fun k t _ y => .here W hc y.1 y.2
    refine Ends.call (begin_ok v) (Ends.pure ⟨s.vals.length - (i + 1), ⟨s.blk, i⟩, h.vec c ⟨s.vals.take i ++ s.vals.drop (i + 1), s.cap, s.blk⟩, ?_⟩)
    simpa using X
  | eraseRange c i j =>
    obtain ⟨⟨s, hc⟩, hij, hj, he⟩ := lg
    rw [vals_some hc] at hj he
    have v := W.vec c s hc
    refine Ends.call (begin_ok v) (Ends.call (begin_ok v) (Ends.pure ?_))
    by_cases q : i < j
    · have X := (eraseRange_breaks v q hj).imp (Q := After dv h S (.eraseRange c i j)) fun k t _ y => .here W hc y.1 y.2
      refine ⟨s.vals.length - j, ⟨s.blk, i⟩, h.vec c ⟨s.vals.take i ++ s.vals.drop j, s.cap, s.blk⟩, ?_⟩
      simpa using X
    · have e : i = s.vals.length := by have : i = j := by omega
                                       have := he this; omega
      have e' : j = s.vals.length := by omega
      subst e; subst e'
      have e1 := eraseRange_end v
      simp only [Vec.eraseRange, Prog.bind_app, getObj_eq v.obj, Res.bind_ok, VS.rep, diff_eq _ (Nat.zero_le _), Nat.sub_zero, ptr_add, Nat.zero_add] at e1
      refine ⟨0, Ptr.mk s.blk s.vals.length, h, ?_⟩
      refine Points.call_seq (getObj_eq v.obj) (Points.call_seq (a := s.vals.length) (s' := h) (by simp [VS.rep, diff_eq])
        (Points.call_seq (a := s.vals.length) (s' := h) (by simp [VS.rep, diff_eq]) ?_))
      have e2 : (destroyBack (s.rep.elems + s.vals.length) (s.rep.elems + s.vals.length) : Prog (Mem T) Unit) h = .ok ((), h) := by rw [destroyBack]; simp
      refine Points.call_seq e2 ?_
      have e3 : Points (shiftDown (s.rep.elems + s.vals.length) s.rep.last (s.rep.elems + s.vals.length)) h 0 ⟨s.blk, s.vals.length⟩ h (After dv h S (.eraseRange c s.vals.length s.vals.length)) := by
        rw [shiftDown]
        rw [if_pos (by simp [VS.rep])]
        have := Points.pure_ (σ := Mem T) (a := Ptr.mk s.blk s.vals.length) (s := h) (P := After dv h S (.eraseRange c s.vals.length s.vals.length))
        simpa [VS.rep] using this
      have eo : h.setObj c { s.rep with last := ⟨s.blk, s.vals.length⟩ } = h := by
        have : ({ s.rep with last := ⟨s.blk, s.vals.length⟩ } : Rep) = s.rep := rfl
        rw [this]; simp only [Heap.setObj]
        have := upd_self h.obj c
        rw [v.obj] at this; rw [this]
      refine Points.seq (m := 0) e3 (Points.call_seq (setObj_eq v.obj) ?_)
      rw [eo]
      refine Points.call_seq (begin_ok v) ?_
      have := Points.pure_ (σ := Mem T) (a := (Ptr.mk s.blk 0 + s.vals.length)) (s := h) (P := fun k t => After dv h S (.eraseRange c s.vals.length s.vals.length) (0 + k) t)
      simpa using this
  | assign c d =>
    obtain ⟨⟨s, hc⟩, ⟨sd, hd⟩⟩ := lg
    have v := W.vec c s hc
    have k0 := become_change v [] (Nat.zero_le _)
    have W0 := W.chg hc k0
    obtain ⟨sd', hd'⟩ : ∃ sd', (S.put c (s.become [])) d = some sd' := put_exists_other _ _ ⟨sd, hd⟩
    obtain ⟨m, h1, X, k1⟩ := reserve_ends W0 (put_same ..) sd'.cap
    have W1 := W0.chg (put_same ..) k1
    rw [put_put] at W1
    have hb : (VS.reserve (s.become []) (h.vec c (s.become [])).fresh sd'.cap).blk = s.blk ∨ h.fresh ≤ (VS.reserve (s.become []) (h.vec c (s.become [])).fresh sd'.cap).blk := by
      simp only [VS.reserve]; split
      · exact .inl rfl
      · exact .inr (Nat.le_refl _)
    have emp : (VS.reserve (s.become []) (h.vec c (s.become [])).fresh sd'.cap).vals = [] := by simp only [VS.reserve]; split <;> rfl
    have room : sd'.cap ≤ (VS.reserve (s.become []) (h.vec c (s.become [])).fresh sd'.cap).cap := by
      simp only [VS.reserve]; split
      · omega
      · exact Nat.le_refl _
    refine Ends.pure (Ends.call (clear_ok v) (Ends.call (a := sd'.cap) (capacity_ok (W0.vec d sd' hd')) ?_))
    have first : ∀ k t, Grown (h.vec c (s.become [])) (S.put c (s.become [])) k t → After dv h S (.assign c d) k t := by
      intro k t y; left; rw [get_some hc]; exact y.kept.since (Nat.le_refl _)
    generalize VS.reserve (s.become []) (h.vec c (s.become [])).fresh sd'.cap = s1 at k1 W1 hb emp room
    by_cases q : d = c
    · subst q
      have v1 := k1.vec
      refine ⟨m + 0, (), h1, Points.seq (X.imp fun k t _ y => first k t y) (Points.call_seq (begin_ok v1) ?_)⟩
      rw [copyAll]
      refine Points.call_seq (end_ok v1) ?_
      rw [emp, List.length_nil, if_pos rfl]
      exact Points.pure_
    · have ed : sd' = sd := by rw [put_other _ q, hd] at hd'; cases hd'; rfl
      subst ed
      have vd1 := W1.vec d sd' (by rw [put_other _ q]; exact hd)
      have le := vd1.le
      have Y := copyAll_breaks k1.vec vd1 q (by rw [emp]; simp; omega)
      refine ⟨_, (), _, Points.seq (X.imp fun k t _ y => first k t y) (Points.call_seq (begin_ok vd1) (Y.imp fun k t _ y => ?_))⟩
      exact .inr ⟨s1, h1, y.1, W1, y.2, fun s0 e => by rw [hc] at e; cases e; exact hb⟩
  | assignN c n a =>
    obtain ⟨⟨s, hc⟩, va, ho⟩ := lg
    have v := W.vec c s hc
    have B := W.base
    obtain ⟨x, w, e0, ev, g1, g2⟩ := arg_ok W va
    have k0 := become_change v [] (Nat.zero_le _)
    have W0 := W.chg hc k0
    obtain ⟨m, h1, X, k1⟩ := reserve_ends W0 (put_same ..) n
    have kk := k0.trans B v k1
    have W1 := W0.chg (put_same ..) k1
    rw [put_put] at W1
    have g3 := g2 c s 0 hc (by cases a with | ext _ => trivial | elem d i => intro e; exact absurd e ho)
    rw [List.take_zero] at g3
    have hb : (VS.reserve (s.become []) (h.vec c (s.become [])).fresh n).blk = s.blk ∨ h.fresh ≤ (VS.reserve (s.become []) (h.vec c (s.become [])).fresh n).blk := by
      simp only [VS.reserve]; split
      · exact .inl rfl
      · exact .inr (Nat.le_refl _)
    have emp : (VS.reserve (s.become []) (h.vec c (s.become [])).fresh n).vals = [] := by simp only [VS.reserve]; split <;> rfl
    have room : n ≤ (VS.reserve (s.become []) (h.vec c (s.become [])).fresh n).cap := by
      simp only [VS.reserve]; split
      · omega
      · exact Nat.le_refl _
    have first : ∀ k t, Grown (h.vec c (s.become [])) (S.put c (s.become [])) k t → After dv h S (.assignN c n a) k t := by
      intro k t y; left; rw [get_some hc]; exact y.kept.since (Nat.le_refl _)
    generalize VS.reserve (s.become []) (h.vec c (s.become [])).fresh n = s1 at k1 kk W1 hb emp room
    have Y := fillBack_breaks (ws := List.replicate n w) k1.vec (gives_counter g3 n) (kk.sub B v) (by rw [emp]; simp; exact room)
    rw [List.length_replicate] at Y
    refine Ends.call e0 (Ends.pure (Ends.call (clear_ok v) ⟨_, (), _, Points.seq (X.imp fun k t _ y => first k t y) (Y.imp fun k t _ y => ?_)⟩))
    exact .inr ⟨s1, h1, y.1, W1, y.2, fun s0 e => by rw [hc] at e; cases e; exact hb⟩
  | assignRange c r =>
    obtain ⟨⟨s, hc⟩, vr, ho⟩ := lg
    have v := W.vec c s hc
    have B := W.base
    obtain ⟨x, e0, g1, g2⟩ := src_ok W vr
    have g3 := g2 c s 0 hc (by cases r with | vals _ => trivial | range d i j => intro e; exact absurd e ho)
    rw [List.take_zero] at g3
    have k0 := become_change v [] (Nat.zero_le _)
    have W0 := W.chg hc k0
    have Y := pushAll_ends (h0 := h) (all := r.vals' S) hc (r.vals' S) _ (s.become []) x _ W0 g3 (by
      have := lay_self _ _ _ _ _ k0.vec.slot
      simp only [VS.become] at this ⊢
      rw [this]; exact k0.sub B v) (Nat.le_refl _) (.inl rfl) ⟨0, by simp, by simp [VS.become], by simp⟩
    exact Ends.call e0 (Ends.pure (Ends.call (clear_ok v) Y))

/-! ## With lost blocks and objects -/

/-- What is in `K` or in `L`. -/
def Lost.or (K L : Lost) : Lost := ⟨fun b => K.blk b || L.blk b, fun c => K.obj c || L.obj c⟩

/-- What is in `K` is in `L`. -/
structure Lost.Le (K L : Lost) : Prop where
  blk : ∀ b, K.blk b = true → L.blk b = true
  obj : ∀ c, K.obj c = true → L.obj c = true

theorem Lost.Le.refl (L : Lost) : L.Le L := ⟨fun _ => id, fun _ => id⟩
theorem Lost.none_le (L : Lost) : Lost.none.Le L := ⟨fun _ e => (by cases e), fun _ e => (by cases e)⟩
theorem Lost.le_or (K L : Lost) : K.Le (K.or L) := ⟨fun b e => by simp [Lost.or, e], fun b e => by simp [Lost.or, e]⟩
theorem Lost.Le.trans {K L M : Lost} (p : K.Le L) (q : L.Le M) : K.Le M := ⟨fun b e => q.blk b (p.blk b e), fun b e => q.obj b (p.obj b e)⟩

theorem without_without (h : Mem T) (L M : Lost) : without (without h L) M = without h (L.or M) := by
  simp only [without, Lost.or]
  congr 1
  · funext b; by_cases x : L.obj b = true <;> by_cases y : M.obj b = true <;> simp [x, y]
  · funext b; by_cases x : L.blk b = true <;> by_cases y : M.blk b = true <;> simp [x, y]
  · funext b; by_cases x : L.blk b = true <;> by_cases y : M.blk b = true <;> simp [x, y]

theorem Loose.isVec {L : Lost} (W : Loose L h S) (e : S d = some s) : IsVec h d s ∧ L.blk s.blk = false := by
  have v := W.world.vec d s e
  have l : L.blk s.blk = false := by
    by_cases z : s.blk = 0
    · rw [z]; exact W.zero
    · have := v.blk z
      cases q : L.blk s.blk with
      | false => rfl
      | true => simp [without, q] at this
  have lo : L.obj d = false := by
    have := v.obj
    cases q : L.obj d with
    | false => rfl
    | true => simp [without, q] at this
  refine ⟨⟨?_, ?_, fun z => ?_, v.zero, v.le⟩, l⟩
  · have := v.obj; simpa [without, lo] using this
  · have := v.slot; simpa [without, l] using this
  · have := v.blk z; simpa [without, l] using this

/-- All vectors are in the states `S`; blocks and objects may be lost, those of `K` are. -/
def Fine (S : State T) (t : Mem T) (K : Lost := Lost.none) : Prop := ∃ L, Loose L t S ∧ K.Le L

theorem Fine.any {K : Lost} (F : Fine S t K) : Fine S t := by
  obtain ⟨L, W, _⟩ := F
  exact ⟨L, W, Lost.none_le L⟩

theorem Fine.isVec {K : Lost} (F : Fine S t K) (e : S d = some s) : IsVec t d s := by
  obtain ⟨L, W, _⟩ := F
  exact (W.isVec e).1

/-- Vector `c` counts a slot without an object, all others are intact. -/
def Hurt (S : State T) (t : Mem T) (c : Nat) (K : Lost := Lost.none) : Prop := (∃ s, Broken t c s) ∧ Fine (S.del c) t K

/-- What a call that was about to move to a new block leaves. -/
structure Unmoved (K : Lost) (h : Mem T) (S : State T) (k : Nat) (t : Mem T) : Prop where
  fine : Fine S t K
  first : k = 0 → t = h
  leak : 0 < k → Leak S t

def Inserted (K : Lost) (h : Mem T) (S : State T) (c m k : Nat) (t : Mem T) : Prop := (S.Moves c m → Unmoved K h S k t) ∧ (¬ S.Moves c m → Hurt S t c K)

/-- **C128.** What the call `q` leaves in memory `t` if it throws at point `k`, started in memory `h` with vectors `S`, when `K` was lost before (and is
still).
- Constructors: no vector is made and all vectors are as they were; the new block is leaked unless the allocation itself failed.
- `reserve`, and insertions (`insert`, `push_back`, `resize`) that move to a new block: all vectors are as they were; the new block is leaked unless
  its allocation failed, in which case nothing has changed at all. `v[i] = x`: nothing has changed.
- Insertions within the capacity, `erase`: the vector is damaged.
- Assignments: the vector was cleared first. It is then empty, or has the first few new elements, or it is damaged. -/
def Outcome (K : Lost) (h : Mem T) (S : State T) : Call T → Nat → Mem T → Prop
  | .ctor _ | .ctorN _ _ | .copyOf _ | .ctorRange _ => fun k t => Fine S t K ∧ (0 < k → Leak S t)
  | .reserve _ _ => Unmoved K h S
  | .store _ _ _ => fun _ t => t = h
  | .insert c _ _ => Inserted K h S c 1
  | .insertN c _ n _ => Inserted K h S c n
  | .insertRange c _ r => Inserted K h S c (r.vals' S).length
  | .pushBack c _ => Inserted K h S c 1
  | .resizeX c n _ => Inserted K h S c (n - (S.vals c).length)
  | .resize c n => fun k t => (k = 0 → t = h) ∧ (0 < k → Inserted K h S c (n - (S.vals c).length) (k - 1) t)
  | .erase c _ | .eraseRange c _ _ => fun _ t => Hurt S t c K
  | .assign c _ | .assignN c _ _ => fun k t => Fine (S.put c ((S.get c).become [])) t K ∨ Hurt S t c K
  | .assignRange c r => fun k t => (∃ j cap blk, j < (r.vals' S).length ∧ Fine (S.put c ⟨(r.vals' S).take j, cap, blk⟩) t K) ∨ Hurt S t c K
  | _ => fun _ _ => False

section
variable {L : Lost} {t' : Mem T} (low : L.Below h.fresh) (z : L.blk 0 = false) (e : without t' L = t) (f : h.fresh ≤ t'.fresh) (sm : SameIn L h t')
include low z e f sm

theorem loose_lift {S0 : State T} {M : Lost} (W : Loose M t S0) : Fine S0 t' L := by
  obtain ⟨l, z', W⟩ := W
  refine ⟨L.or M, ⟨⟨?_, ?_⟩, by simp [Lost.or, z, z'], ?_⟩, L.le_or M⟩
  · intro b q
    simp only [Lost.or, Bool.or_eq_true] at q
    rcases q with q | q
    · exact Nat.lt_of_lt_of_le (low.blk b q) f
    · have := l.blk b q; rw [← e] at this; exact this
  · intro b q
    simp only [Lost.or, Bool.or_eq_true] at q
    rcases q with q | q
    · exact Nat.lt_of_lt_of_le (low.obj b q) f
    · have := l.obj b q; rw [← e] at this; exact this
  · rw [← without_without, e]; exact W

theorem kept_lift {S0 : State T} (k : Kept (without h L) S0 t) : Fine S0 t' L := by
  obtain ⟨M, W, _⟩ := k
  exact loose_lift low z e f sm W

theorem leak_lift (k : Leak S t) : Leak S t' := by
  obtain ⟨b, n, q, r⟩ := k
  refine ⟨b, n, ?_, r⟩
  rw [← e] at q
  simp only [without] at q
  split at q
  · cases q
  · exact q

theorem same_lift (k : t = without h L) : t' = h := by
  subst k
  have e1 : t'.obj = h.obj := by
    funext b
    by_cases q : L.obj b = true
    · exact sm.obj b q
    · have := congrFun (congrArg Heap.obj e) b
      simpa [without, q] using this
  have e2 : t'.fresh = h.fresh := show (without t' L).fresh = (without h L).fresh by rw [e]
  have e3 : t'.size = h.size := by
    funext b
    by_cases q : L.blk b = true
    · exact (sm.blk b q).1
    · have := congrFun (congrArg Heap.size e) b
      simpa [without, q] using this
  have e4 : t'.slot = h.slot := by
    funext b
    by_cases q : L.blk b = true
    · exact (sm.blk b q).2
    · have := congrFun (congrArg Heap.slot e) b
      simpa [without, q] using this
  cases t'; cases h; simp only at e1 e2 e3 e4; subst e1 e2 e3 e4; rfl

theorem damaged_lift (k : Damaged (without h L) S t c) : Hurt S t' c L := by
  obtain ⟨s, h1, ⟨⟨m, i, o1, o2, o3, o4⟩, hs⟩, W, o, _⟩ := k
  have ls : ∀ b m, t.size b = some m → L.blk b = false := by
    intro b m q
    cases g : L.blk b with
    | false => rfl
    | true => rw [← e] at q; simp [without, g] at q
  have lb := ls _ _ hs
  have lo : L.obj c = false := by
    cases g : L.obj c with
    | false => rfl
    | true => rw [← e] at o1; simp [without, g] at o1
  have nz : s.blk ≠ 0 := by intro q; rw [o.size, q, W.base.null] at hs; cases hs
  refine ⟨⟨s, ⟨⟨m, i, ?_, o2, o3, ?_⟩, ?_⟩⟩, loose_lift low z e f sm (lose_world W o nz)⟩
  · rw [← o1, ← e]; simp [without, lo]
  · rw [← e] at o4; simpa [without, lb] using o4
  · rw [← e] at hs; simpa [without, lb] using hs

theorem grown_lift {k : Nat} (y : Grown (without h L) S k t) : Unmoved L h S k t' :=
  ⟨kept_lift low z e f sm y.kept, fun q => same_lift low z e f sm (y.first q), fun q => leak_lift low z e f sm (y.leak q)⟩

theorem inserting_lift {m k : Nat} (y : Inserting (without h L) S c m k t) : Inserted L h S c m k t' :=
  ⟨fun q => grown_lift low z e f sm (y.1 q), fun q => damaged_lift low z e f sm (y.2 q)⟩

theorem after_lift {k : Nat} (q : Call T) (y : After dv (without h L) S q k t) : Outcome L h S q k t' := by
  cases q with
  | ctor _ => exact ⟨kept_lift low z e f sm y.kept, fun q => leak_lift low z e f sm (y.leak q)⟩
  | ctorN _ _ => exact ⟨kept_lift low z e f sm y.kept, fun q => leak_lift low z e f sm (y.leak q)⟩
  | copyOf _ => exact ⟨kept_lift low z e f sm y.kept, fun q => leak_lift low z e f sm (y.leak q)⟩
  | ctorRange _ => exact ⟨kept_lift low z e f sm y.kept, fun q => leak_lift low z e f sm (y.leak q)⟩
  | reserve _ _ => exact grown_lift low z e f sm y
  | store _ _ _ => exact same_lift low z e f sm y
  | insert _ _ _ => exact inserting_lift low z e f sm y
  | insertN _ _ _ _ => exact inserting_lift low z e f sm y
  | insertRange _ _ _ => exact inserting_lift low z e f sm y
  | pushBack _ _ => exact inserting_lift low z e f sm y
  | resizeX _ _ _ => exact inserting_lift low z e f sm y
  | resize _ _ => exact ⟨fun q => same_lift low z e f sm (y.1 q), fun q => inserting_lift low z e f sm (y.2 q)⟩
  | erase _ _ => exact damaged_lift low z e f sm y
  | eraseRange _ _ _ => exact damaged_lift low z e f sm y
  | assign _ _ => exact y.imp (kept_lift low z e f sm) (damaged_lift low z e f sm)
  | assignN _ _ _ => exact y.imp (kept_lift low z e f sm) (damaged_lift low z e f sm)
  | assignRange _ _ => exact y.imp (fun ⟨j, cap, blk, l, k⟩ => ⟨j, cap, blk, l, kept_lift low z e f sm k⟩) (damaged_lift low z e f sm)
  | create => exact y.elim
  | destroy _ => exact y.elim
  | popBack _ => exact y.elim
  | swap _ _ => exact y.elim
  | clear _ => exact y.elim
end

/-- A block that no vector owns. -/
def Unowned (S : State T) (h : Mem T) (b n : Nat) : Prop := h.size b = some n ∧ ∀ d s, S d = some s → s.blk ≠ b

theorem Inserted.any {K : Lost} {m k : Nat} (y : Inserted K h S c m k t) : Inserted .none h S c m k t :=
  ⟨fun q => ⟨(y.1 q).fine.any, (y.1 q).first, (y.1 q).leak⟩, fun q => ⟨(y.2 q).1, (y.2 q).2.any⟩⟩

theorem Outcome.any {K : Lost} {k : Nat} {q : Call T} (y : Outcome K h S q k t) : Outcome .none h S q k t := by
  cases q with
  | ctor _ => exact ⟨y.1.any, y.2⟩
  | ctorN _ _ => exact ⟨y.1.any, y.2⟩
  | copyOf _ => exact ⟨y.1.any, y.2⟩
  | ctorRange _ => exact ⟨y.1.any, y.2⟩
  | reserve _ _ => exact ⟨y.fine.any, y.first, y.leak⟩
  | store _ _ _ => exact y
  | insert _ _ _ => exact Inserted.any y
  | insertN _ _ _ _ => exact Inserted.any y
  | insertRange _ _ _ => exact Inserted.any y
  | pushBack _ _ => exact Inserted.any y
  | resizeX _ _ _ => exact Inserted.any y
  | resize _ _ => exact ⟨y.1, fun q => Inserted.any (y.2 q)⟩
  | erase _ _ => exact ⟨y.1, y.2.any⟩
  | eraseRange _ _ _ => exact ⟨y.1, y.2.any⟩
  | assign _ _ => exact y.imp Fine.any (fun u => ⟨u.1, u.2.any⟩)
  | assignN _ _ _ => exact y.imp Fine.any (fun u => ⟨u.1, u.2.any⟩)
  | assignRange _ _ => exact y.imp (fun ⟨j, cap, blk, l, k⟩ => ⟨j, cap, blk, l, k.any⟩) (fun u => ⟨u.1, u.2.any⟩)
  | create => exact y.elim
  | destroy _ => exact y.elim
  | popBack _ => exact y.elim
  | swap _ _ => exact y.elim
  | clear _ => exact y.elim

/-- Every legal call when `L` is lost. -/
theorem call_over {L : Lost} (W : Loose L h S) (q : Call T) (lg : Legal S q) : ∃ n h', Points (exec dv q) h n (retOf dv S h.fresh q) h'
      (fun k t => Outcome L h S q k t ∧ SameIn L h t) ∧ Vec.exec dv q h = .ok (retOf dv S h.fresh q, h') ∧ Loose L h' (spec dv S h.fresh q) ∧ SameIn L h h' := by
  obtain ⟨n, a, m, X⟩ := call_ends (dv := dv) W.world q lg
  obtain ⟨h2, e2, W2, f2⟩ := step_ok (dv := dv) W.world q lg
  have sx := sim_exec dv q
  have e0 := sx.erases _ _ _ _ _ (X.returns 0)
  rw [e2] at e0
  cases e0
  obtain ⟨h', r1, r2, r3, r4⟩ := (sx.framed n).out L h W.low _ _ (X.returns 0)
  have r0 := sx.erases _ _ _ _ _ r1
  refine ⟨n, h', ⟨?_, ?_⟩, r0, ⟨W.low.le r3, W.zero, by rw [r2]; exact W2⟩, r4⟩
  · intro k
    obtain ⟨h'', s1, s2, s3, s4⟩ := (sx.framed (n + k)).out L h W.low _ _ (X.returns k)
    have s0 := sx.erases _ _ _ _ _ s1
    rw [r0] at s0; cases s0
    exact s1
  · intro k l
    obtain ⟨t, x, y⟩ := X.throws k l
    obtain ⟨t', s1, s2, s3, s4⟩ := (sx.framed k).out L h W.low _ _ x
    exact ⟨t', s1, after_lift W.low W.zero s2 s3 s4 q y, s4⟩

/-- The number of points of a call is the one it has without the lost blocks. -/
theorem call_counted {L : Lost} (W : Loose L h S) (q : Call T) (lg : Legal S q) {n : Nat} {a : Ret} {m : Mem T} {P : Nat → Mem T → Prop} (X : Points (exec dv q) (without h L) n a m P) :
    ∃ h', Points (exec dv q) h n (retOf dv S h.fresh q) h' (fun k t => Outcome L h S q k t ∧ SameIn L h t) ∧ Vec.exec dv q h = .ok (retOf dv S h.fresh q, h') ∧
      Loose L h' (spec dv S h.fresh q) ∧ SameIn L h h' := by
  obtain ⟨n', h', Y, e, W', sm⟩ := call_over (dv := dv) W q lg
  have sx := sim_exec dv q
  have en : n' = n := by
    rcases Nat.lt_trichotomy n' n with l | l | l
    · obtain ⟨t, x, _⟩ := X.throws n' l
      obtain ⟨t', s1, _⟩ := (sx.framed n').out L h W.low _ _ x
      have := (Y.returns 0).symm.trans s1; cases this
    · exact l
    · obtain ⟨t, x, _⟩ := Y.throws n l
      obtain ⟨t', s1, _⟩ := (sx.framed n).out L h W.low _ _ (X.returns 0)
      have := x.symm.trans s1; cases this
  subst en
  exact ⟨h', Y, e, W', sm⟩

/-- **C128.** The insertion of one element: how many operations may throw. -/
theorem insert_counted (F : Fine S h) (hc : S c = some s) {a : CArg T} (lg : Legal S (.insert c i a)) :
    ∃ h', Points (exec dv (.insert c i a)) h (insertionPoints s i 1) (retOf dv S h.fresh (.insert c i a)) h' (Inserted .none h S c 1) ∧
      Vec.exec dv (.insert c i a) h = .ok (retOf dv S h.fresh (.insert c i a), h') ∧ Fine (spec dv S h.fresh (.insert c i a)) h' := by
  obtain ⟨L, W, _⟩ := F
  have W0 := W.world
  have lg' := lg
  obtain ⟨⟨s', hc'⟩, hi, va, hs⟩ := lg'
  rw [hc] at hc'; cases hc'
  have v := W0.vec c s hc
  simp only [State.Moves, vals_some hc, get_some hc] at hi hs
  obtain ⟨x, w, e0, ev, g1, g2⟩ := arg_ok W0 va
  have sf : SafeSrc (without h L) s i (.counter x) (List.replicate 1 w) := safe_counter (a := a) W0 hc hi g1 (fun hb => g2 c s _ hc hb) hs
  obtain ⟨p, m, X⟩ := insertValues_counted W0 hc hi sf
  rw [List.length_replicate] at X
  have Y : Points (exec dv (.insert c i a)) (without h L) (insertionPoints s i 1) (Ret.it p) m _ :=
    Points.call_seq e0 (Points.call_seq (begin_ok v) (Points.seq_pure (g := Ret.it) (by simpa using X)))
  obtain ⟨h', Z, e, W', _⟩ := call_counted W _ lg Y
  exact ⟨h', Z.imp fun k t _ y => Inserted.any y.1, e, ⟨L, W', Lost.none_le L⟩⟩

/-- **C128.** The erasure of one element: the copies of the elements behind it may throw. -/
theorem erase_counted (F : Fine S h) (hc : S c = some s) (hi : i < s.vals.length) :
    ∃ h', Points (exec dv (.erase c i)) h (s.vals.length - (i + 1)) (.it ⟨s.blk, i⟩) h' (fun _ t => Hurt S t c) ∧
      Vec.exec dv (.erase c i) h = .ok (.it ⟨s.blk, i⟩, h') ∧ Fine (spec dv S h.fresh (.erase c i)) h' := by
  obtain ⟨L, W, _⟩ := F
  have v := W.world.vec c s hc
  have X := eraseRange_breaks v (Nat.lt_succ_self i) (by omega)
  have Y : Points (exec dv (.erase c i)) (without h L) (s.vals.length - (i + 1)) (Ret.it ⟨s.blk, i⟩)
      ((without h L).vec c ⟨s.vals.take i ++ s.vals.drop (i + 1), s.cap, s.blk⟩) (fun _ t => Broken t c s ∧ Only (without h L) t c s.blk) := by
    refine Points.call_seq (begin_ok v) (Points.seq_pure (g := Ret.it) ?_)
    simpa using X
  have lg : Legal S (.erase c i) := ⟨⟨s, hc⟩, by rw [vals_some hc]; exact hi⟩
  obtain ⟨h', Z, e, W', _⟩ := call_counted W _ lg Y
  have er : retOf dv S h.fresh (.erase c i) = .it ⟨s.blk, i⟩ := by simp only [retOf, get_some hc]
  rw [er] at Z e
  exact ⟨h', Z.imp fun k t _ y => ⟨y.1.1, y.1.2.any⟩, e, ⟨L, W', Lost.none_le L⟩⟩

theorem unowned_lost {L : Lost} {m : Nat} (W : Loose L h S) (u : Unowned S h b m) : L.blk b = true := by
  cases g : L.blk b with
  | true => rfl
  | false =>
    obtain ⟨d, s, x, y⟩ := W.world.tight b m (by have := u.1; simpa [without, g] using this)
    exact absurd y (u.2 d s x)

/-- **C128.** Every legal call, in any memory in which blocks may have been leaked and vectors damaged before: if nothing throws it does what
`Verif.Vec.Api.spec` says, and if something throws at point `k` it leaves what `Outcome` says; in every case a block that no vector owns stays allocated. -/
theorem call_points (F : Fine S h) (q : Call T) (lg : Legal S q) : ∃ n h', Points (exec dv q) h n (retOf dv S h.fresh q) h'
      (fun k t => Outcome .none h S q k t ∧ ∀ b m, Unowned S h b m → t.size b = some m) ∧
    Vec.exec dv q h = .ok (retOf dv S h.fresh q, h') ∧ Fine (spec dv S h.fresh q) h' ∧ ∀ b m, Unowned S h b m → h'.size b = some m := by
  obtain ⟨L, W, _⟩ := F
  obtain ⟨n, h', X, r0, W', r4⟩ := call_over (dv := dv) W q lg
  refine ⟨n, h', X.imp ?_, r0, ⟨L, W', Lost.none_le L⟩, fun b m u => by rw [(r4.blk b (unowned_lost W u)).1]; exact u.1⟩
  intro k t _ y
  exact ⟨y.1.any, fun b m u => by rw [(y.2.blk b (unowned_lost W u)).1]; exact u.1⟩

/-! ## Histories -/

/-- Calls that leave all vectors as they were when they throw. -/
def Strong (S : State T) : Call T → Prop
  | .ctor _ | .ctorN _ _ | .copyOf _ | .ctorRange _ | .reserve _ _ | .store _ _ _ => True
  | .insert c _ _ => S.Moves c 1
  | .insertN c _ n _ => S.Moves c n
  | .insertRange c _ r => S.Moves c (r.vals' S).length
  | .pushBack c _ => S.Moves c 1
  | .resize c n | .resizeX c n _ => S.Moves c (n - (S.vals c).length)
  | _ => False

/-- The call that, if it throws, ruins the vector `c`: insertions within the capacity, and erasure. -/
def Ruins (S : State T) (c : Nat) : Call T → Prop
  | .insert c' _ _ => c' = c ∧ ¬ S.Moves c 1
  | .insertN c' _ n _ => c' = c ∧ ¬ S.Moves c n
  | .insertRange c' _ r => c' = c ∧ ¬ S.Moves c (r.vals' S).length
  | .pushBack c' _ => c' = c ∧ ¬ S.Moves c 1
  | .resizeX c' n _ => c' = c ∧ ¬ S.Moves c (n - (S.vals c).length)
  | .erase c' _ | .eraseRange c' _ _ => c' = c
  | _ => False

/-- The vector that a call inserts into, erases from or assigns to. -/
def target : Call T → Option Nat
  | .insert c _ _ | .insertN c _ _ _ | .insertRange c _ _ | .pushBack c _ | .resize c _ | .resizeX c _ _ | .erase c _ | .eraseRange c _ _
  | .assign c _ | .assignN c _ _ | .assignRange c _ => some c
  | _ => none

/-- `S'` are the vectors of `S` that can be read in memory `t`, in the states they show there. -/
def Readable (S : State T) (t : Mem T) (S' : State T) : Prop := ∀ d s, S' d = some s ↔ S.Exists d ∧ Shows t d s.vals s.cap ⟨s.blk, 0⟩

/-- `XSteps dv S h S' h'`: a client program goes on from memory `h` with vectors `S`, its calls return or throw (at any points), and it ends in memory
`h'` with vectors `S'`. After a call has thrown, the program goes on with the vectors that can still be read, and does not touch the others again. -/
inductive XSteps (dv : T) (S : State T) (h : Mem T) : State T → Mem T → Prop where
  | nil : XSteps dv S h S h
  | returned {S' : State T} {h' h'' : Mem T} {r : Ret} {k' : Nat} (k : Nat) (q : Call T) : XSteps dv S h S' h' → Legal S' q → exec dv q k h' = .ok (.ret r k', h'') →
      XSteps dv S h (spec dv S' h'.fresh q) h''
  | thrown {S' S'' : State T} {h' h'' : Mem T} (k : Nat) (q : Call T) : XSteps dv S h S' h' → Legal S' q → exec dv q k h' = .ok (.thrown, h'') →
      Readable S' h'' S'' → XSteps dv S h S'' h''

/-- The memories that client programs reach. -/
def XReach (dv : T) (S : State T) (h : Mem T) : Prop := XSteps dv (fun _ => none) empty₀ S h

theorem outcome_strong {K : Lost} {q : Call T} {k : Nat} (F : Fine S h K) (st : Strong S q) (o : Outcome K h S q k t) : Fine S t K := by
  cases q with
  | ctor _ => exact o.1
  | ctorN _ _ => exact o.1
  | copyOf _ => exact o.1
  | ctorRange _ => exact o.1
  | reserve _ _ => exact o.fine
  | store _ _ _ => cases o; exact F
  | insert _ _ _ => exact (o.1 st).fine
  | insertN _ _ _ _ => exact (o.1 st).fine
  | insertRange _ _ _ => exact (o.1 st).fine
  | pushBack _ _ => exact (o.1 st).fine
  | resizeX _ _ _ => exact (o.1 st).fine
  | resize _ _ =>
    rcases Nat.eq_zero_or_pos k with z | z
    · rw [o.1 z]; exact F
    · exact ((o.2 z).1 st).fine
  | create => exact st.elim
  | destroy _ => exact st.elim
  | popBack _ => exact st.elim
  | swap _ _ => exact st.elim
  | clear _ => exact st.elim
  | erase _ _ => exact st.elim
  | eraseRange _ _ _ => exact st.elim
  | assign _ _ => exact st.elim
  | assignN _ _ _ => exact st.elim
  | assignRange _ _ => exact st.elim

/-- A call that is not strong and throws leaves its vector intact or damaged, and no other vector is concerned. -/
theorem outcome_weak {K : Lost} {q : Call T} {k : Nat} (F : Fine S h K) (lg : Legal S q) (st : ¬ Strong S q) (o : Outcome K h S q k t) :
    ∃ c, target q = some c ∧ S.Exists c ∧ ((∃ s, Fine (S.put c s) t K) ∨ Hurt S t c K) := by
  cases q with
  | ctor _ => exact absurd trivial st
  | ctorN _ _ => exact absurd trivial st
  | copyOf _ => exact absurd trivial st
  | ctorRange _ => exact absurd trivial st
  | reserve _ _ => exact absurd trivial st
  | store _ _ _ => exact absurd trivial st
  | insert c _ _ => exact ⟨c, rfl, lg.1, .inr (o.2 st)⟩
  | insertN c _ _ _ => exact ⟨c, rfl, lg.1, .inr (o.2 st)⟩
  | insertRange c _ _ => exact ⟨c, rfl, lg.1, .inr (o.2 st)⟩
  | pushBack c _ => exact ⟨c, rfl, lg.1, .inr (o.2 st)⟩
  | resizeX c _ _ => exact ⟨c, rfl, lg.1, .inr (o.2 st)⟩
  | resize c _ =>
    rcases Nat.eq_zero_or_pos k with z | z
    · obtain ⟨s, hc⟩ := lg
      refine ⟨c, rfl, ⟨s, hc⟩, .inl ⟨s, ?_⟩⟩
      rw [o.1 z, put_self hc]; exact F
    · exact ⟨c, rfl, lg, .inr ((o.2 z).2 st)⟩
  | create => exact o.elim
  | destroy _ => exact o.elim
  | popBack _ => exact o.elim
  | swap _ _ => exact o.elim
  | clear _ => exact o.elim
  | erase c _ => exact ⟨c, rfl, lg.1, .inr o⟩
  | eraseRange c _ _ => exact ⟨c, rfl, lg.1, .inr o⟩
  | assign c _ => exact ⟨c, rfl, lg.1, o.imp (fun k => ⟨_, k⟩) id⟩
  | assignN c _ _ => exact ⟨c, rfl, lg.1, o.imp (fun k => ⟨_, k⟩) id⟩
  | assignRange c _ => exact ⟨c, rfl, lg.1, o.imp (fun ⟨j, cap, blk, l, k⟩ => ⟨_, k⟩) id⟩

theorem shows_unique (v : IsVec t c s) {vs : List T} {cap : Nat} {p : Ptr} (o : Shows t c vs cap p) : vs = s.vals ∧ cap = s.cap ∧ p = ⟨s.blk, 0⟩ := by
  have o' := isVec_shows v
  have e0 := o'.toObserves.inj o.toObserves
  have e1 := o'.capacity.symm.trans o.capacity
  have e2 := o'.begin_.symm.trans o.begin_
  cases e1; cases e2
  exact ⟨e0.symm, rfl, rfl⟩

theorem Hurt.unreadable {K : Lost} (u : Hurt S t c K) {vs : List T} {cap : Nat} {p : Ptr} (o : Shows t c vs cap p) : False := by
  obtain ⟨⟨s, b⟩, _⟩ := u
  have := o.toObserves.forward
  rw [b.toList] at this; cases this

/-- The readable vectors are the ones that are there. -/
theorem Readable.eq {K : Lost} {S1 S' : State T} (r : Readable S t S') (F : Fine S1 t K) (x : ∀ d, S1.Exists d → S.Exists d)
    (y : ∀ d, S.Exists d → S1 d = none → ∀ vs cap p, ¬ Shows t d vs cap p) : S' = S1 := by
  funext d
  cases q : S1 d with
  | some s => exact (r d s).2 ⟨x d ⟨s, q⟩, isVec_shows (F.isVec q)⟩
  | none =>
    cases q' : S' d with
    | none => rfl
    | some s =>
      obtain ⟨u, v⟩ := (r d s).1 q'
      exact absurd v (y d u q _ _ _)

theorem Readable.of {K : Lost} {S1 : State T} (F : Fine S1 t K) (x : ∀ d, S1.Exists d → S.Exists d)
    (y : ∀ d, S.Exists d → S1 d = none → ∀ vs cap p, ¬ Shows t d vs cap p) : Readable S t S1 := by
  intro d s
  constructor
  · intro q
    exact ⟨x d ⟨s, q⟩, isVec_shows (F.isVec q)⟩
  · rintro ⟨u, v⟩
    cases q : S1 d with
    | none => exact absurd v (y d u q _ _ _)
    | some s1 =>
      obtain ⟨e1, e2, e3⟩ := shows_unique (F.isVec q) v
      cases s; cases s1
      simp only [Ptr.mk.injEq, and_true] at e1 e2 e3
      subst e1 e2 e3; rfl

/-- What can be read after a call has thrown. -/
theorem outcome_readable {K : Lost} {q : Call T} {k : Nat} (F : Fine S h K) (lg : Legal S q) (o : Outcome K h S q k t) :
    ∃ S', Readable S t S' ∧ Fine S' t K ∧ (Strong S q → S' = S) ∧ (∀ d, target q ≠ some d → S' d = S d) ∧
      ∀ c, target q = some c → S'.Exists c ∨ ((∃ s, Broken t c s) ∧ S' = S.del c) := by
  by_cases st : Strong S q
  · have F' := outcome_strong F st o
    refine ⟨S, .of F' (fun _ => id) (fun d ⟨s, e⟩ n => by rw [e] at n; cases n), F', fun _ => rfl, fun _ _ => rfl, fun c tg => .inl ?_⟩
    cases q <;> simp only [target, Option.some.injEq, reduceCtorEq] at tg <;> subst tg <;> first | exact lg.1 | exact lg
  · obtain ⟨c, tg, hc, y⟩ := outcome_weak F lg st o
    rcases y with ⟨s, y⟩ | y
    · refine ⟨S.put c s, .of y ?_ ?_, y, fun q => absurd q st, ?_, ?_⟩
      · rintro d ⟨u, e⟩
        by_cases q : d = c
        · subst q; exact hc
        · rw [put_other _ q] at e; exact ⟨u, e⟩
      · rintro d ⟨u, e⟩ n
        by_cases q : d = c
        · subst q; rw [put_same] at n; cases n
        · rw [put_other _ q, e] at n; cases n
      · intro d ne
        exact put_other _ (by rintro rfl; exact ne tg) _
      · intro c' tg'
        rw [tg] at tg'; cases tg'
        exact .inl ⟨s, put_same ..⟩
    · refine ⟨S.del c, .of y.2 ?_ ?_, y.2, fun q => absurd q st, ?_, ?_⟩
      · rintro d ⟨u, e⟩
        by_cases q : d = c
        · subst q; exact hc
        · exact ⟨u, by simpa [State.del, q] using e⟩
      · rintro d ⟨u, e⟩ n
        by_cases q : d = c
        · subst q; exact fun _ _ _ => y.unreadable
        · simp [State.del, q, e] at n
      · intro d ne
        have : d ≠ c := by rintro rfl; exact ne tg
        simp [State.del, this]
      · intro c' tg'
        rw [tg] at tg'; cases tg'
        exact .inr ⟨y.1, rfl⟩

theorem Readable.unique {S1 S2 : State T} (r1 : Readable S t S1) (r2 : Readable S t S2) : S1 = S2 := by
  funext d
  cases q : S1 d with
  | some s => exact ((r2 d s).2 ((r1 d s).1 q)).symm
  | none =>
    cases q' : S2 d with
    | none => rfl
    | some s => rw [(r1 d s).2 ((r2 d s).1 q')] at q; cases q

/-- What a program leaves alone: everything lost before. -/
theorem XSteps.over {K : Lost} {S' : State T} (F : Fine S h K) (X : XSteps dv S h S' h') : Fine S' h' K ∧ SameIn K h h' := by
  have sub : ∀ {K L : Lost} {h h' : Mem T}, K.Le L → SameIn L h h' → SameIn K h h' := fun l s => ⟨fun b e => s.blk b (l.blk b e), fun b e => s.obj b (l.obj b e)⟩
  induction X with
  | nil => exact ⟨F, .refl _⟩
  | returned k q _ lg e ih =>
    obtain ⟨⟨L, W, l⟩, sm⟩ := ih
    obtain ⟨n, h2, P, e2, W2, sm2⟩ := call_over (dv := dv) W q lg
    have := (sim_exec dv q).erases _ _ _ _ _ e
    rw [e2] at this; cases this; exact ⟨⟨L, W2, l⟩, sm.trans (sub l sm2)⟩
  | thrown k q _ lg e r ih =>
    obtain ⟨⟨L, W, l⟩, sm⟩ := ih
    obtain ⟨n, h3, P, _, _, _⟩ := call_over (dv := dv) W q lg
    rcases P.cases k with ⟨_, x⟩ | ⟨_, t, x, o, sm2⟩
    · rw [e] at x; cases x
    · rw [e] at x; cases x
      obtain ⟨S1, r1, ⟨M, W1, m⟩, _⟩ := outcome_readable ⟨L, W, .refl L⟩ lg o
      rw [r.unique r1]
      exact ⟨⟨M, W1, l.trans m⟩, sm.trans (sub l sm2)⟩

theorem XSteps.fine {S' : State T} (F : Fine S h) (X : XSteps dv S h S' h') : Fine S' h' := (X.over F).1

/-- The invariant of all histories with exceptions. -/
theorem XReach.fine (R : XReach dv S h) : Fine S h := by
  have W : World (without (empty₀ : Mem T) .none) (fun _ => none) := by
    rw [without_none]; exact world_start
  exact XSteps.fine ⟨.none, ⟨low_none _, rfl, W⟩, .refl _⟩ R

/-- **C128.** Whatever may have thrown before, every legal call returns what it should, or throws and leaves what `Outcome` says. It never is undefined. -/
theorem call_outcome (R : XReach dv S h) (q : Call T) (lg : Legal S q) (k : Nat) :
    (∃ h' k', exec dv q k h = .ok (.ret (retOf dv S h.fresh q) k', h') ∧ XReach dv (spec dv S h.fresh q) h') ∨
    (∃ t, exec dv q k h = .ok (.thrown, t) ∧ Outcome .none h S q k t) := by
  obtain ⟨n, h', P, e, F, _⟩ := call_points (dv := dv) R.fine q lg
  rcases P.cases k with ⟨_, x⟩ | ⟨_, t, x, o, _⟩
  · exact .inl ⟨h', _, x, .returned k q R lg x⟩
  · exact .inr ⟨t, x, o⟩

/-- **C128.** A program can go on after every exception: with all vectors but the one that the call was for, and with that one too unless the exception has
ruined it; after a call that is `Strong` with all vectors as they were. -/
theorem XReach.goes_on (R : XReach dv S h) {q : Call T} (lg : Legal S q) {k : Nat} (e : exec dv q k h = .ok (.thrown, t)) :
    ∃ S', XReach dv S' t ∧ Readable S t S' ∧ (Strong S q → S' = S) ∧ (∀ d, target q ≠ some d → S' d = S d) ∧
      ∀ c, target q = some c → S'.Exists c ∨ destroy c t = .ub .lifetime := by
  obtain ⟨n, h', P, _, F, _⟩ := call_points (dv := dv) R.fine q lg
  rcases P.cases k with ⟨_, x⟩ | ⟨_, t', x, o, _⟩
  · rw [e] at x; cases x
  rw [e] at x; cases x
  obtain ⟨S', r, _, y1, y2, y3⟩ := outcome_readable R.fine lg o
  exact ⟨S', .thrown k q R lg e r, r, y1, y2, fun c tg => (y3 c tg).imp id fun ⟨⟨s, b⟩, _⟩ => b.destroy⟩

/-- After a `Strong` call has thrown the program goes on as before. -/
theorem XReach.strong (R : XReach dv S h) {q : Call T} (lg : Legal S q) (st : Strong S q) {k : Nat} (e : exec dv q k h = .ok (.thrown, t)) : XReach dv S t := by
  obtain ⟨S', R', _, y, _⟩ := R.goes_on lg e
  rw [y st] at R'; exact R'

/-- A call that returns does what the model without exceptions does. -/
theorem returns_same {r : Ret} {k k' : Nat} {q : Call T} (e : exec dv q k h = .ok (.ret r k', h')) : Vec.exec dv q h = .ok (r, h') := (sim_exec dv q).erases _ _ _ _ _ e

/-- Programs without exceptions are among these. -/
theorem reach_xreach (R : Reach dv S h) : XReach dv S h := by
  induction R with
  | start => exact .nil
  | step q R lg e ih =>
    obtain ⟨n, h2, P, e2, F2, _⟩ := call_points (dv := dv) ih.fine q lg
    rw [e] at e2; cases e2
    exact .returned n q ih lg (P.returns 0)

/-- What the observers of the vector say, after any history. -/
theorem xreach_shows (R : XReach dv S h) (hc : S c = some s) : Shows h c s.vals s.cap ⟨s.blk, 0⟩ := by
  exact isVec_shows (R.fine.isVec hc)

theorem xshown (R : XReach dv S h) (hc : S.Exists c) {vs : List T} {cap : Nat} {p : Ptr} (o : Shows h c vs cap p) : S c = some ⟨vs, cap, p.blk⟩ ∧ p.off = 0 := by
  obtain ⟨s, hs⟩ := hc
  have o' := xreach_shows R hs
  have e0 := o'.toObserves.inj o.toObserves
  have e1 := o'.capacity.symm.trans o.capacity
  have e2 := o'.begin_.symm.trans o.begin_
  cases e1; cases e2; subst e0
  exact ⟨hs, rfl⟩

/-- **C128, strong guarantee.** If `reserve`, a constructor, or an insertion (`insert`, `push_back`, `resize`) that needs a new block throws, at any
point, every vector answers every observer as before, no element has moved, and the program may go on. -/
theorem growth_strong_partial (R : XReach dv S h) {q : Call T} (lg : Legal S q) (st : Strong S q) {k : Nat} (e : exec dv q k h = .ok (.thrown, t)) :
    XReach dv S t ∧ ∀ d, S.Exists d → ∀ vs cap p, Shows h d vs cap p → Shows t d vs cap p := by
  have R' : XReach dv S t := R.strong lg st e
  refine ⟨R', fun d hd vs cap p o => ?_⟩
  obtain ⟨e1, e2⟩ := xshown R hd o
  have := xreach_shows R' e1
  obtain ⟨b, f⟩ := p
  simp only at e2; subst e2; exact this

/-- **C128.** If the allocation of the new block throws in `reserve` or in an insertion, memory is what it was. -/
theorem failed_allocation_no_trace (R : XReach dv S h) {q : Call T} (lg : Legal S q) (st : Strong S q) (nc : ∀ n a d r, q ≠ .ctor n ∧ q ≠ .ctorN n a ∧ q ≠ .copyOf d ∧ q ≠ .ctorRange r)
    (e : exec dv q 0 h = .ok (.thrown, t)) : t = h := by
  rcases call_outcome R q lg 0 with ⟨_, _, x, _⟩ | ⟨t', x, o⟩
  · rw [e] at x; cases x
  · rw [e] at x; cases x
    cases q with
    | reserve _ _ => exact o.first rfl
    | store _ _ _ => exact o
    | insert _ _ _ => exact (o.1 st).first rfl
    | insertN _ _ _ _ => exact (o.1 st).first rfl
    | insertRange _ _ _ => exact (o.1 st).first rfl
    | pushBack _ _ => exact (o.1 st).first rfl
    | resizeX _ _ _ => exact (o.1 st).first rfl
    | resize _ _ => exact o.1 rfl
    | ctor n => exact absurd rfl (nc n (.ext dv) 0 (.vals [])).1
    | ctorN n a => exact absurd rfl (nc n a 0 (.vals [])).2.1
    | copyOf d => exact absurd rfl (nc 0 (.ext dv) d (.vals [])).2.2.1
    | ctorRange r => exact absurd rfl (nc 0 (.ext dv) 0 r).2.2.2
    | create => exact st.elim
    | destroy _ => exact st.elim
    | popBack _ => exact st.elim
    | swap _ _ => exact st.elim
    | clear _ => exact st.elim
    | erase _ _ => exact st.elim
    | eraseRange _ _ _ => exact st.elim
    | assign _ _ => exact st.elim
    | assignN _ _ _ => exact st.elim
    | assignRange _ _ => exact st.elim

/-- A call that gets as far as copying elements into a new block: the point at which it throws is behind the allocation. -/
def Copying (S : State T) (k : Nat) : Call T → Prop
  | .ctor _ | .ctorN _ _ | .copyOf _ | .ctorRange _ | .reserve _ _ => 0 < k
  | .insert c _ _ | .pushBack c _ => S.Moves c 1 ∧ 0 < k
  | .insertN c _ n _ => S.Moves c n ∧ 0 < k
  | .insertRange c _ r => S.Moves c (r.vals' S).length ∧ 0 < k
  | .resizeX c n _ => S.Moves c (n - (S.vals c).length) ∧ 0 < k
  | .resize c n => S.Moves c (n - (S.vals c).length) ∧ 1 < k
  | _ => False

/-- A block that no vector owns is never freed: not by calls that return and not by calls that throw. -/
theorem unowned_stays {S' : State T} {m : Nat} (F : Fine S h) (u : ∀ d s, S d = some s → s.blk ≠ b) (hm : h.size b = some m) (X : XSteps dv S h S' h') :
    h'.size b = some m ∧ ∀ d s, S' d = some s → s.blk ≠ b := by
  obtain ⟨L, W, _⟩ := F
  have g := unowned_lost W ⟨hm, u⟩
  obtain ⟨⟨M, W', l⟩, sm⟩ := X.over (K := L) ⟨L, W, .refl L⟩
  refine ⟨by rw [(sm.blk b g).1]; exact hm, fun d s e y => ?_⟩
  have := (W'.isVec e).2
  rw [y, l.blk b g] at this; cases this

/-- **C128, what does not hold.** If copying an element into the new block throws, the block is lost: it stays allocated whatever the program does
afterwards. -/
theorem throwing_copy_leaks (R : XReach dv S h) {q : Call T} (lg : Legal S q) (st : Strong S q) {k : Nat} (cp : Copying S k q) (e : exec dv q k h = .ok (.thrown, t)) :
    ∃ b n, t.size b = some n ∧ ∀ S' h', XSteps dv S t S' h' → h'.size b = some n ∧ ∀ d s, S' d = some s → s.blk ≠ b := by
  have R' : XReach dv S t := R.strong lg st e
  have lk : Leak S t := by
    rcases call_outcome R q lg k with ⟨_, _, x, _⟩ | ⟨t', x, o⟩
    · rw [e] at x; cases x
    · rw [e] at x; cases x
      cases q with
      | ctor _ => exact o.2 cp
      | ctorN _ _ => exact o.2 cp
      | copyOf _ => exact o.2 cp
      | ctorRange _ => exact o.2 cp
      | reserve _ _ => exact o.leak cp
      | insert _ _ _ => exact (o.1 cp.1).leak cp.2
      | insertN _ _ _ _ => exact (o.1 cp.1).leak cp.2
      | insertRange _ _ _ => exact (o.1 cp.1).leak cp.2
      | pushBack _ _ => exact (o.1 cp.1).leak cp.2
      | resizeX _ _ _ => exact (o.1 cp.1).leak cp.2
      | resize _ _ => exact ((o.2 (by have := cp.2; omega)).1 cp.1).leak (by have := cp.2; omega)
      | store _ _ _ => exact cp.elim
      | create => exact cp.elim
      | destroy _ => exact cp.elim
      | popBack _ => exact cp.elim
      | swap _ _ => exact cp.elim
      | clear _ => exact cp.elim
      | erase _ _ => exact cp.elim
      | eraseRange _ _ _ => exact cp.elim
      | assign _ _ => exact cp.elim
      | assignN _ _ _ => exact cp.elim
      | assignRange _ _ => exact cp.elim
  obtain ⟨b, n, q1, q2⟩ := lk
  exact ⟨b, n, q1, fun S' h' X => unowned_stays R'.fine q2 q1 X⟩

/-- **C128, what does not hold.** If an insertion within the capacity or an erasure throws, the vector cannot even be destroyed any more: its
destructor, `clear()` and any loop over its elements are undefined behaviour, because it counts a slot that holds no object. The other vectors are
as before. -/
theorem in_place_throw_ruins (R : XReach dv S h) {q : Call T} (lg : Legal S q) (ru : Ruins S c q) {k : Nat} (e : exec dv q k h = .ok (.thrown, t)) :
    destroy c t = .ub .lifetime ∧ clear c t = .ub .lifetime ∧ toList c t = .ub .lifetime ∧
      ∀ d, d ≠ c → S.Exists d → ∀ vs cap p, Shows h d vs cap p → Shows t d vs cap p := by
  have hu : Hurt S t c := by
    rcases call_outcome R q lg k with ⟨_, _, x, _⟩ | ⟨t', x, o⟩
    · rw [e] at x; cases x
    · rw [e] at x; cases x
      cases q with
      | insert _ _ _ => obtain ⟨rfl, r⟩ := ru; exact o.2 r
      | insertN _ _ _ _ => obtain ⟨rfl, r⟩ := ru; exact o.2 r
      | insertRange _ _ _ => obtain ⟨rfl, r⟩ := ru; exact o.2 r
      | pushBack _ _ => obtain ⟨rfl, r⟩ := ru; exact o.2 r
      | resizeX _ _ _ => obtain ⟨rfl, r⟩ := ru; exact o.2 r
      | erase _ _ => obtain rfl := ru; exact o
      | eraseRange _ _ _ => obtain rfl := ru; exact o
      | ctor _ => exact ru.elim
      | ctorN _ _ => exact ru.elim
      | copyOf _ => exact ru.elim
      | ctorRange _ => exact ru.elim
      | reserve _ _ => exact ru.elim
      | resize _ _ => exact ru.elim
      | store _ _ _ => exact ru.elim
      | create => exact ru.elim
      | destroy _ => exact ru.elim
      | popBack _ => exact ru.elim
      | swap _ _ => exact ru.elim
      | clear _ => exact ru.elim
      | assign _ _ => exact ru.elim
      | assignN _ _ _ => exact ru.elim
      | assignRange _ _ => exact ru.elim
  obtain ⟨⟨s, b⟩, o⟩ := hu
  refine ⟨b.destroy, b.clear, b.toList, fun d ne hd vs cap p sh => ?_⟩
  obtain ⟨e1, e2⟩ := xshown R hd sh
  have := isVec_shows (o.isVec (show (S.del c) d = _ by simp [State.del, ne]; exact e1))
  obtain ⟨x, f⟩ := p
  simp only at e2; subst e2; exact this

/-- **C128.** Whatever call throws, at whatever point, every vector that it does not insert into, erase from or assign to answers every observer as before, and
the program can go on with it. -/
theorem throw_others_kept (R : XReach dv S h) {q : Call T} (lg : Legal S q) {k : Nat} (e : exec dv q k h = .ok (.thrown, t)) :
    ∃ S', XReach dv S' t ∧ ∀ d, target q ≠ some d → S.Exists d → S'.Exists d ∧ ∀ vs cap p, Shows h d vs cap p → Shows t d vs cap p := by
  obtain ⟨S', R', _, _, y, _⟩ := R.goes_on lg e
  refine ⟨S', R', fun d ne hd => ?_⟩
  have z := y d ne
  refine ⟨?_, fun vs cap p o => ?_⟩
  · obtain ⟨s, hs⟩ := hd
    exact ⟨s, z.trans hs⟩
  · obtain ⟨e1, e2⟩ := xshown R hd o
    have := xreach_shows R' (z.trans e1)
    obtain ⟨x, f⟩ := p
    simp only at e2; subst e2; exact this

/-- **C128, what does not hold.** `resize(n)` within the capacity whose `T()` throws changes nothing; if a copy throws the vector is ruined. -/
theorem resize_throw_ruins (R : XReach dv S h) (hc : S.Exists c) (room : ¬ S.Moves c (n - (S.vals c).length)) {k : Nat} (e : exec dv (.resize c n) k h = .ok (.thrown, t)) :
    (k = 0 → t = h) ∧ (0 < k → destroy c t = .ub .lifetime ∧ clear c t = .ub .lifetime ∧ toList c t = .ub .lifetime) := by
  rcases call_outcome R (.resize c n) hc k with ⟨_, _, x, _⟩ | ⟨t', x, o⟩
  · rw [e] at x; cases x
  · rw [e] at x; cases x
    refine ⟨o.1, fun l => ?_⟩
    obtain ⟨⟨s, b⟩, _⟩ := (o.2 l).2 room
    exact ⟨b.destroy, b.clear, b.toList⟩

/-- Every legal `push_back` can throw. -/
theorem push_back_can_throw (R : XReach dv S h) {a : CArg T} (lg : Legal S (.pushBack c a)) : ∃ t, exec dv (.pushBack c a) 0 h = .ok (.thrown, t) := by
  obtain ⟨L, W, _⟩ := R.fine
  obtain ⟨⟨s, hc⟩, va⟩ := lg
  obtain ⟨x, w, e0, ev, g1, g2⟩ := arg_ok W.world va
  obtain ⟨n, h', pos, X⟩ := pushBack_ends W.world hc g1
  have Y : Points (exec dv (.pushBack c a)) (without h L) n Ret.none h' _ := Points.call_seq e0 (Points.seq_pure (g := fun _ => Ret.none) X)
  obtain ⟨t, x, _⟩ := Y.throws 0 pos
  obtain ⟨t', s1, _⟩ := ((sim_exec dv (.pushBack c a)).framed 0).out L h W.low _ _ x
  exact ⟨t', s1⟩

/-- Every legal `erase` of an element that is not the last one can throw. -/
theorem erase_can_throw (R : XReach dv S h) (hc : S.Exists c) (hi : i + 1 < (S.vals c).length) : ∃ t, exec dv (.erase c i) 0 h = .ok (.thrown, t) := by
  obtain ⟨L, W, _⟩ := R.fine
  obtain ⟨s, hc⟩ := hc
  rw [vals_some hc] at hi
  have v := W.world.vec c s hc
  have X := eraseRange_breaks v (Nat.lt_succ_self i) (by omega)
  have Y : Points (exec dv (.erase c i)) (without h L) (s.vals.length - (i + 1)) (Ret.it ⟨s.blk, i⟩)
      ((without h L).vec c ⟨s.vals.take i ++ s.vals.drop (i + 1), s.cap, s.blk⟩) (fun _ t => Broken t c s ∧ Only (without h L) t c s.blk) := by
    refine Points.call_seq (begin_ok v) (Points.seq_pure (g := Ret.it) ?_)
    simpa using X
  obtain ⟨t, x, _⟩ := Y.throws 0 (by omega)
  obtain ⟨t', s1, _⟩ := ((sim_exec dv (.erase c i)).framed 0).out L h W.low _ _ x
  exact ⟨t', s1⟩

/-- **C128, what does not hold: the most common case.** `push_back` on a vector with room, whose element copy throws: the vector cannot be destroyed. -/
theorem push_back_throw_ruins (R : XReach dv S h) {a : CArg T} (lg : Legal S (.pushBack c a)) (room : (S.vals c).length < (S.get c).cap) :
    ∃ t, exec dv (.pushBack c a) 0 h = .ok (.thrown, t) ∧ destroy c t = .ub .lifetime ∧ clear c t = .ub .lifetime ∧ toList c t = .ub .lifetime := by
  obtain ⟨t, e⟩ := push_back_can_throw R lg
  obtain ⟨a1, a2, a3, _⟩ := in_place_throw_ruins (c := c) R lg ⟨rfl, by simp only [State.Moves]; omega⟩ e
  exact ⟨t, e, a1, a2, a3⟩

/-- **C128, what does not hold: `erase`.** -/
theorem erase_throw_ruins (R : XReach dv S h) (hc : S.Exists c) (hi : i + 1 < (S.vals c).length) :
    ∃ t, exec dv (.erase c i) 0 h = .ok (.thrown, t) ∧ destroy c t = .ub .lifetime ∧ clear c t = .ub .lifetime ∧ toList c t = .ub .lifetime := by
  obtain ⟨t, e⟩ := erase_can_throw (dv := dv) R hc hi
  obtain ⟨a1, a2, a3, _⟩ := in_place_throw_ruins (c := c) (q := .erase c i) R ⟨hc, by omega⟩ rfl e
  exact ⟨t, e, a1, a2, a3⟩

/-- A `reserve` that allocates can throw at the allocation and at the copy of each element. -/
theorem reserve_can_throw (R : XReach dv S h) (hc : S.Exists c) (hn : (S.get c).cap ≤ n) {k : Nat} (hk : k ≤ (S.vals c).length) :
    ∃ t, exec dv (.reserve c n) k h = .ok (.thrown, t) := by
  obtain ⟨L, W, _⟩ := R.fine
  obtain ⟨s, hc⟩ := hc
  rw [vals_some hc] at hk
  rw [get_some hc] at hn
  have v := W.world.vec c s hc
  have X := reserve_moves W.world.base v hn
  have Y := Points.seq_pure (g := fun _ => Ret.none) X
  obtain ⟨t, x, _⟩ := Y.throws k (by omega)
  obtain ⟨t', s1, _⟩ := ((sim_exec dv (.reserve c n)).framed k).out L h W.low _ _ x
  exact ⟨t', s1⟩

/-! ## Concrete cases -/

/-- The vectors 5, 6, 7, 8 (room for ten) and 1, 2 (full), made by a program in which `reserve(20)` has thrown while it copied the second element. -/
theorem demo : ∃ (c d : Nat) (S : State Nat) (h : Mem Nat) (p q : Ptr), XReach 0 S h ∧ S.Exists c ∧ S.Exists d ∧ c ≠ d ∧ Shows h c [5, 6, 7, 8] 10 p ∧ Shows h d [1, 2] 2 q ∧
    ∃ b m, h.size b = some m ∧ ∀ S' h', XSteps 0 S h S' h' → h'.size b = some m ∧ ∀ d s, S' d = some s → s.blk ≠ b := by
  obtain ⟨c, d, S, h, p, q, R, hc, hd, ne, oc, od⟩ := VecProps.demo
  have R := reach_xreach R
  have sc := xshown R hc oc
  obtain ⟨t, e⟩ := reserve_can_throw (n := 20) (k := 2) R hc (by rw [get_some sc.1]; simp) (by rw [vals_some sc.1]; simp)
  have lg : Legal S (.reserve c 20) := hc
  obtain ⟨R', k⟩ := growth_strong_partial R lg trivial e
  exact ⟨c, d, S, t, p, q, R', hc, hd, ne, k c hc _ _ _ oc, k d hd _ _ _ od, throwing_copy_leaks R lg trivial (show 0 < 2 by decide) e⟩

/-- `push_back` with room throws -/
example : ∃ (c : Nat) (h t : Mem Nat), Observes h c [5, 6, 7, 8] ∧ exec 0 (.pushBack c (.ext 9)) 0 h = .ok (.thrown, t) ∧ destroy c t = .ub .lifetime := by
  obtain ⟨c, d, S, h, p, q, R, hc, hd, ne, oc, od, _⟩ := demo
  have sc := xshown R hc oc
  obtain ⟨t, e, x, _⟩ := push_back_throw_ruins (c := c) (a := .ext 9) R ⟨hc, trivial⟩ (by rw [get_some sc.1, vals_some sc.1]; simp)
  exact ⟨c, h, t, oc.toObserves, e, x⟩

/-- ... and the program goes on with the other vector: `erase` on that throws, too, and then there is a new vector as if nothing had happened. -/
example : ∃ (c d f : Nat) (h t u w : Mem Nat), Observes h c [5, 6, 7, 8] ∧ Observes h d [1, 2] ∧ exec 0 (.pushBack c (.ext 9)) 0 h = .ok (.thrown, t) ∧ destroy c t = .ub .lifetime ∧
    Observes t d [1, 2] ∧ exec 0 (.erase d 0) 0 t = .ok (.thrown, u) ∧ destroy d u = .ub .lifetime ∧ Vec.exec 0 (.ctorN 2 (.ext 3)) u = .ok (.obj f, w) ∧ Observes w f [3, 3] := by
  obtain ⟨c, d, S, h, p, q, R, hc, hd, ne, oc, od, _⟩ := demo
  have sc := xshown R hc oc
  obtain ⟨t, e, x, _⟩ := push_back_throw_ruins (c := c) (a := .ext 9) R ⟨hc, trivial⟩ (by rw [get_some sc.1, vals_some sc.1]; simp)
  obtain ⟨S1, R1, k1⟩ := throw_others_kept R (q := .pushBack c (.ext 9)) ⟨hc, trivial⟩ e
  obtain ⟨hd1, k1⟩ := k1 d (fun q => ne (by cases q; rfl)) hd
  have od1 := k1 _ _ _ od
  have sd1 := xshown R1 hd1 od1
  obtain ⟨u, e2, x2, _⟩ := erase_throw_ruins (i := 0) R1 hd1 (by rw [vals_some sd1.1]; simp)
  obtain ⟨S2, R2, _⟩ := R1.goes_on (q := .erase d 0) ⟨hd1, by rw [vals_some sd1.1]; simp⟩ e2
  obtain ⟨n, w, P, e3, F3, _⟩ := call_points (dv := 0) R2.fine (.ctorN 2 (.ext 3)) trivial
  refine ⟨c, d, u.fresh, h, t, u, w, oc.toObserves, od.toObserves, e, x, od1.toObserves, e2, x2, e3, ?_⟩
  exact (isVec_shows (F3.isVec (put_same S2 u.fresh ⟨[3, 3], 2, u.fresh + 1⟩))).toObserves

/-- `push_back` on a full vector throws: everything is as before -/
example : ∃ (d : Nat) (h t : Mem Nat), Observes h d [1, 2] ∧ exec 0 (.pushBack d (.ext 9)) 0 h = .ok (.thrown, t) ∧ Observes t d [1, 2] := by
  obtain ⟨c, d, S, h, p, q, R, hc, hd, ne, oc, od, _⟩ := demo
  have sd := xshown R hd od
  have lg : Legal S (.pushBack d (.ext 9)) := ⟨hd, trivial⟩
  obtain ⟨t, e⟩ := push_back_can_throw R lg
  have := (growth_strong_partial R lg (by simp only [Strong, State.Moves, get_some sd.1, vals_some sd.1]; simp) e).2 d hd _ _ _ od
  exact ⟨d, h, t, od.toObserves, e, this.toObserves⟩

/-- `erase` throws -/
example : ∃ (c : Nat) (h t : Mem Nat), Observes h c [5, 6, 7, 8] ∧ exec 0 (.erase c 1) 0 h = .ok (.thrown, t) ∧ destroy c t = .ub .lifetime := by
  obtain ⟨c, d, S, h, p, q, R, hc, hd, ne, oc, od, _⟩ := demo
  have sc := xshown R hc oc
  obtain ⟨t, e, x, _⟩ := erase_throw_ruins (i := 1) R hc (by rw [vals_some sc.1]; simp)
  exact ⟨c, h, t, oc.toObserves, e, x⟩

end Verif.Exc.XVec
