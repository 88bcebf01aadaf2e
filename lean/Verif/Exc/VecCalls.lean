import Verif.Exc.VecSim
/-!
# What every call on vectors leaves when it throws
-/
set_option linter.unusedVariables false
set_option linter.unusedSimpArgs false
namespace Verif.Exc.XVec
open Verif Verif.Vec Verif.Exc
variable {T : Type} {b n c d i j : Nat} {xs ys ws : List T} {h h' t : Mem T} {s s' : VS T} {S : State T} {dv : T}

/-- Without the lost blocks and objects `L` the memory is that of vectors in states `S`. -/
structure Loose (L : Lost) (h : Mem T) (S : State T) : Prop where
  low : L.Below h.fresh
  zero : L.blk 0 = false
  world : World (without h L) S

/-- The vectors are in states `S`; blocks allocated since `h` may be leaked. -/
def Kept (h : Mem T) (S : State T) (t : Mem T) : Prop := ∃ L, Loose ⟨L, fun _ => false⟩ t S ∧ ∀ b, L b = true → h.fresh ≤ b

/-- The block `b` is lost. -/
def Lost.block (b : Nat) : Lost := ⟨fun x => x == b, fun _ => false⟩
/-- The object `c` and the block `b` are lost. -/
def Lost.vector (c b : Nat) : Lost := ⟨fun x => x == b, fun x => x == c⟩

/-- There is a block that no vector owns. -/
def Leak (S : State T) (t : Mem T) : Prop := ∃ b n, t.size b = some n ∧ ∀ d s, S d = some s → s.blk ≠ b

/-- Vector `c` counts a slot without an object, all other vectors are as in `S`. -/
def Damaged (h : Mem T) (S : State T) (t : Mem T) (c : Nat) : Prop :=
  ∃ s h1, Broken t c s ∧ World h1 (S.put c s) ∧ Only h1 t c s.blk ∧ ∀ s0, S c = some s0 → s.blk = s0.blk ∨ h.fresh ≤ s.blk

/-- What a call that was about to move to a new block leaves when it throws at point `k`. -/
structure Grown (h : Mem T) (S : State T) (k : Nat) (t : Mem T) : Prop where
  kept : Kept h S t
  first : k = 0 → t = h
  leak : 0 < k → Leak S t

theorem without_none (h : Mem T) : without h Lost.none = h := rfl

theorem World.bump (W : World h S) : World ({ h with fresh := h.fresh + 1 } : Mem T) S :=
  ⟨⟨Nat.succ_pos _, W.base.null, W.base.nullSlot, fun b q => W.base.gone b (Nat.le_of_succ_le q), fun c q => W.base.objs c (Nat.le_of_succ_le q)⟩,
    fun c s e => ⟨(W.vec c s e).obj, (W.vec c s e).slot, (W.vec c s e).blk, (W.vec c s e).zero, (W.vec c s e).le⟩, W.only, W.disj, W.tight, W.slots⟩

theorem low_none (n : Nat) : Lost.none.Below n := ⟨fun b e => (by cases e), fun b e => (by cases e)⟩

theorem Kept.same (W : World h S) : Kept h S h := ⟨fun _ => false, ⟨low_none _, rfl, W⟩, fun b e => by cases e⟩

theorem without_spill (B : Base h) (n : Nat) (zs : List T) : without (spill h n zs) (.block h.fresh) = { h with fresh := h.fresh + 1 } := by
  have e1 : (fun b => if (b == h.fresh) = true then none else (spill h n zs).size b) = h.size := by
    funext b
    by_cases q : b = h.fresh
    · subst q; rw [(B.gone _ (Nat.le_refl _)).1]; simp
    · rw [spill_size_other _ _ _ q]; simp [q]
  have e2 : (fun b => if (b == h.fresh) = true then lay [] 0 [] else (spill h n zs).slot b) = h.slot := by
    funext b
    by_cases q : b = h.fresh
    · subst q; rw [(B.gone _ (Nat.le_refl _)).2]; simp
    · rw [spill_slot_other _ _ _ q]; simp [q]
  rw [Lost.block]; unfold without; congr 1

theorem spill_kept (W : World h S) (n : Nat) (zs : List T) : Kept h S (spill h n zs) := by
  refine ⟨fun b => b == h.fresh, ⟨⟨?_, fun c e => (by cases e)⟩, ?_, ?_⟩, ?_⟩
  · intro b e
    have : b = h.fresh := by simpa using e
    rw [this]; exact Nat.lt_succ_self _
  · have := W.base.pos
    simp; omega
  · have := without_spill W.base n zs
    rw [Lost.block] at this
    rw [this]; exact World.bump W
  · intro b e
    have : b = h.fresh := by simpa using e
    omega

theorem World.blk_lt (W : World h S) (e : S d = some s) : s.blk < h.fresh := (W.vec d s e).lt_fresh W.base

theorem spilled_grown (W : World h S) {vs : List T} {k : Nat} (q : Spilled h n vs k t) : Grown h S k t := by
  cases k with
  | zero => cases q; exact ⟨.same W, fun _ => rfl, fun l => absurd l (Nat.lt_irrefl 0)⟩
  | succ k =>
    cases q
    exact ⟨spill_kept W _ _, fun e => (by cases e), fun _ => ⟨h.fresh, n, spill_size .., fun d s e => Nat.ne_of_lt (World.blk_lt W e)⟩⟩

theorem Damaged.here (W : World h S) (hc : S c = some s) (q : Broken t c s) (o : Only h t c s.blk) : Damaged h S t c :=
  ⟨s, h, q, by rw [put_self hc]; exact W, o, fun s0 e => by rw [hc] at e; cases e; exact .inl rfl⟩

/-! ## The end of an object whose constructor threw -/

/-- The vector `c` is lost: the others are as before. -/
theorem lose_world {h1 : Mem T} (W : World h1 (S.put c s)) (o : Only h1 t c s.blk) (z : s.blk ≠ 0) : Loose (.vector c s.blk) t (S.del c) := by
  have v := W.vec c s (put_same ..)
  have lt := v.lt_fresh W.base
  have lo := v.obj_lt W.base
  have other : ∀ d sd, (S.del c) d = some sd → d ≠ c ∧ (S.put c s) d = some sd ∧ sd.blk ≠ s.blk := by
    intro d sd e
    have ne : d ≠ c := by rintro rfl; simp [State.del] at e
    have e' : (S.put c s) d = some sd := by rw [put_other _ ne]; simpa [State.del, ne] using e
    exact ⟨ne, e', fun x => z (by rw [← x]; exact W.disj d c sd s e' (put_same ..) ne x)⟩
  have back : ∀ d sd, (S.put c s) d = some sd → sd.blk ≠ s.blk → (S.del c) d = some sd := by
    intro d sd e q
    have ne : d ≠ c := by rintro rfl; rw [put_same] at e; cases e; exact q rfl
    rw [put_other _ ne] at e; simpa [State.del, ne] using e
  have sz : ∀ b, b ≠ s.blk → (without t (.vector c s.blk)).size b = h1.size b := by
    intro b q; simp [without, Lost.vector, q, o.size]
  have sl : ∀ b, b ≠ s.blk → (without t (.vector c s.blk)).slot b = h1.slot b := by
    intro b q; simp [without, Lost.vector, q, o.slot b q]
  have ob : ∀ d, d ≠ c → (without t (.vector c s.blk)).obj d = h1.obj d := by
    intro d q; simp [without, Lost.vector, q, o.obj d q]
  have oc : (without t (.vector c s.blk)).obj c = none := by simp [without, Lost.vector]
  refine ⟨⟨?_, ?_⟩, ?_, ⟨⟨?_, ?_, ?_, ?_, ?_⟩, ?_, ?_, ?_, ?_, ?_⟩⟩
  · intro b e
    have : b = s.blk := by simpa [Lost.vector] using e
    rw [o.fresh, this]; exact lt
  · intro b e
    have : b = c := by simpa [Lost.vector] using e
    rw [o.fresh, this]; exact lo
  · simp [Lost.vector, Ne.symm z]
  · show 0 < t.fresh; rw [o.fresh]; exact W.base.pos
  · rw [sz 0 (Ne.symm z)]; exact W.base.null
  · rw [sl 0 (Ne.symm z)]; exact W.base.nullSlot
  · intro b q
    have q : h1.fresh ≤ b := by rw [← o.fresh]; exact q
    have ne : b ≠ s.blk := by omega
    rw [sz b ne, sl b ne]; exact W.base.gone b q
  · intro d q
    have q : h1.fresh ≤ d := by rw [← o.fresh]; exact q
    by_cases e : d = c
    · subst e; exact oc
    · rw [ob d e]; exact W.base.objs d q
  · intro d sd e
    obtain ⟨ne, e', nb⟩ := other d sd e
    have vd := W.vec d sd e'
    refine ⟨?_, ?_, ?_, vd.zero, vd.le⟩
    · rw [ob d ne]; exact vd.obj
    · rw [sl _ nb]; exact vd.slot
    · rw [sz _ nb]; exact vd.blk
  · intro d e
    by_cases q : d = c
    · subst q; exact oc
    · rw [ob d q]; exact W.only d (by rw [put_other _ q]; simpa [State.del, q] using e)
  · intro d e sd se h1 h2 q
    exact W.disj d e sd se (other d sd h1).2.1 (other e se h2).2.1 q
  · intro b m e
    by_cases q : b = s.blk
    · subst q; simp [without, Lost.vector] at e
    · rw [sz b q] at e
      obtain ⟨x, sx, e1, e2⟩ := W.tight b m e
      exact ⟨x, sx, back x sx e1 (by rw [e2]; exact q), e2⟩
  · intro b i a e
    by_cases q : b = s.blk
    · subst q; simp [without, Lost.vector, lay_nil_none] at e
    · rw [sl b q] at e
      obtain ⟨x, sx, e1, e2⟩ := W.slots b i a e
      exact ⟨x, sx, back x sx e1 (by rw [e2]; exact q), e2⟩

theorem del_none (hc : S c = none) : S.del c = S := by
  funext d
  by_cases q : d = c
  · subst q; simp [State.del, hc]
  · simp [State.del, q]

theorem drop_kept {h1 : Mem T} (W : World h1 (S.put c s)) (o : Only h1 t c s.blk) (z : s.blk ≠ 0) (hc : S c = none) (hf : h.fresh ≤ s.blk) :
    Kept h S { t with obj := upd t.obj c none } := by
  have Q := lose_world W o z
  rw [del_none hc] at Q
  refine ⟨fun b => b == s.blk, ⟨⟨Q.low.blk, fun c e => (by cases e)⟩, Q.zero, ?_⟩, ?_⟩
  · have : without ({ t with obj := upd t.obj c none } : Mem T) ⟨fun b => b == s.blk, fun _ => false⟩ = without t (.vector c s.blk) := by
      simp only [without, Lost.vector]
      congr 1
      funext d
      by_cases q : d = c
      · subst q; simp
      · simp [q, upd_other _ _ q]
    rw [this]; exact Q.world
  · intro b e
    have : b = s.blk := by simpa using e
    omega

theorem World.fresh_none (W : World h S) : S h.fresh = none := by
  cases e : S h.fresh with
  | none => rfl
  | some s => have := (W.vec _ s e).obj_lt W.base; omega

/-- What a constructor leaves when it throws at point `k`. -/
structure Unmade (h : Mem T) (S : State T) (k : Nat) (t : Mem T) : Prop where
  kept : Kept h S t
  leak : 0 < k → Leak S t

/-- A constructor body that throws at its first point before it did anything, and later leaves the new vector damaged. -/
def Halfway (h : Mem T) (S : State T) (k : Nat) (t : Mem T) : Prop :=
  (k = 0 → t = h.made) ∧ (0 < k → Damaged h.made (S.put h.fresh ⟨[], 0, 0⟩) t h.fresh)

theorem halfway_drop (W : World h S) {k : Nat} (q : Halfway h S k t) : ∃ t', dropObj h.fresh t = .ok ((), t') ∧ Unmade h S k t' := by
  rcases Nat.eq_zero_or_pos k with z | z
  · obtain rfl := q.1 z
    refine ⟨{ h with fresh := h.fresh + 1 }, ?_, ⟨⟨fun _ => false, ⟨low_none _, rfl, World.bump W⟩, fun b e => by cases e⟩, fun l => by omega⟩⟩
    simp only [dropObj, Heap.made, upd_same, upd_upd]
    congr 3
    have := upd_self h.obj h.fresh
    rw [W.base.objs _ (Nat.le_refl _)] at this
    exact this
  · obtain ⟨s, h1, B, W1, o, hb⟩ := q.2 z
    rw [put_put] at W1
    obtain ⟨⟨m, i, ho, _, _, _⟩, hs⟩ := B
    have nz : s.blk ≠ 0 := by
      intro e
      rw [o.size, e, W1.base.null] at hs; cases hs
    have hf : h.fresh ≤ s.blk := by
      rcases hb _ (put_same ..) with e | e
      · exact absurd e nz
      · simp only [Heap.made] at e; omega
    refine ⟨{ t with obj := upd t.obj h.fresh none }, ?_, ⟨drop_kept W1 o nz (World.fresh_none W) hf, fun _ => ⟨s.blk, s.cap, hs, fun d sd e => ?_⟩⟩⟩
    · simp only [dropObj, ho]
    · have := World.blk_lt W e
      omega

/-! ## Points of the members -/

/-- The call has points, and what exceptions leave satisfies `P`. -/
def Ends {α : Type} (x : Thr (Mem T) α) (h : Mem T) (P : Nat → Mem T → Prop) : Prop := ∃ n a h', Points x h n a h' P

theorem Ends.call {α β : Type} {p : Prog (Mem T) α} {f : α → Thr (Mem T) β} {a : α} {P : Nat → Mem T → Prop} (q : p h = .ok (a, h')) (e : Ends (f a) h' P) :
    Ends (Thr.call p >>= f) h P := by
  obtain ⟨n, b, h2, X⟩ := e
  exact ⟨n, b, h2, Points.call_seq q X⟩

theorem Ends.pure {α β : Type} {x : Thr (Mem T) α} {g : α → β} {P : Nat → Mem T → Prop} (e : Ends x h P) : Ends (x >>= fun a => Pure.pure (g a)) h P := by
  obtain ⟨n, b, h2, X⟩ := e
  exact ⟨n, g b, h2, Points.seq_pure X⟩

theorem Ends.none {α : Type} {p : Prog (Mem T) α} {a : α} {P : Nat → Mem T → Prop} (q : p h = .ok (a, h')) : Ends (Thr.call p) h P := ⟨0, a, h', Points.call_ q⟩

theorem Ends.imp {α : Type} {x : Thr (Mem T) α} {P Q : Nat → Mem T → Prop} (e : Ends x h P) (i : ∀ k t, P k t → Q k t) : Ends x h Q := by
  obtain ⟨n, b, h2, X⟩ := e
  exact ⟨n, b, h2, X.imp fun k t _ q => i k t q⟩

/-- What an insertion of `m` elements into `c` leaves. -/
def Inserting (h : Mem T) (S : State T) (c m k : Nat) (t : Mem T) : Prop := (S.Moves c m → Grown h S k t) ∧ (¬ S.Moves c m → Damaged h S t c)

/-- How many operations of an insertion of `m` elements at `i` may throw: within the capacity, the copies of the elements behind and of the new ones; otherwise
the allocation and the copies of all elements. -/
def insertionPoints (s : VS T) (i m : Nat) : Nat := if m = 0 then 0 else if s.cap < s.vals.length + m then 1 + (s.vals.length + m) else s.vals.length - i + m

theorem insertValues_counted (W : World h S) (hc : S c = some s) (hi : i ≤ s.vals.length) {src : Src T} (sf : SafeSrc h s i src ws) :
    ∃ a h', Points (insertValues c ⟨s.blk, i⟩ ws.length src) h (insertionPoints s i ws.length) a h' (Inserting h S c ws.length) := by
  have v := W.vec c s hc
  have mv : S.Moves c ws.length ↔ s.cap < s.vals.length + ws.length := by simp only [State.Moves, get_some hc, vals_some hc]
  by_cases e : ws = []
  · subst e; exact ⟨_, _, insertValues_none v src⟩
  · have sf := sf e
    have e0 : ws.length ≠ 0 := fun z => e (List.length_eq_zero_iff.1 z)
    by_cases q : s.cap < s.vals.length + ws.length
    · rw [if_pos q] at sf
      rw [insertionPoints, if_neg e0, if_pos q]
      refine ⟨_, _, (insertValues_moves W.base v hi src sf e q).imp fun k t _ y => ⟨fun _ => spilled_grown W y, fun n => absurd (mv.2 q) n⟩⟩
    · rw [if_neg q] at sf
      rw [insertionPoints, if_neg e0, if_neg q]
      exact ⟨_, _, (insertValues_breaks v hi src sf e (by omega)).imp fun k t _ y => ⟨fun m => absurd (mv.1 m) q, fun _ => .here W hc y.1 y.2⟩⟩

theorem insertValues_ends (W : World h S) (hc : S c = some s) (hi : i ≤ s.vals.length) {src : Src T} (sf : SafeSrc h s i src ws) :
    Ends (insertValues c ⟨s.blk, i⟩ ws.length src) h (Inserting h S c ws.length) := by
  obtain ⟨a, h', X⟩ := insertValues_counted W hc hi sf
  exact ⟨_, a, h', X⟩

theorem pushBack_ends (W : World h S) (hc : S c = some s) {x : Arg T} {a : T} (hx : ∀ k : Mem T, h.Sub k → x.get k = .ok (a, k)) :
    ∃ n h', 0 < n ∧ Points (pushBack c x) h n () h' (Inserting h S c 1) := by
  have v := W.vec c s hc
  have le := v.le
  have mv : S.Moves c 1 ↔ s.cap < s.vals.length + 1 := by simp only [State.Moves, get_some hc, vals_some hc]
  by_cases q : s.vals.length < s.cap
  · exact ⟨_, _, Nat.one_pos, (pushBack_breaks v (hx h (Heap.Sub.refl _)) q).imp fun k t _ y => ⟨fun m => by have := mv.1 m; omega, fun _ => .here W hc y.1 y.2⟩⟩
  · exact ⟨_, _, by omega, (pushBack_moves W.base v hx (by omega)).imp fun k t _ y => ⟨fun _ => spilled_grown W y, fun n => absurd (mv.2 (by omega)) n⟩⟩

theorem Kept.since {h0 : Mem T} (l : h0.fresh ≤ h.fresh) (k : Kept h S t) : Kept h0 S t :=
  k.imp fun L q => ⟨q.1, fun b e => Nat.le_trans l (q.2 b e)⟩

/-- `push_back` in a loop, started in `h0` with vectors `S0`: `ws` is what is still to be pushed. -/
theorem pushAll_ends {h0 : Mem T} {S0 : State T} {s0 : VS T} {all : List T} (hc0 : S0 c = some s0) : ∀ (ws : List T) (h : Mem T) (s : VS T) (src : Src T) (g : Mem T), World h (S0.put c s) → Gives g src ws →
    g.Sub (h.lay s.blk [] 0 []) → h0.fresh ≤ h.fresh → (s.blk = s0.blk ∨ h0.fresh ≤ s.blk) → (∃ j, j + ws.length = all.length ∧ s.vals = all.take j ∧ ws = all.drop j) →
    Ends (pushAll c ws.length src) h fun k t =>
      (∃ j cap blk, j < all.length ∧ Kept h0 (S0.put c ⟨all.take j, cap, blk⟩) t) ∨ Damaged h0 S0 t c
  | [], h, s, src, g, W, hg, hs, l, bb, J => ⟨0, _, _, Points.pure_⟩
  | w :: ws, h, s, src, g, W, hg, hs, l, bb, J => by
    have B := W.base
    have v := W.vec c s (put_same ..)
    have le := v.le
    obtain ⟨⟨a, q1, q2⟩, hg2⟩ := hg
    have sub0 : (h.lay s.blk [] 0 []).Sub h := by
      have := sub_prefix (h := h) (b := s.blk) [] s.vals 0 []
      rwa [List.nil_append, lay_self h _ _ _ _ v.slot] at this
    have hx : ∀ k : Mem T, h.Sub k → a.get k = .ok (w, k) := fun k hk => q2 k ((hs.trans sub0).trans hk)
    obtain ⟨h1, e1, k1, f1, _⟩ := pushBack_change B v hx
    obtain ⟨n, h1', _, X⟩ := pushBack_ends W (put_same ..) hx
    have : h1' = h1 := by
      have := (sim_pushBack c a).erases _ _ _ _ _ (X.returns 0)
      rw [this] at e1; cases e1; rfl
    subst this
    have hs1 : g.Sub (h1'.lay (s.ins h.fresh s.vals.length [w]).blk [] 0 []) := by
      refine hs.trans ?_
      intro b i y ⟨⟨m, p1, p2⟩, p3⟩
      have e1 : b ≠ s.blk := by intro e; subst e; rw [lay_slot_same, lay_nil] at p3; simp at p3
      have e2 : b ≠ (s.ins h.fresh s.vals.length [w]).blk := by
        intro e
        rcases k1.moved with ⟨a1, _⟩ | ⟨a1, _⟩
        · exact e1 (e.trans a1)
        · rw [← e] at a1; have := (B.gone _ a1).1; simp only [lay_size] at p1; rw [this] at p1; cases p1
      have kk := k1.keep b e1 e2
      rw [lay_slot_other _ _ _ _ _ e1] at p3
      exact ⟨⟨m, kk.1.trans p1, p2⟩, by rw [lay_slot_other _ _ _ _ _ e2, kk.2]; exact p3⟩
    have W1 := W.chg (put_same ..) k1
    rw [put_put] at W1
    obtain ⟨j, J1, J2, J3⟩ := J
    have hj : j < all.length := by simp only [List.length_cons] at J1; omega
    have hv : (s.ins h.fresh s.vals.length [w]).vals = s.vals ++ [w] := by
      simp only [VS.ins, List.cons_ne_nil, if_false, List.take_length, List.drop_length, List.append_nil]
      split <;> rfl
    have hw : all[j]? = some w := by
      have : (all.drop j)[0]? = some w := by rw [← J3]; rfl
      rwa [List.getElem?_drop, Nat.add_zero] at this
    obtain ⟨m, x, h2, Y⟩ := pushAll_ends (h0 := h0) hc0 (all := all) ws h1' _ src.succ g W1 hg2 hs1 (by have := k1.fresh; omega) (by
      rcases k1.moved with ⟨q, _⟩ | ⟨q, _⟩
      · rw [q]; exact bb
      · right; omega) ⟨j + 1, by simp only [List.length_cons] at J1; omega, by
        rw [hv, J2, List.take_add_one, hw]; rfl, by
        have : all.drop j = w :: all.drop (j + 1) := by
          rw [List.drop_eq_getElem_cons hj]; congr 1
          rw [List.getElem?_eq_getElem hj] at hw; cases hw; rfl
        rw [this] at J3; cases J3; rfl⟩
    refine ⟨n + m, x, h2, Points.call_seq (q1 h) (Points.seq (X.imp ?_) Y)⟩
    rintro k t _ ⟨y1, y2⟩
    by_cases mv : (S0.put c s).Moves c 1
    · refine .inl ⟨j, s.cap, s.blk, hj, ?_⟩
      rw [← J2]; exact (y1 mv).kept.since l
    · obtain ⟨sd, hd, b1, b2, b3, b4⟩ := y2 mv
      refine .inr ⟨sd, hd, b1, by rwa [put_put] at b2, b3, fun s1 e => ?_⟩
      rw [hc0] at e; cases e
      rcases b4 s (put_same ..) with q | q
      · rw [q]; exact bb
      · right; omega

/-! ## Calls -/

/-- **C128.** What the call `q` leaves in memory `t` if it throws at point `k`, started in memory `h` with vectors `S`.
- Constructors: no vector is made and all vectors are as they were; the new block is leaked unless the allocation itself failed.
- `reserve`, and insertions (`insert`, `push_back`, `resize`) that move to a new block: all vectors are as they were; the new block is leaked unless
  its allocation failed, in which case nothing has changed at all. `v[i] = x`: nothing has changed.
- Insertions within the capacity, `erase`: the vector is damaged.
- Assignments: the vector was cleared first. It is then empty, or has the first few new elements, or it is damaged. -/
def After (dv : T) (h : Mem T) (S : State T) : Call T → Nat → Mem T → Prop
  | .ctor _ | .ctorN _ _ | .copyOf _ | .ctorRange _ => Unmade h S
  | .reserve _ _ => Grown h S
  | .store _ _ _ => fun _ t => t = h
  | .insert c _ _ => Inserting h S c 1
  | .insertN c _ n _ => Inserting h S c n
  | .insertRange c _ r => Inserting h S c (r.vals' S).length
  | .pushBack c _ => Inserting h S c 1
  | .resizeX c n _ => Inserting h S c (n - (S.vals c).length)
  | .resize c n => fun k t => (k = 0 → t = h) ∧ (0 < k → Inserting h S c (n - (S.vals c).length) (k - 1) t)
  | .erase c _ | .eraseRange c _ _ => fun _ t => Damaged h S t c
  | .assign c _ | .assignN c _ _ => fun k t => Kept h (S.put c ((S.get c).become [])) t ∨ Damaged h S t c
  | .assignRange c r => fun k t => (∃ j cap blk, j < (r.vals' S).length ∧ Kept h (S.put c ⟨(r.vals' S).take j, cap, blk⟩) t) ∨ Damaged h S t c
  | _ => fun _ _ => False

theorem reserve_ends (W : World h S) (hc : S c = some s) (n : Nat) : ∃ m h', Points (reserve c n) h m () h' (Grown h S) ∧ Change h h' c s (s.reserve h.fresh n) := by
  have v := W.vec c s hc
  obtain ⟨h', e, k, _⟩ := reserve_change W.base v n
  by_cases q : n < s.cap
  · have X := reserve_stays (T := T) (P := Grown h S) v q
    refine ⟨0, h, X, ?_⟩
    have := (sim_reserve c n).erases _ _ _ _ _ (X.returns 0)
    rw [this] at e; cases e; exact k
  · have X := (reserve_moves W.base v (by omega : s.cap ≤ n)).imp fun k t _ y => spilled_grown W y
    refine ⟨_, _, X, ?_⟩
    have := (sim_reserve c n).erases _ _ _ _ _ (X.returns 0)
    rw [this] at e; cases e; exact k

theorem createN_ends (W : World h S) (n : Nat) : ∃ h1, Points (createN h.fresh n) h.made 1 () h1 (fun _ t => t = h.made) ∧
    World h.made (S.put h.fresh ⟨[], 0, 0⟩) ∧ Change h.made h1 h.fresh ⟨[], 0, 0⟩ ⟨[], n, h.fresh + 1⟩ := by
  obtain ⟨h1, e1, W1, k1⟩ := createN_ok W n
  have A := alloc_points (n := n) (h := h.made) (P := fun _ t => t = h.made) rfl
  have ea := (sim_alloc n).erases _ _ _ _ _ (A.returns 0)
  have ob : (spill h.made n []).obj h.fresh = some ⟨.null, .null, .null⟩ := upd_same ..
  refine ⟨_, Points.seq (m := 0) A (Points.call_ (setObj_eq ob)), W1, ?_⟩
  have e2 : Vec.createN n h = .ok (h.fresh, (spill h.made n []).setObj h.fresh ⟨⟨h.made.fresh, 0⟩, ⟨h.made.fresh, 0⟩, Ptr.mk h.made.fresh 0 + n⟩) := by
    simp only [Vec.createN, Prog.bind_app]
    rw [show (newObj ⟨.null, .null, .null⟩ : Prog (Mem T) Nat) h = .ok (h.fresh, h.made) from rfl]
    simp only [Res.bind_ok, ea, setObj_eq ob, Prog.pure_app]
  rw [e1] at e2; cases e2; exact k1

theorem new_damaged {h1 : Mem T} (W1 : World h1 (S.put h.fresh s)) (hf : h.fresh + 1 ≤ s.blk) (q : Broken t h.fresh s) (o : Only h1 t h.fresh s.blk) :
    Damaged h.made (S.put h.fresh ⟨[], 0, 0⟩) t h.fresh := by
  refine ⟨s, h1, q, by rw [put_put]; exact W1, o, fun s0 e => .inr hf⟩

theorem ctorN_ends (W : World h S) (n : Nat) {x : Arg T} {v : T} (g1 : ∀ k : Mem T, h.Sub k → x.get k = .ok (v, k)) : Ends (ctorN n x) h (Unmade h S) := by
  obtain ⟨h1, X, W1, k1⟩ := createN_ends W n
  have v0 := W1.vec h.fresh _ (put_same ..)
  have W2 := W1.chg (put_same ..) k1
  rw [put_put] at W2
  have hg : Gives h (.counter x) (List.replicate n v) := gives_counter g1 n
  have Y := fillBack_breaks (ws := List.replicate n v) k1.vec hg ((sub_made W).trans (sub_of_change_empty W1.base v0 k1)) (by simp)
  rw [List.length_replicate] at Y
  refine ⟨_, _, _, Points.call_seq create_ok (Points.seq_pure (g := fun _ => h.fresh) (unwinding_points (Points.seq (P := Halfway h S) (X.imp ?_) (Y.imp ?_)) fun k t _ y => halfway_drop W y))⟩
  · intro k t l e; exact ⟨fun _ => e, fun q => by omega⟩
  · intro k t l e; exact ⟨fun q => by omega, fun _ => new_damaged (s := ⟨[], n, h.fresh + 1⟩) W2 (Nat.le_refl _) e.1 e.2⟩

theorem copyOf_ends (W : World h S) {sd : VS T} (hd : S d = some sd) : Ends (copyOf d) h (Unmade h S) := by
  have vd := W.vec d sd hd
  obtain ⟨vd1, ne⟩ := W.made_vec hd
  obtain ⟨h1, X, W1, k1⟩ := createN_ends W sd.vals.length
  have W2 := W1.chg (put_same ..) k1
  rw [put_put] at W2
  have vd2 := W2.vec d sd (by rw [put_other _ ne]; exact hd)
  have Y := copyAll_breaks k1.vec vd2 ne (by simp)
  refine Ends.call (size_ok vd) ⟨_, _, _, Points.call_seq create_ok (Points.seq_pure (g := fun _ => h.fresh)
    (unwinding_points (Points.seq (P := Halfway h S) (X.imp ?_) (Points.call_seq (begin_ok vd2) (Y.imp ?_))) fun k t _ y => halfway_drop W y))⟩
  · intro k t l e; exact ⟨fun _ => e, fun q => by omega⟩
  · intro k t l e; exact ⟨fun q => by omega, fun _ => new_damaged (s := ⟨[], sd.vals.length, h.fresh + 1⟩) W2 (Nat.le_refl _) e.1 e.2⟩

/-- `push_back` in a loop within the capacity. -/
theorem pushAll_room : ∀ (ws : List T) (h : Mem T) (s : VS T) (src : Src T) (g : Mem T), World h (S.put c s) → Gives g src ws → g.Sub (h.lay s.blk [] 0 []) →
    s.vals.length + ws.length ≤ s.cap → ∃ h', Points (pushAll c ws.length src) h ws.length () h' fun k t =>
      ∃ h1 vs, World h1 (S.put c ⟨vs, s.cap, s.blk⟩) ∧ Broken t c ⟨vs, s.cap, s.blk⟩ ∧ Only h1 t c s.blk
  | [], h, s, src, g, W, hg, hs, l => ⟨h, Points.pure_⟩
  | w :: ws, h, s, src, g, W, hg, hs, l => by
    have v := W.vec c s (put_same ..)
    simp only [List.length_cons] at l
    obtain ⟨⟨a, q1, q2⟩, hg2⟩ := hg
    have sub0 : (h.lay s.blk [] 0 []).Sub h := by
      have := sub_prefix (h := h) (b := s.blk) [] s.vals 0 []
      rwa [List.nil_append, lay_self h _ _ _ _ v.slot] at this
    have X := pushBack_breaks v (q2 h (hs.trans sub0)) (by omega)
    have k1 := vec_change v (s.vals ++ [w]) (by simp; omega)
    have W1 := W.chg (put_same ..) k1
    rw [put_put] at W1
    obtain ⟨h', Y⟩ := pushAll_room ws _ ⟨s.vals ++ [w], s.cap, s.blk⟩ src.succ g W1 hg2 (by simp only [Heap.vec, set_lay, lay_lay]; exact sub_set _ _ hs) (by simp; omega)
    refine ⟨h', ?_⟩
    refine Points.cast (show 1 + ws.length = (w :: ws).length by simp; omega) ?_
    refine Points.call_seq (q1 h) (Points.seq (X.imp ?_) Y)
    intro k t _ y; exact ⟨h, s.vals, W, y.1, y.2⟩

theorem ctorRange_ends (W : World h S) {x : Src T} (g1 : Gives h x ws) : Ends (ctorRange ws.length x) h (Unmade h S) := by
  have W1 := W.made
  have v1 := W1.vec h.fresh _ (put_same ..)
  have X := reserve_moves (n := ws.length) W1.base v1 (Nat.zero_le _)
  have k1 := moved_change (n := ws.length) W1.base v1 [] (Nat.zero_le _)
  have W2 := W1.chg (put_same ..) k1
  rw [put_put] at W2
  simp only [List.length_nil, Nat.add_zero] at X k1 W2
  have sl := k1.vec.slot
  obtain ⟨h', Y⟩ := pushAll_room ws _ _ x h W2 g1 (by
      simp only at sl ⊢
      rw [lay_self _ _ _ _ _ sl]
      exact (sub_made W).trans (sub_of_change_empty W1.base v1 k1)) (by simp)
  refine ⟨_, _, _, Points.call_seq create_ok (Points.seq_pure (g := fun _ => h.fresh) (unwinding_points (Points.seq (P := Halfway h S) (X.imp ?_) (Y.imp ?_)) fun k t _ y => halfway_drop W y))⟩
  · intro k t l e
    have : k = 0 := by omega
    subst this; exact ⟨fun _ => e, fun q => by omega⟩
  · rintro k t l ⟨h1, vs, w1, w2, w3⟩
    exact ⟨fun q => by omega, fun _ => new_damaged (s := ⟨vs, ws.length, h.made.fresh⟩) w1 (Nat.le_refl _) w2 w3⟩

end Verif.Exc.XVec
