import Verif.Algorithm.Presents
import Verif.Algorithm.Nodes
import Verif.Vec.Props
import Verif.Vec.FProps
/-!
# `ttl::vector` and `ttl::fixed_vector` present their contents to the algorithms

Their iterators are pointers (`T *`): vector.hpp:26-27, fixed_vector.hpp:26-27. They are random access iterators.
-/
set_option linter.unusedVariables false
set_option linter.unusedSimpArgs false
namespace Verif.Gen
open Verif Verif.Vec
variable {ρ T : Type}

/-- `T *` into a block of storage: `*p`, `++p`, `*p = v`, `--p`. -/
def slotIter : WIter (Heap ρ T) Ptr T where
  deref := read
  next p := pure (p + 1)
  assign := write
  prev := dec

/-- `T *` as a random access iterator: `p + n`, `q - p`. -/
def slotRandom : RIter (Heap ρ T) Ptr T where
  toIter := slotIter.toIter
  plus p n := p + n
  diff q p := (q.off : Int) - (p.off : Int)

/-- Objects in consecutive slots of a block are a window. -/
theorem slot_window {h : Heap ρ T} {b n cap : Nat} (hs : 0 < n → h.size b = some cap) (hn : n ≤ cap) :
    BiWindow slotIter (fun i => (⟨b, i⟩ : Ptr)) n (fun xs => h.lay b xs 0 []) := by
  have at' : ∀ xs : List T, ∀ i x, xs[i]? = some x → (h.lay b xs 0 []).slot b i = some x := by
    intro xs i x e; rw [lay_slot_same, lay_nil]; exact e
  refine ⟨⟨?_, ?_, ?_, ?_⟩, ?_⟩
  · intro i j _ _ e; exact (Ptr.mk.inj e).2
  · intro xs hl i x e
    have hi : i < xs.length := (List.getElem?_eq_some_iff.1 e).1
    exact read_eq (n := cap) (hs (by omega)) (by show i < cap; omega) (at' xs i x e)
  · intro xs hl i hi v
    show write _ v _ = _
    have e : xs[i]? = some (xs[i]'(by omega)) := by simp [hl, hi]
    rw [write_eq (n := cap) (hs (by omega)) (by show i < cap; omega) (at' xs i _ e)]
    have : upd (lay xs 0 []) i (some v) = lay (xs.set i v) 0 [] := by
      simp only [lay_nil]
      funext k
      simp only [upd, List.getElem?_set]
      split
      · rename_i q; subst q; simp [hl, hi]
      · rename_i q; simp [Ne.symm q]
    simp only [lay_slot_same, this]
    simp [Heap.lay]
  · intro xs hl i hi; rfl
  · intro xs hl i hi; exact dec_eq b i

/-- As random access iterators. -/
theorem slot_random {h : Heap ρ T} {b cap : Nat} {xs : List T} (hs : 0 < xs.length → h.size b = some cap) (hn : xs.length ≤ cap)
    (hl : h.slot b = lay xs 0 []) : RAt slotRandom h (fun i => (⟨b, i⟩ : Ptr)) xs := by
  have W := (slot_window hs hn).toWindow.at (xs := xs) rfl
  rw [lay_self h b xs 0 [] hl] at W
  refine { toAt := W, plus := ?_, diff := ?_ }
  · intro i k _; rfl
  · intro i j h1 h2; simp only [slotRandom]; omega

/-! ## ttl::vector -/
section V
variable {dv : T} {S : Vec.State T} {h : Vec.Mem T} {c d : Nat} {s t : VS T} {vs ws : List T} {cap cap' : Nat} {p q : Ptr}

theorem vec_window (v : IsVec h c s) : BiWindow slotIter (fun i => (⟨s.blk, i⟩ : Ptr)) s.vals.length (fun xs => h.lay s.blk xs 0 []) :=
  slot_window (cap := s.cap) (fun q => v.size (by have := v.le; omega)) v.le

theorem vec_values (R : Vec.Reach dv S h) (hc : S c = some s) {ys : List T} (hy : ys.length = s.vals.length) :
    Vec.Reach dv (S.put c (s.become ys)) (h.lay s.blk ys 0 []) := by
  have v0 := R.world.vec c s hc
  have W := vec_window v0
  refine all_values (P := fun ys => Vec.Reach dv (S.put c (s.become ys)) (h.lay s.blk ys 0 [])) (n := s.vals.length) ?_ (xs := s.vals) rfl hy ?_
  · intro xs hx R' i hi v
    have v' := R'.world.vec c _ (put_same S c (s.become xs))
    have ha : at_ c i (h.lay s.blk xs 0 []) = .ok (⟨s.blk, i⟩, h.lay s.blk xs 0 []) := at_ok v' i
    have hw : write ⟨s.blk, i⟩ v (h.lay s.blk xs 0 []) = .ok ((), h.lay s.blk (xs.set i v) 0 []) := W.assign xs hx i hi v
    have := Vec.Reach.step (r := .none) (.store c i (.ext v)) R' ⟨put_exists .., by rw [vals_some (put_same ..)]; show i < xs.length; omega, trivial⟩ (h' := h.lay s.blk (xs.set i v) 0 []) (by
      simp only [Vec.exec, CArg.expr, Vec.store, Arg.get, Prog.bind_app, Prog.pure_app, Res.bind_ok, ha, hw])
    simpa only [Vec.spec, CArg.val, vals_some (put_same ..), get_some (put_same ..), put_put, VS.become_become, VS.become] using this
  · have e : s.become s.vals = s := rfl
    rw [e, put_self hc, lay_self _ _ _ _ _ v0.slot]; exact R

/-- After values were assigned through the iterators of the vector `c`: a memory of a client program again, `c` has the elements `ys`, the same
capacity and the same storage, and the other vectors are as before. -/
structure VecOk (dv : T) (S : Vec.State T) (h : Vec.Mem T) (c cap : Nat) (p : Ptr) (ys : List T) (h' : Vec.Mem T) : Prop where
  reach : Vec.Reach dv (S.put c ⟨ys, cap, p.blk⟩) h'
  shows' : VecProps.Shows h' c ys cap p
  kept : VecProps.OthersKept S h h' [c]

theorem vec_ok (R : Vec.Reach dv S h) (hc : S c = some s) {ys : List T} (hy : ys.length = s.vals.length) :
    VecOk dv S h c s.cap ⟨s.blk, 0⟩ ys (h.lay s.blk ys 0 []) := by
  have R' := vec_values R hc hy
  exact ⟨R', VecProps.isVec_shows (R'.world.vec c _ (put_same ..)), VecProps.kept_of R R'.world (fun d hd _ => put_other _ (by simpa using hd) _)⟩

/-- `begin()` and `end()` of a vector, in every memory a client program can have, are bidirectional iterators presenting its values. -/
theorem vec_presents (R : Vec.Reach dv S h) (hc : S.Exists c) (o : VecProps.Shows h c vs cap p) :
    begin_ c h = .ok (p, h) ∧ end_ c h = .ok (p + vs.length, h) ∧ BiPresents slotIter (fun i => p + i) vs h (VecOk dv S h c cap p) := by
  obtain ⟨q, hp⟩ := VecProps.shown R hc o
  have v := R.world.vec c _ q
  obtain ⟨b, f⟩ := p
  simp only at hp; subst hp
  refine ⟨begin_ok v, by simpa using end_ok v, fun xs => h.lay b xs 0 [], by simpa using vec_window v, lay_self _ _ _ _ _ v.slot, ?_⟩
  intro ys hy
  exact vec_ok R q hy

/-- They are random access iterators. -/
theorem vec_random (R : Vec.Reach dv S h) (hc : S.Exists c) (o : VecProps.Shows h c vs cap p) : RAt slotRandom h (fun i => p + i) vs := by
  obtain ⟨q, hp⟩ := VecProps.shown R hc o
  have v := R.world.vec c _ q
  obtain ⟨b, f⟩ := p
  simp only at hp; subst hp
  have := slot_random (h := h) (b := b) (cap := cap) (xs := vs) (fun q => v.size (by have := v.le; simp at this; simp; omega)) v.le v.slot
  simpa using this

/-- After values were assigned through iterators of two vectors. -/
structure VecOk2 (dv : T) (S : Vec.State T) (h : Vec.Mem T) (c cap : Nat) (p : Ptr) (d cap' : Nat) (q : Ptr) (xs ys : List T) (h' : Vec.Mem T) : Prop where
  reach : Vec.Reach dv ((S.put c ⟨xs, cap, p.blk⟩).put d ⟨ys, cap', q.blk⟩) h'
  shows1 : VecProps.Shows h' c xs cap p
  shows2 : VecProps.Shows h' d ys cap' q
  kept : VecProps.OthersKept S h h' [c, d]

theorem lay_comm (h : Heap ρ T) {b b' : Nat} (hb : b ≠ b') (xs ys : List T) : (h.lay b xs 0 []).lay b' ys 0 [] = (h.lay b' ys 0 []).lay b xs 0 [] := by
  simp only [Heap.lay, upd_comm _ _ _ hb]

/-- Two different vectors have no common objects. -/
theorem vec_presents2 (R : Vec.Reach dv S h) (hc : S.Exists c) (hd : S.Exists d) (hcd : c ≠ d) (o : VecProps.Shows h c vs cap p) (o' : VecProps.Shows h d ws cap' q) :
    BiPresents2 slotIter (fun i => p + i) vs slotIter (fun i => q + i) ws h (VecOk2 dv S h c cap p d cap' q) := by
  obtain ⟨e, hp⟩ := VecProps.shown R hc o
  obtain ⟨e', hq⟩ := VecProps.shown R hd o'
  obtain ⟨b, f⟩ := p
  obtain ⟨b', f'⟩ := q
  simp only at hp hq; subst hp; subst hq
  have v := R.world.vec c _ e
  have v' := R.world.vec d _ e'
  by_cases hb : b = b'
  · -- both without storage
    have z := R.world.disj c d _ _ e e' hcd hb
    have zc : vs.length = 0 := Nat.le_zero.1 (Nat.le_trans v.le (Nat.le_of_eq (v.zero z)))
    have zd : ws.length = 0 := Nat.le_zero.1 (Nat.le_trans v'.le (Nat.le_of_eq (v'.zero (hb.symm.trans z))))
    refine ⟨fun _ _ => h, ?_, ?_, rfl, ?_⟩
    · intro zs hz
      rw [zc]
      exact ⟨⟨fun i j h1 h2 _ => by omega, fun xs hx i x q => by rw [List.eq_nil_of_length_eq_zero hx] at q; simp at q, fun _ _ i hi => by omega, fun _ _ i hi => by omega⟩, fun _ _ i hi => by omega⟩
    · intro zs hz
      rw [zd]
      exact ⟨⟨fun i j h1 h2 _ => by omega, fun xs hx i x q => by rw [List.eq_nil_of_length_eq_zero hx] at q; simp at q, fun _ _ i hi => by omega, fun _ _ i hi => by omega⟩, fun _ _ i hi => by omega⟩
    · intro xs ys hx hy
      have a1 := List.eq_nil_of_length_eq_zero (hx.trans zc)
      have a2 := List.eq_nil_of_length_eq_zero (hy.trans zd)
      have a3 := List.eq_nil_of_length_eq_zero zc
      have a4 := List.eq_nil_of_length_eq_zero zd
      subst a1; subst a2; subst a3; subst a4
      refine ⟨?_, o, o', fun _ _ _ _ _ _ k => k⟩
      show Vec.Reach dv ((S.put c ⟨[], cap, b⟩).put d ⟨[], cap', b'⟩) h
      rw [put_self e, put_self e']; exact R
  · refine ⟨fun xs ys => (h.lay b xs 0 []).lay b' ys 0 [], ?_, ?_, ?_, ?_⟩
    · intro zs hz
      simp only [lay_comm h hb]
      have R1 := vec_values R e' hz
      have := vec_window (R1.world.vec c _ ((put_other _ hcd _).trans e))
      simpa using this
    · intro zs hz
      have R1 := vec_values R e hz
      have := vec_window (R1.world.vec d _ ((put_other _ hcd.symm _).trans e'))
      simpa using this
    · show (h.lay b vs 0 []).lay b' ws 0 [] = h
      rw [lay_self _ _ _ _ _ v.slot, lay_self _ _ _ _ _ v'.slot]
    · intro xs ys hx hy
      have k1 := vec_ok R e hx
      have k2 := vec_ok k1.reach (c := d) ((put_other _ hcd.symm _).trans e') hy
      refine ⟨k2.reach, k2.kept c (by simpa using hcd) (put_exists ..) _ _ _ k1.shows', k2.shows', ?_⟩
      intro x hx' he us cu pu hg
      simp only [List.mem_cons, List.not_mem_nil, or_false, not_or] at hx'
      exact k2.kept x (by simpa using hx'.2) (VecProps.put_exists_other _ _ he) _ _ _ (k1.kept x (by simpa using hx'.1) he _ _ _ hg)
end V

/-! ## ttl::fixed_vector -/
section F
open Verif.Vec.FV (IsFV)
variable {N : Nat} {dv : T} {S : FV.State T} {h : FV.Mem T} {c d : Nat} {vs ws : List T}

theorem fv_window (v : IsFV N h c vs) : BiWindow slotIter (fun i => (⟨c, i⟩ : Ptr)) vs.length (fun xs => h.lay c xs 0 []) :=
  slot_window (cap := N) (fun q => v.size) v.le

theorem fv_values (R : FV.Reach N dv S h) (hc : S c = some vs) {ys : List T} (hy : ys.length = vs.length) :
    FV.Reach N dv (S.put c ys) (h.lay c ys 0 []) := by
  have v0 := R.world.fv c _ hc
  have W := fv_window v0
  refine all_values (P := fun ys => FV.Reach N dv (S.put c ys) (h.lay c ys 0 [])) (n := vs.length) ?_ (xs := vs) rfl hy ?_
  · intro xs hx R' i hi v
    have v' := R'.world.fv c _ (FV.put_same S c xs)
    have ha : FV.at_ c i (h.lay c xs 0 []) = .ok (⟨c, i⟩, h.lay c xs 0 []) := FV.at_ok v' i
    have hw : write ⟨c, i⟩ v (h.lay c xs 0 []) = .ok ((), h.lay c (xs.set i v) 0 []) := W.assign xs hx i hi v
    have := FV.Reach.step (r := .none) (.store c i (.ext v)) R' ⟨FV.put_exists .., by rw [FV.vals_some (FV.put_same ..)]; show i < xs.length; omega, trivial⟩ (h' := h.lay c (xs.set i v) 0 []) (by
      simp only [FV.exec, FV.CArg.expr, FV.store, Arg.get, Prog.bind_app, Prog.pure_app, Res.bind_ok, ha, hw])
    simpa only [FV.spec, FV.CArg.val, FV.vals_some (FV.put_same ..), FV.put_put] using this
  · rw [FV.put_self hc, lay_self _ _ _ _ _ v0.slot]; exact R

/-- After values were assigned through the iterators of the fixed vector `c`. -/
structure FvOk (N : Nat) (dv : T) (S : FV.State T) (h : FV.Mem T) (c : Nat) (ys : List T) (h' : FV.Mem T) : Prop where
  reach : FV.Reach N dv (S.put c ys) h'
  observes : FV.FVProps.Observes N h' c ys
  kept : FV.FVProps.OthersKept N S h h' [c]

theorem fv_ok (R : FV.Reach N dv S h) (hc : S c = some vs) {ys : List T} (hy : ys.length = vs.length) : FvOk N dv S h c ys (h.lay c ys 0 []) := by
  have R' := fv_values R hc hy
  exact ⟨R', FV.FVProps.isFV_observes (R'.world.fv c _ (FV.put_same ..)), FV.FVProps.kept_of R R'.world (fun d hd _ => FV.put_other _ (by simpa using hd) _)⟩

/-- `begin()` and `end()` of a fixed vector, in every memory a client program can have, are bidirectional iterators presenting its values. -/
theorem fv_presents (R : FV.Reach N dv S h) (hc : S.Exists c) (o : FV.FVProps.Observes N h c vs) :
    FV.begin_ c h = .ok (⟨c, 0⟩, h) ∧ FV.end_ c h = .ok (⟨c, vs.length⟩, h) ∧ BiPresents slotIter (fun i => (⟨c, i⟩ : Ptr)) vs h (FvOk N dv S h c) := by
  obtain ⟨q, v⟩ := FV.FVProps.observed R hc o
  refine ⟨FV.begin_ok v, FV.end_ok v, fun xs => h.lay c xs 0 [], fv_window v, lay_self _ _ _ _ _ v.slot, ?_⟩
  intro ys hy
  exact fv_ok R q hy

/-- They are random access iterators. -/
theorem fv_random (R : FV.Reach N dv S h) (hc : S.Exists c) (o : FV.FVProps.Observes N h c vs) : RAt slotRandom h (fun i => (⟨c, i⟩ : Ptr)) vs := by
  obtain ⟨q, v⟩ := FV.FVProps.observed R hc o
  exact slot_random (cap := N) (fun _ => v.size) v.le v.slot

/-- After values were assigned through iterators of two fixed vectors. -/
structure FvOk2 (N : Nat) (dv : T) (S : FV.State T) (h : FV.Mem T) (c d : Nat) (xs ys : List T) (h' : FV.Mem T) : Prop where
  reach : FV.Reach N dv ((S.put c xs).put d ys) h'
  observes1 : FV.FVProps.Observes N h' c xs
  observes2 : FV.FVProps.Observes N h' d ys
  kept : FV.FVProps.OthersKept N S h h' [c, d]

/-- Two different fixed vectors have no common objects. -/
theorem fv_presents2 (R : FV.Reach N dv S h) (hc : S.Exists c) (hd : S.Exists d) (hcd : c ≠ d) (o : FV.FVProps.Observes N h c vs) (o' : FV.FVProps.Observes N h d ws) :
    BiPresents2 slotIter (fun i => (⟨c, i⟩ : Ptr)) vs slotIter (fun i => (⟨d, i⟩ : Ptr)) ws h (FvOk2 N dv S h c d) := by
  obtain ⟨e, v⟩ := FV.FVProps.observed R hc o
  obtain ⟨e', v'⟩ := FV.FVProps.observed R hd o'
  refine ⟨fun xs ys => (h.lay c xs 0 []).lay d ys 0 [], ?_, ?_, ?_, ?_⟩
  · intro zs hz
    simp only [lay_comm h hcd]
    have R1 := fv_values R e' hz
    exact fv_window (R1.world.fv c _ ((FV.put_other _ hcd _).trans e))
  · intro zs hz
    have R1 := fv_values R e hz
    exact fv_window (R1.world.fv d _ ((FV.put_other _ hcd.symm _).trans e'))
  · show (h.lay c vs 0 []).lay d ws 0 [] = h
    rw [lay_self _ _ _ _ _ v.slot, lay_self _ _ _ _ _ v'.slot]
  · intro xs ys hx hy
    have k1 := fv_ok R e hx
    have k2 := fv_ok k1.reach (c := d) ((FV.put_other _ hcd.symm _).trans e') hy
    refine ⟨k2.reach, k2.kept c (by simpa using hcd) (FV.put_exists ..) _ k1.observes, k2.observes, ?_⟩
    intro x hx' he us hg
    simp only [List.mem_cons, List.not_mem_nil, or_false, not_or] at hx'
    exact k2.kept x (by simpa using hx'.2) (FV.FVProps.put_exists_other _ _ he) _ (k1.kept x (by simpa using hx'.1) he _ hg)
end F
end Verif.Gen
