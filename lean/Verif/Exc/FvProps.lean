import Verif.Exc.FvHist
import Verif.Vec.FProps
/-!
# C136, C137: `ttl::fixed_vector` and exceptions

`exec N dv q k h` is the call `q` in memory `h` when the operation number `k` (from 0) of those that may throw in it throws (see `Verif.Exc.FvModel`). `XReach N
dv S L h`: a client program with any exceptions in its past. `Observes` and `OthersKept` are those of `Verif.Vec.FProps`.
-/
set_option linter.unusedVariables false
set_option linter.unusedSimpArgs false
namespace Verif.Exc.XFv
open Verif Verif.Vec.FV Verif.Exc Verif.Vec.FV.FVProps
open Verif.Vec hiding CArg CSrc Call Legal Mem Reach Ret State World appendOne arg_ok assign assignN assignRange at_ at_ok back back_ok begin_ begin_ok capacity capacity_ok clear clear_ok copies_val copyAll copyAll_ok copyOf create ctor ctorN ctorRange destroy empty empty_ok empty₀ end_ end_ok equal erase eraseRange eraseRange_end exec front insert insertN insertRange insertValues notEqual popBack popBack_ok pushAll pushBack put_exists put_other put_put put_same put_self resize resizeX retOf shrinkTo shrinkTo_ok size size_ok spec src_ok step_ok store sub_made swap swap_ok toList vals_some world_start
variable {T : Type} {N n c d x i j a k : Nat} {xs ys zs vs ws us s : List T} {h h' t : Mem T} {dv : T} {S : State T} {L : Nat → Prop}

/-- What the client can do with `c`: not iterate over it, not clear it, not destroy it. -/
structure Unusable (h : Mem T) (c : Nat) : Prop where
  iterate : toList c h = .ub .lifetime
  clear : Vec.FV.clear c h = .ub .lifetime
  destroy : Vec.FV.destroy c h = .ub .lifetime

theorem walk_hole (hs : h.size c = some N) : ∀ (m i : Nat), (∃ j, i ≤ j ∧ j < i + m ∧ h.slot c j = none) → i + m ≤ N → walk ⟨c, i⟩ ⟨c, i + m⟩ h = .ub .lifetime
  | 0, i, ⟨j, a, b, _⟩, _ => by omega
  | m + 1, i, ⟨j, a, b, e⟩, le => by
    have hne : ¬ (Ptr.mk c i = ⟨c, i + (m + 1)⟩) := by simp
    rw [walk]
    simp only [Prog.ite_app, if_neg hne, Prog.bind_app]
    cases q : h.slot c i with
    | none => rw [read_raw (p := ⟨c, i⟩) hs (show i < N by omega) q]; rfl
    | some v =>
      have ne : i ≠ j := by rintro rfl; rw [e] at q; cases q
      have := walk_hole hs m (i + 1) ⟨j, by omega, by omega, e⟩ (by omega)
      rw [read_eq (p := ⟨c, i⟩) hs (show i < N by omega) q]
      simp only [Res.bind_ok, ptr_add]
      rw [show i + (m + 1) = i + 1 + m by omega, this]; rfl

theorem clear_hole : ∀ (m : Nat) (h : Mem T), h.obj c = some ⟨c, m⟩ → h.size c = some N → m ≤ N → (∃ j, j < m ∧ h.slot c j = none) → Vec.FV.clear c h = .ub .lifetime
  | 0, h, _, _, _, ⟨j, a, _⟩ => by omega
  | m + 1, h, ho, hs, le, ⟨j, a, e⟩ => by
    have ne : ((Ptr.mk c (m + 1) == elements c) = false) := by simp [elements]
    rw [Vec.FV.clear]
    simp only [Prog.bind_app, Vec.FV.empty, getObj_eq ho, Res.bind_ok, Prog.pure_app, ne, Prog.ite_app, Bool.false_eq_true, if_false, dec_eq, setObj_eq ho]
    cases q : h.slot c m with
    | none => rw [destruct_raw (h := h.setObj c _) (p := ⟨c, m⟩) hs (show m < N by omega) q]; rfl
    | some v =>
      have ne : m ≠ j := by rintro rfl; rw [e] at q; cases q
      rw [destruct_eq (h := h.setObj c _) (p := ⟨c, m⟩) hs (show m < N by omega) q]
      simp only [Res.bind_ok]
      refine clear_hole m _ (set_obj_same ..) hs (by omega) ⟨j, by omega, ?_⟩
      show upd h.slot c _ c j = none
      rw [upd_same, upd_other _ _ (Ne.symm ne)]; exact e

theorem Hole.unusable (q : Hole N h c) : Unusable h c := by
  obtain ⟨n, j, ho, hs, le, hj, e⟩ := q
  have cl := clear_hole n h ho hs le ⟨j, hj, e⟩
  refine ⟨?_, cl, ?_⟩
  · have := walk_hole hs n 0 ⟨j, Nat.zero_le _, by omega, e⟩ (by omega)
    rw [Nat.zero_add] at this
    simp only [toList, begin_, end_, Prog.bind_app, getObj_eq ho, Res.bind_ok, Prog.pure_app, elements, this]
  · simp only [Vec.FV.destroy, Prog.bind_app, cl]; rfl

/-! ## Every call -/

theorem xreach_observes (X : XReach N dv S L h) (hc : S.Exists c) : Observes N h c (S.vals c) := by
  obtain ⟨s, hs⟩ := hc
  rw [vals_some hs]; exact isFV_observes (X.world.fv c s hs)

theorem got (X : XReach N dv S L h) (hc : S.Exists c) (o : Observes N h c vs) : S c = some vs := by
  obtain ⟨s, hs⟩ := hc
  rw [hs, (isFV_observes (X.world.fv c s hs)).inj o]

theorem kept {S' : State T} {L' : Nat → Prop} {M : List Nat} (X : XReach N dv S L h) (W' : WorldL N L' h' S') (e : ∀ d, d ∉ M → S.Exists d → S' d = S d) :
    OthersKept N S h h' M := by
  intro d hd hx vs o
  have := got X hx o
  exact isFV_observes (W'.fv d vs ((e d hd hx).trans this))

/-- Every call returns if the countdown is at least `points`, and an exception leaves it otherwise. -/
theorem outcome (X : XReach N dv S L h) (q : Call T) (lg : Legal S q) (k : Nat) :
    (points N S q ≤ k ∧ ∃ h', exec N dv q k h = .ok (.ret (retOf h.fresh q) (k - points N S q), h') ∧ Vec.FV.exec N dv q h = .ok (retOf h.fresh q, h') ∧
      XReach N dv (spec N dv S h.fresh q) L h') ∨
    (k < points N S q ∧ ∃ t, exec N dv q k h = .ok (.thrown, t) ∧ Left N dv L S h t q k ∧
      XReach N dv (leftS S k q) (fun x => L x ∨ holed S k q x ∨ unborn h.fresh q x) t) := by
  obtain ⟨h1, e1, W, P⟩ := call_points (dv := dv) X.world q lg
  rcases P.cases k with ⟨l, g⟩ | ⟨l, t, g, lf⟩
  · exact .inl ⟨l, h1, g, e1, .returned q X lg g⟩
  · exact .inr ⟨l, t, g, lf, .thrown q X lg g⟩

theorem left_of (X : XReach N dv S L h) {q : Call T} (lg : Legal S q) (e : exec N dv q k h = .ok (.thrown, t)) :
    k < points N S q ∧ Left N dv L S h t q k ∧ XReach N dv (leftS S k q) (fun x => L x ∨ holed S k q x ∨ unborn h.fresh q x) t := by
  rcases outcome X q lg k with ⟨_, h', e', _⟩ | ⟨l, t', e', lf, Y⟩
  · rw [e] at e'; cases e'
  · rw [e] at e'; cases e'; exact ⟨l, lf, Y⟩

/-- **C136.** In a program with any exceptions in its past, every fixed vector that no exception has left with a hole holds the sequence that the calls made
(`spec`, or `leftS` for the calls an exception has left). Partial: a call that copies elements into its fixed vector leaves it with a hole if a copy throws
(`throw_ruins`). -/
theorem history_partial (X : XReach N dv S L h) (hc : S.Exists c) : Observes N h c (S.vals c) ∧ (S.vals c).length ≤ N := by
  obtain ⟨s, hs⟩ := hc
  rw [vals_some hs]; exact ⟨isFV_observes (X.world.fv c s hs), (X.world.fv c s hs).le⟩

/-- **C136.** An exception changes no fixed vector but the one the call is for (for `swap` the two), and the program can go on with the others. -/
theorem throw_others_kept_partial (X : XReach N dv S L h) {q : Call T} (lg : Legal S q) (e : exec N dv q k h = .ok (.thrown, t)) :
    OthersKept N S h t (touched q) ∧ ∃ S' L', XReach N dv S' L' t ∧ (∀ d, d ∉ touched q → S.Exists d → S'.Exists d) ∧ ∀ x, L x → L' x := by
  obtain ⟨l, lf, Y⟩ := left_of X lg e
  have same : ∀ d, d ∉ touched q → S.Exists d → leftS S k q d = S d := by
    intro d hd hx
    have dl : ∀ c, d ≠ c → S.del c d = S d := by intro c q; simp [FV.State.del, q]
    cases q <;> simp only [touched, List.mem_cons, List.not_mem_nil, or_false, not_false_eq_true, not_or] at hd
    case resize c n =>
      simp only [leftS]; split
      · rfl
      · exact dl c hd
    case swap c d' =>
      have d2 : ∀ (S' : State T), S'.del c d = S' d := by intro S'; simp [FV.State.del, hd.1]
      simp only [leftS]
      split
      · rfl
      · split
        · exact (put_other _ hd.2 _).trans (put_other _ hd.1 _)
        · split
          · exact (put_other _ hd.2 _).trans (put_other _ hd.1 _)
          · exact (d2 _).trans (put_other _ hd.2 _)
    all_goals first | rfl | exact dl _ hd
  refine ⟨kept X lf.world same, _, _, Y, ?_, fun x => .inl⟩
  rintro d hd ⟨s, hs⟩
  exact ⟨s, (same d hd ⟨s, hs⟩).trans hs⟩

/-- The calls that copy elements into `c`. -/
inductive Copies (c : Nat) : Call T → Prop where
  | assign (d : Nat) : Copies c (.assign c d)
  | assignN (n : Nat) (a : CArg T) : Copies c (.assignN c n a)
  | assignRange (r : CSrc T) : Copies c (.assignRange c r)
  | resizeX (n : Nat) (a : CArg T) : Copies c (.resizeX c n a)
  | insert (i : Nat) (a : CArg T) : Copies c (.insert c i a)
  | insertN (i n : Nat) (a : CArg T) : Copies c (.insertN c i n a)
  | insertRange (i : Nat) (r : CSrc T) : Copies c (.insertRange c i r)
  | pushBack (a : CArg T) : Copies c (.pushBack c a)
  | erase (i : Nat) : Copies c (.erase c i)
  | eraseRange (i j : Nat) : Copies c (.eraseRange c i j)

/-- **C136 fails.** If an exception leaves `push_back`, `insert`, `assign`, `operator=`, `resize(n, x)` or `erase`, the fixed vector is unusable, even for its
destructor: `last_` counts a slot without an object. -/
theorem throw_ruins (X : XReach N dv S L h) {q : Call T} (cp : Copies c q) (lg : Legal S q) (e : exec N dv q k h = .ok (.thrown, t)) : Unusable t c := by
  obtain ⟨l, lf, Y⟩ := left_of X lg e
  refine (lf.hole c ?_).unusable
  cases cp <;> exact rfl

/-- **C136 fails.** `push_back` on a fixed vector with room throws when the copy does, and then the fixed vector is unusable. -/
theorem push_back_throw_ruins (X : XReach N dv S L h) (hc : S.Exists c) (o : Observes N h c vs) (room : vs.length < N) (v : T) :
    ∃ t, exec N dv (.pushBack c (.ext v)) 0 h = .ok (.thrown, t) ∧ Unusable t c := by
  have lg : Legal S (.pushBack c (.ext v)) := ⟨hc, trivial⟩
  rcases outcome X _ lg 0 with ⟨l, _⟩ | ⟨l, t, e, _⟩
  · simp only [points, vals_some (got X hc o)] at l; omega
  · exact ⟨t, e, throw_ruins X (.pushBack _) lg e⟩

/-- **C136 fails.** `erase` of an element that is not the last one: any of the copies of the elements behind it may throw, and then the fixed vector is unusable. -/
theorem erase_throw_ruins (X : XReach N dv S L h) (hc : S.Exists c) (o : Observes N h c vs) (hi : i < vs.length) (hk : k < vs.length - (i + 1)) :
    ∃ t, exec N dv (.erase c i) k h = .ok (.thrown, t) ∧ Unusable t c := by
  have g := vals_some (got X hc o)
  have lg : Legal S (.erase c i) := ⟨hc, by rw [g]; exact hi⟩
  rcases outcome X _ lg k with ⟨l, _⟩ | ⟨l, t, e, _⟩
  · simp only [points, g] at l; omega
  · exact ⟨t, e, throw_ruins X (.erase _) lg e⟩

/-- **C136 fails.** Assignment of a non-empty other fixed vector: the copy of any of its elements may throw, and then the fixed vector assigned to is unusable. -/
theorem assign_throw_ruins (X : XReach N dv S L h) (hc : S.Exists c) (hd : S.Exists d) (ne : c ≠ d) (od : Observes N h d ws) (hk : k < ws.length) :
    ∃ t, exec N dv (.assign c d) k h = .ok (.thrown, t) ∧ Unusable t c ∧ Observes N t d ws := by
  have g := vals_some (got X hd od)
  have lg : Legal S (.assign c d) := ⟨hc, hd⟩
  rcases outcome X _ lg k with ⟨l, _⟩ | ⟨l, t, e, _⟩
  · simp only [points, g, if_neg (Ne.symm ne)] at l; omega
  · exact ⟨t, e, throw_ruins X (.assign _) lg e, (throw_others_kept_partial X lg e).1 d (by simpa [touched] using Ne.symm ne) hd ws od⟩

/-- **C136 fails.** `insert` of a value before the end: each of the elements that are moved and then the new one may throw. -/
theorem insert_throw_ruins (X : XReach N dv S L h) (hc : S.Exists c) (o : Observes N h c vs) (hi : i < vs.length) (room : vs.length < N) (v : T) (hk : k ≤ vs.length - i) :
    ∃ t, exec N dv (.insert c i (.ext v)) k h = .ok (.thrown, t) ∧ Unusable t c := by
  have g := vals_some (got X hc o)
  have lg : Legal S (.insert c i (.ext v)) := ⟨hc, by rw [g]; omega, trivial, .inl trivial⟩
  rcases outcome X _ lg k with ⟨l, _⟩ | ⟨l, t, e, _⟩
  · simp only [points, g, insPts, if_pos hi] at l
    rw [if_neg (by decide)] at l; omega
  · exact ⟨t, e, throw_ruins X (.insert _ _) lg e⟩

/-- **C136.** `resize(n)`: if the constructor of the new elements' value throws nothing has happened; if a copy of it throws the fixed vector is unusable. -/
theorem resize_throw (X : XReach N dv S L h) (hc : S.Exists c) (o : Observes N h c vs) (hn : vs.length ≤ n) :
    (∃ t, exec N dv (.resize c n) 0 h = .ok (.thrown, t) ∧ t = h) ∧
      ∀ k, exec N dv (.resize c n) (k + 1) h = .ok (.thrown, t) → Unusable t c := by
  have g := got X hc o
  constructor
  · have P := seq_ret (f := fun _ => Ret.none) (resize_points (X.world.fv c vs g) dv n)
    rcases P.cases 0 with ⟨l, _⟩ | ⟨l, t, e, r⟩
    · rw [if_neg (by omega)] at l; omega
    · refine ⟨t, e, ?_⟩
      rcases r with ⟨_, r⟩ | ⟨r, _⟩
      · exact r
      · omega
  · intro k e
    obtain ⟨l, lf, Y⟩ := left_of X (q := .resize c n) hc e
    exact (lf.hole c ⟨rfl, by omega⟩).unusable

/-- **C136.** An element assignment `v[i] = x` that throws changes nothing. -/
theorem store_throw_partial (X : XReach N dv S L h) (hc : S.Exists c) (o : Observes N h c vs) (hi : i < vs.length) (v : T) :
    exec N dv (.store c i (.ext v)) 0 h = .ok (.thrown, h) := by
  have g := X.world.fv c vs (got X hc o)
  have P := seq_ret (f := fun _ => Ret.none) (store_points g hi (x := .ext v) (w := v) rfl)
  rcases P.cases 0 with ⟨l, _⟩ | ⟨l, t, e, r⟩
  · omega
  · subst r
    exact e

/-- **C136.** `create`, `clear`, `pop_back`, the destructor, a shrinking `resize`, `push_back` on a full fixed vector and `erase` of the last elements copy
nothing: no exception can appear. -/
theorem nothing_copied_no_throw (X : XReach N dv S L h) {q : Call T} (lg : Legal S q) (hq : points N S q = 0) (k : Nat) :
    ∃ h', exec N dv q k h = .ok (.ret (retOf h.fresh q) k, h') ∧ Vec.FV.exec N dv q h = .ok (retOf h.fresh q, h') := by
  rcases outcome X q lg k with ⟨_, h', e, e', _⟩ | ⟨l, _⟩
  · rw [hq, Nat.sub_zero] at e; exact ⟨h', e, e'⟩
  · omega

/-! ## `swap` -/

/-- **C136.** `swap` of two fixed vectors of the same size: if the operation `k` throws both are usable. `d` has got the first `(k + 1) / 3` elements of `c`, and
`c` the first `k / 3` elements of `d`. -/
theorem swap_equal_throw_partial (X : XReach N dv S L h) (hc : S.Exists c) (hd : S.Exists d) (ne : c ≠ d) (oc : Observes N h c vs) (od : Observes N h d ws)
    (e : vs.length = ws.length) (hk : k < 3 * vs.length) :
    ∃ t S', exec N dv (.swap c d) k h = .ok (.thrown, t) ∧ XReach N dv S' L t ∧ S'.Exists c ∧ S'.Exists d ∧
      Observes N t c (ws.take (k / 3) ++ vs.drop (k / 3)) ∧ Observes N t d (vs.take ((k + 1) / 3) ++ ws.drop ((k + 1) / 3)) ∧ OthersKept N S h t [c, d] := by
  have gc := vals_some (got X hc oc)
  have gd := vals_some (got X hd od)
  have lg : Legal S (.swap c d) := ⟨hc, hd, by rw [gc, gd]; omega⟩
  rcases outcome X _ lg k with ⟨l, _⟩ | ⟨l, t, e', lf, Y⟩
  · simp only [points, gc, gd] at l; omega
  · have e1 : leftS S k (.swap c d) = (S.put c (mixed vs ws (k / 3))).put d (mixed ws vs ((k + 1) / 3)) := by
      simp only [leftS, if_neg ne, gc, gd, if_pos e]
    have e2 : (fun x => L x ∨ holed S k (.swap c d) x ∨ unborn (T := T) h.fresh (.swap c d) x) = L := by
      funext x; simp [holed, unborn, gc, gd, e]
    rw [e1, e2] at Y
    have qc : ((S.put c (mixed vs ws (k / 3))).put d (mixed ws vs ((k + 1) / 3))) c = some (mixed vs ws (k / 3)) := by rw [put_other _ ne, put_same]
    exact ⟨t, _, e', Y, ⟨_, qc⟩, ⟨_, put_same ..⟩, isFV_observes (Y.world.fv _ _ qc), isFV_observes (Y.world.fv _ _ (put_same ..)),
      (throw_others_kept_partial X lg e').1⟩

/-- **C136 fails.** In `swap` an element gets lost when the last of the three copies of an exchange throws: both fixed vectors have the same element `j`. -/
theorem swap_throw_loses_element (X : XReach N dv S L h) (hc : S.Exists c) (hd : S.Exists d) (ne : c ≠ d) (oc : Observes N h c vs) (od : Observes N h d ws)
    (e : vs.length = ws.length) (hj : j < vs.length) :
    ∃ t vs' ws', exec N dv (.swap c d) (3 * j + 2) h = .ok (.thrown, t) ∧ Observes N t c vs' ∧ Observes N t d ws' ∧ vs'[j]? = vs[j]? ∧ ws'[j]? = vs[j]? := by
  obtain ⟨t, S', e', _, _, _, o1, o2, _⟩ := swap_equal_throw_partial (k := 3 * j + 2) X hc hd ne oc od e (by omega)
  rw [show (3 * j + 2) / 3 = j by omega] at o1
  rw [show (3 * j + 2 + 1) / 3 = j + 1 by omega] at o2
  refine ⟨t, _, _, e', o1, o2, ?_, ?_⟩
  · rw [List.getElem?_append_right (by simp; omega), List.length_take, Nat.min_eq_left (by omega), Nat.sub_self, List.getElem?_drop, Nat.add_zero]
  · rw [List.getElem?_append_left (by simp; omega), List.getElem?_take_of_lt (by omega)]

/-- **C136.** `swap` with a longer fixed vector: while the elements of the common length are exchanged both are usable. -/
theorem swap_shorter_throw_partial (X : XReach N dv S L h) (hc : S.Exists c) (hd : S.Exists d) (oc : Observes N h c vs) (od : Observes N h d ws)
    (lt : vs.length < ws.length) (hk : k < 3 * vs.length) :
    ∃ t S', exec N dv (.swap c d) k h = .ok (.thrown, t) ∧ XReach N dv S' L t ∧ S'.Exists c ∧ S'.Exists d ∧
      Observes N t c ((ws.take vs.length).take ((k + 1) / 3) ++ vs.drop ((k + 1) / 3)) ∧ Observes N t d (vs.take (k / 3) ++ ws.drop (k / 3)) ∧ OthersKept N S h t [c, d] := by
  have gc := vals_some (got X hc oc)
  have gd := vals_some (got X hd od)
  have ne : c ≠ d := by rintro rfl; rw [oc.inj od] at lt; omega
  have nel : ¬ vs.length = ws.length := by omega
  have lg : Legal S (.swap c d) := ⟨hc, hd, by rw [gc, gd]; omega⟩
  rcases outcome X _ lg k with ⟨l, _⟩ | ⟨l, t, e', lf, Y⟩
  · simp only [points, gc, gd] at l; omega
  · have e1 : leftS S k (.swap c d) = (S.put c (mixed vs (ws.take vs.length) ((k + 1) / 3))).put d (mixed ws vs (k / 3)) := by
      simp only [leftS, if_neg ne, gc, gd, if_neg nel, if_pos hk]
    have e2 : (fun x => L x ∨ holed S k (.swap c d) x ∨ unborn (T := T) h.fresh (.swap c d) x) = L := by
      funext x
      have : ¬ 3 * vs.length ≤ k := by omega
      simp [holed, unborn, gc, gd, this]
    rw [e1, e2] at Y
    have qc : ((S.put c (mixed vs (ws.take vs.length) ((k + 1) / 3))).put d (mixed ws vs (k / 3))) c = some (mixed vs (ws.take vs.length) ((k + 1) / 3)) := by
      rw [put_other _ ne, put_same]
    exact ⟨t, _, e', Y, ⟨_, qc⟩, ⟨_, put_same ..⟩, isFV_observes (Y.world.fv _ _ qc), isFV_observes (Y.world.fv _ _ (put_same ..)),
      (throw_others_kept_partial X lg e').1⟩

/-- **C136 fails.** When `swap` copies the other elements of the longer fixed vector and a copy throws, the shorter one is unusable; the longer one has its first
elements exchanged and keeps the others. -/
theorem swap_shorter_throw_ruins (X : XReach N dv S L h) (hc : S.Exists c) (hd : S.Exists d) (oc : Observes N h c vs) (od : Observes N h d ws)
    (h1 : 3 * vs.length ≤ k) (hk : k < 3 * vs.length + (ws.length - vs.length)) :
    ∃ t, exec N dv (.swap c d) k h = .ok (.thrown, t) ∧ Unusable t c ∧ Observes N t d (vs ++ ws.drop vs.length) ∧ OthersKept N S h t [c, d] := by
  have gc := vals_some (got X hc oc)
  have gd := vals_some (got X hd od)
  have ne : c ≠ d := by rintro rfl; rw [oc.inj od] at hk h1; omega
  have nel : ¬ vs.length = ws.length := by omega
  have lg : Legal S (.swap c d) := ⟨hc, hd, by rw [gc, gd]; omega⟩
  rcases outcome X _ lg k with ⟨l, _⟩ | ⟨l, t, e', lf, Y⟩
  · simp only [points, gc, gd] at l; omega
  · have e1 : leftS S k (.swap c d) = (S.put d (vs ++ ws.drop vs.length)).del c := by
      simp only [leftS, if_neg ne, gc, gd, if_neg nel, if_neg (show ¬ k < 3 * vs.length by omega)]
    rw [e1] at Y
    refine ⟨t, e', (lf.hole c ⟨rfl, ne, by rw [gc, gd]; exact nel, by rw [gc]; exact h1⟩).unusable, isFV_observes (Y.world.fv _ _ ?_), (throw_others_kept_partial X lg e').1⟩
    have : ((S.put d (vs ++ ws.drop vs.length)).del c) d = (S.put d (vs ++ ws.drop vs.length)) d := by simp [FV.State.del, Ne.symm ne]
    rw [this, put_same]

/-! ## Constructors -/

/-- **C137.** An exception that leaves a constructor of a fixed vector leaves all fixed vectors as they were, and the program can go on with all of them. Partial:
`ctor_throw_leaks`. -/
theorem ctor_throw_partial (X : XReach N dv S L h) {q : Call T} (hq : ctorVals dv S q = some vs) (lg : Legal S q) (e : exec N dv q k h = .ok (.thrown, t)) :
    OthersKept N S h t [] ∧ ∃ L', XReach N dv S L' t := by
  obtain ⟨l, lf, Y⟩ := left_of X lg e
  have es : leftS S k q = S := by cases q <;> first | rfl | cases hq
  have et : touched q = [] := by cases q <;> first | rfl | cases hq
  have := throw_others_kept_partial X lg e
  rw [et] at this
  rw [es] at Y
  exact ⟨this.1, _, Y⟩

/-- **C137 fails.** The elements a constructor has made before a copy throws are never destroyed: the object does not come into existence, so that its destructor
does not run, and nothing else destroys them. -/
theorem ctor_throw_leaks (X : XReach N dv S L h) {q : Call T} (hq : ctorVals dv S q = some vs) (lg : Legal S q) (hk : k < points N S q) :
    ∃ t, exec N dv q k h = .ok (.thrown, t) ∧ t.obj h.fresh = none ∧ ∀ i v, (vs.take k)[i]? = some v → t.slot h.fresh i = some v := by
  rcases outcome X q lg k with ⟨l, _⟩ | ⟨l, t, e', lf, Y⟩
  · omega
  · obtain ⟨o, _, s⟩ := lf.leak vs hq
    exact ⟨t, e', o, fun i v e => by rw [s]; exact e⟩

/-- **C137.** In particular the copy constructor: if the copy of element `k` throws, the `k` copies made before stay. -/
theorem copy_ctor_throw_leaks (X : XReach N dv S L h) (hd : S.Exists d) (od : Observes N h d ws) (hk : k < ws.length) :
    ∃ t f, exec N dv (.copyOf d) k h = .ok (.thrown, t) ∧ ¬ S.Exists f ∧ t.obj f = none ∧ (∀ i, t.slot f i = (ws.take k)[i]?) ∧ Observes N t d ws := by
  have g := vals_some (got X hd od)
  rcases outcome X (.copyOf d) hd k with ⟨l, _⟩ | ⟨l, t, e', lf, Y⟩
  · simp only [points, g] at l; omega
  · obtain ⟨o, _, s⟩ := lf.leak (S.vals d) rfl
    rw [g] at s
    refine ⟨t, h.fresh, e', ?_, o, s, ?_⟩
    · rintro ⟨u, hu⟩; have := X.world.lt hu; omega
    · exact (throw_others_kept_partial X (q := .copyOf d) hd e').1 d (by simp [touched]) hd ws od

/-- If no exception has left a constructor or ruined a fixed vector, there are no elements but those in the fixed vectors. -/
theorem nothing_else_partial (X : XReach N dv S L h) (none : ∀ x, ¬ L x) (b i : Nat) (v : T) (e : h.slot b i = some v) :
    ∃ vs, S.Exists b ∧ Observes N h b vs ∧ vs[i]? = some v := by
  cases q : S b with
  | none => have := (X.world.only b q (none b)).2.2 i; rw [e] at this; cases this
  | some vs =>
    have w := X.world.fv b vs q
    refine ⟨vs, ⟨vs, q⟩, isFV_observes w, ?_⟩
    rw [w.slot, lay_nil] at e; exact e

/-- The hypotheses are met: two fixed vectors of capacity 6; a `push_back`, an `insert`, an `erase` that ruin theirs, after which the other one is as before and
can be used; a `swap` that loses an element; and a copy constructor that loses two elements. -/
example : ∃ (c d : Nat) (S S1 : State Nat) (L1 : Nat → Prop) (h t1 t2 t3 t4 t5 t6 : Mem Nat) (f : Nat), Observes 6 h c [5, 6, 7, 8] ∧ Observes 6 h d [1, 2] ∧
    exec 6 0 (.pushBack c (.ext 9)) 0 h = .ok (.thrown, t1) ∧ Unusable t1 c ∧ XReach 6 0 S1 L1 t1 ∧ Observes 6 t1 d [1, 2] ∧
    exec 6 0 (.insert c 1 (.ext 9)) 2 h = .ok (.thrown, t2) ∧ Unusable t2 c ∧
    exec 6 0 (.erase d 0) 0 t1 = .ok (.thrown, t3) ∧ Unusable t3 d ∧
    exec 6 0 (.swap d c) 5 h = .ok (.thrown, t4) ∧ Observes 6 t4 d [5, 6] ∧ Observes 6 t4 c [1, 6, 7, 8] ∧
    exec 6 0 (.swap d c) 7 h = .ok (.thrown, t5) ∧ Unusable t5 d ∧ Observes 6 t5 c [1, 2, 7, 8] ∧
    exec 6 0 (.copyOf c) 2 h = .ok (.thrown, t6) ∧ t6.obj f = none ∧ t6.slot f 0 = some 5 ∧ t6.slot f 1 = some 6 ∧ t6.slot f 2 = none := by
  obtain ⟨c, d, S, h, R, hc, hd, ne, oc, od⟩ := demo
  have X := reach_xreach R
  obtain ⟨t1, e1, u1⟩ := push_back_throw_ruins X hc oc (by decide) 9
  obtain ⟨k1, S1, L1, X1, y1, _⟩ := throw_others_kept_partial X (q := .pushBack c (.ext 9)) ⟨hc, trivial⟩ e1
  have nd : d ∉ touched (Call.pushBack c (.ext 9)) := by simpa [touched] using Ne.symm ne
  have od1 := k1 d nd hd _ od
  obtain ⟨t2, e2, u2⟩ := insert_throw_ruins (i := 1) (k := 2) X hc oc (by decide) (by decide) 9 (by decide)
  obtain ⟨t3, e3, u3⟩ := erase_throw_ruins (i := 0) (k := 0) X1 (y1 d nd hd) od1 (by decide) (by decide)
  obtain ⟨t4, _, e4, _, _, _, o4, p4, _⟩ := swap_shorter_throw_partial (k := 5) X hd hc od oc (by decide) (by decide)
  obtain ⟨t5, e5, u5, o5, _⟩ := swap_shorter_throw_ruins (k := 7) X hd hc od oc (by decide) (by decide)
  obtain ⟨t6, f, e6, _, f1, f2, _⟩ := copy_ctor_throw_leaks (k := 2) X hc oc (by decide)
  exact ⟨c, d, S, S1, L1, h, t1, t2, t3, t4, t5, t6, f, oc, od, e1, u1, X1, od1, e2, u2, e3, u3, e4, o4, p4, e5, u5, o5, e6, f1, f2 0, f2 1, f2 2⟩

end Verif.Exc.XFv
