import Verif.Vec.FMachModel
import Verif.Vec.FProps
/-!
# How many elements may be asked of a `ttl::fixed_vector` (C143)

`Mach.exec M N` runs a call with machine numbers (`Verif.Vec.FMachModel`), `exec N` runs it with natural numbers. `size_type(-1)` is `M.W - 1`.
-/
set_option linter.unusedVariables false
set_option linter.unusedSimpArgs false
set_option linter.unusedSectionVars false
namespace Verif.Vec.FV.FMProps
open Verif Verif.Vec Verif.Vec.FV Verif.Vec.FV.FVProps
variable {T : Type} {M : Machine} {h h' : Mem T} {S : State T} {N c d n i j k a : Nat} {s t vs ws us : List T} {dv : T}

theorem less_eq (a : M.addr c + i * M.sz < M.W) (b : M.addr c + j * M.sz < M.W) : Mach.less M ⟨c, i⟩ ⟨c, j⟩ h = Vec.less ⟨c, i⟩ ⟨c, j⟩ h := by
  simp only [Mach.less, Vec.less, if_true, Nat.mod_eq_of_lt a, Nat.mod_eq_of_lt b]
  have e : (M.addr c + i * M.sz < M.addr c + j * M.sz) = (i < j) := by
    rw [Nat.add_lt_add_iff_left, Nat.mul_lt_mul_right M.one]
  simp only [e]

theorem lower (a : M.addr c + j * M.sz < M.W) (q : i ≤ j) : M.addr c + i * M.sz < M.W := by
  have := Nat.mul_le_mul_right M.sz q; omega

theorem dropTail_eq (e : M.addr c + N * M.sz < M.W) : ∀ (o i p : Nat) (h : Mem T), M.addr c + o * M.sz < M.W →
    Mach.dropTail M ⟨c, N⟩ ⟨c, p⟩ ⟨c, i⟩ ⟨c, o⟩ h = dropTail ⟨c, N⟩ ⟨c, p⟩ ⟨c, i⟩ ⟨c, o⟩ h := by
  intro o
  induction o with
  | zero =>
    intro i p h q
    rw [Mach.dropTail, dropTail]
    simp only [Prog.bind_app, less_eq e q, Vec.less_eq, Res.bind_ok, Nat.not_lt_zero, decide_false, Bool.false_eq_true, if_false]
  | succ o ih =>
    intro i p h q
    rw [Mach.dropTail, dropTail]
    simp only [Prog.bind_app, less_eq e q, Vec.less_eq, Res.bind_ok]
    by_cases lt : N < o + 1
    · simp only [lt, decide_true, if_true]
      by_cases ip : (Ptr.mk c i) = ⟨c, p⟩
      · simp only [if_pos ip]
      · simp only [if_neg ip, Prog.bind_app]
        cases i with
        | zero => rfl
        | succ i =>
          simp only [dec_eq, Res.bind_ok]
          cases destruct ⟨c, i⟩ h with
          | ok x => simp only [Res.bind_ok, dec_eq]; exact ih i p x.2 (lower q (Nat.le_succ o))
          | ub f => rfl
          | diverge => rfl
    · simp only [lt, decide_false, Bool.false_eq_true, if_false]

/-- An insertion computes with addresses what it computes with natural numbers, if the address it forms exists. -/
theorem insertValues_eq (pl : Mach.Placed M N) (v : IsFV N h c vs) (fit : i < vs.length → M.addr c + (vs.length + n) * M.sz < M.W) (s : Src T) :
    Mach.insertValues M N c ⟨c, i⟩ n s h = insertValues N c ⟨c, i⟩ n s h := by
  have le := v.le
  by_cases lt : i < vs.length
  · have e := dropTail_eq (pl c) (vs.length + n) vs.length i h (fit lt)
    have D := dropTail_ok (N := N) (n := n) (c := c) (xs := vs.take i) (vs.drop i) h v.size (by rw [List.take_append_drop]; exact v.slot) (by simp; omega)
    have h1 : (vs.take i).length = i := by simp; omega
    have h2 : (vs.drop i).length = vs.length - i := by simp
    rw [h1, h2, show i + (vs.length - i) = vs.length by omega] at D
    have L : ∀ (k : Nat) (g : Mem T), k ≤ vs.length → Mach.less M ⟨c, N⟩ ⟨c, k + n⟩ g = Vec.less ⟨c, N⟩ ⟨c, k + n⟩ g := fun k g q => less_eq (pl c) (lower (fit lt) (by omega))
    simp only [Mach.insertValues, insertValues, Prog.bind_app, begin_ok v, Res.bind_ok, diff_eq _ (Nat.zero_le _), Nat.sub_zero, end_ok v, Prog.ite_app, getObj_eq v.obj, elements, eoe, ptr_add, Nat.zero_add, Vec.less_eq c i, lt, decide_true, if_true]
    by_cases n0 : n ≠ 0
    · simp only [if_pos n0, e, D, Res.bind_ok]
      rw [L _ _ (by omega)]
    · simp only [if_neg n0]
  · simp only [Mach.insertValues, insertValues, Prog.bind_app, begin_ok v, Res.bind_ok, diff_eq _ (Nat.zero_le _), Nat.sub_zero, end_ok v, Prog.ite_app, Vec.less_eq, lt, decide_false, Bool.false_eq_true, if_false]

theorem resize_eq (pl : Mach.Placed M N) (v : IsFV N h c vs) : Mach.resize M N dv c n h = resize N dv c n h := by
  simp only [Mach.resize, resize, insertN, Prog.bind_app, size_ok v, Res.bind_ok, Prog.ite_app, end_ok v]
  rw [insertValues_eq pl v (fun q => absurd q (Nat.lt_irrefl _))]

theorem resizeX_eq (pl : Mach.Placed M N) (v : IsFV N h c vs) {x : Arg T} : Mach.resizeX M N dv c n x h = resizeX N dv c n x h := by
  simp only [Mach.resizeX, resizeX, insertN, Prog.bind_app, size_ok v, Res.bind_ok, Prog.ite_app, end_ok v, resize_eq pl v]
  rw [insertValues_eq pl v (fun q => absurd q (Nat.lt_irrefl _))]

theorem exec_eq (pl : Mach.Placed M N) (W : World N h S) (k : Call T) (lg : Legal S k) (ft : Mach.Fits M S k) : Mach.exec M N dv k h = exec N dv k h := by
  cases k with
  | resize c n =>
    obtain ⟨s, hc⟩ := lg
    simp only [Mach.exec, exec, Prog.bind_app, resize_eq pl (W.fv c s hc)]
  | resizeX c n a =>
    obtain ⟨⟨s, hc⟩, va⟩ := lg
    obtain ⟨x, w, e0, _⟩ := arg_ok W va
    simp only [Mach.exec, exec, Prog.bind_app, e0, Res.bind_ok, resizeX_eq pl (W.fv c s hc)]
  | insert c i a =>
    obtain ⟨⟨s, hc⟩, hi, va, hs⟩ := lg
    have v := W.fv c s hc
    obtain ⟨x, w, e0, _⟩ := arg_ok W va
    have ft := ft c 1
    simp only [Call.Middle, vals_some hc, true_and] at ft
    simp only [Mach.exec, exec, insert, insertN, Prog.bind_app, e0, Res.bind_ok, begin_ok v, ptr_add, Nat.zero_add, insertValues_eq pl v ft]
  | insertN c i n a =>
    obtain ⟨⟨s, hc⟩, hi, va, hs⟩ := lg
    have v := W.fv c s hc
    obtain ⟨x, w, e0, _⟩ := arg_ok W va
    have ft := ft c n
    simp only [Call.Middle, vals_some hc, true_and] at ft
    simp only [Mach.exec, exec, insertN, Prog.bind_app, e0, Res.bind_ok, begin_ok v, ptr_add, Nat.zero_add, insertValues_eq pl v ft]
  | insertRange c i r =>
    obtain ⟨⟨s, hc⟩, hi, vr, hs⟩ := lg
    have v := W.fv c s hc
    obtain ⟨x, e0, _⟩ := src_ok W vr
    have ft := ft c (r.vals' S).length
    simp only [Call.Middle, vals_some hc, true_and] at ft
    simp only [Mach.exec, exec, insertRange, Prog.bind_app, e0, Res.bind_ok, begin_ok v, ptr_add, Nat.zero_add, insertValues_eq pl v ft]
  | _ => rfl

/-- What the machine does while every `last_ + n` is an address is what the model with natural numbers does: every theorem about `Reach` holds on the
machine. -/
theorem machine_reach (pl : Mach.Placed M N) (R : Mach.Reaches M N dv S h) : Reach N dv S h := by
  induction R with
  | start => exact .start
  | step k R lg ft e ih => exact .step k ih lg (by rw [← exec_eq pl ih.world k lg ft]; exact e)

/-- **C143.** A call that computes no address beyond the last one does on the machine what it does with natural numbers: it returns, and the elements
are what `spec` says, cut after `N`. -/
theorem count_fits_partial (pl : Mach.Placed M N) (R : Mach.Reaches M N dv S h) (k : Call T) (lg : Legal S k) (ft : Mach.Fits M S k) :
    ∃ h', Mach.exec M N dv k h = .ok (retOf h.fresh k, h') ∧ exec N dv k h = .ok (retOf h.fresh k, h') ∧ Mach.Reaches M N dv (spec N dv S h.fresh k) h' := by
  have W := (machine_reach pl R).world
  obtain ⟨h', e, _⟩ := call_returns (machine_reach pl R) k lg
  have e' : Mach.exec M N dv k h = .ok (retOf h.fresh k, h') := by rw [exec_eq pl W k lg ft]; exact e
  exact ⟨h', e', e, .step k R lg ft e'⟩

theorem mone_vector (pl : Mach.Placed M N) (R : Mach.Reaches M N dv S h) (k : Call T) (lg : Legal S k) (ft : Mach.Fits M S k) (hk : spec N dv S h.fresh k = S.put c t) :
    ∃ h', Mach.exec M N dv k h = .ok (retOf h.fresh k, h') ∧ Mach.Reaches M N dv (S.put c t) h' ∧ Observes N h' c t ∧ OthersKept N S h h' [c] := by
  obtain ⟨h', e, e2, R'⟩ := count_fits_partial pl R k lg ft
  obtain ⟨h2, e3, _, o, kept⟩ := one_vector (machine_reach pl R) k lg hk
  rw [e2] at e3; cases e3
  rw [hk] at R'
  exact ⟨h', e, R', o, kept⟩

/-- **C143.** However many elements are asked for (up to and including `size_type(-1)`), at the end of the fixed vector as many are appended as there is room for. -/
theorem insert_end_any (pl : Mach.Placed M N) (R : Mach.Reaches M N dv S h) (hc : S.Exists c) (o : Observes N h c vs) (n : Nat) (v : T) :
    ∃ h' S', Mach.exec M N dv (.insertN c vs.length n (.ext v)) h = .ok (.it ⟨c, vs.length⟩, h') ∧ Mach.Reaches M N dv S' h' ∧ S'.Exists c ∧
      Observes N h' c (vs ++ List.replicate (min n (N - vs.length)) v) ∧ OthersKept N S h h' [c] := by
  obtain ⟨hs, w⟩ := observed (machine_reach pl R) hc o
  have le := w.le
  obtain ⟨h', q, R', o', k⟩ := mone_vector (c := c) pl R (.insertN c vs.length n (.ext v)) ⟨hc, by rw [vals_some hs]; exact Nat.le_refl _, trivial, .inl trivial⟩
    (by rintro c' n' ⟨rfl, _, q⟩; rw [vals_some hs] at q; omega) rfl
  refine ⟨h', _, q, R', put_exists .., ?_, k⟩
  have e : ((S.vals c).take vs.length ++ S.copies n (.ext v) ++ (S.vals c).drop vs.length).take N = vs ++ List.replicate (min n (N - vs.length)) v := by
    show ((S.vals c).take vs.length ++ List.replicate n v ++ (S.vals c).drop vs.length).take N = _
    rw [vals_some hs, List.take_length, List.drop_length, List.append_nil, List.take_append, List.take_of_length_le le, List.take_replicate, Nat.min_comm]
  rw [e] at o'; exact o'

/-- **C143.** So do `resize`, `resize(n, v)`, `assign(n, v)` and the constructors, for any count. -/
theorem resize_any (pl : Mach.Placed M N) (R : Mach.Reaches M N dv S h) (hc : S.Exists c) (o : Observes N h c vs) (n : Nat) (v : T) :
    (∃ h' S', Mach.exec M N dv (.resize c n) h = .ok (.none, h') ∧ Mach.Reaches M N dv S' h' ∧ S'.Exists c ∧
      Observes N h' c (vs.take n ++ List.replicate (min n N - vs.length) dv) ∧ OthersKept N S h h' [c]) ∧
    ∃ h' S', Mach.exec M N dv (.resizeX c n (.ext v)) h = .ok (.none, h') ∧ Mach.Reaches M N dv S' h' ∧ S'.Exists c ∧
      Observes N h' c (vs.take n ++ List.replicate (min n N - vs.length) v) ∧ OthersKept N S h h' [c] := by
  obtain ⟨hs, w⟩ := observed (machine_reach pl R) hc o
  have le := w.le
  have e : ∀ x : T, (if n < vs.length then vs.take n else (vs ++ List.replicate (n - vs.length) x).take N) = vs.take n ++ List.replicate (min n N - vs.length) x := by
    intro x
    split
    · rw [show min n N - vs.length = 0 by omega]; simp
    · rw [List.take_of_length_le (l := vs) (by omega), List.take_append, List.take_of_length_le le, List.take_replicate]
      congr 2; omega
  constructor
  · obtain ⟨h', q, R', o', k⟩ := mone_vector (c := c) (t := vs.take n ++ List.replicate (min n N - vs.length) dv) pl R (.resize c n) hc (by rintro c' n' q; cases q)
      (by simp only [spec, vals_some hs, e])
    exact ⟨h', _, q, R', put_exists .., o', k⟩
  · obtain ⟨h', q, R', o', k⟩ := mone_vector (c := c) (t := vs.take n ++ List.replicate (min n N - vs.length) v) pl R (.resizeX c n (.ext v)) ⟨hc, trivial⟩ (by rintro c' n' q; cases q)
      (by simp only [spec, vals_some hs, show S.copies (n - vs.length) (.ext v) = List.replicate (n - vs.length) v from rfl, e])
    exact ⟨h', _, q, R', put_exists .., o', k⟩

theorem assign_any (pl : Mach.Placed M N) (R : Mach.Reaches M N dv S h) (hc : S.Exists c) (n : Nat) (v : T) :
    ∃ h' S', Mach.exec M N dv (.assignN c n (.ext v)) h = .ok (.none, h') ∧ Mach.Reaches M N dv S' h' ∧ S'.Exists c ∧
      Observes N h' c (List.replicate (min n N) v) ∧ OthersKept N S h h' [c] := by
  obtain ⟨h', q, R', o', k⟩ := mone_vector (c := c) (t := List.replicate (min n N) v) pl R (.assignN c n (.ext v)) ⟨hc, trivial, trivial⟩ (by rintro c' n' q; cases q)
    (by simp only [spec, show S.copies n (.ext v) = List.replicate n v from rfl, List.take_replicate, Nat.min_comm])
  exact ⟨h', _, q, R', put_exists .., o', k⟩

theorem construct_any (pl : Mach.Placed M N) (R : Mach.Reaches M N dv S h) (n : Nat) (v : T) :
    ∃ c h' S', Mach.exec M N dv (.ctorN n (.ext v)) h = .ok (.obj c, h') ∧ ¬ S.Exists c ∧ Mach.Reaches M N dv S' h' ∧ S'.Exists c ∧
      Observes N h' c (List.replicate (min n N) v) ∧ OthersKept N S h h' [] := by
  obtain ⟨h', q, R', o', k⟩ := mone_vector (c := h.fresh) (t := List.replicate (min n N) v) pl R (.ctorN n (.ext v)) trivial (by rintro c' n' q; cases q)
    (by simp only [spec, show S.copies n (.ext v) = List.replicate n v from rfl, List.take_replicate, Nat.min_comm])
  have nf : ¬ S.Exists h.fresh := by rintro ⟨s, e⟩; rw [((machine_reach pl R).world.fresh _ (Nat.le_refl _)).1] at e; cases e
  exact ⟨h.fresh, h', _, q, nf, R', put_exists .., o', fun d _ hx vs ob => k d (by simp; rintro rfl; exact nf hx) hx vs ob⟩

/-- **C143.** Before an element, any number of elements for which `last_ + n` is an address: the elements that fit are kept. -/
theorem insert_middle_partial (pl : Mach.Placed M N) (R : Mach.Reaches M N dv S h) (hc : S.Exists c) (o : Observes N h c vs) (hi : i ≤ vs.length) (n : Nat) (v : T)
    (fit : M.addr c + (vs.length + n) * M.sz < M.W) :
    ∃ h' S', Mach.exec M N dv (.insertN c i n (.ext v)) h = .ok (.it ⟨c, i⟩, h') ∧ Mach.Reaches M N dv S' h' ∧ S'.Exists c ∧
      Observes N h' c ((vs.take i ++ (List.replicate n v ++ vs.drop i)).take N) ∧ OthersKept N S h h' [c] := by
  obtain ⟨hs, w⟩ := observed (machine_reach pl R) hc o
  obtain ⟨h', q, R', o', k⟩ := mone_vector (c := c) (t := (vs.take i ++ (List.replicate n v ++ vs.drop i)).take N) pl R (.insertN c i n (.ext v))
    ⟨hc, by rw [vals_some hs]; exact hi, trivial, .inl trivial⟩
    (by rintro c' n' ⟨rfl, rfl, _⟩; rw [vals_some hs]; exact fit) (by simp only [spec, vals_some hs, List.append_assoc]; rfl)
  exact ⟨h', _, q, R', put_exists .., o', k⟩

/-- **C143, the case the code gets wrong.** More elements than there is room for are inserted before an element, and the address of `last_ + n` wraps around to one
that is not behind the storage: the test for the end of the storage fails, and elements are made outside of it. -/
theorem insert_wraps_ub (pl : Mach.Placed M N) (R : Mach.Reaches M N dv S h) (hc : S.Exists c) (o : Observes N h c vs) (hi : i < vs.length) {n : Nat} (v : T)
    (many : N < vs.length + n) (wraps : (M.addr c + (vs.length + n) * M.sz) % M.W ≤ M.addr c + N * M.sz) :
    Mach.exec M N dv (.insertN c i n (.ext v)) h = .ub .access := by
  obtain ⟨hs, w⟩ := observed (machine_reach pl R) hc o
  have le := w.le
  have p := pl c
  have L : ∀ g : Mem T, Mach.less M ⟨c, N⟩ ⟨c, vs.length + n⟩ g = .ok (false, g) := by
    intro g
    simp only [Mach.less, if_true, Nat.mod_eq_of_lt p]
    congr 2
    rw [decide_eq_false_iff_not]; omega
  have D : Mach.dropTail M ⟨c, N⟩ ⟨c, i⟩ ⟨c, vs.length⟩ ⟨c, vs.length + n⟩ h = .ok ((⟨c, vs.length⟩, ⟨c, vs.length + n⟩), h) := by
    rw [Mach.dropTail]
    simp only [Prog.bind_app, L, Res.bind_ok, Bool.false_eq_true, if_false, Prog.pure_app]
  have n0 : n ≠ 0 := by omega
  obtain ⟨l, el⟩ : ∃ l, vs.length = l + 1 := ⟨vs.length - 1, by omega⟩
  have hv : vs[l]? = some vs[l] := List.getElem?_eq_getElem (by omega)
  have hh := w.holds hv
  have ne : ¬ (Ptr.mk c vs.length = ⟨c, i⟩) := by simp; omega
  simp only [Mach.exec, CArg.expr, Prog.bind_app, Prog.pure_app, Res.bind_ok, begin_ok w, ptr_add, Nat.zero_add, Mach.insertValues, diff_eq _ (Nat.zero_le _), Nat.sub_zero, end_ok w,
    Prog.ite_app, if_pos n0, Vec.less_eq, hi, decide_true, if_true, getObj_eq w.obj, elements, eoe, D, L, Bool.false_eq_true, if_false, setObj_eq w.obj]
  rw [shiftUp]
  simp only [Prog.ite_app, if_neg ne, Prog.bind_app]
  rw [show vs.length + n = (l + n) + 1 by omega, el]
  simp only [dec_eq, Res.bind_ok]
  have h1 : Heap.Holds (h.setObj c ⟨c, l + n + 1⟩) c l vs[l] := hh
  have cn : construct ⟨c, l + n⟩ vs[l] (h.setObj c ⟨c, l + n + 1⟩) = .ub .access := by
    have : ¬ (l + n < N) := by omega
    simp [construct, inBlock, w.size, this]
  simp only [h1.read, Res.bind_ok, cn, Res.bind_ub]

/-- **C143.** In particular `insert(pos, size_type(-1), v)` before an element. -/
theorem insert_all_ones_ub (pl : Mach.Placed M N) (R : Mach.Reaches M N dv S h) (hc : S.Exists c) (o : Observes N h c vs) (hi : i < vs.length) (v : T) :
    Mach.exec M N dv (.insertN c i (M.W - 1) (.ext v)) h = .ub .access := by
  obtain ⟨hs, w⟩ := observed (machine_reach pl R) hc o
  have le := w.le
  have p := pl c
  have one := M.one
  have nz : N ≤ N * M.sz := Nat.le_mul_of_pos_right N one
  refine insert_wraps_ub pl R hc o hi v (by omega) ?_
  obtain ⟨l, el⟩ : ∃ l, vs.length = l + 1 := ⟨vs.length - 1, by omega⟩
  have pos := M.pos
  have e : M.addr c + (vs.length + (M.W - 1)) * M.sz = (M.addr c + l * M.sz) + M.W * M.sz := by
    rw [el, show l + 1 + (M.W - 1) = l + M.W by omega, Nat.add_mul, Nat.add_assoc]
  have lt : l * M.sz ≤ N * M.sz := Nat.mul_le_mul_right _ (by omega)
  rw [e, Nat.add_mul_mod_self_left, Nat.mod_eq_of_lt (by omega)]
  omega

/-- **C143.** And every count whose bytes a `size_type` can count but that reaches beyond the last address. -/
theorem insert_beyond_memory_ub (pl : Mach.Placed M N) (R : Mach.Reaches M N dv S h) (hc : S.Exists c) (o : Observes N h c vs) (hi : i < vs.length) {n : Nat} (v : T)
    (bytes : n * M.sz < M.W) (beyond : M.W ≤ M.addr c + (vs.length + n) * M.sz) :
    Mach.exec M N dv (.insertN c i n (.ext v)) h = .ub .access := by
  obtain ⟨hs, w⟩ := observed (machine_reach pl R) hc o
  have le := w.le
  have p := pl c
  have lt : vs.length * M.sz ≤ N * M.sz := Nat.mul_le_mul_right _ le
  refine insert_wraps_ub pl R hc o hi v ?_ ?_
  · apply Nat.lt_of_not_le
    intro q
    have := Nat.mul_le_mul_right M.sz q
    omega
  · rw [Nat.add_mul] at beyond ⊢
    rw [← Nat.sub_add_cancel beyond, Nat.add_mod_right, Nat.mod_eq_of_lt (by omega)]
    omega

/-! ## Histories -/

/-- The number of elements an operation inserts before an element. -/
def opMiddle : Op T → List T → Nat
  | .insert i _, vs => if i < vs.length then 1 else 0
  | .insertN i n _, vs => if i < vs.length then n else 0
  | .insertRange i ws, vs => if i < vs.length then ws.length else 0
  | _, _ => 0

/-- In every operation of the history on `c`, `last_ + n` is an address if it is computed. -/
def OpsFit (M : Machine) (N : Nat) (dv : T) (c : Nat) : List (Op T) → List T → Prop
  | [], _ => True
  | o :: os, vs => M.addr c + (vs.length + opMiddle o vs) * M.sz < M.W ∧ OpsFit M N dv c os (o.cut N dv vs)

/-- The history on the fixed vector `c`, on the machine. -/
def mrunOps (M : Machine) (N : Nat) (dv : T) (c : Nat) : List (Op T) → Prog (Mem T) Unit
  | [] => pure ()
  | o :: os => do let _ ← Mach.exec M N dv (o.call c); mrunOps M N dv c os

theorem op_fits (hc : S c = some s) (o : Op T) (f : M.addr c + (s.length + opMiddle o s) * M.sz < M.W) : Mach.Fits M S (o.call c) := by
  intro c' n q
  cases o <;> simp only [Op.call, Call.Middle] at q
  all_goals
    obtain ⟨rfl, rfl, lt⟩ := q
    rw [vals_some hc] at lt ⊢
    simp only [opMiddle, if_pos lt] at f
    exact f

theorem mhistory (pl : Mach.Placed M N) : ∀ (os : List (Op T)) {h : Mem T} {S : State T} {s : List T}, Mach.Reaches M N dv S h → S c = some s → OpsOk N dv os s → OpsFit M N dv c os s →
    ∃ h', mrunOps M N dv c os h = .ok ((), h') ∧ Mach.Reaches M N dv (S.put c (applyOps N dv os s)) h' ∧ OthersKept N S h h' [c]
  | [], h, S, s, R, hc, ok, ft => ⟨h, rfl, by simp only [applyOps, List.foldl_nil]; rw [put_self hc]; exact R, fun _ _ _ _ o => o⟩
  | o :: os, h, S, s, R, hc, ok, ft => by
    have e1 := spec_op (dv := dv) hc ((machine_reach pl R).world.fv c s hc).le h.fresh o ok.1
    obtain ⟨h1, q1, R1, _, k1⟩ := mone_vector pl R _ (op_legal hc o ok.1) (op_fits hc o ft.1) e1
    obtain ⟨h', q, R', k⟩ := mhistory pl os R1 (put_same S c _) ok.2 ft.2
    rw [put_put] at R'
    refine ⟨h', ?_, R', k1.trans k fun d _ hx => put_exists_other _ _ hx⟩
    simp only [mrunOps, Prog.bind_app, q1, Res.bind_ok, q]

/-- **C143.** Every history on the machine in which no insertion before an element asks for more than the address space behind the fixed vector holds
returns and leaves what the same history on a mathematical sequence, cut after `N` elements at every step, leaves. The counts of `resize`, `assign` and
insertions at the end are arbitrary. -/
theorem machine_fixed_history_partial (pl : Mach.Placed M N) (os : List (Op T)) (R : Mach.Reaches M N dv S h) (hc : S.Exists c) (ob : Observes N h c vs)
    (ok : OpsOk N dv os vs) (ft : OpsFit M N dv c os vs) :
    ∃ h' S', mrunOps M N dv c os h = .ok ((), h') ∧ Mach.Reaches M N dv S' h' ∧ S'.Exists c ∧ Observes N h' c (applyOps N dv os vs) ∧ OthersKept N S h h' [c] := by
  obtain ⟨hs, v⟩ := observed (machine_reach pl R) hc ob
  obtain ⟨h', q, R', k⟩ := mhistory pl os R hs ok ft
  exact ⟨h', _, q, R', put_exists _ _ _, isFV_observes ((machine_reach pl R').world.fv c _ (put_same ..)), k⟩

/-! ## A machine with 32 bits, elements of four bytes -/

/-- 2³² addresses, elements of four bytes, every fixed vector at the address 4096. -/
def m32 : Machine := ⟨4294967296, 4, fun b => if b = 0 then 0 else 4096, by decide, by decide, rfl⟩

theorem m32_placed : Mach.Placed m32 6 := by
  intro c; simp only [m32]; split <;> omega

theorem m32_demo : ∃ (S : State Nat) (h : Mem Nat), Mach.Reaches m32 6 0 S h ∧ S.Exists 1 ∧ Observes 6 h 1 [7, 7, 7] := by
  obtain ⟨c, h, S, e, _, R, x, o, _⟩ := construct_any m32_placed (Mach.Reaches.start (T := Nat) (dv := 0)) 3 7
  obtain ⟨h', e', _⟩ := count_fits_partial m32_placed (Mach.Reaches.start (T := Nat) (dv := 0)) (.ctorN 3 (.ext 7)) trivial (by rintro c n q; cases q)
  rw [e] at e'
  simp only [retOf, Res.ok.injEq, Prod.mk.injEq, Ret.obj.injEq] at e'
  have c1 : c = 1 := e'.1
  subst c1
  exact ⟨S, h, R, x, o⟩

example : ∃ (c : Nat) (h : Mem Nat), Observes 6 h c [7, 7, 7] ∧
    (∃ h', Mach.exec m32 6 0 (.insertN c 3 4294967295 (.ext 8)) h = .ok (.it ⟨c, 3⟩, h') ∧ Observes 6 h' c [7, 7, 7, 8, 8, 8]) ∧
    (∃ h', Mach.exec m32 6 0 (.resize c 4294967295) h = .ok (.none, h') ∧ Observes 6 h' c [7, 7, 7, 0, 0, 0]) ∧
    (∃ h', Mach.exec m32 6 0 (.insertN c 1 1000000 (.ext 8)) h = .ok (.it ⟨c, 1⟩, h') ∧ Observes 6 h' c [7, 8, 8, 8, 8, 8]) ∧
    Mach.exec m32 6 0 (.insertN c 1 4294967295 (.ext 8)) h = .ub .access ∧
    Mach.exec m32 6 0 (.insertN c 1 1073741823 (.ext 8)) h = .ub .access := by
  obtain ⟨S, h, R, hc, o⟩ := m32_demo
  refine ⟨1, h, o, ?_, ?_, ?_, insert_all_ones_ub m32_placed R hc o (by decide) 8, ?_⟩
  · obtain ⟨h', S', e, _, _, o', _⟩ := insert_end_any m32_placed R hc o 4294967295 8
    exact ⟨h', e, o'⟩
  · obtain ⟨⟨h', S', e, _, _, o', _⟩, _⟩ := resize_any m32_placed R hc o 4294967295 8
    exact ⟨h', e, o'⟩
  · obtain ⟨h', S', e, _, _, o', _⟩ := insert_middle_partial (i := 1) m32_placed R hc o (by decide) 1000000 8 (by simp only [m32, List.length]; split <;> omega)
    refine ⟨h', e, ?_⟩
    have cut : ∀ (n : Nat), 5 ≤ n → ((List.take 1 [7, 7, 7] ++ (List.replicate n 8 ++ List.drop 1 [7, 7, 7])).take 6) = [7, 8, 8, 8, 8, 8] := by
      intro n q
      show 7 :: (List.replicate n 8 ++ [7, 7]).take 5 = _
      rw [List.take_append_of_le_length (by rw [List.length_replicate]; exact q), List.take_replicate, Nat.min_eq_left q]; rfl
    have := cut 1000000 (by decide)
    rw [this] at o'; exact o'
  · exact insert_beyond_memory_ub m32_placed R hc o (by decide) 8 (by decide) (by decide)

end Verif.Vec.FV.FMProps
