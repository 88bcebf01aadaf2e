import Verif.Algorithm.Mutating
import Verif.Algorithm.CellsLemmas
import Verif.Algorithm.ReadOnlyProps
/-!
# Properties of the modifying algorithms

`m.Holds p xs`: the cells from `p` hold `xs`. `m.Alloc p n`: `n` cells from `p` exist.
`m.overwrite p ys`: memory `m` with the cells from `p` replaced by `ys` and *nothing else changed*.
So a conclusion `= .ok (r, m.overwrite p ys)` says: the call terminates without undefined
behaviour, returns `r`, writes exactly `ys` at `p` and modifies no other cell.
-/
set_option linter.unusedSimpArgs false
namespace Verif.Algo
open Verif Mem
variable {T U : Type}

/-! ## C62: copy, copy_if, copy_n, copy_backward -/

/-- `copy` into a destination that starts outside `(first, last)`, in particular one that overlaps
the source from the left, copies the source values as they were before the call. -/
theorem copy_copies {m : Mem T} {first d : Nat} {xs : List T} (h : m.Holds first xs)
    (ha : m.Alloc d xs.length) (hov : d ≤ first ∨ first + xs.length ≤ d) :
    copy first (first + xs.length) d m = .ok (d + xs.length, m.overwrite d xs) := by
  induction xs generalizing m first d with
  | nil => rw [copy]; simp
  | cons x xs ih =>
    obtain ⟨w, hw⟩ := ha.head
    have hne : ¬ (first = first + (xs.length + 1)) := by omega
    rw [copy]
    simp only [List.length_cons, hne, Prog.bind_app, Prog.ite_app, if_false, load_eq h.head,
      Res.bind_ok, store_eq x hw]
    have := ih (m := m.set d x) (first := first + 1) (d := d + 1)
      (h.tail.set_out x (by simp at hov; omega)) (ha.tail.set x) (by simp at hov; omega)
    rw [overwrite_cons] at this
    rw [show first + (xs.length + 1) = first + 1 + xs.length by omega, this]
    simp [Nat.add_assoc, Nat.add_comm 1]

/-- `copy_n` copies `count` elements (none when `count ≤ 0`). -/
theorem copy_n_copies {m : Mem T} {first d : Nat} {xs : List T} (h : m.Holds first xs)
    (ha : m.Alloc d xs.length) (hov : d ≤ first ∨ first + xs.length ≤ d) :
    copyN first xs.length d m = .ok (d + xs.length, m.overwrite d xs) := by
  induction xs generalizing m first d with
  | nil => rw [copyN]; simp
  | cons x xs ih =>
    obtain ⟨w, hw⟩ := ha.head
    have hgt : ((xs.length + 1 : Nat) : Int) > 0 := by omega
    rw [copyN]
    simp only [List.length_cons, hgt, Prog.bind_app, Prog.ite_app, if_true, load_eq h.head,
      Res.bind_ok, store_eq x hw]
    have := ih (m := m.set d x) (first := first + 1) (d := d + 1)
      (h.tail.set_out x (by simp at hov; omega)) (ha.tail.set x) (by simp at hov; omega)
    rw [overwrite_cons] at this
    rw [show ((xs.length + 1 : Nat) : Int) - 1 = (xs.length : Int) by omega, this]
    simp [Nat.add_assoc, Nat.add_comm 1]

theorem copy_n_nonpositive (m : Mem T) (first d : Nat) (count : Int) (h : count ≤ 0) :
    copyN first count d m = .ok (d, m) := by
  rw [copyN]; simp; omega

/-- `copy_if` writes exactly the elements satisfying the predicate, in order. -/
theorem copy_if_copies {m : Mem T} {first d : Nat} {xs : List T} (p : T → Bool)
    (h : m.Holds first xs) (ha : m.Alloc d (xs.filter p).length)
    (hov : d ≤ first ∨ first + xs.length ≤ d) :
    copyIf p first (first + xs.length) d m =
      .ok (d + (xs.filter p).length, m.overwrite d (xs.filter p)) := by
  induction xs generalizing m first d with
  | nil => rw [copyIf]; simp
  | cons x xs ih =>
    have hne : ¬ (first = first + (xs.length + 1)) := by omega
    have he : first + (xs.length + 1) = first + 1 + xs.length := by omega
    rw [copyIf]
    by_cases hp : p x
    · simp only [List.filter_cons, hp, if_true, List.length_cons] at ha ⊢
      obtain ⟨w, hw⟩ := ha.head
      simp only [hne, Prog.bind_app, Prog.ite_app, if_false, load_eq h.head,
        Res.bind_ok, hp, if_true, store_eq x hw]
      have := ih (m := m.set d x) (first := first + 1) (d := d + 1)
        (h.tail.set_out x (by simp at hov; omega)) (ha.tail.set x) (by simp at hov; omega)
      rw [overwrite_cons] at this
      rw [he, this]
      simp [Nat.add_assoc, Nat.add_comm 1]
    · simp only [List.filter_cons, hp, if_false, List.length_cons] at ha ⊢
      simp only [hne, Prog.bind_app, Prog.ite_app, if_false, load_eq h.head, Res.bind_ok, hp]
      have := ih (m := m) (first := first + 1) (d := d) h.tail (by simpa using ha)
        (by simp at hov; omega)
      rw [he]
      simpa using this

/-- `copy_backward` into a destination ending outside `(first, last]`, in particular one that
overlaps the source from the right, copies the source values as they were before the call. -/
theorem copy_backward_copies {m : Mem T} {first d : Nat} {xs : List T} (h : m.Holds first xs)
    (ha : m.Alloc d xs.length) (hov : first ≤ d ∨ d + xs.length ≤ first) :
    copyBackward first (first + xs.length) (d + xs.length) m = .ok (d, m.overwrite d xs) := by
  induction hn : xs.length generalizing m xs with
  | zero =>
    have : xs = [] := List.length_eq_zero_iff.1 hn
    subst this; rw [copyBackward]; simp
  | succ n ih =>
    obtain ⟨ys, y, rfl⟩ : ∃ ys y, xs = ys ++ [y] := by
      have : xs ≠ [] := by intro e; subst e; simp at hn
      exact ⟨xs.dropLast, xs.getLast this, (List.dropLast_concat_getLast this).symm⟩
    simp at hn
    subst hn
    have hne : ¬ (first = first + (ys.length + 1)) := by omega
    have e1 : first + (ys.length + 1) - 1 = first + ys.length := by omega
    have e2 : d + (ys.length + 1) - 1 = d + ys.length := by omega
    have p1 : 0 < first + (ys.length + 1) := by omega
    have p2 : 0 < d + (ys.length + 1) := by omega
    have hy : m (first + ys.length) = some y := h.append_right.head
    obtain ⟨w, hw⟩ := ha ys.length (by simp)
    rw [copyBackward]
    simp only [hne, Prog.bind_app, Prog.ite_app, if_false, decr, Prog.need_app, p1, p2, if_true,
      Res.bind_ok, Prog.pure_app, e1, e2, load_eq hy, store_eq y hw]
    have := ih (m := m.set (d + ys.length) y) (xs := ys)
      (h.append_left.set_out y (by simp at hov; omega))
      ((ha.mono (by simp)).set y) (by simp at hov; omega) rfl
    rw [this, overwrite_concat]

/-- Concrete instances: shifting `[1,2,3,4]` left and right by one inside the same array. -/
example : copy 1 4 0 (Mem.ofList [1, 2, 3, 4]) =
    .ok (3, (Mem.ofList [1, 2, 3, 4]).overwrite 0 [2, 3, 4]) := by
  have h : (Mem.ofList [1, 2, 3, 4]).Holds 1 [2, 3, 4] :=
    (Mem.holds_ofList [1, 2, 3, 4]).append_right (xs := [1])
  have ha : (Mem.ofList [1, 2, 3, 4]).Alloc 0 3 :=
    (Mem.holds_ofList [1, 2, 3, 4]).alloc.mono (by simp)
  exact copy_copies h ha (by simp)

example : copyBackward 0 3 4 (Mem.ofList [1, 2, 3, 4]) =
    .ok (1, (Mem.ofList [1, 2, 3, 4]).overwrite 1 [1, 2, 3]) := by
  have h : (Mem.ofList [1, 2, 3, 4]).Holds 0 [1, 2, 3] :=
    (Mem.holds_ofList ([1, 2, 3] ++ [4])).append_left
  have ha : (Mem.ofList [1, 2, 3, 4]).Alloc 1 3 :=
    ((Mem.holds_ofList [1, 2, 3, 4]).append_right (xs := [1])).alloc
  exact copy_backward_copies (d := 1) h ha (by simp)

/-! ## C63: remove, remove_if, remove_copy, remove_copy_if -/

/-- `remove_copy_if` writes exactly the elements not satisfying the predicate, in order. -/
theorem remove_copy_if_copies {m : Mem T} {first d : Nat} {xs : List T} (p : T → Bool)
    (h : m.Holds first xs) (ha : m.Alloc d (xs.filter fun x => !p x).length)
    (hov : d ≤ first ∨ first + xs.length ≤ d) :
    removeCopyIf p first (first + xs.length) d m =
      .ok (d + (xs.filter fun x => !p x).length, m.overwrite d (xs.filter fun x => !p x)) := by
  induction xs generalizing m first d with
  | nil => rw [removeCopyIf]; simp
  | cons x xs ih =>
    have hne : ¬ (first = first + (xs.length + 1)) := by omega
    have he : first + (xs.length + 1) = first + 1 + xs.length := by omega
    rw [removeCopyIf]
    by_cases hp : (!p x) = true
    · simp only [List.filter_cons, hp, if_true, List.length_cons] at ha ⊢
      obtain ⟨w, hw⟩ := ha.head
      simp only [hne, Prog.bind_app, Prog.ite_app, if_false, load_eq h.head,
        Res.bind_ok, hp, if_true, store_eq x hw]
      have := ih (m := m.set d x) (first := first + 1) (d := d + 1)
        (h.tail.set_out x (by simp at hov; omega)) (ha.tail.set x) (by simp at hov; omega)
      rw [overwrite_cons] at this
      rw [he, this]
      simp [Nat.add_assoc, Nat.add_comm 1]
    · simp only [List.filter_cons, hp, if_false, List.length_cons] at ha ⊢
      simp only [hne, Prog.bind_app, Prog.ite_app, if_false, load_eq h.head, Res.bind_ok, hp]
      have := ih (m := m) (first := first + 1) (d := d) h.tail (by simpa using ha)
        (by simp at hov; omega)
      rw [he]
      simpa using this

theorem remove_copy_copies {m : Mem T} {first d : Nat} {xs : List T} (eq : T → T → Bool) (v : T)
    (h : m.Holds first xs) (ha : m.Alloc d (xs.filter fun x => !eq x v).length)
    (hov : d ≤ first ∨ first + xs.length ≤ d) :
    removeCopy eq v first (first + xs.length) d m =
      .ok (d + (xs.filter fun x => !eq x v).length, m.overwrite d (xs.filter fun x => !eq x v)) :=
  remove_copy_if_copies (fun x => eq x v) h ha hov

/-- Loop of remove: `kept` (stored from `base`) has been compacted, `junk` are the cells between
the write position and the read position, `rest` is still to be examined. -/
theorem removeLoop_spec (residue : T → T) (p : T → Bool) {m : Mem T} {base : Nat}
    {kept junk rest : List T} (hj : junk ≠ []) (h : m.Holds base (kept ++ (junk ++ rest))) :
    ∃ junk', junk'.length = junk.length + (rest.filter p).length ∧
      removeLoop residue p (base + kept.length) (base + kept.length + junk.length - 1)
        (base + (kept ++ (junk ++ rest)).length) m =
      .ok (base + kept.length + (rest.filter fun x => !p x).length,
        m.overwrite base (kept ++ (rest.filter fun x => !p x) ++ junk')) := by
  induction rest generalizing m kept junk with
  | nil =>
    refine ⟨junk, by simp, ?_⟩
    rw [removeLoop]
    have : 0 < junk.length := List.length_pos_iff.2 hj
    have e : base + kept.length + junk.length - 1 + 1 = base + (kept.length + junk.length) := by omega
    have hm := overwrite_self (ys := kept ++ junk) (by simpa using h)
    simp [e, hm]
  | cons x rest ih =>
    have hjl : 0 < junk.length := List.length_pos_iff.2 hj
    have hi : base + kept.length + junk.length - 1 + 1 = base + kept.length + junk.length := by omega
    have hne : ¬ (base + kept.length + junk.length =
        base + (kept ++ (junk ++ x :: rest)).length) := by simp; omega
    have hx : m (base + kept.length + junk.length) = some x := h.append_right.append_right.head
    rw [removeLoop]
    simp only [hi, hne, Prog.bind_app, Prog.ite_app, if_false, load_eq hx, Res.bind_ok]
    by_cases hp : p x
    · simp only [hp, Bool.not_true, Bool.false_eq_true, if_false]
      obtain ⟨junk', h1, h2⟩ := ih (kept := kept) (junk := junk ++ [x]) (m := m) (by simp)
        (by simpa using h)
      refine ⟨junk', by simp [h1, List.filter_cons, hp]; omega, ?_⟩
      have e : base + kept.length + (junk ++ [x]).length - 1 = base + kept.length + junk.length := by
        simp
      rw [e] at h2
      simpa [List.filter_cons, hp] using h2
    · obtain ⟨j0, js, rfl⟩ : ∃ a l, junk = a :: l := by
        cases junk with
        | nil => exact absurd rfl hj
        | cons a l => exact ⟨a, l, rfl⟩
      have hj0 : m (base + kept.length) = some j0 := h.append_right.head
      have hp' : p x = false := by simpa using hp
      have hdist : base + kept.length ≠ base + kept.length + (j0 :: js).length := by simp
      simp only [hp', Bool.not_false, if_true, moveFrom, Prog.bind_app, load_eq hx, Res.bind_ok,
        store_eq _ hx, Prog.pure_app]
      have hj0' : (m.set (base + kept.length + (j0 :: js).length) (residue x)) (base + kept.length)
          = some j0 := by rw [set_other _ _ hdist]; exact hj0
      rw [store_eq x hj0']
      simp only [Res.bind_ok]
      -- the new memory holds kept ++ [x], js ++ [residue x], rest
      let m' := (m.set (base + kept.length + (j0 :: js).length) (residue x)).set
        (base + kept.length) x
      have hm' : m' = m.overwrite base ((kept ++ [x]) ++ ((js ++ [residue x]) ++ rest)) := by
        have h1 : m.set (base + kept.length + (j0 :: js).length) (residue x) =
            m.overwrite base (kept ++ j0 :: (js ++ residue x :: rest)) := by
          have h' : m.Holds base ((kept ++ j0 :: js) ++ x :: rest) := by simpa using h
          have := set_eq_overwrite_mid h' (residue x)
          rw [show base + (kept ++ j0 :: js).length = base + kept.length + (j0 :: js).length by
            simp; omega] at this
          rw [this]; simp
        have h2 := set_eq_overwrite_mid (overwrite_holds m base
          (kept ++ j0 :: (js ++ residue x :: rest))) x
        show (m.set _ _).set _ _ = _
        rw [h1, h2, overwrite_overwrite _ _ _ _ (by simp)]
        simp
      have hH' : m'.Holds base ((kept ++ [x]) ++ ((js ++ [residue x]) ++ rest)) := by
        rw [hm']; exact overwrite_holds _ _ _
      obtain ⟨junk', h1, h2⟩ := ih (kept := kept ++ [x]) (junk := js ++ [residue x]) (m := m')
        (by simp) hH'
      refine ⟨junk', by simp [h1, List.filter_cons, hp'], ?_⟩
      have e1 : base + (kept ++ [x]).length = base + kept.length + 1 := by simp; omega
      have e2 : base + (kept ++ [x]).length + (js ++ [residue x]).length - 1 =
        base + kept.length + (j0 :: js).length := by simp; omega
      have e3 : base + (kept ++ [x] ++ (js ++ [residue x] ++ rest)).length =
        base + (kept ++ (j0 :: js ++ x :: rest)).length := by simp
      rw [e2, e3, e1] at h2
      rw [h2]
      have e4 : m'.overwrite base (kept ++ [x] ++ (rest.filter fun x => !p x) ++ junk') =
          m.overwrite base (kept ++ (x :: (rest.filter fun x => !p x)) ++ junk') := by
        rw [hm', overwrite_overwrite _ _ _ _ ?_]
        · simp
        · have := length_filter_add p rest
          simp at h1
          simp
          omega
      rw [e4]
      simp [List.filter_cons, hp']
      omega

/-- Splitting at the first element satisfying `p`. -/
theorem split_findIdx (p : T → Bool) (xs : List T) (h : xs.findIdx p < xs.length) :
    ∃ pre x post, xs = pre ++ x :: post ∧ pre.length = xs.findIdx p ∧ p x = true ∧
      ∀ y ∈ pre, p y = false := by
  refine ⟨xs.take (xs.findIdx p), xs[xs.findIdx p], xs.drop (xs.findIdx p + 1), ?_, ?_, ?_, ?_⟩
  · rw [← List.drop_eq_getElem_cons h]; simp
  · simp; omega
  · exact List.findIdx_getElem
  · intro y hy
    rw [List.mem_iff_getElem] at hy
    obtain ⟨i, hi, rfl⟩ := hy
    simp at hi
    rw [List.getElem_take]
    have := List.not_of_lt_findIdx (p := p) (xs := xs) (i := i) (by omega)
    simpa using this

theorem remove_common (residue : T → T) (p : T → Bool) {m : Mem T} {first : Nat} {xs : List T}
    (h : m.Holds first xs) (f : Prog (Mem T) Nat)
    (hf : f m = .ok (first + xs.findIdx p, m)) :
    ∃ junk, junk.length = (xs.filter p).length ∧
      (do let first' ← f
          if first' ≠ first + xs.length then
            removeLoop residue p first' first' (first + xs.length)
          else pure first') m =
      .ok (first + (xs.filter fun x => !p x).length,
        m.overwrite first ((xs.filter fun x => !p x) ++ junk)) := by
  by_cases hlt : xs.findIdx p < xs.length
  · obtain ⟨pre, x, post, e, hl, hpx, hpre⟩ := split_findIdx p xs hlt
    have f1 : pre.filter p = [] := by
      rw [List.filter_eq_nil_iff]; intro y hy; simp [hpre y hy]
    have f2 : (pre.filter fun x => !p x) = pre := by
      rw [List.filter_eq_self]; intro y hy; simp [hpre y hy]
    obtain ⟨junk, h1, h2⟩ := removeLoop_spec residue p (m := m) (base := first) (kept := pre)
      (junk := [x]) (rest := post) (by simp) (by simpa [e] using h)
    refine ⟨junk, ?_, ?_⟩
    · rw [h1, e]; simp [List.filter_cons, hpx, f1]; omega
    · have hne : first + xs.findIdx p ≠ first + xs.length := by omega
      simp only [Prog.bind_app, hf, Res.bind_ok, Prog.ite_app, hne, ne_eq, not_false_eq_true,
        if_true]
      rw [← hl]
      have e2 : first + pre.length + [x].length - 1 = first + pre.length := by simp
      have e3 : pre ++ ([x] ++ post) = xs := by simp [e]
      rw [e2, e3] at h2
      rw [h2, e]
      simp [List.filter_cons, hpx, f2]
      omega
  · have : xs.findIdx p = xs.length := by
      have := List.findIdx_le_length (p := p) (xs := xs); omega
    rw [List.findIdx_eq_length] at this
    have f1 : xs.filter p = [] := by
      rw [List.filter_eq_nil_iff]; intro y hy; simp [this y hy]
    have f2 : (xs.filter fun x => !p x) = xs := by
      rw [List.filter_eq_self]; intro y hy; simp [this y hy]
    refine ⟨[], by simp [f1], ?_⟩
    have e : xs.findIdx p = xs.length := by rw [List.findIdx_eq_length]; exact this
    simp [hf, e, f2, overwrite_self h]

/-- `remove_if` compacts the elements that do not satisfy `p`, in order, at the front of the range
and returns the position after them. Cells after it keep existing (with unspecified values
`junk`), and no cell outside the range changes. -/
theorem remove_if_compacts (residue : T → T) (p : T → Bool) {m : Mem T} {first : Nat}
    {xs : List T} (h : m.Holds first xs) :
    ∃ junk, junk.length = (xs.filter p).length ∧
      removeIf residue p first (first + xs.length) m =
      .ok (first + (xs.filter fun x => !p x).length,
        m.overwrite first ((xs.filter fun x => !p x) ++ junk)) := by
  obtain ⟨r, h1, h2⟩ := find_if_returns_first_match h.range p
  have := Mem.ptr_reach h2
  subst this
  exact remove_common residue p h _ h1

/-- `remove(value)` likewise, for the elements not equal to `value`. -/
theorem remove_compacts (residue : T → T) (eq : T → T → Bool) (v : T) {m : Mem T} {first : Nat}
    {xs : List T} (h : m.Holds first xs) :
    ∃ junk, junk.length = (xs.filter fun x => eq x v).length ∧
      remove residue eq v first (first + xs.length) m =
      .ok (first + (xs.filter fun x => !eq x v).length,
        m.overwrite first ((xs.filter fun x => !eq x v) ++ junk)) := by
  obtain ⟨r, h1, h2⟩ := find_returns_first_match h.range eq v
  have := Mem.ptr_reach h2
  subst this
  exact remove_common residue (fun x => eq x v) h _ h1

example : ∃ junk : List Nat, junk.length = 2 ∧
    removeIf id (fun x => x % 2 == 0) 0 5 (Mem.ofList [1, 2, 3, 4, 5]) =
    .ok (3, (Mem.ofList [1, 2, 3, 4, 5]).overwrite 0 ([1, 3, 5] ++ junk)) :=
  remove_if_compacts id (fun x => x % 2 == 0) (Mem.holds_ofList [1, 2, 3, 4, 5])

/-! ## C64: fill, fill_n, generate, replace, transform, iota -/

theorem fill_fills {m : Mem T} {first n : Nat} (ha : m.Alloc first n) (v : T) :
    fill first (first + n) v m = .ok ((), m.overwrite first (List.replicate n v)) := by
  induction n generalizing m first with
  | zero => rw [fill]; simp
  | succ n ih =>
    obtain ⟨w, hw⟩ := ha.head
    have hne : ¬ (first = first + (n + 1)) := by omega
    rw [fill]
    simp only [hne, Prog.bind_app, Prog.ite_app, if_false, store_eq v hw, Res.bind_ok]
    have := ih (m := m.set first v) (ha.tail.set v)
    rw [overwrite_cons] at this
    rw [show first + (n + 1) = first + 1 + n by omega, this]
    simp [List.replicate_succ]

theorem fill_n_fills {m : Mem T} {first n : Nat} (ha : m.Alloc first n) (v : T) :
    fillN first n v m = .ok (first + n, m.overwrite first (List.replicate n v)) := by
  induction n generalizing m first with
  | zero => rw [fillN]; simp
  | succ n ih =>
    obtain ⟨w, hw⟩ := ha.head
    have hgt : ((n + 1 : Nat) : Int) > 0 := by omega
    rw [fillN]
    simp only [hgt, Prog.bind_app, Prog.ite_app, if_true, store_eq v hw, Res.bind_ok]
    have := ih (m := m.set first v) (ha.tail.set v)
    rw [overwrite_cons] at this
    rw [show ((n + 1 : Nat) : Int) - 1 = (n : Int) by omega, this]
    simp [List.replicate_succ]; omega

/-- A non-positive count writes nothing. -/
theorem fill_n_nonpositive (m : Mem T) (first : Nat) (count : Int) (v : T) (h : count ≤ 0) :
    fillN first count v m = .ok (first, m) := by
  rw [fillN]; simp; omega

/-- The values a generator yields in `n` successive calls. -/
def genSeq {δ : Type} (g : δ → T × δ) : Nat → δ → List T
  | 0, _ => []
  | n + 1, d => (g d).1 :: genSeq g n (g d).2

theorem generate_writes_successive_values {δ : Type} (g : δ → T × δ) {m : Mem T} {first n : Nat}
    (ha : m.Alloc first n) (d : δ) :
    generate g first (first + n) d m = .ok ((), m.overwrite first (genSeq g n d)) := by
  induction n generalizing m first d with
  | zero => rw [generate]; simp [genSeq]
  | succ n ih =>
    obtain ⟨w, hw⟩ := ha.head
    have hne : ¬ (first = first + (n + 1)) := by omega
    rw [generate]
    simp only [hne, Prog.bind_app, Prog.ite_app, if_false, store_eq _ hw, Res.bind_ok]
    have := ih (m := m.set first (g d).1) (ha.tail.set _) (g d).2
    rw [overwrite_cons] at this
    rw [show first + (n + 1) = first + 1 + n by omega, this]
    simp [genSeq]

theorem generate_n_writes_successive_values {δ : Type} (g : δ → T × δ) {m : Mem T}
    {first n : Nat} (ha : m.Alloc first n) (d : δ) :
    generateN g first n d m = .ok (first + n, m.overwrite first (genSeq g n d)) := by
  induction n generalizing m first d with
  | zero => rw [generateN]; simp [genSeq]
  | succ n ih =>
    obtain ⟨w, hw⟩ := ha.head
    have hgt : ((n + 1 : Nat) : Int) > 0 := by omega
    rw [generateN]
    simp only [hgt, Prog.bind_app, Prog.ite_app, if_true, store_eq _ hw, Res.bind_ok]
    have := ih (m := m.set first (g d).1) (ha.tail.set _) (g d).2
    rw [overwrite_cons] at this
    rw [show ((n + 1 : Nat) : Int) - 1 = (n : Int) by omega, this]
    simp [genSeq]; omega

theorem replace_if_maps {m : Mem T} {first : Nat} {xs : List T} (h : m.Holds first xs)
    (p : T → Bool) (newval : T) :
    replaceIf p newval first (first + xs.length) m =
      .ok ((), m.overwrite first (xs.map fun x => if p x then newval else x)) := by
  induction xs generalizing m first with
  | nil => rw [replaceIf]; simp
  | cons x xs ih =>
    have hne : ¬ (first = first + (xs.length + 1)) := by omega
    rw [replaceIf]
    simp only [List.length_cons, hne, Prog.bind_app, Prog.ite_app, if_false, load_eq h.head,
      Res.bind_ok]
    rw [show first + (xs.length + 1) = first + 1 + xs.length by omega]
    by_cases hp : p x
    · simp only [hp, if_true, store_eq newval h.head, Res.bind_ok]
      rw [ih (h.tail.set_out newval (by omega)), overwrite_cons]
      simp [hp]
    · simp only [hp, if_false]
      rw [show (if (false = true) then (_ : Res (Unit × Mem T)) else
        replaceIf p newval (first + 1) (first + 1 + xs.length) m) = _ from rfl, ih h.tail]
      have : m.set first x = m := by
        funext a; by_cases e : a = first
        · subst e; simp [Mem.set, h.head]
        · simp [Mem.set, e]
      have h2 := overwrite_cons m first x (xs.map fun x => if p x then newval else x)
      rw [this] at h2
      rw [h2]
      simp [hp]

theorem replace_maps {m : Mem T} {first : Nat} {xs : List T} (h : m.Holds first xs)
    (eq : T → T → Bool) (oldval newval : T) :
    replace eq oldval newval first (first + xs.length) m =
      .ok ((), m.overwrite first (xs.map fun x => if eq x oldval then newval else x)) :=
  replace_if_maps h (fun x => eq x oldval) newval

theorem replace_copy_if_maps {m : Mem T} {first d : Nat} {xs : List T} (h : m.Holds first xs)
    (ha : m.Alloc d xs.length) (hov : d ≤ first ∨ first + xs.length ≤ d)
    (p : T → Bool) (newval : T) :
    replaceCopyIf p newval first (first + xs.length) d m =
      .ok (d + xs.length, m.overwrite d (xs.map fun x => if p x then newval else x)) := by
  induction xs generalizing m first d with
  | nil => rw [replaceCopyIf]; simp
  | cons x xs ih =>
    obtain ⟨w, hw⟩ := ha.head
    have hne : ¬ (first = first + (xs.length + 1)) := by omega
    rw [replaceCopyIf]
    simp only [List.length_cons, hne, Prog.bind_app, Prog.ite_app, if_false, load_eq h.head,
      Res.bind_ok, store_eq _ hw]
    have := ih (m := m.set d (if p x then newval else x)) (first := first + 1) (d := d + 1)
      (h.tail.set_out _ (by simp at hov; omega)) (ha.tail.set _) (by simp at hov; omega)
    rw [overwrite_cons] at this
    rw [show first + (xs.length + 1) = first + 1 + xs.length by omega, this]
    simp [Nat.add_assoc, Nat.add_comm 1]

theorem replace_copy_maps {m : Mem T} {first d : Nat} {xs : List T} (h : m.Holds first xs)
    (ha : m.Alloc d xs.length) (hov : d ≤ first ∨ first + xs.length ≤ d)
    (eq : T → T → Bool) (oldval newval : T) :
    replaceCopy eq oldval newval first (first + xs.length) d m =
      .ok (d + xs.length, m.overwrite d (xs.map fun x => if eq x oldval then newval else x)) :=
  replace_copy_if_maps h ha hov (fun x => eq x oldval) newval

theorem transform_maps {m : Mem T} {first d : Nat} {xs : List T} (h : m.Holds first xs)
    (ha : m.Alloc d xs.length) (hov : d ≤ first ∨ first + xs.length ≤ d) (op : T → T) :
    transform op first (first + xs.length) d m =
      .ok (d + xs.length, m.overwrite d (xs.map op)) := by
  induction xs generalizing m first d with
  | nil => rw [transform]; simp
  | cons x xs ih =>
    obtain ⟨w, hw⟩ := ha.head
    have hne : ¬ (first = first + (xs.length + 1)) := by omega
    rw [transform]
    simp only [List.length_cons, hne, Prog.bind_app, Prog.ite_app, if_false, load_eq h.head,
      Res.bind_ok, store_eq _ hw]
    have := ih (m := m.set d (op x)) (first := first + 1) (d := d + 1)
      (h.tail.set_out _ (by simp at hov; omega)) (ha.tail.set _) (by simp at hov; omega)
    rw [overwrite_cons] at this
    rw [show first + (xs.length + 1) = first + 1 + xs.length by omega, this]
    simp [Nat.add_assoc, Nat.add_comm 1]

/-- Binary `transform`: the output may coincide with (or lie left of) either input. -/
theorem transform2_zips {m : Mem T} {first1 first2 d : Nat} {xs ys : List T}
    (hx : m.Holds first1 xs) (hy : m.Holds first2 ys) (hl : xs.length = ys.length)
    (ha : m.Alloc d xs.length) (hov1 : d ≤ first1 ∨ first1 + xs.length ≤ d)
    (hov2 : d ≤ first2 ∨ first2 + ys.length ≤ d) (op : T → T → T) :
    transform2 op first1 (first1 + xs.length) first2 d m =
      .ok (d + xs.length, m.overwrite d (List.zipWith op xs ys)) := by
  induction xs generalizing m first1 first2 d ys with
  | nil => rw [transform2]; simp
  | cons x xs ih =>
    cases ys with
    | nil => simp at hl
    | cons y ys =>
      obtain ⟨w, hw⟩ := ha.head
      have hne : ¬ (first1 = first1 + (xs.length + 1)) := by omega
      rw [transform2]
      simp only [List.length_cons, hne, Prog.bind_app, Prog.ite_app, if_false, load_eq hx.head,
        load_eq hy.head, Res.bind_ok, store_eq _ hw]
      have := ih (m := m.set d (op x y)) (first1 := first1 + 1) (first2 := first2 + 1) (d := d + 1)
        (hx.tail.set_out _ (by simp at hov1; omega)) (hy.tail.set_out _ (by simp at hov2; omega))
        (by simpa using hl) (ha.tail.set _) (by simp at hov1; omega) (by simp at hov2; omega)
      rw [overwrite_cons] at this
      rw [show first1 + (xs.length + 1) = first1 + 1 + xs.length by omega, this]
      simp [Nat.add_assoc, Nat.add_comm 1]

/-- The sequence `v, ++v, ++(++v), …` of `n` values. -/
def iotaSeq (succ : T → T) : Nat → T → List T
  | 0, _ => []
  | n + 1, v => v :: iotaSeq succ n (succ v)

theorem iota_writes_successors {m : Mem T} {first n : Nat} (ha : m.Alloc first n)
    (succ : T → T) (v : T) :
    iota succ first (first + n) v m = .ok ((), m.overwrite first (iotaSeq succ n v)) := by
  induction n generalizing m first v with
  | zero => rw [iota]; simp [iotaSeq]
  | succ n ih =>
    obtain ⟨w, hw⟩ := ha.head
    have hne : ¬ (first = first + (n + 1)) := by omega
    rw [iota]
    simp only [hne, Prog.bind_app, Prog.ite_app, if_false, store_eq _ hw, Res.bind_ok]
    have := ih (m := m.set first v) (ha.tail.set _) (succ v)
    rw [overwrite_cons] at this
    rw [show first + (n + 1) = first + 1 + n by omega, this]
    simp [iotaSeq]

/-- `accumulate` is the left fold of `+`. -/
theorem accumulate_folds {σ ι : Type} [DecidableEq ι] {I : Iter σ ι T} {s : σ} {first last : ι}
    {xs : List T} (h : I.Range s first xs last) (add : U → T → U) (v : U) :
    accumulate I add first last v s = .ok (xs.foldl add v, s) := by
  induction h generalizing v with
  | nil l => rw [accumulate]; simp
  | cons hne hd hn hr ih => rw [accumulate]; simp [hne, hd, hn, ih]

example : replace (fun a b : Nat => a == b) 1 9 0 4 (Mem.ofList [1, 2, 1, 3]) =
    .ok ((), (Mem.ofList [1, 2, 1, 3]).overwrite 0 [9, 2, 9, 3]) :=
  replace_maps (Mem.holds_ofList [1, 2, 1, 3]) (fun a b : Nat => a == b) 1 9

example : accumulate Mem.ptr (fun a b : Nat => a + b) 0 3 10 (Mem.ofList [1, 2, 3]) =
    .ok (16, Mem.ofList [1, 2, 3]) :=
  accumulate_folds (Mem.holds_ofList [1, 2, 3]).range _ 10

/-! ## C65: reverse, reverse_copy -/

theorem swap_spec {m : Mem T} {a b : Nat} {x y : T} (ha : m a = some x) (hb : m b = some y) :
    swap a b m = .ok ((), (m.set a y).set b x) := by
  have : ∃ w, (m.set a y) b = some w := by
    by_cases e : b = a
    · exact ⟨y, by simp [Mem.set, e]⟩
    · exact ⟨y, by simp [Mem.set, e, hb]⟩
  obtain ⟨w, hw⟩ := this
  simp [swap, load_eq ha, load_eq hb, store_eq y ha, store_eq x hw]

theorem reverse_reverses {m : Mem T} {first : Nat} {xs : List T} (h : m.Holds first xs) :
    reverse first (first + xs.length) m = .ok ((), m.overwrite first xs.reverse) := by
  induction hn : xs.length using Nat.strongRecOn generalizing m first xs with
  | ind n ih =>
    subst hn
    match xs, h, ih with
    | [], _, _ => rw [reverse]; simp
    | [x], h, _ =>
      rw [reverse]
      have := overwrite_self h
      simp [decr, this]
    | x :: x' :: xs, h, ih =>
      obtain ⟨mid, y, e⟩ : ∃ mid y, x' :: xs = mid ++ [y] :=
        ⟨(x' :: xs).dropLast, (x' :: xs).getLast (by simp),
          (List.dropLast_concat_getLast (by simp)).symm⟩
      rw [e] at h ih ⊢
      have hx : m first = some x := h.head
      have hy : m (first + 1 + mid.length) = some y := h.tail.append_right.head
      have hne : ¬ (first = first + (x :: (mid ++ [y])).length) := by simp
      have hpos : 0 < first + (x :: (mid ++ [y])).length := by simp; omega
      have e1 : first + (x :: (mid ++ [y])).length - 1 = first + 1 + mid.length := by simp; omega
      have hne2 : ¬ (first = first + 1 + mid.length) := by omega
      rw [reverse]
      simp only [hne, Prog.bind_app, Prog.ite_app, if_false, decr, Prog.need_app, hpos, if_true,
        Res.bind_ok, Prog.pure_app, e1, hne2, swap_spec hx hy]
      have hmid : ((m.set first y).set (first + 1 + mid.length) x).Holds (first + 1) mid :=
        (h.tail.append_left.set_out _ (by omega)).set_out _ (by omega)
      rw [ih mid.length (by simp; omega) hmid rfl]
      have : (((m.set first y).set (first + 1 + mid.length) x).overwrite (first + 1) mid.reverse) =
          m.overwrite first (y :: (mid.reverse ++ [x])) := by
        rw [← overwrite_cons, ← overwrite_concat]
        simp
      rw [this]
      simp

theorem reverse_copy_reverses {m : Mem T} {first d : Nat} {xs : List T} (h : m.Holds first xs)
    (ha : m.Alloc d xs.length) (hov : d + xs.length ≤ first ∨ first + xs.length ≤ d) :
    reverseCopy first (first + xs.length) d m = .ok (d + xs.length, m.overwrite d xs.reverse) := by
  induction hn : xs.length generalizing m xs d with
  | zero =>
    have : xs = [] := List.length_eq_zero_iff.1 hn
    subst this; rw [reverseCopy]; simp
  | succ n ih =>
    obtain ⟨ys, y, rfl⟩ : ∃ ys y, xs = ys ++ [y] := by
      have : xs ≠ [] := by intro e; subst e; simp at hn
      exact ⟨xs.dropLast, xs.getLast this, (List.dropLast_concat_getLast this).symm⟩
    simp at hn
    subst hn
    have hne : ¬ (first = first + (ys.length + 1)) := by omega
    have e1 : first + (ys.length + 1) - 1 = first + ys.length := by omega
    have p1 : 0 < first + (ys.length + 1) := by omega
    have hy : m (first + ys.length) = some y := h.append_right.head
    rw [List.length_append, List.length_singleton] at ha hov
    obtain ⟨w, hw⟩ := ha.head
    rw [reverseCopy]
    simp only [hne, Prog.bind_app, Prog.ite_app, if_false, decr, Prog.need_app, p1, if_true,
      Res.bind_ok, Prog.pure_app, e1, load_eq hy, store_eq y hw]
    have := ih (m := m.set d y) (xs := ys) (d := d + 1)
      (h.append_left.set_out y (by omega)) (ha.tail.set y) (by omega) rfl
    rw [this, overwrite_cons]
    simp [Nat.add_assoc, Nat.add_comm 1]

example : reverse 0 4 (Mem.ofList [1, 2, 3, 4]) =
    .ok ((), (Mem.ofList [1, 2, 3, 4]).overwrite 0 [4, 3, 2, 1]) :=
  reverse_reverses (Mem.holds_ofList [1, 2, 3, 4])

/-! ## C66: swap_ranges -/

theorem swap_ranges_exchanges {m : Mem T} {first1 first2 : Nat} {xs ys : List T}
    (hx : m.Holds first1 xs) (hy : m.Holds first2 ys) (hl : xs.length = ys.length)
    (hdisj : first1 + xs.length ≤ first2 ∨ first2 + ys.length ≤ first1) :
    swapRanges first1 (first1 + xs.length) first2 m =
      .ok (first2 + xs.length, (m.overwrite first1 ys).overwrite first2 xs) := by
  induction xs generalizing m first1 first2 ys with
  | nil =>
    have : ys = [] := List.length_eq_zero_iff.1 (by simpa using hl.symm)
    subst this; rw [swapRanges]; simp
  | cons x xs ih =>
    cases ys with
    | nil => simp at hl
    | cons y ys =>
      have hne : ¬ (first1 = first1 + (xs.length + 1)) := by omega
      simp only [List.length_cons] at hdisj hl ⊢
      rw [swapRanges]
      simp only [hne, Prog.bind_app, Prog.ite_app, if_false, iterSwap,
        swap_spec hx.head hy.head, Res.bind_ok]
      have := ih (m := (m.set first1 y).set first2 x) (first1 := first1 + 1) (first2 := first2 + 1)
        (ys := ys)
        ((hx.tail.set_out _ (by omega)).set_out _ (by omega))
        ((hy.tail.set_out _ (by omega)).set_out _ (by omega)) (by omega) (by omega)
      rw [show first1 + (xs.length + 1) = first1 + 1 + xs.length by omega, this]
      rw [overwrite_set_comm _ _ (by omega), overwrite_cons, overwrite_cons]
      simp [Nat.add_assoc, Nat.add_comm 1]

example : swapRanges 0 2 2 (Mem.ofList [1, 2, 3, 4]) =
    .ok (4, ((Mem.ofList [1, 2, 3, 4]).overwrite 0 [3, 4]).overwrite 2 [1, 2]) := by
  have h := Mem.holds_ofList [1, 2, 3, 4]
  exact swap_ranges_exchanges (xs := [1, 2]) (ys := [3, 4]) (first1 := 0) (first2 := 2)
    (h.append_left (xs := [1, 2]) (ys := [3, 4])) (h.append_right (xs := [1, 2]) (ys := [3, 4]))
    rfl (by simp)

end Verif.Algo
