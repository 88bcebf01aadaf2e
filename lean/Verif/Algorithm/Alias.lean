import Verif.Algorithm.MutatingProps
/-!
# Algorithms whose `const T &` argument refers to a cell of the memory they work on (C116)

`Mutating.lean` passes `const T &` arguments by value. Here they are references that are read again each time the code uses them, so an
argument may be an element of the range, as in `replace(first, last, *p, x)`.
-/
set_option linter.unusedVariables false
set_option linter.unusedSimpArgs false
namespace Verif.Algo
open Verif Mem
variable {T : Type}

/-- A `const T &` argument: an object elsewhere, or a cell of this memory. -/
inductive VRef (T : Type) where
  | ext (v : T)
  | cell (p : Nat)

/-- Use of the argument. -/
def rdRef : VRef T → Prog (Mem T) T
  | .ext v => pure v
  | .cell p => load p

/-- `ttl::fill`, algorithm.hpp:314-319. -/
def fillR (first last : Nat) (value : VRef T) : Prog (Mem T) Unit := do
  if first = last then pure ()
  else do
    store first (← rdRef value)
    fillR (first + 1) last value
partial_fixpoint

/-- `ttl::fill_n`, algorithm.hpp:321-327. -/
def fillNR (first : Nat) (count : Int) (value : VRef T) : Prog (Mem T) Nat := do
  if count > 0 then do
    store first (← rdRef value)
    fillNR (first + 1) (count - 1) value
  else pure first
partial_fixpoint

/-- `ttl::replace_if`, algorithm.hpp:391-397. -/
def replaceIfR (p : T → Bool) (newval : VRef T) (first last : Nat) : Prog (Mem T) Unit := do
  if first = last then pure ()
  else do
    if p (← load first) then do
      store first (← rdRef newval)
      replaceIfR p newval (first + 1) last
    else replaceIfR p newval (first + 1) last
partial_fixpoint

/-- `ttl::replace`, algorithm.hpp:383-389. -/
def replaceR (eq : T → T → Bool) (oldval newval : VRef T) (first last : Nat) : Prog (Mem T) Unit := do
  if first = last then pure ()
  else do
    if eq (← load first) (← rdRef oldval) then do
      store first (← rdRef newval)
      replaceR eq oldval newval (first + 1) last
    else replaceR eq oldval newval (first + 1) last
partial_fixpoint

/-- `ttl::replace_copy`, algorithm.hpp:399-405. -/
def replaceCopyR (eq : T → T → Bool) (oldval newval : VRef T) (first last d_first : Nat) : Prog (Mem T) Nat := do
  if first = last then pure d_first
  else do
    if eq (← load first) (← rdRef oldval) then do
      store d_first (← rdRef newval)
      replaceCopyR eq oldval newval (first + 1) last (d_first + 1)
    else do
      store d_first (← load first)
      replaceCopyR eq oldval newval (first + 1) last (d_first + 1)
partial_fixpoint

/-- `ttl::remove_copy`, algorithm.hpp:415-425. -/
def removeCopyR (eq : T → T → Bool) (value : VRef T) (first last d_first : Nat) : Prog (Mem T) Nat := do
  if first = last then pure d_first
  else do
    if !eq (← load first) (← rdRef value) then do
      store d_first (← load first)
      removeCopyR eq value (first + 1) last (d_first + 1)
    else removeCopyR eq value (first + 1) last d_first
partial_fixpoint

/-- `ttl::find`, algorithm.hpp:34-41 (called by `remove`). -/
def findR (eq : T → T → Bool) (first last : Nat) (value : VRef T) : Prog (Mem T) Nat := do
  if first = last then pure last
  else do
    if eq (← load first) (← rdRef value) then pure first
    else findR eq (first + 1) last value
partial_fixpoint

/-- Loop of `ttl::remove`, algorithm.hpp:444-449. -/
def removeLoopR (residue : T → T) (eq : T → T → Bool) (value : VRef T) (first i last : Nat) : Prog (Mem T) Nat := do
  let i' := i + 1
  if i' = last then pure first
  else do
    if !eq (← load i') (← rdRef value) then do
      let y ← moveFrom residue i'
      store first y
      removeLoopR residue eq value (first + 1) i' last
    else removeLoopR residue eq value first i' last
partial_fixpoint

/-- `ttl::remove`, algorithm.hpp:439-451. -/
def removeR (residue : T → T) (eq : T → T → Bool) (value : VRef T) (first last : Nat) : Prog (Mem T) Nat := do
  let first' ← findR eq first last value
  if first' ≠ last then removeLoopR residue eq value first' first' last
  else pure first'

/-! ## References to objects elsewhere: the model with values -/

/-- **C116, fill.** `fill(first, last, *p)` writes the value `*p` had before the call, whether `p` is in the range or not. -/
theorem fill_own_value {m : Mem T} {first n p : Nat} {v : T} (ha : m.Alloc first n) (hp : m p = some v) :
    fillR first (first + n) (.cell p) m = .ok ((), m.overwrite first (List.replicate n v)) := by
  induction n generalizing m first with
  | zero => rw [fillR]; simp
  | succ n ih =>
    obtain ⟨w, hw⟩ := ha.head
    rw [fillR]
    have hp' : (m.set first v) p = some v := by
      by_cases e : p = first
      · rw [e]; exact set_same _ _ _
      · rw [set_other _ _ e]; exact hp
    have := ih (m := m.set first v) (first := first + 1) (ha.tail.set v) hp'
    rw [show first + 1 + n = first + (n + 1) by omega] at this
    simp only [Prog.ite_app]
    rw [if_neg (by omega)]
    simp only [Prog.bind_app, rdRef, load_eq hp, Res.bind_ok, store_eq v hw]
    rw [this, overwrite_cons, List.replicate_succ]

/-- `fill_n` likewise. -/
theorem fill_n_own_value {m : Mem T} {first n p : Nat} {v : T} (ha : m.Alloc first n) (hp : m p = some v) :
    fillNR first n (.cell p) m = .ok (first + n, m.overwrite first (List.replicate n v)) := by
  induction n generalizing m first with
  | zero => rw [fillNR]; simp
  | succ n ih =>
    obtain ⟨w, hw⟩ := ha.head
    rw [fillNR]
    have hp' : (m.set first v) p = some v := by
      by_cases e : p = first
      · rw [e]; exact set_same _ _ _
      · rw [set_other _ _ e]; exact hp
    have := ih (m := m.set first v) (first := first + 1) (ha.tail.set v) hp'
    simp only [Prog.ite_app]
    rw [if_pos (by omega)]
    simp only [Prog.bind_app, rdRef, load_eq hp, Res.bind_ok, store_eq v hw]
    rw [show ((n + 1 : Nat) : Int) - 1 = n by omega, this, overwrite_cons, List.replicate_succ]
    simp; omega

/-- **C116, the new value.** `replace_if(first, last, pred, *p)` writes the value `*p` had before the call, wherever `p` is. -/
theorem replace_if_own_value {m : Mem T} {first : Nat} {xs : List T} (h : m.Holds first xs) (pr : T → Bool) {p : Nat} {v : T} (hp : m p = some v) :
    replaceIfR pr (.cell p) first (first + xs.length) m = .ok ((), m.overwrite first (xs.map fun x => if pr x then v else x)) := by
  induction xs generalizing m first with
  | nil => rw [replaceIfR]; simp
  | cons x xs ih =>
    rw [replaceIfR]
    simp only [Prog.ite_app]
    rw [if_neg (by simp)]
    simp only [Prog.bind_app, load_eq h.head, Res.bind_ok, Prog.ite_app]
    have e : first + (x :: xs).length = first + 1 + xs.length := by simp; omega
    by_cases hx : pr x = true
    · rw [if_pos hx]
      have hp' : (m.set first v) p = some v := by
        by_cases e : p = first
        · rw [e]; exact set_same _ _ _
        · rw [set_other _ _ e]; exact hp
      have := ih (m := m.set first v) (first := first + 1) (h.tail.set_out v (by omega)) hp'
      simp only [rdRef, load_eq hp, Res.bind_ok, store_eq v h.head, e, this, overwrite_cons]
      simp [hx]
    · rw [if_neg hx, e, ih h.tail hp]
      have hs := overwrite_cons m first x (xs.map fun x => if pr x then v else x)
      have hm : m.set first x = m := by
        funext a
        by_cases e : a = first
        · rw [e, set_same]; exact h.head.symm
        · exact set_other _ _ e
      rw [hm] at hs
      simp [hx, hs]

/-- **C116, the old value, the part that holds.** `replace(first, last, *p, newval)` with `p` outside the range replaces all elements equal to
`*p`; the new value may be any cell. -/
theorem replace_other_value_partial {m : Mem T} {first : Nat} {xs : List T} (h : m.Holds first xs) (eq : T → T → Bool) {p q : Nat} {v w : T}
    (hp : m p = some v) (hq : m q = some w) (hout : p < first ∨ first + xs.length ≤ p) :
    replaceR eq (.cell p) (.cell q) first (first + xs.length) m = .ok ((), m.overwrite first (xs.map fun x => if eq x v then w else x)) := by
  induction xs generalizing m first with
  | nil => rw [replaceR]; simp
  | cons x xs ih =>
    rw [replaceR]
    simp only [Prog.ite_app]
    rw [if_neg (by simp)]
    simp only [Prog.bind_app, load_eq h.head, Res.bind_ok, Prog.ite_app, rdRef, load_eq hp]
    have e : first + (x :: xs).length = first + 1 + xs.length := by simp; omega
    simp only [List.length_cons] at hout
    by_cases hx : eq x v = true
    · rw [if_pos hx]
      have hp' : (m.set first w) p = some v := by rw [set_other _ _ (by omega)]; exact hp
      have hq' : (m.set first w) q = some w := by
        by_cases e : q = first
        · rw [e]; exact set_same _ _ _
        · rw [set_other _ _ e]; exact hq
      have := ih (m := m.set first w) (first := first + 1) (h.tail.set_out w (by omega)) hp' hq' (by omega)
      simp only [load_eq hq, Res.bind_ok, store_eq w h.head, e, this, overwrite_cons]
      simp [hx]
    · rw [if_neg hx, e, ih h.tail hp hq (by omega)]
      have hs := overwrite_cons m first x (xs.map fun x => if eq x v then w else x)
      have hm : m.set first x = m := by
        funext a
        by_cases e : a = first
        · rw [e, set_same]; exact h.head.symm
        · exact set_other _ _ e
      rw [hm] at hs
      simp [hx, hs]

/-- The elements behind the designated one: they are compared with the new value, so nothing happens to them. -/
theorem replaceR_behind [DecidableEq T] {m : Mem T} {first : Nat} {xs : List T} (h : m.Holds first xs) {p : Nat} {w : T} (hp : m p = some w) :
    replaceR (fun x y => decide (x = y)) (.cell p) (.ext w) first (first + xs.length) m = .ok ((), m) := by
  induction xs generalizing first with
  | nil => rw [replaceR]; simp
  | cons x xs ih =>
    rw [replaceR]
    simp only [Prog.ite_app]
    rw [if_neg (by simp)]
    simp only [Prog.bind_app, load_eq h.head, Res.bind_ok, Prog.ite_app, rdRef, load_eq hp]
    have e : first + (x :: xs).length = first + 1 + xs.length := by simp; omega
    rw [e]
    by_cases hx : x = w
    · subst hx
      have hm : m.set first x = m := by
        funext a
        by_cases e : a = first
        · rw [e, set_same]; exact h.head.symm
        · exact set_other _ _ e
      simp [store_eq x h.head, hm, ih h.tail]
    · simp [hx, ih h.tail]

/-- **C116 is false for the old value.** `replace(first, last, *p, newval)` with `p` in the range replaces the elements equal to `*p` up to
and including the designated one, and none behind it: as soon as `*p` has been replaced, the remaining elements are compared with `newval`. -/
theorem replace_own_old_value [DecidableEq T] {m : Mem T} {first : Nat} {A B : List T} {v w : T} (h : m.Holds first (A ++ v :: B)) :
    replaceR (fun x y => decide (x = y)) (.cell (first + A.length)) (.ext w) first (first + (A ++ v :: B).length) m =
      .ok ((), m.overwrite first ((A.map fun x => if x = v then w else x) ++ w :: B)) := by
  induction A generalizing m first with
  | nil =>
    rw [replaceR]
    simp only [Prog.ite_app]
    rw [if_neg (by simp)]
    have h' : m.Holds first (v :: B) := h
    simp only [Prog.bind_app, List.length_nil, Nat.add_zero, load_eq h'.head, Res.bind_ok, Prog.ite_app, rdRef, decide_true, if_true, Prog.pure_app,
      store_eq w h'.head]
    have := replaceR_behind (h'.tail.set_out (q := first) w (by omega)) (set_same m first w)
    have e : first + ([] ++ v :: B).length = first + 1 + B.length := by simp; omega
    rw [e, this]
    have hs := overwrite_cons m first w B
    rw [← overwrite_self (h'.tail.set_out (q := first) w (by omega)), hs]
    simp
  | cons x A ih =>
    have h' : m.Holds first (x :: (A ++ v :: B)) := h
    have hv : m (first + (x :: A).length) = some v := by
      have := (Holds.append_right (xs := x :: A) h).head; exact this
    rw [replaceR]
    simp only [Prog.ite_app]
    rw [if_neg (by simp)]
    simp only [Prog.bind_app, List.cons_append, load_eq h'.head, Res.bind_ok, Prog.ite_app, rdRef, load_eq hv, Prog.pure_app]
    have e : first + (x :: (A ++ v :: B)).length = first + 1 + (A ++ v :: B).length := by simp; omega
    have e2 : first + (x :: A).length = first + 1 + A.length := by simp; omega
    by_cases hx : x = v
    · have := ih (m := m.set first w) (first := first + 1) (h'.tail.set_out w (by omega))
      rw [if_pos (by simp [hx])]
      simp only [store_eq w h'.head, Res.bind_ok, e, e2, this, overwrite_cons]
      simp [hx]
    · rw [if_neg (by simp [hx]), e, e2, ih h'.tail]
      have hs := overwrite_cons m first x ((A.map fun x => if x = v then w else x) ++ w :: B)
      have hm : m.set first x = m := by
        funext a
        by_cases e : a = first
        · rw [e, set_same]; exact h'.head.symm
        · exact set_other _ _ e
      rw [hm] at hs
      simp [hx, hs]

/-- **C116, replace_copy.** Both values may be any cells the output does not overwrite, also cells of the source range. -/
theorem replace_copy_own_values {m : Mem T} {first d : Nat} {xs : List T} (h : m.Holds first xs) (ha : m.Alloc d xs.length)
    (hov : d ≤ first ∨ first + xs.length ≤ d) (eq : T → T → Bool) {p q : Nat} {v w : T} (hp : m p = some v) (hq : m q = some w)
    (op : p < d ∨ d + xs.length ≤ p) (oq : q < d ∨ d + xs.length ≤ q) :
    replaceCopyR eq (.cell p) (.cell q) first (first + xs.length) d m =
      .ok (d + xs.length, m.overwrite d (xs.map fun x => if eq x v then w else x)) := by
  induction xs generalizing m first d with
  | nil => rw [replaceCopyR]; simp
  | cons x xs ih =>
    obtain ⟨o, ho⟩ := ha.head
    rw [replaceCopyR]
    simp only [Prog.ite_app]
    rw [if_neg (by simp)]
    simp only [List.length_cons] at hov op oq
    have e : first + (x :: xs).length = first + 1 + xs.length := by simp; omega
    have e2 : d + (x :: xs).length = d + 1 + xs.length := by simp; omega
    have next : ∀ y, replaceCopyR eq (.cell p) (.cell q) (first + 1) (first + 1 + xs.length) (d + 1) (m.set d y) =
        .ok (d + 1 + xs.length, m.overwrite d (y :: xs.map fun x => if eq x v then w else x)) := by
      intro y
      rw [ih (m := m.set d y) (h.tail.set_out y (by omega)) (ha.tail.set y) (by omega) (by rw [set_other _ _ (by omega)]; exact hp)
        (by rw [set_other _ _ (by omega)]; exact hq) (by omega) (by omega), overwrite_cons]
    simp only [Prog.bind_app, load_eq h.head, Res.bind_ok, Prog.ite_app, rdRef, load_eq hp, load_eq hq, store_eq _ ho, e, e2]
    by_cases hx : eq x v = true
    · rw [if_pos hx, next]; simp [hx]
    · rw [if_neg hx, next]; simp [hx]

/-- **C116, remove_copy.** The value may be any cell the output does not overwrite, also a cell of the source range. -/
theorem remove_copy_own_value {m : Mem T} {first d : Nat} {xs : List T} (eq : T → T → Bool) {p : Nat} {v : T} (h : m.Holds first xs)
    (ha : m.Alloc d (xs.filter fun x => !eq x v).length) (hov : d ≤ first ∨ first + xs.length ≤ d) (hp : m p = some v)
    (op : p < d ∨ d + (xs.filter fun x => !eq x v).length ≤ p) :
    removeCopyR eq (.cell p) first (first + xs.length) d m =
      .ok (d + (xs.filter fun x => !eq x v).length, m.overwrite d (xs.filter fun x => !eq x v)) := by
  induction xs generalizing m first d with
  | nil => rw [removeCopyR]; simp
  | cons x xs ih =>
    rw [removeCopyR]
    simp only [Prog.ite_app]
    rw [if_neg (by simp)]
    simp only [List.length_cons] at hov
    have e : first + (x :: xs).length = first + 1 + xs.length := by simp; omega
    simp only [Prog.bind_app, load_eq h.head, Res.bind_ok, Prog.ite_app, rdRef, load_eq hp, e]
    by_cases hx : eq x v = true
    · simp only [List.filter_cons, hx, Bool.not_true, Bool.false_eq_true, if_false] at ha op ⊢
      exact ih h.tail ha (by omega) hp op
    · have hx' : eq x v = false := by simpa using hx
      simp only [List.filter_cons, hx', Bool.not_false, if_true, List.length_cons] at ha op ⊢
      obtain ⟨o, ho⟩ := ha.head
      rw [store_eq x ho]
      simp only [Res.bind_ok]
      rw [ih (m := m.set d x) (h.tail.set_out x (by omega)) (ha.tail.set x) (by omega) (by rw [set_other _ _ (by omega)]; exact hp) (by omega),
        overwrite_cons, show d + 1 + (xs.filter fun x => !eq x v).length = d + ((xs.filter fun x => !eq x v).length + 1) by omega]

/-! ## remove -/

/-- Searching does not write. -/
theorem findR_eq (eq : T → T → Bool) {m : Mem T} {first : Nat} {xs : List T} (h : m.Holds first xs) {p : Nat} {v : T} (hp : m p = some v) :
    findR eq first (first + xs.length) (.cell p) m = find Mem.ptr eq first (first + xs.length) v m := by
  induction xs generalizing first with
  | nil => rw [findR, find]; simp
  | cons x xs ih =>
    rw [findR, find]
    have e : first + (x :: xs).length = first + 1 + xs.length := by simp; omega
    simp only [Prog.ite_app]
    rw [if_neg (by simp), if_neg (by simp)]
    simp only [Mem.ptr, Prog.bind_app, load_eq h.head, Res.bind_ok, Prog.ite_app, rdRef, load_eq hp, Prog.pure_app, e]
    rw [ih h.tail]
    rfl

/-- A cell that is neither written nor moved from can be read as often as one likes. -/
theorem removeLoopR_eq (residue : T → T) (eq : T → T → Bool) {p last : Nat} {v : T} : ∀ (n : Nat) {m : Mem T} {first i : Nat}, i + 1 + n = last →
    m p = some v → (p < first ∨ last ≤ p) → first ≤ i →
    removeLoopR residue eq (.cell p) first i last m = removeLoop residue (fun x => eq x v) first i last m := by
  intro n
  induction n with
  | zero => intro m first i hn hp ho hi; rw [removeLoopR, removeLoop]; simp [show i + 1 = last by omega]
  | succ n ih =>
    intro m first i hn hp ho hi
    rw [removeLoopR, removeLoop]
    simp only [Prog.ite_app]
    rw [if_neg (by omega), if_neg (by omega)]
    simp only [Prog.bind_app, rdRef, load_eq hp]
    cases hx : m (i + 1) with
    | none => simp [load, hx]
    | some x =>
      simp only [load_eq hx, Res.bind_ok, load_eq hp, Prog.ite_app]
      by_cases he : eq x v = true
      · simp only [he, Bool.not_true, Bool.false_eq_true, if_false]
        exact ih (by omega) hp ho (by omega)
      · have he' : eq x v = false := by simpa using he
        simp only [he', Bool.not_false, if_true, moveFrom, Prog.bind_app, load_eq hx, Res.bind_ok, store_eq _ hx, Prog.pure_app]
        cases hf : (m.set (i + 1) (residue x)) first with
        | none => simp [store, hf]
        | some y =>
          rw [store_eq x hf]
          simp only [Res.bind_ok]
          refine ih (by omega) ?_ (by omega) (by omega)
          rw [set_other _ _ (by omega), set_other _ _ (by omega)]; exact hp

/-- **C116, remove, the part that holds.** `remove(first, last, *p)` with `p` outside the range removes the elements equal to `*p`. -/
theorem remove_other_value_partial (residue : T → T) (eq : T → T → Bool) {m : Mem T} {first : Nat} {xs : List T} (h : m.Holds first xs) {p : Nat}
    {v : T} (hp : m p = some v) (hout : p < first ∨ first + xs.length ≤ p) :
    ∃ junk, junk.length = (xs.filter fun x => eq x v).length ∧
      removeR residue eq (.cell p) first (first + xs.length) m =
      .ok (first + (xs.filter fun x => !eq x v).length, m.overwrite first ((xs.filter fun x => !eq x v) ++ junk)) := by
  obtain ⟨junk, h1, h2⟩ := remove_compacts residue eq v h
  refine ⟨junk, h1, ?_⟩
  rw [← h2]
  obtain ⟨r, f1, f2⟩ := find_returns_first_match h.range eq v
  have := Mem.ptr_reach f2
  subst this
  unfold removeR remove
  simp only [Prog.bind_app, findR_eq eq h hp, f1, Res.bind_ok, Prog.ite_app]
  by_cases hl : xs.findIdx (fun x => eq x v) < xs.length
  · rw [if_pos (by omega), if_pos (by omega)]
    exact removeLoopR_eq residue eq (xs.length - xs.findIdx (fun x => eq x v) - 1) (by omega) hp (by omega) (Nat.le_refl _)
  · have hl2 := List.findIdx_le_length (p := fun x => eq x v) (xs := xs)
    rw [if_neg (by intro hh; apply hh; omega), if_neg (by intro hh; apply hh; omega)]

/-- **C116 is false for remove.** `remove(first, last, *p)` where `*p` is the first element with its value: once the first element that is
kept has been moved to `*p`, the remaining elements are compared with *that* element: its duplicates are removed, and the remaining
elements equal to the original `*p` are kept. -/
theorem remove_own_value [DecidableEq T] (residue : T → T) {m : Mem T} {first : Nat} {A M R : List T} {v y : T}
    (h : m.Holds first (A ++ v :: (M ++ y :: R))) (hA : v ∉ A) (hM : ∀ x ∈ M, x = v) (hy : y ≠ v) :
    ∃ junk, removeR residue (fun a b => decide (a = b)) (.cell (first + A.length)) first (first + (A ++ v :: (M ++ y :: R)).length) m =
      .ok (first + (A ++ y :: R.filter fun x => decide (x ≠ y)).length, m.overwrite first ((A ++ y :: R.filter fun x => decide (x ≠ y)) ++ junk)) := by
  have hv : m (first + A.length) = some v := h.append_right.head
  -- the search stops at the designated element
  have hfind : (A ++ v :: (M ++ y :: R)).findIdx (fun x => decide (x = v)) = A.length := by
    rw [List.findIdx_append]
    have : A.findIdx (fun x => decide (x = v)) = A.length := by
      rw [List.findIdx_eq_length]; intro x hx; simp; intro e; exact hA (e ▸ hx)
    simp [this, List.findIdx_cons]
  obtain ⟨r, f1, f2⟩ := find_returns_first_match h.range (fun a b => decide (a = b)) v
  have := Mem.ptr_reach f2
  subst this
  rw [hfind] at f1
  unfold removeR
  simp only [Prog.bind_app, findR_eq _ h hv, f1, Res.bind_ok, Prog.ite_app]
  rw [if_pos (by simp)]
  -- skip the elements equal to it
  have skip : ∀ (M1 M2 : List T), M1 ++ M2 = M →
      removeLoopR residue (fun a b => decide (a = b)) (.cell (first + A.length)) (first + A.length) (first + A.length + M1.length)
        (first + (A ++ v :: (M ++ y :: R)).length) m =
      removeLoopR residue (fun a b => decide (a = b)) (.cell (first + A.length)) (first + A.length) (first + A.length + M.length)
        (first + (A ++ v :: (M ++ y :: R)).length) m := by
    intro M1 M2
    induction M2 generalizing M1 with
    | nil => intro e; simp at e; rw [e]
    | cons x M2 ih =>
      intro e
      rw [← ih (M1 ++ [x]) (by simpa using e)]
      have hx : m (first + A.length + M1.length + 1) = some v := by
        have h1 := h.append_right.tail
        rw [← e] at h1
        have h2 : m.Holds (first + A.length + 1) (M1 ++ (x :: (M2 ++ y :: R))) := by simpa using h1
        have := h2.append_right.head
        rw [show first + A.length + 1 + M1.length = first + A.length + M1.length + 1 by omega] at this
        rw [this, hM x (by rw [← e]; simp)]
      rw [removeLoopR]
      simp only [Prog.ite_app]
      rw [if_neg (by simp [← e]; omega)]
      simp only [Prog.bind_app, rdRef, load_eq hx, load_eq hv, Res.bind_ok, Prog.ite_app, decide_true, Bool.not_true, Bool.false_eq_true, if_false]
      simp [Nat.add_assoc]
  have s0 := skip [] M rfl
  simp only [List.length_nil, Nat.add_zero] at s0
  rw [s0]
  -- the first kept element goes to the designated cell
  have hy' : m (first + A.length + M.length + 1) = some y := by
    have := h.append_right.tail.append_right.head
    rw [show first + A.length + 1 + M.length = first + A.length + M.length + 1 by omega] at this
    exact this
  rw [removeLoopR]
  simp only [Prog.ite_app]
  rw [if_neg (by simp; omega)]
  have hne : (first + A.length) ≠ first + A.length + M.length + 1 := by omega
  simp only [Prog.bind_app, rdRef, load_eq hy', load_eq hv, Res.bind_ok, Prog.ite_app, hy, decide_false, Bool.not_false, if_true, moveFrom,
    store_eq _ hy', Prog.pure_app]
  rw [store_eq y (by rw [set_other _ _ hne]; exact hv)]
  simp only [Res.bind_ok]
  let m' := (m.set (first + A.length + M.length + 1) (residue y)).set (first + A.length) y
  have hL : first + (A ++ v :: (M ++ y :: R)).length = first + A.length + M.length + 1 + 1 + R.length := by simp; omega
  rw [removeLoopR_eq residue _ R.length (v := y) (by rw [hL]) (set_same _ _ _) (by omega) (by omega)]
  -- from here it is `remove` of `y`
  have hm' : m' = m.overwrite first ((A ++ [y]) ++ ((M ++ [residue y]) ++ R)) := by
    have h1 : m.set (first + A.length + M.length + 1) (residue y) = m.overwrite first (A ++ v :: (M ++ residue y :: R)) := by
      have h' : m.Holds first ((A ++ v :: M) ++ y :: R) := by simpa using h
      have := set_eq_overwrite_mid h' (residue y)
      rw [show first + (A ++ v :: M).length = first + A.length + M.length + 1 by simp; omega] at this
      rw [this]; simp
    have h2 := set_eq_overwrite_mid (overwrite_holds m first (A ++ v :: (M ++ residue y :: R))) y
    show (m.set _ _).set _ _ = _
    rw [h1, h2, overwrite_overwrite _ _ _ _ (by simp)]
    simp
  have hH' : m'.Holds first ((A ++ [y]) ++ ((M ++ [residue y]) ++ R)) := by rw [hm']; exact overwrite_holds _ _ _
  obtain ⟨junk, h1, h2⟩ := removeLoop_spec residue (fun x => decide (x = y)) (m := m') (base := first) (kept := A ++ [y]) (junk := M ++ [residue y])
    (rest := R) (by simp) hH'
  refine ⟨junk, ?_⟩
  have e1 : first + (A ++ [y]).length = first + A.length + 1 := by simp; omega
  have e2 : first + (A ++ [y]).length + (M ++ [residue y]).length - 1 = first + A.length + M.length + 1 := by simp; omega
  have e3 : first + (A ++ [y] ++ (M ++ [residue y] ++ R)).length = first + (A ++ v :: (M ++ y :: R)).length := by simp
  rw [e2, e3, e1] at h2
  rw [show ((m.set (first + A.length + M.length + 1) (residue y)).set (first + A.length) y) = m' from rfl, h2]
  have hl := length_filter_add (fun x => decide (x = y)) R
  have fe : (R.filter fun x => !decide (x = y)) = R.filter fun x => decide (x ≠ y) := by congr 1; funext x; simp
  have lens : (A ++ [y] ++ (M ++ [residue y] ++ R)).length = (A ++ [y] ++ (R.filter fun x => !decide (x = y)) ++ junk).length := by
    simp only [List.length_append, List.length_cons, List.length_nil] at h1 ⊢
    omega
  rw [hm', overwrite_overwrite _ _ _ _ lens, fe]
  simp only [List.append_assoc, List.cons_append, List.nil_append, List.length_append, List.length_cons]
  rw [show first + A.length + 1 + (R.filter fun x => decide (x ≠ y)).length = first + (A.length + ((R.filter fun x => decide (x ≠ y)).length + 1)) by omega]

/-- Concrete cases: `fill(v.begin(), v.end(), v[1])`, `replace(v.begin(), v.end(), v[1], 9)` and `remove(v.begin(), v.end(), v[0])`. -/
example : fillR 0 3 (.cell 1) (Mem.ofList [1, 2, 3]) = .ok ((), (Mem.ofList [1, 2, 3]).overwrite 0 [2, 2, 2]) ∧
    replaceR (fun x y => decide (x = y)) (.cell 1) (.ext 9) 0 4 (Mem.ofList [2, 2, 2, 5]) = .ok ((), (Mem.ofList [2, 2, 2, 5]).overwrite 0 [9, 9, 2, 5]) ∧
    ∃ junk, removeR id (fun a b => decide (a = b)) (.cell 0) 0 5 (Mem.ofList [1, 2, 1, 2, 3]) =
      .ok (3, (Mem.ofList [1, 2, 1, 2, 3]).overwrite 0 ([2, 1, 3] ++ junk)) := by
  refine ⟨fill_own_value (n := 3) (Mem.holds_ofList [1, 2, 3]).alloc rfl,
    replace_own_old_value (A := [2]) (B := [2, 5]) (Mem.holds_ofList [2, 2, 2, 5]), ?_⟩
  exact remove_own_value id (first := 0) (A := []) (M := []) (R := [1, 2, 3]) (Mem.holds_ofList [1, 2, 1, 2, 3]) (by simp) (by simp) (by simp)

end Verif.Algo
