import Verif.Algorithm.Generic
import Verif.Algorithm.CellsLemmas
/-!
# Specifications for the generic algorithms

`Window I pos n mem`: the iterators `pos 0 … pos n` of type `I` are the positions of a sequence of `n` objects (`pos n` is its end), and
`mem xs` is the memory in which the sequence has the values `xs` and everything else has fixed values. `Flow` is the weakest thing an
algorithm that reads a range and writes to an output iterator needs.
-/
namespace Verif.Gen
open Verif
variable {σ ι κ ω T U V δ : Type}

/-! ## What a functor with state does to a sequence -/

/-- Calls on `x₀, x₁, …` until one is true: the number of false answers, and the state after the last call. -/
def scanS (p : Fn δ T Bool) : δ → List T → Nat × δ
  | d, [] => (0, d)
  | d, x :: xs => if (p x d).1 then (0, (p x d).2) else ((scanS p (p x d).2 xs).1 + 1, (scanS p (p x d).2 xs).2)

/-- The elements for which the functor answers `true`, one call for each element in order. -/
def filterS (p : Fn δ T Bool) : δ → List T → List T × δ
  | d, [] => ([], d)
  | d, x :: xs => (if (p x d).1 then x :: (filterS p (p x d).2 xs).1 else (filterS p (p x d).2 xs).1, (filterS p (p x d).2 xs).2)

/-- The results of one call for each element in order. -/
def mapS (f : Fn δ T U) : δ → List T → List U × δ
  | d, [] => ([], d)
  | d, x :: xs => ((f x d).1 :: (mapS f (f x d).2 xs).1, (mapS f (f x d).2 xs).2)

/-- The opposite answers. -/
def notS (p : Fn δ T Bool) : Fn δ T Bool := fun x d => (!(p x d).1, (p x d).2)

/-- `newval` where the functor answers `true`, the element elsewhere. -/
def replS (p : Fn δ T Bool) (newval : T) : Fn δ T T := fun x d => (if (p x d).1 then newval else x, (p x d).2)

/-- A pure function as a functor which keeps a list of its arguments. -/
def logged (f : T → U) : Fn (List T) T U := fun x log => (f x, log ++ [x])

theorem filterS_length (p : Fn δ T Bool) : ∀ (xs : List T) (d : δ), (filterS p d xs).1.length ≤ xs.length
  | [], _ => by simp [filterS]
  | x :: xs, d => by
    have := filterS_length p xs (p x d).2
    simp only [filterS]; split <;> simp <;> omega

theorem mapS_length (f : Fn δ T U) : ∀ (xs : List T) (d : δ), (mapS f d xs).1.length = xs.length
  | [], _ => rfl
  | x :: xs, d => by simp [mapS, mapS_length f xs]

theorem scanS_le (p : Fn δ T Bool) : ∀ (xs : List T) (d : δ), (scanS p d xs).1 ≤ xs.length
  | [], _ => by simp [scanS]
  | x :: xs, d => by
    have := scanS_le p xs (p x d).2
    simp only [scanS]; split <;> simp <;> omega

/-- A functor without state, called by `filterS`, filters, and is called exactly once for each element in order. -/
theorem filterS_logged (q : T → Bool) : ∀ (xs log : List T), filterS (logged q) log xs = (xs.filter q, log ++ xs)
  | [], log => by simp [filterS]
  | x :: xs, log => by
    simp only [filterS, logged, filterS_logged q xs, List.filter_cons, Prod.mk.injEq, List.append_assoc, List.singleton_append, and_true]

theorem mapS_logged (f : T → U) : ∀ (xs log : List T), mapS (logged f) log xs = (xs.map f, log ++ xs)
  | [], log => by simp [mapS]
  | x :: xs, log => by simp only [mapS, logged, mapS_logged f xs, List.map_cons, List.append_assoc, List.singleton_append]

theorem scanS_logged (q : T → Bool) : ∀ (xs log : List T), scanS (logged q) log xs = (xs.findIdx q, log ++ xs.take (xs.findIdx q + 1))
  | [], log => by simp [scanS]
  | x :: xs, log => by
    simp only [scanS, logged, scanS_logged q xs, List.findIdx_cons]
    cases q x <;> simp

theorem filterS_pure (q : T → Bool) (d : δ) : ∀ xs : List T, filterS (fun x d => (q x, d)) d xs = (xs.filter q, d)
  | [] => rfl
  | x :: xs => by simp only [filterS, filterS_pure q d xs, List.filter_cons]

theorem mapS_pure (f : T → U) (d : δ) : ∀ xs : List T, mapS (fun x d => (f x, d)) d xs = (xs.map f, d)
  | [] => rfl
  | x :: xs => by simp only [mapS, mapS_pure f d xs, List.map_cons]

theorem scanS_pure (q : T → Bool) (d : δ) : ∀ xs : List T, scanS (fun x d => (q x, d)) d xs = (xs.findIdx q, d)
  | [] => rfl
  | x :: xs => by
    simp only [scanS, scanS_pure q d xs, List.findIdx_cons]
    cases q x <;> rfl

/-! ## Windows -/

/-- A sequence of `n` objects under the iterators `pos 0 … pos (n-1)`, with the end `pos n`. -/
structure Window (I : WIter σ ι T) (pos : Nat → ι) (n : Nat) (mem : List T → σ) : Prop where
  inj : ∀ i j, i ≤ n → j ≤ n → pos i = pos j → i = j
  deref : ∀ xs, xs.length = n → ∀ i x, xs[i]? = some x → I.deref (pos i) (mem xs) = .ok (x, mem xs)
  assign : ∀ xs, xs.length = n → ∀ i, i < n → ∀ v, I.assign (pos i) v (mem xs) = .ok ((), mem (xs.set i v))
  next : ∀ xs, xs.length = n → ∀ i, i < n → I.next (pos i) (mem xs) = .ok (pos (i + 1), mem xs)

/-- `--` works as well. -/
structure BiWindow (I : WIter σ ι T) (pos : Nat → ι) (n : Nat) (mem : List T → σ) : Prop extends Window I pos n mem where
  prev : ∀ xs, xs.length = n → ∀ i, i < n → I.prev (pos (i + 1)) (mem xs) = .ok (pos i, mem xs)

/-- Two sequences that have no object in common. -/
structure Window2 (I : WIter σ ι T) (pos : Nat → ι) (n : Nat) (J : WIter σ κ U) (pos' : Nat → κ) (n' : Nat) (mem : List T → List U → σ) : Prop where
  left : ∀ ys, ys.length = n' → Window I pos n (fun xs => mem xs ys)
  right : ∀ xs, xs.length = n → Window J pos' n' (mem xs)

section Window
variable {I : WIter σ ι T} {pos : Nat → ι} {n : Nat} {mem : List T → σ}

theorem Window.deref_at (W : Window I pos n mem) {A R : List T} {x : T} (hl : (A ++ x :: R).length = n) :
    I.deref (pos A.length) (mem (A ++ x :: R)) = .ok (x, mem (A ++ x :: R)) :=
  W.deref _ hl _ _ (by simp)

theorem Window.assign_at (W : Window I pos n mem) {A R : List T} {x : T} (hl : (A ++ x :: R).length = n) (v : T) :
    I.assign (pos A.length) v (mem (A ++ x :: R)) = .ok ((), mem (A ++ v :: R)) := by
  rw [W.assign _ hl _ (by simp at hl; omega) v]
  simp

theorem Window.next_at (W : Window I pos n mem) {xs : List T} (hl : xs.length = n) {i : Nat} (hi : i < n) :
    I.next (pos i) (mem xs) = .ok (pos (i + 1), mem xs) := W.next _ hl _ hi

theorem Window.ne (W : Window I pos n mem) {i j : Nat} (hi : i < j) (hj : j ≤ n) : pos i ≠ pos j := by
  intro e; have := W.inj i j (by omega) hj e; omega

/-- A part of a window is a window. -/
theorem Window.slice (W : Window I pos n mem) (A B : List T) (k : Nat) (hn : A.length + k + B.length = n) :
    Window I (fun i => pos (A.length + i)) k (fun xs => mem (A ++ xs ++ B)) := by
  refine ⟨?_, ?_, ?_, ?_⟩
  · intro i j hi hj e
    have := W.inj _ _ (by omega) (by omega) e
    omega
  · intro xs hl i x hx
    have hi : i < xs.length := (List.getElem?_eq_some_iff.1 hx).1
    refine W.deref _ (by simp; omega) _ _ ?_
    rw [List.append_assoc, List.getElem?_append_right (by omega), Nat.add_sub_cancel_left, List.getElem?_append_left hi, hx]
  · intro xs hl i hi v
    rw [W.assign _ (by simp; omega) _ (by omega)]
    rw [List.append_assoc, List.set_append_right _ _ (by omega), Nat.add_sub_cancel_left, List.set_append_left _ _ (by omega), List.append_assoc]
  · intro xs hl i hi
    rw [W.next _ (by simp; omega) _ (by omega)]
    rfl

theorem BiWindow.slice (W : BiWindow I pos n mem) (A B : List T) (k : Nat) (hn : A.length + k + B.length = n) :
    BiWindow I (fun i => pos (A.length + i)) k (fun xs => mem (A ++ xs ++ B)) := by
  refine ⟨W.toWindow.slice A B k hn, ?_⟩
  intro xs hl i hi
  exact W.prev _ (by simp; omega) (A.length + i) (by omega)

/-- A window is a valid range for all the read-only algorithms. -/
theorem Window.range (W : Window I pos n mem) : ∀ (R A : List T), (A ++ R).length = n →
    Iter.Range I.toIter (mem (A ++ R)) (pos A.length) R (pos n) := by
  intro R
  induction R with
  | nil => intro A hl; simp only [List.append_nil] at hl; rw [hl]; exact .nil _
  | cons x R ih =>
    intro A hl
    have hl' : A.length < n := by simp at hl; omega
    refine .cons (mid := pos (A.length + 1)) (W.ne hl' (Nat.le_refl _)) (W.deref_at hl) (W.next _ hl _ hl') ?_
    have := ih (A ++ [x]) (by simpa using hl)
    simpa using this

theorem Window.reach (W : Window I pos n mem) {xs : List T} (hl : xs.length = n) : ∀ (k i : Nat), i + k ≤ n →
    Iter.Reach I.toIter (mem xs) (pos i) k (pos (i + k)) := by
  intro k
  induction k with
  | zero => intro i _; exact .zero _
  | succ k ih =>
    intro i hi
    refine .succ (W.next _ hl _ (by omega)) ?_
    have := ih (i + 1) (by omega)
    rwa [show i + 1 + k = i + (k + 1) by omega] at this
end Window

/-- Input for output: after the outputs `out` the memory is `mem out`; the inputs not read so far are as at the start; the next output goes
to `dst out.length`. There is room for `cap` outputs, and never more outputs than inputs read. -/
structure Flow (I : Iter σ ι T) (J : WIter σ κ U) (src : Nat → ι) (xs : List T) (dst : Nat → κ) (cap : Nat) (mem : List U → σ) : Prop where
  ne : ∀ i, i < xs.length → src i ≠ src xs.length
  deref : ∀ out i x, out.length ≤ i → out.length ≤ cap → xs[i]? = some x → I.deref (src i) (mem out) = .ok (x, mem out)
  next : ∀ out i, out.length ≤ i + 1 → out.length ≤ cap → i < xs.length → I.next (src i) (mem out) = .ok (src (i + 1), mem out)
  assign : ∀ out v, out.length < cap → out.length < xs.length → J.assign (dst out.length) v (mem out) = .ok ((), mem (out ++ [v]))
  out : ∀ out v, out.length < cap → out.length < xs.length → J.next (dst out.length) (mem (out ++ [v])) = .ok (dst (out.length + 1), mem (out ++ [v]))

/-- Separate input and output. -/
theorem Window2.flow {I : WIter σ ι T} {pos : Nat → ι} {n : Nat} {J : WIter σ κ U} {pos' : Nat → κ} {n' : Nat} {mem : List T → List U → σ}
    (W : Window2 I pos n J pos' n' mem) {xs : List T} {ys : List U} (hx : xs.length = n) (hy : ys.length = n') :
    Flow I.toIter J pos xs pos' n' (fun out => mem xs (out ++ ys.drop out.length)) := by
  have len : ∀ out : List U, out.length ≤ n' → (out ++ ys.drop out.length).length = n' := by intro out h; simp; omega
  refine ⟨?_, ?_, ?_, ?_, ?_⟩
  · intro i hi e
    have := (W.left ys hy).inj i xs.length (by omega) (by omega) e
    omega
  · intro out i x _ h h'
    exact (W.left _ (len out h)).deref xs hx i x h'
  · intro out i _ h hi
    exact (W.left _ (len out h)).next xs hx i (by omega)
  · intro out v h _
    rw [(W.right xs hx).assign _ (len out (by omega)) _ h v]
    have : out.length < ys.length := by omega
    rw [List.set_append_right _ _ (Nat.le_refl _), Nat.sub_self, List.drop_eq_getElem_cons this, List.set_cons_zero]
    simp
  · intro out v h _
    exact (W.right xs hx).next _ (len _ (by simp; omega)) _ h

/-- Input and output in one sequence, the output not behind the input: `f(first, last, d_first)` with `d_first <= first`. -/
theorem Window.flow_self {I : WIter σ ι T} {pos : Nat → ι} {n : Nat} {mem : List T → σ} (W : Window I pos n mem) {A B C D : List T}
    (hl : (A ++ B ++ C ++ D).length = n) :
    Flow I.toIter I (fun i => pos (A.length + B.length + i)) C (fun i => pos (A.length + i)) C.length
      (fun out => mem (A ++ out ++ (B ++ C ++ D).drop out.length)) := by
  have len : ∀ out : List T, out.length ≤ C.length → (A ++ out ++ (B ++ C ++ D).drop out.length).length = n := by
    intro out h; simp at hl ⊢; omega
  simp only [List.length_append] at hl
  refine ⟨?_, ?_, ?_, ?_, ?_⟩
  · intro i hi e
    have := W.inj _ _ (by omega) (by omega) e
    omega
  · intro out i x h h' hx
    have hi : i < C.length := (List.getElem?_eq_some_iff.1 hx).1
    refine W.deref _ (len out h') _ _ ?_
    rw [List.append_assoc, List.getElem?_append_right (by omega), List.getElem?_append_right (by omega), List.getElem?_drop]
    rw [show out.length + (A.length + B.length + i - A.length - out.length) = B.length + i by omega]
    rw [List.append_assoc, List.getElem?_append_right (by omega), Nat.add_sub_cancel_left, List.getElem?_append_left hi, hx]
  · intro out i h h' hi
    exact W.next _ (len out h') _ (by omega)
  · intro out v h _
    rw [W.assign _ (len out (by omega)) _ (by omega) v]
    have : out.length < (B ++ C ++ D).length := by simp; omega
    rw [List.append_assoc, List.set_append_right _ _ (by omega), Nat.add_sub_cancel_left, List.set_append_right _ _ (Nat.le_refl _), Nat.sub_self,
      List.drop_eq_getElem_cons this, List.set_cons_zero]
    simp
  · intro out v h _
    exact W.next _ (len _ (by simp; omega)) _ (by omega)

/-- Cells of a flat memory, as pointers. -/
def ptrW : WIter (Mem T) Nat T where
  toIter := Mem.ptr
  assign := Mem.store
  prev p := do
    Prog.need (0 < p) .access
    pure (p - 1)

end Verif.Gen
