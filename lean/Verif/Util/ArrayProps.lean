import Verif.Util.ArrayModel
import Verif.Algorithm.MutatingProps
import Verif.Algorithm.ReadOnlyProps2
/-!
# Properties of `ttl::array`

A client has any number of arrays, of any sizes, at disjoint places of memory (`Arrays`). `Observes A m c xs` says that every observer of the array `c` answers
according to the sequence `xs`. A history is any sequence of `fill`, assignment to an element, `swap` and `=` on any of the arrays, where arguments may be
elements of any of them.
-/
set_option linter.unusedVariables false
set_option linter.unusedSimpArgs false
namespace Verif.Arr.ArrProps
open Verif Verif.Arr
variable {T : Type} {m m' : Mem T} {N a b c d i n : Nat} {xs ys zs : List T}

/-- The arrays of a client: which exist, where they are, their template argument `N`. -/
structure Arrays where
  dom : Nat → Prop
  base : Nat → Nat
  sz : Nat → Nat
  apart : ∀ c d, dom c → dom d → c ≠ d → base c + cells (sz c) ≤ base d ∨ base d + cells (sz d) ≤ base c

/-- The array at `a` has the elements `xs`; all of its cells exist (for `N = 0` there is one cell, without an element). -/
structure Is (N : Nat) (m : Mem T) (a : Nat) (xs : List T) : Prop where
  alloc : m.Alloc a (cells N)
  length : xs.length = N
  holds : m.Holds a xs

/-- Every observer of the array `c` answers according to `xs`. -/
structure Observes (A : Arrays) (m : Mem T) (c : Nat) (xs : List T) : Prop where
  size : size (A.sz c) = xs.length
  empty : empty (A.sz c) = xs.isEmpty
  /-- `for (it = begin(); it != end(); ++it)` visits `xs`. -/
  forward : Algo.accumulate Mem.ptr (fun l x => l ++ [x]) (begin_ (A.base c)) (end_ (A.sz c) (A.base c)) [] m = .ok (xs, m)
  index : ∀ i x, xs[i]? = some x → (do Mem.load (← at_ (A.sz c) (A.base c) i) : Prog (Mem T) T) m = .ok (x, m)
  front : ∀ x, xs.head? = some x → Mem.load (front (A.base c)) m = .ok (x, m)
  back : ∀ x, xs.getLast? = some x → Mem.load (back (A.sz c) (A.base c)) m = .ok (x, m)

/-- The contents of all arrays. -/
abbrev State (T : Type) := Nat → List T
/-- `c` gets the contents `xs`. -/
def State.put (S : State T) (c : Nat) (xs : List T) : State T := fun d => if d = c then xs else S d

/-- Memory `m` holds the arrays with the contents `S`. -/
def World (A : Arrays) (m : Mem T) (S : State T) : Prop := ∀ c, A.dom c → Is (A.sz c) m (A.base c) (S c)

/-- The arguments of a client: a value, or an element of an array. -/
inductive CArg (T : Type) where
  | ext (v : T)
  | elem (d i : Nat)
/-- The C++ expression: `v`, or `d[i]`. -/
def CArg.expr (A : Arrays) : CArg T → Prog (Mem T) (Arg T)
  | .ext v => pure (.ext v)
  | .elem d i => do return .cell (← at_ (A.sz d) (A.base d) i)
/-- Its value. -/
def CArg.val (S : State T) : CArg T → Option T
  | .ext v => some v
  | .elem d i => (S d)[i]?
/-- It refers to something. -/
def CArg.Ok (A : Arrays) : CArg T → Prop
  | .ext _ => True
  | .elem d i => A.dom d ∧ i < A.sz d

/-- The operations of a history. -/
inductive Op (T : Type) where
  /-- `c.fill(v)` -/
  | fill (c : Nat) (v : CArg T)
  /-- `c[i] = v` -/
  | store (c i : Nat) (v : CArg T)
  /-- `c.swap(d)` -/
  | swap (c d : Nat)
  /-- `c = d` -/
  | assign (c d : Nat)

/-- The operation on the arrays. -/
def Op.run (A : Arrays) : Op T → Prog (Mem T) Unit
  | .fill c v => do Arr.fill (A.sz c) (A.base c) (← v.expr A)
  | .store c i v => do
    let x ← (← v.expr A).get
    Mem.store (← at_ (A.sz c) (A.base c) i) x
  | .swap c d => Arr.swap (A.sz c) (A.base c) (A.base d)
  | .assign c d => Arr.assign (A.sz c) (A.base c) (A.base d)

/-- The same operation on mathematical sequences. -/
def Op.apply : Op T → State T → State T
  | .fill c v, S => match v.val S with | some x => S.put c (List.replicate (S c).length x) | none => S
  | .store c i v, S => match v.val S with | some x => S.put c ((S c).set i x) | none => S
  | .swap c d, S => (S.put c (S d)).put d (S c)
  | .assign c d, S => S.put c (S d)

/-- What the compiler and the client must ensure: the arrays exist, indices are in range, `swap` and `=` are between arrays of one type. -/
def Op.Ok (A : Arrays) : Op T → Prop
  | .fill c v => A.dom c ∧ v.Ok A
  | .store c i v => A.dom c ∧ i < A.sz c ∧ v.Ok A
  | .swap c d => A.dom c ∧ A.dom d ∧ A.sz c = A.sz d
  | .assign c d => A.dom c ∧ A.dom d ∧ A.sz c = A.sz d

/-- The history on the arrays. -/
def runOps (A : Arrays) : List (Op T) → Prog (Mem T) Unit
  | [] => pure ()
  | o :: os => do o.run A; runOps A os
/-- The history on mathematical sequences. -/
def applyOps (os : List (Op T)) (S : State T) : State T := os.foldl (fun S o => o.apply S) S

/-! ## Lemmas -/

theorem cells_ge (N : Nat) : N ≤ cells N := by unfold cells; split <;> omega
theorem cells_pos (N : Nat) : 0 < cells N := by unfold cells; split <;> omega

theorem is_observes {A : Arrays} (h : Is (A.sz c) m (A.base c) xs) : Observes A m c xs := by
  have ix : ∀ i x, xs[i]? = some x → m (A.base c + i) = some x := fun i x e => by
    obtain ⟨l, rfl⟩ := List.getElem?_eq_some_iff.1 e
    exact h.holds i l
  refine ⟨h.length.symm, ?_, ?_, ?_, ?_, ?_⟩
  · simp only [empty, size, ← h.length]; cases xs <;> rfl
  · have := Algo.accumulate_folds h.holds.range (fun (l : List T) x => l ++ [x]) []
    rw [h.length] at this
    simp only [begin_, end_, this]
    have : ∀ (xs l : List T), xs.foldl (fun l x => l ++ [x]) l = l ++ xs := by
      intro xs; induction xs with
      | nil => simp
      | cons x xs ih => intro l; simp [ih]
    rw [this]; rfl
  · intro i x e
    have l := (List.getElem?_eq_some_iff.1 e).1
    rw [h.length] at l
    have := cells_ge (A.sz c)
    simp only [at_, Prog.bind_app, Prog.need_app, if_pos (show i < cells (A.sz c) by omega), Res.bind_ok, Prog.pure_app, Mem.load_eq (ix i x e)]
  · intro x e
    rw [List.head?_eq_getElem?] at e
    exact Mem.load_eq (ix 0 x e)
  · intro x e
    rw [List.getLast?_eq_getElem?] at e
    have l := (List.getElem?_eq_some_iff.1 e).1
    have := ix _ x e
    rw [h.length] at l this
    simp only [back, end_]
    rw [if_pos (by omega), show A.base c + A.sz c - 1 = A.base c + (A.sz c - 1) by omega]
    exact Mem.load_eq this

theorem Observes.inj {A : Arrays} (p : Observes A m c xs) (q : Observes A m c ys) : xs = ys := by
  have := p.forward.symm.trans q.forward; cases this; rfl

theorem load_inv {p : Nat} {x : T} (h : Mem.load p m = .ok (x, m)) : m p = some x := by
  unfold Mem.load at h
  cases g : m p with
  | none => rw [g] at h; cases h
  | some u => rw [g] at h; cases h; rfl

theorem Observes.holds {A : Arrays} (o : Observes A m c xs) : m.Holds (A.base c) xs := by
  intro i l
  refine load_inv ?_
  have hs : A.sz c = xs.length := o.size
  have ge := cells_ge (A.sz c)
  have := o.index i _ (List.getElem?_eq_getElem l)
  simp only [at_, Prog.bind_app, Prog.need_app, if_pos (show i < cells (A.sz c) by omega), Res.bind_ok, Prog.pure_app] at this
  exact this

theorem put_same (S : State T) (c : Nat) (xs : List T) : S.put c xs c = xs := by simp [State.put]
theorem put_other (S : State T) {c d : Nat} (q : d ≠ c) (xs : List T) : S.put c xs d = S d := by simp [State.put, q]

/-- Writing all elements of an array. -/
theorem World.overwrite {A : Arrays} {S : State T} (W : World A m S) (hc : A.dom c) (l1 : A.sz c ≤ ys.length) (l2 : ys.length ≤ cells (A.sz c)) :
    World A (m.overwrite (A.base c) ys) (S.put c (ys.take (A.sz c))) := by
  have al : ∀ p n, m.Alloc p n → (m.overwrite (A.base c) ys).Alloc p n := by
    intro p n q j hj
    by_cases z : A.base c ≤ p + j ∧ p + j - A.base c < ys.length
    · exact ⟨_, by unfold Mem.overwrite; rw [dif_pos z]⟩
    · obtain ⟨v, hv⟩ := q j hj
      exact ⟨v, by unfold Mem.overwrite; rw [dif_neg z]; exact hv⟩
  intro d hd
  by_cases q : d = c
  · subst q; rw [put_same]
    refine ⟨al _ _ (W d hd).alloc, by simp; omega, ?_⟩
    intro j hj
    simp only [List.length_take] at hj
    rw [Mem.overwrite_at j (by omega)]; simp
  · rw [put_other S q]
    have w := W d hd
    refine ⟨al _ _ w.alloc, w.length, ?_⟩
    intro j hj
    rw [Mem.overwrite_out]
    · exact w.holds j hj
    · have := A.apart c d hc hd (Ne.symm q)
      have := cells_ge (A.sz d)
      have := w.length; omega

theorem fillNRef_ok {v : T} {x : Arg T} (ha : m.Alloc a n) (hx : x.get m = .ok (v, m)) : fillNRef a n x m = .ok (a + n, m.overwrite a (List.replicate n v)) := by
  induction n generalizing m a with
  | zero => rw [fillNRef]; simp
  | succ n ih =>
    obtain ⟨w, hw⟩ := ha.head
    have hx' : x.get (m.set a v) = .ok (v, m.set a v) := by
      cases x with
      | ext u => simp only [Arg.get, Prog.pure_app, Res.ok.injEq, Prod.mk.injEq, and_true] at hx ⊢; exact hx
      | cell p =>
        simp only [Arg.get] at hx ⊢
        have mp : m p = some v := by
          unfold Mem.load at hx
          cases g : m p with
          | none => rw [g] at hx; cases hx
          | some u => rw [g] at hx; cases hx; rfl
        refine Mem.load_eq ?_
        simp only [Mem.set]; split
        · rfl
        · exact mp
    rw [fillNRef]
    simp only [Prog.ite_app, if_pos (Nat.succ_pos n), Prog.bind_app, hx, Res.bind_ok, Mem.store_eq v hw, Nat.add_sub_cancel]
    rw [ih (ha.tail.set v) hx', List.replicate_succ, Mem.overwrite_cons, Nat.add_assoc, Nat.add_comm 1]

theorem arg_ok {A : Arrays} {S : State T} (W : World A m S) {v : CArg T} (hv : v.Ok A) : ∃ x u, v.expr A m = .ok (x, m) ∧ v.val S = some u ∧ x.get m = .ok (u, m) := by
  cases v with
  | ext v => exact ⟨_, v, rfl, rfl, rfl⟩
  | elem d i =>
    have w := W d hv.1
    have l : i < (S d).length := by rw [w.length]; exact hv.2
    have := cells_ge (A.sz d)
    have h2 := hv.2
    refine ⟨.cell (A.base d + i), (S d)[i], ?_, List.getElem?_eq_getElem l, Mem.load_eq (w.holds i l)⟩
    simp only [CArg.expr, at_, Prog.bind_app, Prog.need_app, if_pos (show i < cells (A.sz d) by omega), Res.bind_ok, Prog.pure_app]

theorem alloc_values (h : m.Alloc a n) : ∃ zs : List T, zs.length = n ∧ m.Holds a zs := by
  induction n generalizing a with
  | zero => exact ⟨[], rfl, Mem.holds_nil _ _⟩
  | succ n ih =>
    obtain ⟨v, hv⟩ := h.head
    obtain ⟨zs, hl, hz⟩ := ih h.tail
    exact ⟨v :: zs, by simp [hl], Mem.holds_cons hv hz⟩

theorem assignFrom_ok : ∀ (zs : List T) (i : Nat) (m : Mem T), m.Holds (b + i) zs → m.Alloc (a + i) zs.length → (a = b ∨ a + i + zs.length ≤ b + i ∨ b + i + zs.length ≤ a + i) →
    assignFrom a b i zs.length m = .ok ((), m.overwrite (a + i) zs)
  | [], i, m, _, _, _ => by simp [assignFrom]
  | z :: zs, i, m, h, al, ap => by
    obtain ⟨w, hw⟩ := al.head
    simp only [List.length_cons] at ap
    simp only [List.length_cons, assignFrom, Prog.bind_app, Mem.load_eq h.head, Res.bind_ok, Mem.store_eq z hw]
    have h' : (m.set (a + i) z).Holds (b + (i + 1)) zs := by
      rw [show b + (i + 1) = b + i + 1 by omega]
      exact h.tail.set_out z (by omega)
    rw [assignFrom_ok zs (i + 1) _ h' (by rw [show a + (i + 1) = a + i + 1 by omega]; exact al.tail.set z) (by omega), show a + (i + 1) = a + i + 1 by omega, Mem.overwrite_cons]

theorem swapRanges_self (h : m.Holds a xs) : Algo.swapRanges a (a + xs.length) a m = .ok (a + xs.length, m) := by
  induction xs generalizing a with
  | nil => rw [Algo.swapRanges]; simp
  | cons x xs ih =>
    have hne : ¬ (a = a + (xs.length + 1)) := by omega
    rw [List.length_cons, Algo.swapRanges]
    have hs : (m.set a x).set a x = m := by
      funext p; simp only [Mem.set]; split
      · rename_i e; rw [e, h.head]
      · rfl
    simp only [hne, Prog.bind_app, Prog.ite_app, if_false, Algo.iterSwap, Algo.swap_spec h.head h.head, Res.bind_ok, hs]
    rw [show a + (xs.length + 1) = a + 1 + xs.length by omega, ih h.tail]

/-- A cell that belongs to no array. -/
def Outside (A : Arrays) (p : Nat) : Prop := ∀ c, A.dom c → p < A.base c ∨ A.base c + cells (A.sz c) ≤ p

/-- One operation. -/
theorem step {A : Arrays} {S : State T} (W : World A m S) (o : Op T) (ok : o.Ok A) :
    ∃ m', o.run A m = .ok ((), m') ∧ World A m' (o.apply S) ∧ ∀ p, Outside A p → m' p = m p := by
  have out : ∀ {c : Nat} {ys : List T} {m : Mem T}, A.dom c → ys.length ≤ cells (A.sz c) → ∀ p, Outside A p → (m.overwrite (A.base c) ys) p = m p := by
    intro c ys m hc l p q
    exact Mem.overwrite_out (by have := q c hc; omega)
  cases o with
  | fill c v =>
    obtain ⟨hc, hv⟩ := ok
    obtain ⟨x, u, e1, e2, e3⟩ := arg_ok W hv
    have w := W c hc
    have f := fillNRef_ok (w.alloc.mono (cells_ge _)) e3
    refine ⟨m.overwrite (A.base c) (List.replicate (A.sz c) u), ?_, ?_, out hc (by simpa using cells_ge _)⟩
    · simp only [Op.run, Prog.bind_app, e1, Res.bind_ok, fill, begin_, size, f, Prog.pure_app]
    · have := W.overwrite (ys := List.replicate (A.sz c) u) hc (by simp) (by simpa using cells_ge _)
      simpa [Op.apply, e2, w.length] using this
  | store c i v =>
    obtain ⟨hc, hi, hv⟩ := ok
    obtain ⟨x, u, e1, e2, e3⟩ := arg_ok W hv
    have w := W c hc
    have l : i < (S c).length := by rw [w.length]; exact hi
    have ge := cells_ge (A.sz c)
    refine ⟨m.overwrite (A.base c) ((S c).set i u), ?_, ?_, out hc (by simp [w.length, ge])⟩
    · simp only [Op.run, at_, Prog.bind_app, e1, Res.bind_ok, e3, Prog.need_app, if_pos (show i < cells (A.sz c) by omega), Prog.pure_app, Mem.store_eq u (w.holds i l),
        Mem.set_eq_overwrite w.holds l]
    · have := W.overwrite (ys := (S c).set i u) hc (by simp [w.length]) (by simp [w.length, ge])
      rw [List.take_of_length_le (by simp [w.length])] at this
      simpa [Op.apply, e2] using this
  | swap c d =>
    obtain ⟨hc, hd, hs⟩ := ok
    have w := W c hc
    have w' := W d hd
    have ge := cells_ge (A.sz c)
    by_cases q : c = d
    · subst q
      refine ⟨m, ?_, ?_, fun _ _ => rfl⟩
      · have := swapRanges_self w.holds
        rw [w.length] at this
        simp only [Op.run, swap, begin_, end_, Prog.bind_app, this, Res.bind_ok, Prog.pure_app]
      · have : (Op.swap c c).apply S = S := by
          funext e; simp only [Op.apply, State.put]; split
          · rename_i z; rw [z]
          · rfl
        rw [this]; exact W
    · have ap := A.apart c d hc hd q
      have ge' := cells_ge (A.sz d)
      have sw := Algo.swap_ranges_exchanges w.holds w'.holds (by rw [w.length, w'.length, hs]) (by rw [w.length, w'.length]; omega)
      rw [w.length] at sw
      refine ⟨(m.overwrite (A.base c) (S d)).overwrite (A.base d) (S c), ?_, ?_, fun p hp => ?_⟩
      · simp only [Op.run, swap, begin_, end_, Prog.bind_app, sw, Res.bind_ok, Prog.pure_app]
      · have W1 := W.overwrite (ys := S d) hc (by rw [w'.length, hs]; exact Nat.le_refl _) (by rw [w'.length, ← hs]; exact ge)
        rw [List.take_of_length_le (by rw [w'.length, hs]; exact Nat.le_refl _)] at W1
        have W2 := W1.overwrite (ys := S c) hd (by rw [w.length, hs]; exact Nat.le_refl _) (by rw [w.length, hs]; exact ge')
        rwa [List.take_of_length_le (by rw [w.length, hs]; exact Nat.le_refl _)] at W2
      · rw [out hd (by rw [w.length, hs]; exact ge') p hp, out hc (by rw [w'.length, ← hs]; exact ge) p hp]
  | assign c d =>
    obtain ⟨hc, hd, hs⟩ := ok
    have w := W c hc
    have w' := W d hd
    have ge' := cells_ge (A.sz d)
    obtain ⟨zs, zl, hz⟩ := alloc_values w'.alloc
    have e : zs.take (A.sz d) = S d := by
      refine List.ext_getElem (by simp [w'.length, zl, ge']) fun i h1 h2 => ?_
      have a1 := hz i (by simp at h1; omega)
      have a2 := w'.holds i h2
      rw [a1] at a2
      rw [List.getElem_take]; exact Option.some.inj a2
    have ap : A.base c = A.base d ∨ A.base c + zs.length ≤ A.base d ∨ A.base d + zs.length ≤ A.base c := by
      by_cases q : c = d
      · subst q; exact .inl rfl
      · have := A.apart c d hc hd q
        rw [hs] at this; rw [zl]; exact .inr this
    have as := assignFrom_ok (a := A.base c) (b := A.base d) zs 0 m hz (by rw [zl, ← hs]; exact w.alloc) (by simpa using ap)
    refine ⟨m.overwrite (A.base c) zs, ?_, ?_, out hc (by rw [zl, hs]; exact Nat.le_refl _)⟩
    · rw [zl] at as
      simp only [Op.run, assign, hs]; exact as
    · have := W.overwrite (ys := zs) hc (by rw [zl, hs]; exact ge') (by rw [zl, hs]; exact Nat.le_refl _)
      rw [hs, e] at this; exact this

/-! ## C105: histories -/

theorem history {A : Arrays} : ∀ (os : List (Op T)) {m : Mem T} {S : State T}, World A m S → (∀ o ∈ os, o.Ok A) →
    ∃ m', runOps A os m = .ok ((), m') ∧ World A m' (applyOps os S) ∧ ∀ p, Outside A p → m' p = m p
  | [], m, S, W, ok => ⟨m, rfl, W, fun _ _ => rfl⟩
  | o :: os, m, S, W, ok => by
    obtain ⟨m1, q1, W1, f1⟩ := step W o (ok o (by simp))
    obtain ⟨m2, q2, W2, f2⟩ := history os W1 fun o ho => ok o (by simp [ho])
    exact ⟨m2, by simp only [runOps, Prog.bind_app, q1, Res.bind_ok, q2], W2, fun p hp => (f2 p hp).trans (f1 p hp)⟩

/-- **C105.** Any history of `fill`, element assignment, `swap` and `=` over any number of arrays of any sizes (also 0), with elements of arrays as arguments and with
arrays swapped with or assigned to themselves, returns normally; afterwards every array answers all observers like the same history on mathematical sequences,
and no cell outside the arrays has changed. -/
theorem array_history {A : Arrays} (os : List (Op T)) {S : State T} (start : ∀ c, A.dom c → m.Alloc (A.base c) (cells (A.sz c)) ∧ Observes A m c (S c)) (ok : ∀ o ∈ os, o.Ok A) :
    ∃ m', runOps A os m = .ok ((), m') ∧ (∀ c, A.dom c → Observes A m' c (applyOps os S c)) ∧ ∀ p, Outside A p → m' p = m p := by
  have W : World A m S := by
    intro c hc
    obtain ⟨al, o⟩ := start c hc
    exact ⟨al, o.size.symm, o.holds⟩
  obtain ⟨m', q, W', f⟩ := history os W ok
  exact ⟨m', q, fun c hc => is_observes (W' c hc), f⟩

/-- **C105.** `fill` with one of the array's own elements. -/
theorem fill_own {A : Arrays} {x : T} (o : Observes A m c xs) (hi : xs[i]? = some x) :
    ∃ m', (do Arr.fill (A.sz c) (A.base c) (.cell (← at_ (A.sz c) (A.base c) i)) : Prog (Mem T) Unit) m = .ok ((), m') ∧ Observes A m' c (List.replicate xs.length x) := by
  have l := (List.getElem?_eq_some_iff.1 hi).1
  have hs := o.size
  simp only [size] at hs
  have ge := cells_ge (A.sz c)
  have hx : (Arg.cell (A.base c + i)).get m = .ok (x, m) := by
    refine Mem.load_eq ?_
    rw [o.holds i l, ← List.getElem?_eq_getElem l, hi]
  have f := fillNRef_ok (a := A.base c) (n := A.sz c) (by rw [hs]; exact o.holds.alloc) hx
  refine ⟨m.overwrite (A.base c) (List.replicate (A.sz c) x), ?_, ?_⟩
  · simp only [at_, Prog.bind_app, Prog.need_app, if_pos (show i < cells (A.sz c) by omega), Res.bind_ok, Prog.pure_app, fill, begin_, size, f]
  · rw [← hs]
    refine is_observes ⟨?_, by simp, Mem.overwrite_holds _ _ _⟩
    intro j hj
    unfold cells at hj
    rw [if_neg (by omega)] at hj
    exact ⟨_, Mem.overwrite_at j (by simpa using hj)⟩

/-! ## C106: comparison -/

/-- **C106.** `a == b` holds iff all elements compare equal, `!=` is its negation, and nothing changes. -/
theorem equal_compares {A : Arrays} (oc : Observes A m c xs) (od : Observes A m d ys) (same : A.sz c = A.sz d) (eq' : T → T → Bool) :
    ∃ r : Bool, eq eq' (A.sz c) (A.base c) (A.base d) m = .ok (r, m) ∧ ne eq' (A.sz c) (A.base c) (A.base d) m = .ok (!r, m) ∧
      (r = true ↔ ∀ (i : Nat) x y, xs[i]? = some x → ys[i]? = some y → eq' x y = true) := by
  have r1 := oc.holds.range
  have r2 := od.holds.range
  have h1 := oc.size
  have h2 := od.size
  simp only [size] at h1 h2
  rw [← h1] at r1; rw [← h2, ← same] at r2
  obtain ⟨r, e, h⟩ := Algo.equal4_iff r1 r2 eq'
  have e' : eq eq' (A.sz c) (A.base c) (A.base d) m = .ok (r, m) := e
  refine ⟨r, e', by simp only [ne, Prog.bind_app, e', Res.bind_ok, Prog.pure_app], h.trans ⟨?_, ?_⟩⟩
  · rintro ⟨_, q⟩ i x y hx hy
    obtain ⟨l1, rfl⟩ := List.getElem?_eq_some_iff.1 hx
    obtain ⟨l2, rfl⟩ := List.getElem?_eq_some_iff.1 hy
    exact q i l1 l2
  · intro q
    exact ⟨by rw [← h1, ← h2, same], fun i l1 l2 => q i _ _ (List.getElem?_eq_getElem l1) (List.getElem?_eq_getElem l2)⟩

/-- **C106.** If `==` of the elements is equality, arrays are equal iff their contents are. -/
theorem equal_iff_same {A : Arrays} (oc : Observes A m c xs) (od : Observes A m d ys) (same : A.sz c = A.sz d) (eq' : T → T → Bool) (he : ∀ x y, eq' x y = true ↔ x = y) :
    ∃ r : Bool, eq eq' (A.sz c) (A.base c) (A.base d) m = .ok (r, m) ∧ (r = true ↔ xs = ys) := by
  obtain ⟨r, e, _, h⟩ := equal_compares oc od same eq'
  have h1 := oc.size
  have h2 := od.size
  simp only [size] at h1 h2
  refine ⟨r, e, h.trans ⟨fun q => ?_, ?_⟩⟩
  · refine List.ext_getElem (by omega) fun i a b => ?_
    exact (he _ _).1 (q i _ _ (List.getElem?_eq_getElem a) (List.getElem?_eq_getElem b))
  · rintro rfl i x y hx hy
    rw [hx] at hy; cases hy; exact (he _ _).2 rfl

/-- Reading `front()` or `back()` of an `array<T, 0>` is defined: it is the same spare cell. -/
theorem empty_front_back {A : Arrays} (al : m.Alloc (A.base c) (cells (A.sz c))) (z : A.sz c = 0) :
    ∃ v, Mem.load (front (A.base c)) m = .ok (v, m) ∧ Mem.load (back (A.sz c) (A.base c)) m = .ok (v, m) := by
  obtain ⟨v, hv⟩ := al 0 (cells_pos _)
  refine ⟨v, Mem.load_eq hv, ?_⟩
  rw [z]; exact Mem.load_eq hv

/-! ## Concrete cases -/

/-- Two arrays of three at 0 and 5, and an empty one at 3. -/
def three : Arrays where
  dom c := c < 3
  base c := if c = 0 then 0 else if c = 1 then 5 else 3
  sz c := if c = 2 then 0 else 3
  apart c d hc hd ne := by
    have h1 : c = 0 ∨ c = 1 ∨ c = 2 := by omega
    have h2 : d = 0 ∨ d = 1 ∨ d = 2 := by omega
    rcases h1 with rfl | rfl | rfl <;> rcases h2 with rfl | rfl | rfl <;> simp [cells] at ne ⊢

example : ∃ m', runOps three [.fill 0 (.elem 0 1), .swap 0 1, .store 1 2 (.elem 0 0), .assign 1 1, .swap 2 2, .assign 0 1] (Mem.ofList [1, 2, 3, 0, 0, 4, 5, 6]) = .ok ((), m') ∧
    Observes three m' 0 [2, 2, 4] ∧ Observes three m' 1 [2, 2, 4] ∧ m' 4 = some 0 := by
  let S : State Nat := fun c => if c = 0 then [1, 2, 3] else if c = 1 then [4, 5, 6] else []
  have W : World three (Mem.ofList [1, 2, 3, 0, 0, 4, 5, 6]) S := by
    intro c hc
    have hc : c < 3 := hc
    have : c = 0 ∨ c = 1 ∨ c = 2 := by omega
    have al : ∀ p n, p + n ≤ 8 → (Mem.ofList [1, 2, 3, 0, 0, 4, 5, 6]).Alloc p n := fun p n l j hj => ⟨_, by simp only [Mem.ofList]; exact List.getElem?_eq_getElem (by simp; omega)⟩
    rcases this with rfl | rfl | rfl
    · exact ⟨al _ _ (by simp [three, cells]), rfl, fun i h => by rcases i with _ | _ | _ | _ <;> first | rfl | (simp [S] at h; omega)⟩
    · exact ⟨al _ _ (by simp [three, cells]), rfl, fun i h => by rcases i with _ | _ | _ | _ <;> first | rfl | (simp [S] at h; omega)⟩
    · exact ⟨al _ _ (by simp [three, cells]), rfl, fun i h => by simp [S] at h⟩
  have ok : ∀ o ∈ ([.fill 0 (.elem 0 1), .swap 0 1, .store 1 2 (.elem 0 0), .assign 1 1, .swap 2 2, .assign 0 1] : List (Op Nat)), o.Ok three := by
    simp [Op.Ok, three, CArg.Ok]
  obtain ⟨m', q, ob, f⟩ := array_history (A := three) [.fill 0 (.elem 0 1), .swap 0 1, .store 1 2 (.elem 0 0), .assign 1 1, .swap 2 2, .assign 0 1]
    (fun c hc => ⟨(W c hc).alloc, is_observes (W c hc)⟩) ok
  refine ⟨m', q, ob 0 (by simp [three]), ob 1 (by simp [three]), ?_⟩
  rw [f 4]
  · rfl
  · intro c hc
    have hc : c < 3 := hc
    have : c = 0 ∨ c = 1 ∨ c = 2 := by omega
    rcases this with rfl | rfl | rfl <;> simp [three, cells]

end Verif.Arr.ArrProps
