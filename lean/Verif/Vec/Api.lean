import Verif.Vec.Ops2
/-!
# Client programs over vectors

A client holds any number of vectors and calls their member functions; positions are given as indices (`begin() + i`), `const value_type &`
arguments are objects outside every vector or elements of a vector, iterator ranges are ranges over values outside every vector or ranges of a
vector. `spec` is what each call does to the mathematical states of the vectors, `exec` runs the model of the C++ code.
-/
set_option linter.unusedVariables false
set_option linter.unusedSimpArgs false
namespace Verif.Vec
open Verif
variable {T : Type}

/-- The vectors that exist and their states. -/
def State (T : Type) : Type := Nat → Option (VS T)
def State.put (S : State T) (c : Nat) (s : VS T) : State T := fun d => if d = c then some s else S d
def State.del (S : State T) (c : Nat) : State T := fun d => if d = c then none else S d
def State.Exists (S : State T) (c : Nat) : Prop := ∃ s, S c = some s
def State.get (S : State T) (c : Nat) : VS T := (S c).getD ⟨[], 0, 0⟩
def State.vals (S : State T) (c : Nat) : List T := (S.get c).vals

theorem put_same (S : State T) (c : Nat) (s : VS T) : S.put c s c = some s := by simp [State.put]
theorem put_other (S : State T) {c d : Nat} (q : d ≠ c) (s : VS T) : S.put c s d = S d := by simp [State.put, q]
theorem put_put (S : State T) (c : Nat) (s s' : VS T) : (S.put c s).put c s' = S.put c s' := by
  funext d; simp only [State.put]; split <;> rfl
theorem put_self {S : State T} {c : Nat} {s : VS T} (q : S c = some s) : S.put c s = S := by
  funext d; simp only [State.put]; split
  · rename_i e; rw [e, q]
  · rfl
theorem get_some {S : State T} {c : Nat} {s : VS T} (q : S c = some s) : S.get c = s := by simp [State.get, q]
theorem vals_some {S : State T} {c : Nat} {s : VS T} (q : S c = some s) : S.vals c = s.vals := by simp [State.vals, get_some q]
theorem put_get (S : State T) (c : Nat) (s : VS T) : (S.put c s).get c = s := get_some (put_same ..)
theorem put_exists (S : State T) (c : Nat) (s : VS T) : (S.put c s).Exists c := ⟨s, put_same ..⟩

/-- A `const value_type &` argument as the client writes it: a value outside every vector, or `d[i]`. -/
inductive CArg (T : Type) where
  | ext (v : T)
  | elem (d i : Nat)

/-- A range argument as the client writes it: values outside every vector, or `[d.begin() + i, d.begin() + j)`. -/
inductive CSrc (T : Type) where
  | vals (vs : List T)
  | range (d i j : Nat)

/-- The value the argument has, if there is one. -/
def CArg.val (S : State T) : CArg T → Option T
  | .ext v => some v
  | .elem d i => (S.vals d)[i]?
/-- The values the range has. -/
def CSrc.vals' (S : State T) : CSrc T → List T
  | .vals vs => vs
  | .range d i j => ((S.vals d).drop i).take (j - i)

/-- The argument designates an object. -/
def CArg.Valid (S : State T) : CArg T → Prop
  | .ext _ => True
  | .elem d i => S.Exists d ∧ i < (S.vals d).length
/-- The range is a range of objects. -/
def CSrc.Valid (S : State T) : CSrc T → Prop
  | .vals _ => True
  | .range d i j => S.Exists d ∧ i ≤ j ∧ j ≤ (S.vals d).length

/-- The argument is not an element of `c`. -/
def CArg.Outside (c : Nat) : CArg T → Prop
  | .ext _ => True
  | .elem d _ => d ≠ c
def CSrc.Outside (c : Nat) : CSrc T → Prop
  | .vals _ => True
  | .range d _ _ => d ≠ c

/-- The argument is not an element of `c` at or behind position `k`. -/
def CArg.Before (c k : Nat) : CArg T → Prop
  | .ext _ => True
  | .elem d i => d = c → i < k
def CSrc.Before (c k : Nat) : CSrc T → Prop
  | .vals _ => True
  | .range d _ j => d = c → j ≤ k

/-- The C++ expression for the argument. -/
def CArg.expr : CArg T → Prog (Mem T) (Arg T)
  | .ext v => pure (.ext v)
  | .elem d i => do return .slot (← at_ d i)
/-- The C++ expressions for the range, with its length. -/
def CSrc.expr : CSrc T → Prog (Mem T) (Src T × Nat)
  | .vals vs => pure (.vals vs, vs.length)
  | .range d i j => do return (.range ((← begin_ d) + i), j - i)

/-- A call. -/
inductive Call (T : Type) where
  | create
  | ctor (n : Nat)
  | ctorN (n : Nat) (a : CArg T)
  | copyOf (d : Nat)
  | ctorRange (r : CSrc T)
  | destroy (c : Nat)
  | assign (c d : Nat)
  | assignN (c n : Nat) (a : CArg T)
  | assignRange (c : Nat) (r : CSrc T)
  | resize (c n : Nat)
  | resizeX (c n : Nat) (a : CArg T)
  | reserve (c n : Nat)
  | insert (c i : Nat) (a : CArg T)
  | insertN (c i n : Nat) (a : CArg T)
  | insertRange (c i : Nat) (r : CSrc T)
  | pushBack (c : Nat) (a : CArg T)
  | popBack (c : Nat)
  | erase (c i : Nat)
  | eraseRange (c i j : Nat)
  | swap (c d : Nat)
  | clear (c : Nat)
  | store (c i : Nat) (a : CArg T)

/-- What a call returns: nothing, an iterator, or the identity of the constructed vector. -/
inductive Ret where
  | none
  | it (p : Ptr)
  | obj (c : Nat)
  deriving DecidableEq

/-- Run the model of the call. -/
def exec (dv : T) : Call T → Prog (Mem T) Ret
  | .create => do return .obj (← create)
  | .ctor n => do return .obj (← ctor dv n)
  | .ctorN n a => do return .obj (← ctorN n (← a.expr))
  | .copyOf d => do return .obj (← copyOf d)
  | .ctorRange r => do
    let (s, n) ← r.expr
    return .obj (← ctorRange n s)
  | .destroy c => do destroy c; return .none
  | .assign c d => do assign c d; return .none
  | .assignN c n a => do assignN c n (← a.expr); return .none
  | .assignRange c r => do
    let (s, n) ← r.expr
    assignRange c n s
    return .none
  | .resize c n => do resize dv c n; return .none
  | .resizeX c n a => do resizeX dv c n (← a.expr); return .none
  | .reserve c n => do reserve c n; return .none
  | .insert c i a => do
    let a ← a.expr
    return .it (← insert c ((← begin_ c) + i) a)
  | .insertN c i n a => do
    let a ← a.expr
    return .it (← insertN c ((← begin_ c) + i) n a)
  | .insertRange c i r => do
    let (s, n) ← r.expr
    return .it (← insertRange c ((← begin_ c) + i) n s)
  | .pushBack c a => do pushBack c (← a.expr); return .none
  | .popBack c => do popBack c; return .none
  | .erase c i => do return .it (← erase c ((← begin_ c) + i))
  | .eraseRange c i j => do return .it (← eraseRange c ((← begin_ c) + i) ((← begin_ c) + j))
  | .swap c d => do swap c d; return .none
  | .clear c => do clear c; return .none
  | .store c i a => do store c i (← a.expr); return .none

/-- `n` copies of the argument -/
def State.copies (S : State T) (n : Nat) (a : CArg T) : List T := match a.val S with | some v => List.replicate n v | none => []

/-- The states after the call; `f` is the next fresh identity. -/
def spec (dv : T) (S : State T) (f : Nat) : Call T → State T
  | .create => S.put f ⟨[], 0, 0⟩
  | .ctor n => S.put f ⟨List.replicate n dv, n, f + 1⟩
  | .ctorN n a => S.put f ⟨S.copies n a, n, f + 1⟩
  | .copyOf d => S.put f ⟨S.vals d, (S.vals d).length, f + 1⟩
  | .ctorRange r => S.put f ⟨r.vals' S, (r.vals' S).length, f + 1⟩
  | .destroy c => S.del c
  | .assign c d => S.put c (((S.get c).become []).reserve f (S.get d).cap |>.become (if d = c then [] else S.vals d))
  | .assignN c n a => S.put c (((S.get c).become []).reserve f n |>.become (S.copies n a))
  | .assignRange c r => S.put c (((S.get c).become []).pushes f (r.vals' S))
  | .resize c n =>
    if n < (S.vals c).length then S.put c ((S.get c).become ((S.vals c).take n))
    else S.put c ((S.get c).ins f (S.vals c).length (List.replicate (n - (S.vals c).length) dv))
  | .resizeX c n a =>
    if n < (S.vals c).length then S.put c ((S.get c).become ((S.vals c).take n))
    else S.put c ((S.get c).ins f (S.vals c).length (S.copies (n - (S.vals c).length) a))
  | .reserve c n => S.put c ((S.get c).reserve f n)
  | .insert c i a => S.put c ((S.get c).ins f i (S.copies 1 a))
  | .insertN c i n a => S.put c ((S.get c).ins f i (S.copies n a))
  | .insertRange c i r => S.put c ((S.get c).ins f i (r.vals' S))
  | .pushBack c a => S.put c ((S.get c).ins f (S.vals c).length (S.copies 1 a))
  | .popBack c => S.put c ((S.get c).become ((S.vals c).dropLast))
  | .erase c i => S.put c ((S.get c).become ((S.vals c).take i ++ (S.vals c).drop (i + 1)))
  | .eraseRange c i j => S.put c ((S.get c).become ((S.vals c).take i ++ (S.vals c).drop j))
  | .swap c d => (S.put c (S.get d)).put d (S.get c)
  | .clear c => S.put c ((S.get c).become [])
  | .store c i a => match a.val S with | some v => S.put c ((S.get c).become ((S.vals c).set i v)) | none => S

/-- What the call returns. -/
def retOf (dv : T) (S : State T) (f : Nat) : Call T → Ret
  | .create | .ctor _ | .ctorN _ _ | .copyOf _ | .ctorRange _ => .obj f
  | .insert c i a => .it ⟨((spec dv S f (.insert c i a)).get c).blk, i⟩
  | .insertN c i n a => .it ⟨((spec dv S f (.insertN c i n a)).get c).blk, i⟩
  | .insertRange c i r => .it ⟨((spec dv S f (.insertRange c i r)).get c).blk, i⟩
  | .erase c i => .it ⟨(S.get c).blk, i⟩
  | .eraseRange c i _ => .it ⟨(S.get c).blk, i⟩
  | _ => .none

/-- An insertion of `n` elements has to move to a new block. -/
def State.Moves (S : State T) (c n : Nat) : Prop := (S.get c).cap < (S.vals c).length + n

/-- Calls whose behaviour the code gets right. -/
def Legal (S : State T) : Call T → Prop
  | .create | .ctor _ => True
  | .ctorN _ a => a.Valid S
  | .copyOf d => S.Exists d
  | .ctorRange r => r.Valid S
  | .destroy c => S.Exists c
  | .assign c d => S.Exists c ∧ S.Exists d
  | .assignN c _ a => S.Exists c ∧ a.Valid S ∧ a.Outside c
  | .assignRange c r => S.Exists c ∧ r.Valid S ∧ r.Outside c
  | .resize c _ => S.Exists c
  | .resizeX c _ a => S.Exists c ∧ a.Valid S
  | .reserve c _ => S.Exists c
  | .insert c i a => S.Exists c ∧ i ≤ (S.vals c).length ∧ a.Valid S ∧ (a.Before c i ∨ S.Moves c 1 ∨ i = (S.vals c).length)
  | .insertN c i n a => S.Exists c ∧ i ≤ (S.vals c).length ∧ a.Valid S ∧ (a.Before c i ∨ S.Moves c n ∨ i = (S.vals c).length)
  | .insertRange c i r => S.Exists c ∧ i ≤ (S.vals c).length ∧ r.Valid S ∧ (r.Before c i ∨ S.Moves c (r.vals' S).length ∨ i = (S.vals c).length)
  | .pushBack c a => S.Exists c ∧ a.Valid S
  | .popBack c => S.Exists c ∧ S.vals c ≠ []
  | .erase c i => S.Exists c ∧ i < (S.vals c).length
  | .eraseRange c i j => S.Exists c ∧ i ≤ j ∧ j ≤ (S.vals c).length ∧ (i = j → j = (S.vals c).length)
  | .swap c d => S.Exists c ∧ S.Exists d
  | .clear c => S.Exists c
  | .store c i a => S.Exists c ∧ i < (S.vals c).length ∧ a.Valid S

/-- The memory a client program starts with: no vector, no block. -/
def empty₀ : Mem T := { obj := fun _ => none, size := fun _ => none, slot := fun _ _ => none, fresh := 1 }

/-- `h` is the result of some client program; `S` are the vectors it made. -/
inductive Reach (dv : T) : State T → Mem T → Prop where
  | start : Reach dv (fun _ => none) empty₀
  | step {S : State T} {h h' : Mem T} {r : Ret} (k : Call T) : Reach dv S h → Legal S k → exec dv k h = .ok (r, h') → Reach dv (spec dv S h.fresh k) h'

/-! ## The invariant -/

/-- Every vector is in its state, blocks are owned by exactly one vector, and there is nothing else in memory. -/
structure World (h : Mem T) (S : State T) : Prop where
  base : Base h
  vec : ∀ c s, S c = some s → IsVec h c s
  only : ∀ c, S c = none → h.obj c = none
  disj : ∀ c d s s', S c = some s → S d = some s' → c ≠ d → s.blk = s'.blk → s.blk = 0
  tight : ∀ b n, h.size b = some n → ∃ c s, S c = some s ∧ s.blk = b
  slots : ∀ b i v, h.slot b i = some v → ∃ c s, S c = some s ∧ s.blk = b

variable {h h' : Mem T} {S : State T} {c d n i j : Nat} {s s' : VS T} {ws : List T}

theorem lay_nil_none (i : Nat) : lay ([] : List T) 0 [] i = none := by rw [lay_nil]; simp

theorem World.chg (W : World h S) (hc : S c = some s) (k : Change h h' c s s') : World h' (S.put c s') := by
  have v := W.vec c s hc
  have B := W.base
  have hb := v.lt_fresh B
  have other : ∀ d t, d ≠ c → S d = some t → IsVec h' d t := by
    intro d t q e
    have vd := W.vec d t e
    have hbd := vd.lt_fresh B
    by_cases z : t.blk = 0
    · have B' := k.base B v
      refine ⟨(k.obj d q).trans vd.obj, ?_, fun q => absurd z q, vd.zero, vd.le⟩
      have : t.vals = [] := List.eq_nil_of_length_eq_zero (by have := vd.le; have := vd.zero z; omega)
      rw [z, this]; exact B'.nullSlot
    · have n1 : t.blk ≠ s.blk := fun e' => z (W.disj d c t s e hc q e')
      have n2 : t.blk ≠ s'.blk := by rcases k.moved with ⟨a1, _⟩ | ⟨a1, _⟩ <;> omega
      have kk := k.keep t.blk n1 n2
      exact ⟨(k.obj d q).trans vd.obj, kk.2.trans vd.slot, fun q => kk.1.trans (vd.blk q), vd.zero, vd.le⟩
  refine ⟨k.base B v, ?_, ?_, ?_, ?_, ?_⟩
  · intro d t e
    by_cases q : d = c
    · subst q; rw [put_same] at e; cases e; exact k.vec
    · rw [put_other _ q] at e; exact other d t q e
  · intro d e
    by_cases q : d = c
    · subst q; rw [put_same] at e; cases e
    · rw [put_other _ q] at e; rw [k.obj d q]; exact W.only d e
  · have main : ∀ d t, d ≠ c → S d = some t → t.blk = s'.blk → t.blk = 0 := by
      intro d t q e e'
      rcases k.moved with ⟨a1, _⟩ | ⟨a1, _⟩
      · exact W.disj d c t s e hc q (e'.trans a1)
      · have := (W.vec d t e).lt_fresh B; omega
    intro d e t t' h1 h2 q q'
    by_cases q1 : d = c
    · subst q1; rw [put_same] at h1; cases h1
      rw [put_other _ (Ne.symm q)] at h2
      have := main e t' (Ne.symm q) h2 q'.symm
      omega
    · rw [put_other _ q1] at h1
      by_cases q2 : e = c
      · subst q2; rw [put_same] at h2; cases h2; exact main d t q1 h1 q'
      · rw [put_other _ q2] at h2; exact W.disj d e t t' h1 h2 q q'
  · intro b m e
    by_cases q : b = s'.blk
    · exact ⟨c, s', put_same .., q.symm⟩
    · by_cases q1 : b = s.blk
      · subst q1
        rcases k.moved with ⟨a1, _⟩ | ⟨_, _, a3, _⟩
        · exact absurd a1.symm q
        · rw [a3] at e; cases e
      · rw [(k.keep b q1 q).1] at e
        obtain ⟨d, t, e1, e2⟩ := W.tight b m e
        have : d ≠ c := by rintro rfl; rw [hc] at e1; cases e1; exact q1 e2.symm
        exact ⟨d, t, by rw [put_other _ this]; exact e1, e2⟩
  · intro b i v e
    by_cases q : b = s'.blk
    · exact ⟨c, s', put_same .., q.symm⟩
    · by_cases q1 : b = s.blk
      · subst q1
        rcases k.moved with ⟨a1, _⟩ | ⟨_, _, _, a4⟩
        · exact absurd a1.symm q
        · rw [a4, lay_nil_none] at e; cases e
      · rw [(k.keep b q1 q).2] at e
        obtain ⟨d, t, e1, e2⟩ := W.slots b i v e
        have : d ≠ c := by rintro rfl; rw [hc] at e1; cases e1; exact q1 e2.symm
        exact ⟨d, t, by rw [put_other _ this]; exact e1, e2⟩

/-- Memory after the storage for a new vector object was made and its members zeroed. -/
def Heap.made (h : Mem T) : Mem T := { h with obj := upd h.obj h.fresh (some ⟨.null, .null, .null⟩), fresh := h.fresh + 1 }

theorem create_ok : create h = .ok (h.fresh, h.made) := rfl

theorem World.made (W : World h S) : World h.made (S.put h.fresh ⟨[], 0, 0⟩) := by
  have B := W.base
  have hf : S h.fresh = none := by
    cases e : S h.fresh with
    | none => rfl
    | some s => have := (W.vec _ s e).obj_lt B; omega
  have other : ∀ d s, S d = some s → d ≠ h.fresh := by rintro d s e rfl; rw [hf] at e; cases e
  refine ⟨⟨Nat.succ_pos _, B.null, B.nullSlot, fun b q => B.gone b (by simp only [Heap.made] at q; omega), ?_⟩, ?_, ?_, ?_, ?_, ?_⟩
  · intro c q
    simp only [Heap.made] at q
    show upd h.obj h.fresh _ c = none
    rw [upd_other _ _ (by omega)]; exact B.objs c (by omega)
  · intro d t e
    by_cases q : d = h.fresh
    · subst q; rw [put_same] at e; cases e
      exact ⟨upd_same .., B.nullSlot, fun k => absurd rfl k, fun _ => rfl, Nat.le_refl _⟩
    · rw [put_other _ q] at e
      have v := W.vec d t e
      exact ⟨by show upd h.obj h.fresh _ d = _; rw [upd_other _ _ q]; exact v.obj, v.slot, v.blk, v.zero, v.le⟩
  · intro d e
    by_cases q : d = h.fresh
    · subst q; rw [put_same] at e; cases e
    · rw [put_other _ q] at e
      show upd h.obj h.fresh _ d = _; rw [upd_other _ _ q]; exact W.only d e
  · intro d e t t' h1 h2 q q'
    by_cases q1 : d = h.fresh
    · subst q1; rw [put_same] at h1; cases h1; rfl
    · rw [put_other _ q1] at h1
      by_cases q2 : e = h.fresh
      · subst q2; rw [put_same] at h2; cases h2; exact q'
      · rw [put_other _ q2] at h2; exact W.disj d e t t' h1 h2 q q'
  · intro b m e
    obtain ⟨d, t, e1, e2⟩ := W.tight b m e
    exact ⟨d, t, by rw [put_other _ (other d t e1)]; exact e1, e2⟩
  · intro b i v e
    obtain ⟨d, t, e1, e2⟩ := W.slots b i v e
    exact ⟨d, t, by rw [put_other _ (other d t e1)]; exact e1, e2⟩

theorem World.swapped (W : World h S) (hc : S c = some s) (hd : S d = some s') :
    World ((h.setObj c s'.rep).setObj d s.rep) ((S.put c s').put d s) := by
  have vc := W.vec c s hc
  have vd := W.vec d s' hd
  have B := W.base
  have key : ∀ e t, ((S.put c s').put d s) e = some t → ∃ e', S e' = some t ∧ (e = c ∧ e' = d ∨ e = d ∧ e' = c ∨ e ≠ c ∧ e ≠ d ∧ e' = e) := by
    intro e t q
    by_cases q1 : e = d
    · subst q1; rw [put_same] at q; cases q; exact ⟨c, hc, .inr (.inl ⟨rfl, rfl⟩)⟩
    · rw [put_other _ q1] at q
      by_cases q2 : e = c
      · subst q2; rw [put_same] at q; cases q; exact ⟨d, hd, .inl ⟨rfl, rfl⟩⟩
      · rw [put_other _ q2] at q; exact ⟨e, q, .inr (.inr ⟨q2, q1, rfl⟩)⟩
  have back : ∀ e t, S e = some t → ∃ e', ((S.put c s').put d s) e' = some t := by
    intro e t q
    by_cases q1 : e = c
    · subst q1; rw [hc] at q; cases q; exact ⟨d, put_same ..⟩
    · by_cases q2 : e = d
      · subst q2; rw [hd] at q; cases q; exact ⟨c, by rw [put_other _ (Ne.symm q1), put_same]⟩
      · exact ⟨e, by rw [put_other _ q2, put_other _ q1]; exact q⟩
  refine ⟨⟨B.pos, B.null, B.nullSlot, B.gone, ?_⟩, ?_, ?_, ?_, ?_, ?_⟩
  · intro e q
    have l1 := vc.obj_lt B
    have l2 := vd.obj_lt B
    simp only [set_fresh] at q
    rw [set_obj_other _ _ _ (by omega), set_obj_other _ _ _ (by omega)]; exact B.objs e q
  · intro e t q
    obtain ⟨e', q1, q2⟩ := key e t q
    have v := W.vec e' t q1
    refine ⟨?_, v.slot, v.blk, v.zero, v.le⟩
    by_cases z : e = d
    · subst z; rw [put_same] at q; cases q; exact set_obj_same ..
    · rw [put_other _ z] at q
      rw [set_obj_other _ _ _ z]
      by_cases z2 : e = c
      · subst z2; rw [put_same] at q; cases q; exact set_obj_same ..
      · rw [set_obj_other _ _ _ z2]
        rcases q2 with ⟨a, b⟩ | ⟨a, b⟩ | ⟨_, _, a⟩
        · exact absurd a z2
        · exact absurd a z
        · subst a; exact v.obj
  · intro e q
    by_cases z : e = d
    · subst z; rw [put_same] at q; cases q
    · rw [put_other _ z] at q; rw [set_obj_other _ _ _ z]
      by_cases z2 : e = c
      · subst z2; rw [put_same] at q; cases q
      · rw [put_other _ z2] at q; rw [set_obj_other _ _ _ z2]; exact W.only e q
  · intro e1 e2 t t' h1 h2 q q'
    obtain ⟨e1', a1, a2⟩ := key e1 t h1
    obtain ⟨e2', b1, b2⟩ := key e2 t' h2
    exact W.disj e1' e2' t t' a1 b1 (by omega) q'
  · intro b m e
    obtain ⟨x, t, e1, e2⟩ := W.tight b m e
    obtain ⟨y, q⟩ := back x t e1
    exact ⟨y, t, q, e2⟩
  · intro b i v e
    obtain ⟨x, t, e1, e2⟩ := W.slots b i v e
    obtain ⟨y, q⟩ := back x t e1
    exact ⟨y, t, q, e2⟩

theorem World.destroy (W : World h S) (hc : S c = some s) :
    ∃ h', destroy c h = .ok ((), h') ∧ World h' (S.del c) ∧ h'.fresh = h.fresh := by
  have v := W.vec c s hc
  have B := W.base
  have hb := v.lt_fresh B
  have v1 := isVec_vec v [] (Nat.zero_le _)
  have k1 := vec_change v [] (Nat.zero_le _)
  have W1 := W.chg hc k1
  have B1 := W1.base
  generalize hh1 : h.vec c ⟨[], s.cap, s.blk⟩ = h1 at v1 k1 W1 B1
  have f1 : h1.fresh = h.fresh := by rw [← hh1]; rfl
  let h2 : Mem T := { h1 with size := upd h1.size s.blk none, obj := upd h1.obj c none }
  have fr : (free ⟨s.blk, 0⟩ h1) = .ok ((), { h1 with size := upd h1.size s.blk none }) := by
    by_cases z : s.blk = 0
    · rw [z]
      simp only [free, Ptr.null, if_true]
      have := upd_self h1.size 0
      rw [B1.null] at this; rw [this]
    · have hn : ¬ (Ptr.mk s.blk 0 = Ptr.null) := by simp [Ptr.null, z]
      simp only [free, if_neg hn, v1.blk z, if_true]
  have del : ∀ d t, (S.del c) d = some t → d ≠ c ∧ S d = some t := by
    intro d t e; simp only [State.del] at e; split at e
    · cases e
    · rename_i q; exact ⟨q, e⟩
  have owner : ∀ b, b ≠ s.blk → (∃ x t, (S.put c ⟨[], s.cap, s.blk⟩) x = some t ∧ t.blk = b) → ∃ x t, (S.del c) x = some t ∧ t.blk = b := by
    rintro b q ⟨x, t, e1, e2⟩
    have : x ≠ c := by rintro rfl; rw [put_same] at e1; cases e1; exact q e2.symm
    rw [put_other _ this] at e1
    exact ⟨x, t, by simp only [State.del, if_neg this]; exact e1, e2⟩
  refine ⟨h2, ?_, ⟨⟨?_, ?_, ?_, ?_, ?_⟩, ?_, ?_, ?_, ?_, ?_⟩, f1⟩
  · simp only [Vec.destroy, Prog.bind_app, clear_ok v, hh1, Res.bind_ok, begin_ok v1, fr, dropObj]
    rw [v1.obj]
  · exact B1.pos
  · show upd h1.size s.blk none 0 = none
    simp only [upd]; split
    · rfl
    · exact B1.null
  · exact B1.nullSlot
  · intro b q
    refine ⟨?_, (B1.gone b q).2⟩
    show upd h1.size s.blk none b = none
    simp only [upd]; split
    · rfl
    · exact (B1.gone b q).1
  · intro d q
    show upd h1.obj c none d = none
    simp only [upd]; split
    · rfl
    · exact B1.objs d q
  · intro d t e
    obtain ⟨q, e⟩ := del d t e
    have vd := W1.vec d t (by rw [put_other _ q]; exact e)
    refine ⟨?_, vd.slot, ?_, vd.zero, vd.le⟩
    · show upd h1.obj c none d = _
      rw [upd_other _ _ q]; exact vd.obj
    · intro z
      show upd h1.size s.blk none t.blk = _
      have : t.blk ≠ s.blk := fun e' => z (W.disj d c t s e hc q e')
      rw [upd_other _ _ this]; exact vd.blk z
  · intro d e
    show upd h1.obj c none d = none
    by_cases q : d = c
    · subst q; exact upd_same ..
    · rw [upd_other _ _ q]; exact W1.only d (by rw [put_other _ q]; simpa [State.del, q] using e)
  · intro d e t t' h1 h2 q q'
    exact W.disj d e t t' (del _ _ h1).2 (del _ _ h2).2 q q'
  · intro b m e
    have e : upd h1.size s.blk none b = some m := e
    by_cases q : b = s.blk
    · subst q; rw [upd_same] at e; cases e
    · rw [upd_other _ _ q] at e
      exact owner b q (W1.tight b m e)
  · intro b i a e
    by_cases q : b = s.blk
    · subst q
      have := v1.slot
      simp only at this
      rw [show h2.slot s.blk = lay [] 0 [] from this, lay_nil_none] at e; cases e
    · exact owner b q (W1.slots b i a e)

end Verif.Vec
