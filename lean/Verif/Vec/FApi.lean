import Verif.Vec.FSwap
/-!
# Client programs over fixed vectors

A client holds any number of `fixed_vector<T, N>` objects and calls their member functions; positions are indices (`begin() + i`),
`const value_type &` arguments are objects outside every fixed vector or elements of one, iterator ranges are ranges over values outside every
fixed vector or ranges of one. `spec` is what each call does to the sequences, `exec` runs the model of the C++ code.
-/
set_option linter.unusedVariables false
set_option linter.unusedSimpArgs false
namespace Verif.Vec.FV
open Verif Verif.Vec
variable {T : Type}

/-- The fixed vectors that exist and their elements. -/
def State (T : Type) : Type := Nat → Option (List T)
def State.put (S : State T) (c : Nat) (s : List T) : State T := fun d => if d = c then some s else S d
def State.del (S : State T) (c : Nat) : State T := fun d => if d = c then none else S d
def State.Exists (S : State T) (c : Nat) : Prop := ∃ s, S c = some s
def State.vals (S : State T) (c : Nat) : List T := (S c).getD []

theorem put_same (S : State T) (c : Nat) (s : List T) : S.put c s c = some s := by simp [State.put]
theorem put_other (S : State T) {c d : Nat} (q : d ≠ c) (s : List T) : S.put c s d = S d := by simp [State.put, q]
theorem put_put (S : State T) (c : Nat) (s s' : List T) : (S.put c s).put c s' = S.put c s' := by
  funext d; simp only [State.put]; split <;> rfl
theorem put_self {S : State T} {c : Nat} {s : List T} (q : S c = some s) : S.put c s = S := by
  funext d; simp only [State.put]; split
  · rename_i e; rw [e, q]
  · rfl
theorem vals_some {S : State T} {c : Nat} {s : List T} (q : S c = some s) : S.vals c = s := by simp [State.vals, q]
theorem put_exists (S : State T) (c : Nat) (s : List T) : (S.put c s).Exists c := ⟨s, put_same ..⟩

/-- A `const value_type &` argument as the client writes it: a value outside every fixed vector, or `d[i]`. -/
inductive CArg (T : Type) where
  | ext (v : T)
  | elem (d i : Nat)

/-- A range argument as the client writes it: values outside every fixed vector, or `[d.begin() + i, d.begin() + j)`. -/
inductive CSrc (T : Type) where
  | vals (vs : List T)
  | range (d i j : Nat)

/-- The value the argument has, if there is one. -/
def CArg.val (S : State T) : CArg T → Option T
  | .ext v => some v
  | .elem d i => (S.vals d)[i]?
/-- The values the range has. -/
def CSrc.vals' (S : State T) : CSrc T → List T
  | .vals vs => vs
  | .range d i j => ((S.vals d).drop i).take (j - i)

/-- The argument designates an object. -/
def CArg.Valid (S : State T) : CArg T → Prop
  | .ext _ => True
  | .elem d i => S.Exists d ∧ i < (S.vals d).length
/-- The range is a range of objects. -/
def CSrc.Valid (S : State T) : CSrc T → Prop
  | .vals _ => True
  | .range d i j => S.Exists d ∧ i ≤ j ∧ j ≤ (S.vals d).length

/-- The argument is not an element of `c` at or behind position `k`. -/
def CArg.Before (c k : Nat) : CArg T → Prop
  | .ext _ => True
  | .elem d i => d = c → i < k
def CSrc.Before (c k : Nat) : CSrc T → Prop
  | .vals _ => True
  | .range d _ j => d = c → j ≤ k

/-- The C++ expression for the argument. -/
def CArg.expr : CArg T → Prog (Mem T) (Arg T)
  | .ext v => pure (.ext v)
  | .elem d i => do return .slot (← at_ d i)
/-- The C++ expressions for the range, with its length. -/
def CSrc.expr : CSrc T → Prog (Mem T) (Src T × Nat)
  | .vals vs => pure (.vals vs, vs.length)
  | .range d i j => do return (.range ((← begin_ d) + i), j - i)

/-- A call. -/
inductive Call (T : Type) where
  | create
  | ctor (n : Nat)
  | ctorN (n : Nat) (a : CArg T)
  | copyOf (d : Nat)
  | ctorRange (r : CSrc T)
  | destroy (c : Nat)
  | assign (c d : Nat)
  | assignN (c n : Nat) (a : CArg T)
  | assignRange (c : Nat) (r : CSrc T)
  | resize (c n : Nat)
  | resizeX (c n : Nat) (a : CArg T)
  | insert (c i : Nat) (a : CArg T)
  | insertN (c i n : Nat) (a : CArg T)
  | insertRange (c i : Nat) (r : CSrc T)
  | pushBack (c : Nat) (a : CArg T)
  | popBack (c : Nat)
  | erase (c i : Nat)
  | eraseRange (c i j : Nat)
  | swap (c d : Nat)
  | clear (c : Nat)
  | store (c i : Nat) (a : CArg T)

/-- What a call returns: nothing, an iterator, or the identity of the constructed fixed vector. -/
inductive Ret where
  | none
  | it (p : Ptr)
  | obj (c : Nat)
  deriving DecidableEq

/-- Run the model of the call. -/
def exec (N : Nat) (dv : T) : Call T → Prog (Mem T) Ret
  | .create => do return .obj (← create N)
  | .ctor n => do return .obj (← ctor N dv n)
  | .ctorN n a => do return .obj (← ctorN N n (← a.expr))
  | .copyOf d => do return .obj (← copyOf N d)
  | .ctorRange r => do
    let (s, n) ← r.expr
    return .obj (← ctorRange N n s)
  | .destroy c => do destroy c; return .none
  | .assign c d => do assign c d; return .none
  | .assignN c n a => do assignN N c n (← a.expr); return .none
  | .assignRange c r => do
    let (s, n) ← r.expr
    assignRange N c n s
    return .none
  | .resize c n => do resize N dv c n; return .none
  | .resizeX c n a => do resizeX N dv c n (← a.expr); return .none
  | .insert c i a => do
    let a ← a.expr
    return .it (← insert N c ((← begin_ c) + i) a)
  | .insertN c i n a => do
    let a ← a.expr
    return .it (← insertN N c ((← begin_ c) + i) n a)
  | .insertRange c i r => do
    let (s, n) ← r.expr
    return .it (← insertRange N c ((← begin_ c) + i) n s)
  | .pushBack c a => do pushBack N c (← a.expr); return .none
  | .popBack c => do popBack c; return .none
  | .erase c i => do return .it (← erase c ((← begin_ c) + i))
  | .eraseRange c i j => do return .it (← eraseRange c ((← begin_ c) + i) ((← begin_ c) + j))
  | .swap c d => do swap c d; return .none
  | .clear c => do clear c; return .none
  | .store c i a => do store c i (← a.expr); return .none

/-- `n` copies of the argument -/
def State.copies (S : State T) (n : Nat) (a : CArg T) : List T := match a.val S with | some v => List.replicate n v | none => []

/-- The sequences after the call; `f` is the next fresh identity. -/
def spec (N : Nat) (dv : T) (S : State T) (f : Nat) : Call T → State T
  | .create => S.put f []
  | .ctor n => S.put f ((List.replicate n dv).take N)
  | .ctorN n a => S.put f ((S.copies n a).take N)
  | .copyOf d => S.put f (S.vals d)
  | .ctorRange r => S.put f ((r.vals' S).take N)
  | .destroy c => S.del c
  | .assign c d => S.put c (if d = c then [] else S.vals d)
  | .assignN c n a => S.put c ((S.copies n a).take N)
  | .assignRange c r => S.put c ((r.vals' S).take N)
  | .resize c n => S.put c (if n < (S.vals c).length then (S.vals c).take n else (S.vals c ++ List.replicate (n - (S.vals c).length) dv).take N)
  | .resizeX c n a => S.put c (if n < (S.vals c).length then (S.vals c).take n else (S.vals c ++ S.copies (n - (S.vals c).length) a).take N)
  | .insert c i a => S.put c (((S.vals c).take i ++ S.copies 1 a ++ (S.vals c).drop i).take N)
  | .insertN c i n a => S.put c (((S.vals c).take i ++ S.copies n a ++ (S.vals c).drop i).take N)
  | .insertRange c i r => S.put c (((S.vals c).take i ++ r.vals' S ++ (S.vals c).drop i).take N)
  | .pushBack c a => S.put c ((S.vals c ++ S.copies 1 a).take N)
  | .popBack c => S.put c (S.vals c).dropLast
  | .erase c i => S.put c ((S.vals c).take i ++ (S.vals c).drop (i + 1))
  | .eraseRange c i j => S.put c ((S.vals c).take i ++ (S.vals c).drop j)
  | .swap c d => (S.put c (S.vals d)).put d (S.vals c)
  | .clear c => S.put c []
  | .store c i a => match a.val S with | some v => S.put c ((S.vals c).set i v) | none => S

/-- What the call returns. -/
def retOf (f : Nat) : Call T → Ret
  | .create | .ctor _ | .ctorN _ _ | .copyOf _ | .ctorRange _ => .obj f
  | .insert c i _ => .it ⟨c, i⟩
  | .insertN c i _ _ => .it ⟨c, i⟩
  | .insertRange c i _ => .it ⟨c, i⟩
  | .erase c i => .it ⟨c, i⟩
  | .eraseRange c i _ => .it ⟨c, i⟩
  | _ => .none

/-- Calls whose behaviour the code gets right. -/
def Legal (S : State T) : Call T → Prop
  | .create | .ctor _ => True
  | .ctorN _ a => a.Valid S
  | .copyOf d => S.Exists d
  | .ctorRange r => r.Valid S
  | .destroy c => S.Exists c
  | .assign c d => S.Exists c ∧ S.Exists d
  | .assignN c _ a => S.Exists c ∧ a.Valid S ∧ a.Before c 0
  | .assignRange c r => S.Exists c ∧ r.Valid S ∧ r.Before c 0
  | .resize c _ => S.Exists c
  | .resizeX c _ a => S.Exists c ∧ a.Valid S
  | .insert c i a => S.Exists c ∧ i ≤ (S.vals c).length ∧ a.Valid S ∧ (a.Before c i ∨ i = (S.vals c).length)
  | .insertN c i _ a => S.Exists c ∧ i ≤ (S.vals c).length ∧ a.Valid S ∧ (a.Before c i ∨ i = (S.vals c).length)
  | .insertRange c i r => S.Exists c ∧ i ≤ (S.vals c).length ∧ r.Valid S ∧ (r.Before c i ∨ i = (S.vals c).length)
  | .pushBack c a => S.Exists c ∧ a.Valid S
  | .popBack c => S.Exists c ∧ S.vals c ≠ []
  | .erase c i => S.Exists c ∧ i < (S.vals c).length
  | .eraseRange c i j => S.Exists c ∧ i ≤ j ∧ j ≤ (S.vals c).length ∧ (i = j → j = (S.vals c).length)
  | .swap c d => S.Exists c ∧ S.Exists d ∧ (S.vals c).length ≤ (S.vals d).length
  | .clear c => S.Exists c
  | .store c i a => S.Exists c ∧ i < (S.vals c).length ∧ a.Valid S

/-- The memory a client program starts with: no fixed vector, no storage. -/
def empty₀ : Mem T := { obj := fun _ => none, size := fun _ => none, slot := fun _ _ => none, fresh := 1 }

/-- `h` is the result of some client program; `S` are the fixed vectors it made. -/
inductive Reach (N : Nat) (dv : T) : State T → Mem T → Prop where
  | start : Reach N dv (fun _ => none) empty₀
  | step {S : State T} {h h' : Mem T} {r : Ret} (k : Call T) : Reach N dv S h → Legal S k → exec N dv k h = .ok (r, h') → Reach N dv (spec N dv S h.fresh k) h'

/-! ## The invariant -/

/-- Every fixed vector holds its sequence, and apart from the lost storage `L` there is nothing else in memory. (Storage is lost only when exceptions are
thrown, see `Verif.Exc.FvModel`.) -/
structure WorldL (N : Nat) (L : Nat → Prop) (h : Mem T) (S : State T) : Prop where
  fv : ∀ c s, S c = some s → IsFV N h c s
  only : ∀ c, S c = none → ¬ L c → h.obj c = none ∧ h.size c = none ∧ ∀ i, h.slot c i = none
  fresh : ∀ c, h.fresh ≤ c → S c = none ∧ ¬ L c
  apart : ∀ c, L c → S c = none

/-- Every fixed vector holds its sequence, and there is nothing else in memory. -/
abbrev World (N : Nat) (h : Mem T) (S : State T) : Prop := WorldL N (fun _ => False) h S

variable {L : Nat → Prop} {h h' : Mem T} {S : State T} {N c d n i j k : Nat} {s t ws us : List T} {dv : T}

theorem WorldL.lt (W : WorldL N L h S) (hc : S c = some s) : c < h.fresh := by
  rcases Nat.lt_or_ge c h.fresh with q | q
  · exact q
  · rw [(W.fresh c q).1] at hc; cases hc

theorem WorldL.chg (W : WorldL N L h S) (hc : S c = some s) (hw : ws.length ≤ N) : WorldL N L (FV.fv h c ws) (S.put c ws) := by
  refine ⟨?_, ?_, ?_, ?_⟩
  · intro d t e
    by_cases q : d = c
    · subst q; rw [put_same] at e; cases e; exact isFV_fv (W.fv d s hc) hw
    · rw [put_other _ q] at e; exact isFV_fv_other (W.fv d t e) q
  · intro d e nl
    by_cases q : d = c
    · subst q; rw [put_same] at e; cases e
    · rw [put_other _ q] at e
      rw [fv_obj_other q, fv_slot_other q]; exact W.only d e nl
  · intro d q
    have := W.lt hc
    have q : h.fresh ≤ d := q
    rw [put_other _ (by omega)]; exact W.fresh d q
  · intro d l
    have q : d ≠ c := by rintro rfl; rw [W.apart d l] at hc; cases hc
    rw [put_other _ q]; exact W.apart d l

/-- Memory after the storage for a new fixed vector was made. -/
def made (N : Nat) (h : Mem T) : Mem T :=
  { obj := upd h.obj h.fresh (some ⟨h.fresh, 0⟩), size := upd h.size h.fresh (some N), slot := upd h.slot h.fresh (fun _ => none), fresh := h.fresh + 1 }

theorem newStore_ok : newStore N h = .ok (h.fresh, made N h) := rfl

theorem WorldL.made (W : WorldL N L h S) : WorldL N L (made N h) (S.put h.fresh []) := by
  refine ⟨?_, ?_, ?_, ?_⟩
  · intro d t e
    by_cases q : d = h.fresh
    · subst q; rw [put_same] at e; cases e
      refine ⟨upd_same .., ?_, upd_same .., Nat.zero_le _⟩
      show upd h.slot h.fresh _ h.fresh = _
      rw [upd_same, lay_nil]; funext i; simp
    · rw [put_other _ q] at e
      have v := W.fv d t e
      exact ⟨(upd_other _ _ q).trans v.obj, (upd_other _ _ q).trans v.slot, (upd_other _ _ q).trans v.size, v.le⟩
  · intro d e nl
    by_cases q : d = h.fresh
    · subst q; rw [put_same] at e; cases e
    · rw [put_other _ q] at e
      have := W.only d e nl
      refine ⟨(upd_other _ _ q).trans this.1, (upd_other _ _ q).trans this.2.1, fun i => ?_⟩
      show upd h.slot h.fresh _ d i = none
      rw [upd_other _ _ q]; exact this.2.2 i
  · intro d q
    have q : h.fresh + 1 ≤ d := q
    rw [put_other _ (by omega)]; exact W.fresh d (by omega)
  · intro d l
    have q : d ≠ h.fresh := by rintro rfl; exact (W.fresh _ (Nat.le_refl _)).2 l
    rw [put_other _ q]; exact W.apart d l

theorem sub_made (W : WorldL N L h S) : h.Sub (FV.made N h) := by
  rintro b i v ⟨⟨n, q1, q2⟩, q3⟩
  have ne : b ≠ h.fresh := by
    rintro rfl
    have := (W.only h.fresh (W.fresh _ (Nat.le_refl _)).1 (W.fresh _ (Nat.le_refl _)).2).2.1
    rw [this] at q1; cases q1
  refine ⟨⟨n, (upd_other _ _ ne).trans q1, q2⟩, ?_⟩
  show upd h.slot h.fresh _ b i = some v
  rw [upd_other _ _ ne]; exact q3

theorem WorldL.destroy (W : WorldL N L h S) (hc : S c = some s) : ∃ h', destroy c h = .ok ((), h') ∧ WorldL N L h' (S.del c) := by
  have v := W.fv c s hc
  have W1 := W.chg hc (ws := []) (Nat.zero_le _)
  have v1 := W1.fv c [] (put_same ..)
  refine ⟨{ FV.fv h c [] with obj := upd (FV.fv h c []).obj c none, size := upd (FV.fv h c []).size c none }, ?_, ?_, ?_, ?_, ?_⟩
  · simp only [FV.destroy, Prog.bind_app, clear_ok s h v, Res.bind_ok, dropStore, v1.obj]
  · intro d t e
    have q : d ≠ c := by rintro rfl; simp [State.del] at e
    have e : S d = some t := by simpa [State.del, q] using e
    have vd := W1.fv d t (by rw [put_other _ q]; exact e)
    exact ⟨(upd_other _ _ q).trans vd.obj, vd.slot, (upd_other _ _ q).trans vd.size, vd.le⟩
  · intro d e nl
    by_cases q : d = c
    · subst q
      refine ⟨upd_same .., upd_same .., fun i => ?_⟩
      show (FV.fv h d []).slot d i = none
      rw [v1.slot, lay_nil]; simp
    · have e : S d = none := by simpa [State.del, q] using e
      have := W1.only d (by rw [put_other _ q]; exact e) nl
      exact ⟨(upd_other _ _ q).trans this.1, (upd_other _ _ q).trans this.2.1, this.2.2⟩
  · intro d q
    refine ⟨?_, (W.fresh d q).2⟩
    simp only [State.del]; split
    · rfl
    · exact (W.fresh d q).1
  · intro d l
    simp only [State.del]; split
    · rfl
    · exact W.apart d l

theorem WorldL.swapped (W : WorldL N L h S) (hc : S c = some s) (hd : S d = some t) (ne : c ≠ d) : WorldL N L (FV.fv (FV.fv h c t) d s) ((S.put c t).put d s) :=
  (W.chg hc (W.fv d t hd).le).chg (s := t) (by rw [put_other _ (Ne.symm ne)]; exact hd) (W.fv c s hc).le

/-! ## Arguments -/

theorem WorldL.holds (W : WorldL N L h S) (hd : S d = some t) {a : T} (q : t[k]? = some a) : h.Holds d k a := (W.fv d t hd).holds q

theorem WorldL.holds_prefix (W : WorldL N L h S) (hc : S c = some s) (hd : S d = some t) {a : T} (q : t[k]? = some a) (hb : d = c → k < i) :
    (h.lay c (s.take i) 0 []).Holds d k a := by
  obtain ⟨q1, q2⟩ := W.holds hd q
  refine ⟨q1, ?_⟩
  by_cases e : d = c
  · subst e; rw [hc] at hd; cases hd
    rw [lay_slot_same, lay_nil]
    show (s.take i)[k]? = some a
    rw [List.getElem?_take_of_lt (hb rfl)]; exact q
  · rw [lay_slot_other _ _ _ _ _ e]; exact q2

theorem arg_ok (W : WorldL N L h S) {a : CArg T} (va : a.Valid S) :
    ∃ x v, a.expr h = .ok (x, h) ∧ a.val S = some v ∧ (∀ k : Mem T, h.Sub k → x.get k = .ok (v, k)) ∧
      ∀ c s i, S c = some s → a.Before c i → ∀ k : Mem T, (h.lay c (s.take i) 0 []).Sub k → x.get k = .ok (v, k) := by
  cases a with
  | ext v => exact ⟨.ext v, v, rfl, rfl, fun _ _ => rfl, fun _ _ _ _ _ _ _ => rfl⟩
  | elem d i =>
    obtain ⟨⟨t, ht⟩, hi⟩ := va
    rw [vals_some ht] at hi
    have q : t[i]? = some t[i] := List.getElem?_eq_getElem hi
    refine ⟨.slot ⟨d, i⟩, t[i], ?_, ?_, arg_slot (W.holds ht q), ?_⟩
    · simp only [CArg.expr, Prog.bind_app, at_ok (W.fv d t ht), Res.bind_ok, Prog.pure_app]
    · simp only [CArg.val, vals_some ht, q]
    · intro c s k hc hb
      exact arg_slot (W.holds_prefix hc ht q hb)

theorem src_ok (W : WorldL N L h S) {r : CSrc T} (vr : r.Valid S) :
    ∃ x, r.expr h = .ok ((x, (r.vals' S).length), h) ∧ Gives h x (r.vals' S) ∧
      ∀ c s i, S c = some s → r.Before c i → Gives (h.lay c (s.take i) 0 []) x (r.vals' S) := by
  cases r with
  | vals vs => exact ⟨.vals vs, rfl, gives_vals _, fun _ _ _ _ _ => gives_vals _⟩
  | range d i j =>
    obtain ⟨⟨t, ht⟩, hij, hj⟩ := vr
    rw [vals_some ht] at hj
    have el : ∀ k v, ((t.drop i).take (j - i))[k]? = some v → t[i + k]? = some v ∧ i + k < j := by
      intro k v e
      have : k < j - i := by have := (List.getElem?_eq_some_iff.1 e).1; simp at this; omega
      rw [List.getElem?_take_of_lt this, List.getElem?_drop] at e
      exact ⟨e, by omega⟩
    refine ⟨.range ⟨d, i⟩, ?_, ?_, ?_⟩
    · simp only [CSrc.expr, Prog.bind_app, begin_ok (W.fv d t ht), Res.bind_ok, Prog.pure_app, ptr_add, Nat.zero_add, CSrc.vals', vals_some ht]
      have : ((t.drop i).take (j - i)).length = j - i := by simp; omega
      rw [this]
    · simp only [CSrc.vals', vals_some ht]
      exact gives_range _ _ fun k v e => W.holds ht (el k v e).1
    · intro c s k hc hb
      simp only [CSrc.vals', vals_some ht]
      exact gives_range _ _ fun m v e => W.holds_prefix hc ht (el m v e).1 (fun e' => by have := hb e'; have := (el m v e).2; omega)

theorem copies_val {a : CArg T} {v : T} (q : a.val S = some v) (n : Nat) : S.copies n a = List.replicate n v := by simp [State.copies, q]

/-! ## Every legal call does what `spec` says -/

theorem WorldL.one (W : WorldL N L h S) (hc : S c = some s) {r : Ret} {k : Call T} (q : exec N dv k h = .ok (r, FV.fv h c ws)) (hw : ws.length ≤ N) (e1 : spec N dv S h.fresh k = S.put c ws)
    (e2 : retOf h.fresh k = r) : ∃ h', exec N dv k h = .ok (retOf h.fresh k, h') ∧ WorldL N L h' (spec N dv S h.fresh k) :=
  ⟨_, by rw [e2]; exact q, by rw [e1]; exact W.chg hc hw⟩

theorem WorldL.new (W : WorldL N L h S) (hw : ws.length ≤ N) : WorldL N L (FV.fv (FV.made N h) h.fresh ws) (S.put h.fresh ws) := by
  have := W.made.chg (put_same ..) hw
  rwa [put_put] at this

theorem take_le (ws : List T) : (ws.take N).length ≤ N := by simp; omega

theorem step_ok (W : WorldL N L h S) (k : Call T) (lg : Legal S k) :
    ∃ h', exec N dv k h = .ok (retOf h.fresh k, h') ∧ WorldL N L h' (spec N dv S h.fresh k) := by
  have v0 : IsFV N (FV.made N h) h.fresh [] := W.made.fv _ _ (put_same ..)
  cases k with
  | create => exact ⟨FV.made N h, rfl, W.made⟩
  | ctor n =>
    have t := fill_ok (List.replicate n dv) [] (.counter (.ext dv)) _ _ v0 (gives_counter (fun _ _ => rfl) n) (Heap.Sub.refl _)
    rw [List.length_replicate, List.nil_append] at t
    refine ⟨_, ?_, W.new (take_le _)⟩
    simp only [exec, ctor, Prog.bind_app, newStore_ok, Res.bind_ok, t, Prog.pure_app, retOf]
  | ctorN n a =>
    obtain ⟨x, v, e0, ev, g1, g2⟩ := arg_ok W lg
    have t := fill_ok (List.replicate n v) [] (.counter x) _ h v0 (gives_counter g1 n) (sub_made W)
    rw [List.length_replicate, List.nil_append] at t
    refine ⟨FV.fv (FV.made N h) h.fresh ((List.replicate n v).take N), ?_, ?_⟩
    · simp only [exec, ctorN, Prog.bind_app, e0, newStore_ok, Res.bind_ok, t, Prog.pure_app, retOf]
    · simp only [spec, copies_val ev]; exact W.new (take_le _)
  | copyOf d =>
    obtain ⟨t, ht⟩ := lg
    have ne : d ≠ h.fresh := by have := W.lt ht; omega
    have vd := W.made.fv d t (by rw [put_other _ ne]; exact ht)
    have e := copyFull_ok ne t [] 0 _ v0 vd (Nat.zero_le _) rfl
    rw [List.nil_append, List.take_of_length_le vd.le] at e
    refine ⟨FV.fv (FV.made N h) h.fresh t, ?_, ?_⟩
    · simp only [exec, copyOf, Prog.bind_app, newStore_ok, Res.bind_ok, begin_ok vd, e, Prog.pure_app, retOf]
    · simp only [spec, vals_some ht]; exact W.new vd.le
  | ctorRange r =>
    obtain ⟨x, e0, g1, g2⟩ := src_ok W lg
    have t := pushAll_ok (r.vals' S) [] x _ h v0 g1 (sub_made W)
    rw [List.nil_append] at t
    refine ⟨_, ?_, W.new (take_le _)⟩
    simp only [exec, ctorRange, Prog.bind_app, e0, newStore_ok, Res.bind_ok, t, Prog.pure_app, retOf]
  | destroy c =>
    obtain ⟨s, hc⟩ := lg
    obtain ⟨h', e, W'⟩ := W.destroy hc
    exact ⟨h', by simp only [exec, Prog.bind_app, e, Res.bind_ok]; rfl, W'⟩
  | assign c d =>
    obtain ⟨⟨s, hc⟩, ⟨t, hd⟩⟩ := lg
    have v := W.fv c s hc
    have vd := W.fv d t hd
    refine W.one hc (r := .none) (ws := if d = c then [] else t) ?_ ?_ ?_ rfl
    · simp only [exec, Prog.bind_app, assign_ok v vd, Res.bind_ok]; rfl
    · split
      · exact Nat.zero_le _
      · exact vd.le
    · simp only [spec, vals_some hd]
  | assignN c n a =>
    obtain ⟨⟨s, hc⟩, va, ho⟩ := lg
    have v := W.fv c s hc
    obtain ⟨x, w, e0, ev, g1, g2⟩ := arg_ok W va
    have g3 := g2 c s 0 hc ho
    rw [List.take_zero] at g3
    have t := assignN_ok v (gives_counter g3 n)
    rw [List.length_replicate] at t
    refine W.one hc (r := .none) (ws := (List.replicate n w).take N) ?_ (take_le _) ?_ rfl
    · simp only [exec, Prog.bind_app, e0, Res.bind_ok]
      rw [show assignN N c n x h = _ from t]; rfl
    · simp only [spec, copies_val ev]
  | assignRange c r =>
    obtain ⟨⟨s, hc⟩, vr, ho⟩ := lg
    have v := W.fv c s hc
    obtain ⟨x, e0, g1, g2⟩ := src_ok W vr
    have g3 := g2 c s 0 hc ho
    rw [List.take_zero] at g3
    refine W.one hc (r := .none) (ws := (r.vals' S).take N) ?_ (take_le _) rfl rfl
    simp only [exec, Prog.bind_app, e0, Res.bind_ok, assignN_ok v g3]; rfl
  | resize c n =>
    obtain ⟨s, hc⟩ := lg
    have v := W.fv c s hc
    have le := v.le
    refine W.one hc (r := .none) (ws := if n < s.length then s.take n else (s ++ List.replicate (n - s.length) dv).take N) ?_ ?_ ?_ rfl
    · simp only [exec, Prog.bind_app, resize_ok v, Res.bind_ok]; rfl
    · split
      · simp; omega
      · exact take_le _
    · simp only [spec, vals_some hc]
  | resizeX c n a =>
    obtain ⟨⟨s, hc⟩, va⟩ := lg
    have v := W.fv c s hc
    have le := v.le
    obtain ⟨x, w, e0, ev, g1, g2⟩ := arg_ok W va
    refine W.one hc (r := .none) (ws := if n < s.length then s.take n else (s ++ List.replicate (n - s.length) w).take N) ?_ ?_ ?_ rfl
    · simp only [exec, Prog.bind_app, e0, resizeX_ok v dv n g1, Res.bind_ok]; rfl
    · split
      · simp; omega
      · exact take_le _
    · simp only [spec, vals_some hc, copies_val ev]
  | insert c i a =>
    obtain ⟨⟨s, hc⟩, hi, va, hs⟩ := lg
    have v := W.fv c s hc
    rw [vals_some hc] at hi hs
    obtain ⟨x, w, e0, ev, g1, g2⟩ := arg_ok W va
    have g : Gives (h.lay c (s.take i) 0 []) (.counter x) (List.replicate 1 w) := by
      rcases hs with q | q
      · exact gives_counter (g2 c s i hc q) 1
      · subst q; rw [List.take_length, lay_self _ _ _ _ _ v.slot]; exact gives_counter g1 1
    have t := insert_ok v hi _ g
    rw [List.length_replicate] at t
    refine W.one hc (r := .it ⟨c, i⟩) (ws := (s.take i ++ List.replicate 1 w ++ s.drop i).take N) ?_ (take_le _) ?_ rfl
    · simp only [exec, insert, insertN, Prog.bind_app, e0, Res.bind_ok, begin_ok v, ptr_add, Nat.zero_add, t]; rfl
    · simp only [spec, vals_some hc, copies_val ev]
  | insertN c i n a =>
    obtain ⟨⟨s, hc⟩, hi, va, hs⟩ := lg
    have v := W.fv c s hc
    rw [vals_some hc] at hi hs
    obtain ⟨x, w, e0, ev, g1, g2⟩ := arg_ok W va
    have g : Gives (h.lay c (s.take i) 0 []) (.counter x) (List.replicate n w) := by
      rcases hs with q | q
      · exact gives_counter (g2 c s i hc q) n
      · subst q; rw [List.take_length, lay_self _ _ _ _ _ v.slot]; exact gives_counter g1 n
    have t := insert_ok v hi _ g
    rw [List.length_replicate] at t
    refine W.one hc (r := .it ⟨c, i⟩) (ws := (s.take i ++ List.replicate n w ++ s.drop i).take N) ?_ (take_le _) ?_ rfl
    · simp only [exec, insertN, Prog.bind_app, e0, Res.bind_ok, begin_ok v, ptr_add, Nat.zero_add, t]; rfl
    · simp only [spec, vals_some hc, copies_val ev]
  | insertRange c i r =>
    obtain ⟨⟨s, hc⟩, hi, vr, hs⟩ := lg
    have v := W.fv c s hc
    rw [vals_some hc] at hi hs
    obtain ⟨x, e0, g1, g2⟩ := src_ok W vr
    have g : Gives (h.lay c (s.take i) 0 []) x (r.vals' S) := by
      rcases hs with q | q
      · exact g2 c s i hc q
      · subst q; rw [List.take_length, lay_self _ _ _ _ _ v.slot]; exact g1
    have t := insert_ok v hi _ g
    refine W.one hc (r := .it ⟨c, i⟩) (ws := (s.take i ++ r.vals' S ++ s.drop i).take N) ?_ (take_le _) ?_ rfl
    · simp only [exec, insertRange, Prog.bind_app, e0, Res.bind_ok, begin_ok v, ptr_add, Nat.zero_add, t]; rfl
    · simp only [spec, vals_some hc]
  | pushBack c a =>
    obtain ⟨⟨s, hc⟩, va⟩ := lg
    have v := W.fv c s hc
    obtain ⟨x, w, e0, ev, g1, g2⟩ := arg_ok W va
    refine W.one hc (r := .none) ?_ (take_le (s ++ [w])) ?_ rfl
    · simp only [exec, Prog.bind_app, e0, Res.bind_ok, pushBack_ok v (g1 h (Heap.Sub.refl _))]; rfl
    · simp only [spec, vals_some hc, copies_val ev]; rfl
  | popBack c =>
    obtain ⟨⟨s, hc⟩, ne⟩ := lg
    rw [vals_some hc] at ne
    have v := W.fv c s hc
    have le := v.le
    refine W.one hc (r := .none) (ws := s.dropLast) ?_ (by simp; omega) ?_ rfl
    · simp only [exec, Prog.bind_app, popBack_ok v ne, Res.bind_ok]; rfl
    · simp only [spec, vals_some hc]
  | erase c i =>
    obtain ⟨⟨s, hc⟩, hi⟩ := lg
    rw [vals_some hc] at hi
    have v := W.fv c s hc
    have le := v.le
    refine W.one hc (r := .it ⟨c, i⟩) (ws := s.take i ++ s.drop (i + 1)) ?_ (by simp; omega) ?_ rfl
    · simp only [exec, erase, Prog.bind_app, Res.bind_ok, begin_ok v, ptr_add, Nat.zero_add]
      rw [eraseRange_ok v (Nat.lt_succ_self i) hi]; rfl
    · simp only [spec, vals_some hc]
  | eraseRange c i j =>
    obtain ⟨⟨s, hc⟩, hij, hj, he⟩ := lg
    rw [vals_some hc] at hj he
    have v := W.fv c s hc
    have le := v.le
    by_cases q : i < j
    · refine W.one hc (r := .it ⟨c, i⟩) (ws := s.take i ++ s.drop j) ?_ (by simp; omega) ?_ rfl
      · simp only [exec, Prog.bind_app, Res.bind_ok, begin_ok v, ptr_add, Nat.zero_add, eraseRange_ok v q hj]; rfl
      · simp only [spec, vals_some hc]
    · have : i = j := by omega
      subst this
      have := he rfl
      subst this
      refine W.one hc (r := .it ⟨c, s.length⟩) (ws := s) ?_ le ?_ rfl
      · simp only [exec, Prog.bind_app, Res.bind_ok, begin_ok v, ptr_add, Nat.zero_add, eraseRange_end v, fv_self v]; rfl
      · simp only [spec, vals_some hc, List.take_length, List.drop_length, List.append_nil]
  | swap c d =>
    obtain ⟨⟨s, hc⟩, ⟨t, hd⟩, le⟩ := lg
    rw [vals_some hc, vals_some hd] at le
    by_cases q : c = d
    · subst q
      rw [hc] at hd; cases hd
      refine ⟨h, ?_, ?_⟩
      · simp only [exec, Prog.bind_app, swap_self (W.fv c s hc), Res.bind_ok]; rfl
      · simp only [spec, vals_some hc, put_put, put_self hc]; exact W
    · refine ⟨FV.fv (FV.fv h c t) d s, ?_, ?_⟩
      · simp only [exec, Prog.bind_app, swap_ok (W.fv c s hc) (W.fv d t hd) q le, Res.bind_ok]; rfl
      · simp only [spec, vals_some hc, vals_some hd]; exact W.swapped hc hd q
  | clear c =>
    obtain ⟨s, hc⟩ := lg
    have v := W.fv c s hc
    refine W.one hc (r := .none) (ws := []) ?_ (Nat.zero_le _) rfl rfl
    simp only [exec, Prog.bind_app, clear_ok s h v, Res.bind_ok]; rfl
  | store c i a =>
    obtain ⟨⟨s, hc⟩, hi, va⟩ := lg
    rw [vals_some hc] at hi
    have v := W.fv c s hc
    obtain ⟨x, w, e0, ev, g1, g2⟩ := arg_ok W va
    refine W.one hc (r := .none) (ws := s.set i w) ?_ (by simp; exact v.le) ?_ rfl
    · simp only [exec, Prog.bind_app, e0, Res.bind_ok, store_ok v hi (g1 h (Heap.Sub.refl _))]; rfl
    · simp only [spec, ev, vals_some hc]

theorem world_start : World N (empty₀ : Mem T) (fun _ => none) :=
  ⟨fun _ _ q => (by cases q), fun _ _ _ => ⟨rfl, rfl, fun _ => rfl⟩, fun _ _ => ⟨rfl, id⟩, fun _ _ => rfl⟩

/-- Every reachable memory satisfies the invariant. -/
theorem Reach.world (R : Reach N dv S h) : World N h S := by
  induction R with
  | start => exact world_start
  | step k R lg e ih =>
    obtain ⟨h2, e2, W⟩ := step_ok (dv := dv) ih k lg
    rw [e] at e2; cases e2; exact W

end Verif.Vec.FV
