import Verif.Exc.Vec
import Verif.Limit
/-!
# Leaked blocks do not matter

`h.without L` is the memory `h` without the blocks of the set `L`. Whatever the members of `ttl::vector` do in `h.without L` they do in `h`, and the
blocks of `L` are not touched: a leaked block stays, unchanged, and changes nothing else.
-/
set_option linter.unusedVariables false
set_option linter.unusedSimpArgs false
namespace Verif.Exc.XVec
open Verif Verif.Vec Verif.Exc
variable {T ρ α β : Type}

/-- Blocks and objects that the program has lost. -/
structure Lost where
  blk : Nat → Bool
  obj : Nat → Bool

/-- Nothing is lost. -/
def Lost.none : Lost := ⟨fun _ => false, fun _ => false⟩

/-- All of `L` has an address below `n`. -/
structure Lost.Below (L : Lost) (n : Nat) : Prop where
  blk : ∀ b, L.blk b = true → b < n
  obj : ∀ c, L.obj c = true → c < n

theorem Lost.Below.le {L : Lost} {n m : Nat} (q : L.Below n) (l : n ≤ m) : L.Below m := ⟨fun b e => Nat.lt_of_lt_of_le (q.blk b e) l, fun b e => Nat.lt_of_lt_of_le (q.obj b e) l⟩

/-- Memory without the blocks and objects in `L`. -/
def without (h : Heap ρ T) (L : Lost) : Heap ρ T :=
  { h with size := fun b => if L.blk b then .none else h.size b, slot := fun b => if L.blk b then lay [] 0 [] else h.slot b,
           obj := fun c => if L.obj c then .none else h.obj c }

/-- The blocks and objects in `L` are unchanged. -/
structure SameIn (L : Lost) (h h' : Heap ρ T) : Prop where
  blk : ∀ b, L.blk b = true → h'.size b = h.size b ∧ h'.slot b = h.slot b
  obj : ∀ c, L.obj c = true → h'.obj c = h.obj c

/-- `p` does in `h` what it does in `h.without L`, and leaves `L` alone. -/
structure Framed (p : Prog (Heap ρ T) α) : Prop where
  out : ∀ (L : Lost) (h : Heap ρ T), L.Below h.fresh → ∀ r m, p (without h L) = .ok (r, m) →
    ∃ h', p h = .ok (r, h') ∧ without h' L = m ∧ h.fresh ≤ h'.fresh ∧ SameIn L h h'

theorem SameIn.refl {L : Lost} (h : Heap ρ T) : SameIn L h h := ⟨fun _ _ => ⟨rfl, rfl⟩, fun _ _ => rfl⟩
theorem SameIn.trans {L : Lost} {h h' h'' : Heap ρ T} (p : SameIn L h h') (q : SameIn L h' h'') : SameIn L h h'' :=
  ⟨fun b l => ⟨(q.blk b l).1.trans (p.blk b l).1, (q.blk b l).2.trans (p.blk b l).2⟩, fun c l => (q.obj c l).trans (p.obj c l)⟩

theorem framed_pure (a : α) : Framed (pure a : Prog (Heap ρ T) α) := by
  constructor; intro L h hL r m e
  cases e
  exact ⟨h, rfl, rfl, Nat.le_refl _, .refl h⟩

theorem Framed.bind {p : Prog (Heap ρ T) α} {f : α → Prog (Heap ρ T) β} (hp : Framed p) (hf : ∀ a, Framed (f a)) : Framed (p >>= f) := by
  constructor; intro L h hL r m e
  simp only [Prog.bind_app] at e ⊢
  cases q : p (without h L) with
  | diverge => rw [q] at e; cases e
  | ub f => rw [q] at e; cases e
  | ok x =>
    rw [q] at e
    obtain ⟨h1, e1, e2, e3, e4⟩ := hp.out L h hL x.1 x.2 q
    obtain ⟨h2, f1, f2, f3, f4⟩ := (hf x.1).out L h1 (hL.le e3) r m (by rw [e2]; exact e)
    exact ⟨h2, by rw [e1]; exact f1, f2, Nat.le_trans e3 f3, e4.trans f4⟩

theorem framed_ite {c : Prop} [Decidable c] {p q : Prog (Heap ρ T) α} (hp : Framed p) (hq : Framed q) : Framed (if c then p else q) := by
  split
  · exact hp
  · exact hq

theorem framed_fail (f : Fault) : Framed (Prog.fail f : Prog (Heap ρ T) α) := by
  constructor; intro L h hL r m e; cases e

/-! ## The accesses to memory -/

theorem framed_getObj (c : Nat) : Framed (getObj c : Prog (Heap ρ T) ρ) := by
  constructor; intro L h hL r m e
  simp only [getObj] at e ⊢
  cases l : L.obj c with
  | true => simp [without, l] at e
  | false =>
    have o : (without h L).obj c = h.obj c := by simp [without, l]
    rw [o] at e
    cases q : h.obj c with
    | none => simp [q] at e
    | some x => simp only [q] at e ⊢; cases e; exact ⟨h, rfl, rfl, Nat.le_refl _, .refl h⟩

theorem upd_without {γ : Type} (L : Nat → Bool) (f : Nat → γ) (d : γ) {b : Nat} (y : γ) (hb : L b = false) :
    (fun x => if L x then d else upd f b y x) = upd (fun x => if L x then d else f x) b y := by
  funext x
  simp only [upd]
  by_cases q : x = b
  · subst q; simp [hb]
  · simp [q]

theorem framed_obj (c : Nat) (x : Option ρ) {h : Heap ρ T} {L : Lost} (l : L.obj c = false) :
    without { h with obj := upd h.obj c x } L = { without h L with obj := upd (without h L).obj c x } ∧ SameIn L h { h with obj := upd h.obj c x } := by
  constructor
  · simp only [without, upd_without _ _ _ _ l]
  · refine ⟨fun _ _ => ⟨rfl, rfl⟩, fun b lb => ?_⟩
    have : b ≠ c := by intro q; subst q; rw [l] at lb; cases lb
    exact upd_other _ _ this

theorem framed_setObj (c : Nat) (x : ρ) : Framed (setObj c x : Prog (Heap ρ T) Unit) := by
  constructor; intro L h hL r m e
  simp only [setObj] at e ⊢
  cases l : L.obj c with
  | true => simp [without, l] at e
  | false =>
    have F := framed_obj c (some x) (h := h) l
    have o : (without h L).obj c = h.obj c := by simp [without, l]
    rw [o] at e
    cases q : h.obj c with
    | none => simp [q] at e
    | some y => simp only [q] at e ⊢; cases e; exact ⟨_, rfl, F.1, Nat.le_refl _, F.2⟩

theorem framed_dropObj (c : Nat) : Framed (dropObj c : Prog (Heap ρ T) Unit) := by
  constructor; intro L h hL r m e
  simp only [dropObj] at e ⊢
  cases l : L.obj c with
  | true => simp [without, l] at e
  | false =>
    have F := framed_obj c none (h := h) l
    have o : (without h L).obj c = h.obj c := by simp [without, l]
    rw [o] at e
    cases q : h.obj c with
    | none => simp [q] at e
    | some y => simp only [q] at e ⊢; cases e; exact ⟨_, rfl, F.1, Nat.le_refl _, F.2⟩

theorem framed_newObj (x : ρ) : Framed (newObj x : Prog (Heap ρ T) Nat) := by
  constructor; intro L h hL r m e
  have hf : L.obj h.fresh = false := by
    cases q : L.obj h.fresh with
    | false => rfl
    | true => exact absurd (hL.obj _ q) (Nat.lt_irrefl _)
  cases e
  have F := framed_obj h.fresh (some x) (h := { h with fresh := h.fresh + 1 }) hf
  exact ⟨_, rfl, F.1, Nat.le_succ _, ⟨F.2.blk, F.2.obj⟩⟩

theorem framed_alloc (n : Nat) : Framed (Vec.alloc n : Prog (Heap ρ T) Ptr) := by
  constructor; intro L h hL r m e
  have hf : L.blk h.fresh = false := by
    cases q : L.blk h.fresh with
    | false => rfl
    | true => exact absurd (hL.blk _ q) (Nat.lt_irrefl _)
  cases e
  refine ⟨_, rfl, ?_, Nat.le_succ _, ?_⟩
  · simp only [without, upd_without _ _ _ _ hf]
  · refine ⟨fun b l => ?_, fun _ _ => rfl⟩
    have : b ≠ h.fresh := by intro q; subst q; rw [hf] at l; cases l
    exact ⟨upd_other _ _ this, upd_other _ _ this⟩

theorem framed_free (p : Ptr) : Framed (free p : Prog (Heap ρ T) Unit) := by
  constructor; intro L h hL r m e
  simp only [free] at e ⊢
  by_cases q : p = Ptr.null
  · rw [if_pos q] at e ⊢; cases e; exact ⟨h, rfl, rfl, Nat.le_refl _, .refl h⟩
  · rw [if_neg q] at e ⊢
    cases l : L.blk p.blk with
    | true => simp [without, l] at e
    | false =>
      simp only [without, l, Bool.false_eq_true, if_false] at e ⊢
      cases g : h.size p.blk with
      | none => simp [g] at e
      | some x =>
        simp only [g] at e ⊢
        by_cases z : p.off = 0
        · simp only [if_pos z] at e ⊢; cases e
          refine ⟨_, rfl, ?_, Nat.le_refl _, ?_⟩
          · simp only [without, upd_without _ _ _ _ l]
          · refine ⟨fun b lb => ?_, fun _ _ => rfl⟩
            have : b ≠ p.blk := by intro q; subst q; rw [l] at lb; cases lb
            exact ⟨upd_other _ _ this, rfl⟩
        · simp [if_neg z] at e

theorem framed_read (p : Ptr) : Framed (read p : Prog (Heap ρ T) T) := by
  constructor; intro L h hL r m e
  simp only [Vec.read, inBlock] at e ⊢
  cases l : L.blk p.blk with
  | true => simp [without, l] at e
  | false =>
    simp only [without, l, Bool.false_eq_true, if_false] at e ⊢
    cases g : h.size p.blk with
    | none => simp [g] at e
    | some x =>
      simp only [g] at e ⊢
      by_cases z : p.off < x
      · simp only [if_pos z] at e ⊢
        cases s : h.slot p.blk p.off with
        | none => simp [s] at e
        | some v => simp only [s] at e ⊢; cases e; exact ⟨h, rfl, rfl, Nat.le_refl _, .refl h⟩
      · simp [if_neg z] at e

theorem framed_set (p : Ptr) (v : Option T) {h : Heap ρ T} {L : Lost} (l : L.blk p.blk = false) :
    without { h with slot := upd h.slot p.blk (upd (h.slot p.blk) p.off v) } L =
      { without h L with slot := upd (without h L).slot p.blk (upd ((without h L).slot p.blk) p.off v) } ∧
    SameIn L h { h with slot := upd h.slot p.blk (upd (h.slot p.blk) p.off v) } := by
  constructor
  · simp only [without, upd_without _ _ _ _ l, l, Bool.false_eq_true, if_false]
  · refine ⟨fun b lb => ?_, fun _ _ => rfl⟩
    have : b ≠ p.blk := by intro q; subst q; rw [l] at lb; cases lb
    exact ⟨rfl, upd_other _ _ this⟩

theorem framed_write (p : Ptr) (v : T) : Framed (write p v : Prog (Heap ρ T) Unit) := by
  constructor; intro L h hL r m e
  simp only [write, inBlock] at e ⊢
  cases l : L.blk p.blk with
  | true => simp [without, l] at e
  | false =>
    have F := framed_set p (some v) (h := h) l
    have s1 : (without h L).size p.blk = h.size p.blk := by simp [without, l]
    have s2 : (without h L).slot p.blk = h.slot p.blk := by simp [without, l]
    rw [s1] at e
    cases g : h.size p.blk with
    | none => simp [g] at e
    | some x =>
      simp only [g] at e ⊢
      by_cases z : p.off < x
      · simp only [if_pos z] at e ⊢
        cases s : h.slot p.blk p.off with
        | none => simp [s2, s] at e
        | some u => rw [s2] at e; simp only [s] at e ⊢; cases e; exact ⟨_, rfl, by rw [F.1, s2], Nat.le_refl _, F.2⟩
      · simp [if_neg z] at e

theorem framed_construct (p : Ptr) (v : T) : Framed (Vec.construct p v : Prog (Heap ρ T) Unit) := by
  constructor; intro L h hL r m e
  simp only [Vec.construct, inBlock] at e ⊢
  cases l : L.blk p.blk with
  | true => simp [without, l] at e
  | false =>
    have F := framed_set p (some v) (h := h) l
    have s1 : (without h L).size p.blk = h.size p.blk := by simp [without, l]
    have s2 : (without h L).slot p.blk = h.slot p.blk := by simp [without, l]
    rw [s1] at e
    cases g : h.size p.blk with
    | none => simp [g] at e
    | some x =>
      simp only [g] at e ⊢
      by_cases z : p.off < x
      · simp only [if_pos z] at e ⊢
        cases s : h.slot p.blk p.off with
        | some u => simp [s2, s] at e
        | none => rw [s2] at e; simp only [s] at e ⊢; cases e; exact ⟨_, rfl, by rw [F.1, s2], Nat.le_refl _, F.2⟩
      · simp [if_neg z] at e

theorem framed_destruct (p : Ptr) : Framed (destruct p : Prog (Heap ρ T) Unit) := by
  constructor; intro L h hL r m e
  simp only [destruct, inBlock] at e ⊢
  cases l : L.blk p.blk with
  | true => simp [without, l] at e
  | false =>
    have F := framed_set p none (h := h) l
    have s1 : (without h L).size p.blk = h.size p.blk := by simp [without, l]
    have s2 : (without h L).slot p.blk = h.slot p.blk := by simp [without, l]
    rw [s1] at e
    cases g : h.size p.blk with
    | none => simp [g] at e
    | some x =>
      simp only [g] at e ⊢
      by_cases z : p.off < x
      · simp only [if_pos z] at e ⊢
        cases s : h.slot p.blk p.off with
        | none => simp [s2, s] at e
        | some u => rw [s2] at e; simp only [s] at e ⊢; cases e; exact ⟨_, rfl, by rw [F.1, s2], Nat.le_refl _, F.2⟩
      · simp [if_neg z] at e

theorem framed_dec (p : Ptr) : Framed (dec p : Prog (Heap ρ T) Ptr) := by
  constructor; intro L h hL r m e
  simp only [dec] at e ⊢
  split at e
  · cases e
  · cases e; rename_i z; rw [if_neg z]; exact ⟨h, rfl, rfl, Nat.le_refl _, .refl h⟩

theorem framed_less (p q : Ptr) : Framed (less p q : Prog (Heap ρ T) Bool) := by
  constructor; intro L h hL r m e
  simp only [less] at e ⊢
  split at e
  · cases e; rename_i z; rw [if_pos z]; exact ⟨h, rfl, rfl, Nat.le_refl _, .refl h⟩
  · cases e

theorem framed_diff (p q : Ptr) : Framed (diff p q : Prog (Heap ρ T) Nat) := by
  constructor; intro L h hL r m e
  simp only [diff] at e ⊢
  split at e
  · cases e; rename_i z; rw [if_pos z]; exact ⟨h, rfl, rfl, Nat.le_refl _, .refl h⟩
  · cases e

/-! ## Loops -/

section
open Lean.Order

theorem framed_adm0 : admissible (fun f : Prog (Heap ρ T) α => Framed f) := by
  intro c hc ih; constructor; intro L h hL r m e
  obtain ⟨f, hf, e'⟩ := sup_ok0 hc e
  obtain ⟨h', q, rest⟩ := (ih f hf).out L h hL r m e'
  exact ⟨h', sup_le0 hc hf q, rest⟩
theorem framed_adm1 {A : Type} : admissible (fun f : A → Prog (Heap ρ T) α => ∀ a, Framed (f a)) := by
  intro c hc ih a; constructor; intro L h hL r m e
  obtain ⟨f, hf, e'⟩ := sup_ok1 hc e
  obtain ⟨h', q, rest⟩ := (ih f hf a).out L h hL r m e'
  exact ⟨h', sup_le1 hc hf q, rest⟩
theorem framed_adm2 {A B : Type} : admissible (fun f : A → B → Prog (Heap ρ T) α => ∀ a b, Framed (f a b)) := by
  intro c hc ih a b; constructor; intro L h hL r m e
  obtain ⟨f, hf, e'⟩ := sup_ok2 hc e
  obtain ⟨h', q, rest⟩ := (ih f hf a b).out L h hL r m e'
  exact ⟨h', sup_le2 hc hf q, rest⟩
end

/-- Decompose a program into its steps. -/
macro "framed" : tactic => `(tactic| repeat' (first
  | assumption
  | exact framed_pure _ | exact framed_getObj _ | exact framed_setObj _ _ | exact framed_newObj _ | exact framed_dropObj _ | exact framed_alloc _
  | exact framed_free _ | exact framed_read _ | exact framed_write _ _ | exact framed_construct _ _ | exact framed_destruct _ | exact framed_dec _
  | exact framed_less _ _ | exact framed_diff _ _ | exact framed_fail _
  | apply Framed.bind | apply framed_ite | (intro a; try dsimp only)))

theorem framed_shrinkTo (c : Nat) (pos : Ptr) : Framed (shrinkTo c pos : Prog (Mem T) Unit) := by
  refine shrinkTo.fixpoint_induct (T := T) c pos (motive := fun f => Framed f) framed_adm0 fun f ih => ?_
  framed

theorem framed_destroyDown (i lo : Ptr) : Framed (destroyDown i lo : Prog (Heap ρ T) Unit) := by
  refine destroyDown.fixpoint_induct (T := T) (ρ := ρ) lo (motive := fun f => ∀ a, Framed (f a)) framed_adm1 (fun f ih i => ?_) i
  framed
  exact ih _

theorem framed_destroyBack (i lo : Ptr) : Framed (destroyBack i lo : Prog (Heap ρ T) Unit) := by
  refine destroyBack.fixpoint_induct (T := T) (ρ := ρ) i (motive := fun f => ∀ a, Framed (f a)) framed_adm1 (fun f ih l => ?_) lo
  framed
  exact ih _

theorem framed_copyAll (c d : Nat) (i : Ptr) : Framed (Vec.copyAll c d i : Prog (Mem T) Unit) := by
  refine Vec.copyAll.fixpoint_induct (T := T) c d (motive := fun f => ∀ a, Framed (f a)) framed_adm1 (fun f ih i => ?_) i
  unfold end_ Vec.appendOne
  framed
  exact ih _

theorem framed_walk (i last : Ptr) : Framed (walk i last : Prog (Heap ρ T) (List T)) := by
  refine walk.fixpoint_induct (T := T) (ρ := ρ) last (motive := fun f => ∀ a, Framed (f a)) framed_adm1 (fun f ih i => ?_) i
  framed
  exact ih _

theorem framed_copyTo (i last o : Ptr) : Framed (Vec.copyTo i last o : Prog (Heap ρ T) Ptr) := by
  refine Vec.copyTo.fixpoint_induct (T := T) (ρ := ρ) last (motive := fun f => ∀ a b, Framed (f a b)) framed_adm2 (fun f ih i o => ?_) i o
  framed
  exact ih _ _

theorem framed_shiftUp (i last o : Ptr) : Framed (Vec.shiftUp i last o : Prog (Heap ρ T) Unit) := by
  refine Vec.shiftUp.fixpoint_induct (T := T) (ρ := ρ) last (motive := fun f => ∀ a b, Framed (f a b)) framed_adm2 (fun f ih i o => ?_) i o
  framed
  exact ih _ _

theorem framed_shiftDown (i last o : Ptr) : Framed (Vec.shiftDown i last o : Prog (Heap ρ T) Ptr) := by
  refine Vec.shiftDown.fixpoint_induct (T := T) (ρ := ρ) last (motive := fun f => ∀ a b, Framed (f a b)) framed_adm2 (fun f ih i o => ?_) i o
  framed
  exact ih _ _

theorem framed_equalPtr (eq : T → T → Bool) (i1 l1 i2 l2 : Ptr) : Framed (equalPtr eq i1 l1 i2 l2 : Prog (Heap ρ T) Bool) := by
  refine equalPtr.fixpoint_induct (T := T) (ρ := ρ) eq l1 l2 (motive := fun f => ∀ a b, Framed (f a b)) framed_adm2 (fun f ih i o => ?_) i1 i2
  framed
  exact ih _ _

theorem framed_get (a : Arg T) : Framed (a.get : Prog (Heap ρ T) T) := by
  cases a with
  | ext v => exact framed_pure _
  | slot p => exact framed_read _

theorem framed_deref (s : Src T) : Framed (s.deref : Prog (Heap ρ T) (Arg T)) := by
  cases s with
  | counter a => exact framed_pure _
  | vals vs => cases vs with
    | nil => exact framed_fail _
    | cons v vs => exact framed_pure _
  | range p => exact framed_pure _

theorem framed_next (s : Src T) : Framed (s.next : Prog (Heap ρ T) (T × Src T)) :=
  (framed_deref s).bind fun a => (framed_get a).bind fun v => framed_pure _

theorem framed_appendOne (c : Nat) (v : T) : Framed (Vec.appendOne c v : Prog (Mem T) Unit) := by unfold Vec.appendOne; framed

theorem framed_fillBack (c : Nat) : ∀ (n : Nat) (s : Src T), Framed (Vec.fillBack c n s : Prog (Mem T) Unit)
  | 0, s => framed_pure _
  | n + 1, s => (framed_next s).bind fun a => (framed_appendOne c a.1).bind fun _ => framed_fillBack c n a.2

theorem framed_fillAt : ∀ (n : Nat) (s : Src T) (o : Ptr), Framed (Vec.fillAt n s o : Prog (Heap ρ T) Ptr)
  | 0, s, o => framed_pure _
  | n + 1, s, o => (framed_next s).bind fun a => (framed_construct o a.1).bind fun _ => framed_fillAt n a.2 _

/-! ## Members -/

macro "framed2" : tactic => `(tactic| repeat' (first
  | assumption
  | exact framed_pure _ | exact framed_getObj _ | exact framed_setObj _ _ | exact framed_newObj _ | exact framed_dropObj _ | exact framed_alloc _
  | exact framed_free _ | exact framed_read _ | exact framed_write _ _ | exact framed_construct _ _ | exact framed_destruct _ | exact framed_dec _
  | exact framed_less _ _ | exact framed_diff _ _ | exact framed_fail _
  | exact framed_shrinkTo _ _ | exact framed_destroyDown _ _ | exact framed_destroyBack _ _ | exact framed_copyAll _ _ _ | exact framed_walk _ _
  | exact framed_copyTo _ _ _ | exact framed_shiftUp _ _ _ | exact framed_shiftDown _ _ _ | exact framed_equalPtr _ _ _ _ _ | exact framed_get _
  | exact framed_deref _ | exact framed_next _ | exact framed_appendOne _ _ | exact framed_fillBack _ _ _ | exact framed_fillAt _ _ _
  | apply Framed.bind | apply framed_ite | (intro a; try dsimp only)))

theorem framed_begin (c : Nat) : Framed (begin_ c : Prog (Mem T) Ptr) := by unfold begin_; framed2
theorem framed_end (c : Nat) : Framed (end_ c : Prog (Mem T) Ptr) := by unfold end_; framed2
theorem framed_size (c : Nat) : Framed (size c : Prog (Mem T) Nat) := by unfold size; framed2
theorem framed_capacity (c : Nat) : Framed (capacity c : Prog (Mem T) Nat) := by unfold capacity; framed2
theorem framed_at (c i : Nat) : Framed (at_ c i : Prog (Mem T) Ptr) := by unfold at_; framed2
theorem framed_clear (c : Nat) : Framed (clear c : Prog (Mem T) Unit) := (framed_begin c).bind fun p => framed_shrinkTo c p
theorem framed_reserve (c n : Nat) : Framed (Vec.reserve c n : Prog (Mem T) Unit) := by unfold Vec.reserve; framed2
theorem framed_insertValues (c : Nat) (pos : Ptr) (n : Nat) (s : Src T) : Framed (Vec.insertValues c pos n s : Prog (Mem T) Ptr) := by
  unfold Vec.insertValues begin_ size; framed2
theorem framed_pushBack (c : Nat) (x : Arg T) : Framed (Vec.pushBack c x : Prog (Mem T) Unit) := by
  unfold Vec.pushBack end_ insertN; framed2
theorem framed_pushAll (c : Nat) : ∀ (n : Nat) (s : Src T), Framed (Vec.pushAll c n s : Prog (Mem T) Unit)
  | 0, s => framed_pure _
  | n + 1, s => (framed_deref s).bind fun a => (framed_pushBack c a).bind fun _ => framed_pushAll c n s.succ
theorem framed_resize (dv : T) (c n : Nat) : Framed (Vec.resize dv c n : Prog (Mem T) Unit) := by
  unfold Vec.resize size begin_ end_ insertN; framed2
theorem framed_createN (n : Nat) : Framed (Vec.createN n : Prog (Mem T) Nat) := by unfold Vec.createN; framed2
theorem framed_carg (a : CArg T) : Framed (a.expr : Prog (Mem T) (Arg T)) := by
  cases a with
  | ext v => exact framed_pure _
  | elem d i => exact (framed_at d i).bind fun _ => framed_pure _
theorem framed_csrc (r : CSrc T) : Framed (r.expr : Prog (Mem T) (Src T × Nat)) := by
  cases r with
  | vals vs => exact framed_pure _
  | range d i j => exact (framed_begin d).bind fun _ => framed_pure _
theorem framed_swapField (c d : Nat) (get : Rep → Ptr) (set : Rep → Ptr → Rep) : Framed (swapField c d get set : Prog (Mem T) Unit) := by
  unfold swapField; framed2
theorem framed_eraseRange (c : Nat) (f l : Ptr) : Framed (Vec.eraseRange c f l : Prog (Mem T) Ptr) := by unfold Vec.eraseRange begin_; framed2

/-- Every call on vectors leaves leaked blocks alone and is not influenced by them. -/
theorem framed_exec (dv : T) (q : Call T) : Framed (Vec.exec dv q) := by
  cases q with
  | create => exact (framed_newObj _).bind fun _ => framed_pure _
  | ctor n => exact ((framed_createN n).bind fun c => (framed_fillBack c n _).bind fun _ => framed_pure _).bind fun _ => framed_pure _
  | ctorN n a => exact (framed_carg a).bind fun a => ((framed_createN n).bind fun c => (framed_fillBack c n _).bind fun _ => framed_pure _).bind fun _ => framed_pure _
  | copyOf d => exact ((framed_size d).bind fun n => (framed_createN n).bind fun c => (framed_begin d).bind fun b => (framed_copyAll c d b).bind fun _ => framed_pure _).bind fun _ => framed_pure _
  | ctorRange r =>
    exact (framed_csrc r).bind fun x => ((framed_newObj _).bind fun c => (framed_reserve c x.2).bind fun _ => (framed_pushAll c x.2 x.1).bind fun _ => framed_pure _).bind fun _ => framed_pure _
  | destroy c => exact ((framed_clear c).bind fun _ => (framed_begin c).bind fun p => (framed_free p).bind fun _ => framed_dropObj c).bind fun _ => framed_pure _
  | assign c d => exact ((framed_clear c).bind fun _ => (framed_capacity d).bind fun n => (framed_reserve c n).bind fun _ => (framed_begin d).bind fun b => framed_copyAll c d b).bind fun _ => framed_pure _
  | assignN c n a => exact (framed_carg a).bind fun a => ((framed_clear c).bind fun _ => (framed_reserve c n).bind fun _ => framed_fillBack c n _).bind fun _ => framed_pure _
  | assignRange c r => exact (framed_csrc r).bind fun x => ((framed_clear c).bind fun _ => framed_pushAll c x.2 x.1).bind fun _ => framed_pure _
  | resize c n => exact (framed_resize dv c n).bind fun _ => framed_pure _
  | resizeX c n a =>
    refine (framed_carg a).bind fun a => Framed.bind ?_ fun _ => framed_pure _
    refine (framed_size c).bind fun sz => framed_ite (framed_resize dv c n) ((framed_end c).bind fun e => (framed_insertValues _ _ _ _).bind fun _ => framed_pure _)
  | reserve c n => exact (framed_reserve c n).bind fun _ => framed_pure _
  | insert c i a => exact (framed_carg a).bind fun a => (framed_begin c).bind fun b => (framed_insertValues _ _ _ _).bind fun _ => framed_pure _
  | insertN c i n a => exact (framed_carg a).bind fun a => (framed_begin c).bind fun b => (framed_insertValues _ _ _ _).bind fun _ => framed_pure _
  | insertRange c i r => exact (framed_csrc r).bind fun x => (framed_begin c).bind fun b => (framed_insertValues _ _ _ _).bind fun _ => framed_pure _
  | pushBack c a => exact (framed_carg a).bind fun a => (framed_pushBack c a).bind fun _ => framed_pure _
  | popBack c =>
    refine Framed.bind ?_ fun _ => framed_pure _
    unfold popBack; framed2
  | erase c i => exact (framed_begin c).bind fun b => (framed_eraseRange _ _ _).bind fun _ => framed_pure _
  | eraseRange c i j => exact (framed_begin c).bind fun b => (framed_begin c).bind fun b' => (framed_eraseRange _ _ _).bind fun _ => framed_pure _
  | swap c d => exact ((framed_swapField _ _ _ _).bind fun _ => (framed_swapField _ _ _ _).bind fun _ => framed_swapField _ _ _ _).bind fun _ => framed_pure _
  | clear c => exact (framed_clear c).bind fun _ => framed_pure _
  | store c i a => exact (framed_carg a).bind fun a => ((framed_get a).bind fun v => (framed_at c i).bind fun p => framed_write p v).bind fun _ => framed_pure _

end Verif.Exc.XVec
