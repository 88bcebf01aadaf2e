import Verif.Base
/-!
# Memory of the array-based containers

`ttl::vector` and `ttl::fixed_vector` keep their elements in consecutive slots of a block of raw storage and address them with plain
pointers. Memory consists of

* container objects: `obj c = some r` says that a container object with identity `c` exists and that its data members are `r`;
* blocks of storage: `size b = some n` says that block `b` is allocated and has room for `n` elements. Block `0` is never allocated: a
  pointer into it is a null pointer (plus an offset);
* elements: `slot b i = some v` says that a `T` object with value `v` is alive in slot `i` of block `b`; `none` is raw storage. Releasing a
  block does not end the lifetime of the objects in it, so that a container forgetting to destroy its elements is visible.

A pointer is a block and an offset. Reading, assigning, constructing or destroying outside an allocated block is `Fault.access`; reading,
assigning or destroying a slot without an object, and constructing over an object, is `Fault.lifetime`; comparing or subtracting pointers
into different blocks, and decrementing a pointer to the start of a block, is `Fault.arith`.

Simplifications: allocation takes the next fresh number as identity of the block, never fails and never reuses one; adding to a pointer is
plain arithmetic (the standard forbids forming a pointer further than one past the end, and null plus a positive number: `vector::reserve` on
an empty vector and `fixed_vector::insert` do form such pointers, only to compare them); element constructors, destructors and assignment do not
throw.
-/
set_option linter.unusedVariables false
set_option linter.unusedSimpArgs false
namespace Verif.Vec
open Verif

/-- A pointer into an array: `T *`. -/
structure Ptr where
  blk : Nat
  off : Nat
  deriving DecidableEq, Repr

/-- The null pointer. -/
def Ptr.null : Ptr := ⟨0, 0⟩

/-- `p + n` -/
instance : HAdd Ptr Nat Ptr := ⟨fun p n => ⟨p.blk, p.off + n⟩⟩

@[simp] theorem ptr_add (b i n : Nat) : (Ptr.mk b i) + n = ⟨b, i + n⟩ := rfl

/-- Memory; `ρ` is the type of the data members of the containers. -/
structure Heap (ρ T : Type) where
  obj : Nat → Option ρ
  size : Nat → Option Nat
  slot : Nat → Nat → Option T
  fresh : Nat

/-- Function update. -/
def upd {α : Type} (f : Nat → α) (a : Nat) (b : α) : Nat → α := fun x => if x = a then b else f x

@[simp] theorem upd_same {α : Type} (f : Nat → α) (a : Nat) (b : α) : upd f a b a = b := by simp [upd]
theorem upd_other {α : Type} (f : Nat → α) {a x : Nat} (b : α) (hx : x ≠ a) : upd f a b x = f x := by simp [upd, hx]
@[simp] theorem upd_upd {α : Type} (f : Nat → α) (a : Nat) (b b' : α) : upd (upd f a b) a b' = upd f a b' := by
  funext x; simp only [upd]; split <;> rfl
@[simp] theorem upd_self {α : Type} (f : Nat → α) (a : Nat) : upd f a (f a) = f := by
  funext x; simp only [upd]; split
  · rename_i q; rw [q]
  · rfl
theorem upd_comm {α : Type} (f : Nat → α) {a a' : Nat} (b b' : α) (q : a ≠ a') : upd (upd f a b) a' b' = upd (upd f a' b') a b := by
  funext x; simp only [upd]; split <;> split <;> simp_all

variable {ρ T : Type}

/-- The data members of the container `c`. -/
def getObj (c : Nat) : Prog (Heap ρ T) ρ := fun h => match h.obj c with | some r => .ok (r, h) | none => .ub .access
/-- Overwrite the data members of the container `c`. -/
def setObj (c : Nat) (r : ρ) : Prog (Heap ρ T) Unit := fun h =>
  match h.obj c with | some _ => .ok ((), { h with obj := upd h.obj c (some r) }) | none => .ub .access
/-- Storage for a container object. -/
def newObj (r : ρ) : Prog (Heap ρ T) Nat := fun h =>
  .ok (h.fresh, { h with obj := upd h.obj h.fresh (some r), fresh := h.fresh + 1 })
/-- End of the storage of a container object. -/
def dropObj (c : Nat) : Prog (Heap ρ T) Unit := fun h =>
  match h.obj c with | some _ => .ok ((), { h with obj := upd h.obj c none }) | none => .ub .access
/-- `static_cast<T *>(::operator new(n * sizeof(T)))` -/
def alloc (n : Nat) : Prog (Heap ρ T) Ptr := fun h =>
  .ok (⟨h.fresh, 0⟩, { h with size := upd h.size h.fresh (some n), slot := upd h.slot h.fresh (fun _ => none), fresh := h.fresh + 1 })
/-- `::operator delete(p)`: a null pointer is accepted, any other pointer must be the start of an allocated block. -/
def free (p : Ptr) : Prog (Heap ρ T) Unit := fun h =>
  if p = Ptr.null then .ok ((), h) else
  match h.size p.blk with
  | some _ => if p.off = 0 then .ok ((), { h with size := upd h.size p.blk none }) else .ub .access
  | none => .ub .access
/-- Run `f` if `p` points into an allocated block. -/
def inBlock (h : Heap ρ T) (p : Ptr) {α : Type} (f : Res α) : Res α :=
  match h.size p.blk with | some n => if p.off < n then f else .ub .access | none => .ub .access
/-- `*p`, read -/
def read (p : Ptr) : Prog (Heap ρ T) T := fun h =>
  inBlock h p (match h.slot p.blk p.off with | some v => .ok (v, h) | none => .ub .lifetime)
/-- `*p = v` -/
def write (p : Ptr) (v : T) : Prog (Heap ρ T) Unit := fun h =>
  inBlock h p (match h.slot p.blk p.off with
    | some _ => .ok ((), { h with slot := upd h.slot p.blk (upd (h.slot p.blk) p.off (some v)) })
    | none => .ub .lifetime)
/-- `::new(p) T(v)` -/
def construct (p : Ptr) (v : T) : Prog (Heap ρ T) Unit := fun h =>
  inBlock h p (match h.slot p.blk p.off with
    | some _ => .ub .lifetime
    | none => .ok ((), { h with slot := upd h.slot p.blk (upd (h.slot p.blk) p.off (some v)) }))
/-- `p->~T()` -/
def destruct (p : Ptr) : Prog (Heap ρ T) Unit := fun h =>
  inBlock h p (match h.slot p.blk p.off with
    | some _ => .ok ((), { h with slot := upd h.slot p.blk (upd (h.slot p.blk) p.off none) })
    | none => .ub .lifetime)
/-- `--p` -/
def dec (p : Ptr) : Prog (Heap ρ T) Ptr := fun h => if p.off = 0 then .ub .arith else .ok (⟨p.blk, p.off - 1⟩, h)
/-- `p < q` -/
def less (p q : Ptr) : Prog (Heap ρ T) Bool := fun h => if p.blk = q.blk then .ok (decide (p.off < q.off), h) else .ub .arith
/-- `p - q`, used as a count; a negative difference would be a huge unsigned number: simplified to a fault. -/
def diff (p q : Ptr) : Prog (Heap ρ T) Nat := fun h =>
  if p.blk = q.blk ∧ q.off ≤ p.off then .ok (p.off - q.off, h) else .ub .arith

/-! ## Layout of a block -/

/-- Slots holding `xs`, then `g` raw slots, then `ys`, then raw slots only. -/
def lay (xs : List T) (g : Nat) (ys : List T) : Nat → Option T := fun i =>
  if i < xs.length then xs[i]? else if i < xs.length + g then none else ys[i - (xs.length + g)]?

theorem lay_nil (xs : List T) (g : Nat) : lay xs g [] = fun i => xs[i]? := by
  funext i; simp only [lay]
  split
  · rfl
  · rename_i q; rw [List.getElem?_eq_none (by omega : xs.length ≤ i)]; split <;> simp

theorem lay_gap (xs : List T) (g g' : Nat) : lay xs g [] = lay xs g' [] := by rw [lay_nil, lay_nil]

theorem lay_zero (xs ys : List T) : lay xs 0 ys = lay (xs ++ ys) 0 [] := by
  rw [lay_nil]; funext i; simp only [lay, Nat.add_zero]
  split
  · rename_i q; rw [List.getElem?_append_left q]
  · rename_i q; rw [List.getElem?_append_right (by omega)]

theorem lay_at_left (xs : List T) (a : T) (g : Nat) (ys : List T) (zs : List T) : lay (xs ++ a :: zs) g ys xs.length = some a := by
  simp [lay]
theorem lay_at_right (xs : List T) (a : T) (g : Nat) (ys : List T) : lay xs g (a :: ys) (xs.length + g) = some a := by
  simp [lay]
theorem lay_raw (xs : List T) (g : Nat) (ys : List T) {i : Nat} (h1 : xs.length ≤ i) (h2 : i < xs.length + g) : lay xs g ys i = none := by
  simp [lay, h2, Nat.not_lt.2 h1]
theorem lay_left {xs : List T} {i : Nat} {v : T} (g : Nat) (ys : List T) (q : xs[i]? = some v) : lay xs g ys i = some v := by
  have : i < xs.length := (List.getElem?_eq_some_iff.1 q).1
  simp only [lay, this, if_true, q]

theorem upd_lay_left (xs : List T) (v : T) (g : Nat) (ys : List T) : upd (lay xs (g + 1) ys) xs.length (some v) = lay (xs ++ [v]) g ys := by
  funext i; simp only [upd, lay, List.length_append, List.length_singleton]
  by_cases q : i = xs.length
  · subst q; simp
  · by_cases q1 : i < xs.length
    · simp only [q, if_false, q1, if_true, show i < xs.length + 1 by omega, List.getElem?_append_left q1]
    · simp only [q, if_false, q1, show ¬ i < xs.length + 1 by omega, show xs.length + (g + 1) = xs.length + 1 + g by omega]
theorem upd_lay_end (xs : List T) (v : T) : upd (lay xs 0 []) xs.length (some v) = lay (xs ++ [v]) 0 [] := by
  rw [lay_gap xs 0 1, upd_lay_left]
theorem upd_lay_right (xs : List T) (v : T) (g : Nat) (ys : List T) : upd (lay xs (g + 1) ys) (xs.length + g) (some v) = lay xs g (v :: ys) := by
  funext i; simp only [upd, lay]
  by_cases q : i = xs.length + g
  · subst q; simp
  · by_cases q1 : i < xs.length
    · simp only [q, if_false, q1, if_true]
    · by_cases q2 : i < xs.length + g
      · simp only [q, if_false, q1, q2, if_true, show i < xs.length + (g + 1) by omega]
      · simp only [q, if_false, q1, q2, show ¬ i < xs.length + (g + 1) by omega]
        obtain ⟨k, hk⟩ : ∃ k, i = xs.length + g + (k + 1) := ⟨i - (xs.length + g) - 1, by omega⟩
        subst hk
        rw [show xs.length + g + (k + 1) - (xs.length + (g + 1)) = k by omega, show xs.length + g + (k + 1) - (xs.length + g) = k + 1 by omega,
          List.getElem?_cons_succ]
theorem upd_lay_drop_left (xs : List T) (a : T) (g : Nat) (ys : List T) : upd (lay (xs ++ [a]) g ys) xs.length none = lay xs (g + 1) ys := by
  rw [← upd_lay_left, upd_upd]
  conv => rhs; rw [← upd_self (lay xs (g + 1) ys) xs.length]
  rw [lay_raw _ _ _ (Nat.le_refl _) (by omega)]
theorem upd_lay_drop_right (xs : List T) (a : T) (g : Nat) (ys : List T) : upd (lay xs g (a :: ys)) (xs.length + g) none = lay xs (g + 1) ys := by
  rw [← upd_lay_right, upd_upd]
  conv => rhs; rw [← upd_self (lay xs (g + 1) ys) (xs.length + g)]
  rw [lay_raw _ _ _ (by omega) (by omega)]
theorem upd_lay_write (xs : List T) (a v : T) (zs : List T) (g : Nat) (ys : List T) :
    upd (lay (xs ++ a :: zs) g ys) xs.length (some v) = lay (xs ++ v :: zs) g ys := by
  funext i; simp only [upd, lay, List.length_append, List.length_cons]
  by_cases q : i = xs.length
  · subst q; simp
  · simp only [q, if_false]
    split
    · rename_i q1
      by_cases q2 : i < xs.length
      · rw [List.getElem?_append_left q2, List.getElem?_append_left q2]
      · obtain ⟨k, hk⟩ : ∃ k, i = xs.length + (k + 1) := ⟨i - xs.length - 1, by omega⟩
        subst hk; rw [List.getElem?_append_right (by omega), List.getElem?_append_right (by omega)]; simp
    · rfl

/-- Memory `h` with block `b` laid out as `xs`, `g` raw slots, `ys`. -/
def Heap.lay (h : Heap ρ T) (b : Nat) (xs : List T) (g : Nat) (ys : List T) : Heap ρ T := { h with slot := upd h.slot b (Vec.lay xs g ys) }
/-- Memory `h` with the data members of `c` replaced. -/
def Heap.setObj (h : Heap ρ T) (c : Nat) (r : ρ) : Heap ρ T := { h with obj := upd h.obj c (some r) }

section
variable (h : Heap ρ T) (b : Nat) (xs : List T) (g : Nat) (ys : List T) (c : Nat) (r : ρ)
@[simp] theorem lay_obj : (h.lay b xs g ys).obj = h.obj := rfl
@[simp] theorem lay_size : (h.lay b xs g ys).size = h.size := rfl
@[simp] theorem lay_fresh : (h.lay b xs g ys).fresh = h.fresh := rfl
theorem lay_slot : (h.lay b xs g ys).slot = upd h.slot b (lay xs g ys) := rfl
@[simp] theorem lay_slot_same : (h.lay b xs g ys).slot b = lay xs g ys := upd_same ..
theorem lay_slot_other {b' : Nat} (q : b' ≠ b) : (h.lay b xs g ys).slot b' = h.slot b' := upd_other _ _ q
@[simp] theorem set_size : (h.setObj c r).size = h.size := rfl
@[simp] theorem set_slot : (h.setObj c r).slot = h.slot := rfl
@[simp] theorem set_fresh : (h.setObj c r).fresh = h.fresh := rfl
theorem set_obj : (h.setObj c r).obj = upd h.obj c (some r) := rfl
@[simp] theorem set_obj_same : (h.setObj c r).obj c = some r := upd_same ..
theorem set_obj_other {d : Nat} (q : d ≠ c) : (h.setObj c r).obj d = h.obj d := upd_other _ _ q
@[simp] theorem lay_lay (xs' : List T) (g' : Nat) (ys' : List T) : (h.lay b xs g ys).lay b xs' g' ys' = h.lay b xs' g' ys' := by simp [Heap.lay]
@[simp] theorem set_set (r' : ρ) : (h.setObj c r).setObj c r' = h.setObj c r' := by simp [Heap.setObj]
@[simp] theorem set_lay : (h.setObj c r).lay b xs g ys = (h.lay b xs g ys).setObj c r := rfl
theorem lay_self (q : h.slot b = lay xs g ys) : h.lay b xs g ys = h := by simp [Heap.lay, ← q]
theorem set_self (q : h.obj c = some r) : h.setObj c r = h := by simp [Heap.setObj, ← q]
end

section
variable {h : Heap ρ T} {b : Nat} {xs ys : List T} {g n c : Nat} {r r' : ρ} {v a : T} {p q : Ptr}

theorem getObj_eq (hc : h.obj c = some r) : getObj c h = .ok (r, h) := by simp [getObj, hc]
theorem setObj_eq (hc : h.obj c = some r) : setObj c r' h = .ok ((), h.setObj c r') := by simp [setObj, hc, Heap.setObj]
theorem inBlock_eq {α : Type} {f : Res α} (hs : h.size p.blk = some n) (hi : p.off < n) : inBlock h p f = f := by simp [inBlock, hs, hi]
theorem read_eq (hs : h.size p.blk = some n) (hi : p.off < n) (hv : h.slot p.blk p.off = some v) : read p h = .ok (v, h) := by
  simp [read, inBlock_eq hs hi, hv]
theorem read_raw (hs : h.size p.blk = some n) (hi : p.off < n) (hv : h.slot p.blk p.off = none) : read p h = .ub .lifetime := by
  simp [read, inBlock_eq hs hi, hv]
theorem read_out (hi : ∀ n, h.size p.blk = some n → n ≤ p.off) : read p h = .ub .access := by
  simp only [read, inBlock]
  cases q : h.size p.blk with
  | none => rfl
  | some n => simp [Nat.not_lt.2 (hi n q)]
theorem construct_raw (hs : h.size p.blk = some n) (hi : p.off < n) (hv : h.slot p.blk p.off = none) :
    construct p v h = .ok ((), { h with slot := upd h.slot p.blk (upd (h.slot p.blk) p.off (some v)) }) := by
  simp [construct, inBlock_eq hs hi, hv]
theorem construct_live (hs : h.size p.blk = some n) (hi : p.off < n) (hv : h.slot p.blk p.off = some a) : construct p v h = .ub .lifetime := by
  simp [construct, inBlock_eq hs hi, hv]
theorem write_eq (hs : h.size p.blk = some n) (hi : p.off < n) (hv : h.slot p.blk p.off = some a) :
    write p v h = .ok ((), { h with slot := upd h.slot p.blk (upd (h.slot p.blk) p.off (some v)) }) := by
  simp [write, inBlock_eq hs hi, hv]
theorem write_out (hi : ∀ n, h.size p.blk = some n → n ≤ p.off) : write p v h = .ub .access := by
  simp only [write, inBlock]
  cases q : h.size p.blk with
  | none => rfl
  | some n => simp [Nat.not_lt.2 (hi n q)]
theorem destruct_eq (hs : h.size p.blk = some n) (hi : p.off < n) (hv : h.slot p.blk p.off = some a) :
    destruct p h = .ok ((), { h with slot := upd h.slot p.blk (upd (h.slot p.blk) p.off none) }) := by
  simp [destruct, inBlock_eq hs hi, hv]
theorem destruct_raw (hs : h.size p.blk = some n) (hi : p.off < n) (hv : h.slot p.blk p.off = none) : destruct p h = .ub .lifetime := by
  simp [destruct, inBlock_eq hs hi, hv]
theorem dec_eq (b i : Nat) : dec ⟨b, i + 1⟩ h = .ok (⟨b, i⟩, h) := by simp [dec]
theorem less_eq (b i j : Nat) : less ⟨b, i⟩ ⟨b, j⟩ h = .ok (decide (i < j), h) := by simp [less]
theorem diff_eq (b : Nat) {i j : Nat} (q : j ≤ i) : diff ⟨b, i⟩ ⟨b, j⟩ h = .ok (i - j, h) := by simp [diff, q]

/-! Steps on a layout. -/

theorem construct_left (hs : h.size b = some n) (hi : xs.length < n) (hl : h.slot b = lay xs (g + 1) ys) :
    construct ⟨b, xs.length⟩ v h = .ok ((), h.lay b (xs ++ [v]) g ys) := by
  rw [construct_raw hs hi (by show h.slot b xs.length = none; rw [hl, lay_raw _ _ _ (Nat.le_refl _) (by omega)])]
  simp only [hl, upd_lay_left]; rfl
theorem construct_end (hs : h.size b = some n) (hi : xs.length < n) (hl : h.slot b = lay xs 0 []) :
    construct ⟨b, xs.length⟩ v h = .ok ((), h.lay b (xs ++ [v]) 0 []) :=
  construct_left hs hi (hl.trans (lay_gap _ _ _))
theorem construct_right (hs : h.size b = some n) (hi : xs.length + g < n) (hl : h.slot b = lay xs (g + 1) ys) :
    construct ⟨b, xs.length + g⟩ v h = .ok ((), h.lay b xs g (v :: ys)) := by
  rw [construct_raw hs hi (by show h.slot b (xs.length + g) = none; rw [hl, lay_raw _ _ _ (by omega) (by omega)])]
  simp only [hl, upd_lay_right]; rfl
theorem destruct_left (hs : h.size b = some n) (hi : xs.length < n) (hl : h.slot b = lay (xs ++ [a]) g ys) :
    destruct ⟨b, xs.length⟩ h = .ok ((), h.lay b xs (g + 1) ys) := by
  rw [destruct_eq hs hi (by show h.slot b xs.length = some a; rw [hl, lay_at_left])]
  simp only [hl, upd_lay_drop_left]; rfl
theorem destruct_right (hs : h.size b = some n) (hi : xs.length + g < n) (hl : h.slot b = lay xs g (a :: ys)) :
    destruct ⟨b, xs.length + g⟩ h = .ok ((), h.lay b xs (g + 1) ys) := by
  rw [destruct_eq hs hi (by show h.slot b (xs.length + g) = some a; rw [hl, lay_at_right])]
  simp only [hl, upd_lay_drop_right]; rfl
theorem read_left {zs : List T} (hs : h.size b = some n) (hi : xs.length < n) (hl : h.slot b = lay (xs ++ a :: zs) g ys) :
    read ⟨b, xs.length⟩ h = .ok (a, h) :=
  read_eq hs hi (by show h.slot b xs.length = some a; rw [hl, lay_at_left])
theorem read_right (hs : h.size b = some n) (hi : xs.length + g < n) (hl : h.slot b = lay xs g (a :: ys)) :
    read ⟨b, xs.length + g⟩ h = .ok (a, h) :=
  read_eq hs hi (by show h.slot b (xs.length + g) = some a; rw [hl, lay_at_right])
theorem write_left {zs : List T} (hs : h.size b = some n) (hi : xs.length < n) (hl : h.slot b = lay (xs ++ a :: zs) g ys) :
    write ⟨b, xs.length⟩ v h = .ok ((), h.lay b (xs ++ v :: zs) g ys) := by
  rw [write_eq hs hi (by show h.slot b xs.length = some a; rw [hl, lay_at_left])]
  simp only [hl, upd_lay_write]; rfl
end

/-! ## Readable slots -/

/-- Slot `i` of the allocated block `b` holds `v`. -/
def Heap.Holds (h : Heap ρ T) (b i : Nat) (v : T) : Prop := (∃ n, h.size b = some n ∧ i < n) ∧ h.slot b i = some v
/-- Whatever can be read in `h` can be read in `h'`, with the same value. -/
def Heap.Sub (h h' : Heap ρ T) : Prop := ∀ b i v, h.Holds b i v → h'.Holds b i v

theorem Heap.Sub.refl (h : Heap ρ T) : h.Sub h := fun _ _ _ q => q
theorem Heap.Sub.trans {h h' h'' : Heap ρ T} (q : h.Sub h') (q' : h'.Sub h'') : h.Sub h'' := fun b i v k => q' b i v (q b i v k)
theorem Heap.Holds.read {h : Heap ρ T} {b i : Nat} {v : T} (q : h.Holds b i v) : Vec.read ⟨b, i⟩ h = .ok (v, h) := by
  obtain ⟨⟨n, h1, h2⟩, h3⟩ := q; exact read_eq h1 h2 h3

/-! ## References and input ranges -/

/-- A `const value_type &` argument: an object outside every container, or an element of one. -/
inductive Arg (T : Type) where
  | ext (v : T)
  | slot (p : Ptr)

/-- Use of the reference. -/
def Arg.get : Arg T → Prog (Heap ρ T) T
  | .ext v => pure v
  | .slot p => read p

/-- A source of elements: the same reference again and again (`vc_counter_args`, ttl/vector.hpp:38-46), iterators over values outside every
container, or pointers into a container (`vc_iterator_args`, ttl/vector.hpp:47-59). -/
inductive Src (T : Type) where
  | counter (a : Arg T)
  | vals (vs : List T)
  | range (p : Ptr)

/-- `*i`: the reference the iterator designates. -/
def Src.deref : Src T → Prog (Heap ρ T) (Arg T)
  | .counter a => pure a
  | .vals (v :: _) => pure (.ext v)
  | .vals [] => Prog.fail .access
  | .range p => pure (.slot p)

/-- `++i` -/
def Src.succ : Src T → Src T
  | .counter a => .counter a
  | .vals vs => .vals vs.tail
  | .range p => .range (p + 1)

/-- `*i`, read, then `++i` -/
def Src.next (s : Src T) : Prog (Heap ρ T) (T × Src T) := do
  let a ← s.deref
  let v ← a.get
  pure (v, s.succ)

/-- In every memory in which everything readable in `h` is readable, the source delivers `vs`. -/
def Gives (h : Heap ρ T) : Src T → List T → Prop
  | _, [] => True
  | s, v :: vs => (∃ a, (∀ h' : Heap ρ T, s.deref h' = .ok (a, h')) ∧ ∀ h' : Heap ρ T, h.Sub h' → a.get h' = .ok (v, h')) ∧ Gives h s.succ vs

theorem Gives.next {h h' : Heap ρ T} {s : Src T} {v : T} {vs : List T} (q : Gives h s (v :: vs)) (k : h.Sub h') :
    s.next h' = .ok ((v, s.succ), h') := by
  obtain ⟨⟨a, q1, q2⟩, _⟩ := q
  simp only [Src.next, Prog.bind_app, q1, Res.bind_ok, q2 h' k, Prog.pure_app]

theorem Gives.mono {h h' : Heap ρ T} (k : h.Sub h') : ∀ {vs : List T} {s : Src T}, Gives h s vs → Gives h' s vs
  | [], s, q => trivial
  | v :: vs, s, q => ⟨⟨q.1.choose, q.1.choose_spec.1, fun h'' k' => q.1.choose_spec.2 h'' (k.trans k')⟩, Gives.mono k q.2⟩

theorem gives_counter {h : Heap ρ T} {a : Arg T} {v : T} (q : ∀ h' : Heap ρ T, h.Sub h' → a.get h' = .ok (v, h')) :
    ∀ n, Gives h (.counter a) (List.replicate n v)
  | 0 => trivial
  | n + 1 => ⟨⟨a, fun _ => rfl, q⟩, gives_counter q n⟩
theorem gives_vals {h : Heap ρ T} : ∀ vs, Gives h (.vals vs) vs
  | [] => trivial
  | v :: vs => ⟨⟨.ext v, fun _ => rfl, fun _ _ => rfl⟩, gives_vals vs⟩
theorem gives_range {h : Heap ρ T} {b : Nat} : ∀ (vs : List T) (i : Nat), (∀ k v, vs[k]? = some v → h.Holds b (i + k) v) → Gives h (.range ⟨b, i⟩) vs
  | [], i, q => trivial
  | v :: vs, i, q => ⟨⟨.slot ⟨b, i⟩, fun _ => rfl, fun h' k => (k _ _ _ (q 0 v rfl)).read⟩,
      gives_range vs (i + 1) fun k w e => by have := q (k + 1) w (by simpa using e); rwa [show i + 1 + k = i + (k + 1) by omega]⟩
theorem arg_ext {h : Heap ρ T} (v : T) : ∀ h' : Heap ρ T, h.Sub h' → (Arg.ext v).get h' = .ok (v, h') := fun _ _ => rfl
theorem arg_slot {h : Heap ρ T} {b i : Nat} {v : T} (q : h.Holds b i v) : ∀ h' : Heap ρ T, h.Sub h' → (Arg.slot ⟨b, i⟩).get h' = .ok (v, h') :=
  fun _ k => (k _ _ _ q).read

end Verif.Vec
