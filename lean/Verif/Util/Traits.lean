/-!
# Model and properties of the type traits (ttl/type_traits.hpp)

C++ types are modelled as terms (`Ty`), class templates with partial specializations as functions on them: a specialization applies if its pattern matches.
Cv-qualifiers on an array type are qualifiers of its elements, and qualifiers on a reference or function type are ignored, as in C++. `none` as a
result means that the instantiation does not compile. Not modelled: function types with cv-qualifier-seq, `__int128`, extended types.
-/
namespace Verif.Traits

/-- The fundamental types, and all others without parts: classes, unions, enumerations, `nullptr_t`, `char16_t`, ... -/
inductive Base where
  | void | bool | char | schar | uchar | wchar | short | ushort | int | uint | long | ulong | llong | ullong | float | double | ldouble
  | other (n : Nat)
  deriving DecidableEq

/-- Types. The flags are `const` and `volatile`. -/
inductive Ty where
  | base (c v : Bool) (b : Base)
  /-- `T *`, qualified -/
  | ptr (c v : Bool) (t : Ty)
  /-- `T C::*`, qualified -/
  | memptr (c v : Bool) (cls : Nat) (t : Ty)
  /-- `T[n]` or `T[]` -/
  | arr (t : Ty) (n : Option Nat)
  /-- a function type -/
  | fn (n : Nat)
  /-- `T &` -/
  | lref (t : Ty)
  /-- `T &&` -/
  | rref (t : Ty)
  deriving DecidableEq

/-- `const T` -/
def addConst : Ty → Ty
  | .base _ v b => .base true v b
  | .ptr _ v t => .ptr true v t
  | .memptr _ v k t => .memptr true v k t
  | .arr t n => .arr (addConst t) n
  | t => t
/-- `volatile T` -/
def addVolatile : Ty → Ty
  | .base c _ b => .base c true b
  | .ptr c _ t => .ptr c true t
  | .memptr c _ k t => .memptr c true k t
  | .arr t n => .arr (addVolatile t) n
  | t => t

/-- Matching the pattern `const T`: the deduced `T`. -/
def matchConst : Ty → Option Ty
  | .base true v b => some (.base false v b)
  | .ptr true v t => some (.ptr false v t)
  | .memptr true v k t => some (.memptr false v k t)
  | .arr t n => (matchConst t).map fun u => .arr u n
  | _ => none
/-- Matching the pattern `volatile T`. -/
def matchVolatile : Ty → Option Ty
  | .base c true b => some (.base c false b)
  | .ptr c true t => some (.ptr c false t)
  | .memptr c true k t => some (.memptr c false k t)
  | .arr t n => (matchVolatile t).map fun u => .arr u n
  | _ => none

/-- `remove_const` (ttl/type_traits.hpp:15-16) -/
def removeConst (t : Ty) : Ty := match matchConst t with | some u => u | none => t
/-- `remove_volatile` (ttl/type_traits.hpp:17-18) -/
def removeVolatile (t : Ty) : Ty := match matchVolatile t with | some u => u | none => t
/-- `remove_cv` (ttl/type_traits.hpp:19-23) -/
def removeCv (t : Ty) : Ty := removeVolatile (removeConst t)
/-- `remove_reference` (ttl/type_traits.hpp:24-28) -/
def removeReference : Ty → Ty
  | .lref t => t
  | .rref t => t
  | t => t

/-- `is_same` (ttl/type_traits.hpp:41-42) -/
def isSame (t u : Ty) : Bool := decide (t = u)

/-- Forming `T *`: there are no pointers to references. -/
def mkPtr : Ty → Option Ty
  | .lref _ => none
  | .rref _ => none
  | t => some (.ptr false false t)

/-- `is_const_value` (ttl/type_traits.hpp:45-47): specializations for `const T *` and `const volatile T *`. -/
def isConstValue : Ty → Bool
  | .ptr false false t =>
    if ((matchConst t).bind matchVolatile).isSome then true
    else if (matchConst t).isSome then true
    else false
  | _ => false
/-- `is_const` (ttl/type_traits.hpp:48-50) -/
def isConst : Ty → Option Bool
  | .lref _ => some false
  | t => (mkPtr t).map isConstValue

/-- `is_volatile_value` (ttl/type_traits.hpp:53-55): specializations for `volatile T *` and `const volatile T *`. -/
def isVolatileValue : Ty → Bool
  | .ptr false false t =>
    if ((matchConst t).bind matchVolatile).isSome then true
    else if (matchVolatile t).isSome then true
    else false
  | _ => false
/-- `is_volatile` (ttl/type_traits.hpp:56-58) -/
def isVolatile : Ty → Option Bool
  | .lref _ => some false
  | t => (mkPtr t).map isVolatileValue

/-- What the preprocessor says about the platform: whether `CHAR_MAX == SCHAR_MAX`, and whether `wchar_t` is known to be signed or unsigned. -/
structure Platform where
  charSigned : Bool
  wcharSigned : Bool
  wcharUnsigned : Bool

/-- `is_same<B, typename remove_cv<T>::type>` for a fundamental type `B`. -/
def isB (b : Base) (t : Ty) : Bool := isSame (.base false false b) (removeCv t)

/-- `is_signed` (ttl/type_traits.hpp:61-72) -/
def isSigned (P : Platform) (t : Ty) : Bool :=
  (P.charSigned && isB .char t) || (P.wcharSigned && isB .wchar t) ||
  isB .schar t || isB .short t || isB .int t || isB .long t || isB .llong t
/-- `is_unsigned` (ttl/type_traits.hpp:75-86) -/
def isUnsigned (P : Platform) (t : Ty) : Bool :=
  (!P.charSigned && isB .char t) || (P.wcharUnsigned && isB .wchar t) ||
  isB .uchar t || isB .ushort t || isB .uint t || isB .ulong t || isB .ullong t
/-- `is_void` (ttl/type_traits.hpp:89-90) -/
def isVoid (t : Ty) : Bool := isB .void t
/-- `is_integral` (ttl/type_traits.hpp:95-110) -/
def isIntegral (t : Ty) : Bool :=
  isB .uchar t || isB .ushort t || isB .uint t || isB .ulong t || isB .ullong t ||
  isB .schar t || isB .short t || isB .int t || isB .long t || isB .llong t || isB .bool t || isB .char t || isB .wchar t
/-- `is_floating_point` (ttl/type_traits.hpp:113-116) -/
def isFloating (t : Ty) : Bool := isB .float t || isB .double t || isB .ldouble t
/-- `is_arithmetic` (ttl/type_traits.hpp:121-124) -/
def isArithmetic (t : Ty) : Bool := isIntegral t || isFloating t
/-- `is_fundamental` (ttl/type_traits.hpp:131-135) -/
def isFundamental (t : Ty) : Bool := isVoid t || isIntegral t || isFloating t
/-- `is_pointer` (ttl/type_traits.hpp:137-139) -/
def isPointer (t : Ty) : Bool := match removeCv t with | .ptr false false _ => true | _ => false
/-- `is_scalar` (ttl/type_traits.hpp:146-152) -/
def isScalar (t : Ty) : Bool := isArithmetic t || isPointer t
/-- `is_array` (ttl/type_traits.hpp:154-156) -/
def isArray : Ty → Bool
  | .arr _ none => true
  | .arr _ (some _) => true
  | _ => false

namespace TraitsProps
variable {t u : Ty}

/-- Specification: `T` is const-qualified, that is, it is `const U` for another type `U`. -/
def Const (t : Ty) : Prop := ∃ u, u ≠ t ∧ addConst u = t
/-- Specification: `T` is volatile-qualified. -/
def Volatile (t : Ty) : Prop := ∃ u, u ≠ t ∧ addVolatile u = t
/-- Specification: `T` is `B`, `const B`, `volatile B` or `const volatile B`. -/
def IsCv (b t : Ty) : Prop := t = b ∨ t = addConst b ∨ t = addVolatile b ∨ t = addConst (addVolatile b)

theorem addConst_idem (t : Ty) : addConst (addConst t) = addConst t := by
  induction t <;> simp_all [addConst]
theorem addVolatile_idem (t : Ty) : addVolatile (addVolatile t) = addVolatile t := by
  induction t <;> simp_all [addVolatile]


/-! ### Const and volatile, by cases -/

theorem const_base {c v : Bool} {b : Base} : Const (.base c v b) ↔ c = true := by
  constructor
  · rintro ⟨u, _, e⟩; cases u <;> simp [addConst] at e; exact e.1
  · rintro rfl; exact ⟨.base false v b, by simp, rfl⟩
theorem const_ptr {c v : Bool} : Const (.ptr c v t) ↔ c = true := by
  constructor
  · rintro ⟨u, _, e⟩; cases u <;> simp [addConst] at e; exact e.1
  · rintro rfl; exact ⟨.ptr false v t, by simp, rfl⟩
theorem const_memptr {c v : Bool} {k : Nat} : Const (.memptr c v k t) ↔ c = true := by
  constructor
  · rintro ⟨u, _, e⟩; cases u <;> simp [addConst] at e; exact e.1
  · rintro rfl; exact ⟨.memptr false v k t, by simp, rfl⟩
theorem const_arr {n : Option Nat} : Const (.arr t n) ↔ Const t := by
  constructor
  · rintro ⟨u, ne, e⟩; cases u <;> simp [addConst] at e
    obtain ⟨e, rfl⟩ := e; exact ⟨_, by simpa using ne, e⟩
  · rintro ⟨u, ne, e⟩; exact ⟨.arr u n, by simpa using ne, by simp [addConst, e]⟩
theorem const_fn {n : Nat} : ¬ Const (.fn n) := by rintro ⟨u, ne, e⟩; cases u <;> simp [addConst] at e; exact ne (by rw [e])
theorem const_lref : ¬ Const (.lref t) := by rintro ⟨u, ne, e⟩; cases u <;> simp [addConst] at e; exact ne (by rw [e])
theorem const_rref : ¬ Const (.rref t) := by rintro ⟨u, ne, e⟩; cases u <;> simp [addConst] at e; exact ne (by rw [e])

theorem volatile_base {c v : Bool} {b : Base} : Volatile (.base c v b) ↔ v = true := by
  constructor
  · rintro ⟨u, _, e⟩; cases u <;> simp [addVolatile] at e; exact e.2.1
  · rintro rfl; exact ⟨.base c false b, by simp, rfl⟩
theorem volatile_ptr {c v : Bool} : Volatile (.ptr c v t) ↔ v = true := by
  constructor
  · rintro ⟨u, _, e⟩; cases u <;> simp [addVolatile] at e; exact e.2.1
  · rintro rfl; exact ⟨.ptr c false t, by simp, rfl⟩
theorem volatile_memptr {c v : Bool} {k : Nat} : Volatile (.memptr c v k t) ↔ v = true := by
  constructor
  · rintro ⟨u, _, e⟩; cases u <;> simp [addVolatile] at e; exact e.2.1
  · rintro rfl; exact ⟨.memptr c false k t, by simp, rfl⟩
theorem volatile_arr {n : Option Nat} : Volatile (.arr t n) ↔ Volatile t := by
  constructor
  · rintro ⟨u, ne, e⟩; cases u <;> simp [addVolatile] at e
    obtain ⟨e, rfl⟩ := e; exact ⟨_, by simpa using ne, e⟩
  · rintro ⟨u, ne, e⟩; exact ⟨.arr u n, by simpa using ne, by simp [addVolatile, e]⟩
theorem volatile_fn {n : Nat} : ¬ Volatile (.fn n) := by rintro ⟨u, ne, e⟩; cases u <;> simp [addVolatile] at e; exact ne (by rw [e])
theorem volatile_lref : ¬ Volatile (.lref t) := by rintro ⟨u, ne, e⟩; cases u <;> simp [addVolatile] at e; exact ne (by rw [e])
theorem volatile_rref : ¬ Volatile (.rref t) := by rintro ⟨u, ne, e⟩; cases u <;> simp [addVolatile] at e; exact ne (by rw [e])

theorem matchConst_iff (t : Ty) : (matchConst t).isSome = true ↔ Const t := by
  induction t with
  | base c v b => rw [const_base]; cases c <;> simp [matchConst]
  | ptr c v t _ => rw [const_ptr]; cases c <;> simp [matchConst]
  | memptr c v k t _ => rw [const_memptr]; cases c <;> simp [matchConst]
  | arr t n ih => rw [const_arr, ← ih]; simp [matchConst]
  | fn n => simp [matchConst, const_fn]
  | lref t _ => simp [matchConst, const_lref]
  | rref t _ => simp [matchConst, const_rref]
theorem matchVolatile_iff (t : Ty) : (matchVolatile t).isSome = true ↔ Volatile t := by
  induction t with
  | base c v b => rw [volatile_base]; cases v <;> simp [matchVolatile]
  | ptr c v t _ => rw [volatile_ptr]; cases v <;> simp [matchVolatile]
  | memptr c v k t _ => rw [volatile_memptr]; cases v <;> simp [matchVolatile]
  | arr t n ih => rw [volatile_arr, ← ih]; simp [matchVolatile]
  | fn n => simp [matchVolatile, volatile_fn]
  | lref t _ => simp [matchVolatile, volatile_lref]
  | rref t _ => simp [matchVolatile, volatile_rref]

theorem matchBoth {t : Ty} (h : ((matchConst t).bind matchVolatile).isSome = true) : Const t ∧ Volatile t := by
  induction t with
  | base c v b => rw [const_base, volatile_base]; cases c <;> cases v <;> simp_all [matchConst, matchVolatile]
  | ptr c v t _ => rw [const_ptr, volatile_ptr]; cases c <;> cases v <;> simp_all [matchConst, matchVolatile]
  | memptr c v k t _ => rw [const_memptr, volatile_memptr]; cases c <;> cases v <;> simp_all [matchConst, matchVolatile]
  | arr t n ih =>
    rw [const_arr, volatile_arr]
    refine ih ?_
    simp only [matchConst] at h
    cases g : matchConst t with
    | none => simp [g] at h
    | some u => simpa [g, matchVolatile] using h
  | _ => simp [matchConst] at h

/-! ## C109: qualifiers -/

/-- **C109.** `is_const<T>::value` is true iff `T` is const-qualified, for every type except rvalue references. Partial: see `isConst_rref`. -/
theorem isConst_iff_partial (t : Ty) (h : ∀ u, t ≠ .rref u) : ∃ b, isConst t = some b ∧ (b = true ↔ Const t) := by
  have key : ∀ t, isConstValue (.ptr false false t) = true ↔ Const t := by
    intro t
    rw [← matchConst_iff]
    simp only [isConstValue]
    split
    · rename_i q; simp [(matchConst_iff t).2 (matchBoth q).1]
    · split <;> simp_all
  cases t with
  | lref t => exact ⟨false, rfl, by simp [const_lref]⟩
  | rref t => exact absurd rfl (h t)
  | _ => exact ⟨_, rfl, key _⟩

/-- **C109.** The same for `is_volatile`. -/
theorem isVolatile_iff_partial (t : Ty) (h : ∀ u, t ≠ .rref u) : ∃ b, isVolatile t = some b ∧ (b = true ↔ Volatile t) := by
  have key : ∀ t, isVolatileValue (.ptr false false t) = true ↔ Volatile t := by
    intro t
    rw [← matchVolatile_iff]
    simp only [isVolatileValue]
    split
    · rename_i q; simp [(matchVolatile_iff t).2 (matchBoth q).2]
    · split <;> simp_all
  cases t with
  | lref t => exact ⟨false, rfl, by simp [volatile_lref]⟩
  | rref t => exact absurd rfl (h t)
  | _ => exact ⟨_, rfl, key _⟩

/-- **C109 is false** for rvalue references: `is_const<T &&>` and `is_volatile<T &&>` do not compile, since they form a pointer to a reference. -/
theorem isConst_rref (t : Ty) : isConst (.rref t) = none ∧ isVolatile (.rref t) = none := ⟨rfl, rfl⟩

theorem removeCv_base {c v : Bool} {b : Base} : removeCv (.base c v b) = .base false false b := by cases c <;> cases v <;> rfl
theorem removeCv_ptr {c v : Bool} : removeCv (.ptr c v t) = .ptr false false t := by cases c <;> cases v <;> rfl
theorem removeCv_memptr {c v : Bool} {k : Nat} : removeCv (.memptr c v k t) = .memptr false false k t := by cases c <;> cases v <;> rfl
theorem removeCv_arr {n : Option Nat} : removeCv (.arr t n) = .arr (removeCv t) n := by
  have a : ∀ t, removeConst (.arr t n) = .arr (removeConst t) n := by intro t; simp only [removeConst, matchConst]; cases matchConst t <;> rfl
  have b : ∀ t, removeVolatile (.arr t n) = .arr (removeVolatile t) n := by intro t; simp only [removeVolatile, matchVolatile]; cases matchVolatile t <;> rfl
  simp only [removeCv, a, b]
theorem removeCv_fn {n : Nat} : removeCv (.fn n) = .fn n := rfl
theorem removeCv_lref : removeCv (.lref t) = .lref t := rfl
theorem removeCv_rref : removeCv (.rref t) = .rref t := rfl

/-- **C109.** `remove_const<T>` is the type that is not const-qualified and is `T` or becomes `T` with `const`. -/
theorem removeConst_spec (t : Ty) : ¬ Const (removeConst t) ∧ (t = removeConst t ∨ t = addConst (removeConst t)) := by
  induction t with
  | base c v b => cases c <;> simp [removeConst, matchConst, addConst, const_base]
  | ptr c v t _ => cases c <;> simp [removeConst, matchConst, addConst, const_ptr]
  | memptr c v k t _ => cases c <;> simp [removeConst, matchConst, addConst, const_memptr]
  | arr t n ih =>
    have a : removeConst (.arr t n) = .arr (removeConst t) n := by simp only [removeConst, matchConst]; cases matchConst t <;> rfl
    rw [a, const_arr]
    exact ⟨ih.1, ih.2.imp (fun e => by rw [← e]) (fun e => by simp only [addConst]; rw [← e])⟩
  | fn n => exact ⟨const_fn, .inl rfl⟩
  | lref t _ => exact ⟨const_lref, .inl rfl⟩
  | rref t _ => exact ⟨const_rref, .inl rfl⟩

/-- **C109.** `remove_volatile<T>` is the type that is not volatile-qualified and is `T` or becomes `T` with `volatile`. -/
theorem removeVolatile_spec (t : Ty) : ¬ Volatile (removeVolatile t) ∧ (t = removeVolatile t ∨ t = addVolatile (removeVolatile t)) := by
  induction t with
  | base c v b => cases v <;> simp [removeVolatile, matchVolatile, addVolatile, volatile_base]
  | ptr c v t _ => cases v <;> simp [removeVolatile, matchVolatile, addVolatile, volatile_ptr]
  | memptr c v k t _ => cases v <;> simp [removeVolatile, matchVolatile, addVolatile, volatile_memptr]
  | arr t n ih =>
    have a : removeVolatile (.arr t n) = .arr (removeVolatile t) n := by simp only [removeVolatile, matchVolatile]; cases matchVolatile t <;> rfl
    rw [a, volatile_arr]
    exact ⟨ih.1, ih.2.imp (fun e => by rw [← e]) (fun e => by simp only [addVolatile]; rw [← e])⟩
  | fn n => exact ⟨volatile_fn, .inl rfl⟩
  | lref t _ => exact ⟨volatile_lref, .inl rfl⟩
  | rref t _ => exact ⟨volatile_rref, .inl rfl⟩

/-- **C109.** `remove_cv<T>` is the type without qualifiers of which `T` is a qualified version. -/
theorem removeCv_spec (t : Ty) : ¬ Const (removeCv t) ∧ ¬ Volatile (removeCv t) ∧ IsCv (removeCv t) t := by
  induction t with
  | base c v b => rw [removeCv_base, const_base, volatile_base]; cases c <;> cases v <;> simp [IsCv, addConst, addVolatile]
  | ptr c v t _ => rw [removeCv_ptr, const_ptr, volatile_ptr]; cases c <;> cases v <;> simp [IsCv, addConst, addVolatile]
  | memptr c v k t _ => rw [removeCv_memptr, const_memptr, volatile_memptr]; cases c <;> cases v <;> simp [IsCv, addConst, addVolatile]
  | arr t n ih =>
    rw [removeCv_arr, const_arr, volatile_arr]
    refine ⟨ih.1, ih.2.1, ?_⟩
    rcases ih.2.2 with e | e | e | e
    · exact .inl (by rw [← e])
    · exact .inr (.inl (by simp only [addConst]; rw [← e]))
    · exact .inr (.inr (.inl (by simp only [addVolatile]; rw [← e])))
    · exact .inr (.inr (.inr (by simp only [addVolatile, addConst]; rw [← e])))
  | fn n => exact ⟨const_fn, volatile_fn, .inl rfl⟩
  | lref t _ => exact ⟨const_lref, volatile_lref, .inl rfl⟩
  | rref t _ => exact ⟨const_rref, volatile_rref, .inl rfl⟩

/-- **C109.** `remove_reference` removes one reference and nothing else. -/
theorem removeReference_spec (t : Ty) : (∀ u, t = .lref u → removeReference t = u) ∧ (∀ u, t = .rref u → removeReference t = u) ∧
    ((∀ u, t ≠ .lref u ∧ t ≠ .rref u) → removeReference t = t) := by
  refine ⟨?_, ?_, ?_⟩
  · rintro u rfl; rfl
  · rintro u rfl; rfl
  · intro h
    cases t with
    | lref u => exact absurd rfl (h u).1
    | rref u => exact absurd rfl (h u).2
    | _ => rfl

/-! ## C110: classification -/

theorem isB_iff (b : Base) (t : Ty) : isB b t = true ↔ IsCv (.base false false b) t := by
  simp only [isB, isSame, decide_eq_true_eq]
  constructor
  · intro e; rw [e]; exact (removeCv_spec t).2.2
  · rintro (rfl | rfl | rfl | rfl) <;> rfl

/-- **C110.** `is_integral`, `is_floating_point`, `is_void`: exactly the qualified versions of the listed types. -/
theorem isIntegral_iff (t : Ty) : isIntegral t = true ↔
    ∃ b ∈ [Base.bool, .char, .schar, .uchar, .wchar, .short, .ushort, .int, .uint, .long, .ulong, .llong, .ullong], IsCv (.base false false b) t := by
  simp only [isIntegral, Bool.or_eq_true, isB_iff, List.mem_cons, List.not_mem_nil, or_false, exists_eq_or_imp, exists_eq_left]
  grind
theorem isFloating_iff (t : Ty) : isFloating t = true ↔ ∃ b ∈ [Base.float, .double, .ldouble], IsCv (.base false false b) t := by
  simp only [isFloating, Bool.or_eq_true, isB_iff, List.mem_cons, List.not_mem_nil, or_false, exists_eq_or_imp, exists_eq_left]
  grind
theorem isVoid_iff (t : Ty) : isVoid t = true ↔ IsCv (.base false false .void) t := isB_iff _ _

/-- **C110.** `is_signed`: exactly the qualified versions of the signed integer types, and of `char` and `wchar_t` if the platform says they
are signed. -/
theorem isSigned_iff (P : Platform) (t : Ty) : isSigned P t = true ↔
    ∃ b, IsCv (.base false false b) t ∧ (b ∈ [Base.schar, .short, .int, .long, .llong] ∨ b = .char ∧ P.charSigned = true ∨ b = .wchar ∧ P.wcharSigned = true) := by
  simp only [isSigned, Bool.or_eq_true, Bool.and_eq_true, isB_iff, List.mem_cons, List.not_mem_nil, or_false]
  grind

/-- **C110.** `is_unsigned`: exactly the qualified versions of the unsigned integer types, of `char` if it is not signed, and of `wchar_t` if
the platform says it is unsigned. -/
theorem isUnsigned_iff (P : Platform) (t : Ty) : isUnsigned P t = true ↔
    ∃ b, IsCv (.base false false b) t ∧ (b ∈ [Base.uchar, .ushort, .uint, .ulong, .ullong] ∨ b = .char ∧ P.charSigned = false ∨ b = .wchar ∧ P.wcharUnsigned = true) := by
  simp only [isUnsigned, Bool.or_eq_true, Bool.and_eq_true, Bool.not_eq_true', isB_iff, List.mem_cons, List.not_mem_nil, or_false]
  grind

/-- **C110.** If the platform says which of `char` and `wchar_t` are signed, every integral type except `bool` is either signed or unsigned, and no other type is. -/
theorem signed_or_unsigned (P : Platform) (known : P.wcharSigned = !P.wcharUnsigned) (t : Ty) :
    ((isSigned P t = true ∨ isUnsigned P t = true) ↔ isIntegral t = true ∧ ¬ IsCv (.base false false .bool) t) ∧ ¬ (isSigned P t = true ∧ isUnsigned P t = true) := by
  obtain ⟨cs, ws, wu⟩ := P
  simp only at known
  subst known
  have ne : ∀ b c : Base, b ≠ c → isB b t = true → isB c t = false := by
    intro b c q h
    simp only [isB, isSame, decide_eq_true_eq, decide_eq_false_iff_not] at h ⊢
    rw [← h]; simpa using Ne.symm q
  rw [← isB_iff]
  simp only [isSigned, isUnsigned, isIntegral]
  by_cases g : ∃ b, isB b t = true
  · obtain ⟨b, hb⟩ := g
    have eq : ∀ c, isB c t = decide (b = c) := by
      intro c
      by_cases q : b = c
      · subst q; simp [hb]
      · rw [ne b c q hb]; simp [q]
    simp only [eq]
    cases b <;> cases cs <;> cases wu <;> simp
  · have eq : ∀ c, isB c t = false := fun c => by
      cases q : isB c t with
      | false => rfl
      | true => exact absurd ⟨c, q⟩ g
    simp [eq]

/-- **C110.** `is_pointer`: exactly the pointers, whatever their qualifiers. -/
theorem isPointer_iff (t : Ty) : isPointer t = true ↔ ∃ u, IsCv (.ptr false false u) t := by
  constructor
  · intro h
    have e := (removeCv_spec t).2.2
    simp only [isPointer] at h
    split at h
    · rename_i u q; rw [q] at e; exact ⟨u, e⟩
    · cases h
  · rintro ⟨u, rfl | rfl | rfl | rfl⟩ <;> rfl

/-- **C110.** `is_array`: exactly the arrays of known or unknown bound, with elements of any type. -/
theorem isArray_iff (t : Ty) : isArray t = true ↔ ∃ u n, t = .arr u n := by
  constructor
  · intro h
    cases t with
    | arr u n => exact ⟨u, n, rfl⟩
    | _ => simp [isArray] at h
  · rintro ⟨u, n, rfl⟩; cases n <;> rfl

/-- **C110.** The composite categories. -/
theorem composite_iff (t : Ty) : (isArithmetic t = true ↔ isIntegral t = true ∨ isFloating t = true) ∧
    (isFundamental t = true ↔ isVoid t = true ∨ isIntegral t = true ∨ isFloating t = true) ∧
    (isScalar t = true ↔ isIntegral t = true ∨ isFloating t = true ∨ isPointer t = true) := by
  refine ⟨by simp [isArithmetic], ?_, ?_⟩
  · simp only [isFundamental, Bool.or_eq_true]; grind
  · simp only [isScalar, isArithmetic, Bool.or_eq_true]; grind

/-- **C110.** `is_same` decides equality of types. -/
theorem isSame_iff (t u : Ty) : isSame t u = true ↔ t = u := by simp [isSame]

/-- **C110.** No reference, function, array, class or member pointer is in a fundamental category, and the categories do not overlap. -/
theorem categories_disjoint (t : Ty) : ¬ (isIntegral t = true ∧ isFloating t = true) ∧ ¬ (isIntegral t = true ∧ isVoid t = true) ∧ ¬ (isFloating t = true ∧ isVoid t = true) ∧
    ¬ (isPointer t = true ∧ isFundamental t = true) ∧ ¬ (isArray t = true ∧ isScalar t = true) := by
  cases t with
  | base c v b =>
    cases b <;> simp [isIntegral, isFloating, isVoid, isPointer, isFundamental, isArray, isB, isSame, removeCv_base]
  | _ => simp [isIntegral, isFloating, isVoid, isPointer, isFundamental, isArray, isScalar, isArithmetic, isB, isSame, removeCv_ptr, removeCv_memptr, removeCv_arr, removeCv_fn, removeCv_lref, removeCv_rref]

/-! ### Concrete cases -/

/-- `const int[3]` is const, `const int *` is not, `int *const` is. -/
example : isConst (.arr (.base true false .int) (some 3)) = some true ∧ isConst (.ptr false false (.base true false .int)) = some false ∧
    isConst (.ptr true false (.base false false .int)) = some true := by decide
example : removeCv (.arr (.base true true .int) none) = .arr (.base false false .int) none ∧ isPointer (.ptr true true (.fn 0)) = true ∧ isScalar (.memptr false false 0 (.fn 0)) = false := by decide

end TraitsProps
end Verif.Traits
