/-!
# Which overload a call selects (C147)

The containers declare `f(size_type n, const T &value)` beside `template<typename InputIterator> f(InputIterator first, InputIterator last)` without any
restriction of the template (no `enable_if`), as in C++98. Which of them `f(3, 7)` means is decided by overload resolution, which is modelled here as far as these
sets need it: template argument deduction for one type parameter, viability, and the comparison of viable candidates argument by argument.

Simplifications: types are compared after the lvalue-to-rvalue, array-to-pointer and top-level `const` adjustments that deduction and the ranking make; between
conversions of the same rank no further distinction is made (the candidates compared here never need it); the body of the chosen template is not part of the choice
(in C++ it is not, either: an unsuitable body is an error, not a reason to choose another candidate).
-/
namespace Verif.Overload
variable {Ty : Type} [DecidableEq Ty]

/-- Ranks of implicit conversion sequences, the best first. -/
inductive Rank where
  | exact | promotion | conversion | user
  deriving DecidableEq

/-- The position of a rank in the order. -/
def Rank.num : Rank → Nat
  | .exact => 0 | .promotion => 1 | .conversion => 2 | .user => 3

/-- A parameter of a candidate: of a fixed type (`t` or `const t &`), or of the template's type parameter. -/
inductive Param (Ty : Type) where
  | ty (t : Ty)
  | tpl
  deriving DecidableEq

/-- What a candidate of the overload sets does. -/
inductive Does where
  | default | copy | count | countValue | range | one | hinted
  deriving DecidableEq

/-- A candidate: its parameters and what it does. -/
structure Cand (Ty : Type) where
  params : List (Param Ty)
  does : Does
  deriving DecidableEq

/-- Is it a template? -/
def Cand.isTemplate (c : Cand Ty) : Bool := decide (Param.tpl ∈ c.params)

/-- The arguments for the parameters of the type parameter's type. -/
def deduced : List (Param Ty) → List Ty → List Ty
  | .tpl :: ps, a :: as => a :: deduced ps as
  | .ty _ :: ps, _ :: as => deduced ps as
  | _, _ => []

/-- Deduction succeeds: all of them have the same type. -/
def agrees : List Ty → Bool
  | a :: b :: l => decide (a = b) && agrees (b :: l)
  | _ => true

/-- The ranks of the conversions of the arguments to the parameters, if there are any. -/
def ranks (conv : Ty → Ty → Option Rank) : List (Param Ty) → List Ty → Option (List Rank)
  | [], [] => some []
  | p :: ps, a :: as => do
    let r ← match p with
      | .ty t => conv a t
      | .tpl => some .exact
    let rs ← ranks conv ps as
    pure (r :: rs)
  | _, _ => none

/-- The candidate can be called with these arguments, with these conversions. -/
def Cand.viable (conv : Ty → Ty → Option Rank) (c : Cand Ty) (args : List Ty) : Option (List Rank) :=
  if agrees (deduced c.params args) then ranks conv c.params args else none

/-- No argument needs a worse conversion. -/
def notWorse : List Rank → List Rank → Bool
  | r :: rs, s :: ss => decide (r.num ≤ s.num) && notWorse rs ss
  | _, _ => true

/-- Some argument needs a better conversion. -/
def somewhereBetter : List Rank → List Rank → Bool
  | r :: rs, s :: ss => decide (r.num < s.num) || somewhereBetter rs ss
  | _, _ => false

/-- The viable candidate `c` with conversions `rs` is better than `d` with `ss` ([over.match.best]): no argument needs a worse conversion, and some argument needs a
better one, or else `d` is a template and `c` is not. -/
def better (c : Cand Ty) (rs : List Rank) (d : Cand Ty) (ss : List Rank) : Bool :=
  notWorse rs ss && (somewhereBetter rs ss || (!c.isTemplate && d.isTemplate))

/-- What a call with these arguments selects: the candidate that is better than all other viable ones. -/
def Selects (conv : Ty → Ty → Option Rank) (cands : List (Cand Ty)) (args : List Ty) (c : Cand Ty) : Prop :=
  c ∈ cands ∧ ∃ rs, c.viable conv args = some rs ∧ ∀ d ∈ cands, d ≠ c → ∀ ss, d.viable conv args = some ss → better c rs d ss = true

/-! ## The overload sets of the headers -/

/-- The types that occur in the declarations of a container: `size_type`, the element type, the container itself, its `const_iterator`, its `iterator`. -/
structure Types (Ty : Type) where
  size : Ty
  elem : Ty
  self : Ty
  cit : Ty
  it : Ty

variable (t : Types Ty)

/-- Constructors of `list` (ttl/list.hpp:191-207), `forward_list` (ttl/forward_list.hpp:90-106) and `backward_list` (ttl/backward_list.hpp:95-118) -/
def listCtors : List (Cand Ty) :=
  [⟨[], .default⟩, ⟨[.ty t.self], .copy⟩, ⟨[.ty t.size, .ty t.elem], .countValue⟩, ⟨[.tpl, .tpl], .range⟩]
/-- Constructors of `vector` (ttl/vector.hpp:63-68) and `fixed_vector` (ttl/fixed_vector.hpp:43-48) -/
def vectorCtors : List (Cand Ty) :=
  [⟨[], .default⟩, ⟨[.ty t.size], .count⟩, ⟨[.ty t.size, .ty t.elem], .countValue⟩, ⟨[.ty t.self], .copy⟩, ⟨[.tpl, .tpl], .range⟩]
/-- Constructors of `lazy_queue` (ttl/lazy_queue.hpp:112-131) -/
def lazyCtors : List (Cand Ty) := [⟨[], .default⟩, ⟨[.ty t.self], .copy⟩, ⟨[.ty t.size, .ty t.elem], .countValue⟩]
/-- `assign` of `list` (ttl/list.hpp:239-250), `forward_list` (ttl/forward_list.hpp:132-143), `backward_list` (ttl/backward_list.hpp:149-160), `vector`
(ttl/vector.hpp:78-85) and `fixed_vector` (ttl/fixed_vector.hpp:57-64) -/
def assigns : List (Cand Ty) := [⟨[.tpl, .tpl], .range⟩, ⟨[.ty t.size, .ty t.elem], .countValue⟩]
/-- `insert` of `list` (ttl/list.hpp:294-301), `vector` (ttl/vector.hpp:122-139) and `fixed_vector` (ttl/fixed_vector.hpp:100-108); `insert_after` of `forward_list`
(ttl/forward_list.hpp:169-175), `backward_list` (ttl/backward_list.hpp:195-205) and `lazy_queue` (ttl/lazy_queue.hpp:191-201) -/
def inserts : List (Cand Ty) :=
  [⟨[.ty t.cit, .ty t.elem], .one⟩, ⟨[.ty t.cit, .ty t.size, .ty t.elem], .countValue⟩, ⟨[.ty t.cit, .tpl, .tpl], .range⟩]
/-- `insert` of `map` (ttl/map.hpp:189-196), `set` (ttl/set.hpp:177-184) and `sorted_vector_map` (ttl/sorted_vector_map.hpp:140-150), `elem` being their `value_type`;
`insert(iterator, const value_type &)` is declared but defined nowhere -/
def mapInserts : List (Cand Ty) := [⟨[.ty t.elem], .one⟩, ⟨[.ty t.it, .ty t.elem], .hinted⟩, ⟨[.tpl, .tpl], .range⟩]

/-- What is known about conversions: every type converts to itself, exactly, and `size_type`, an integer type, neither converts exactly to another type nor does another
type convert exactly to it. -/
structure Standard (conv : Ty → Ty → Option Rank) (size : Ty) : Prop where
  self : ∀ a, conv a a = some .exact
  toSize : ∀ a, conv a size = some .exact → a = size
  fromSize : ∀ a, conv size a = some .exact → a = size

end Verif.Overload
