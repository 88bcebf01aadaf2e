import Verif.Algorithm.Iter
/-!
# Model of the non-modifying algorithms of `ttl/algorithm.hpp`

`eq a b` stands for `a == b`, `lt a b` for `a < b`; both are arbitrary pure Boolean functions.
Where the repository has an operator form and a predicate form whose bodies are textually the same
up to that call, one definition models both and cites both.
-/
namespace Verif.Algo
open Verif
variable {σ ι κ T U : Type}

/-- `ttl::find_if`, algorithm.hpp:43-50; `ttl::find`, algorithm.hpp:34-41, is
`find_if` with `p x := x == value`. -/
def findIf [DecidableEq ι] (I : Iter σ ι T) (p : T → Bool) (first last : ι) : Prog σ ι := do
  if first = last then pure last
  else do
    let x ← I.deref first
    if p x then pure first
    else do
      let first' ← I.next first
      findIf I p first' last
partial_fixpoint

/-- `ttl::find`, algorithm.hpp:34-41. -/
def find [DecidableEq ι] (I : Iter σ ι T) (eq : T → U → Bool) (first last : ι) (value : U) :
    Prog σ ι := do
  if first = last then pure last
  else do
    let x ← I.deref first
    if eq x value then pure first
    else do
      let first' ← I.next first
      find I eq first' last value
partial_fixpoint

/-- `ttl::find_if_not`, algorithm.hpp:52-59. -/
def findIfNot [DecidableEq ι] (I : Iter σ ι T) (p : T → Bool) (first last : ι) : Prog σ ι := do
  if first = last then pure last
  else do
    let x ← I.deref first
    if !p x then pure first
    else do
      let first' ← I.next first
      findIfNot I p first' last
partial_fixpoint

/-- Outcome of the inner loop of `ttl::search`. -/
inductive SearchStep where
  | found | exhausted | miss
  deriving DecidableEq

/-- Inner loop of `ttl::search`, algorithm.hpp:69-78 and 91-100. -/
def searchInner [DecidableEq ι] [DecidableEq κ] (I : Iter σ ι T) (J : Iter σ κ U)
    (pred : T → U → Bool) (i last : ι) (s sublast : κ) : Prog σ SearchStep := do
  if s = sublast then pure .found
  else if i = last then pure .exhausted
  else do
    let x ← I.deref i
    let y ← J.deref s
    if !pred x y then pure .miss
    else do
      let i' ← I.next i
      let s' ← J.next s
      searchInner I J pred i' last s' sublast
partial_fixpoint

/-- `ttl::search`, algorithm.hpp:61-81 (`pred` is `==`) and 83-103. -/
def search [DecidableEq ι] [DecidableEq κ] (I : Iter σ ι T) (J : Iter σ κ U)
    (pred : T → U → Bool) (first last : ι) (subfirst sublast : κ) : Prog σ ι := do
  let r ← searchInner I J pred first last subfirst sublast
  match r with
  | .found => pure first
  | .exhausted => pure last
  | .miss => do
    let first' ← I.next first
    search I J pred first' last subfirst sublast
partial_fixpoint

/-- Outcome of the inner loop of `ttl::search_n`: return `candidate`, return `last`, or `break`
with `first` at the element that did not match. -/
inductive RunStep (ι : Type) where
  | complete | ended | broke (first : ι)

/-- Inner loop of `ttl::search_n`, algorithm.hpp:116-124 and 141-149; `c` counts up to `count`. -/
def searchNInner [DecidableEq ι] (I : Iter σ ι T) (m : T → Bool) (first last : ι)
    (c count : Int) : Prog σ (RunStep ι) := do
  if c = count then pure .complete
  else do
    let first' ← I.next first
    if first' = last then pure .ended
    else do
      let x ← I.deref first'
      if !m x then pure (.broke first')
      else searchNInner I m first' last (c + 1) count
partial_fixpoint

/-- Outer loop of `ttl::search_n`; `m0` is the test of the candidate's first element, `m` the test
of the following ones. -/
def searchNOuter [DecidableEq ι] (I : Iter σ ι T) (m0 m : T → Bool) (first last : ι)
    (count : Int) : Prog σ ι := do
  if first = last then pure last
  else do
    let x ← I.deref first
    if m0 x then do
      let r ← searchNInner I m first last 1 count
      match r with
      | .complete => pure first
      | .ended => pure last
      | .broke f => do
        let f' ← I.next f
        searchNOuter I m0 m f' last count
    else do
      let f' ← I.next first
      searchNOuter I m0 m f' last count
partial_fixpoint

/-- `ttl::search_n` without predicate, algorithm.hpp:105-128. `Size` is modelled by unbounded
integers. -/
def searchN [DecidableEq ι] (I : Iter σ ι T) (eq : T → U → Bool) (first last : ι) (count : Int)
    (value : U) : Prog σ ι := do
  if count ≤ 0 then pure first
  else searchNOuter I (fun x => eq x value) (fun x => eq x value) first last count

/-- `ttl::search_n` with predicate, algorithm.hpp:130-153. Line 138 tests the first element of a
candidate run with `==`, line 147 the others with `pred`. -/
def searchNPred [DecidableEq ι] (I : Iter σ ι T) (eq pred : T → U → Bool) (first last : ι)
    (count : Int) (value : U) : Prog σ ι := do
  if count ≤ 0 then pure first
  else searchNOuter I (fun x => eq x value) (fun x => pred x value) first last count

/-- `++c` on an `int`: overflow is undefined behaviour. -/
def incInt (c : Int) : Prog σ Int := do
  Prog.need (c + 1 < 2147483648) .arith
  pure (c + 1)

/-- Loop of `ttl::count_if`, algorithm.hpp:169-171 (and 159-161). -/
def countLoop [DecidableEq ι] (I : Iter σ ι T) (p : T → Bool) (first last : ι) (c : Int) :
    Prog σ Int := do
  if first = last then pure c
  else do
    let x ← I.deref first
    let c' ← if p x then incInt c else pure c
    let first' ← I.next first
    countLoop I p first' last c'
partial_fixpoint

/-- `ttl::count_if`, algorithm.hpp:165-173. -/
def countIf [DecidableEq ι] (I : Iter σ ι T) (p : T → Bool) (first last : ι) : Prog σ Int :=
  countLoop I p first last 0

/-- `ttl::count`, algorithm.hpp:155-163. -/
def count [DecidableEq ι] (I : Iter σ ι T) (eq : T → U → Bool) (first last : ι) (value : U) :
    Prog σ Int :=
  countLoop I (fun x => eq x value) first last 0

/-- `ttl::all_of`, algorithm.hpp:175-179. -/
def allOf [DecidableEq ι] (I : Iter σ ι T) (p : T → Bool) (first last : ι) : Prog σ Bool := do
  let r ← findIfNot I p first last
  pure (decide (r = last))

/-- `ttl::any_of`, algorithm.hpp:181-185. -/
def anyOf [DecidableEq ι] (I : Iter σ ι T) (p : T → Bool) (first last : ι) : Prog σ Bool := do
  let r ← findIf I p first last
  pure (decide (r ≠ last))

/-- `ttl::none_of`, algorithm.hpp:187-191. -/
def noneOf [DecidableEq ι] (I : Iter σ ι T) (p : T → Bool) (first last : ι) : Prog σ Bool := do
  let r ← findIf I p first last
  pure (decide (r = last))

/-- Loop of `ttl::adjacent_find`, algorithm.hpp:201-204 and 214-217. -/
def adjacentLoop [DecidableEq ι] (I : Iter σ ι T) (p : T → T → Bool) (first next last : ι) :
    Prog σ ι := do
  if next = last then pure last
  else do
    let x ← I.deref first
    let y ← I.deref next
    if p x y then pure first
    else do
      let next' ← I.next next
      let first' ← I.next first
      adjacentLoop I p first' next' last
partial_fixpoint

/-- `ttl::adjacent_find`, algorithm.hpp:194-205 (`p` is `==`) and 207-218. -/
def adjacentFind [DecidableEq ι] (I : Iter σ ι T) (p : T → T → Bool) (first last : ι) :
    Prog σ ι := do
  if first = last then pure last
  else do
    let next ← I.next first
    adjacentLoop I p first next last

/-- `ttl::equal`, three-iterator forms, algorithm.hpp:220-227 (`pred` is `==`) and 229-236. -/
def equal3 [DecidableEq ι] (I : Iter σ ι T) (J : Iter σ κ U) (pred : T → U → Bool)
    (first1 last1 : ι) (first2 : κ) : Prog σ Bool := do
  if first1 = last1 then pure true
  else do
    let x ← I.deref first1
    let y ← J.deref first2
    if !pred x y then pure false
    else do
      let f1 ← I.next first1
      let f2 ← J.next first2
      equal3 I J pred f1 last1 f2
partial_fixpoint

/-- `ttl::equal`, four-iterator forms, algorithm.hpp:238-245 (`pred` is `==`) and 247-254. -/
def equal4 [DecidableEq ι] [DecidableEq κ] (I : Iter σ ι T) (J : Iter σ κ U)
    (pred : T → U → Bool) (first1 last1 : ι) (first2 last2 : κ) : Prog σ Bool := do
  if first1 ≠ last1 ∧ first2 ≠ last2 then do
    let x ← I.deref first1
    let y ← J.deref first2
    if !pred x y then pure false
    else do
      let f1 ← I.next first1
      let f2 ← J.next first2
      equal4 I J pred f1 last1 f2 last2
  else pure (decide (first1 = last1 ∧ first2 = last2))
partial_fixpoint

/-- `ttl::mismatch`, three-iterator forms, algorithm.hpp:256-262 (`pred` is `==`) and 264-270. -/
def mismatch3 [DecidableEq ι] (I : Iter σ ι T) (J : Iter σ κ U) (pred : T → U → Bool)
    (first1 last1 : ι) (first2 : κ) : Prog σ (ι × κ) := do
  if first1 = last1 then pure (first1, first2)
  else do
    let x ← I.deref first1
    let y ← J.deref first2
    if pred x y then do
      let f1 ← I.next first1
      let f2 ← J.next first2
      mismatch3 I J pred f1 last1 f2
    else pure (first1, first2)
partial_fixpoint

/-- `ttl::mismatch`, four-iterator forms, algorithm.hpp:272-278 (`pred` is `==`) and 280-286. -/
def mismatch4 [DecidableEq ι] [DecidableEq κ] (I : Iter σ ι T) (J : Iter σ κ U)
    (pred : T → U → Bool) (first1 last1 : ι) (first2 last2 : κ) : Prog σ (ι × κ) := do
  if first1 ≠ last1 ∧ first2 ≠ last2 then do
    let x ← I.deref first1
    let y ← J.deref first2
    if pred x y then do
      let f1 ← I.next first1
      let f2 ← J.next first2
      mismatch4 I J pred f1 last1 f2 last2
    else pure (first1, first2)
  else pure (first1, first2)
partial_fixpoint

/-- `ttl::for_each`, algorithm.hpp:288-294. The functor's state is `δ`, a call `f(x)` is
`step x`; the functor is returned. -/
def forEach {δ : Type} [DecidableEq ι] (I : Iter σ ι T) (step : T → δ → δ) (first last : ι)
    (f : δ) : Prog σ δ := do
  if first = last then pure f
  else do
    let x ← I.deref first
    let first' ← I.next first
    forEach I step first' last (step x f)
partial_fixpoint

/-- Loop of `ttl::is_sorted_until`, algorithm.hpp:616-621. -/
def sortedLoop [DecidableEq ι] (I : Iter σ ι T) (lt : T → T → Bool) (first next last : ι) :
    Prog σ ι := do
  let next' ← I.next next
  if next' = last then pure last
  else do
    let y ← I.deref next'
    let x ← I.deref first
    if lt y x then pure next'
    else sortedLoop I lt next' next' last
partial_fixpoint

/-- `ttl::is_sorted_until`, algorithm.hpp:610-624. -/
def isSortedUntil [DecidableEq ι] (I : Iter σ ι T) (lt : T → T → Bool) (first last : ι) :
    Prog σ ι := do
  if first ≠ last then sortedLoop I lt first first last
  else pure last

/-- `ttl::is_sorted`, algorithm.hpp:626-630. -/
def isSorted [DecidableEq ι] (I : Iter σ ι T) (lt : T → T → Bool) (first last : ι) :
    Prog σ Bool := do
  let r ← isSortedUntil I lt first last
  pure (decide (r = last))

/-- Loop of `ttl::min_element`, algorithm.hpp:702-704. -/
def minLoop [DecidableEq ι] (I : Iter σ ι T) (lt : T → T → Bool) (first last smallest : ι) :
    Prog σ ι := do
  if first = last then pure smallest
  else do
    let x ← I.deref first
    let y ← I.deref smallest
    let smallest' := if lt x y then first else smallest
    let first' ← I.next first
    minLoop I lt first' last smallest'
partial_fixpoint

/-- `ttl::min_element`, algorithm.hpp:696-706. -/
def minElement [DecidableEq ι] (I : Iter σ ι T) (lt : T → T → Bool) (first last : ι) :
    Prog σ ι := do
  if first = last then pure last
  else do
    let first' ← I.next first
    minLoop I lt first' last first

/-- Loop of `ttl::max_element`, algorithm.hpp:714-716. -/
def maxLoop [DecidableEq ι] (I : Iter σ ι T) (lt : T → T → Bool) (first last largest : ι) :
    Prog σ ι := do
  if first = last then pure largest
  else do
    let y ← I.deref largest
    let x ← I.deref first
    let largest' := if lt y x then first else largest
    let first' ← I.next first
    maxLoop I lt first' last largest'
partial_fixpoint

/-- `ttl::max_element`, algorithm.hpp:708-718. -/
def maxElement [DecidableEq ι] (I : Iter σ ι T) (lt : T → T → Bool) (first last : ι) :
    Prog σ ι := do
  if first = last then pure last
  else do
    let first' ← I.next first
    maxLoop I lt first' last first

/-- `ttl::minmax_element`, algorithm.hpp:720-725. -/
def minmaxElement [DecidableEq ι] (I : Iter σ ι T) (lt : T → T → Bool) (first last : ι) :
    Prog σ (ι × ι) := do
  let a ← minElement I lt first last
  let b ← maxElement I lt first last
  pure (a, b)

/-- `ttl::min`, algorithm.hpp:660-664 and 666-670: the result is the argument itself. -/
def min (lt : T → T → Bool) (a b : T) : T := if lt a b then a else b

/-- `ttl::max`, algorithm.hpp:672-676 and 678-682. -/
def max (lt : T → T → Bool) (a b : T) : T := if lt a b then b else a

/-- `ttl::minmax`, algorithm.hpp:684-688 and 690-694. -/
def minmax (lt : T → T → Bool) (a b : T) : T × T := if lt b a then (b, a) else (a, b)


end Verif.Algo
