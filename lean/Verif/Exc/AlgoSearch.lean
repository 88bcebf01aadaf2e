import Verif.Exc.AlgoProps
import Verif.Algorithm.ReadOnlyProps2
import Verif.Algorithm.OnContainers
/-!
# Searching, testing for order and extrema: number of comparisons, and comparisons that throw

The definitions are those of `Verif.Algorithm.ReadOnly` (and cite the same lines of ttl/algorithm.hpp) with a point before every comparison; iterator operations do not throw, and the comparison
is a function of its arguments (no state, as in `Verif.Algorithm.ReadOnly`).
-/
set_option linter.unusedVariables false
set_option linter.unusedSimpArgs false
set_option linter.unusedSectionVars false
namespace Verif.Exc.XAlgo
open Verif Verif.Exc
variable {σ ι κ T U : Type}

/-- Inner loop of `ttl::search`, algorithm.hpp:69-78 and 91-100. -/
def searchInner [DecidableEq ι] [DecidableEq κ] (I : Iter σ ι T) (J : Iter σ κ U) (pred : T → U → Bool) (i last : ι) (s sublast : κ) : Thr σ Algo.SearchStep := do
  if s = sublast then pure .found
  else if i = last then pure .exhausted
  else do
    let x ← Thr.call (I.deref i)
    let y ← Thr.call (J.deref s)
    Thr.point
    if !pred x y then pure .miss
    else do
      let i' ← Thr.call (I.next i)
      let s' ← Thr.call (J.next s)
      searchInner I J pred i' last s' sublast
partial_fixpoint

/-- `ttl::search`, algorithm.hpp:61-81 (`pred` is `==`) and 83-103. -/
def search [DecidableEq ι] [DecidableEq κ] (I : Iter σ ι T) (J : Iter σ κ U) (pred : T → U → Bool) (first last : ι) (subfirst sublast : κ) : Thr σ ι := do
  let r ← searchInner I J pred first last subfirst sublast
  match r with
  | .found => pure first
  | .exhausted => pure last
  | .miss => do
    let first' ← Thr.call (I.next first)
    search I J pred first' last subfirst sublast
partial_fixpoint

/-- Inner loop of `ttl::search_n`, algorithm.hpp:116-124 and 141-149; `c` counts up to `count`. -/
def searchNInner [DecidableEq ι] (I : Iter σ ι T) (m : T → Bool) (first last : ι) (c count : Int) : Thr σ (Algo.RunStep ι) := do
  if c = count then pure .complete
  else do
    let first' ← Thr.call (I.next first)
    if first' = last then pure .ended
    else do
      let x ← Thr.call (I.deref first')
      Thr.point
      if !m x then pure (.broke first')
      else searchNInner I m first' last (c + 1) count
partial_fixpoint

/-- Outer loop of `ttl::search_n`, algorithm.hpp:112-127 and 137-152; `m0` tests the first element of a candidate, `m` the following ones. -/
def searchNOuter [DecidableEq ι] (I : Iter σ ι T) (m0 m : T → Bool) (first last : ι) (count : Int) : Thr σ ι := do
  if first = last then pure last
  else do
    let x ← Thr.call (I.deref first)
    Thr.point
    if m0 x then do
      let r ← searchNInner I m first last 1 count
      match r with
      | .complete => pure first
      | .ended => pure last
      | .broke f => do
        let f' ← Thr.call (I.next f)
        searchNOuter I m0 m f' last count
    else do
      let f' ← Thr.call (I.next first)
      searchNOuter I m0 m f' last count
partial_fixpoint

/-- `ttl::search_n` without predicate, algorithm.hpp:105-128. -/
def searchN [DecidableEq ι] (I : Iter σ ι T) (eq : T → U → Bool) (first last : ι) (count : Int) (value : U) : Thr σ ι := do
  if count ≤ 0 then pure first
  else searchNOuter I (fun x => eq x value) (fun x => eq x value) first last count

/-- `ttl::search_n` with predicate, algorithm.hpp:130-153. -/
def searchNPred [DecidableEq ι] (I : Iter σ ι T) (eq pred : T → U → Bool) (first last : ι) (count : Int) (value : U) : Thr σ ι := do
  if count ≤ 0 then pure first
  else searchNOuter I (fun x => eq x value) (fun x => pred x value) first last count

/-- Loop of `ttl::is_sorted_until`, algorithm.hpp:616-621. -/
def sortedLoop [DecidableEq ι] (I : Iter σ ι T) (lt : T → T → Bool) (first next last : ι) : Thr σ ι := do
  let next' ← Thr.call (I.next next)
  if next' = last then pure last
  else do
    let y ← Thr.call (I.deref next')
    let x ← Thr.call (I.deref first)
    Thr.point
    if lt y x then pure next'
    else sortedLoop I lt next' next' last
partial_fixpoint

/-- `ttl::is_sorted_until`, algorithm.hpp:610-624. -/
def isSortedUntil [DecidableEq ι] (I : Iter σ ι T) (lt : T → T → Bool) (first last : ι) : Thr σ ι := do
  if first ≠ last then sortedLoop I lt first first last
  else pure last

/-- `ttl::is_sorted`, algorithm.hpp:626-630. -/
def isSorted [DecidableEq ι] (I : Iter σ ι T) (lt : T → T → Bool) (first last : ι) : Thr σ Bool := do
  let r ← isSortedUntil I lt first last
  pure (decide (r = last))

/-- Loop of `ttl::min_element`, algorithm.hpp:702-704. -/
def minLoop [DecidableEq ι] (I : Iter σ ι T) (lt : T → T → Bool) (first last smallest : ι) : Thr σ ι := do
  if first = last then pure smallest
  else do
    let x ← Thr.call (I.deref first)
    let y ← Thr.call (I.deref smallest)
    Thr.point
    let smallest' := if lt x y then first else smallest
    let first' ← Thr.call (I.next first)
    minLoop I lt first' last smallest'
partial_fixpoint

/-- `ttl::min_element`, algorithm.hpp:696-706. -/
def minElement [DecidableEq ι] (I : Iter σ ι T) (lt : T → T → Bool) (first last : ι) : Thr σ ι := do
  if first = last then pure last
  else do
    let first' ← Thr.call (I.next first)
    minLoop I lt first' last first

/-- Loop of `ttl::max_element`, algorithm.hpp:714-716. -/
def maxLoop [DecidableEq ι] (I : Iter σ ι T) (lt : T → T → Bool) (first last largest : ι) : Thr σ ι := do
  if first = last then pure largest
  else do
    let y ← Thr.call (I.deref largest)
    let x ← Thr.call (I.deref first)
    Thr.point
    let largest' := if lt y x then first else largest
    let first' ← Thr.call (I.next first)
    maxLoop I lt first' last largest'
partial_fixpoint

/-- `ttl::max_element`, algorithm.hpp:708-718. -/
def maxElement [DecidableEq ι] (I : Iter σ ι T) (lt : T → T → Bool) (first last : ι) : Thr σ ι := do
  if first = last then pure last
  else do
    let first' ← Thr.call (I.next first)
    maxLoop I lt first' last first

/-- `ttl::minmax_element`, algorithm.hpp:720-725. -/
def minmaxElement [DecidableEq ι] (I : Iter σ ι T) (lt : T → T → Bool) (first last : ι) : Thr σ (ι × ι) := do
  let a ← minElement I lt first last
  let b ← maxElement I lt first last
  pure (a, b)

/-- `ttl::mismatch` with three iterators, algorithm.hpp:256-262 and 264-270. -/
def mismatch3 [DecidableEq ι] (I : Iter σ ι T) (J : Iter σ κ U) (pred : T → U → Bool) (first1 last1 : ι) (first2 : κ) : Thr σ (ι × κ) := do
  if first1 = last1 then pure (first1, first2)
  else do
    let x ← Thr.call (I.deref first1)
    let y ← Thr.call (J.deref first2)
    Thr.point
    if pred x y then do
      let f1 ← Thr.call (I.next first1)
      let f2 ← Thr.call (J.next first2)
      mismatch3 I J pred f1 last1 f2
    else pure (first1, first2)
partial_fixpoint
end Verif.Exc.XAlgo
