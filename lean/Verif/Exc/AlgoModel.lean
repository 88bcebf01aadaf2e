import Verif.Exc.Base
import Verif.Algorithm.Presents
/-!
# The algorithms when functors or assignments throw

Each definition is the one of `Verif.Algorithm.Generic` (and cites the same lines of ttl/algorithm.hpp), with a point before every call of a functor or comparison and before every assignment
or copy of an element. An assignment that throws is taken to leave its target as it was, and a functor that throws to have changed no element. Iterator operations do not throw.
-/
set_option linter.unusedVariables false
namespace Verif.Exc.XAlgo
open Verif Verif.Exc Verif.Gen
variable {σ ι κ ω T U V δ : Type}

/-- `ttl::find_if`, algorithm.hpp:43-50; `ttl::find`, 34-41, with `p(x)` being `x == value`. -/
def findIf [DecidableEq ι] (I : Iter σ ι T) (p : Fn δ T Bool) (first last : ι) (d : δ) : Thr σ (ι × δ) := do
  if first = last then pure (last, d)
  else do
    let x ← Thr.call (I.deref first)
    Thr.point
    let r := p x d
    if r.1 then pure (first, r.2)
    else findIf I p (← Thr.call (I.next first)) last r.2
partial_fixpoint

/-- `ttl::find_if_not`, algorithm.hpp:52-59. -/
def findIfNot [DecidableEq ι] (I : Iter σ ι T) (p : Fn δ T Bool) (first last : ι) (d : δ) : Thr σ (ι × δ) := do
  if first = last then pure (last, d)
  else do
    let x ← Thr.call (I.deref first)
    Thr.point
    let r := p x d
    if !r.1 then pure (first, r.2)
    else findIfNot I p (← Thr.call (I.next first)) last r.2
partial_fixpoint

/-- `ttl::all_of`, algorithm.hpp:175-179. -/
def allOf [DecidableEq ι] (I : Iter σ ι T) (p : Fn δ T Bool) (first last : ι) (d : δ) : Thr σ (Bool × δ) := do
  let r ← findIfNot I p first last d
  pure (decide (r.1 = last), r.2)

/-- `ttl::any_of`, algorithm.hpp:181-185. -/
def anyOf [DecidableEq ι] (I : Iter σ ι T) (p : Fn δ T Bool) (first last : ι) (d : δ) : Thr σ (Bool × δ) := do
  let r ← findIf I p first last d
  pure (decide (r.1 ≠ last), r.2)

/-- `ttl::none_of`, algorithm.hpp:187-191. -/
def noneOf [DecidableEq ι] (I : Iter σ ι T) (p : Fn δ T Bool) (first last : ι) (d : δ) : Thr σ (Bool × δ) := do
  let r ← findIf I p first last d
  pure (decide (r.1 = last), r.2)

/-- Loop of `ttl::count_if`, algorithm.hpp:169-171 (and of `ttl::count`, 159-161). -/
def countLoop [DecidableEq ι] (I : Iter σ ι T) (p : Fn δ T Bool) (first last : ι) (c : Int) (d : δ) : Thr σ (Int × δ) := do
  if first = last then pure (c, d)
  else do
    let x ← Thr.call (I.deref first)
    Thr.point
    let r := p x d
    let c' ← if r.1 then Thr.call (Algo.incInt c) else pure c
    countLoop I p (← Thr.call (I.next first)) last c' r.2
partial_fixpoint

/-- `ttl::count_if`, algorithm.hpp:165-173. -/
def countIf [DecidableEq ι] (I : Iter σ ι T) (p : Fn δ T Bool) (first last : ι) (d : δ) : Thr σ (Int × δ) := countLoop I p first last 0 d

/-- `ttl::equal` with two ranges, algorithm.hpp:238-245 and 247-254. -/
def equal4 [DecidableEq ι] [DecidableEq κ] (I : Iter σ ι T) (J : Iter σ κ U) (pred : Fn δ (T × U) Bool) (first1 last1 : ι) (first2 last2 : κ)
    (d : δ) : Thr σ (Bool × δ) := do
  if first1 ≠ last1 ∧ first2 ≠ last2 then do
    let x ← Thr.call (I.deref first1)
    let y ← Thr.call (J.deref first2)
    Thr.point
    let r := pred (x, y) d
    if !r.1 then pure (false, r.2)
    else do
      let f1 ← Thr.call (I.next first1)
      let f2 ← Thr.call (J.next first2)
      equal4 I J pred f1 last1 f2 last2 r.2
  else pure (decide (first1 = last1 ∧ first2 = last2), d)
partial_fixpoint

/-- `swap(*a, *b)`, utility.hpp:39-45, as in `ttl::iter_swap`, algorithm.hpp:300-304: the copy `T tmp = a` and both assignments may throw. -/
def iterSwap (I : WIter σ ι T) (J : WIter σ κ T) (a : ι) (b : κ) : Thr σ Unit := do
  let tmp ← Thr.call (I.deref a)
  Thr.point
  let y ← Thr.call (J.deref b)
  Thr.point
  Thr.call (I.assign a y)
  Thr.point
  Thr.call (J.assign b tmp)

/-- `ttl::swap_ranges`, algorithm.hpp:306-312. -/
def swapRanges [DecidableEq ι] (I : WIter σ ι T) (J : WIter σ κ T) (first1 last1 : ι) (first2 : κ) : Thr σ κ := do
  if first1 = last1 then pure first2
  else do
    iterSwap I J first1 first2
    let f1 ← Thr.call (I.next first1)
    let f2 ← Thr.call (J.next first2)
    swapRanges I J f1 last1 f2
partial_fixpoint

/-- `ttl::fill`, algorithm.hpp:314-319. -/
def fill [DecidableEq ι] (I : WIter σ ι T) (first last : ι) (value : T) : Thr σ Unit := do
  if first = last then pure ()
  else do
    Thr.point
    Thr.call (I.assign first value)
    fill I (← Thr.call (I.next first)) last value
partial_fixpoint

/-- `ttl::fill_n`, algorithm.hpp:321-327. -/
def fillN (I : WIter σ ι T) (first : ι) (count : Int) (value : T) : Thr σ ι := do
  if count > 0 then do
    Thr.point
    Thr.call (I.assign first value)
    fillN I (← Thr.call (I.next first)) (count - 1) value
  else pure first
partial_fixpoint

/-- `ttl::copy`, algorithm.hpp:329-338. -/
def copy [DecidableEq ι] (I : Iter σ ι T) (J : WIter σ κ T) (first last : ι) (d_first : κ) : Thr σ κ := do
  if first = last then pure d_first
  else do
    let x ← Thr.call (I.deref first)
    Thr.point
    Thr.call (J.assign d_first x)
    let e ← Thr.call (J.next d_first)
    copy I J (← Thr.call (I.next first)) last e
partial_fixpoint

/-- `ttl::copy_if`, algorithm.hpp:340-350. -/
def copyIf [DecidableEq ι] (I : Iter σ ι T) (J : WIter σ κ T) (p : Fn δ T Bool) (first last : ι) (d_first : κ) (d : δ) : Thr σ (κ × δ) := do
  if first = last then pure (d_first, d)
  else do
    let x ← Thr.call (I.deref first)
    Thr.point
    let r := p x d
    if r.1 then do
      let y ← Thr.call (I.deref first)
      Thr.point
      Thr.call (J.assign d_first y)
      let e ← Thr.call (J.next d_first)
      copyIf I J p (← Thr.call (I.next first)) last e r.2
    else copyIf I J p (← Thr.call (I.next first)) last d_first r.2
partial_fixpoint

/-- `ttl::copy_n`, algorithm.hpp:352-358. -/
def copyN (I : Iter σ ι T) (J : WIter σ κ T) (first : ι) (count : Int) (result : κ) : Thr σ κ := do
  if count > 0 then do
    let x ← Thr.call (I.deref first)
    Thr.point
    Thr.call (J.assign result x)
    let f ← Thr.call (I.next first)
    copyN I J f (count - 1) (← Thr.call (J.next result))
  else pure result
partial_fixpoint

/-- `ttl::copy_backward`, algorithm.hpp:360-366. -/
def copyBackward [DecidableEq ι] (I : WIter σ ι T) (J : WIter σ κ T) (first last : ι) (d_last : κ) : Thr σ κ := do
  if first = last then pure d_last
  else do
    let l ← Thr.call (I.prev last)
    let e ← Thr.call (J.prev d_last)
    let x ← Thr.call (I.deref l)
    Thr.point
    Thr.call (J.assign e x)
    copyBackward I J first l e
partial_fixpoint

/-- `ttl::generate`, algorithm.hpp:368-373. -/
def generate [DecidableEq ι] (I : WIter σ ι T) (g : Fn δ Unit T) (first last : ι) (d : δ) : Thr σ δ := do
  if first = last then pure d
  else do
    Thr.point
    let r := g () d
    Thr.point
    Thr.call (I.assign first r.1)
    generate I g (← Thr.call (I.next first)) last r.2
partial_fixpoint

/-- `ttl::generate_n`, algorithm.hpp:375-381. -/
def generateN (I : WIter σ ι T) (g : Fn δ Unit T) (first : ι) (count : Int) (d : δ) : Thr σ (ι × δ) := do
  if count > 0 then do
    Thr.point
    let r := g () d
    Thr.point
    Thr.call (I.assign first r.1)
    generateN I g (← Thr.call (I.next first)) (count - 1) r.2
  else pure (first, d)
partial_fixpoint

/-- `ttl::replace_if`, algorithm.hpp:391-397; `ttl::replace`, 383-389, with `p(x)` being `x == oldval`. -/
def replaceIf [DecidableEq ι] (I : WIter σ ι T) (p : Fn δ T Bool) (newval : T) (first last : ι) (d : δ) : Thr σ δ := do
  if first = last then pure d
  else do
    let x ← Thr.call (I.deref first)
    Thr.point
    let r := p x d
    if r.1 then do
      Thr.point
      Thr.call (I.assign first newval)
      replaceIf I p newval (← Thr.call (I.next first)) last r.2
    else replaceIf I p newval (← Thr.call (I.next first)) last r.2
partial_fixpoint

/-- `ttl::replace_copy_if`, algorithm.hpp:407-413; `ttl::replace_copy`, 399-405, with `p(x)` being `x == oldval`. -/
def replaceCopyIf [DecidableEq ι] (I : Iter σ ι T) (J : WIter σ κ T) (p : Fn δ T Bool) (newval : T) (first last : ι) (d_first : κ) (d : δ) :
    Thr σ (κ × δ) := do
  if first = last then pure (d_first, d)
  else do
    let x ← Thr.call (I.deref first)
    Thr.point
    let r := p x d
    if r.1 then do
      Thr.point
      Thr.call (J.assign d_first newval)
      let f ← Thr.call (I.next first)
      replaceCopyIf I J p newval f last (← Thr.call (J.next d_first)) r.2
    else do
      let y ← Thr.call (I.deref first)
      Thr.point
      Thr.call (J.assign d_first y)
      let f ← Thr.call (I.next first)
      replaceCopyIf I J p newval f last (← Thr.call (J.next d_first)) r.2
partial_fixpoint

/-- `ttl::remove_copy_if`, algorithm.hpp:427-437; `ttl::remove_copy`, 415-425, with `p(x)` being `x == value`. -/
def removeCopyIf [DecidableEq ι] (I : Iter σ ι T) (J : WIter σ κ T) (p : Fn δ T Bool) (first last : ι) (d_first : κ) (d : δ) :
    Thr σ (κ × δ) := do
  if first = last then pure (d_first, d)
  else do
    let x ← Thr.call (I.deref first)
    Thr.point
    let r := p x d
    if !r.1 then do
      let y ← Thr.call (I.deref first)
      Thr.point
      Thr.call (J.assign d_first y)
      let e ← Thr.call (J.next d_first)
      removeCopyIf I J p (← Thr.call (I.next first)) last e r.2
    else removeCopyIf I J p (← Thr.call (I.next first)) last d_first r.2
partial_fixpoint

/-- Loop of `ttl::remove_if`, algorithm.hpp:458-463, and of `ttl::remove`, 444-449. The move assignment `*first = ttl::move(*i)` throws before it takes anything. -/
def removeLoop [DecidableEq ι] (I : WIter σ ι T) (residue : T → T) (p : Fn δ T Bool) (first i last : ι) (d : δ) : Thr σ (ι × δ) := do
  let i ← Thr.call (I.next i)
  if i = last then pure (first, d)
  else do
    let x ← Thr.call (I.deref i)
    Thr.point
    let r := p x d
    if !r.1 then do
      Thr.point
      let y ← Thr.call (moveFrom I residue i)
      Thr.call (I.assign first y)
      removeLoop I residue p (← Thr.call (I.next first)) i last r.2
    else removeLoop I residue p first i last r.2
partial_fixpoint

/-- `ttl::remove_if`, algorithm.hpp:453-465; `ttl::remove`, 439-451, with `p(x)` being `x == value`. -/
def removeIf [DecidableEq ι] (I : WIter σ ι T) (residue : T → T) (p : Fn δ T Bool) (first last : ι) (d : δ) : Thr σ (ι × δ) := do
  let r ← findIf I.toIter p first last d
  if r.1 ≠ last then removeLoop I residue p r.1 r.1 last r.2
  else pure r

/-- `ttl::transform` (unary), algorithm.hpp:467-473. -/
def transform [DecidableEq ι] (I : Iter σ ι T) (J : WIter σ κ U) (op : Fn δ T U) (first1 last1 : ι) (d_first : κ) (d : δ) : Thr σ (κ × δ) := do
  if first1 = last1 then pure (d_first, d)
  else do
    let x ← Thr.call (I.deref first1)
    let f ← Thr.call (I.next first1)
    Thr.point
    let r := op x d
    Thr.point
    Thr.call (J.assign d_first r.1)
    transform I J op f last1 (← Thr.call (J.next d_first)) r.2
partial_fixpoint

/-- `ttl::reverse`, algorithm.hpp:483-488. -/
def reverse [DecidableEq ι] (I : WIter σ ι T) (first last : ι) : Thr σ Unit := do
  if first = last then pure ()
  else do
    let l ← Thr.call (I.prev last)
    if first = l then pure ()
    else do
      iterSwap I I first l
      reverse I (← Thr.call (I.next first)) l
partial_fixpoint

/-- `ttl::reverse_copy`, algorithm.hpp:490-496. -/
def reverseCopy [DecidableEq ι] (I : WIter σ ι T) (J : WIter σ κ T) (first last : ι) (d_first : κ) : Thr σ κ := do
  if first = last then pure d_first
  else do
    let l ← Thr.call (I.prev last)
    let x ← Thr.call (I.deref l)
    Thr.point
    Thr.call (J.assign d_first x)
    reverseCopy I J first l (← Thr.call (J.next d_first))
partial_fixpoint

/-- `ttl::iota`, numeric.hpp:12-17; `++value` is `succ`, and may throw, too. -/
def iota [DecidableEq ι] (I : WIter σ ι T) (succ : T → T) (first last : ι) (value : T) : Thr σ Unit := do
  if first = last then pure ()
  else do
    Thr.point
    Thr.call (I.assign first value)
    let f ← Thr.call (I.next first)
    Thr.point
    iota I succ f last (succ value)
partial_fixpoint

/-- `ttl::merge`, algorithm.hpp:636-655; the state is that of the element's `operator<`. -/
def merge [DecidableEq ι] [DecidableEq κ] (I : Iter σ ι T) (J : Iter σ κ T) (O : WIter σ ω T) (lt : Fn δ (T × T) Bool)
    (first1 last1 : ι) (first2 last2 : κ) (output : ω) (d : δ) : Thr σ (ω × δ) := do
  if first1 ≠ last1 then do
    if first2 = last2 then pure (← copy I O first1 last1 output, d)
    else do
      let y ← Thr.call (J.deref first2)
      let x ← Thr.call (I.deref first1)
      Thr.point
      let r := lt (y, x) d
      if r.1 then do
        let y ← Thr.call (J.deref first2)
        Thr.point
        Thr.call (O.assign output y)
        let f2 ← Thr.call (J.next first2)
        merge I J O lt first1 last1 f2 last2 (← Thr.call (O.next output)) r.2
      else do
        let x ← Thr.call (I.deref first1)
        Thr.point
        Thr.call (O.assign output x)
        let f1 ← Thr.call (I.next first1)
        merge I J O lt f1 last1 first2 last2 (← Thr.call (O.next output)) r.2
  else pure (← copy J O first2 last2 output, d)
partial_fixpoint

/-- `ttl::equal`, three-iterator forms, algorithm.hpp:220-227 and 229-236. -/
def equal3 [DecidableEq ι] (I : Iter σ ι T) (J : Iter σ κ U) (pred : Fn δ (T × U) Bool) (first1 last1 : ι) (first2 : κ) (d : δ) : Thr σ (Bool × δ) := do
  if first1 = last1 then pure (true, d)
  else do
    let x ← Thr.call (I.deref first1)
    let y ← Thr.call (J.deref first2)
    Thr.point
    let r := pred (x, y) d
    if !r.1 then pure (false, r.2)
    else do
      let f1 ← Thr.call (I.next first1)
      let f2 ← Thr.call (J.next first2)
      equal3 I J pred f1 last1 f2 r.2
partial_fixpoint

/-- `ttl::mismatch` with two ranges, algorithm.hpp:272-278 and 280-286. -/
def mismatch4 [DecidableEq ι] [DecidableEq κ] (I : Iter σ ι T) (J : Iter σ κ U) (pred : Fn δ (T × U) Bool) (first1 last1 : ι) (first2 last2 : κ)
    (d : δ) : Thr σ ((ι × κ) × δ) := do
  if first1 ≠ last1 ∧ first2 ≠ last2 then do
    let x ← Thr.call (I.deref first1)
    let y ← Thr.call (J.deref first2)
    Thr.point
    let r := pred (x, y) d
    if r.1 then do
      let f1 ← Thr.call (I.next first1)
      let f2 ← Thr.call (J.next first2)
      mismatch4 I J pred f1 last1 f2 last2 r.2
    else pure ((first1, first2), r.2)
  else pure ((first1, first2), d)
partial_fixpoint

/-- Loop of `ttl::adjacent_find`, algorithm.hpp:201-204 and 214-217. -/
def adjacentLoop [DecidableEq ι] (I : Iter σ ι T) (p : Fn δ (T × T) Bool) (first next last : ι) (d : δ) : Thr σ (ι × δ) := do
  if next = last then pure (last, d)
  else do
    let x ← Thr.call (I.deref first)
    let y ← Thr.call (I.deref next)
    Thr.point
    let r := p (x, y) d
    if r.1 then pure (first, r.2)
    else do
      let next' ← Thr.call (I.next next)
      let first' ← Thr.call (I.next first)
      adjacentLoop I p first' next' last r.2
partial_fixpoint

/-- `ttl::adjacent_find`, algorithm.hpp:194-205 and 207-218. -/
def adjacentFind [DecidableEq ι] (I : Iter σ ι T) (p : Fn δ (T × T) Bool) (first last : ι) (d : δ) : Thr σ (ι × δ) := do
  if first = last then pure (last, d)
  else do
    let next ← Thr.call (I.next first)
    adjacentLoop I p first next last d

/-- `ttl::transform` (binary), algorithm.hpp:475-481. -/
def transform2 [DecidableEq ι] (I : Iter σ ι T) (J : Iter σ κ U) (O : WIter σ ω V) (op : Fn δ (T × U) V) (first1 last1 : ι) (first2 : κ)
    (d_first : ω) (d : δ) : Thr σ (ω × δ) := do
  if first1 = last1 then pure (d_first, d)
  else do
    let x ← Thr.call (I.deref first1)
    let f1 ← Thr.call (I.next first1)
    let y ← Thr.call (J.deref first2)
    let f2 ← Thr.call (J.next first2)
    Thr.point
    let r := op (x, y) d
    Thr.point
    Thr.call (O.assign d_first r.1)
    transform2 I J O op f1 last1 f2 (← Thr.call (O.next d_first)) r.2
partial_fixpoint

/-- Common loop of `ttl::lower_bound` (algorithm.hpp:505-517, 524-536) and `ttl::upper_bound` (543-555, 562-574): `go` is the condition
of the `if`. -/
def boundLoop (I : RIter σ ι T) (go : Fn δ T Bool) (first : ι) (count : Int) (d : δ) : Thr σ (ι × δ) := do
  if count > 0 then do
    let step := count.tdiv 2
    let it := I.plus first step.toNat
    let x ← Thr.call (I.deref it)
    Thr.point
    let r := go x d
    if r.1 then boundLoop I go (← Thr.call (I.next it)) (count - (step + 1)) r.2
    else boundLoop I go first step r.2
  else pure (first, d)
partial_fixpoint

/-- `ttl::lower_bound`, algorithm.hpp:502-519 and 521-538: `comp(*it, value)`. -/
def lowerBound (I : RIter σ ι T) (comp : Fn δ (T × U) Bool) (first last : ι) (value : U) (d : δ) : Thr σ (ι × δ) :=
  boundLoop I (fun x d => comp (x, value) d) first (Algo.toInt32 (I.diff last first)) d

/-- `ttl::upper_bound`, algorithm.hpp:540-557 and 559-576: `!comp(value, *it)`. -/
def upperBound (I : RIter σ ι T) (comp : Fn δ (U × T) Bool) (first last : ι) (value : U) (d : δ) : Thr σ (ι × δ) :=
  boundLoop I (fun x d => (!(comp (value, x) d).1, (comp (value, x) d).2)) first (Algo.toInt32 (I.diff last first)) d

/-- `ttl::binary_search`, algorithm.hpp:578-583 and 585-590. -/
def binarySearch [DecidableEq ι] (I : RIter σ ι T) (comp : Fn δ (T × T) Bool) (first last : ι) (value : T) (d : δ) : Thr σ (Bool × δ) := do
  let r ← lowerBound I comp first last value d
  if r.1 = last then pure (false, r.2)
  else do
    let x ← Thr.call (I.deref r.1)
    Thr.point
    let q := comp (value, x) r.2
    pure (!q.1, q.2)

/-- `ttl::equal_range`, algorithm.hpp:592-597 and 599-604. -/
def equalRange (I : RIter σ ι T) (comp : Fn δ (T × T) Bool) (first last : ι) (value : T) (d : δ) : Thr σ ((ι × ι) × δ) := do
  let low ← lowerBound I comp first last value d
  let up ← upperBound I comp low.1 last value low.2
  pure ((low.1, up.1), up.2)

/-- `ttl::for_each`, algorithm.hpp:288-294. -/
def forEach [DecidableEq ι] (I : Iter σ ι T) (step : T → δ → δ) (first last : ι) (f : δ) : Thr σ δ := do
  if first = last then pure f
  else do
    let x ← Thr.call (I.deref first)
    Thr.point
    let first' ← Thr.call (I.next first)
    forEach I step first' last (step x f)
partial_fixpoint

/-- `ttl::accumulate`, numeric.hpp:19-25: `+` and the assignment to the local sum may throw. -/
def accumulate [DecidableEq ι] (I : Iter σ ι T) (add : U → T → U) (first last : ι) (value : U) : Thr σ U := do
  if first = last then pure value
  else do
    let x ← Thr.call (I.deref first)
    Thr.point
    Thr.point
    let first' ← Thr.call (I.next first)
    accumulate I add first' last (add value x)
partial_fixpoint

end Verif.Exc.XAlgo
