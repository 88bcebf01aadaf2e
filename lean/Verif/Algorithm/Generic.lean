import Verif.Algorithm.ReadOnly
import Verif.Algorithm.Mutating
/-!
# Model of `ttl/algorithm.hpp` for any iterator type and for functors with state

`ReadOnly.lean` and `Mutating.lean` model the algorithms with pure predicates, and the mutating ones on pointers. Here an iterator type is
what `*i`, `*i = v`, `++i` and `--i` do in a memory, so that the iterators of the containers are covered, and a functor has a state: a call
`f(x)` returns a value and changes the state. The model functions return the state of the functor after the last call, which tells how often,
on what and in which order it was called. (C++ passes functors by value and, except `for_each`, does not return them; a functor that counts
its calls holds a reference to the counter. The state `δ` stands for what the reference refers to.)
-/
namespace Verif.Gen
open Verif
variable {σ ι κ ω T U V δ : Type}

/-- A functor with state `δ`: a call gives a result and the next state. -/
abbrev Fn (δ A B : Type) := A → δ → B × δ

/-- An iterator type: `*i` and `++i` (`Iter`), `*i = v`, `--i`. -/
structure WIter (σ ι T : Type) extends Iter σ ι T where
  assign : ι → T → Prog σ Unit
  prev : ι → Prog σ ι

/-- `ttl::find_if`, algorithm.hpp:43-50; `ttl::find`, 34-41, with `p(x)` being `x == value`. -/
def findIf [DecidableEq ι] (I : Iter σ ι T) (p : Fn δ T Bool) (first last : ι) (d : δ) : Prog σ (ι × δ) := do
  if first = last then pure (last, d)
  else do
    let x ← I.deref first
    let r := p x d
    if r.1 then pure (first, r.2)
    else findIf I p (← I.next first) last r.2
partial_fixpoint

/-- `ttl::find_if_not`, algorithm.hpp:52-59. -/
def findIfNot [DecidableEq ι] (I : Iter σ ι T) (p : Fn δ T Bool) (first last : ι) (d : δ) : Prog σ (ι × δ) := do
  if first = last then pure (last, d)
  else do
    let x ← I.deref first
    let r := p x d
    if !r.1 then pure (first, r.2)
    else findIfNot I p (← I.next first) last r.2
partial_fixpoint

/-- `ttl::all_of`, algorithm.hpp:175-179. -/
def allOf [DecidableEq ι] (I : Iter σ ι T) (p : Fn δ T Bool) (first last : ι) (d : δ) : Prog σ (Bool × δ) := do
  let r ← findIfNot I p first last d
  pure (decide (r.1 = last), r.2)

/-- `ttl::any_of`, algorithm.hpp:181-185. -/
def anyOf [DecidableEq ι] (I : Iter σ ι T) (p : Fn δ T Bool) (first last : ι) (d : δ) : Prog σ (Bool × δ) := do
  let r ← findIf I p first last d
  pure (decide (r.1 ≠ last), r.2)

/-- `ttl::none_of`, algorithm.hpp:187-191. -/
def noneOf [DecidableEq ι] (I : Iter σ ι T) (p : Fn δ T Bool) (first last : ι) (d : δ) : Prog σ (Bool × δ) := do
  let r ← findIf I p first last d
  pure (decide (r.1 = last), r.2)

/-- Loop of `ttl::count_if`, algorithm.hpp:169-171 (and of `ttl::count`, 159-161). -/
def countLoop [DecidableEq ι] (I : Iter σ ι T) (p : Fn δ T Bool) (first last : ι) (c : Int) (d : δ) : Prog σ (Int × δ) := do
  if first = last then pure (c, d)
  else do
    let x ← I.deref first
    let r := p x d
    let c' ← if r.1 then Algo.incInt c else pure c
    countLoop I p (← I.next first) last c' r.2
partial_fixpoint

/-- `ttl::count_if`, algorithm.hpp:165-173. -/
def countIf [DecidableEq ι] (I : Iter σ ι T) (p : Fn δ T Bool) (first last : ι) (d : δ) : Prog σ (Int × δ) := countLoop I p first last 0 d

/-- `ttl::equal` with two ranges, algorithm.hpp:238-245 and 247-254. -/
def equal4 [DecidableEq ι] [DecidableEq κ] (I : Iter σ ι T) (J : Iter σ κ U) (pred : Fn δ (T × U) Bool) (first1 last1 : ι) (first2 last2 : κ)
    (d : δ) : Prog σ (Bool × δ) := do
  if first1 ≠ last1 ∧ first2 ≠ last2 then do
    let x ← I.deref first1
    let y ← J.deref first2
    let r := pred (x, y) d
    if !r.1 then pure (false, r.2)
    else do
      let f1 ← I.next first1
      let f2 ← J.next first2
      equal4 I J pred f1 last1 f2 last2 r.2
  else pure (decide (first1 = last1 ∧ first2 = last2), d)
partial_fixpoint

/-- `swap(*a, *b)`, utility.hpp:39-45, as in `ttl::iter_swap`, algorithm.hpp:300-304. -/
def iterSwap (I : WIter σ ι T) (J : WIter σ κ T) (a : ι) (b : κ) : Prog σ Unit := do
  let tmp ← I.deref a
  let y ← J.deref b
  I.assign a y
  J.assign b tmp

/-- `ttl::swap_ranges`, algorithm.hpp:306-312. -/
def swapRanges [DecidableEq ι] (I : WIter σ ι T) (J : WIter σ κ T) (first1 last1 : ι) (first2 : κ) : Prog σ κ := do
  if first1 = last1 then pure first2
  else do
    iterSwap I J first1 first2
    let f1 ← I.next first1
    let f2 ← J.next first2
    swapRanges I J f1 last1 f2
partial_fixpoint

/-- `ttl::fill`, algorithm.hpp:314-319. -/
def fill [DecidableEq ι] (I : WIter σ ι T) (first last : ι) (value : T) : Prog σ Unit := do
  if first = last then pure ()
  else do
    I.assign first value
    fill I (← I.next first) last value
partial_fixpoint

/-- `ttl::fill_n`, algorithm.hpp:321-327. -/
def fillN (I : WIter σ ι T) (first : ι) (count : Int) (value : T) : Prog σ ι := do
  if count > 0 then do
    I.assign first value
    fillN I (← I.next first) (count - 1) value
  else pure first
partial_fixpoint

/-- `ttl::copy`, algorithm.hpp:329-338. -/
def copy [DecidableEq ι] (I : Iter σ ι T) (J : WIter σ κ T) (first last : ι) (d_first : κ) : Prog σ κ := do
  if first = last then pure d_first
  else do
    let x ← I.deref first
    J.assign d_first x
    let e ← J.next d_first
    copy I J (← I.next first) last e
partial_fixpoint

/-- `ttl::copy_if`, algorithm.hpp:340-350. -/
def copyIf [DecidableEq ι] (I : Iter σ ι T) (J : WIter σ κ T) (p : Fn δ T Bool) (first last : ι) (d_first : κ) (d : δ) : Prog σ (κ × δ) := do
  if first = last then pure (d_first, d)
  else do
    let x ← I.deref first
    let r := p x d
    if r.1 then do
      let y ← I.deref first
      J.assign d_first y
      let e ← J.next d_first
      copyIf I J p (← I.next first) last e r.2
    else copyIf I J p (← I.next first) last d_first r.2
partial_fixpoint

/-- `ttl::copy_n`, algorithm.hpp:352-358. -/
def copyN (I : Iter σ ι T) (J : WIter σ κ T) (first : ι) (count : Int) (result : κ) : Prog σ κ := do
  if count > 0 then do
    let x ← I.deref first
    J.assign result x
    let f ← I.next first
    copyN I J f (count - 1) (← J.next result)
  else pure result
partial_fixpoint

/-- `ttl::copy_backward`, algorithm.hpp:360-366. -/
def copyBackward [DecidableEq ι] (I : WIter σ ι T) (J : WIter σ κ T) (first last : ι) (d_last : κ) : Prog σ κ := do
  if first = last then pure d_last
  else do
    let l ← I.prev last
    let e ← J.prev d_last
    let x ← I.deref l
    J.assign e x
    copyBackward I J first l e
partial_fixpoint

/-- `ttl::generate`, algorithm.hpp:368-373. -/
def generate [DecidableEq ι] (I : WIter σ ι T) (g : Fn δ Unit T) (first last : ι) (d : δ) : Prog σ δ := do
  if first = last then pure d
  else do
    let r := g () d
    I.assign first r.1
    generate I g (← I.next first) last r.2
partial_fixpoint

/-- `ttl::generate_n`, algorithm.hpp:375-381. -/
def generateN (I : WIter σ ι T) (g : Fn δ Unit T) (first : ι) (count : Int) (d : δ) : Prog σ (ι × δ) := do
  if count > 0 then do
    let r := g () d
    I.assign first r.1
    generateN I g (← I.next first) (count - 1) r.2
  else pure (first, d)
partial_fixpoint

/-- `ttl::replace_if`, algorithm.hpp:391-397; `ttl::replace`, 383-389, with `p(x)` being `x == oldval`. -/
def replaceIf [DecidableEq ι] (I : WIter σ ι T) (p : Fn δ T Bool) (newval : T) (first last : ι) (d : δ) : Prog σ δ := do
  if first = last then pure d
  else do
    let x ← I.deref first
    let r := p x d
    if r.1 then do
      I.assign first newval
      replaceIf I p newval (← I.next first) last r.2
    else replaceIf I p newval (← I.next first) last r.2
partial_fixpoint

/-- `ttl::replace_copy_if`, algorithm.hpp:407-413; `ttl::replace_copy`, 399-405, with `p(x)` being `x == oldval`. -/
def replaceCopyIf [DecidableEq ι] (I : Iter σ ι T) (J : WIter σ κ T) (p : Fn δ T Bool) (newval : T) (first last : ι) (d_first : κ) (d : δ) :
    Prog σ (κ × δ) := do
  if first = last then pure (d_first, d)
  else do
    let x ← I.deref first
    let r := p x d
    if r.1 then do
      J.assign d_first newval
      let f ← I.next first
      replaceCopyIf I J p newval f last (← J.next d_first) r.2
    else do
      let y ← I.deref first
      J.assign d_first y
      let f ← I.next first
      replaceCopyIf I J p newval f last (← J.next d_first) r.2
partial_fixpoint

/-- `ttl::remove_copy_if`, algorithm.hpp:427-437; `ttl::remove_copy`, 415-425, with `p(x)` being `x == value`. -/
def removeCopyIf [DecidableEq ι] (I : Iter σ ι T) (J : WIter σ κ T) (p : Fn δ T Bool) (first last : ι) (d_first : κ) (d : δ) :
    Prog σ (κ × δ) := do
  if first = last then pure (d_first, d)
  else do
    let x ← I.deref first
    let r := p x d
    if !r.1 then do
      let y ← I.deref first
      J.assign d_first y
      let e ← J.next d_first
      removeCopyIf I J p (← I.next first) last e r.2
    else removeCopyIf I J p (← I.next first) last d_first r.2
partial_fixpoint

/-- `x = ttl::move(*i)`: the value is taken and `*i` is left with `residue` of it (`id` if the type is copied). -/
def moveFrom (I : WIter σ ι T) (residue : T → T) (i : ι) : Prog σ T := do
  let x ← I.deref i
  I.assign i (residue x)
  pure x

/-- Loop of `ttl::remove_if`, algorithm.hpp:458-463, and of `ttl::remove`, 444-449. -/
def removeLoop [DecidableEq ι] (I : WIter σ ι T) (residue : T → T) (p : Fn δ T Bool) (first i last : ι) (d : δ) : Prog σ (ι × δ) := do
  let i ← I.next i
  if i = last then pure (first, d)
  else do
    let x ← I.deref i
    let r := p x d
    if !r.1 then do
      let y ← moveFrom I residue i
      I.assign first y
      removeLoop I residue p (← I.next first) i last r.2
    else removeLoop I residue p first i last r.2
partial_fixpoint

/-- `ttl::remove_if`, algorithm.hpp:453-465; `ttl::remove`, 439-451, with `p(x)` being `x == value`. -/
def removeIf [DecidableEq ι] (I : WIter σ ι T) (residue : T → T) (p : Fn δ T Bool) (first last : ι) (d : δ) : Prog σ (ι × δ) := do
  let r ← findIf I.toIter p first last d
  if r.1 ≠ last then removeLoop I residue p r.1 r.1 last r.2
  else pure r

/-- `ttl::transform` (unary), algorithm.hpp:467-473. -/
def transform [DecidableEq ι] (I : Iter σ ι T) (J : WIter σ κ U) (op : Fn δ T U) (first1 last1 : ι) (d_first : κ) (d : δ) : Prog σ (κ × δ) := do
  if first1 = last1 then pure (d_first, d)
  else do
    let x ← I.deref first1
    let f ← I.next first1
    let r := op x d
    J.assign d_first r.1
    transform I J op f last1 (← J.next d_first) r.2
partial_fixpoint

/-- `ttl::reverse`, algorithm.hpp:483-488. -/
def reverse [DecidableEq ι] (I : WIter σ ι T) (first last : ι) : Prog σ Unit := do
  if first = last then pure ()
  else do
    let l ← I.prev last
    if first = l then pure ()
    else do
      iterSwap I I first l
      reverse I (← I.next first) l
partial_fixpoint

/-- `ttl::reverse_copy`, algorithm.hpp:490-496. -/
def reverseCopy [DecidableEq ι] (I : WIter σ ι T) (J : WIter σ κ T) (first last : ι) (d_first : κ) : Prog σ κ := do
  if first = last then pure d_first
  else do
    let l ← I.prev last
    let x ← I.deref l
    J.assign d_first x
    reverseCopy I J first l (← J.next d_first)
partial_fixpoint

/-- `ttl::iota`, numeric.hpp:12-17; `++value` is `succ`. -/
def iota [DecidableEq ι] (I : WIter σ ι T) (succ : T → T) (first last : ι) (value : T) : Prog σ Unit := do
  if first = last then pure ()
  else do
    I.assign first value
    iota I succ (← I.next first) last (succ value)
partial_fixpoint

/-- `ttl::merge`, algorithm.hpp:636-655; the state is that of the element's `operator<`. -/
def merge [DecidableEq ι] [DecidableEq κ] (I : Iter σ ι T) (J : Iter σ κ T) (O : WIter σ ω T) (lt : Fn δ (T × T) Bool)
    (first1 last1 : ι) (first2 last2 : κ) (output : ω) (d : δ) : Prog σ (ω × δ) := do
  if first1 ≠ last1 then do
    if first2 = last2 then pure (← copy I O first1 last1 output, d)
    else do
      let y ← J.deref first2
      let x ← I.deref first1
      let r := lt (y, x) d
      if r.1 then do
        let y ← J.deref first2
        O.assign output y
        let f2 ← J.next first2
        merge I J O lt first1 last1 f2 last2 (← O.next output) r.2
      else do
        let x ← I.deref first1
        O.assign output x
        let f1 ← I.next first1
        merge I J O lt f1 last1 first2 last2 (← O.next output) r.2
  else pure (← copy J O first2 last2 output, d)
partial_fixpoint

/-- `ttl::equal`, three-iterator forms, algorithm.hpp:220-227 and 229-236. -/
def equal3 [DecidableEq ι] (I : Iter σ ι T) (J : Iter σ κ U) (pred : Fn δ (T × U) Bool) (first1 last1 : ι) (first2 : κ) (d : δ) : Prog σ (Bool × δ) := do
  if first1 = last1 then pure (true, d)
  else do
    let x ← I.deref first1
    let y ← J.deref first2
    let r := pred (x, y) d
    if !r.1 then pure (false, r.2)
    else do
      let f1 ← I.next first1
      let f2 ← J.next first2
      equal3 I J pred f1 last1 f2 r.2
partial_fixpoint

/-- `ttl::mismatch` with two ranges, algorithm.hpp:272-278 and 280-286. -/
def mismatch4 [DecidableEq ι] [DecidableEq κ] (I : Iter σ ι T) (J : Iter σ κ U) (pred : Fn δ (T × U) Bool) (first1 last1 : ι) (first2 last2 : κ)
    (d : δ) : Prog σ ((ι × κ) × δ) := do
  if first1 ≠ last1 ∧ first2 ≠ last2 then do
    let x ← I.deref first1
    let y ← J.deref first2
    let r := pred (x, y) d
    if r.1 then do
      let f1 ← I.next first1
      let f2 ← J.next first2
      mismatch4 I J pred f1 last1 f2 last2 r.2
    else pure ((first1, first2), r.2)
  else pure ((first1, first2), d)
partial_fixpoint

/-- Loop of `ttl::adjacent_find`, algorithm.hpp:201-204 and 214-217. -/
def adjacentLoop [DecidableEq ι] (I : Iter σ ι T) (p : Fn δ (T × T) Bool) (first next last : ι) (d : δ) : Prog σ (ι × δ) := do
  if next = last then pure (last, d)
  else do
    let x ← I.deref first
    let y ← I.deref next
    let r := p (x, y) d
    if r.1 then pure (first, r.2)
    else do
      let next' ← I.next next
      let first' ← I.next first
      adjacentLoop I p first' next' last r.2
partial_fixpoint

/-- `ttl::adjacent_find`, algorithm.hpp:194-205 and 207-218. -/
def adjacentFind [DecidableEq ι] (I : Iter σ ι T) (p : Fn δ (T × T) Bool) (first last : ι) (d : δ) : Prog σ (ι × δ) := do
  if first = last then pure (last, d)
  else do
    let next ← I.next first
    adjacentLoop I p first next last d

/-- `ttl::transform` (binary), algorithm.hpp:475-481. -/
def transform2 [DecidableEq ι] (I : Iter σ ι T) (J : Iter σ κ U) (O : WIter σ ω V) (op : Fn δ (T × U) V) (first1 last1 : ι) (first2 : κ)
    (d_first : ω) (d : δ) : Prog σ (ω × δ) := do
  if first1 = last1 then pure (d_first, d)
  else do
    let x ← I.deref first1
    let f1 ← I.next first1
    let y ← J.deref first2
    let f2 ← J.next first2
    let r := op (x, y) d
    O.assign d_first r.1
    transform2 I J O op f1 last1 f2 (← O.next d_first) r.2
partial_fixpoint

/-- A random access iterator type: `i + k` and `j - i` (not modelled: overflow of the difference type itself). -/
structure RIter (σ ι T : Type) extends Iter σ ι T where
  plus : ι → Nat → ι
  diff : ι → ι → Int

/-- Common loop of `ttl::lower_bound` (algorithm.hpp:505-517, 524-536) and `ttl::upper_bound` (543-555, 562-574): `go` is the condition
of the `if`. -/
def boundLoop (I : RIter σ ι T) (go : Fn δ T Bool) (first : ι) (count : Int) (d : δ) : Prog σ (ι × δ) := do
  if count > 0 then do
    let step := count.tdiv 2
    let it := I.plus first step.toNat
    let x ← I.deref it
    let r := go x d
    if r.1 then boundLoop I go (← I.next it) (count - (step + 1)) r.2
    else boundLoop I go first step r.2
  else pure (first, d)
partial_fixpoint

/-- `ttl::lower_bound`, algorithm.hpp:502-519 and 521-538: `comp(*it, value)`. -/
def lowerBound (I : RIter σ ι T) (comp : Fn δ (T × U) Bool) (first last : ι) (value : U) (d : δ) : Prog σ (ι × δ) :=
  boundLoop I (fun x d => comp (x, value) d) first (Algo.toInt32 (I.diff last first)) d

/-- `ttl::upper_bound`, algorithm.hpp:540-557 and 559-576: `!comp(value, *it)`. -/
def upperBound (I : RIter σ ι T) (comp : Fn δ (U × T) Bool) (first last : ι) (value : U) (d : δ) : Prog σ (ι × δ) :=
  boundLoop I (fun x d => (!(comp (value, x) d).1, (comp (value, x) d).2)) first (Algo.toInt32 (I.diff last first)) d

/-- `ttl::binary_search`, algorithm.hpp:578-583 and 585-590. -/
def binarySearch [DecidableEq ι] (I : RIter σ ι T) (comp : Fn δ (T × T) Bool) (first last : ι) (value : T) (d : δ) : Prog σ (Bool × δ) := do
  let r ← lowerBound I comp first last value d
  if r.1 = last then pure (false, r.2)
  else do
    let x ← I.deref r.1
    let q := comp (value, x) r.2
    pure (!q.1, q.2)

/-- `ttl::equal_range`, algorithm.hpp:592-597 and 599-604. -/
def equalRange (I : RIter σ ι T) (comp : Fn δ (T × T) Bool) (first last : ι) (value : T) (d : δ) : Prog σ ((ι × ι) × δ) := do
  let low ← lowerBound I comp first last value d
  let up ← upperBound I comp low.1 last value low.2
  pure ((low.1, up.1), up.2)

end Verif.Gen
