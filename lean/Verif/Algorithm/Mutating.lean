import Verif.Algorithm.Cells
import Verif.Algorithm.ReadOnly
/-!
# Model of the modifying algorithms of `ttl/algorithm.hpp` and `ttl/numeric.hpp`

Iterators are pointers into a flat memory of cells (`Mem`), so overlapping ranges can be expressed.
Simplification: `const T &value` arguments are passed by value, i.e. they do not alias the range.
`--p` of the lowest position is undefined behaviour.
-/
namespace Verif.Algo
open Verif Mem
variable {T U V : Type}

/-- `--p` -/
def decr (p : Nat) : Prog (Mem T) Nat := do
  Prog.need (0 < p) .access
  pure (p - 1)

/-- `x = ttl::move(*p)`: the value is taken, and the source is left holding `residue` of it
(an arbitrary function: move leaves the source in an unspecified state; for a copy it is `id`). -/
def moveFrom (residue : T → T) (p : Nat) : Prog (Mem T) T := do
  let x ← load p
  store p (residue x)
  pure x

/-- `ttl::swap(T&, T&)`, utility.hpp:39-45, on two cells. -/
def swap (a b : Nat) : Prog (Mem T) Unit := do
  let tmp ← load a
  let y ← load b
  store a y
  store b tmp

/-- `ttl::iter_swap`, algorithm.hpp:300-304. -/
def iterSwap (a b : Nat) : Prog (Mem T) Unit := swap a b

/-- `ttl::swap_ranges`, algorithm.hpp:306-312. -/
def swapRanges (first1 last1 first2 : Nat) : Prog (Mem T) Nat := do
  if first1 = last1 then pure first2
  else do
    iterSwap first1 first2
    swapRanges (first1 + 1) last1 (first2 + 1)
partial_fixpoint

/-- `ttl::fill`, algorithm.hpp:314-319. -/
def fill (first last : Nat) (value : T) : Prog (Mem T) Unit := do
  if first = last then pure ()
  else do
    store first value
    fill (first + 1) last value
partial_fixpoint

/-- `ttl::fill_n`, algorithm.hpp:321-327. -/
def fillN (first : Nat) (count : Int) (value : T) : Prog (Mem T) Nat := do
  if count > 0 then do
    store first value
    fillN (first + 1) (count - 1) value
  else pure first
partial_fixpoint

/-- `ttl::copy`, algorithm.hpp:329-338. -/
def copy (first last d_first : Nat) : Prog (Mem T) Nat := do
  if first = last then pure d_first
  else do
    let x ← load first
    store d_first x
    copy (first + 1) last (d_first + 1)
partial_fixpoint

/-- `ttl::copy_if`, algorithm.hpp:340-350. -/
def copyIf (pred : T → Bool) (first last d_first : Nat) : Prog (Mem T) Nat := do
  if first = last then pure d_first
  else do
    let x ← load first
    if pred x then do
      let y ← load first
      store d_first y
      copyIf pred (first + 1) last (d_first + 1)
    else copyIf pred (first + 1) last d_first
partial_fixpoint

/-- `ttl::copy_n`, algorithm.hpp:352-358. -/
def copyN (first : Nat) (count : Int) (result : Nat) : Prog (Mem T) Nat := do
  if count > 0 then do
    let x ← load first
    store result x
    copyN (first + 1) (count - 1) (result + 1)
  else pure result
partial_fixpoint

/-- `ttl::copy_backward`, algorithm.hpp:360-366. -/
def copyBackward (first last d_last : Nat) : Prog (Mem T) Nat := do
  if first = last then pure d_last
  else do
    let last' ← decr last
    let d' ← decr d_last
    let x ← load last'
    store d' x
    copyBackward first last' d'
partial_fixpoint

/-- `ttl::generate`, algorithm.hpp:368-373; the generator's state is `δ`. -/
def generate {δ : Type} (g : δ → T × δ) (first last : Nat) (d : δ) : Prog (Mem T) Unit := do
  if first = last then pure ()
  else do
    let r := g d
    store first r.1
    generate g (first + 1) last r.2
partial_fixpoint

/-- `ttl::generate_n`, algorithm.hpp:375-381. -/
def generateN {δ : Type} (g : δ → T × δ) (first : Nat) (count : Int) (d : δ) :
    Prog (Mem T) Nat := do
  if count > 0 then do
    let r := g d
    store first r.1
    generateN g (first + 1) (count - 1) r.2
  else pure first
partial_fixpoint

/-- `ttl::replace_if`, algorithm.hpp:391-397; `ttl::replace`, 383-389, has `*first == oldval` as
the test. -/
def replaceIf (p : T → Bool) (newval : T) (first last : Nat) : Prog (Mem T) Unit := do
  if first = last then pure ()
  else do
    let x ← load first
    if p x then do
      store first newval
      replaceIf p newval (first + 1) last
    else replaceIf p newval (first + 1) last
partial_fixpoint

/-- `ttl::replace`, algorithm.hpp:383-389. -/
def replace (eq : T → T → Bool) (oldval newval : T) (first last : Nat) : Prog (Mem T) Unit :=
  replaceIf (fun x => eq x oldval) newval first last

/-- `ttl::replace_copy_if`, algorithm.hpp:407-413; `ttl::replace_copy`, 399-405, has
`*first == oldval` as the test. -/
def replaceCopyIf (p : T → Bool) (newval : T) (first last d_first : Nat) : Prog (Mem T) Nat := do
  if first = last then pure d_first
  else do
    let x ← load first
    store d_first (if p x then newval else x)
    replaceCopyIf p newval (first + 1) last (d_first + 1)
partial_fixpoint

/-- `ttl::replace_copy`, algorithm.hpp:399-405. -/
def replaceCopy (eq : T → T → Bool) (oldval newval : T) (first last d_first : Nat) :
    Prog (Mem T) Nat :=
  replaceCopyIf (fun x => eq x oldval) newval first last d_first

/-- `ttl::remove_copy_if`, algorithm.hpp:427-437; `ttl::remove_copy`, 415-425, has
`*first == value` as the test. -/
def removeCopyIf (p : T → Bool) (first last d_first : Nat) : Prog (Mem T) Nat := do
  if first = last then pure d_first
  else do
    let x ← load first
    if !p x then do
      let y ← load first
      store d_first y
      removeCopyIf p (first + 1) last (d_first + 1)
    else removeCopyIf p (first + 1) last d_first
partial_fixpoint

/-- `ttl::remove_copy`, algorithm.hpp:415-425. -/
def removeCopy (eq : T → T → Bool) (value : T) (first last d_first : Nat) : Prog (Mem T) Nat :=
  removeCopyIf (fun x => eq x value) first last d_first

/-- Loop of `ttl::remove_if`, algorithm.hpp:458-463, and of `ttl::remove`, 444-449. -/
def removeLoop (residue : T → T) (p : T → Bool) (first i last : Nat) : Prog (Mem T) Nat := do
  let i' := i + 1
  if i' = last then pure first
  else do
    let x ← load i'
    if !p x then do
      let y ← moveFrom residue i'
      store first y
      removeLoop residue p (first + 1) i' last
    else removeLoop residue p first i' last
partial_fixpoint

/-- `ttl::remove_if`, algorithm.hpp:453-465. -/
def removeIf (residue : T → T) (p : T → Bool) (first last : Nat) : Prog (Mem T) Nat := do
  let first' ← findIf Mem.ptr p first last
  if first' ≠ last then removeLoop residue p first' first' last
  else pure first'

/-- `ttl::remove`, algorithm.hpp:439-451. -/
def remove (residue : T → T) (eq : T → T → Bool) (value : T) (first last : Nat) :
    Prog (Mem T) Nat := do
  let first' ← find Mem.ptr eq first last value
  if first' ≠ last then removeLoop residue (fun x => eq x value) first' first' last
  else pure first'

/-- `ttl::transform` (unary), algorithm.hpp:467-473. -/
def transform (op : T → T) (first1 last1 d_first : Nat) : Prog (Mem T) Nat := do
  if first1 = last1 then pure d_first
  else do
    let x ← load first1
    store d_first (op x)
    transform op (first1 + 1) last1 (d_first + 1)
partial_fixpoint

/-- `ttl::transform` (binary), algorithm.hpp:475-481. -/
def transform2 (op : T → T → T) (first1 last1 first2 d_first : Nat) : Prog (Mem T) Nat := do
  if first1 = last1 then pure d_first
  else do
    let x ← load first1
    let y ← load first2
    store d_first (op x y)
    transform2 op (first1 + 1) last1 (first2 + 1) (d_first + 1)
partial_fixpoint

/-- `ttl::reverse`, algorithm.hpp:483-488. -/
def reverse (first last : Nat) : Prog (Mem T) Unit := do
  if first = last then pure ()
  else do
    let last' ← decr last
    if first = last' then pure ()
    else do
      swap first last'
      reverse (first + 1) last'
partial_fixpoint

/-- `ttl::reverse_copy`, algorithm.hpp:490-496. -/
def reverseCopy (first last d_first : Nat) : Prog (Mem T) Nat := do
  if first = last then pure d_first
  else do
    let last' ← decr last
    let x ← load last'
    store d_first x
    reverseCopy first last' (d_first + 1)
partial_fixpoint

/-- Conversion of a pointer difference to `int` (two's complement wrap-around). -/
def toInt32 (z : Int) : Int := z.bmod 4294967296

/-- Common loop of `ttl::lower_bound` (algorithm.hpp:505-517, 524-536) and `ttl::upper_bound`
(543-555, 562-574): `go x` is the condition of the `if`. -/
def boundLoop (go : T → Bool) (first : Nat) (count : Int) : Prog (Mem T) Nat := do
  if count > 0 then do
    let step := count.tdiv 2
    let it := first + step.toNat
    let x ← load it
    if go x then boundLoop go (it + 1) (count - (step + 1))
    else boundLoop go first step
  else pure first
partial_fixpoint

/-- `ttl::lower_bound`, algorithm.hpp:502-519 and 521-538. -/
def lowerBound (lt : T → U → Bool) (first last : Nat) (value : U) : Prog (Mem T) Nat :=
  boundLoop (fun x => lt x value) first (toInt32 ((last : Int) - first))

/-- `ttl::upper_bound`, algorithm.hpp:540-557 and 559-576. -/
def upperBound (lt : U → T → Bool) (first last : Nat) (value : U) : Prog (Mem T) Nat :=
  boundLoop (fun x => !lt value x) first (toInt32 ((last : Int) - first))

/-- `ttl::binary_search`, algorithm.hpp:578-583 and 585-590. -/
def binarySearch (lt : T → U → Bool) (lt' : U → T → Bool) (first last : Nat) (value : U) :
    Prog (Mem T) Bool := do
  let first' ← lowerBound lt first last value
  if first' = last then pure false
  else do
    let x ← load first'
    pure (!lt' value x)

/-- `ttl::equal_range`, algorithm.hpp:592-597 and 599-604. -/
def equalRange (lt : T → U → Bool) (lt' : U → T → Bool) (first last : Nat) (value : U) :
    Prog (Mem T) (Nat × Nat) := do
  let low ← lowerBound lt first last value
  let up ← upperBound lt' low last value
  pure (low, up)

/-- `ttl::merge`, algorithm.hpp:636-655. -/
def merge (lt : T → T → Bool) (first1 last1 first2 last2 output : Nat) : Prog (Mem T) Nat := do
  if first1 ≠ last1 then do
    if first2 = last2 then copy first1 last1 output
    else do
      let y ← load first2
      let x ← load first1
      if lt y x then do
        store output y
        merge lt first1 last1 (first2 + 1) last2 (output + 1)
      else do
        store output x
        merge lt (first1 + 1) last1 first2 last2 (output + 1)
  else copy first2 last2 output
partial_fixpoint

/-- `ttl::iota`, numeric.hpp:12-17; `succ` is `++` of the value type. -/
def iota (succ : T → T) (first last : Nat) (value : T) : Prog (Mem T) Unit := do
  if first = last then pure ()
  else do
    store first value
    iota succ (first + 1) last (succ value)
partial_fixpoint

/-- `ttl::accumulate`, numeric.hpp:19-25; `add` is `+`. Any input iterator. -/
def accumulate {σ ι : Type} [DecidableEq ι] (I : Iter σ ι T) (add : U → T → U) (first last : ι)
    (value : U) : Prog σ U := do
  if first = last then pure value
  else do
    let x ← I.deref first
    let first' ← I.next first
    accumulate I add first' last (add value x)
partial_fixpoint

end Verif.Algo
