import Verif.Exc.Base
import Verif.Rb.Reach
/-!
# `ttl::map` and `ttl::set` when allocation, element copies or comparisons throw

The throwing versions of the members of ttl/rbtree.hpp, ttl/map.hpp and ttl/set.hpp. The points where an exception may appear are: `new node(d)`
(allocation, or the constructor of the element), the comparator `is_less_`, the key's `==`, and the client's assignment `*it = v`. Destroying
elements, rotations and colour flips throw nothing. Each definition is the one of `Verif.Rb.Model` or `Verif.Rb.MapModel` with these points put in.

The temporary pairs of `map::insert(first, last)` (map.hpp:256) and of `operator[]` are put in in `Verif.Exc.RbIndex`.
-/
set_option linter.unusedVariables false
namespace Verif.Exc.XRb
open Verif Verif.Rb Verif.Exc
variable {K V : Type}

/-- `new node(data)` (ttl/rbtree.hpp:240): if the constructor of the element throws, the storage is released again. -/
def newNode (v : V) : Thr (Heap V) Addr := do Thr.point; Thr.call (Rb.newNode v)

/-- `is_less_(a, b)` -/
def less (lt : K → K → Bool) (a b : K) : Thr (Heap V) Bool := do Thr.point; Thr.call (Rb.less lt a b)

/-- `a == b` of keys -/
def same [DecidableEq K] (a b : K) : Thr (Heap V) Bool := do Thr.point; pure (decide (a = b))

/-- `preorder_copy` (ttl/rbtree.hpp:312-330) -/
def preorderCopy (n : Addr) : Thr (Heap V) Addr := do
  if n = 0 then pure 0
  else do
    let v ← Thr.call (dataOf n)
    let nc ← newNode v
    let x ← Thr.call (nd n)
    Thr.call (setColor nc x.color)
    let x ← Thr.call (nd n)
    if x.left ≠ 0 then do
      let y ← preorderCopy x.left
      Thr.call (setLeft nc y)
      let z ← Thr.call (nd nc)
      Thr.call (setParent z.left nc)
    else Thr.call (setLeft nc 0)
    let x ← Thr.call (nd n)
    if x.right ≠ 0 then do
      let y ← preorderCopy x.right
      Thr.call (setRight nc y)
      let z ← Thr.call (nd nc)
      Thr.call (setParent z.right nc)
    else Thr.call (setRight nc 0)
    pure nc
partial_fixpoint

/-- `assign` (ttl/rbtree.hpp:332-340): the root edge is set when everything has been copied -/
def assign (hd other : Addr) : Thr (Heap V) Unit := do
  let r ← Thr.call (rootOf hd)
  if r ≠ 0 then Thr.call (clear hd)
  let oroot ← Thr.call (rootOf other)
  if oroot ≠ 0 then do
    let y ← preorderCopy oroot
    Thr.call (wrE hd .root y)
    let z ← Thr.call (rdE hd .root)
    Thr.call (setParent z hd)

/-- The copy constructors (ttl/map.hpp:172-175, ttl/set.hpp:160-163). When an exception leaves the body of the constructor the member `rbtree_`
is destroyed (`~rbtree()`, ttl/rbtree.hpp:244), and the storage of the object ends. -/
def copyCtor (other : Addr) : Thr (Heap V) Addr := do
  let hd ← Thr.call newTree
  Thr.unwinding (assign hd other) (destroy hd)
  pure hd

/-- `operator=` (ttl/map.hpp:182-187, ttl/set.hpp:170-175) -/
def opAssign (hd other : Addr) : Thr (Heap V) Unit := do
  Thr.call (clear hd)
  assign hd other

section Keyed
variable [DecidableEq K] (lt : K → K → Bool) (keyOf : V → K)

/-- Loop of `find` (ttl/rbtree.hpp:374-384) -/
def findLoop (key : K) (n : Addr) : Thr (Heap V) Addr := do
  if n = 0 then pure n
  else do
    let v ← Thr.call (dataOf n)
    let b ← less lt key (keyOf v)
    if b then do
      let x ← Thr.call (nd n)
      findLoop key x.left
    else do
      let e ← same key (keyOf v)
      if e then pure n
      else do
        let x ← Thr.call (nd n)
        findLoop key x.right
partial_fixpoint

/-- `rbtree::find` (ttl/rbtree.hpp:370-386) -/
def find (hd : Addr) (key : K) : Thr (Heap V) Addr := do
  let r ← Thr.call (rootOf hd)
  let n ← findLoop lt keyOf key r
  pure (if n ≠ 0 then n else hd)

/-- Loop of `lower_bound` (ttl/rbtree.hpp:393-399) -/
def lowerLoop (key : K) (n prev : Addr) : Thr (Heap V) Addr := do
  if n = 0 then pure prev
  else do
    let v ← Thr.call (dataOf n)
    let b ← less lt (keyOf v) key
    if b then do
      let x ← Thr.call (nd n)
      lowerLoop key x.right prev
    else do
      let x ← Thr.call (nd n)
      lowerLoop key x.left n
partial_fixpoint

/-- `rbtree::lower_bound` (ttl/rbtree.hpp:388-402) -/
def lowerBound (hd : Addr) (key : K) : Thr (Heap V) Addr := do
  let r ← Thr.call (rootOf hd)
  lowerLoop lt keyOf key r hd

/-- Search loop of `insert_unique` (ttl/rbtree.hpp:446-455) -/
def insUqLoop (hd : Addr) (key : K) (e : Edge) (parent : Addr) : Thr (Heap V) (Sum Addr (Edge × Addr)) := do
  let x ← Thr.call (rdE hd e)
  if x = 0 then pure (.inr (e, parent))
  else do
    let v ← Thr.call (dataOf x)
    let b ← less lt key (keyOf v)
    if b then insUqLoop hd key (.left x) x
    else do
      let q ← same key (keyOf v)
      if q then pure (.inl x) else insUqLoop hd key (.right x) x
partial_fixpoint

/-- Linking of the new node (ttl/rbtree.hpp:456-460): everything that may throw comes first -/
def linkNew (hd : Addr) (v : V) (e : Edge) (parent : Addr) : Thr (Heap V) Addr := do
  let n ← newNode v
  Thr.call (setParent n parent)
  Thr.call (wrE hd e n)
  Thr.call (insertRebalance hd e parent)
  pure n

/-- `insert_unique` (ttl/rbtree.hpp:440-461) -/
def insertUnique (hd : Addr) (v : V) : Thr (Heap V) (Addr × Bool) := do
  let r ← insUqLoop lt keyOf hd (keyOf v) .root hd
  match r with
  | .inl x => pure (x, false)
  | .inr (e, parent) => do
    let n ← linkNew hd v e parent
    pure (n, true)

/-- `insert(first, last)` (ttl/map.hpp:251-257, ttl/set.hpp:228-234) -/
def insertRange (hd : Addr) : List V → Thr (Heap V) Unit
  | [] => pure ()
  | v :: vs => do
    let _ ← insertUnique lt keyOf hd v
    insertRange hd vs

/-- `map(first, last)` (ttl/map.hpp:177-180, ttl/set.hpp:165-168); see `copyCtor` -/
def rangeCtor (vs : List V) : Thr (Heap V) Addr := do
  let hd ← Thr.call newTree
  Thr.unwinding (insertRange lt keyOf hd vs) (destroy hd)
  pure hd

/-- ttl/rbtree.hpp:480-484: the comparison comes after the rotation -/
def leanRight (hd : Addr) (key : K) (root : Edge) (isless : Bool) : Thr (Heap V) Bool := do
  let x ← Thr.call (rdE hd root)
  let y ← Thr.call (nd x)
  let b ← Thr.call (isRed y.left)
  if b then do
    let x ← Thr.call (rdE hd root)
    let y ← Thr.call (rotateRight x)
    Thr.call (wrE hd root y)
    let x ← Thr.call (rdE hd root)
    let v ← Thr.call (dataOf x)
    less lt key (keyOf v)
  else pure isless

/-- ttl/rbtree.hpp:493-497: the comparison comes after the rotation -/
def leanRight2 (hd : Addr) (key : K) (root : Edge) : Thr (Heap V) Unit := do
  let x ← Thr.call (rdE hd root)
  let y ← Thr.call (nd x)
  let b ← Thr.call (poor y.right)
  if b then do
    let x ← Thr.call (rdE hd root)
    let y ← Thr.call (moveRight x)
    Thr.call (wrE hd root y)
    let x ← Thr.call (rdE hd root)
    let v ← Thr.call (dataOf x)
    let _ ← less lt key (keyOf v)
    pure ()
  else pure ()

/-- The test of ttl/rbtree.hpp:485-487: `==` is evaluated if the comparison said no, then `!(*root)->right` if the keys are equal. -/
def leafHere (key : K) (x : Addr) (isless : Bool) : Thr (Heap V) Bool := do
  if isless then pure false
  else do
    let v ← Thr.call (dataOf x)
    let b ← same key (keyOf v)
    let y ← Thr.call (nd x)
    pure (b && decide (y.right = 0))

/-- First loop of `remove` (ttl/rbtree.hpp:468-517) -/
def removeLoop (hd : Addr) (key : K) (root : Edge) (parent : Addr) : Thr (Heap V) (Addr × Addr) := do
  let x ← Thr.call (rdE hd root)
  if x = 0 then pure (0, parent)
  else do
    let n ← Thr.call (nd x)
    let v ← Thr.call (dataOf x)
    let isless ← less lt key (keyOf v)
    if isless then do
      let y ← Thr.call (nd x)
      let b ← Thr.call (poor y.left)
      if b then do
        let m ← Thr.call (moveLeft x)
        Thr.call (wrE hd root m)
        let z ← Thr.call (rdE hd root)
        removeLoop hd key (.left z) n.parent
      else do
        let z ← Thr.call (rdE hd root)
        removeLoop hd key (.left z) n.parent
    else do
      let isless ← leanRight lt keyOf hd key root isless
      let x ← Thr.call (rdE hd root)
      let b ← leafHere keyOf key x isless
      if b then do
        Thr.call (wrE hd root 0)
        pure (x, n.parent)
      else do
        leanRight2 lt keyOf hd key root
        let x ← Thr.call (rdE hd root)
        let v ← Thr.call (dataOf x)
        let b ← same key (keyOf v)
        if b then Thr.call (replaceByMin hd root)
        else removeLoop hd key (.right x) n.parent
partial_fixpoint

/-- `remove` (ttl/rbtree.hpp:463-527): the loop that repairs the colours (518-523) and line 524-525 are not reached by an exception -/
def remove (hd : Addr) (key : K) : Thr (Heap V) Addr := do
  let r ← removeLoop lt keyOf hd key .root hd
  Thr.call (climbLoop hd r.2)
  Thr.call (do
    let x ← rootOf hd
    if x ≠ 0 then setColor x BLACK)
  pure r.1

/-- `erase(key)` (ttl/map.hpp:221-226, ttl/set.hpp:198-203) -/
def erase (hd : Addr) (key : K) : Thr (Heap V) Nat := do
  let n ← remove lt keyOf hd key
  Thr.call (delNode n)
  pure (if n ≠ 0 then 1 else 0)

/-- Execute a call of a client of containers; the assignment in `*it = v` may throw. -/
def call (objs : List Addr) : Call K V → Thr (Heap V) (List Addr)
  | .copyOf s => do let c ← copyCtor s; pure (objs ++ [c])
  | .assign d s => do opAssign d s; pure objs
  | .insert c v => do let _ ← insertUnique lt keyOf c v; pure objs
  | .insertRange c vs => do insertRange lt keyOf c vs; pure objs
  | .erase c k => do let _ ← erase lt keyOf c k; pure objs
  | .store c v => do
      let n ← find lt keyOf c (keyOf v)
      if n = c then pure objs else do Thr.point; Thr.call (storeData n v); pure objs
  | .find c k => do let _ ← find lt keyOf c k; pure objs
  | .lower c k => do let _ ← lowerBound lt keyOf c k; pure objs
  | c => Thr.call (Rb.call lt keyOf objs c)

end Keyed
end Verif.Exc.XRb
