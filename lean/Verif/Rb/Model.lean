import Verif.Base
/-!
# Model of the left-leaning red-black tree (`ttl/rbtree.hpp`)

Memory is a heap of nodes addressed by naturals, `0` being the null pointer. Every field access checks
that the node is alive, so use after free, double free and null dereference are `ub access`.
`rbnode **` pointers (the code calls them edges) are the constructors of `Edge`.

Modelling choices:
* `new` never fails and never reuses an address (so a dangling pointer never becomes valid again).
* `rbnode`'s own fields are not initialised by `new node(data)` (rbtree.hpp:240): a fresh node's links
  and colour come from `junk`, an arbitrary function about which no theorem assumes anything.
* `cmps` counts the calls of the comparator `is_less_`; no code reads it.
* `lt` models `is_less_` and `DecidableEq K` the key type's `==`.
* `static_cast<node *>` of an `rbnode *` is the identity. The tree header is a live node without data.
-/
set_option linter.constructorNameAsVariable false
namespace Verif.Rb
open Verif

abbrev Addr := Nat

/-- `struct rbnode`, rbtree.hpp:16-22. -/
structure RbNode where
  parent : Addr
  left : Addr
  right : Addr
  color : Bool
  deriving DecidableEq, Repr

/-- `rbnode::RED` and `rbnode::BLACK`, rbtree.hpp:20-21. -/
abbrev RED : Bool := true
abbrev BLACK : Bool := false

/-- Memory: live nodes, their data (`node::data`, rbtree.hpp:239), and bookkeeping of the model. -/
structure Heap (V : Type) where
  node : Addr → Option RbNode
  data : Addr → Option V
  junk : Addr → RbNode
  next : Addr
  cmps : Nat

variable {K V : Type}

namespace Heap
/-- Store a node record. -/
def setNode (h : Heap V) (a : Addr) (n : RbNode) : Heap V :=
  { h with node := fun x => if x = a then some n else h.node x }
/-- `n` comparator calls later. -/
def tick (h : Heap V) (n : Nat) : Heap V := { h with cmps := h.cmps + n }
/-- Storage of `a` released. -/
def free (h : Heap V) (a : Addr) : Heap V :=
  { h with node := fun x => if x = a then none else h.node x,
           data := fun x => if x = a then none else h.data x }
/-- Fresh node at `h.next` holding `v`. -/
def alloc (h : Heap V) (v : V) : Heap V :=
  { h with node := fun x => if x = h.next then some (h.junk h.next) else h.node x,
           data := fun x => if x = h.next then some v else h.data x,
           next := h.next + 1 }
end Heap

/-- `*p` of an `rbnode *`. -/
def nd (a : Addr) : Prog (Heap V) RbNode := fun h =>
  match h.node a with
  | some n => .ok (n, h)
  | none => .ub .access

/-- Assignment to a field of `*p`. -/
def upd (a : Addr) (f : RbNode → RbNode) : Prog (Heap V) Unit := fun h =>
  match h.node a with
  | some n => .ok ((), h.setNode a (f n))
  | none => .ub .access

def setParent (a p : Addr) : Prog (Heap V) Unit := upd a fun n => { n with parent := p }
def setLeft (a p : Addr) : Prog (Heap V) Unit := upd a fun n => { n with left := p }
def setRight (a p : Addr) : Prog (Heap V) Unit := upd a fun n => { n with right := p }
def setColor (a : Addr) (c : Bool) : Prog (Heap V) Unit := upd a fun n => { n with color := c }

/-- `static_cast<node *>(p)->data`: only real tree nodes have data. -/
def dataOf (a : Addr) : Prog (Heap V) V := fun h =>
  match h.data a with
  | some v => .ok (v, h)
  | none => .ub .access

/-- `delete n` (a null pointer is allowed). -/
def delNode (a : Addr) : Prog (Heap V) Unit := fun h =>
  if a = 0 then .ok ((), h)
  else match h.node a with
    | some _ => .ok ((), h.free a)
    | none => .ub .access

/-- `new node(data)`, rbtree.hpp:240. -/
def newNode (v : V) : Prog (Heap V) Addr := fun h => .ok (h.next, h.alloc v)

/-- A call of `is_less_`. -/
def less (lt : K → K → Bool) (a b : K) : Prog (Heap V) Bool := fun h => .ok (lt a b, h.tick 1)

/-- An `rbnode **`: the address of a `parent` (root edge), `left` or `right` field. -/
inductive Edge where
  | root
  | left (a : Addr)
  | right (a : Addr)
  deriving DecidableEq, Repr

/-- `*e`; `hd` is the address of `header_`, whose `parent` field is the root edge (rbtree.hpp:40). -/
def rdE (hd : Addr) : Edge → Prog (Heap V) Addr
  | .root => do pure (← nd hd).parent
  | .left a => do pure (← nd a).left
  | .right a => do pure (← nd a).right

/-- `*e = x`. -/
def wrE (hd : Addr) (e : Edge) (x : Addr) : Prog (Heap V) Unit :=
  match e with
  | .root => setParent hd x
  | .left a => setLeft a x
  | .right a => setRight a x

/-- `root_()`, rbtree.hpp:41. -/
def rootOf (hd : Addr) : Prog (Heap V) Addr := do pure (← nd hd).parent

/-- `rbtree_base()`, rbtree.hpp:44-48, run on fresh storage for the header. -/
def newTree : Prog (Heap V) Addr := fun h =>
  .ok (h.next, { h with node := fun x => if x = h.next then some ⟨0, 0, 0, RED⟩ else h.node x,
                        next := h.next + 1 })

/-- `flip_colors`, rbtree.hpp:70-75. -/
def flipColors (n : Addr) : Prog (Heap V) Unit := do
  setColor n (!(← nd n).color)
  let l := (← nd n).left
  setColor l (!(← nd l).color)
  let r := (← nd n).right
  setColor r (!(← nd r).color)

/-- `is_red`, rbtree.hpp:77-80. -/
def isRed (n : Addr) : Prog (Heap V) Bool := do
  if n = 0 then pure false else pure ((← nd n).color == RED)

/-- `edge`, rbtree.hpp:82-89. -/
def edgeOf (hd n : Addr) : Prog (Heap V) Edge := do
  if n = (← rootOf hd) then pure .root
  else do
    let p := (← nd n).parent
    if n = (← nd p).left then pure (.left p) else pure (.right p)

/-- `min_node`, rbtree.hpp:98-103. -/
def minNode (n : Addr) : Prog (Heap V) Addr := do
  if n = 0 then pure n
  else do
    let l := (← nd n).left
    if l = 0 then pure n else minNode l
partial_fixpoint

/-- `max_node`, rbtree.hpp:105-110. -/
def maxNode (n : Addr) : Prog (Heap V) Addr := do
  if n = 0 then pure n
  else do
    let r := (← nd n).right
    if r = 0 then pure n else maxNode r
partial_fixpoint

/-- Loop of `next_node`, rbtree.hpp:118-120. -/
def nextUp (n : Addr) : Prog (Heap V) Addr := do
  let p := (← nd n).parent
  if n = (← nd p).right then nextUp p else pure p
partial_fixpoint

/-- `next_node`, rbtree.hpp:112-121. -/
def nextNode (n : Addr) : Prog (Heap V) Addr := do
  let r := (← nd n).right
  if r ≠ 0 then minNode r
  else do
    let p := (← nd n).parent
    if n = (← nd p).left then pure p else nextUp n

/-- Loop of `prev_node`, rbtree.hpp:129-131. -/
def prevUp (n : Addr) : Prog (Heap V) Addr := do
  let p := (← nd n).parent
  if n = (← nd p).left then prevUp p else pure p
partial_fixpoint

/-- `prev_node`, rbtree.hpp:123-132. -/
def prevNode (n : Addr) : Prog (Heap V) Addr := do
  let l := (← nd n).left
  if l ≠ 0 then maxNode l
  else do
    let p := (← nd n).parent
    if n = (← nd p).right then pure p else prevUp n

/-- `rotate_left`, rbtree.hpp:134-146. -/
def rotateLeft (a : Addr) : Prog (Heap V) Addr := do
  let b := (← nd a).right
  setRight a (← nd b).left
  let ar := (← nd a).right
  if ar ≠ 0 then setParent ar a
  setLeft b a
  setColor b (← nd a).color
  setColor a RED
  setParent b (← nd a).parent
  setParent a b
  pure b

/-- `rotate_right`, rbtree.hpp:148-160. -/
def rotateRight (b : Addr) : Prog (Heap V) Addr := do
  let a := (← nd b).left
  setLeft b (← nd a).right
  let bl := (← nd b).left
  if bl ≠ 0 then setParent bl b
  setRight a b
  setColor a (← nd b).color
  setColor b RED
  setParent a (← nd b).parent
  setParent b a
  pure a

/-- First `if` of `fixup`, rbtree.hpp:164-165. -/
def fix1 (root : Addr) : Prog (Heap V) Addr := do
  if (← isRed (← nd root).right) then
    if (← isRed (← nd root).left) then pure root else rotateLeft root
  else pure root

/-- Second `if` of `fixup`, rbtree.hpp:166-167. -/
def fix2 (root : Addr) : Prog (Heap V) Addr := do
  let l := (← nd root).left
  if (← isRed l) then
    if (← isRed (← nd l).left) then rotateRight root else pure root
  else pure root

/-- Third `if` of `fixup`, rbtree.hpp:168-170. -/
def fix3 (root : Addr) : Prog (Heap V) Addr := do
  if (← isRed (← nd root).left) then
    if (← isRed (← nd root).right) then do
      flipColors root
      pure root
    else pure root
  else pure root

/-- `fixup`, rbtree.hpp:162-171. -/
def fixup (root : Addr) : Prog (Heap V) Addr := do
  let r1 ← fix1 root
  let r2 ← fix2 r1
  fix3 r2

/-- Loop of `insert_rebalance`, rbtree.hpp:177-182. -/
def rebalLoop (hd parent : Addr) : Prog (Heap V) Unit := do
  if parent = hd then pure ()
  else do
    let n ← nd parent
    if (← isRed n.left) || (← isRed n.right) then do
      let e ← edgeOf hd parent
      let p := (← nd parent).parent
      wrE hd e (← fixup (← rdE hd e))
      rebalLoop hd p
    else pure ()
partial_fixpoint

/-- `insert_rebalance`, rbtree.hpp:173-184. -/
def insertRebalance (hd : Addr) (e : Edge) (parent : Addr) : Prog (Heap V) Unit := do
  setColor (← rdE hd e) RED
  setRight (← rdE hd e) 0
  setLeft (← rdE hd e) 0
  rebalLoop hd parent
  setColor (← rootOf hd) BLACK

/-- `move_left`, rbtree.hpp:186-196. -/
def moveLeft (pivot : Addr) : Prog (Heap V) Addr := do
  flipColors pivot
  let r := (← nd pivot).right
  if (← isRed (← nd r).left) then do
    setRight pivot (← rotateRight (← nd pivot).right)
    let p ← rotateLeft pivot
    flipColors p
    pure p
  else pure pivot

/-- `move_right`, rbtree.hpp:198-207. -/
def moveRight (pivot : Addr) : Prog (Heap V) Addr := do
  flipColors pivot
  let l := (← nd pivot).left
  if (← isRed (← nd l).left) then do
    let p ← rotateRight pivot
    flipColors p
    pure p
  else pure pivot

/-- First loop of `delete_min`, rbtree.hpp:212-217; returns the final `pivot`. -/
def dmDown (hd : Addr) (pivot : Edge) : Prog (Heap V) Edge := do
  let x ← rdE hd pivot
  let l := (← nd x).left
  if l ≠ 0 then do
    if !(← isRed l) then
      if !(← isRed (← nd l).left) then
        wrE hd pivot (← moveLeft x)
    dmDown hd (.left (← rdE hd pivot))
  else pure pivot
partial_fixpoint

/-- Second loop of `delete_min`, rbtree.hpp:221-226. -/
def dmUp (hd : Addr) (root pivot : Edge) (parent : Addr) : Prog (Heap V) Unit := do
  if root = pivot then pure ()
  else do
    let e ← edgeOf hd parent
    let p := (← nd parent).parent
    wrE hd e (← fixup (← rdE hd e))
    dmUp hd root e p
partial_fixpoint

/-- `delete_min`, rbtree.hpp:209-228. -/
def deleteMin (hd : Addr) (root : Edge) : Prog (Heap V) Addr := do
  let pivot ← dmDown hd root
  let deleted ← rdE hd pivot
  let parent := (← nd deleted).parent
  wrE hd pivot 0
  dmUp hd root pivot parent
  pure deleted

/-- `postorder_destroy`, rbtree.hpp:299-310. -/
def postorderDestroy (n : Addr) : Prog (Heap V) Unit := do
  if n = 0 then pure ()
  else do
    let l := (← nd n).left
    if l ≠ 0 then postorderDestroy l
    let r := (← nd n).right
    if r ≠ 0 then postorderDestroy r
    delNode n
partial_fixpoint

/-- `preorder_copy`, rbtree.hpp:312-330. -/
def preorderCopy (n : Addr) : Prog (Heap V) Addr := do
  if n = 0 then pure 0
  else do
    let nc ← newNode (← dataOf n)
    setColor nc (← nd n).color
    let l := (← nd n).left
    if l ≠ 0 then do
      setLeft nc (← preorderCopy l)
      setParent (← nd nc).left nc
    else setLeft nc 0
    let r := (← nd n).right
    if r ≠ 0 then do
      setRight nc (← preorderCopy r)
      setParent (← nd nc).right nc
    else setRight nc 0
    pure nc
partial_fixpoint

/-- `clear`, rbtree.hpp:342-348 (also `~rbtree()`, 244). -/
def clear (hd : Addr) : Prog (Heap V) Unit := do
  let root ← rootOf hd
  wrE hd .root 0
  postorderDestroy root

/-- `assign`, rbtree.hpp:332-340. -/
def assign (hd other : Addr) : Prog (Heap V) Unit := do
  if (← rootOf hd) ≠ 0 then clear hd
  let oroot ← rootOf other
  if oroot ≠ 0 then do
    wrE hd .root (← preorderCopy oroot)
    setParent (← rdE hd .root) hd

section Keyed
variable [DecidableEq K] (lt : K → K → Bool) (keyOf : V → K)

/-- Loop of `count`, rbtree.hpp:353-367. -/
def countLoop (key : K) (n : Addr) (c : Nat) : Prog (Heap V) Nat := do
  if n = 0 then pure c
  else do
    let nkey := keyOf (← dataOf n)
    if (← less lt nkey key) then countLoop key (← nd n).right c
    else if nkey = key then countLoop key (← nd n).left (c + 1)
    else countLoop key (← nd n).left c
partial_fixpoint

/-- `rbtree::count`, rbtree.hpp:350-368. -/
def count (hd : Addr) (key : K) : Prog (Heap V) Nat := do
  countLoop lt keyOf key (← rootOf hd) 0

/-- Loop of `find`, rbtree.hpp:374-384. -/
def findLoop (key : K) (n : Addr) : Prog (Heap V) Addr := do
  if n = 0 then pure n
  else do
    let nkey := keyOf (← dataOf n)
    if (← less lt key nkey) then findLoop key (← nd n).left
    else if key = nkey then pure n
    else findLoop key (← nd n).right
partial_fixpoint

/-- `rbtree::find`, rbtree.hpp:370-386. -/
def find (hd : Addr) (key : K) : Prog (Heap V) Addr := do
  let n ← findLoop lt keyOf key (← rootOf hd)
  pure (if n ≠ 0 then n else hd)

/-- Loop of `lower_bound`, rbtree.hpp:393-399. -/
def lowerLoop (key : K) (n prev : Addr) : Prog (Heap V) Addr := do
  if n = 0 then pure prev
  else do
    if (← less lt (keyOf (← dataOf n)) key) then lowerLoop key (← nd n).right prev
    else lowerLoop key (← nd n).left n
partial_fixpoint

/-- `rbtree::lower_bound`, rbtree.hpp:388-402. -/
def lowerBound (hd : Addr) (key : K) : Prog (Heap V) Addr := do
  lowerLoop lt keyOf key (← rootOf hd) hd

/-- Loop of `upper_bound`, rbtree.hpp:409-415. -/
def upperLoop (key : K) (n prev : Addr) : Prog (Heap V) Addr := do
  if n = 0 then pure prev
  else do
    if (← less lt key (keyOf (← dataOf n))) then upperLoop key (← nd n).left n
    else upperLoop key (← nd n).right prev
partial_fixpoint

/-- `rbtree::upper_bound`, rbtree.hpp:404-417. -/
def upperBound (hd : Addr) (key : K) : Prog (Heap V) Addr := do
  upperLoop lt keyOf key (← rootOf hd) hd

/-- Search loop of `insert_equal`, rbtree.hpp:425-432; returns `(edge, parent)`. -/
def insEqLoop (hd : Addr) (key : K) (e : Edge) (parent : Addr) : Prog (Heap V) (Edge × Addr) := do
  let x ← rdE hd e
  if x = 0 then pure (e, parent)
  else do
    if (← less lt key (keyOf (← dataOf x))) then insEqLoop hd key (.left x) x
    else insEqLoop hd key (.right x) x
partial_fixpoint

/-- Linking of the new node, rbtree.hpp:433-437 and 456-460. -/
def linkNew (hd : Addr) (v : V) (e : Edge) (parent : Addr) : Prog (Heap V) Addr := do
  let n ← newNode v
  setParent n parent
  wrE hd e n
  insertRebalance hd e parent
  pure n

/-- `insert_equal`, rbtree.hpp:419-438. -/
def insertEqual (hd : Addr) (v : V) : Prog (Heap V) Addr := do
  let (e, parent) ← insEqLoop lt keyOf hd (keyOf v) .root hd
  linkNew hd v e parent

/-- Search loop of `insert_unique`, rbtree.hpp:446-455: either the existing node or the place. -/
def insUqLoop (hd : Addr) (key : K) (e : Edge) (parent : Addr) :
    Prog (Heap V) (Sum Addr (Edge × Addr)) := do
  let x ← rdE hd e
  if x = 0 then pure (.inr (e, parent))
  else do
    let ekey := keyOf (← dataOf x)
    if (← less lt key ekey) then insUqLoop hd key (.left x) x
    else if key = ekey then pure (.inl x)
    else insUqLoop hd key (.right x) x
partial_fixpoint

/-- `insert_unique`, rbtree.hpp:440-461. -/
def insertUnique (hd : Addr) (v : V) : Prog (Heap V) (Addr × Bool) := do
  match (← insUqLoop lt keyOf hd (keyOf v) .root hd) with
  | .inl x => pure (x, false)
  | .inr (e, parent) => do
    let n ← linkNew hd v e parent
    pure (n, true)

/-- The replacement of `*root` by the minimum of its right subtree, rbtree.hpp:500-511: returns
`(deleted, parent)`. -/
def replaceByMin (hd : Addr) (root : Edge) : Prog (Heap V) (Addr × Addr) := do
  let orphan ← deleteMin hd (.right (← rdE hd root))
  setColor orphan (← nd (← rdE hd root)).color
  setParent orphan (← nd (← rdE hd root)).parent
  setRight orphan (← nd (← rdE hd root)).right
  let r := (← nd orphan).right
  if r ≠ 0 then setParent r orphan
  setLeft orphan (← nd (← rdE hd root)).left
  let l := (← nd orphan).left
  if l ≠ 0 then setParent l orphan
  let deleted ← rdE hd root
  wrE hd root orphan
  pure (deleted, ← rdE hd root)

/-- `!n || is_red(n) || is_red(n->left)` negated, rbtree.hpp:474 and 493: is `n` a node that is black
with a black left child? -/
def poor (n : Addr) : Prog (Heap V) Bool := do
  if n = 0 then pure false
  else if (← isRed n) then pure false
  else do pure (!(← isRed (← nd n).left))

/-- rbtree.hpp:480-484: rotate a red left child up; returns the new `isless`. -/
def leanRight (hd : Addr) (key : K) (root : Edge) (isless : Bool) : Prog (Heap V) Bool := do
  if (← isRed (← nd (← rdE hd root)).left) then do
    wrE hd root (← rotateRight (← rdE hd root))
    less lt key (keyOf (← dataOf (← rdE hd root)))
  else pure isless

/-- rbtree.hpp:493-497; the new value of `isless` is never used afterwards. -/
def leanRight2 (hd : Addr) (key : K) (root : Edge) : Prog (Heap V) Unit := do
  if (← poor (← nd (← rdE hd root)).right) then do
    wrE hd root (← moveRight (← rdE hd root))
    let _ ← less lt key (keyOf (← dataOf (← rdE hd root)))

/-- First loop of `remove`, rbtree.hpp:468-517; returns `(deleted, parent)`. -/
def removeLoop (hd : Addr) (key : K) (root : Edge) (parent : Addr) : Prog (Heap V) (Addr × Addr) := do
  let x ← rdE hd root
  if x = 0 then pure (0, parent)
  else do
    let parent := (← nd x).parent
    let isless ← less lt key (keyOf (← dataOf x))
    if isless then do
      if (← poor (← nd x).left) then wrE hd root (← moveLeft x)
      removeLoop hd key (.left (← rdE hd root)) parent
    else do
      let isless ← leanRight lt keyOf hd key root isless
      let x ← rdE hd root
      if !isless && decide (key = keyOf (← dataOf x)) && decide ((← nd x).right = 0) then do
        wrE hd root 0
        pure (x, parent)
      else do
        leanRight2 lt keyOf hd key root
        let x ← rdE hd root
        if key = keyOf (← dataOf x) then replaceByMin hd root
        else removeLoop hd key (.right x) parent
partial_fixpoint

/-- Second loop of `remove`, rbtree.hpp:518-523. -/
def climbLoop (hd parent : Addr) : Prog (Heap V) Unit := do
  if parent = hd then pure ()
  else do
    let e ← edgeOf hd parent
    let p := (← nd parent).parent
    wrE hd e (← fixup (← rdE hd e))
    climbLoop hd p
partial_fixpoint

/-- `remove`, rbtree.hpp:463-527. -/
def remove (hd : Addr) (key : K) : Prog (Heap V) Addr := do
  let (deleted, parent) ← removeLoop lt keyOf hd key .root hd
  climbLoop hd parent
  let r ← rootOf hd
  if r ≠ 0 then setColor r BLACK
  pure deleted

end Keyed

end Verif.Rb
