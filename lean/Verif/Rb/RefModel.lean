import Verif.Rb.MapModel
/-!
# Key and value arguments of map/set members are references

The members of `ttl::map` and `ttl::set` take keys and values by `const &`, and the reference may designate an element of the container
itself, as in `s.erase(*s.begin())` or `m[it->first]`. `Rb.Model` passes values, which is the same as long as the referenced object does not
change during the call. Here the arguments are references which are read where the C++ code reads them.
-/
namespace Verif.Rb
open Verif
variable {K V T : Type}

/-- A `const Key &` argument: an object outside all containers, or the key inside the element of a node. -/
inductive KeyRef (K : Type) where
  | ext (k : K)
  | inNode (a : Addr)

/-- A `const value_type &` argument: an object outside all containers, or the element of a node. -/
inductive ValRef (V : Type) where
  | ext (v : V)
  | inNode (a : Addr)

/-- Reading through a `const value_type &`. -/
def rdVal : ValRef V → Prog (Heap V) V
  | .ext v => pure v
  | .inNode a => dataOf a

section Keyed
variable [DecidableEq K] (lt : K → K → Bool) (keyOf : V → K)

/-- Reading through a `const Key &`. -/
def rdKey : KeyRef K → Prog (Heap V) K
  | .ext k => pure k
  | .inNode a => do pure (keyOf (← dataOf a))

/-- rbtree.hpp:480-484, as `leanRight`. -/
def leanRightR (hd : Addr) (key : KeyRef K) (root : Edge) (isless : Bool) : Prog (Heap V) Bool := do
  if (← isRed (← nd (← rdE hd root)).left) then do
    wrE hd root (← rotateRight (← rdE hd root))
    let x ← rdE hd root
    less lt (← rdKey keyOf key) (keyOf (← dataOf x))
  else pure isless

/-- rbtree.hpp:493-497, as `leanRight2`. -/
def leanRight2R (hd : Addr) (key : KeyRef K) (root : Edge) : Prog (Heap V) Unit := do
  if (← poor (← nd (← rdE hd root)).right) then do
    wrE hd root (← moveRight (← rdE hd root))
    let x ← rdE hd root
    let _ ← less lt (← rdKey keyOf key) (keyOf (← dataOf x))

/-- First loop of `remove`, rbtree.hpp:468-517, as `removeLoop`. -/
def removeLoopR (hd : Addr) (key : KeyRef K) (root : Edge) (parent : Addr) : Prog (Heap V) (Addr × Addr) := do
  let x ← rdE hd root
  if x = 0 then pure (0, parent)
  else do
    let parent := (← nd x).parent
    let isless ← less lt (← rdKey keyOf key) (keyOf (← dataOf x))
    if isless then do
      if (← poor (← nd x).left) then wrE hd root (← moveLeft x)
      removeLoopR hd key (.left (← rdE hd root)) parent
    else do
      let isless ← leanRightR lt keyOf hd key root isless
      let x ← rdE hd root
      if !isless && decide ((← rdKey keyOf key) = keyOf (← dataOf x)) && decide ((← nd x).right = 0) then do
        wrE hd root 0
        pure (x, parent)
      else do
        leanRight2R lt keyOf hd key root
        let x ← rdE hd root
        if (← rdKey keyOf key) = keyOf (← dataOf x) then replaceByMin hd root
        else removeLoopR hd key (.right x) parent
partial_fixpoint

/-- `remove(const Key &)`, rbtree.hpp:463-527. -/
def removeR (hd : Addr) (key : KeyRef K) : Prog (Heap V) Addr := do
  let (deleted, parent) ← removeLoopR lt keyOf hd key .root hd
  climbLoop hd parent
  let r ← rootOf hd
  if r ≠ 0 then setColor r BLACK
  pure deleted

/-- `erase(const Key &)`, map.hpp:221-226, set.hpp:198-203: the node is deleted after the last read of the key. -/
def eraseR (hd : Addr) (key : KeyRef K) : Prog (Heap V) Nat := do
  let n ← removeR lt keyOf hd key
  delNode n
  pure (if n ≠ 0 then 1 else 0)

/-- Loop of `find(const Key &)`, rbtree.hpp:374-384, as `findLoop`. -/
def findLoopR (key : KeyRef K) (n : Addr) : Prog (Heap V) Addr := do
  if n = 0 then pure n
  else do
    let nkey := keyOf (← dataOf n)
    if (← less lt (← rdKey keyOf key) nkey) then findLoopR key (← nd n).left
    else if (← rdKey keyOf key) = nkey then pure n
    else findLoopR key (← nd n).right
partial_fixpoint

/-- `find(const Key &)`, rbtree.hpp:370-386. -/
def findR (hd : Addr) (key : KeyRef K) : Prog (Heap V) Addr := do
  let n ← findLoopR lt keyOf key (← rootOf hd)
  pure (if n ≠ 0 then n else hd)

/-- Search loop of `insert_unique`, rbtree.hpp:446-455, as `insUqLoop`; the key is `KeyOfValue(data)`, rbtree.hpp:448. -/
def insUqLoopR (hd : Addr) (v : ValRef V) (e : Edge) (parent : Addr) : Prog (Heap V) (Sum Addr (Edge × Addr)) := do
  let x ← rdE hd e
  if x = 0 then pure (.inr (e, parent))
  else do
    let ekey := keyOf (← dataOf x)
    if (← less lt (keyOf (← rdVal v)) ekey) then insUqLoopR hd v (.left x) x
    else if keyOf (← rdVal v) = ekey then pure (.inl x)
    else insUqLoopR hd v (.right x) x
partial_fixpoint

/-- `insert_unique(const V &)`, rbtree.hpp:440-461: `new node(data)` copies the referenced value. -/
def insertUniqueR (hd : Addr) (v : ValRef V) : Prog (Heap V) (Addr × Bool) := do
  match (← insUqLoopR lt keyOf hd v .root hd) with
  | .inl x => pure (x, false)
  | .inr (e, parent) => do
    let n ← linkNew hd (← rdVal v) e parent
    pure (n, true)

end Keyed

section Map
variable [DecidableEq K] (lt : K → K → Bool)

/-- `operator[](const KT &)`, map.hpp:198-204: `value_type(key, T())` copies the key. -/
def subscriptR (dflt : T) (hd : Addr) (key : KeyRef K) : Prog (Heap (K × T)) Addr := do
  let n ← findR lt Prod.fst hd key
  if n = hd then do
    let r ← insertUnique lt Prod.fst hd (← rdKey Prod.fst key, dflt)
    pure r.1
  else pure n
end Map

end Verif.Rb
