import Verif.Rb.Model
/-!
# Model of `ttl::map` and `ttl::set` (`ttl/map.hpp`, `ttl/set.hpp`)

The two classes are the same code over `rbtree` with a different `KeyOfValue`: `map<K,T>` stores
`pair<const K,T>` keyed by `first` (here `V = K × T`, `keyOf = Prod.fst`), `set<K>` stores keys
(`V = K`, `keyOf = id`). A container object is the address of its tree header; an iterator is the
address of a node, `end()` being the header. The `const` overloads have the same bodies and are not
repeated. Functions only declared in the headers (hinted insert, erase by iterator, `swap`) have no body
to model.
-/
namespace Verif.Rb
open Verif
variable {K V T : Type}

/-- `begin()`, map.hpp:153-157 and set.hpp:141-145. -/
def begin_ (hd : Addr) : Prog (Heap V) Addr := do
  let root ← rootOf hd
  if root ≠ 0 then minNode root else pure hd

/-- `empty()`, map.hpp:215, set.hpp:192. -/
def empty (hd : Addr) : Prog (Heap V) Bool := do
  pure (decide ((← rootOf hd) = 0))

/-- `iterator::prev`, map.hpp:259-271, set.hpp:236-248 (the body of `operator--`). -/
def iterPrev (n : Addr) : Prog (Heap V) Addr := do
  let x ← nd n
  if x.parent = 0 then pure n
  else if x.color == RED then do
    if (← nd x.parent).parent = n then maxNode x.parent else prevNode n
  else prevNode n

/-- `delete` of the header's storage, at the end of `~map()`/`~set()`. -/
def freeHeader (hd : Addr) : Prog (Heap V) Unit := delNode hd

/-- `~map()`, map.hpp:170 (`~rbtree()`, rbtree.hpp:244, then the storage of the object itself). -/
def destroy (hd : Addr) : Prog (Heap V) Unit := do
  clear hd
  freeHeader hd

/-- `map(const map &)`, map.hpp:172-175, set.hpp:160-163. -/
def copyCtor (other : Addr) : Prog (Heap V) Addr := do
  let hd ← newTree
  assign hd other
  pure hd

/-- `operator=`, map.hpp:182-187, set.hpp:170-175. -/
def opAssign (hd other : Addr) : Prog (Heap V) Unit := do
  clear hd
  assign hd other

section Keyed
variable [DecidableEq K] (lt : K → K → Bool) (keyOf : V → K)

/-- `insert(first, last)`, map.hpp:251-257, set.hpp:228-234 (the source range as the list of its
elements). -/
def insertRange (hd : Addr) : List V → Prog (Heap V) Unit
  | [] => pure ()
  | v :: vs => do
    let _ ← insertUnique lt keyOf hd v
    insertRange hd vs

/-- `map(first, last)`, map.hpp:177-180, set.hpp:165-168. -/
def rangeCtor (vs : List V) : Prog (Heap V) Addr := do
  let hd ← newTree
  insertRange lt keyOf hd vs
  pure hd

/-- `erase(key)`, map.hpp:221-226, set.hpp:198-203. -/
def erase (hd : Addr) (key : K) : Prog (Heap V) Nat := do
  let n ← remove lt keyOf hd key
  delNode n
  pure (if n ≠ 0 then 1 else 0)

/-- `count(key)`, map.hpp:239, set.hpp:216. -/
def countKey (hd : Addr) (key : K) : Prog (Heap V) Nat := do
  pure (if (← find lt keyOf hd key) ≠ hd then 1 else 0)

/-- `upper_bound(key)`, map.hpp:273-280, set.hpp:250-257. -/
def mapUpperBound (hd : Addr) (key : K) : Prog (Heap V) Addr := do
  let lo ← lowerBound lt keyOf hd key
  if lo = hd then pure hd else nextNode lo

/-- `equal_range(key)`, map.hpp:290-299, set.hpp:267-276. -/
def mapEqualRange (hd : Addr) (key : K) : Prog (Heap V) (Addr × Addr) := do
  let lo ← lowerBound lt keyOf hd key
  if lo ≠ hd then pure (lo, ← nextNode lo) else pure (lo, lo)

end Keyed

/-- Loop of `ttl::equal`, algorithm.hpp:241-244, over two containers' iterators. -/
def eqLoop (eqv : V → V → Bool) (f1 l1 f2 l2 : Addr) : Prog (Heap V) Bool := do
  if f1 ≠ l1 ∧ f2 ≠ l2 then do
    if !(eqv (← dataOf f1) (← dataOf f2)) then pure false
    else do
      let f1 ← nextNode f1
      let f2 ← nextNode f2
      eqLoop eqv f1 l1 f2 l2
  else pure (decide (f1 = l1) && decide (f2 = l2))
partial_fixpoint

/-- `operator==`, map.hpp:314-318, set.hpp:291-295. -/
def opEq (eqv : V → V → Bool) (a b : Addr) : Prog (Heap V) Bool := do
  eqLoop eqv (← begin_ a) a (← begin_ b) b

/-- `operator!=`, map.hpp:319-323, set.hpp:296-300. -/
def opNe (eqv : V → V → Bool) (a b : Addr) : Prog (Heap V) Bool := do return !(← opEq eqv a b)

/-- Assignment through a `T &` obtained from `operator[]`, `at` or an iterator: the node's `data.second`. -/
def storeSecond (n : Addr) (t : T) : Prog (Heap (K × T)) Unit := fun h =>
  match h.data n with
  | some (k, _) => .ok ((), { h with data := fun x => if x = n then some (k, t) else h.data x })
  | none => .ub .access

section Map
variable [DecidableEq K] (lt : K → K → Bool)

/-- `operator[]`, map.hpp:198-204; the returned `T &` is represented by its node. `dflt` is `T()`. -/
def subscript (dflt : T) (hd : Addr) (key : K) : Prog (Heap (K × T)) Addr := do
  let n ← find lt Prod.fst hd key
  if n = hd then do
    let r ← insertUnique lt Prod.fst hd (key, dflt)
    pure r.1
  else pure n

/-- `at(key)`, map.hpp:206-207, read: there is no check, so for a missing key this reads `header_`'s data. -/
def atKey (hd : Addr) (key : K) : Prog (Heap (K × T)) T := do
  pure (← dataOf (← find lt Prod.fst hd key)).2

/-- `at(key) = t`, map.hpp:206. -/
def atAssign (hd : Addr) (key : K) (t : T) : Prog (Heap (K × T)) Unit := do
  storeSecond (← find lt Prod.fst hd key) t

end Map

/-! ## Client code used to observe a container -/

/-- `for (; i != end; ++i) out.push_back({i, *i});` -/
def walkFwd (hd i : Addr) (out : List (Addr × V)) : Prog (Heap V) (List (Addr × V)) := do
  if i = hd then pure out
  else do
    let v ← dataOf i
    let j ← nextNode i
    walkFwd hd j (out ++ [(i, v)])
partial_fixpoint

/-- `for (i = begin(); i != end(); ++i)`: every iterator position with the element there. -/
def entries (hd : Addr) : Prog (Heap V) (List (Addr × V)) := do
  walkFwd hd (← begin_ hd) []

/-- `while (i != begin) { --i; out.push_back({i, *i}); }` -/
def walkBwd (first i : Addr) (out : List (Addr × V)) : Prog (Heap V) (List (Addr × V)) := do
  if i = first then pure out
  else do
    let j ← iterPrev i
    let v ← dataOf j
    walkBwd first j (out ++ [(j, v)])
partial_fixpoint

/-- `for (i = end(); i != begin(); )` -/
def entriesBackward (hd : Addr) : Prog (Heap V) (List (Addr × V)) := do
  walkBwd (← begin_ hd) hd []

end Verif.Rb
