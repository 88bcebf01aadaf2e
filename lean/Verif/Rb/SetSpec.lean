import Verif.Rb.MapModel
import Verif.Order
/-!
# Client programs over `ttl::set`, and what they must observe

As for `ttl::map`: `run` executes calls on the model of the code, `SpecRun` says, in terms of mathematical sets
`K → Bool` only, which outputs and final sets are right.
-/
namespace Verif.Rb.SetApi
open Verif
variable {K : Type}

/-- Calls a client can make. Objects are numbered by creation order among the living ones. -/
inductive Op (K : Type) where
  /-- `set s;` -/
  | create
  /-- `set s(first, last);` -/
  | ofRange (ks : List K)
  /-- `set s(objs[i]);` -/
  | copyOf (i : Nat)
  /-- `objs[i] = objs[j];` -/
  | assign (i j : Nat)
  /-- end of the life of `objs[i]` -/
  | destroy (i : Nat)
  /-- `objs[i].insert(k).second` -/
  | insert (i : Nat) (k : K)
  /-- `objs[i].insert(first, last)` -/
  | insertRange (i : Nat) (ks : List K)
  /-- `objs[i].erase(k)` -/
  | erase (i : Nat) (k : K)
  /-- `it = objs[i].find(k)`, then `it == end() ? none : *it` -/
  | find (i : Nat) (k : K)
  /-- `objs[i].count(k)` -/
  | count (i : Nat) (k : K)
  /-- `objs[i].empty()` -/
  | empty (i : Nat)
  /-- `objs[i].clear()` -/
  | clear (i : Nat)
  /-- all elements from `begin()` to `end()` -/
  | iterate (i : Nat)
  /-- all elements from `end()` back to `begin()` -/
  | iterateBack (i : Nat)
  /-- `objs[i] == objs[j]` -/
  | equal (i j : Nat)
  /-- `it = objs[i].lower_bound(k)`, then `it == end() ? none : *it` -/
  | lower (i : Nat) (k : K)

/-- What a call returns. -/
inductive Out (K : Type) where
  /-- there is no such object: nothing was called -/
  | skip
  | unit
  | bool (b : Bool)
  | nat (n : Nat)
  | elem (e : Option K)
  | elems (l : List K)

section Exec
variable [DecidableEq K] (lt : K → K → Bool)

/-- Run `f` on object `i` if it exists. -/
def on (objs : List Addr) (i : Nat) (f : Addr → Prog (Heap K) (Out K)) : Prog (Heap K) (Out K × List Addr) :=
  match objs[i]? with
  | none => pure (.skip, objs)
  | some hd => do pure (← f hd, objs)

/-- Execute one call on the model of the code. -/
def exec (objs : List Addr) : Op K → Prog (Heap K) (Out K × List Addr)
  | .create => do pure (.unit, objs ++ [← newTree])
  | .ofRange ks => do pure (.unit, objs ++ [← rangeCtor lt id ks])
  | .copyOf i => match objs[i]? with
    | none => pure (.skip, objs)
    | some a => do pure (.unit, objs ++ [← copyCtor a])
  | .assign i j => match objs[i]?, objs[j]? with
    | some a, some b => do opAssign a b; pure (.unit, objs)
    | _, _ => pure (.skip, objs)
  | .destroy i => match objs[i]? with
    | none => pure (.skip, objs)
    | some a => do Rb.destroy a; pure (.unit, objs.eraseIdx i)
  | .insert i k => on objs i fun a => do pure (.bool (← insertUnique lt id a k).2)
  | .insertRange i ks => on objs i fun a => do Rb.insertRange lt id a ks; pure .unit
  | .erase i k => on objs i fun a => do pure (.nat (← Rb.erase lt id a k))
  | .find i k => on objs i fun a => do
      let n ← Rb.find lt id a k
      if n = a then pure (.elem none) else pure (.elem (some (← dataOf n)))
  | .count i k => on objs i fun a => do pure (.nat (← countKey lt id a k))
  | .empty i => on objs i fun a => do pure (.bool (← Rb.empty a))
  | .clear i => on objs i fun a => do Rb.clear a; pure .unit
  | .iterate i => on objs i fun a => do pure (.elems ((← entries a).map Prod.snd))
  | .iterateBack i => on objs i fun a => do pure (.elems ((← entriesBackward a).map Prod.snd))
  | .equal i j => match objs[i]?, objs[j]? with
    | some a, some b => do pure (.bool (← opEq (fun x y => decide (x = y)) a b), objs)
    | _, _ => pure (.skip, objs)
  | .lower i k => on objs i fun a => do
      let n ← lowerBound lt id a k
      if n = a then pure (.elem none) else pure (.elem (some (← dataOf n)))

/-- Execute a program; the outputs in order. -/
def run (objs : List Addr) : List (Op K) → Prog (Heap K) (List (Out K) × List Addr)
  | [] => pure ([], objs)
  | op :: ops => do
    let (out, objs) ← exec lt objs op
    let (outs, objs) ← run objs ops
    pure (out :: outs, objs)

end Exec

/-! ## Specification -/

section Spec
variable [DecidableEq K]

/-- The empty set. -/
def nothing : K → Bool := fun _ => false
/-- `s ∪ {k}`. -/
def add (s : K → Bool) (k : K) : K → Bool := fun k' => decide (k' = k) || s k'
/-- `s \ {k}`. -/
def del (s : K → Bool) (k : K) : K → Bool := fun k' => !decide (k' = k) && s k'
/-- `s ∪ ks`. -/
def addAll (s : K → Bool) (ks : List K) : K → Bool := fun k' => decide (k' ∈ ks) || s k'

/-- `l` lists the elements of `s` in strictly ascending order. -/
def Lists (lt : K → K → Bool) (l : List K) (s : K → Bool) : Prop :=
  l.Pairwise (fun a b => lt a b = true) ∧ ∀ k, k ∈ l ↔ s k = true

/-- Object `i` of `ss`: `P` says which output and new value are right for it. -/
def At (ss : List (K → Bool)) (i : Nat) (out : Out K) (ss' : List (K → Bool))
    (P : (K → Bool) → Out K → (K → Bool) → Prop) : Prop :=
  match ss[i]? with
  | none => out = .skip ∧ ss' = ss
  | some s => ∃ s', P s out s' ∧ ss' = ss.set i s'

/-- One call on mathematical sets: may it return `out` and leave `ss'`? -/
def SpecStep (lt : K → K → Bool) (ss : List (K → Bool)) (op : Op K) (out : Out K) (ss' : List (K → Bool)) : Prop :=
  match op with
  | .create => out = .unit ∧ ss' = ss ++ [nothing]
  | .ofRange ks => out = .unit ∧ ss' = ss ++ [addAll nothing ks]
  | .copyOf i => match ss[i]? with
    | none => out = .skip ∧ ss' = ss
    | some s => out = .unit ∧ ss' = ss ++ [s]
  | .assign i j => match ss[i]?, ss[j]? with
    | some _, some s => out = .unit ∧ ss' = ss.set i s
    | _, _ => out = .skip ∧ ss' = ss
  | .destroy i => match ss[i]? with
    | none => out = .skip ∧ ss' = ss
    | some _ => out = .unit ∧ ss' = ss.eraseIdx i
  | .insert i k => At ss i out ss' fun s out s' => out = .bool (!s k) ∧ s' = add s k
  | .insertRange i ks => At ss i out ss' fun s out s' => out = .unit ∧ s' = addAll s ks
  | .erase i k => At ss i out ss' fun s out s' => out = .nat (if s k then 1 else 0) ∧ s' = del s k
  | .find i k => At ss i out ss' fun s out s' => out = .elem (if s k then some k else none) ∧ s' = s
  | .count i k => At ss i out ss' fun s out s' => out = .nat (if s k then 1 else 0) ∧ s' = s
  | .empty i => At ss i out ss' fun s out s' => ∃ b, out = .bool b ∧ (b = true ↔ ∀ k, s k = false) ∧ s' = s
  | .clear i => At ss i out ss' fun _ out s' => out = .unit ∧ s' = nothing
  | .iterate i => At ss i out ss' fun s out s' => ∃ l, out = .elems l ∧ Lists lt l s ∧ s' = s
  | .iterateBack i => At ss i out ss' fun s out s' => ∃ l, out = .elems l ∧ Lists lt l.reverse s ∧ s' = s
  | .equal i j => match ss[i]?, ss[j]? with
    | some s1, some s2 => ∃ b, out = .bool b ∧ (b = true ↔ s1 = s2) ∧ ss' = ss
    | _, _ => out = .skip ∧ ss' = ss
  | .lower i k => At ss i out ss' fun s out s' => s' = s ∧
      ((out = .elem none ∧ ∀ k', s k' = true → lt k' k = true) ∨
       ∃ k0, out = .elem (some k0) ∧ s k0 = true ∧ lt k0 k = false ∧
         ∀ k', s k' = true → lt k' k = false → lt k' k0 = false)

/-- A whole program. -/
inductive SpecRun (lt : K → K → Bool) :
    List (K → Bool) → List (Op K) → List (Out K) → List (K → Bool) → Prop where
  | nil {ss} : SpecRun lt ss [] [] ss
  | cons {ss op out ss1 ops outs ss2} : SpecStep lt ss op out ss1 → SpecRun lt ss1 ops outs ss2 →
      SpecRun lt ss (op :: ops) (out :: outs) ss2

end Spec

/-- The program assigns no object to itself (`s = s`, see C11). -/
def NoSelfAssign (ops : List (Op K)) : Prop := ∀ i, Op.assign i i ∉ ops

end Verif.Rb.SetApi
