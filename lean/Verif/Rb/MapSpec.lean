import Verif.Rb.MapModel
import Verif.Order
/-!
# Client programs over `ttl::map`, and what they must observe

A client program is a list of calls on any number of map objects living in one memory. `run` executes the
calls on the model of the code. `SpecRun` says, in terms of mathematical finite maps `K → Option T` only,
which outputs and final maps are right.
-/
namespace Verif.Rb.MapApi
open Verif
variable {K T : Type}

/-- Calls a client can make. Objects are numbered by creation order among the living ones. -/
inductive Op (K T : Type) where
  /-- `map m;` -/
  | create
  /-- `map m(first, last);` -/
  | ofRange (kvs : List (K × T))
  /-- `map m(objs[i]);` -/
  | copyOf (i : Nat)
  /-- `objs[i] = objs[j];` -/
  | assign (i j : Nat)
  /-- end of the life of `objs[i]` -/
  | destroy (i : Nat)
  /-- `objs[i].insert(make_pair(k, t)).second` -/
  | insert (i : Nat) (k : K) (t : T)
  /-- `objs[i].insert(first, last)` -/
  | insertRange (i : Nat) (kvs : List (K × T))
  /-- `objs[i][k] = t` -/
  | put (i : Nat) (k : K) (t : T)
  /-- `objs[i][k]`, read -/
  | get (i : Nat) (k : K)
  /-- `objs[i].erase(k)` -/
  | erase (i : Nat) (k : K)
  /-- `it = objs[i].find(k)`, then `it == end() ? none : it->second` -/
  | find (i : Nat) (k : K)
  /-- `objs[i].count(k)` -/
  | count (i : Nat) (k : K)
  /-- `objs[i].empty()` -/
  | empty (i : Nat)
  /-- `objs[i].clear()` -/
  | clear (i : Nat)
  /-- all elements from `begin()` to `end()` -/
  | iterate (i : Nat)
  /-- all elements from `end()` back to `begin()` -/
  | iterateBack (i : Nat)
  /-- `objs[i] == objs[j]` -/
  | equal (i j : Nat)
  /-- `it = objs[i].lower_bound(k)`, then `it == end() ? none : *it` -/
  | lower (i : Nat) (k : K)

/-- What a call returns. -/
inductive Out (K T : Type) where
  /-- there is no such object: nothing was called -/
  | skip
  | unit
  | bool (b : Bool)
  | nat (n : Nat)
  | value (t : Option T)
  | elem (e : Option (K × T))
  | elems (l : List (K × T))

section Exec
variable [DecidableEq K] [DecidableEq T] (lt : K → K → Bool) (dflt : T)

/-- Run `f` on object `i` if it exists. -/
def on (objs : List Addr) (i : Nat) (f : Addr → Prog (Heap (K × T)) (Out K T)) :
    Prog (Heap (K × T)) (Out K T × List Addr) :=
  match objs[i]? with
  | none => pure (.skip, objs)
  | some hd => do pure (← f hd, objs)

/-- Execute one call on the model of the code. -/
def exec (objs : List Addr) : Op K T → Prog (Heap (K × T)) (Out K T × List Addr)
  | .create => do pure (.unit, objs ++ [← newTree])
  | .ofRange kvs => do pure (.unit, objs ++ [← rangeCtor lt Prod.fst kvs])
  | .copyOf i => match objs[i]? with
    | none => pure (.skip, objs)
    | some a => do pure (.unit, objs ++ [← copyCtor a])
  | .assign i j => match objs[i]?, objs[j]? with
    | some a, some b => do opAssign a b; pure (.unit, objs)
    | _, _ => pure (.skip, objs)
  | .destroy i => match objs[i]? with
    | none => pure (.skip, objs)
    | some a => do Rb.destroy a; pure (.unit, objs.eraseIdx i)
  | .insert i k t => on objs i fun a => do pure (.bool (← insertUnique lt Prod.fst a (k, t)).2)
  | .insertRange i kvs => on objs i fun a => do Rb.insertRange lt Prod.fst a kvs; pure .unit
  | .put i k t => on objs i fun a => do storeSecond (← subscript lt dflt a k) t; pure .unit
  | .get i k => on objs i fun a => do pure (.value (some (← dataOf (← subscript lt dflt a k)).2))
  | .erase i k => on objs i fun a => do pure (.nat (← Rb.erase lt Prod.fst a k))
  | .find i k => on objs i fun a => do
      let n ← Rb.find lt Prod.fst a k
      if n = a then pure (.value none) else pure (.value (some (← dataOf n).2))
  | .count i k => on objs i fun a => do pure (.nat (← countKey lt Prod.fst a k))
  | .empty i => on objs i fun a => do pure (.bool (← Rb.empty a))
  | .clear i => on objs i fun a => do Rb.clear a; pure .unit
  | .iterate i => on objs i fun a => do pure (.elems ((← entries a).map Prod.snd))
  | .iterateBack i => on objs i fun a => do pure (.elems ((← entriesBackward a).map Prod.snd))
  | .equal i j => match objs[i]?, objs[j]? with
    | some a, some b => do
        pure (.bool (← opEq (fun x y => decide (x.1 = y.1) && decide (x.2 = y.2)) a b), objs)
    | _, _ => pure (.skip, objs)
  | .lower i k => on objs i fun a => do
      let n ← lowerBound lt Prod.fst a k
      if n = a then pure (.elem none) else pure (.elem (some (← dataOf n)))

/-- Execute a program; the outputs in order. -/
def run (objs : List Addr) : List (Op K T) → Prog (Heap (K × T)) (List (Out K T) × List Addr)
  | [] => pure ([], objs)
  | op :: ops => do
    let (out, objs) ← exec lt dflt objs op
    let (outs, objs) ← run objs ops
    pure (out :: outs, objs)

end Exec

/-! ## Specification -/

section Spec
variable [DecidableEq K]

/-- The map with no keys. -/
def nothing : K → Option T := fun _ => none

/-- `m` with `k ↦ t`. -/
def set (m : K → Option T) (k : K) (t : T) : K → Option T := fun k' => if k' = k then some t else m k'
/-- `m` without `k`. -/
def del (m : K → Option T) (k : K) : K → Option T := fun k' => if k' = k then none else m k'
/-- `m` with `k ↦ t` if `k` was absent. -/
def add (m : K → Option T) (k : K) (t : T) : K → Option T :=
  match m k with
  | some _ => m
  | none => set m k t
/-- The pairs added one by one. -/
def addAll (m : K → Option T) : List (K × T) → K → Option T
  | [] => m
  | kv :: kvs => addAll (add m kv.1 kv.2) kvs

/-- `l` lists the pairs of `m` in strictly ascending key order. -/
def Lists (lt : K → K → Bool) (l : List (K × T)) (m : K → Option T) : Prop :=
  l.Pairwise (fun a b => lt a.1 b.1 = true) ∧ ∀ k t, (k, t) ∈ l ↔ m k = some t

/-- Same, on object `i` of `ms`: `P` says which output and new value are right for it. -/
def At (ms : List (K → Option T)) (i : Nat) (out : Out K T) (ms' : List (K → Option T))
    (P : (K → Option T) → Out K T → (K → Option T) → Prop) : Prop :=
  match ms[i]? with
  | none => out = .skip ∧ ms' = ms
  | some m => ∃ m', P m out m' ∧ ms' = ms.set i m'

/-- One call on mathematical maps: may it return `out` and leave `ms'`? -/
def SpecStep (lt : K → K → Bool) (dflt : T) (ms : List (K → Option T)) (op : Op K T) (out : Out K T)
    (ms' : List (K → Option T)) : Prop :=
  match op with
  | .create => out = .unit ∧ ms' = ms ++ [nothing]
  | .ofRange kvs => out = .unit ∧ ms' = ms ++ [addAll nothing kvs]
  | .copyOf i => match ms[i]? with
    | none => out = .skip ∧ ms' = ms
    | some m => out = .unit ∧ ms' = ms ++ [m]
  | .assign i j => match ms[i]?, ms[j]? with
    | some _, some m => out = .unit ∧ ms' = ms.set i m
    | _, _ => out = .skip ∧ ms' = ms
  | .destroy i => match ms[i]? with
    | none => out = .skip ∧ ms' = ms
    | some _ => out = .unit ∧ ms' = ms.eraseIdx i
  | .insert i k t => At ms i out ms' fun m out m' => out = .bool (m k).isNone ∧ m' = add m k t
  | .insertRange i kvs => At ms i out ms' fun m out m' => out = .unit ∧ m' = addAll m kvs
  | .put i k t => At ms i out ms' fun m out m' => out = .unit ∧ m' = set m k t
  | .get i k => At ms i out ms' fun m out m' =>
      out = .value (some ((m k).getD dflt)) ∧ m' = set m k ((m k).getD dflt)
  | .erase i k => At ms i out ms' fun m out m' =>
      out = .nat (if (m k).isSome then 1 else 0) ∧ m' = del m k
  | .find i k => At ms i out ms' fun m out m' => out = .value (m k) ∧ m' = m
  | .count i k => At ms i out ms' fun m out m' => out = .nat (if (m k).isSome then 1 else 0) ∧ m' = m
  | .empty i => At ms i out ms' fun m out m' =>
      ∃ b, out = .bool b ∧ (b = true ↔ ∀ k, m k = none) ∧ m' = m
  | .clear i => At ms i out ms' fun _ out m' => out = .unit ∧ m' = nothing
  | .iterate i => At ms i out ms' fun m out m' => ∃ l, out = .elems l ∧ Lists lt l m ∧ m' = m
  | .iterateBack i => At ms i out ms' fun m out m' => ∃ l, out = .elems l ∧ Lists lt l.reverse m ∧ m' = m
  | .equal i j => match ms[i]?, ms[j]? with
    | some m1, some m2 => ∃ b, out = .bool b ∧ (b = true ↔ m1 = m2) ∧ ms' = ms
    | _, _ => out = .skip ∧ ms' = ms
  | .lower i k => At ms i out ms' fun m out m' => m' = m ∧
      ((out = .elem none ∧ ∀ k' t, m k' = some t → lt k' k = true) ∨
       ∃ k0 t0, out = .elem (some (k0, t0)) ∧ m k0 = some t0 ∧ lt k0 k = false ∧
         ∀ k' t, m k' = some t → lt k' k = false → lt k' k0 = false)

/-- A whole program. -/
inductive SpecRun (lt : K → K → Bool) (dflt : T) :
    List (K → Option T) → List (Op K T) → List (Out K T) → List (K → Option T) → Prop where
  | nil {ms} : SpecRun lt dflt ms [] [] ms
  | cons {ms op out ms1 ops outs ms2} : SpecStep lt dflt ms op out ms1 → SpecRun lt dflt ms1 ops outs ms2 →
      SpecRun lt dflt ms (op :: ops) (out :: outs) ms2

end Spec

/-- The program assigns no object to itself (`m = m`, see C11). -/
def NoSelfAssign (ops : List (Op K T)) : Prop := ∀ i, Op.assign i i ∉ ops

end Verif.Rb.MapApi
