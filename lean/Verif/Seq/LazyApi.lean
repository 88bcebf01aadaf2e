import Verif.Seq.LazyOps
import Verif.Seq.ListApi
/-!
# Client programs over `ttl::lazy_queue`

A client keeps any number of `ttl::lazy_queue<T>` objects in one memory and calls their members in any order.
Positions are indices: position 0 is `before_begin()`, position `i + 1` the `i`-th element, position `size + 1` is `end()`;
the client obtains the iterator by advancing `before_begin()`.

The state of a queue is its elements together with the nodes it keeps for reuse (most recently returned first).
`Legal` are the preconditions. Three of them are there because of what the code does: a queue of a type with a non-trivial destructor
may be destroyed or cleaned up only while it holds no pooled node, a queue may not be assigned to itself, and an empty queue may not be swapped
with another one; `LazyProps2` has theorems about what happens otherwise.
-/
set_option linter.unusedVariables false
set_option linter.unusedSimpArgs false
namespace Verif.Seq.LQueue
open Verif
open Verif.Seq.DList (Arg fresh insertAt slice cut Blank)
variable {T : Type}

/-- Elements (node address and value), and the pooled nodes. -/
structure QState (T : Type) where
  elems : List (Addr × T)
  pool : List Addr

/-- Mathematical state: the queues that exist. -/
def State (T : Type) := Addr → Option (QState T)

/-- The calls. `value` arguments are references: to an object outside the queues or to an element. -/
inductive Call (T : Type) where
  /-- `lazy_queue<T> c;` -/
  | create
  /-- `lazy_queue<T> c(s);` -/
  | copyOf (s : Addr)
  /-- `lazy_queue<T> c(n, v);` -/
  | ctorN (n : Nat) (value : Arg T)
  /-- end of life of `c` -/
  | destroy (c : Addr)
  /-- `c.cleanup()` -/
  | cleanup (c : Addr)
  /-- `c.push_front(v)` -/
  | pushFront (c : Addr) (v : T)
  /-- `c.push_back(v)` -/
  | pushBack (c : Addr) (v : T)
  /-- `c.pop_front()` -/
  | popFront (c : Addr)
  /-- `c.insert_after(pos_i, v)` -/
  | insert (c : Addr) (i : Nat) (v : T)
  /-- `c.insert_after(pos_i, n, v)` -/
  | insertN (c : Addr) (i n : Nat) (value : Arg T)
  /-- `c.insert_after(pos_i, first, last)` -/
  | insertVals (c : Addr) (i : Nat) (vs : List T)
  /-- `c.insert_after(pos_i, d.begin(), d.end())` -/
  | insertQueue (c : Addr) (i : Nat) (d : Addr)
  /-- `c.erase_after(pos_i)` -/
  | erase (c : Addr) (i : Nat)
  /-- `c.erase_after(pos_i, pos_j)` -/
  | eraseRange (c : Addr) (i j : Nat)
  /-- `c.clear()` -/
  | clear (c : Addr)
  /-- `c = d` -/
  | assign (c d : Addr)
  /-- `c.swap(d)` -/
  | swap (c d : Addr)
  /-- `c.roll_head()` -/
  | rollHead (c : Addr)
  /-- `*it = v` for the `i`-th element -/
  | store (c : Addr) (i : Nat) (v : T)

/-- Execute a call. -/
def exec (triv : Bool) : Call T → Prog (Heap T) Unit
  | .create => do let _ ← create
  | .copyOf s => do let _ ← copyCtor s
  | .ctorN n v => do let _ ← ctorN n v
  | .destroy c => destroy triv c
  | .cleanup c => cleanup triv c
  | .pushFront c v => pushFront c v
  | .pushBack c v => pushBack c v
  | .popFront c => popFront c
  | .insert c i v => do let _ ← insertOne c (← SList.posAt c i) v
  | .insertN c i n v => do insertN c (← SList.posAt c i) n v
  | .insertVals c i vs => do insertVals c (← SList.posAt c i) vs
  | .insertQueue c i d => do insertNodes c (← SList.posAt c i) (← getNext d) 0
  | .erase c i => do let _ ← eraseAfter c (← SList.posAt c i)
  | .eraseRange c i j => do let _ ← eraseRange c (← SList.posAt c i) (← SList.posAt c j)
  | .clear c => clear c
  | .assign c d => opAssign c d
  | .swap c d => swap c d
  | .rollHead c => rollHead c
  | .store c i v => do setVal (← SList.posAt c (i + 1)) v

/-! ## Specification -/

/-- The elements of `c`. -/
def State.get (S : State T) (c : Addr) : List (Addr × T) := ((S c).map QState.elems).getD []
/-- The nodes `c` keeps for reuse. -/
def State.pool (S : State T) (c : Addr) : List Addr := ((S c).map QState.pool).getD []
/-- `c` becomes a queue with elements `es` and pooled nodes `ns`. -/
def State.put (S : State T) (c : Addr) (es : List (Addr × T)) (ns : List Addr) : State T := upd S c (some ⟨es, ns⟩)
/-- `c` exists. -/
def State.Exists (S : State T) (c : Addr) : Prop := ∃ s, S c = some s

/-- A reference argument refers to an object with value `v`. -/
def State.Refers (S : State T) (v : T) : Arg T → Prop
  | .ext w => w = v
  | .elem a => ∃ c s, S c = some s ∧ (a, v) ∈ s.elems

/-- The value a reference argument has (for an argument that refers to an object). -/
noncomputable def State.valueOf (S : State T) : Arg T → Option T
  | .ext w => some w
  | .elem a => by
      classical
      exact if e : ∃ v, S.Refers v (.elem a) then some e.choose else none

/-- Replicas of the value of a reference argument. -/
noncomputable def State.copies (S : State T) (n : Nat) (value : Arg T) : List T :=
  match S.valueOf value with
  | some v => List.replicate n v
  | none => []

/-- The preconditions of a call. -/
def Legal (triv : Bool) (S : State T) : Call T → Prop
  | .create => True
  | .copyOf s => S.Exists s
  | .ctorN _ value => ∃ v, S.Refers v value
  | .destroy c => S.Exists c ∧ (triv = true ∨ S.pool c = [])
  | .cleanup c => S.Exists c ∧ (triv = true ∨ S.pool c = [])
  | .pushFront c _ => S.Exists c
  | .pushBack c _ => S.Exists c
  | .popFront c => S.Exists c ∧ S.get c ≠ []
  | .insert c i _ => S.Exists c ∧ i ≤ (S.get c).length
  | .insertN c i _ value => S.Exists c ∧ i ≤ (S.get c).length ∧ ∃ v, S.Refers v value
  | .insertVals c i _ => S.Exists c ∧ i ≤ (S.get c).length
  | .insertQueue c i d => S.Exists c ∧ i ≤ (S.get c).length ∧ S.Exists d ∧ c ≠ d
  | .erase c i => S.Exists c ∧ i < (S.get c).length
  | .eraseRange c i j => S.Exists c ∧ i < j ∧ j ≤ (S.get c).length + 1
  | .clear c => S.Exists c
  | .assign c d => S.Exists c ∧ S.Exists d ∧ c ≠ d
  | .swap c d => S.Exists c ∧ S.Exists d ∧ (c = d ∨ S.get c ≠ [] ∧ S.get d ≠ [])
  | .rollHead c => S.Exists c
  | .store c i _ => S.Exists c ∧ i < (S.get c).length

/-- `xs` (made from pooled nodes as far as there are any) is inserted behind position `i` of `c`. -/
def State.ins (S : State T) (a c : Addr) (i : Nat) (vs : List T) : State T :=
  S.put c (insertAt i (alloc a (S.pool c) vs) (S.get c)) ((S.pool c).drop vs.length)

/-- The effect of a call, `a` being the next address the allocator hands out. -/
noncomputable def spec (S : State T) (a : Addr) : Call T → State T
  | .create => S.put a [] []
  | .copyOf s => S.put a (fresh (a + 2) ((S.get s).map Prod.snd)) []
  | .ctorN n value => S.put a (fresh (a + 2) (S.copies n value)) []
  | .destroy c => upd S c none
  | .cleanup c => S.put c (S.get c) []
  | .pushFront c v => S.ins a c 0 [v]
  | .pushBack c v => S.ins a c (S.get c).length [v]
  | .popFront c => S.put c (S.get c).tail (((S.get c).take 1).map Prod.fst ++ S.pool c)
  | .insert c i v => S.ins a c i [v]
  | .insertN c i n value => S.ins a c i (S.copies n value)
  | .insertVals c i vs => S.ins a c i vs
  | .insertQueue c i d => S.ins a c i ((S.get d).map Prod.snd)
  | .erase c i => S.put c ((S.get c).eraseIdx i) ((slice i (i + 1) (S.get c)).map Prod.fst ++ S.pool c)
  | .eraseRange c i j => S.put c (cut i (j - 1) (S.get c)) (((slice i (j - 1) (S.get c)).map Prod.fst).reverse ++ S.pool c)
  | .clear c => S.put c [] (((S.get c).map Prod.fst).reverse ++ S.pool c)
  | .assign c d =>
      S.put c (alloc a (((S.get c).map Prod.fst).reverse ++ S.pool c) ((S.get d).map Prod.snd))
        ((((S.get c).map Prod.fst).reverse ++ S.pool c).drop (S.get d).length)
  | .swap c d => if c = d then S else (S.put c (S.get d) (S.pool c)).put d (S.get c) (S.pool d)
  | .rollHead c => S.put c ((S.get c).tail ++ (S.get c).take 1) (S.pool c)
  | .store c i v => S.put c ((S.get c).modify i fun e => (e.1, v)) (S.pool c)

/-- `Reach S h`: some client program ends in memory `h` and, by the specification, in state `S`. Between the calls the rest of the
program does what `Env` allows. -/
inductive Reach (triv : Bool) : State T → Heap T → Prop where
  | start {h : Heap T} : Blank h → Reach triv (fun _ => none) h
  | step {S : State T} {h h' : Heap T} (c : Call T) : Reach triv S h → Legal triv S c → exec triv c h = .ok ((), h') →
      Reach triv (spec S h.fresh c) h'
  | env {S : State T} {h h' : Heap T} : Reach triv S h → Env h h' → Reach triv S h'

/-- `ttl::lazy_queue` as a kind of container; `tail_` is always at the last element. -/
def iface : Iface T (QState T) where
  own h c s := Queue h c s.elems s.pool ∧ h.tail c = lastOf c (s.elems.map Prod.fst)
  cells c s := qcells c s.elems s.pool
  frame o e := ⟨o.1.frame e, (e _ (mem_qcells.2 (.inl (by simp [scells])))).tail.trans o.2⟩
  live o := o.1.live
  self := by intro c s; exact mem_qcells.2 (.inl (by simp [scells]))

end Verif.Seq.LQueue
