import Verif.Seq.SOps2
import Verif.Seq.ListApi
/-!
# Client programs over `ttl::forward_list`

A client keeps any number of `ttl::forward_list<T>` objects in one memory and calls their members in any order.
Positions are indices: position 0 is `before_begin()`, position `i + 1` the `i`-th element, position `size + 1` is `end()`;
the client obtains the iterator by advancing `before_begin()`.

`Legal` are the preconditions, `spec` the mathematical effect of the calls. New nodes get consecutive addresses from the
allocator's next address `a` on. `Legal` excludes the calls for which the code is wrong (treated in `Verif.Seq.FwdProps`): empty
ranges and empty lists in `splice_after`, moving an element behind itself, self-assignment, and an own element as the value of
`assign(n, value)`.
-/
set_option linter.unusedVariables false
set_option linter.unusedSimpArgs false
namespace Verif.Seq.FList
open Verif
open Verif.Seq.DList (Arg fresh insertAt slice cut Blank)
variable {T : Type}

/-- Mathematical state: the lists that exist, with their elements (node address and value). -/
def State (T : Type) := Addr → Option (List (Addr × T))

/-- The calls. `value` arguments are references: to an object outside the lists or to an element. -/
inductive Call (T : Type) where
  /-- `forward_list<T> c;` -/
  | create
  /-- `forward_list<T> c(s);` -/
  | copyOf (s : Addr)
  /-- `forward_list<T> c(n, v);` -/
  | ctorN (n : Nat) (value : Arg T)
  /-- `forward_list<T> c(first, last);` -/
  | ctorVals (vs : List T)
  /-- end of life of `c` -/
  | destroy (c : Addr)
  /-- `c.push_front(v)` -/
  | pushFront (c : Addr) (v : T)
  /-- `c.pop_front()` -/
  | popFront (c : Addr)
  /-- `c.insert_after(pos_i, v)` -/
  | insert (c : Addr) (i : Nat) (v : T)
  /-- `c.insert_after(pos_i, n, v)` -/
  | insertN (c : Addr) (i n : Nat) (value : Arg T)
  /-- `c.insert_after(pos_i, first, last)` -/
  | insertVals (c : Addr) (i : Nat) (vs : List T)
  /-- `c.insert_after(pos_i, d.begin(), d.end())` -/
  | insertList (c : Addr) (i : Nat) (d : Addr)
  /-- `c.erase_after(pos_i)` -/
  | erase (c : Addr) (i : Nat)
  /-- `c.erase_after(pos_i, pos_j)` -/
  | eraseRange (c : Addr) (i j : Nat)
  /-- `c.clear()` -/
  | clear (c : Addr)
  /-- `c = d` -/
  | assign (c d : Addr)
  /-- `c.assign(n, v)` -/
  | assignN (c : Addr) (n : Nat) (value : Arg T)
  /-- `c.assign(first, last)` -/
  | assignVals (c : Addr) (vs : List T)
  /-- `c.reverse()` -/
  | reverse (c : Addr)
  /-- `c.splice_after(pos_i, d)` -/
  | spliceAll (c : Addr) (i : Nat) (d : Addr)
  /-- `c.splice_after(pos_i, d, pos_j)`: moves the element after `pos_j` -/
  | spliceOne (c : Addr) (i : Nat) (d : Addr) (j : Nat)
  /-- `c.splice_after(pos_i, d, pos_j, pos_k)`: moves the elements strictly between -/
  | splice (c : Addr) (i : Nat) (d : Addr) (j k : Nat)
  /-- `c.swap(d)` -/
  | swap (c d : Addr)
  /-- `*it = v` for the `i`-th element -/
  | store (c : Addr) (i : Nat) (v : T)

/-- Execute a call. -/
def exec : Call T → Prog (Heap T) Unit
  | .create => do let _ ← create
  | .copyOf s => do let _ ← copyCtor s
  | .ctorN n v => do let _ ← ctorN n v
  | .ctorVals vs => do let _ ← ctorVals vs
  | .destroy c => destroy c
  | .pushFront c v => pushFront c v
  | .popFront c => popFront c
  | .insert c i v => do let _ ← insertOne (← SList.posAt c i) v
  | .insertN c i n v => do insertN (← SList.posAt c i) n v
  | .insertVals c i vs => do insertVals (← SList.posAt c i) vs
  | .insertList c i d => do insertNodes (← SList.posAt c i) (← getNext d) 0
  | .erase c i => do let _ ← eraseAfter (← SList.posAt c i)
  | .eraseRange c i j => do let _ ← eraseRange (← SList.posAt c i) (← SList.posAt c j)
  | .clear c => clear c
  | .assign c d => opAssign c d
  | .assignN c n v => assignN c n v
  | .assignVals c vs => assignVals c vs
  | .reverse c => reverse c
  | .spliceAll c i d => do spliceAll (← SList.posAt c i) d
  | .spliceOne c i d j => do spliceOne (← SList.posAt c i) (← SList.posAt d j)
  | .splice c i d j k => do spliceRange (← SList.posAt c i) (← SList.posAt d j) (← SList.posAt d k)
  | .swap c d => swap c d
  | .store c i v => do setVal (← SList.posAt c (i + 1)) v

/-! ## Specification -/

/-- The elements of `c`. -/
def State.get (S : State T) (c : Addr) : List (Addr × T) := (S c).getD []
/-- `c` becomes a list with elements `es`. -/
def State.put (S : State T) (c : Addr) (es : List (Addr × T)) : State T := upd S c (some es)
/-- `c` exists. -/
def State.Exists (S : State T) (c : Addr) : Prop := ∃ es, S c = some es

/-- A reference argument refers to an object with value `v`. -/
def State.Refers (S : State T) (v : T) : Arg T → Prop
  | .ext w => w = v
  | .elem a => ∃ c es, S c = some es ∧ (a, v) ∈ es

/-- The value a reference argument has (for an argument that refers to an object). -/
noncomputable def State.valueOf (S : State T) : Arg T → Option T
  | .ext w => some w
  | .elem a => by
      classical
      exact if e : ∃ v, S.Refers v (.elem a) then some e.choose else none

/-- Replicas of the value of a reference argument. -/
noncomputable def State.copies (S : State T) (n : Nat) (value : Arg T) : List T :=
  match S.valueOf value with
  | some v => List.replicate n v
  | none => []

/-- The preconditions of a call. -/
def Legal (S : State T) : Call T → Prop
  | .create => True
  | .copyOf s => S.Exists s
  | .ctorN _ value => ∃ v, S.Refers v value
  | .ctorVals _ => True
  | .destroy c => S.Exists c
  | .pushFront c _ => S.Exists c
  | .popFront c => S.Exists c ∧ S.get c ≠ []
  | .insert c i _ => S.Exists c ∧ i ≤ (S.get c).length
  | .insertN c i _ value => S.Exists c ∧ i ≤ (S.get c).length ∧ ∃ v, S.Refers v value
  | .insertVals c i _ => S.Exists c ∧ i ≤ (S.get c).length
  | .insertList c i d => S.Exists c ∧ i ≤ (S.get c).length ∧ S.Exists d ∧ c ≠ d
  | .erase c i => S.Exists c ∧ i < (S.get c).length
  | .eraseRange c i j => S.Exists c ∧ i < j ∧ j ≤ (S.get c).length + 1
  | .clear c => S.Exists c
  | .assign c d => S.Exists c ∧ S.Exists d ∧ c ≠ d
  | .assignN c _ value => S.Exists c ∧ (∃ v, S.Refers v value) ∧ ∀ a, value = .elem a → a ∉ (S.get c).map Prod.fst
  | .assignVals c _ => S.Exists c
  | .reverse c => S.Exists c
  | .spliceAll c i d => S.Exists c ∧ S.Exists d ∧ c ≠ d ∧ i ≤ (S.get c).length ∧ S.get d ≠ []
  | .spliceOne c i d j => S.Exists c ∧ S.Exists d ∧ i ≤ (S.get c).length ∧ j < (S.get d).length ∧ (c = d → i ≠ j + 1)
  | .splice c i d j k => S.Exists c ∧ S.Exists d ∧ i ≤ (S.get c).length ∧ j + 1 < k ∧ k ≤ (S.get d).length + 1 ∧
      (c = d → i < j ∨ k ≤ i)
  | .swap c d => S.Exists c ∧ S.Exists d
  | .store c i _ => S.Exists c ∧ i < (S.get c).length

/-- The effect of a call, `a` being the next address the allocator hands out. -/
noncomputable def spec (S : State T) (a : Addr) : Call T → State T
  | .create => S.put a []
  | .copyOf s => S.put a (fresh (a + 1) ((S.get s).map Prod.snd))
  | .ctorN n value => S.put a (fresh (a + 1) (S.copies n value))
  | .ctorVals vs => S.put a (fresh (a + 1) vs)
  | .destroy c => upd S c none
  | .pushFront c v => S.put c ((a, v) :: S.get c)
  | .popFront c => S.put c (S.get c).tail
  | .insert c i v => S.put c (insertAt i [(a, v)] (S.get c))
  | .insertN c i n value => S.put c (insertAt i (fresh a (S.copies n value)) (S.get c))
  | .insertVals c i vs => S.put c (insertAt i (fresh a vs) (S.get c))
  | .insertList c i d => S.put c (insertAt i (fresh a ((S.get d).map Prod.snd)) (S.get c))
  | .erase c i => S.put c ((S.get c).eraseIdx i)
  | .eraseRange c i j => S.put c (cut i (j - 1) (S.get c))
  | .clear c => S.put c []
  | .assign c d => S.put c (fresh a ((S.get d).map Prod.snd))
  | .assignN c n value => S.put c (fresh a (S.copies n value))
  | .assignVals c vs => S.put c (fresh a vs)
  | .reverse c => S.put c (S.get c).reverse
  | .spliceAll c i d => (S.put c (insertAt i (S.get d) (S.get c))).put d []
  | .spliceOne c i d j =>
      if c = d then S.put c (insertAt (if i ≤ j then i else i - 1) (slice j (j + 1) (S.get c)) (cut j (j + 1) (S.get c)))
      else (S.put c (insertAt i (slice j (j + 1) (S.get d)) (S.get c))).put d (cut j (j + 1) (S.get d))
  | .splice c i d j k =>
      if c = d then S.put c (insertAt (if i ≤ j then i else i - (k - 1 - j)) (slice j (k - 1) (S.get c)) (cut j (k - 1) (S.get c)))
      else (S.put c (insertAt i (slice j (k - 1) (S.get d)) (S.get c))).put d (cut j (k - 1) (S.get d))
  | .swap c d => (S.put c (S.get d)).put d (S.get c)
  | .store c i v => S.put c ((S.get c).modify i fun e => (e.1, v))

/-- `Reach S h`: some client program ends in memory `h` and, by the specification, in state `S`. Between the calls the rest of the
program does what `Env` allows. -/
inductive Reach : State T → Heap T → Prop where
  | start {h : Heap T} : Blank h → Reach (fun _ => none) h
  | step {S : State T} {h h' : Heap T} (c : Call T) : Reach S h → Legal S c → exec c h = .ok ((), h') →
      Reach (spec S h.fresh c) h'
  | env {S : State T} {h h' : Heap T} : Reach S h → Env h h' → Reach S h'

/-- `ttl::forward_list` as a kind of container. -/
def iface : Iface T (List (Addr × T)) where
  own := Slist
  cells := scells
  frame := Slist.frame
  live := Slist.live
  self := by intro c s; simp [scells]

end Verif.Seq.FList
