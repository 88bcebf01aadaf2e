import Verif.Seq.SOps2
import Verif.Seq.ListApi
/-!
# Client programs over `ttl::backward_list`

A client keeps any number of `ttl::backward_list<T>` objects in one memory and calls their members in any order.
Positions are indices: position 0 is `before_begin()`, position `i + 1` the `i`-th element, position `size + 1` is `end()`;
the client obtains the iterator by advancing `before_begin()`.

The state of a list is its elements together with what `before_end()` returns: the code does not keep that position at the last
element in all cases, and `push_back` inserts behind it. `spec` therefore describes both; `Healthy` says that the position is
right. `Legal` are the preconditions; `push_back` additionally requires that the position is still in the list.
-/
set_option linter.unusedVariables false
set_option linter.unusedSimpArgs false
namespace Verif.Seq.BList
open Verif
open Verif.Seq.DList (Arg fresh insertAt slice cut Blank)
variable {T : Type}

/-- Elements (node address and value), and the iterator `before_end()` returns. -/
structure BState (T : Type) where
  elems : List (Addr × T)
  tail : Addr

/-- Mathematical state: the lists that exist. -/
def State (T : Type) := Addr → Option (BState T)

/-- The calls. `value` arguments are references: to an object outside the lists or to an element. -/
inductive Call (T : Type) where
  /-- `backward_list<T> c;` -/
  | create
  /-- `backward_list<T> c(s);` -/
  | copyOf (s : Addr)
  /-- `backward_list<T> c(n, v);` -/
  | ctorN (n : Nat) (value : Arg T)
  /-- `backward_list<T> c(first, last);` -/
  | ctorVals (vs : List T)
  /-- end of life of `c` -/
  | destroy (c : Addr)
  /-- `c.push_front(v)` -/
  | pushFront (c : Addr) (v : T)
  /-- `c.push_back(v)` -/
  | pushBack (c : Addr) (v : T)
  /-- `c.pop_front()` -/
  | popFront (c : Addr)
  /-- `c.insert_after(pos_i, v)` -/
  | insert (c : Addr) (i : Nat) (v : T)
  /-- `c.insert_after(pos_i, n, v)` -/
  | insertN (c : Addr) (i n : Nat) (value : Arg T)
  /-- `c.insert_after(pos_i, first, last)` -/
  | insertVals (c : Addr) (i : Nat) (vs : List T)
  /-- `c.insert_after(pos_i, d.begin(), d.end())` -/
  | insertList (c : Addr) (i : Nat) (d : Addr)
  /-- `c.erase_after(pos_i)` -/
  | erase (c : Addr) (i : Nat)
  /-- `c.erase_after(pos_i, pos_j)` -/
  | eraseRange (c : Addr) (i j : Nat)
  /-- `c.clear()` -/
  | clear (c : Addr)
  /-- `c = d` -/
  | assign (c d : Addr)
  /-- `c.assign(n, v)` -/
  | assignN (c : Addr) (n : Nat) (value : Arg T)
  /-- `c.assign(first, last)` -/
  | assignVals (c : Addr) (vs : List T)
  /-- `c.reverse()` -/
  | reverse (c : Addr)
  /-- `c.swap(d)` -/
  | swap (c d : Addr)
  /-- `*it = v` for the `i`-th element -/
  | store (c : Addr) (i : Nat) (v : T)

/-- Execute a call. -/
def exec : Call T → Prog (Heap T) Unit
  | .create => do let _ ← create
  | .copyOf s => do let _ ← copyCtor s
  | .ctorN n v => do let _ ← ctorN n v
  | .ctorVals vs => do let _ ← ctorVals vs
  | .destroy c => destroy c
  | .pushFront c v => pushFront c v
  | .pushBack c v => pushBack c v
  | .popFront c => popFront c
  | .insert c i v => do let _ ← insertOne c (← SList.posAt c i) v
  | .insertN c i n v => do insertN c (← SList.posAt c i) n v
  | .insertVals c i vs => do insertVals c (← SList.posAt c i) vs
  | .insertList c i d => do insertNodes c (← SList.posAt c i) (← getNext d) 0
  | .erase c i => do let _ ← eraseAfter c (← SList.posAt c i)
  | .eraseRange c i j => do let _ ← eraseRange c (← SList.posAt c i) (← SList.posAt c j)
  | .clear c => clear c
  | .assign c d => opAssign c d
  | .assignN c n v => assignN c n v
  | .assignVals c vs => assignVals c vs
  | .reverse c => reverse c
  | .swap c d => swap c d
  | .store c i v => do setVal (← SList.posAt c (i + 1)) v

/-! ## Specification -/

/-- The elements of `c`. -/
def State.get (S : State T) (c : Addr) : List (Addr × T) := ((S c).map BState.elems).getD []
/-- The position `c.before_end()`. -/
def State.endOf (S : State T) (c : Addr) : Addr := ((S c).map BState.tail).getD 0
/-- `c` becomes a list with elements `es` and `before_end()` at `t`. -/
def State.put (S : State T) (c : Addr) (es : List (Addr × T)) (t : Addr) : State T := upd S c (some ⟨es, t⟩)
/-- `c` exists. -/
def State.Exists (S : State T) (c : Addr) : Prop := ∃ s, S c = some s

/-- The position that is the last element, or `before_begin()` of an empty list. -/
def lastPos (c : Addr) (es : List (Addr × T)) : Addr := (c :: es.map Prod.fst).getLastD c
/-- The position `pos_i`. -/
def posI (c : Addr) (es : List (Addr × T)) (i : Nat) : Addr := lastPos c (es.take i)
/-- Which position `t` is. -/
def idxOfPos (c : Addr) (es : List (Addr × T)) (t : Addr) : Nat := (c :: es.map Prod.fst).idxOf t
/-- The first element, null if there is none. -/
def firstPos (es : List (Addr × T)) : Addr := (es.map Prod.fst).headD 0

/-- A reference argument refers to an object with value `v`. -/
def State.Refers (S : State T) (v : T) : Arg T → Prop
  | .ext w => w = v
  | .elem a => ∃ c s, S c = some s ∧ (a, v) ∈ s.elems

/-- The value a reference argument has (for an argument that refers to an object). -/
noncomputable def State.valueOf (S : State T) : Arg T → Option T
  | .ext w => some w
  | .elem a => by
      classical
      exact if e : ∃ v, S.Refers v (.elem a) then some e.choose else none

/-- Replicas of the value of a reference argument. -/
noncomputable def State.copies (S : State T) (n : Nat) (value : Arg T) : List T :=
  match S.valueOf value with
  | some v => List.replicate n v
  | none => []

/-- The preconditions of a call. -/
def Legal (S : State T) : Call T → Prop
  | .create => True
  | .copyOf s => S.Exists s
  | .ctorN _ value => ∃ v, S.Refers v value
  | .ctorVals _ => True
  | .destroy c => S.Exists c
  | .pushFront c _ => S.Exists c
  | .pushBack c _ => S.Exists c ∧ S.endOf c ∈ c :: (S.get c).map Prod.fst
  | .popFront c => S.Exists c ∧ S.get c ≠ []
  | .insert c i _ => S.Exists c ∧ i ≤ (S.get c).length
  | .insertN c i _ value => S.Exists c ∧ i ≤ (S.get c).length ∧ ∃ v, S.Refers v value
  | .insertVals c i _ => S.Exists c ∧ i ≤ (S.get c).length
  | .insertList c i d => S.Exists c ∧ i ≤ (S.get c).length ∧ S.Exists d ∧ c ≠ d
  | .erase c i => S.Exists c ∧ i < (S.get c).length
  | .eraseRange c i j => S.Exists c ∧ i < j ∧ j ≤ (S.get c).length + 1
  | .clear c => S.Exists c
  | .assign c d => S.Exists c ∧ S.Exists d ∧ c ≠ d
  | .assignN c _ value => S.Exists c ∧ (∃ v, S.Refers v value) ∧ ∀ a, value = .elem a → a ∉ (S.get c).map Prod.fst
  | .assignVals c _ => S.Exists c
  | .reverse c => S.Exists c
  | .swap c d => S.Exists c ∧ S.Exists d
  | .store c i _ => S.Exists c ∧ i < (S.get c).length

/-- The effect of a call, `a` being the next address the allocator hands out. -/
noncomputable def spec (S : State T) (a : Addr) : Call T → State T
  | .create => S.put a [] a
  | .copyOf s => S.put a (fresh (a + 1) ((S.get s).map Prod.snd)) a
  | .ctorN n value => S.put a (fresh (a + 1) (S.copies n value)) (lastPos a (fresh (a + 1) (S.copies n value)))
  | .ctorVals vs => S.put a (fresh (a + 1) vs) a
  | .destroy c => upd S c none
  | .pushFront c v => S.put c ((a, v) :: S.get c) (if S.endOf c = c then a else S.endOf c)
  | .pushBack c v => S.put c (insertAt (idxOfPos c (S.get c) (S.endOf c)) [(a, v)] (S.get c)) a
  | .popFront c => S.put c (S.get c).tail (S.endOf c)
  | .insert c i v => S.put c (insertAt i [(a, v)] (S.get c)) (if posI c (S.get c) i = S.endOf c then a else S.endOf c)
  | .insertN c i n value => S.put c (insertAt i (fresh a (S.copies n value)) (S.get c))
      (if posI c (S.get c) i = S.endOf c then lastPos (S.endOf c) (fresh a (S.copies n value)) else S.endOf c)
  | .insertVals c i vs => S.put c (insertAt i (fresh a vs) (S.get c)) (S.endOf c)
  | .insertList c i d => S.put c (insertAt i (fresh a ((S.get d).map Prod.snd)) (S.get c)) (S.endOf c)
  | .erase c i => S.put c ((S.get c).eraseIdx i)
      (if posI c (S.get c) (i + 1) = S.endOf c then posI c (S.get c) i else S.endOf c)
  | .eraseRange c i j => S.put c (cut i (j - 1) (S.get c)) (if j = (S.get c).length + 1 then posI c (S.get c) i else S.endOf c)
  | .clear c => S.put c [] c
  | .assign c d => S.put c (fresh a ((S.get d).map Prod.snd)) c
  | .assignN c n value => S.put c (fresh a (S.copies n value)) (lastPos c (fresh a (S.copies n value)))
  | .assignVals c vs => S.put c (fresh a vs) c
  | .reverse c => S.put c (S.get c).reverse (firstPos (S.get c))
  | .swap c d => (S.put c (S.get d) (S.endOf d)).put d (S.get c) (S.endOf c)
  | .store c i v => S.put c ((S.get c).modify i fun e => (e.1, v)) (S.endOf c)

/-- `before_end()` is where it should be: at the last element, or at `before_begin()` of an empty list. -/
def State.Healthy (S : State T) (c : Addr) : Prop := S.Exists c ∧ S.endOf c = lastPos c (S.get c)

/-- `Reach S h`: some client program ends in memory `h` and, by the specification, in state `S`. Between the calls the rest of the
program does what `Env` allows. -/
inductive Reach : State T → Heap T → Prop where
  | start {h : Heap T} : Blank h → Reach (fun _ => none) h
  | step {S : State T} {h h' : Heap T} (c : Call T) : Reach S h → Legal S c → exec c h = .ok ((), h') →
      Reach (spec S h.fresh c) h'
  | env {S : State T} {h h' : Heap T} : Reach S h → Env h h' → Reach S h'

/-- `ttl::backward_list` as a kind of container. -/
def iface : Iface T (BState T) where
  own h c s := Slist h c s.elems ∧ h.tail c = s.tail
  cells c s := scells c s.elems
  frame o e := ⟨o.1.frame e, (e _ (by simp [scells])).tail.trans o.2⟩
  live o := o.1.live
  self := by intro c s; simp [scells]

end Verif.Seq.BList
