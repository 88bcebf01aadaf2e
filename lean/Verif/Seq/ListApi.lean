import Verif.Seq.RingOps3
/-!
# Client programs over `ttl::list`

A client keeps any number of `ttl::list<T>` objects in one memory and calls their members in any order.
Positions are given as indices: the client obtains the iterator by advancing `begin()`.

* `Call` are the calls, `exec` executes one with the model of the code;
* `State` is the mathematical state: each list object (named by its address) is a sequence of elements
  (node address and value), or has been `clear()`ed while non-empty;
* `Legal` are the preconditions of the calls and `spec` their mathematical effect. New nodes get consecutive
  addresses starting from the allocator's next address `a`.

`Legal` excludes the calls for which the code is wrong; these are treated in `Verif.Seq.ListProps`:
empty ranges and whole empty lists in `splice`, `pos == last` in `splice`, `swap` of two empty lists,
`resize(0)`, and any insertion into a list that was cleared while non-empty.
-/
set_option linter.unusedVariables false
set_option linter.unusedSimpArgs false
namespace Verif.Seq.DList
open Verif Verif.Seq
variable {T : Type}

/-- Mathematical state: the lists that exist, with their elements. -/
def State (T : Type) := Addr → Option (LState T)

/-- `it = c.begin(); ++it` n times. -/
def advance : Nat → Addr → Prog (Heap T) Addr
  | 0, p => pure p
  | n + 1, p => do advance n (← getNext p)

/-- The iterator at index `i` of `c` (`end()` for `i = c.size()`). -/
def iterAt (c : Addr) (i : Nat) : Prog (Heap T) Addr := do advance i (← getNext c)

inductive Call (T : Type) where
  /-- `list<T> c;` -/
  | create
  /-- `list<T> c(s);` -/
  | copyOf (s : Addr)
  /-- `list<T> c(n, v);` -/
  | ctorN (n : Nat) (v : T)
  /-- `list<T> c(first, last);` -/
  | ctorVals (vs : List T)
  /-- end of life of `c` -/
  | destroy (c : Addr)
  /-- `c.push_front(v)` -/
  | pushFront (c : Addr) (v : T)
  /-- `c.push_back(v)` -/
  | pushBack (c : Addr) (v : T)
  /-- `c.pop_front()` -/
  | popFront (c : Addr)
  /-- `c.pop_back()` -/
  | popBack (c : Addr)
  /-- `c.insert(it_i, v)` -/
  | insert (c : Addr) (i : Nat) (v : T)
  /-- `c.insert(it_i, n, v)` -/
  | insertN (c : Addr) (i n : Nat) (v : T)
  /-- `c.insert(it_i, first, last)` -/
  | insertVals (c : Addr) (i : Nat) (vs : List T)
  /-- `c.insert(it_i, d.begin(), d.end())` -/
  | insertList (c : Addr) (i : Nat) (d : Addr)
  /-- `c.erase(it_i)` -/
  | erase (c : Addr) (i : Nat)
  /-- `c.erase(it_i, it_j)` -/
  | eraseRange (c : Addr) (i j : Nat)
  /-- `c.clear()` -/
  | clear (c : Addr)
  /-- `c = d` -/
  | assign (c d : Addr)
  /-- `c.assign(n, v)` -/
  | assignN (c : Addr) (n : Nat) (v : T)
  /-- `c.assign(first, last)` -/
  | assignVals (c : Addr) (vs : List T)
  /-- `c.resize(n, v)` -/
  | resize (c : Addr) (n : Nat) (v : T)
  /-- `c.remove_if(p)` -/
  | removeIf (c : Addr) (p : T → Bool)
  /-- `c.remove(v)`, `v` not an element of `c`, `eqv` the element's `operator==` -/
  | remove (c : Addr) (eqv : T → T → Bool) (v : T)
  /-- `c.unique(pred)` -/
  | unique (c : Addr) (pred : T → T → Bool)
  /-- `c.merge(d, lt)` -/
  | merge (c d : Addr) (lt : T → T → Bool)
  /-- `c.reverse()` -/
  | reverse (c : Addr)
  /-- `c.splice(it_i, d)` -/
  | spliceAll (c : Addr) (i : Nat) (d : Addr)
  /-- `c.splice(it_i, d, jt_j)` -/
  | spliceOne (c : Addr) (i : Nat) (d : Addr) (j : Nat)
  /-- `c.splice(it_i, d, jt_j, jt_k)` -/
  | splice (c : Addr) (i : Nat) (d : Addr) (j k : Nat)
  /-- `c.swap(d)` -/
  | swap (c d : Addr)
  /-- `*it_i = v` -/
  | store (c : Addr) (i : Nat) (v : T)

/-- Execute a call. -/
def exec : Call T → Prog (Heap T) Unit
  | .create => do let _ ← create
  | .copyOf s => do let _ ← copyCtor s
  | .ctorN n v => do let _ ← ctorN n v
  | .ctorVals vs => do let _ ← ctorVals vs
  | .destroy c => destroy c
  | .pushFront c v => pushFront c v
  | .pushBack c v => pushBack c v
  | .popFront c => popFront c
  | .popBack c => popBack c
  | .insert c i v => do let _ ← insert (← iterAt c i) v
  | .insertN c i n v => do insertN (← iterAt c i) n v
  | .insertVals c i vs => do insertVals (← iterAt c i) vs
  | .insertList c i d => do insertNodes (← iterAt c i) (← begin d) d
  | .erase c i => do let _ ← erase (← iterAt c i)
  | .eraseRange c i j => do let _ ← eraseRange (← iterAt c i) (← iterAt c j)
  | .clear c => clear c
  | .assign c d => opAssign c d
  | .assignN c n v => assignN c n v
  | .assignVals c vs => assignVals c vs
  | .resize c n v => resize c n v
  | .removeIf c p => removeIf c p
  | .remove c eqv v => remove c eqv (.ext v)
  | .unique c pred => unique c pred
  | .merge c d lt => merge c d lt
  | .reverse c => reverse c
  | .spliceAll c i d => do spliceAll (← iterAt c i) d
  | .spliceOne c i d j => do spliceOne (← iterAt c i) (← iterAt d j)
  | .splice c i d j k => do spliceRange (← iterAt c i) (← iterAt d j) (← iterAt d k)
  | .swap c d => swap c d
  | .store c i v => do setVal (← iterAt c i) v

/-! ## Specification -/

/-- The elements of `c`. -/
def State.get (S : State T) (c : Addr) : List (Addr × T) :=
  match S c with
  | some s => s.elems
  | none => []

/-- `c` becomes an intact list with elements `es`. -/
def State.put (S : State T) (c : Addr) (es : List (Addr × T)) : State T := upd S c (some (.ring es))

/-- `c` exists and was not cleared while non-empty. -/
def State.Intact (S : State T) (c : Addr) : Prop := ∃ es, S c = some (.ring es)
/-- `c` exists. -/
def State.Exists (S : State T) (c : Addr) : Prop := ∃ s, S c = some s

/-- `xs` inserted before index `i`. -/
def insertAt {α : Type} (i : Nat) (xs es : List α) : List α := es.take i ++ (xs ++ es.drop i)
/-- Elements `i` to `j - 1`. -/
def slice {α : Type} (i j : Nat) (es : List α) : List α := (es.drop i).take (j - i)
/-- Without the elements `i` to `j - 1`. -/
def cut {α : Type} (i j : Nat) (es : List α) : List α := es.take i ++ es.drop j

/-- The preconditions of a call. -/
def Legal (S : State T) : Call T → Prop
  | .create => True
  | .copyOf s => S.Exists s
  | .ctorN _ _ => True
  | .ctorVals _ => True
  | .destroy c => S.Exists c
  | .pushFront c _ => S.Intact c
  | .pushBack c _ => S.Intact c
  | .popFront c => S.Intact c ∧ S.get c ≠ []
  | .popBack c => S.Intact c ∧ S.get c ≠ []
  | .insert c i _ => S.Intact c ∧ i ≤ (S.get c).length
  | .insertN c i _ _ => S.Intact c ∧ i ≤ (S.get c).length
  | .insertVals c i _ => S.Intact c ∧ i ≤ (S.get c).length
  | .insertList c i d => S.Intact c ∧ i ≤ (S.get c).length ∧ S.Exists d ∧ c ≠ d
  | .erase c i => S.Intact c ∧ i < (S.get c).length
  | .eraseRange c i j => S.Intact c ∧ i < j ∧ j ≤ (S.get c).length
  | .clear c => S.Exists c
  | .assign c d => S.Intact c ∧ S.get c = [] ∧ S.Exists d ∧ c ≠ d
  | .assignN c _ _ => S.Intact c ∧ S.get c = []
  | .assignVals c _ => S.Intact c ∧ S.get c = []
  | .resize c n _ => S.Intact c ∧ (n ≠ 0 ∨ S.get c = [])
  | .removeIf c _ => S.Intact c
  | .remove c _ _ => S.Intact c
  | .unique c _ => S.Intact c
  | .merge c d lt => S.Intact c ∧ S.Intact d ∧ c ≠ d ∧ SortedBy lt (S.get d)
  | .reverse c => S.Intact c
  | .spliceAll c i d => S.Intact c ∧ S.Intact d ∧ c ≠ d ∧ i ≤ (S.get c).length ∧ S.get d ≠ []
  | .spliceOne c i d j => S.Intact c ∧ S.Intact d ∧ i ≤ (S.get c).length ∧ j < (S.get d).length ∧ (c = d → i ≠ j + 1)
  | .splice c i d j k => S.Intact c ∧ S.Intact d ∧ i ≤ (S.get c).length ∧ j < k ∧ k ≤ (S.get d).length ∧
      (c = d → i < j ∨ k < i)
  | .swap c d => S.Exists c ∧ S.Exists d ∧ c ≠ d ∧ (S.get c ≠ [] ∨ S.get d ≠ [])
  | .store c i _ => S.Intact c ∧ i < (S.get c).length

/-- The effect of a call, `a` being the next address the allocator hands out. (For `eraseRange` this is what
the code does, which is not what the C++ standard says: see `Verif.Seq.ListProps`.) -/
def spec (S : State T) (a : Addr) : Call T → State T
  | .create => S.put a []
  | .copyOf s => S.put a (fresh (a + 1) ((S.get s).map Prod.snd))
  | .ctorN n v => S.put a (fresh (a + 1) (List.replicate n v))
  | .ctorVals vs => S.put a (fresh (a + 1) vs)
  | .destroy c => upd S c none
  | .pushFront c v => S.put c ((a, v) :: S.get c)
  | .pushBack c v => S.put c (S.get c ++ [(a, v)])
  | .popFront c => S.put c (S.get c).tail
  | .popBack c => S.put c (S.get c).dropLast
  | .insert c i v => S.put c (insertAt i [(a, v)] (S.get c))
  | .insertN c i n v => S.put c (insertAt i (fresh a (List.replicate n v)) (S.get c))
  | .insertVals c i vs => S.put c (insertAt i (fresh a vs) (S.get c))
  | .insertList c i d => S.put c (insertAt i (fresh a ((S.get d).map Prod.snd)) (S.get c))
  | .erase c i => S.put c ((S.get c).eraseIdx i)
  | .eraseRange c i j => S.put c (cut i (j - 1) (S.get c))
  | .clear c => if (S.get c).isEmpty then S else upd S c (some .cleared)
  | .assign c d => S.put c (fresh a ((S.get d).map Prod.snd))
  | .assignN c n v => S.put c (fresh a (List.replicate n v))
  | .assignVals c vs => S.put c (fresh a vs)
  | .resize c n v => S.put c ((S.get c).take n ++ fresh a (List.replicate (n - (S.get c).length) v))
  | .removeIf c p => S.put c ((S.get c).filter fun e => !p e.2)
  | .remove c eqv v => S.put c ((S.get c).filter fun e => !eqv e.2 v)
  | .unique c pred => S.put c (uniq pred (S.get c))
  | .merge c d lt => (S.put c (List.merge (S.get c) (S.get d) fun x y => !lt y.2 x.2)).put d []
  | .reverse c => S.put c (S.get c).reverse
  | .spliceAll c i d => (S.put c (insertAt i (S.get d) (S.get c))).put d []
  | .spliceOne c i d j =>
      if c = d then S.put c (insertAt (if i ≤ j then i else i - 1) (slice j (j + 1) (S.get c)) (cut j (j + 1) (S.get c)))
      else (S.put c (insertAt i (slice j (j + 1) (S.get d)) (S.get c))).put d (cut j (j + 1) (S.get d))
  | .splice c i d j k =>
      if c = d then S.put c (insertAt (if i ≤ j then i else i - (k - j)) (slice j k (S.get c)) (cut j k (S.get c)))
      else (S.put c (insertAt i (slice j k (S.get d)) (S.get c))).put d (cut j k (S.get d))
  | .swap c d => (S.put c (S.get d)).put d (S.get c)
  | .store c i v => S.put c ((S.get c).modify i fun e => (e.1, v))

/-- Memory before any list exists: nothing is allocated; the rest of the memory contains arbitrary garbage. -/
structure Blank (h : Heap T) : Prop where
  nothing : ∀ x, h.live x = false
  fresh : 0 < h.fresh

/-- `Reach S h`: some client program ends in memory `h` and, by the specification, in state `S`. Between the calls the rest of the
program does what `Env` allows. -/
inductive Reach : State T → Heap T → Prop where
  | start {h : Heap T} : Blank h → Reach (fun _ => none) h
  | step {S : State T} {h h' : Heap T} (c : Call T) : Reach S h → Legal S c → exec c h = .ok ((), h') →
      Reach (spec S h.fresh c) h'
  | env {S : State T} {h h' : Heap T} : Reach S h → Env h h' → Reach S h'

end Verif.Seq.DList
