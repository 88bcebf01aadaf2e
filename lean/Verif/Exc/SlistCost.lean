import Verif.Exc.FwdLost
import Verif.Exc.BwdLost
import Verif.Exc.LazyProps
import Verif.Seq.FwdProps3
import Verif.Seq.BwdProps3
import Verif.Seq.LazyProps2
import Verif.Exc.Cost
/-!
# What the operations of `ttl::forward_list`, `ttl::backward_list` and `ttl::lazy_queue` cost (C145)

The executions of `Verif.Exc.FwdModel` and `Verif.Exc.LazyModel` count the operations that may throw: for the lists `new node(value)` (an allocation together with
the copy of the element), for `lazy_queue` the allocation of a node and the copy of an element one by one. Here this count is what is asked for.
-/
set_option linter.unusedVariables false
set_option linter.unusedSimpArgs false
set_option linter.unusedSectionVars false
namespace Verif.Exc.XFwd
open Verif Verif.Seq Verif.Seq.FList Verif.Seq.FwdProps Verif.Exc
open Verif.Seq.DList (Arg fresh insertAt slice Blank)
open Verif.Exc.XSList (Leaked)
open Verif.Exc.XSeq (without Framed FramedT newly)
variable {T : Type} {S : State T} {h h' : Heap T} {c d : Addr} {es fs : List (Addr × T)}

/-- Every legal call makes exactly `work S q` nodes, with one copy each. -/
theorem call_cost (R : Reach S h) (q : Call T) (lg : Legal S q) : ∃ h', FList.exec q h = .ok ((), h') ∧ Costs (exec q) h (work S q) h' := by
  by_cases nc : Constructs q
  · cases q <;> simp only [Constructs] at nc
    case copyOf d =>
      obtain ⟨h', e, X⟩ := copy_ctor_points R lg (reach_shows R lg)
      exact ⟨h', e, X.costs⟩
    case ctorN n value =>
      obtain ⟨v, rf⟩ := lg
      obtain ⟨h', e, X⟩ := ctor_n_arg_points R n rf
      exact ⟨h', e, X.costs⟩
    case ctorVals vs =>
      obtain ⟨h', e, X⟩ := ctor_vals_points R vs
      exact ⟨h', e, X.costs⟩
  · obtain ⟨h', e, _, X⟩ := call_points_work R q lg nc
    exact ⟨h', e, X.costs⟩

/-- The operations that only relink or free. -/
def Relinks : Call T → Prop
  | .create | .destroy _ | .popFront _ | .erase _ _ | .eraseRange _ _ _ | .clear _ | .reverse _ | .spliceAll _ _ _ | .spliceOne _ _ _ _ | .splice _ _ _ _ _ | .swap _ _ => True
  | _ => False

/-- **C145.** Popping, erasing, clearing, reversing, splicing and swapping neither allocate nor copy. -/
theorem relinking_free (R : Reach S h) (q : Call T) (lg : Legal S q) (r : Relinks q) : ∃ h', FList.exec q h = .ok ((), h') ∧ Costs (exec q) h 0 h' := by
  have := call_cost R q lg
  cases q <;> first | exact this | exact r.elim

/-- **C145.** Inserting makes one node and one copy for each element inserted. -/
theorem insertion_cost (R : Reach S h) (hc : S.Exists c) (o : Shows h c es) :
    (∀ v, ∃ h', FList.exec (.pushFront c v) h = .ok ((), h') ∧ Costs (exec (.pushFront c v)) h 1 h') ∧
    (∀ i v, i ≤ es.length → ∃ h', FList.exec (.insert c i v) h = .ok ((), h') ∧ Costs (exec (.insert c i v)) h 1 h') ∧
    (∀ i n v value, i ≤ es.length → S.Refers v value → ∃ h', FList.exec (.insertN c i n value) h = .ok ((), h') ∧ Costs (exec (.insertN c i n value)) h n h') ∧
    (∀ i vs, i ≤ es.length → ∃ h', FList.exec (.insertVals c i vs) h = .ok ((), h') ∧ Costs (exec (.insertVals c i vs)) h vs.length h') := by
  have hg := get_shown R hc o
  refine ⟨fun v => call_cost R (.pushFront c v) hc, fun i v l => ?_, fun i n v value l rf => ?_, fun i vs l => ?_⟩
  · exact call_cost R (.insert c i v) ⟨hc, by rw [hg]; exact l⟩
  · exact call_cost R (.insertN c i n value) ⟨hc, by rw [hg]; exact l, v, rf⟩
  · exact call_cost R (.insertVals c i vs) ⟨hc, by rw [hg]; exact l⟩

/-- **C145.** Copying a list, by construction or assignment, makes one node and one copy for each of its elements, however many the target had. -/
theorem copy_cost (R : Reach S h) (hd : S.Exists d) (o : Shows h d fs) :
    (∃ h', FList.exec (.copyOf d) h = .ok ((), h') ∧ Costs (exec (.copyOf d)) h fs.length h') ∧
    (∀ c, S.Exists c → c ≠ d → ∃ h', FList.exec (.assign c d) h = .ok ((), h') ∧ Costs (exec (.assign c d)) h fs.length h') := by
  have hg := get_shown R hd o
  refine ⟨?_, fun c hc ne => ?_⟩
  · have := call_cost R (.copyOf d) hd; simp only [work, hg] at this; exact this
  · have := call_cost R (.assign c d) ⟨hc, hd, ne⟩; simp only [work, hg] at this; exact this

/-- Assigning a list of four elements to one of two makes four nodes, reversing none, and inserting three copies of its own element three. -/
example : ∃ (S : State Nat) (h : Heap Nat) (c d : Addr) (e : Addr), Reach S h ∧ (∃ h', Costs (exec (.assign c d)) h 4 h') ∧ (∃ h', Costs (exec (.reverse d)) h 0 h') ∧
    ∃ h', Costs (exec (.insertN c 1 3 (.elem e))) h 3 h' := by
  obtain ⟨S, h, c, d, es, fs, R, hc, hd, ne, o, p, e1, e2⟩ := exists_lists [1, 2] [10, 20, 30, 40]
  have l1 : es.length = 2 := by have := congrArg List.length e1; simpa using this
  have l2 : fs.length = 4 := by have := congrArg List.length e2; simpa using this
  obtain ⟨_, _, x, xs⟩ : ∃ a b xs, es = a :: b :: xs := by match es, l1 with | a :: b :: xs, _ => exact ⟨a, b, xs, rfl⟩
  obtain ⟨h1, _, X⟩ := (copy_cost R hd p).2 c hc ne
  obtain ⟨h2, _, Y⟩ := relinking_free R (.reverse d) hd trivial
  rw [l2] at X
  subst xs
  have hg := get_shown R hc o
  obtain ⟨h3, _, Z⟩ := (insertion_cost R hc o).2.2.1 1 3 _ (.elem _) (by omega) (by
    obtain ⟨fs', hc'⟩ := hc
    rw [get_some hc'] at hg; subst hg
    exact ⟨c, _, hc', List.mem_cons_self ..⟩)
  exact ⟨S, h, c, d, _, R, ⟨h1, X⟩, ⟨h2, Y⟩, h3, Z⟩

end Verif.Exc.XFwd

namespace Verif.Exc.XBwd
open Verif Verif.Seq Verif.Seq.BList Verif.Seq.BwdProps Verif.Exc
open Verif.Seq.DList (Arg fresh insertAt slice Blank)
open Verif.Exc.XSList (Leaked)
open Verif.Exc.XSeq (without Framed FramedT newly)
variable {T : Type} {S : State T} {h h' : Heap T} {c d : Addr} {es fs : List (Addr × T)}

/-- Every legal call makes exactly `work S q` nodes, with one copy each. -/
theorem call_cost (R : Reach S h) (q : Call T) (lg : Legal S q) : ∃ h', BList.exec q h = .ok ((), h') ∧ Costs (exec q) h (work S q) h' := by
  by_cases nc : Constructs q
  · cases q <;> simp only [Constructs] at nc
    case copyOf d =>
      obtain ⟨h', e, X⟩ := copy_ctor_points R lg (reach_shows R lg)
      exact ⟨h', e, X.costs⟩
    case ctorN n value =>
      obtain ⟨v, rf⟩ := lg
      obtain ⟨h', e, X⟩ := ctor_n_arg_points R n rf
      exact ⟨h', e, X.costs⟩
    case ctorVals vs =>
      obtain ⟨h', e, X⟩ := ctor_vals_points R vs
      exact ⟨h', e, X.costs⟩
  · obtain ⟨h', e, _, X⟩ := call_points_work R q lg nc
    exact ⟨h', e, X.costs⟩

/-- The operations that only relink or free. -/
def Relinks : Call T → Prop
  | .create | .destroy _ | .popFront _ | .erase _ _ | .eraseRange _ _ _ | .clear _ | .reverse _ | .swap _ _ => True
  | _ => False

/-- **C145.** Popping, erasing, clearing, reversing and swapping neither allocate nor copy. -/
theorem relinking_free (R : Reach S h) (q : Call T) (lg : Legal S q) (r : Relinks q) : ∃ h', BList.exec q h = .ok ((), h') ∧ Costs (exec q) h 0 h' := by
  have := call_cost R q lg
  cases q <;> first | exact this | exact r.elim

/-- **C145.** Inserting makes one node and one copy for each element inserted. -/
theorem insertion_cost (R : Reach S h) (hc : S.Exists c) (o : Shows h c es) :
    (∀ v, ∃ h', BList.exec (.pushFront c v) h = .ok ((), h') ∧ Costs (exec (.pushFront c v)) h 1 h') ∧
    (∀ v, Observes h c es → ∃ h', BList.exec (.pushBack c v) h = .ok ((), h') ∧ Costs (exec (.pushBack c v)) h 1 h') ∧
    (∀ i v, i ≤ es.length → ∃ h', BList.exec (.insert c i v) h = .ok ((), h') ∧ Costs (exec (.insert c i v)) h 1 h') ∧
    (∀ i n v value, i ≤ es.length → S.Refers v value → ∃ h', BList.exec (.insertN c i n value) h = .ok ((), h') ∧ Costs (exec (.insertN c i n value)) h n h') ∧
    (∀ i vs, i ≤ es.length → ∃ h', BList.exec (.insertVals c i vs) h = .ok ((), h') ∧ Costs (exec (.insertVals c i vs)) h vs.length h') := by
  have hg := get_shown R hc o
  refine ⟨fun v => call_cost R (.pushFront c v) hc, fun v ob => call_cost R (.pushBack c v) ⟨hc, by rw [hg, end_some (observed R hc ob).1]; exact lastOf_mem ..⟩, fun i v l => ?_, fun i n v value l rf => ?_, fun i vs l => ?_⟩
  · exact call_cost R (.insert c i v) ⟨hc, by rw [hg]; exact l⟩
  · exact call_cost R (.insertN c i n value) ⟨hc, by rw [hg]; exact l, v, rf⟩
  · exact call_cost R (.insertVals c i vs) ⟨hc, by rw [hg]; exact l⟩

/-- **C145.** Copying a list, by construction or assignment, makes one node and one copy for each of its elements, however many the target had. -/
theorem copy_cost (R : Reach S h) (hd : S.Exists d) (o : Shows h d fs) :
    (∃ h', BList.exec (.copyOf d) h = .ok ((), h') ∧ Costs (exec (.copyOf d)) h fs.length h') ∧
    (∀ c, S.Exists c → c ≠ d → ∃ h', BList.exec (.assign c d) h = .ok ((), h') ∧ Costs (exec (.assign c d)) h fs.length h') := by
  have hg := get_shown R hd o
  refine ⟨?_, fun c hc ne => ?_⟩
  · have := call_cost R (.copyOf d) hd; simp only [work, hg] at this; exact this
  · have := call_cost R (.assign c d) ⟨hc, hd, ne⟩; simp only [work, hg] at this; exact this

/-- Assigning a list of four elements to one of two makes four nodes, reversing none, and inserting three copies of its own element three. -/
example : ∃ (S : State Nat) (h : Heap Nat) (c d : Addr) (e : Addr), Reach S h ∧ (∃ h', Costs (exec (.assign c d)) h 4 h') ∧ (∃ h', Costs (exec (.reverse d)) h 0 h') ∧
    ∃ h', Costs (exec (.insertN c 1 3 (.elem e))) h 3 h' := by
  obtain ⟨S, h, c, d, es, fs, R, hc, hd, ne, o, p, e1, e2⟩ := exists_lists [1, 2] [10, 20, 30, 40]
  have p := p.shows
  have o := o.shows
  have l1 : es.length = 2 := by have := congrArg List.length e1; simpa using this
  have l2 : fs.length = 4 := by have := congrArg List.length e2; simpa using this
  obtain ⟨_, _, x, xs⟩ : ∃ a b xs, es = a :: b :: xs := by match es, l1 with | a :: b :: xs, _ => exact ⟨a, b, xs, rfl⟩
  obtain ⟨h1, _, X⟩ := (copy_cost R hd p).2 c hc ne
  obtain ⟨h2, _, Y⟩ := relinking_free R (.reverse d) hd trivial
  rw [l2] at X
  subst xs
  have hg := get_shown R hc o
  obtain ⟨h3, _, Z⟩ := (insertion_cost R hc o).2.2.2.1 1 3 _ (.elem _) (by omega) (by
    obtain ⟨fs', t, hc'⟩ := exists_mk hc
    rw [get_some hc'] at hg; subst hg
    exact ⟨c, _, hc', List.mem_cons_self ..⟩)
  exact ⟨S, h, c, d, _, R, ⟨h1, X⟩, ⟨h2, Y⟩, h3, Z⟩

end Verif.Exc.XBwd

namespace Verif.Exc.XLq
open Verif Verif.Seq Verif.Seq.SNode Verif.Seq.LQueue Verif.Exc Verif.Exc.XSeq Verif.Seq.LazyProps
open Verif.Seq.DList (Arg insertAt fresh Blank)
variable {T : Type} {h h' : Heap T} {S : State T} {c d : Addr} {es fs : List (Addr × T)} {triv : Bool}

/-- Every legal call makes exactly `points S q` allocations and copies. -/
theorem call_cost (R : Reach triv S h) (q : Call T) (lg : Legal triv S q) : ∃ h', LQueue.exec triv q h = .ok ((), h') ∧ Costs (exec triv q) h (points S q) h' := by
  obtain ⟨h', e, _, X⟩ := call_points R.world q lg
  exact ⟨h', e, X.costs⟩

/-- The operations that only relink or free. -/
def Relinks : Call T → Prop
  | .create | .destroy _ | .cleanup _ | .popFront _ | .erase _ _ | .eraseRange _ _ _ | .clear _ | .swap _ _ | .rollHead _ => True
  | _ => False

/-- **C145.** Popping, erasing, clearing, cleaning up, rolling and swapping neither allocate nor copy. -/
theorem relinking_free (R : Reach triv S h) (q : Call T) (lg : Legal triv S q) (r : Relinks q) :
    ∃ h', LQueue.exec triv q h = .ok ((), h') ∧ Costs (exec triv q) h 0 h' := by
  have := call_cost R q lg
  cases q <;> first | exact this | exact r.elim

/-- **C145.** Inserting copies each element once and makes at most one node for each. -/
theorem insertion_cost (R : Reach triv S h) (hc : S.Exists c) (o : Observes h c es) :
    (∀ v, ∃ n h', LQueue.exec triv (.pushFront c v) h = .ok ((), h') ∧ Costs (exec triv (.pushFront c v)) h n h' ∧ 1 ≤ n ∧ n ≤ 2) ∧
    (∀ v, ∃ n h', LQueue.exec triv (.pushBack c v) h = .ok ((), h') ∧ Costs (exec triv (.pushBack c v)) h n h' ∧ 1 ≤ n ∧ n ≤ 2) ∧
    (∀ i v, i ≤ es.length → ∃ n h', LQueue.exec triv (.insert c i v) h = .ok ((), h') ∧ Costs (exec triv (.insert c i v)) h n h' ∧ 1 ≤ n ∧ n ≤ 2) ∧
    (∀ i m v value, i ≤ es.length → S.Refers v value → ∃ n h', LQueue.exec triv (.insertN c i m value) h = .ok ((), h') ∧
      Costs (exec triv (.insertN c i m value)) h n h' ∧ m ≤ n ∧ n ≤ 2 * m) ∧
    (∀ i vs, i ≤ es.length → ∃ n h', LQueue.exec triv (.insertVals c i vs) h = .ok ((), h') ∧ Costs (exec triv (.insertVals c i vs)) h n h' ∧ vs.length ≤ n ∧ n ≤ 2 * vs.length) := by
  have hg := get_observed R hc o
  have b : ∀ m n, n ≤ pts m n ∧ pts m n ≤ 2 * n := fun m n => by simp only [pts]; omega
  refine ⟨fun v => ?_, fun v => ?_, fun i v l => ?_, fun i m v value l rf => ?_, fun i vs l => ?_⟩
  · obtain ⟨h', e, X⟩ := call_cost R (.pushFront c v) hc; exact ⟨_, h', e, X, b _ _⟩
  · obtain ⟨h', e, X⟩ := call_cost R (.pushBack c v) hc; exact ⟨_, h', e, X, b _ _⟩
  · obtain ⟨h', e, X⟩ := call_cost R (.insert c i v) ⟨hc, by rw [hg]; exact l⟩; exact ⟨_, h', e, X, b _ _⟩
  · obtain ⟨h', e, X⟩ := call_cost R (.insertN c i m value) ⟨hc, by rw [hg]; exact l, v, rf⟩; exact ⟨_, h', e, X, b _ _⟩
  · obtain ⟨h', e, X⟩ := call_cost R (.insertVals c i vs) ⟨hc, by rw [hg]; exact l⟩; exact ⟨_, h', e, X, b _ _⟩

/-- A client that only pushes (`some v`) and pops (`none`). -/
noncomputable def traffic (triv : Bool) (c : Addr) : List (Option T) → Thr (Heap T) Unit
  | [] => pure ()
  | some v :: ops => do exec triv (.pushBack c v); traffic triv c ops
  | none :: ops => do exec triv (.popFront c); traffic triv c ops

/-- Started with `n` elements, the client never pops an empty queue, and the queue never has more than `m` elements. -/
def Within (m : Nat) : Nat → List (Option T) → Prop
  | n, [] => n ≤ m
  | n, some _ :: ops => n ≤ m ∧ Within m (n + 1) ops
  | n, none :: ops => n ≤ m ∧ 0 < n ∧ Within m (n - 1) ops

/-- What a queue of the values `vs` has afterwards. -/
def through : List T → List (Option T) → List T
  | vs, [] => vs
  | vs, some v :: ops => through (vs ++ [v]) ops
  | vs, none :: ops => through vs.tail ops

theorem Within.le {m n : Nat} : ∀ {ops : List (Option T)}, Within m n ops → n ≤ m
  | [], w => w
  | some _ :: _, w => w.1
  | none :: _, w => w.1

theorem traffic_steps (m : Nat) : ∀ (ops : List (Option T)) {S : State T} {h : Heap T} {es : List (Addr × T)} {ns : List Addr}, Reach triv S h → S c = some ⟨es, ns⟩ →
    Within m es.length ops → ∃ a S' h' es' ns', Reach triv S' h' ∧ S' c = some ⟨es', ns'⟩ ∧ es'.map Prod.snd = through (es.map Prod.snd) ops ∧
      Costs (traffic triv c ops) h (ops.countP Option.isSome + a) h' ∧ a ≤ m - (es.length + ns.length)
  | [], S, h, es, ns, R, hc, w => ⟨0, S, h, es, ns, R, hc, rfl, Costs.nothing _ _, Nat.zero_le _⟩
  | some v :: ops, S, h, es, ns, R, hc, w => by
    have hx : S.Exists c := ⟨_, hc⟩
    obtain ⟨h1, e1, X1⟩ := call_cost (triv := triv) R (.pushBack c v) hx
    have R1 := Reach.step (.pushBack c v) R hx e1
    have g : S.get c = es := get_some hc
    have p : S.pool c = ns := pool_some hc
    have hc1 : spec S h.fresh (.pushBack c v) c = some ⟨insertAt es.length (alloc h.fresh ns [v]) es, ns.drop 1⟩ := by
      simp only [spec, State.ins, g, p]; exact put_same _ _ _ _
    have l1 : (insertAt es.length (alloc h.fresh ns [v]) es).length = es.length + 1 := by simp [insertAt, alloc]
    obtain ⟨a, S', h', es', ns', R', hc', ev, X2, la⟩ := traffic_steps m ops R1 hc1 (by rw [l1]; exact w.2)
    have k := w.2.le
    refine ⟨(1 - ns.length) + a, S', h', es', ns', R', hc', ?_, ?_, ?_⟩
    · rw [ev]; simp [insertAt, alloc, through]
    · have := X1.seq X2
      simp only [points, p, pts] at this
      rw [show List.countP Option.isSome (some v :: ops) + (1 - ns.length + a) = 1 + (1 - ns.length) + (List.countP Option.isSome ops + a) by simp; omega]
      exact this
    · rw [l1, List.length_drop] at la; omega
  | none :: ops, S, h, es, ns, R, hc, w => by
    have hx : S.Exists c := ⟨_, hc⟩
    have g : S.get c = es := get_some hc
    have p : S.pool c = ns := pool_some hc
    have lg : Legal triv S (.popFront c) := ⟨hx, by rw [g]; intro q; rw [q] at w; exact absurd w.2.1 (Nat.lt_irrefl _)⟩
    obtain ⟨h1, e1, X1⟩ := call_cost (triv := triv) R (.popFront c) lg
    have R1 := Reach.step (.popFront c) R lg e1
    have hc1 : spec S h.fresh (.popFront c) c = some ⟨es.tail, (es.take 1).map Prod.fst ++ ns⟩ := by
      simp only [spec, g, p]; exact put_same _ _ _ _
    obtain ⟨a, S', h', es', ns', R', hc', ev, X2, la⟩ := traffic_steps m ops R1 hc1 (by rw [List.length_tail]; exact w.2.2)
    have k := w.2.1
    refine ⟨a, S', h', es', ns', R', hc', ?_, ?_, ?_⟩
    · rw [ev]; simp [through]
    · have := X1.seq X2
      simp only [points, Nat.zero_add] at this
      rw [show List.countP Option.isSome (none :: ops : List (Option T)) = List.countP Option.isSome ops by simp]
      exact this
    · simp only [List.length_append, List.length_map, List.length_take, List.length_tail] at la; omega

/-- **C145.** A client that pushes and pops, in any order, without popping an empty queue, so that the queue never has more than `m` elements: each push copies its
element once, and at most `m - size()` nodes are allocated in all, however many elements pass through the queue. -/
theorem traffic_cost (R : Reach triv S h) (hc : S.Exists c) (o : Observes h c es) (ops : List (Option T)) {m : Nat} (w : Within m es.length ops) :
    ∃ a h' es', Costs (traffic triv c ops) h (ops.countP Option.isSome + a) h' ∧ a ≤ m - es.length ∧ Observes h' c es' ∧ es'.map Prod.snd = through (es.map Prod.snd) ops := by
  obtain ⟨ns, q, _⟩ := observed R hc o
  obtain ⟨a, S', h', es', ns', R', hc', ev, X, la⟩ := traffic_steps (triv := triv) m ops R q w
  exact ⟨a, h', es', X, by omega, world_observes R'.world hc', ev⟩

/-- A queue of two elements through which a million elements pass, one pushed after one popped: a million copies and no allocation. -/
example : ∃ (S : State Nat) (h h' : Heap Nat) (c : Addr), Reach true S h ∧
    Costs (traffic true c (List.replicate 1000000 [none, some 7]).flatten) h 1000000 h' := by
  obtain ⟨S, h, c, d, es, fs, R, hc, hd, ne, o, p, e1, e2⟩ := exists_queues (triv := true) [1, 2] ([] : List Nat)
  have l1 : es.length = 2 := by have := congrArg List.length e1; simpa using this
  have w : ∀ n : Nat, Within 2 2 (List.replicate n [none, some 7]).flatten := by
    intro n
    induction n with
    | zero => exact Nat.le_refl _
    | succ n ih => exact ⟨by omega, by omega, by omega, ih⟩
  have k : ∀ n : Nat, (List.replicate n [none, some 7]).flatten.countP Option.isSome = n := by
    intro n
    induction n with
    | zero => rfl
    | succ n ih => rw [List.replicate_succ, List.flatten_cons, List.countP_append, ih]; simp; omega
  obtain ⟨a, h', es', X, la, _⟩ := traffic_cost R hc o _ (by rw [l1]; exact w 1000000)
  rw [k, l1] at *
  obtain rfl : a = 0 := by omega
  exact ⟨S, h, h', c, R, X⟩

end Verif.Exc.XLq
