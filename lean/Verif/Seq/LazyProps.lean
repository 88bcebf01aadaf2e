import Verif.Seq.LazyStep2
import Verif.Seq.Common
/-!
# Properties of `ttl::lazy_queue`

`Reach triv S h`: memory `h` is the result of some client program over any number of lazy queues (`Verif.Seq.LazyApi`), and `S` says which
queues exist. What the theorems say about contents is said with client-side observations of `h`: `Observes` means iterating from `begin()` to
`end()`, `empty()`, `front()`, `back()` and `before_end()`. An element is shown as the pair of its iterator (node address) and its value.
Position 0 of a queue is `before_begin()`, position `i + 1` its `i`-th element.
-/
set_option linter.unusedVariables false
set_option linter.unusedSimpArgs false
set_option linter.unusedSectionVars false
namespace Verif.Seq.LazyProps
open Verif Verif.Seq.LQueue
open Verif.Seq.DList (Arg fresh insertAt slice cut Blank Relink split_at split_elem posOf posOf_cons posOf_nil)
open Verif.Seq.BwdProps (last_insert last_cut insert_end pos_is_last last_is_head lastOf_indep lastOf_last)
variable {T : Type} {h : Heap T} {S : State T} {c d : Addr} {es fs : List (Addr × T)} {ns ms : List Addr} {triv : Bool}

/-- Every observer of `c` answers according to the elements `es`. -/
structure Observes (h : Heap T) (c : Addr) (es : List (Addr × T)) : Prop where
  forward : SList.entries c h = .ok (es, h)
  empty : LQueue.empty c h = .ok (es.isEmpty, h)
  front : ∀ e, es.head? = some e → SList.front c h = .ok (e.2, h)
  back : ∀ e, es.getLast? = some e → LQueue.back c h = .ok (e.2, h)
  beforeEnd : LQueue.beforeEnd c h = .ok (((es.getLast?).map Prod.fst).getD c, h)

/-- Every queue other than those in `L` answers all observers as before. -/
def OthersKept (S : State T) (h h' : Heap T) (L : List Addr) : Prop :=
  ∀ d, d ∉ L → S.Exists d → ∀ fs, Observes h d fs → Observes h' d fs

theorem Observes.inj (a : Observes h c es) (b : Observes h c fs) : es = fs := by
  have := a.forward.symm.trans b.forward; cases this; rfl

theorem exists_mk (hc : S.Exists c) : ∃ es ns, S c = some ⟨es, ns⟩ := by obtain ⟨⟨es, t⟩, q⟩ := hc; exact ⟨es, t, q⟩

theorem observes_of (w : Wf h) (r : Slist h c es) (ht : h.tail c = lastOf c (es.map Prod.fst)) : Observes h c es := by
  refine ⟨r.entries w, ?_, ?_, ?_, ?_⟩
  · have nx := r.next_head
    cases es with
    | nil =>
      simp only [List.map_nil, posOf_nil] at nx
      simp [LQueue.empty, getNext_eq r.head, nx]
    | cons e es =>
      have e0 : e.1 ≠ 0 := w.ne_zero (r.data e (by simp)).1
      simp only [List.map_cons, posOf_cons] at nx
      simp [LQueue.empty, getNext_eq r.head, nx, e0]
  · intro e he
    cases es with
    | nil => cases he
    | cons x es => cases he; exact r.front
  · intro e he
    obtain ⟨l1, l2⟩ := r.data e (List.mem_of_mem_getLast? he)
    simp only [LQueue.back, Prog.bind_app, getTail_eq r.head, Res.bind_ok, ht, lastOf_last, he, Option.map_some, Option.getD_some,
      getVal_eq l1 l2]
  · simp only [LQueue.beforeEnd, getTail_eq r.head, ht, lastOf_last]

theorem world_observes (W : World iface h S) (hc : S c = some ⟨es, ns⟩) : Observes h c es :=
  observes_of W.wf (World.sl W hc) (World.tl W hc)

/-- Every queue that exists answers all observers according to one sequence of elements. -/
theorem reach_observes (R : Reach triv S h) (hc : S.Exists c) : Observes h c (S.get c) := by
  obtain ⟨es, ns, q⟩ := exists_mk hc
  rw [get_some q]; exact world_observes R.world q

theorem get_observed (R : Reach triv S h) (hc : S.Exists c) (o : Observes h c es) : S.get c = es := (reach_observes R hc).inj o

theorem observed (R : Reach triv S h) (hc : S.Exists c) (o : Observes h c es) : ∃ ns, S c = some ⟨es, ns⟩ ∧ Queue h c es ns := by
  have hg := get_observed R hc o
  obtain ⟨fs, ns, q⟩ := exists_mk hc
  rw [get_some q] at hg; subst hg
  exact ⟨ns, q, World.qu R.world q⟩

theorem put_get (S : State T) (c : Addr) (es : List (Addr × T)) (ns : List Addr) : (S.put c es ns).get c = es := get_some (put_same S c es ns)
theorem put_pool (S : State T) (c : Addr) (es : List (Addr × T)) (ns : List Addr) : (S.put c es ns).pool c = ns := pool_some (put_same S c es ns)
theorem put_exists (S : State T) (c : Addr) (es : List (Addr × T)) (ns : List Addr) : (S.put c es ns).Exists c := ⟨_, put_same S c es ns⟩
theorem put_exists_other (S : State T) {c d : Addr} (es : List (Addr × T)) (ns : List Addr) (hd : S.Exists d) : (S.put c es ns).Exists d := by
  by_cases q : d = c
  · subst q; exact put_exists _ _ _ _
  · obtain ⟨fs, e⟩ := hd; exact ⟨fs, by rw [put_other S q]; exact e⟩

theorem kept_of {S' : State T} {h' : Heap T} (R : Reach triv S h) (W' : World iface h' S') {L : List Addr} (e : ∀ d, d ∉ L → S.Exists d → S' d = S d) :
    OthersKept S h h' L := by
  intro d hd hx fs o
  obtain ⟨ns, q, _⟩ := observed R hx o
  exact world_observes W' ((e d hd hx).trans q)

/-- Every legal call returns normally, in a reachable memory again. -/
theorem call_returns (R : Reach triv S h) (k : Call T) (lg : Legal triv S k) :
    ∃ h', exec triv k h = .ok ((), h') ∧ Reach triv (spec S h.fresh k) h' := by
  obtain ⟨h', q, _, _⟩ := step_ok R.world k lg
  exact ⟨h', q, .step k R lg q⟩

/-- A call that only changes the queue `c`. -/
theorem one_queue (R : Reach triv S h) (k : Call T) (lg : Legal triv S k) {es' : List (Addr × T)} {ns' : List Addr}
    (hk : spec S h.fresh k = S.put c es' ns') :
    ∃ h', exec triv k h = .ok ((), h') ∧ Reach triv (S.put c es' ns') h' ∧ Observes h' c es' ∧ OthersKept S h h' [c] := by
  obtain ⟨h', q, R'⟩ := call_returns R k lg
  rw [hk] at R'
  refine ⟨h', q, R', ?_, kept_of R R'.world ?_⟩
  · have := reach_observes R' (put_exists S c es' ns'); rwa [put_get] at this
  · intro d hd _; exact put_other _ (by simpa using hd) _ _

/-! ## C33: histories of one queue -/

/-- The operations of a history; `pos` 0 is `before_begin()`, `pos` `i + 1` the `i`-th element. -/
inductive Op (T : Type) where
  | pushFront (v : T)
  | pushBack (v : T)
  | popFront
  | rollHead
  | insertAfter (pos : Nat) (v : T)
  | insertAfterN (pos n : Nat) (v : T)
  | insertAfterRange (pos : Nat) (vs : List T)
  | eraseAfter (pos : Nat)
  | eraseAfterRange (pos last : Nat)
  | clear

/-- The same operation on a mathematical sequence. -/
def Op.apply : Op T → List T → List T
  | .pushFront v, vs => v :: vs
  | .pushBack v, vs => vs ++ [v]
  | .popFront, vs => vs.tail
  | .rollHead, vs => vs.tail ++ vs.take 1
  | .insertAfter i v, vs => vs.take i ++ v :: vs.drop i
  | .insertAfterN i n v, vs => vs.take i ++ (List.replicate n v ++ vs.drop i)
  | .insertAfterRange i ws, vs => vs.take i ++ (ws ++ vs.drop i)
  | .eraseAfter i, vs => vs.take i ++ vs.drop (i + 1)
  | .eraseAfterRange i j, vs => vs.take i ++ vs.drop (j - 1)
  | .clear, _ => []

/-- Its precondition, as documented for such queues. -/
def Op.Pre : Op T → List T → Prop
  | .popFront, vs => vs ≠ []
  | .insertAfter i _, vs => i ≤ vs.length
  | .insertAfterN i _ _, vs => i ≤ vs.length
  | .insertAfterRange i _, vs => i ≤ vs.length
  | .eraseAfter i, vs => i < vs.length
  | .eraseAfterRange i j, vs => i < j ∧ j ≤ vs.length + 1
  | _, _ => True

/-- Every operation of the history meets its precondition. -/
def OpsOk : List (Op T) → List T → Prop
  | [], _ => True
  | o :: os, vs => o.Pre vs ∧ OpsOk os (o.apply vs)

/-- The history applied to a mathematical sequence. -/
def applyOps (os : List (Op T)) (vs : List T) : List T := os.foldl (fun vs o => o.apply vs) vs

/-- The largest size during the history. -/
def peak : List (Op T) → List T → Nat
  | [], vs => vs.length
  | o :: os, vs => max vs.length (peak os (o.apply vs))

/-- The operation on the queue at `c`. -/
def Op.call (c : Addr) : Op T → Call T
  | .pushFront v => .pushFront c v
  | .pushBack v => .pushBack c v
  | .popFront => .popFront c
  | .rollHead => .rollHead c
  | .insertAfter i v => .insert c i v
  | .insertAfterN i n v => .insertN c i n (.ext v)
  | .insertAfterRange i vs => .insertVals c i vs
  | .eraseAfter i => .erase c i
  | .eraseAfterRange i j => .eraseRange c i j
  | .clear => .clear c

/-- The history on the queue at `c`. -/
def runOps (triv : Bool) (c : Addr) : List (Op T) → Prog (Heap T) Unit
  | [] => pure ()
  | o :: os => do exec triv (o.call c); runOps triv c os

theorem copies_ext (S : State T) (n : Nat) (v : T) : S.copies n (.ext v) = List.replicate n v := rfl

theorem ins_len {i : Nat} (hi : i ≤ es.length) (vs : List T) (a : Addr) :
    (insertAt i (alloc a ns vs) es).length + (ns.drop vs.length).length = max (es.length + ns.length) (insertAt i (alloc a ns vs) es).length := by
  simp only [insertAt, List.length_append, alloc_length, List.length_drop, List.length_take]; omega

theorem alloc_cover : ∀ (vs : List T) (a : Addr) (ns : List Addr), ∀ x ∈ ns, x ∈ (alloc a ns vs).map Prod.fst ∨ x ∈ ns.drop vs.length
  | [], a, ns, x, hx => .inr hx
  | v :: vs, a, [], x, hx => by cases hx
  | v :: vs, a, n :: ns, x, hx => by
    rcases List.mem_cons.1 hx with rfl | hx
    · exact .inl (List.mem_cons_self ..)
    · rcases alloc_cover vs (a + used (n :: ns)) ns x hx with q | q
      · exact .inl (List.mem_cons_of_mem _ q)
      · exact .inr q

theorem ins_cover (i : Nat) (vs : List T) (a : Addr) :
    ∀ x ∈ es.map Prod.fst ++ ns, x ∈ (insertAt i (alloc a ns vs) es).map Prod.fst ++ ns.drop vs.length := by
  intro x hx
  simp only [insertAt, List.map_append, List.mem_append] at hx ⊢
  rcases hx with hx | hx
  · rw [← List.take_append_drop i es, List.map_append, List.mem_append] at hx
    rcases hx with q | q
    · exact .inl (.inl q)
    · exact .inl (.inr (.inr q))
  · rcases alloc_cover vs a ns x hx with q | q
    · exact .inl (.inr (.inl q))
    · exact .inr q

theorem op_step (R : Reach triv S h) (hc : S c = some ⟨es, ns⟩) (o : Op T) (ok : o.Pre (es.map Prod.snd)) :
    ∃ h' es' ns', exec triv (o.call c) h = .ok ((), h') ∧ Reach triv (S.put c es' ns') h' ∧ Observes h' c es' ∧ OthersKept S h h' [c] ∧
      es'.map Prod.snd = o.apply (es.map Prod.snd) ∧ es'.length + ns'.length = max (es.length + ns.length) es'.length ∧
      (∀ x ∈ es.map Prod.fst ++ ns, x ∈ es'.map Prod.fst ++ ns') := by
  have hg := get_some hc
  have hp := pool_some hc
  have hx : S.Exists c := ⟨_, hc⟩
  have fin : ∀ (es' : List (Addr × T)) (ns' : List Addr), Legal triv S (o.call c) → spec S h.fresh (o.call c) = S.put c es' ns' →
      es'.map Prod.snd = o.apply (es.map Prod.snd) → es'.length + ns'.length = max (es.length + ns.length) es'.length → (∀ x ∈ es.map Prod.fst ++ ns, x ∈ es'.map Prod.fst ++ ns') →
      ∃ h' es' ns', exec triv (o.call c) h = .ok ((), h') ∧ Reach triv (S.put c es' ns') h' ∧ Observes h' c es' ∧ OthersKept S h h' [c] ∧
      es'.map Prod.snd = o.apply (es.map Prod.snd) ∧ es'.length + ns'.length = max (es.length + ns.length) es'.length ∧
      (∀ x ∈ es.map Prod.fst ++ ns, x ∈ es'.map Prod.fst ++ ns') := by
    intro es' ns' lg e1 e2 e3 e4
    obtain ⟨h', q, R', o', k⟩ := one_queue R (o.call c) lg e1
    exact ⟨h', es', ns', q, R', o', k, e2, e3, e4⟩
  cases o with
  | pushFront v =>
    exact fin _ _ hx (by simp only [Op.call, spec, State.ins, hg, hp]; rfl) (by simp [Op.apply, insertAt, alloc]) (ins_len (by simp) _ _) (ins_cover _ _ _)
  | pushBack v =>
    exact fin _ _ hx (by simp only [Op.call, spec, State.ins, hg, hp]; rfl) (by simp [Op.apply, insertAt, alloc]) (ins_len (by simp) _ _) (ins_cover _ _ _)
  | popFront =>
    have : es ≠ [] := by simpa [Op.Pre] using ok
    refine fin _ _ ⟨hx, by rw [hg]; exact this⟩ (by simp only [Op.call, spec, hg, hp]; rfl) (by simp [Op.apply]) ?_ ?_
    · cases es with
      | nil => exact absurd rfl this
      | cons e es => simp; omega
    · cases es with
      | nil => exact absurd rfl this
      | cons e es => intro x hx; simp only [List.map_cons, List.tail_cons, List.take_succ_cons, List.take_zero, List.map_nil, List.mem_append, List.mem_cons] at hx ⊢; grind
  | rollHead =>
    refine fin _ _ hx (by simp only [Op.call, spec, hg, hp]; rfl) (by simp [Op.apply]) ?_ ?_
    · cases es with
      | nil => simp
      | cons e es => simp
    · cases es with
      | nil => intro x hx; exact hx
      | cons e es => intro x hx; simp only [List.map_cons, List.tail_cons, List.take_succ_cons, List.take_zero, List.map_append, List.map_nil, List.mem_append, List.mem_cons] at hx ⊢; grind
  | insertAfter i v =>
    simp only [Op.Pre, List.length_map] at ok
    exact fin _ _ ⟨hx, by rw [hg]; exact ok⟩ (by simp only [Op.call, spec, State.ins, hg, hp]; rfl) (by simp [Op.apply, insertAt, alloc]) (ins_len ok _ _) (ins_cover _ _ _)
  | insertAfterN i n v =>
    simp only [Op.Pre, List.length_map] at ok
    exact fin _ _ ⟨hx, by rw [hg]; exact ok, v, rfl⟩ (by simp only [Op.call, spec, State.ins, hg, hp]; rfl)
      (by simp [Op.apply, insertAt, alloc_values, copies_ext]) (ins_len ok _ _) (ins_cover _ _ _)
  | insertAfterRange i vs =>
    simp only [Op.Pre, List.length_map] at ok
    exact fin _ _ ⟨hx, by rw [hg]; exact ok⟩ (by simp only [Op.call, spec, State.ins, hg, hp]; rfl) (by simp [Op.apply, insertAt, alloc_values]) (ins_len ok _ _) (ins_cover _ _ _)
  | eraseAfter i =>
    simp only [Op.Pre, List.length_map] at ok
    refine fin _ _ ⟨hx, by rw [hg]; exact ok⟩ (by simp only [Op.call, spec, hg, hp]; rfl) (by simp [Op.apply, List.eraseIdx_eq_take_drop_succ]) ?_ ?_
    · simp only [slice1 ok, List.length_eraseIdx, if_pos ok, List.map_cons, List.map_nil, List.length_append, List.length_cons, List.length_nil]
      omega
    · intro x hx
      have sp := split1 ok
      rw [sp] at hx
      rw [slice1 ok, List.eraseIdx_eq_take_drop_succ]
      simp only [List.map_append, List.map_cons, List.map_nil, List.mem_append, List.mem_cons] at hx ⊢
      grind
  | eraseAfterRange i j =>
    simp only [Op.Pre, List.length_map] at ok
    refine fin _ _ ⟨hx, by rw [hg]; exact ok⟩ (by simp only [Op.call, spec, hg, hp]; rfl) (by simp [Op.apply, cut]) ?_ ?_
    · simp only [cut, slice, List.length_append, List.length_reverse, List.length_map, List.length_take, List.length_drop]
      omega
    · intro x hx
      have sp := slice_split es (i := i) (j := j - 1) (by omega)
      rw [sp] at hx
      simp only [cut, List.map_append, List.mem_append, List.mem_reverse] at hx ⊢
      grind
  | clear =>
    refine fin _ _ hx (by simp only [Op.call, spec, hg, hp]; rfl) (by simp [Op.apply]) ?_ ?_
    · simp
    · intro x hx
      simp only [List.map_nil, List.nil_append, List.mem_append, List.mem_reverse] at hx ⊢
      exact hx

theorem OthersKept.trans {S' : State T} {h' h'' : Heap T} {L : List Addr} (a : OthersKept S h h' L) (b : OthersKept S' h' h'' L)
    (e : ∀ d, d ∉ L → S.Exists d → S'.Exists d) : OthersKept S h h'' L :=
  fun d hd hx fs o => b d hd (e d hd hx) fs (a d hd hx fs o)

theorem le_peak (os : List (Op T)) (vs : List T) : vs.length ≤ peak os vs := by
  cases os with
  | nil => exact Nat.le_refl _
  | cons o os => exact Nat.le_max_left _ _

/-- The history on the state of the queue. -/
theorem history : ∀ (os : List (Op T)) {h : Heap T} {S : State T} {es : List (Addr × T)} {ns : List Addr}, Reach triv S h → S c = some ⟨es, ns⟩ →
    OpsOk os (es.map Prod.snd) →
    ∃ h' es' ns', runOps triv c os h = .ok ((), h') ∧ Reach triv (S.put c es' ns') h' ∧ Observes h' c es' ∧
      es'.map Prod.snd = applyOps os (es.map Prod.snd) ∧ OthersKept S h h' [c] ∧
      es'.length + ns'.length = max (es.length + ns.length) (peak os (es.map Prod.snd)) ∧
      ∀ x ∈ es.map Prod.fst ++ ns, x ∈ es'.map Prod.fst ++ ns'
  | [], h, S, es, ns, R, hc, ok =>
    ⟨h, es, ns, rfl, by rw [put_self hc]; exact R, world_observes R.world hc, rfl, fun _ _ _ _ o => o, by simp [peak], fun _ hx => hx⟩
  | o :: os, h, S, es, ns, R, hc, ok => by
    obtain ⟨h1, es1, ns1, q1, R1, o1, k1, e1, l1, i1⟩ := op_step R hc o ok.1
    obtain ⟨h', es', ns', q, R', ob, e, k, l, i⟩ := history os R1 (put_same S c es1 ns1) (by rw [e1]; exact ok.2)
    rw [put_put] at R'
    refine ⟨h', es', ns', ?_, R', ob, ?_, k1.trans k fun d _ hx => put_exists_other _ _ _ hx, ?_, fun x hx => i x (i1 x hx)⟩
    · simp only [runOps, Prog.bind_app, q1, Res.bind_ok, q]
    · rw [e, e1]; rfl
    · rw [l, l1, e1]
      have := le_peak os (o.apply (es.map Prod.snd))
      have e2 : es1.length = (o.apply (es.map Prod.snd)).length := by rw [← e1]; simp
      simp only [peak, List.length_map]
      omega

/-- **C33.** Any history of operations on a lazy queue, in any reachable memory, that meets the preconditions returns normally: no node is
read after it was released, no value is read after its destruction, no value is constructed over a living one (all of these are
undefined behaviour in the model). Afterwards all observers agree with the same history on a mathematical sequence, and no other
queue has changed. -/
theorem queue_history (os : List (Op T)) {vs : List T} (R : Reach triv S h) (hc : S.Exists c) (ob : Observes h c es) (hv : es.map Prod.snd = vs)
    (ok : OpsOk os vs) :
    ∃ h' es' S', runOps triv c os h = .ok ((), h') ∧ Reach triv S' h' ∧ S'.Exists c ∧ Observes h' c es' ∧ es'.map Prod.snd = applyOps os vs ∧
      OthersKept S h h' [c] ∧ ∀ d, S.Exists d → S'.Exists d := by
  subst hv
  obtain ⟨ns, hc', _⟩ := observed R hc ob
  obtain ⟨h', es', ns', q, R', o', e, k, _⟩ := history os R hc' ok
  exact ⟨h', es', _, q, R', put_exists _ _ _ _, o', e, k, fun d hd => put_exists_other _ _ _ hd⟩

theorem create_reach (R : Reach triv S h) : ∃ h', create h = .ok (h.fresh, h') ∧ Reach triv (S.put h.fresh [] []) h' ∧ Observes h' h.fresh ([] : List (Addr × T)) ∧
    OthersKept S h h' [h.fresh] := by
  obtain ⟨h1, q1, R1, o1, k⟩ := one_queue (c := h.fresh) R .create trivial rfl
  refine ⟨h1, ?_, R1, o1, k⟩
  obtain ⟨h2, q2, _⟩ := create_good (T := T) R.world
  simp only [exec, Prog.bind_app, q2, Res.bind_ok, Prog.pure_app] at q1
  rw [q2]; cases q1; rfl

/-- C33 from scratch: a new queue with any such history behaves as the mathematical sequence that starts empty. -/
theorem new_queue_history {h0 : Heap T} (b : Blank h0) (os : List (Op T)) (ok : OpsOk os []) :
    ∃ c h' es', (do let c ← create; runOps triv c os; pure c : Prog (Heap T) Addr) h0 = .ok (c, h') ∧ Observes h' c es' ∧
      es'.map Prod.snd = applyOps os [] := by
  obtain ⟨h1, q1, R1, o1, _⟩ := create_reach (triv := triv) (Reach.start b)
  obtain ⟨h', es', S', q, _, _, ob, e, _⟩ := queue_history os R1 (put_exists _ _ _ _) o1 rfl ok
  refine ⟨h0.fresh, h', es', ?_, ob, e⟩
  simp only [Prog.bind_app, q1, Res.bind_ok, q, Prog.pure_app]

/-! ### First in, first out -/

/-- Producer and consumer: `some v` is `q.push_back(v)`, `none` is `x = q.front(); q.pop_front();`. The result are the consumed values in order. -/
def produceConsume (c : Addr) : List (Option T) → Prog (Heap T) (List T)
  | [] => pure []
  | some v :: ks => do pushBack c v; produceConsume c ks
  | none :: ks => do
      let x ← SList.front c
      popFront c
      let xs ← produceConsume c ks
      pure (x :: xs)

/-- Never consume from an empty queue of `n` elements. -/
def Enough : Nat → List (Option T) → Prop
  | _, [] => True
  | n, some _ :: ks => Enough (n + 1) ks
  | 0, none :: _ => False
  | n + 1, none :: ks => Enough n ks

/-- **First in, first out.** However producing and consuming interleave, the consumed values followed by what is left in the queue are what was in
the queue followed by the produced values, in order. -/
theorem fifo : ∀ (ks : List (Option T)) {h : Heap T} {S : State T} {es : List (Addr × T)}, Reach triv S h → S.Exists c → Observes h c es →
    Enough es.length ks →
    ∃ h' out es' S', produceConsume c ks h = .ok (out, h') ∧ Reach triv S' h' ∧ S'.Exists c ∧ Observes h' c es' ∧ out ++ es'.map Prod.snd = es.map Prod.snd ++ ks.filterMap id
  | [], h, S, es, R, hc, ob, ok => ⟨h, [], es, S, rfl, R, hc, ob, by simp⟩
  | some v :: ks, h, S, es, R, hc, ob, ok => by
    obtain ⟨h1, es1, S1, q1, R1, x1, o1, e1, _⟩ := queue_history [.pushBack v] R hc ob rfl ⟨trivial, trivial⟩
    have q1' : pushBack c v h = .ok ((), h1) := by
      simp only [runOps, Op.call, exec, Prog.bind_app] at q1
      cases g : pushBack c v h with
      | ok x => rw [g] at q1; simp only [Res.bind_ok, Prog.pure_app] at q1; cases q1; rfl
      | ub f => rw [g] at q1; cases q1
      | diverge => rw [g] at q1; cases q1
    have l1 : es1.length = es.length + 1 := by
      have := congrArg List.length e1
      simpa [applyOps, Op.apply] using this
    obtain ⟨h', out, es', S', q, R', x', ob', e⟩ := fifo ks R1 x1 o1 (by rw [l1]; exact ok)
    refine ⟨h', out, es', S', ?_, R', x', ob', ?_⟩
    · simp only [produceConsume, Prog.bind_app, q1', Res.bind_ok, q]
    · rw [e, e1]; simp [applyOps, Op.apply]
  | none :: ks, h, S, [], R, hc, ob, ok => ok.elim
  | none :: ks, h, S, f :: es, R, hc, ob, ok => by
    obtain ⟨h1, es1, S1, q1, R1, x1, o1, e1, _⟩ := queue_history [.popFront] R hc ob rfl ⟨by simp [Op.Pre], trivial⟩
    have q1' : popFront c h = .ok ((), h1) := by
      simp only [runOps, Op.call, exec, Prog.bind_app] at q1
      cases g : popFront c h with
      | ok x => rw [g] at q1; simp only [Res.bind_ok, Prog.pure_app] at q1; cases q1; rfl
      | ub f => rw [g] at q1; cases q1
      | diverge => rw [g] at q1; cases q1
    have l1 : es1.length = es.length := by
      have := congrArg List.length e1
      simpa [applyOps, Op.apply] using this
    obtain ⟨h', out, es', S', q, R', x', ob', e⟩ := fifo ks R1 x1 o1 (by rw [l1]; exact ok)
    refine ⟨h', f.2 :: out, es', S', ?_, R', x', ob', ?_⟩
    · simp only [produceConsume, Prog.bind_app, ob.front f rfl, Res.bind_ok, q1', q, Prog.pure_app]
    · rw [List.cons_append, e, e1]; simp [applyOps, Op.apply]

end Verif.Seq.LazyProps
