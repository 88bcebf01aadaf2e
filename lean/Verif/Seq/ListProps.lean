import Verif.Seq.ListStep2
import Verif.Seq.Common
import Verif.Algorithm.SortedProps
/-!
# Properties of `ttl::list`

`Reach S h`: memory `h` is the result of some client program over any number of lists (`Verif.Seq.ListApi`), and
`S` says which lists exist and whether they were cleared while non-empty. What the theorems say about contents is
said with client-side observations of `h`: iterating (`Shows`), `size()`, `empty()`, `front()`, `back()`.
An element is shown as the pair of its iterator (node address) and its value.
-/
set_option linter.unusedVariables false
set_option linter.unusedSimpArgs false
set_option linter.unusedSectionVars false
namespace Verif.Seq.ListProps
open Verif Verif.Seq Verif.Seq.DList
variable {T : Type} {h : Heap T} {S : State T} {c d : Addr}

/-- Iterating `c` from `begin()` to `end()` visits exactly the elements `es`, in this order. -/
def Shows (h : Heap T) (c : Addr) (es : List (Addr × T)) : Prop := entries c h = .ok (es, h)

/-- Every observer of `c` answers according to the elements `es`: forward and backward iteration, `size()`, `empty()`,
`front()` and `back()` (of a non-empty list). -/
structure Observes (h : Heap T) (c : Addr) (es : List (Addr × T)) : Prop where
  forward : entries c h = .ok (es, h)
  backward : entriesBackward c h = .ok (es.reverse, h)
  size : DList.size c h = .ok (es.length, h)
  empty : DList.empty c h = .ok (es.isEmpty, h)
  front : ∀ e, es.head? = some e → DList.front c h = .ok (e.2, h)
  back : ∀ e, es.getLast? = some e → DList.back c h = .ok (e.2, h)

/-- Every list other than those in `L` shows the same elements, at the same addresses, after as before. -/
def OthersKept (S : State T) (h h' : Heap T) (L : List Addr) : Prop :=
  ∀ d, d ∉ L → S.Exists d → ∀ fs, Shows h d fs → Shows h' d fs

theorem Shows.inj {es fs : List (Addr × T)} (a : Shows h c es) (b : Shows h c fs) : es = fs := by
  unfold Shows at a b; rw [a] at b; cases b; rfl

theorem World.shows (W : World iface h S) (hc : S.Exists c) : Shows h c (S.get c) := by
  obtain ⟨s, hs⟩ := hc
  rw [get_some hs]
  cases s with
  | ring es => exact (World.ring W hs).entries
  | cleared => exact (World.cleared W hs).entries

theorem reach_shows (R : Reach S h) (hc : S.Exists c) : Shows h c (S.get c) := World.shows R.world hc

/-- In a reachable memory every existing list answers all observers consistently. -/
theorem observes (R : Reach S h) (hc : S.Exists c) : ∃ es, Observes h c es := by
  obtain ⟨s, hs⟩ := hc
  cases s with
  | ring es =>
    have r := World.ring R.world hs
    refine ⟨es, r.entries, r.backward, r.size, r.empty, ?_, ?_⟩
    · intro e he
      cases es with
      | nil => cases he
      | cons x es => cases he; exact r.front
    · intro e he
      rcases List.eq_nil_or_concat es with q | ⟨A, x, q⟩
      · subst q; cases he
      · rw [List.concat_eq_append] at q; subst q
        simp at he; subst he; exact r.back
  | cleared =>
    have r := World.cleared R.world hs
    refine ⟨[], r.entries, ?_, ?_, ?_, ?_, ?_⟩
    · simp only [entriesBackward, Prog.bind_app, getNext_eq r.head, Res.bind_ok, r.loop]
      rw [backwardFrom]; simp
    · simp only [DList.size, Prog.bind_app, getNext_eq r.head, Res.bind_ok, r.loop]
      rw [sizeLoop]; simp
    · simp only [DList.empty, Prog.bind_app, getNext_eq r.head, Res.bind_ok, r.loop]
      simp
    · intro e he; cases he
    · intro e he; cases he

theorem observes_shown (R : Reach S h) (hc : S.Exists c) {es : List (Addr × T)} (hs : Shows h c es) : Observes h c es := by
  obtain ⟨fs, o⟩ := observes R hc
  rw [hs.inj o.forward]; exact o

theorem intact_ex (hc : S.Intact c) : S.Exists c := by obtain ⟨es, q⟩ := hc; exact ⟨_, q⟩

theorem get_shown (R : Reach S h) (hc : S.Exists c) {es : List (Addr × T)} (hs : Shows h c es) : S.get c = es :=
  (reach_shows R hc).inj hs

theorem put_same (S : State T) (c : Addr) (es : List (Addr × T)) : S.put c es c = some (.ring es) := upd_same _ _ _
theorem put_other (S : State T) {c d : Addr} (es : List (Addr × T)) (hd : d ≠ c) : S.put c es d = S d := upd_other _ _ hd
theorem put_get (S : State T) (c : Addr) (es : List (Addr × T)) : (S.put c es).get c = es := State.get_ring (put_same S c es)
theorem put_exists (S : State T) (c : Addr) (es : List (Addr × T)) : (S.put c es).Exists c := ⟨_, put_same S c es⟩
theorem put_intact (S : State T) (c : Addr) (es : List (Addr × T)) : (S.put c es).Intact c := ⟨_, put_same S c es⟩
theorem put_get_other (S : State T) {c d : Addr} (es : List (Addr × T)) (hd : d ≠ c) : (S.put c es).get d = S.get d := by
  simp [State.get, put_other S es hd]

/-- Every legal call returns normally, in a reachable memory again. -/
theorem call_returns (R : Reach S h) (k : Call T) (lg : Legal S k) :
    ∃ h', exec k h = .ok ((), h') ∧ Reach (spec S h.fresh k) h' := by
  obtain ⟨h', q, _, _⟩ := step_ok R.world k lg
  exact ⟨h', q, .step k R lg q⟩

/-- A call that only changes the list `c`. -/
theorem one_list (R : Reach S h) (k : Call T) (lg : Legal S k) {es' : List (Addr × T)} (hk : spec S h.fresh k = S.put c es') :
    ∃ h', exec k h = .ok ((), h') ∧ Reach (S.put c es') h' ∧ Shows h' c es' ∧ OthersKept S h h' [c] := by
  obtain ⟨h', q, R'⟩ := call_returns R k lg
  rw [hk] at R'
  refine ⟨h', q, R', ?_, ?_⟩
  · have := reach_shows R' (put_exists S c es'); rwa [put_get] at this
  · intro d hd hx fs hf
    have hd : d ≠ c := by simpa using hd
    have := reach_shows R' (c := d) (by obtain ⟨s, q⟩ := hx; exact ⟨s, by rw [put_other S es' hd]; exact q⟩)
    rwa [put_get_other S es' hd, get_shown R hx hf] at this

/-- A call that only changes the lists `c` and `d`. -/
theorem two_lists (R : Reach S h) (k : Call T) (lg : Legal S k) (hcd : c ≠ d) {es' fs' : List (Addr × T)}
    (hk : spec S h.fresh k = (S.put c es').put d fs') :
    ∃ h', exec k h = .ok ((), h') ∧ Reach ((S.put c es').put d fs') h' ∧ Shows h' c es' ∧ Shows h' d fs' ∧ OthersKept S h h' [c, d] := by
  obtain ⟨h', q, R'⟩ := call_returns R k lg
  rw [hk] at R'
  refine ⟨h', q, R', ?_, ?_, ?_⟩
  · have := reach_shows R' (c := c) ⟨_, by rw [put_other _ fs' hcd]; exact put_same S c es'⟩
    rwa [put_get_other _ _ hcd, put_get] at this
  · have := reach_shows R' (put_exists (S.put c es') d fs'); rwa [put_get] at this
  · intro x hx he fs hf
    simp only [List.mem_cons, List.not_mem_nil, or_false, not_or] at hx
    have := reach_shows R' (c := x) (by obtain ⟨s, q⟩ := he; exact ⟨s, by rw [put_other _ _ hx.2, put_other _ _ hx.1]; exact q⟩)
    rwa [put_get_other _ _ hx.2, put_get_other _ _ hx.1, get_shown R he hf] at this

/-! ## C17: histories of one list -/

/-- The operations of a history; positions are indices. -/
inductive Op (T : Type) where
  | pushFront (v : T)
  | pushBack (v : T)
  | popFront
  | popBack
  | insert (i : Nat) (v : T)
  | erase (i : Nat)

/-- The same operation on a mathematical sequence. -/
def Op.apply : Op T → List T → List T
  | .pushFront v, vs => v :: vs
  | .pushBack v, vs => vs ++ [v]
  | .popFront, vs => vs.tail
  | .popBack, vs => vs.dropLast
  | .insert i v, vs => vs.take i ++ v :: vs.drop i
  | .erase i, vs => vs.eraseIdx i

/-- Its precondition. -/
def Op.Ok : Op T → List T → Prop
  | .pushFront _, _ => True
  | .pushBack _, _ => True
  | .popFront, vs => vs ≠ []
  | .popBack, vs => vs ≠ []
  | .insert i _, vs => i ≤ vs.length
  | .erase i, vs => i < vs.length

/-- Every operation of the history meets its precondition. -/
def OpsOk : List (Op T) → List T → Prop
  | [], _ => True
  | o :: os, vs => o.Ok vs ∧ OpsOk os (o.apply vs)

/-- The history applied to a mathematical sequence. -/
def applyOps (os : List (Op T)) (vs : List T) : List T := os.foldl (fun vs o => o.apply vs) vs

/-- The operation on the list at `c`. -/
def Op.call (c : Addr) : Op T → Call T
  | .pushFront v => .pushFront c v
  | .pushBack v => .pushBack c v
  | .popFront => .popFront c
  | .popBack => .popBack c
  | .insert i v => .insert c i v
  | .erase i => .erase c i

/-- The history on the list at `c`. -/
def runOps (c : Addr) : List (Op T) → Prog (Heap T) Unit
  | [] => pure ()
  | o :: os => do exec (o.call c); runOps c os

theorem op_step (R : Reach S h) (hc : S.Intact c) (o : Op T) (ok : o.Ok ((S.get c).map Prod.snd)) :
    ∃ h' es', exec (o.call c) h = .ok ((), h') ∧ Reach (S.put c es') h' ∧ OthersKept S h h' [c] ∧
      es'.map Prod.snd = o.apply ((S.get c).map Prod.snd) := by
  cases o with
  | pushFront v =>
    obtain ⟨h', q, R', _, k⟩ := one_list R (.pushFront c v) hc rfl
    exact ⟨h', _, q, R', k, by simp [Op.apply]⟩
  | pushBack v =>
    obtain ⟨h', q, R', _, k⟩ := one_list R (.pushBack c v) hc rfl
    exact ⟨h', _, q, R', k, by simp [Op.apply]⟩
  | popFront =>
    obtain ⟨h', q, R', _, k⟩ := one_list R (.popFront c) ⟨hc, by simpa [Op.Ok] using ok⟩ rfl
    exact ⟨h', _, q, R', k, by simp [Op.apply]⟩
  | popBack =>
    obtain ⟨h', q, R', _, k⟩ := one_list R (.popBack c) ⟨hc, by simpa [Op.Ok] using ok⟩ rfl
    exact ⟨h', _, q, R', k, by simp [Op.apply, List.map_dropLast]⟩
  | insert i v =>
    obtain ⟨h', q, R', _, k⟩ := one_list R (.insert c i v) ⟨hc, by simpa [Op.Ok] using ok⟩ rfl
    exact ⟨h', _, q, R', k, by simp [Op.apply, insertAt]⟩
  | erase i =>
    obtain ⟨h', q, R', _, k⟩ := one_list R (.erase c i) ⟨hc, by simpa [Op.Ok] using ok⟩ rfl
    exact ⟨h', _, q, R', k, by simp [Op.apply, List.eraseIdx_eq_take_drop_succ]⟩

theorem OthersKept.trans {S' : State T} {h' h'' : Heap T} {L : List Addr} (a : OthersKept S h h' L) (b : OthersKept S' h' h'' L)
    (e : ∀ d, d ∉ L → S.Exists d → S'.Exists d) : OthersKept S h h'' L :=
  fun d hd hx fs hf => b d hd (e d hd hx) fs (a d hd hx fs hf)

/-- **C17.** Any legal history of `push_front`, `push_back`, `pop_front`, `pop_back`, `insert`, `erase` on a list returns
normally, and afterwards all observers of the list agree with the same history on a mathematical sequence; no other list
has changed. -/
theorem list_history : ∀ (os : List (Op T)) {h : Heap T} {S : State T} {vs : List T} {es : List (Addr × T)}, Reach S h → S.Intact c →
    Shows h c es → es.map Prod.snd = vs → OpsOk os vs →
    ∃ h' es' S', runOps c os h = .ok ((), h') ∧ Reach S' h' ∧ S'.Intact c ∧ Observes h' c es' ∧ es'.map Prod.snd = applyOps os vs ∧
      OthersKept S h h' [c]
  | [], h, S, vs, es, R, hc, hs, hv, ok =>
    ⟨h, es, S, rfl, R, hc, observes_shown R (intact_ex hc) hs, hv, fun _ _ _ _ hf => hf⟩
  | o :: os, h, S, vs, es, R, hc, hs, hv, ok => by
    have hg := get_shown R (intact_ex hc) hs
    obtain ⟨h1, es1, q1, R1, k1, e1⟩ := op_step R hc o (by rw [hg, hv]; exact ok.1)
    have s1 : Shows h1 c es1 := by have := reach_shows R1 (put_exists S c es1); rwa [put_get] at this
    rw [hg, hv] at e1
    obtain ⟨h', es', S', q, R', hc', ob, e, k⟩ := list_history os R1 (put_intact S c es1) s1 e1 ok.2
    refine ⟨h', es', S', ?_, R', hc', ob, e, k1.trans k ?_⟩
    · simp only [runOps, Prog.bind_app, q1, Res.bind_ok, q]
    · intro d hd hx
      have hd : d ≠ c := by simpa using hd
      obtain ⟨s, q⟩ := hx
      exact ⟨s, by rw [put_other S es1 hd]; exact q⟩

/-- C17 from scratch: a new list with any history of operations behaves as the mathematical sequence that starts empty. -/
theorem new_list_history {h0 : Heap T} (b : Blank h0) (os : List (Op T)) (ok : OpsOk os []) :
    ∃ c h' es', (do let c ← create; runOps c os; pure c : Prog (Heap T) Addr) h0 = .ok (c, h') ∧ Observes h' c es' ∧
      es'.map Prod.snd = applyOps os [] := by
  have R0 := Reach.start b
  obtain ⟨h1, q1, R1, s1, _⟩ := one_list (c := h0.fresh) R0 .create trivial rfl
  obtain ⟨h', es', S', q, _, _, ob, e, _⟩ := list_history os R1 (put_intact _ _ _) s1 rfl ok
  have q0 : create h0 = .ok (h0.fresh, h1) := by
    obtain ⟨h2, q2, _⟩ := create_ok (T := T) R0.world.wf
    simp only [exec, Prog.bind_app, q2, Res.bind_ok, Prog.pure_app] at q1
    rw [q2]; cases q1; rfl
  refine ⟨h0.fresh, h', es', ?_, ob, e⟩
  simp only [Prog.bind_app, q0, Res.bind_ok, q, Prog.pure_app]

/-! ## C18: both directions -/

/-- **C18.** Walking a reachable list from `end()` back to `begin()` visits the elements of the forward walk in opposite order. -/
theorem backward_mirrors_forward (R : Reach S h) (hc : S.Exists c) :
    ∃ es, entries c h = .ok (es, h) ∧ entriesBackward c h = .ok (es.reverse, h) := by
  obtain ⟨es, o⟩ := observes R hc
  exact ⟨es, o.forward, o.backward⟩

/-! ## C19: insertion of ranges -/

theorem newNodes (R : Reach S h) {a : Addr} (ha : h.fresh ≤ a) (vs : List T) : NewNodes h (fresh a vs) vs :=
  ⟨fresh_values vs a, fun e he => R.world.wf.fresh_dead (Nat.le_trans ha (fresh_addr vs a e he))⟩

/-- **C19.** `insert(pos, first, last)` puts the values of the range, in order, immediately before `pos`; the old elements
stay where they are, in their nodes, and no other list changes. -/
theorem insert_range_inserts (R : Reach S h) (hc : S.Intact c) {es : List (Addr × T)} (hs : Shows h c es) {i : Nat}
    (hi : i ≤ es.length) (vs : List T) :
    ∃ h' ns, exec (.insertVals c i vs) h = .ok ((), h') ∧ Shows h' c (es.take i ++ (ns ++ es.drop i)) ∧ NewNodes h ns vs ∧
      OthersKept S h h' [c] := by
  have hg := get_shown R (intact_ex hc) hs
  obtain ⟨h', q, R', s, k⟩ := one_list R (.insertVals c i vs) ⟨hc, by rw [hg]; exact hi⟩ rfl
  rw [hg] at s
  exact ⟨h', _, q, s, newNodes R (Nat.le_refl _) vs, k⟩

/-- **C19.** `insert(pos, n, v)` puts `n` copies of `v` immediately before `pos`. -/
theorem insert_n_inserts (R : Reach S h) (hc : S.Intact c) {es : List (Addr × T)} (hs : Shows h c es) {i : Nat}
    (hi : i ≤ es.length) (n : Nat) (v : T) :
    ∃ h' ns, exec (.insertN c i n v) h = .ok ((), h') ∧ Shows h' c (es.take i ++ (ns ++ es.drop i)) ∧
      NewNodes h ns (List.replicate n v) ∧ OthersKept S h h' [c] := by
  have hg := get_shown R (intact_ex hc) hs
  obtain ⟨h', q, R', s, k⟩ := one_list R (.insertN c i n v) ⟨hc, by rw [hg]; exact hi⟩ rfl
  rw [hg] at s
  exact ⟨h', _, q, s, newNodes R (Nat.le_refl _) _, k⟩

/-- **C19.** `insert(pos, d.begin(), d.end())` copies all elements of another list, which stays as it is. -/
theorem insert_list_inserts (R : Reach S h) (hc : S.Intact c) (hd : S.Exists d) (hcd : c ≠ d) {es fs : List (Addr × T)}
    (hs : Shows h c es) (hf : Shows h d fs) {i : Nat} (hi : i ≤ es.length) :
    ∃ h' ns, exec (.insertList c i d) h = .ok ((), h') ∧ Shows h' c (es.take i ++ (ns ++ es.drop i)) ∧
      NewNodes h ns (fs.map Prod.snd) ∧ Shows h' d fs ∧ OthersKept S h h' [c] := by
  have hg := get_shown R (intact_ex hc) hs
  have hg' := get_shown R hd hf
  obtain ⟨h', q, R', s, k⟩ := one_list R (.insertList c i d) ⟨hc, by rw [hg]; exact hi, hd, hcd⟩ rfl
  rw [hg, hg'] at s
  exact ⟨h', _, q, s, newNodes R (Nat.le_refl _) _, k d (by simp [hcd.symm]) hd fs hf, k⟩

/-- `insert(pos, v)` returns the iterator of the new element. -/
theorem insert_returns_new (R : Reach S h) (hc : S.Intact c) {es : List (Addr × T)} (hs : Shows h c es) {i : Nat}
    (hi : i ≤ es.length) (v : T) :
    ∃ h' a, (do insert (← iterAt c i) v : Prog (Heap T) Addr) h = .ok (a, h') ∧ h.live a = false ∧
      Shows h' c (es.take i ++ (a, v) :: es.drop i) ∧ OthersKept S h h' [c] := by
  have hg := get_shown R (intact_ex hc) hs
  obtain ⟨ts, hc'⟩ := hc
  rw [State.get_ring hc'] at hg; subst hg
  obtain ⟨h', q, W', _⟩ := insert_good R.world hc' hi v
  obtain ⟨h2, q2, R2, s2, k2⟩ := one_list R (.insert c i v) ⟨⟨_, hc'⟩, by rw [State.get_ring hc']; exact hi⟩ rfl
  have e : h2 = h' := by
    have : exec (.insert c i v) h = .ok ((), h') := by
      have q' : ((do insert (← iterAt c i) v : Prog (Heap T) Addr) >>= fun _ => pure ()) h = .ok ((), h') := by
        simp only [Prog.bind_app] at q ⊢; rw [q]; rfl
      simpa only [exec, bind_assoc] using q'
    rw [q2] at this; cases this; rfl
  subst e
  refine ⟨h2, h.fresh, q, R.world.wf.fresh_dead (Nat.le_refl _), ?_, k2⟩
  rw [State.get_ring hc'] at s2
  exact s2

/-! ## C20: erase -/

/-- `erase(pos)` removes exactly the element at `pos`, releases exactly its node and returns the iterator to the next
element. -/
theorem erase_removes (R : Reach S h) (hc : S.Intact c) {es : List (Addr × T)} (hs : Shows h c es) {i : Nat}
    (hi : i < es.length) :
    ∃ h' it, (do erase (← iterAt c i) : Prog (Heap T) Addr) h = .ok (it, h') ∧ Shows h' c (es.take i ++ es.drop (i + 1)) ∧
      iterAt c i h' = .ok (it, h') ∧ (∀ x, h'.live x = (h.live x && decide (x ≠ es[i].1))) ∧ OthersKept S h h' [c] := by
  have hg := get_shown R (intact_ex hc) hs
  obtain ⟨ts, hc'⟩ := hc
  rw [State.get_ring hc'] at hg; subst hg
  have r := World.ring R.world hc'
  have sp := split_elem hi
  obtain ⟨h', q, r', ef, _, dd⟩ := erase_ok (A := ts.take i) (B := ts.drop (i + 1)) (e := ts[i]) R.world.wf (by rw [← sp]; exact r)
  obtain ⟨h2, q2, R2, s2, k2⟩ := one_list R (.erase c i) ⟨⟨_, hc'⟩, by rw [State.get_ring hc']; exact hi⟩ rfl
  rw [State.get_ring hc'] at s2
  have q' : (do erase (← iterAt c i) : Prog (Heap T) Addr) h = .ok (posOf c ((ts.drop (i + 1)).map Prod.fst), h') := by
    simp only [Prog.bind_app, iterAt_ok r (Nat.le_of_lt hi), Res.bind_ok]
    rw [List.drop_eq_getElem_cons hi, List.map_cons, posOf_cons, q]
  have e : h2 = h' := by
    have : exec (.erase c i) h = .ok ((), h') := by
      have q' : ((do erase (← iterAt c i) : Prog (Heap T) Addr) >>= fun _ => pure ()) h = .ok ((), h') := by
        simp only [Prog.bind_app] at q' ⊢; rw [q']; rfl
      simpa only [exec, bind_assoc] using q'
    rw [q2] at this; cases this; rfl
  subst e
  refine ⟨h2, _, q', by rw [← List.eraseIdx_eq_take_drop_succ]; exact s2, ?_, ?_, k2⟩
  · have := iterAt_ok r' (i := i) (by simp; omega)
    rw [this]
    have hl : (ts.take i).length = i := by simp; omega
    have : (ts.take i ++ ts.drop (i + 1)).drop i = ts.drop (i + 1) := by rw [List.drop_append_of_le_length (by omega)]; simp
    rw [this]
  · intro x
    rw [← sp] at ef
    have nd := r.nodup
    rw [sp] at nd
    by_cases hx : x = ts[i].1
    · subst hx; simp [dd]
    · simp only [ne_eq, hx, not_false_eq_true, decide_true, Bool.and_true]
      by_cases h1 : x ∈ cells c ts
      · rw [r.live x h1]
        refine r'.live x ?_
        rw [sp] at h1
        simp only [cells, List.map_append, List.map_cons, List.mem_cons, List.mem_append] at h1 ⊢
        grind
      · have h2 : x ∉ cells c (ts.take i ++ ts.drop (i + 1)) := by
          intro q; apply h1; rw [sp]
          simp only [cells, List.map_append, List.map_cons, List.mem_cons, List.mem_append] at q ⊢
          grind
        cases l : h.live x with
        | true => rw [(ef.frame x h1 h2 l).live, l]
        | false => exact ef.dead x h1 h2 l

/-- **C20, the part that holds.** `erase(first, last)` of a non-empty range removes only elements of the range and returns `last`; but
it keeps the last element of the range. -/
theorem erase_range_partial (R : Reach S h) (hc : S.Intact c) {es : List (Addr × T)} (hs : Shows h c es) {i j : Nat}
    (hij : i < j) (hj : j ≤ es.length) :
    ∃ h', exec (.eraseRange c i j) h = .ok ((), h') ∧ Shows h' c (es.take i ++ es[j - 1] :: es.drop j) ∧ OthersKept S h h' [c] := by
  have hg := get_shown R (intact_ex hc) hs
  obtain ⟨h', q, R', s, k⟩ := one_list R (.eraseRange c i j) ⟨hc, hij, by rw [hg]; exact hj⟩ rfl
  rw [hg] at s
  refine ⟨h', q, ?_, k⟩
  have : cut i (j - 1) es = es.take i ++ es[j - 1] :: es.drop j := by
    unfold cut
    rw [List.drop_eq_getElem_cons (show j - 1 < es.length by omega)]
    rw [show j - 1 + 1 = j by omega]
  rw [← this]; exact s

/-- **C20 fails for every non-empty range:** `erase(first, last)` never leaves the list without the range. -/
theorem erase_range_wrong (R : Reach S h) (hc : S.Intact c) {es : List (Addr × T)} (hs : Shows h c es) {i j : Nat}
    (hij : i < j) (hj : j ≤ es.length) {h' : Heap T} (q : exec (.eraseRange c i j) h = .ok ((), h')) :
    ¬ Shows h' c (es.take i ++ es.drop j) := by
  obtain ⟨h1, q1, s1, _⟩ := erase_range_partial R hc hs hij hj
  rw [q] at q1; cases q1
  intro s
  have := congrArg List.length (s1.inj s)
  simp at this

/-- **C20 fails for every empty range of a non-empty list:** `erase(p, p)` runs around the ring and destroys the header: undefined
behaviour. -/
theorem erase_empty_range_ub (R : Reach S h) (hc : S.Intact c) {es : List (Addr × T)} (hs : Shows h c es) (hne : es ≠ []) {i : Nat}
    (hi : i ≤ es.length) : exec (.eraseRange c i i) h = .ub .lifetime := by
  have hg := get_shown R (intact_ex hc) hs
  obtain ⟨ts, hc'⟩ := hc
  rw [State.get_ring hc'] at hg; subst hg
  have r := World.ring R.world hc'
  simp only [exec, Prog.bind_app, iterAt_ok r hi, Res.bind_ok]
  by_cases hl : i < ts.length
  · have sp := split_elem hl
    have := eraseRange_self (A := ts.take i) (B := ts.drop (i + 1)) (e := ts[i]) R.world.wf (by rw [← sp]; exact r)
    rw [List.drop_eq_getElem_cons hl, List.map_cons, posOf_cons, this]; rfl
  · rw [List.drop_eq_nil_of_le (by omega), List.map_nil, posOf_nil, eraseRange_end R.world.wf r hne]; rfl

/-! ## C21: clear -/

theorem spec_clear_nil {a : Addr} (e : (S.get c).isEmpty = true) : spec S a (.clear c) = S :=
  if_pos (c := (S.get c).isEmpty = true) e
theorem spec_clear {a : Addr} (e : ¬ (S.get c).isEmpty = true) :
    spec S a (.clear c) = (upd (show Addr → Option (LState T) from S) c (some .cleared) : State T) :=
  if_neg (c := (S.get c).isEmpty = true) e

/-- **C21, the part that holds.** `clear()` empties the list, releases exactly its nodes (each once: releasing a released node would
be an error), and the list may be queried, cleared again, copied from and destroyed. -/
theorem clear_partial (R : Reach S h) (hc : S.Exists c) {es : List (Addr × T)} (hs : Shows h c es) :
    ∃ h' S', exec (.clear c) h = .ok ((), h') ∧ Reach S' h' ∧ S'.Exists c ∧ Observes h' c [] ∧
      (∀ x, h'.live x = (h.live x && decide (x ∉ es.map Prod.fst))) ∧ OthersKept S h h' [c] ∧
      (∃ h2, exec (.clear c) h' = .ok ((), h2)) ∧ (∃ h2, exec (.copyOf c) h' = .ok ((), h2)) ∧
      (∃ h2, exec (.destroy c) h' = .ok ((), h2)) := by
  have hg := get_shown R hc hs
  obtain ⟨s, hs'⟩ := hc
  obtain ⟨h', q, W', _, ef, _, cl⟩ := clear_good R.world hs'
  obtain ⟨h2, q2, R2⟩ := call_returns R (.clear c) ⟨s, hs'⟩
  have e : h2 = h' := by
    have : exec (.clear c) h = .ok ((), h') := q
    rw [q2] at this; cases this; rfl
  subst e
  rw [get_some hs'] at hg
  have ex : (spec S h.fresh (.clear c)).Exists c := by
    by_cases e0 : (S.get c).isEmpty = true
    · rw [spec_clear_nil e0]; exact ⟨s, hs'⟩
    · rw [spec_clear e0]; exact ⟨.cleared, upd_same _ _ _⟩
  have sh : Shows h2 c [] := cl.entries
  refine ⟨h2, _, q2, R2, ex, observes_shown R2 ex sh, ?_, ?_, ?_, ?_, ?_⟩
  · intro x
    have nd : (c :: s.elems.map Prod.fst).Nodup := (World.laid R.world hs').2.2.2
    rw [hg] at ef nd
    by_cases h1 : x ∈ es.map Prod.fst
    · have h2 : x ∉ cells c ([] : List (Addr × T)) := by
        intro q; simp [cells] at q; subst q; exact (List.nodup_cons.1 nd).1 h1
      simp [h1, ef.shrunk x (by simp only [cells, List.mem_cons]; exact .inr h1) h2]
    · simp only [h1, not_false_eq_true, decide_true, Bool.and_true]
      by_cases h3 : x = c
      · subst h3
        rw [cl.head, iface.live (R.world.own _ _ hs') x (iface.self _ _)]
      · have n1 : x ∉ cells c es := by simp only [cells, List.mem_cons, not_or]; exact ⟨h3, h1⟩
        have n2 : x ∉ cells c ([] : List (Addr × T)) := by simp [cells, h3]
        cases l : h.live x with
        | true => rw [(ef.frame x n1 n2 l).live, l]
        | false => exact ef.dead x n1 n2 l
  · intro d hd hx fs hf
    have hd : d ≠ c := by simpa using hd
    have e : spec S h.fresh (.clear c) d = S d := by
      by_cases e0 : (S.get c).isEmpty = true
      · rw [spec_clear_nil e0]
      · rw [spec_clear e0]; exact upd_other _ _ hd
    have := reach_shows R2 (c := d) (by obtain ⟨t, q⟩ := hx; exact ⟨t, by rw [e]; exact q⟩)
    have e2 : (spec S h.fresh (.clear c)).get d = S.get d := by simp [State.get, e]
    rwa [e2, get_shown R hx hf] at this
  · obtain ⟨h3, q3, _⟩ := call_returns R2 (.clear c) ex; exact ⟨h3, q3⟩
  · obtain ⟨h3, q3, _⟩ := call_returns R2 (.copyOf c) ex; exact ⟨h3, q3⟩
  · obtain ⟨h3, q3, _⟩ := call_returns R2 (.destroy c) ex; exact ⟨h3, q3⟩

/-- Inserting before `end()` of a list whose `head_.prev` dangles is undefined behaviour. -/
theorem insertBefore_dangling {p : Addr} {v : T} (w : Wf h) (lp : h.live p = true) (dd : h.live (h.prev p) = false) (hf : h.prev p < h.fresh) :
    insert p v h = .ub .access := by
  have hne : p ≠ h.fresh := w.ne_fresh lp
  have hq : h.prev p ≠ h.fresh := Nat.ne_of_lt hf
  simp only [DList.insert, Prog.bind_app, newNode_eq, Res.bind_ok, insertBefore, getPrev, setNext, upd_other _ _ hne, lp, if_true]
  rw [upd_other _ _ hq, dd]; rfl

/-- **C21 fails for every non-empty list:** after `clear()` the next `push_back`, `push_front` or `insert` accesses a released node. -/
theorem use_after_clear_ub (R : Reach S h) (hc : S.Intact c) {es : List (Addr × T)} (hs : Shows h c es) (hne : es ≠ [])
    {h' : Heap T} (q : exec (.clear c) h = .ok ((), h')) (v : T) :
    exec (.pushBack c v) h' = .ub .access ∧ exec (.pushFront c v) h' = .ub .access ∧ exec (.insert c 0 v) h' = .ub .access := by
  have hg := get_shown R (intact_ex hc) hs
  obtain ⟨ts, hc'⟩ := hc
  rw [State.get_ring hc'] at hg; subst hg
  have r := World.ring R.world hc'
  obtain ⟨h1, q1, _, _, ef, pv, cl⟩ := clear_good R.world hc'
  have e : h1 = h' := by
    have q : clear c h = .ok ((), h') := q
    rw [q1] at q; cases q; rfl
  subst e
  rcases List.eq_nil_or_concat ts with q0 | ⟨A, x, q0⟩
  · exact absurd q0 hne
  · rw [List.concat_eq_append] at q0; subst q0
    have p1 : h1.prev c = x.1 := by rw [pv]; exact r.prev_last
    have lx := (r.data x (by simp)).1
    have nd := (List.nodup_cons.1 r.nodup).1
    have xc : x.1 ≠ c := fun q => nd (by rw [← q]; simp)
    have dx : h1.live x.1 = false := ef.shrunk x.1 (by simp [cells, elems_ring]) (by simp [cells, xc])
    have key : insert c v h1 = .ub .access :=
      insertBefore_dangling ef.wf cl.head (by rw [p1]; exact dx) (by
        rw [p1]; exact Nat.lt_of_lt_of_le (R.world.wf.used _ lx) ef.mono)
    have key' : ∀ {α : Type} (k : Addr → Prog (Heap T) α), (insert c v >>= k) h1 = .ub .access := by
      intro α k; simp only [Prog.bind_app, key, Res.bind_ub]
    refine ⟨?_, ?_, ?_⟩
    · have := key' (fun _ => pure ())
      simpa only [exec, pushBack, DList.insert, bind_assoc] using this
    · have := key' (fun _ => pure ())
      simp only [exec, pushFront]
      rw [Prog.bind_app, getNext_eq cl.head, Res.bind_ok, cl.loop]
      simpa only [DList.insert, bind_assoc] using this
    · have := key' (fun _ => pure ())
      simp only [exec, iterAt, advance]
      simp only [Prog.bind_app, getNext_eq cl.head, Res.bind_ok, cl.loop, Prog.pure_app]
      simpa only [Prog.bind_app, Prog.pure_app] using this

end Verif.Seq.ListProps
