import Verif.Seq.FwdStep4
import Verif.Seq.Common
/-!
# Properties of `ttl::forward_list`

`Reach S h`: memory `h` is the result of some client program over any number of forward lists (`Verif.Seq.FwdApi`), and `S` says which
lists exist. What the theorems say about contents is said with client-side observations of `h`: iterating (`Shows`), `empty()`,
`front()`. An element is shown as the pair of its iterator (node address) and its value. Position 0 of a list is `before_begin()`,
position `i + 1` its `i`-th element.
-/
set_option linter.unusedVariables false
set_option linter.unusedSimpArgs false
set_option linter.unusedSectionVars false
namespace Verif.Seq.FwdProps
open Verif Verif.Seq.FList
open Verif.Seq.DList (Arg fresh insertAt slice cut Blank Relink split_at split_elem posOf posOf_cons posOf_nil)
variable {T : Type} {h : Heap T} {S : State T} {c d : Addr}

/-- Iterating `c` from `begin()` to `end()` visits exactly the elements `es`, in this order. -/
def Shows (h : Heap T) (c : Addr) (es : List (Addr × T)) : Prop := SList.entries c h = .ok (es, h)

/-- Every observer of `c` answers according to the elements `es`. -/
structure Observes (h : Heap T) (c : Addr) (es : List (Addr × T)) : Prop where
  forward : SList.entries c h = .ok (es, h)
  empty : FList.empty c h = .ok (es.isEmpty, h)
  front : ∀ e, es.head? = some e → SList.front c h = .ok (e.2, h)

/-- Every list other than those in `L` shows the same elements, at the same addresses, after as before. -/
def OthersKept (S : State T) (h h' : Heap T) (L : List Addr) : Prop :=
  ∀ d, d ∉ L → S.Exists d → ∀ fs, Shows h d fs → Shows h' d fs

theorem Shows.inj {es fs : List (Addr × T)} (a : Shows h c es) (b : Shows h c fs) : es = fs := by
  unfold Shows at a b; rw [a] at b; cases b; rfl

theorem reach_shows (R : Reach S h) (hc : S.Exists c) : Shows h c (S.get c) := by
  obtain ⟨es, hs⟩ := hc
  rw [get_some hs]
  exact (World.sl R.world hs).entries R.world.wf

theorem get_shown (R : Reach S h) (hc : S.Exists c) {es : List (Addr × T)} (hs : Shows h c es) : S.get c = es :=
  (reach_shows R hc).inj hs

theorem shown (R : Reach S h) (hc : S.Exists c) {es : List (Addr × T)} (hs : Shows h c es) : S c = some es ∧ Slist h c es := by
  have hg := get_shown R hc hs
  obtain ⟨fs, q⟩ := hc
  rw [get_some q] at hg; subst hg
  exact ⟨q, World.sl R.world q⟩

theorem slist_observes (w : Wf h) {es : List (Addr × T)} (r : Slist h c es) : Observes h c es := by
  refine ⟨r.entries w, ?_, ?_⟩
  · simp only [FList.empty, Prog.bind_app, getNext_eq r.head, Res.bind_ok, Prog.pure_app, r.next_head]
    cases es with
    | nil => simp
    | cons e es => have := w.ne_zero (r.data e (by simp)).1; simp [this]
  · intro e he
    cases es with
    | nil => cases he
    | cons x es => cases he; exact r.front

theorem observes_shown (R : Reach S h) (hc : S.Exists c) {es : List (Addr × T)} (hs : Shows h c es) : Observes h c es :=
  slist_observes R.world.wf (shown R hc hs).2

/-- In a reachable memory every existing list answers all observers consistently. -/
theorem observes (R : Reach S h) (hc : S.Exists c) : ∃ es, Observes h c es := ⟨_, observes_shown R hc (reach_shows R hc)⟩

theorem put_same (S : State T) (c : Addr) (es : List (Addr × T)) : S.put c es c = some es := upd_same _ _ _
theorem put_other (S : State T) {c d : Addr} (es : List (Addr × T)) (hd : d ≠ c) : S.put c es d = S d := upd_other _ _ hd
theorem put_get (S : State T) (c : Addr) (es : List (Addr × T)) : (S.put c es).get c = es := get_some (put_same S c es)
theorem put_exists (S : State T) (c : Addr) (es : List (Addr × T)) : (S.put c es).Exists c := ⟨_, put_same S c es⟩
theorem put_exists_other (S : State T) {c d : Addr} (es : List (Addr × T)) (hd : S.Exists d) : (S.put c es).Exists d := by
  by_cases q : d = c
  · subst q; exact put_exists _ _ _
  · obtain ⟨fs, e⟩ := hd; exact ⟨fs, by rw [put_other S es q]; exact e⟩
theorem put_get_other (S : State T) {c d : Addr} (es : List (Addr × T)) (hd : d ≠ c) : (S.put c es).get d = S.get d := by
  simp [State.get, put_other S es hd]

/-- Every legal call returns normally, in a reachable memory again. -/
theorem call_returns (R : Reach S h) (k : Call T) (lg : Legal S k) :
    ∃ h', exec k h = .ok ((), h') ∧ Reach (spec S h.fresh k) h' := by
  obtain ⟨h', q, _, _⟩ := step_ok R.world k lg
  exact ⟨h', q, .step k R lg q⟩

/-- A call that only changes the list `c`. -/
theorem one_list (R : Reach S h) (k : Call T) (lg : Legal S k) {es' : List (Addr × T)} (hk : spec S h.fresh k = S.put c es') :
    ∃ h', exec k h = .ok ((), h') ∧ Reach (S.put c es') h' ∧ Shows h' c es' ∧ OthersKept S h h' [c] := by
  obtain ⟨h', q, R'⟩ := call_returns R k lg
  rw [hk] at R'
  refine ⟨h', q, R', ?_, ?_⟩
  · have := reach_shows R' (put_exists S c es'); rwa [put_get] at this
  · intro d hd hx fs hf
    have hd : d ≠ c := by simpa using hd
    have := reach_shows R' (put_exists_other S es' hx)
    rwa [put_get_other S es' hd, get_shown R hx hf] at this

/-- A call that only changes the lists `c` and `d`. -/
theorem two_lists (R : Reach S h) (k : Call T) (lg : Legal S k) (hcd : c ≠ d) {es' fs' : List (Addr × T)}
    (hk : spec S h.fresh k = (S.put c es').put d fs') :
    ∃ h', exec k h = .ok ((), h') ∧ Reach ((S.put c es').put d fs') h' ∧ Shows h' c es' ∧ Shows h' d fs' ∧ OthersKept S h h' [c, d] := by
  obtain ⟨h', q, R'⟩ := call_returns R k lg
  rw [hk] at R'
  refine ⟨h', q, R', ?_, ?_, ?_⟩
  · have := reach_shows R' (put_exists_other (S.put c es') (c := d) fs' (put_exists S c es'))
    rwa [put_get_other _ _ hcd, put_get] at this
  · have := reach_shows R' (put_exists (S.put c es') d fs'); rwa [put_get] at this
  · intro x hx he fs hf
    simp only [List.mem_cons, List.not_mem_nil, or_false, not_or] at hx
    have := reach_shows R' (put_exists_other (S.put c es') (c := d) fs' (put_exists_other S es' he))
    rwa [put_get_other _ _ hx.2, put_get_other _ _ hx.1, get_shown R he hf] at this

theorem newNodes (R : Reach S h) {a : Addr} (ha : h.fresh ≤ a) (vs : List T) : NewNodes h (fresh a vs) vs :=
  ⟨fresh_values vs a, fun e he => R.world.wf.fresh_dead (Nat.le_trans ha (fresh_addr vs a e he))⟩

/-! ## C29: histories of one list -/

/-- The operations of a history; `pos` 0 is `before_begin()`, `pos` `i + 1` the `i`-th element. -/
inductive Op (T : Type) where
  | pushFront (v : T)
  | popFront
  | insertAfter (pos : Nat) (v : T)
  | insertAfterN (pos n : Nat) (v : T)
  | insertAfterRange (pos : Nat) (vs : List T)
  | eraseAfter (pos : Nat)
  | eraseAfterRange (pos last : Nat)
  | assign (vs : List T)
  | assignN (n : Nat) (v : T)
  | clear
  | reverse

/-- The same operation on a mathematical sequence. -/
def Op.apply : Op T → List T → List T
  | .pushFront v, vs => v :: vs
  | .popFront, vs => vs.tail
  | .insertAfter i v, vs => vs.take i ++ v :: vs.drop i
  | .insertAfterN i n v, vs => vs.take i ++ (List.replicate n v ++ vs.drop i)
  | .insertAfterRange i ws, vs => vs.take i ++ (ws ++ vs.drop i)
  | .eraseAfter i, vs => vs.take i ++ vs.drop (i + 1)
  | .eraseAfterRange i j, vs => vs.take i ++ vs.drop (j - 1)
  | .assign ws, _ => ws
  | .assignN n v, _ => List.replicate n v
  | .clear, _ => []
  | .reverse, vs => vs.reverse

/-- Its precondition. -/
def Op.Ok : Op T → List T → Prop
  | .popFront, vs => vs ≠ []
  | .insertAfter i _, vs => i ≤ vs.length
  | .insertAfterN i _ _, vs => i ≤ vs.length
  | .insertAfterRange i _, vs => i ≤ vs.length
  | .eraseAfter i, vs => i < vs.length
  | .eraseAfterRange i j, vs => i < j ∧ j ≤ vs.length + 1
  | _, _ => True

/-- Every operation of the history meets its precondition. -/
def OpsOk : List (Op T) → List T → Prop
  | [], _ => True
  | o :: os, vs => o.Ok vs ∧ OpsOk os (o.apply vs)

/-- The history applied to a mathematical sequence. -/
def applyOps (os : List (Op T)) (vs : List T) : List T := os.foldl (fun vs o => o.apply vs) vs

/-- The operation on the list at `c`. -/
def Op.call (c : Addr) : Op T → Call T
  | .pushFront v => .pushFront c v
  | .popFront => .popFront c
  | .insertAfter i v => .insert c i v
  | .insertAfterN i n v => .insertN c i n (.ext v)
  | .insertAfterRange i vs => .insertVals c i vs
  | .eraseAfter i => .erase c i
  | .eraseAfterRange i j => .eraseRange c i j
  | .assign vs => .assignVals c vs
  | .assignN n v => .assignN c n (.ext v)
  | .clear => .clear c
  | .reverse => .reverse c

/-- The history on the list at `c`. -/
def runOps (c : Addr) : List (Op T) → Prog (Heap T) Unit
  | [] => pure ()
  | o :: os => do exec (o.call c); runOps c os

theorem copies_ext (S : State T) (n : Nat) (v : T) : S.copies n (.ext v) = List.replicate n v := rfl

theorem op_step (R : Reach S h) (hc : S.Exists c) (o : Op T) (ok : o.Ok ((S.get c).map Prod.snd)) :
    ∃ h' es', exec (o.call c) h = .ok ((), h') ∧ Reach (S.put c es') h' ∧ OthersKept S h h' [c] ∧
      es'.map Prod.snd = o.apply ((S.get c).map Prod.snd) := by
  have fin : ∀ (es' : List (Addr × T)), Legal S (o.call c) → spec S h.fresh (o.call c) = S.put c es' →
      es'.map Prod.snd = o.apply ((S.get c).map Prod.snd) →
      ∃ h' es', exec (o.call c) h = .ok ((), h') ∧ Reach (S.put c es') h' ∧ OthersKept S h h' [c] ∧
      es'.map Prod.snd = o.apply ((S.get c).map Prod.snd) := by
    intro es' lg e1 e2
    obtain ⟨h', q, R', _, k⟩ := one_list R (o.call c) lg e1
    exact ⟨h', es', q, R', k, e2⟩
  cases o with
  | pushFront v => exact fin _ hc rfl (by simp [Op.apply])
  | popFront => exact fin _ ⟨hc, by simpa [Op.Ok] using ok⟩ rfl (by simp [Op.apply])
  | insertAfter i v => exact fin _ ⟨hc, by simpa [Op.Ok] using ok⟩ rfl (by simp [Op.apply, insertAt])
  | insertAfterN i n v =>
    exact fin _ ⟨hc, by simpa [Op.Ok] using ok, v, rfl⟩ rfl (by simp [Op.apply, insertAt, fresh_values, copies_ext])
  | insertAfterRange i vs => exact fin _ ⟨hc, by simpa [Op.Ok] using ok⟩ rfl (by simp [Op.apply, insertAt, fresh_values])
  | eraseAfter i => exact fin _ ⟨hc, by simpa [Op.Ok] using ok⟩ rfl (by simp [Op.apply, List.eraseIdx_eq_take_drop_succ])
  | eraseAfterRange i j =>
    have := ok
    simp only [Op.Ok, List.length_map] at this
    exact fin _ ⟨hc, this⟩ rfl (by simp [Op.apply, cut])
  | assign vs => exact fin _ hc rfl (by simp [Op.apply, fresh_values])
  | assignN n v => exact fin _ ⟨hc, ⟨v, rfl⟩, by simp⟩ rfl (by simp [Op.apply, fresh_values, copies_ext])
  | clear => exact fin _ hc rfl (by simp [Op.apply])
  | reverse => exact fin _ hc rfl (by simp [Op.apply])

theorem OthersKept.trans {S' : State T} {h' h'' : Heap T} {L : List Addr} (a : OthersKept S h h' L) (b : OthersKept S' h' h'' L)
    (e : ∀ d, d ∉ L → S.Exists d → S'.Exists d) : OthersKept S h h'' L :=
  fun d hd hx fs hf => b d hd (e d hd hx) fs (a d hd hx fs hf)

/-- **C29.** Any legal history of operations on a forward list returns normally (no invalid memory access), and afterwards all
observers of the list agree with the same history on a mathematical sequence; no other list has changed. -/
theorem list_history : ∀ (os : List (Op T)) {h : Heap T} {S : State T} {vs : List T} {es : List (Addr × T)}, Reach S h → S.Exists c →
    Shows h c es → es.map Prod.snd = vs → OpsOk os vs →
    ∃ h' es' S', runOps c os h = .ok ((), h') ∧ Reach S' h' ∧ S'.Exists c ∧ Observes h' c es' ∧ es'.map Prod.snd = applyOps os vs ∧
      OthersKept S h h' [c]
  | [], h, S, vs, es, R, hc, hs, hv, ok =>
    ⟨h, es, S, rfl, R, hc, observes_shown R hc hs, hv, fun _ _ _ _ hf => hf⟩
  | o :: os, h, S, vs, es, R, hc, hs, hv, ok => by
    have hg := get_shown R hc hs
    obtain ⟨h1, es1, q1, R1, k1, e1⟩ := op_step R hc o (by rw [hg, hv]; exact ok.1)
    have s1 : Shows h1 c es1 := by have := reach_shows R1 (put_exists S c es1); rwa [put_get] at this
    rw [hg, hv] at e1
    obtain ⟨h', es', S', q, R', hc', ob, e, k⟩ := list_history os R1 (put_exists S c es1) s1 e1 ok.2
    refine ⟨h', es', S', ?_, R', hc', ob, e, k1.trans k ?_⟩
    · simp only [runOps, Prog.bind_app, q1, Res.bind_ok, q]
    · intro d _ hx; exact put_exists_other _ _ hx

/-- C29 from scratch: a new list with any history of operations behaves as the mathematical sequence that starts empty. -/
theorem new_list_history {h0 : Heap T} (b : Blank h0) (os : List (Op T)) (ok : OpsOk os []) :
    ∃ c h' es', (do let c ← create; runOps c os; pure c : Prog (Heap T) Addr) h0 = .ok (c, h') ∧ Observes h' c es' ∧
      es'.map Prod.snd = applyOps os [] := by
  have R0 := Reach.start b
  obtain ⟨h1, q1, R1, s1, _⟩ := one_list (c := h0.fresh) R0 .create trivial rfl
  obtain ⟨h', es', S', q, _, _, ob, e, _⟩ := list_history os R1 (put_exists _ _ _) s1 rfl ok
  have q0 : create h0 = .ok (h0.fresh, h1) := by
    obtain ⟨h2, q2, _⟩ := create_ok (T := T) R0.world.wf
    simp only [exec, Prog.bind_app, q2, Res.bind_ok, Prog.pure_app] at q1
    rw [q2]; cases q1; rfl
  refine ⟨h0.fresh, h', es', ?_, ob, e⟩
  simp only [Prog.bind_app, q0, Res.bind_ok, q, Prog.pure_app]

/-- C29, the returned iterators: `insert_after(pos, v)` returns the new element. -/
theorem insert_after_returns_new (R : Reach S h) (hc : S.Exists c) {es : List (Addr × T)} (hs : Shows h c es) {i : Nat}
    (hi : i ≤ es.length) (v : T) :
    ∃ h' a, (do insertOne (← SList.posAt c i) v : Prog (Heap T) Addr) h = .ok (a, h') ∧ h.live a = false ∧
      Shows h' c (es.take i ++ (a, v) :: es.drop i) := by
  obtain ⟨hc', r⟩ := shown R hc hs
  obtain ⟨h', q, W', _⟩ := insert_good R.world hc' hi v
  refine ⟨h', _, q, R.world.wf.fresh_dead (Nat.le_refl _), ?_⟩
  exact (World.sl W' (put_same _ _ _)).entries W'.wf

/-- C29, the returned iterators: `erase_after(pos)` removes exactly the element after `pos`, releases exactly its node and returns
the position behind the erased element. -/
theorem erase_after_removes (R : Reach S h) (hc : S.Exists c) {es : List (Addr × T)} (hs : Shows h c es) {i : Nat}
    (hi : i < es.length) :
    ∃ h' it, (do eraseAfter (← SList.posAt c i) : Prog (Heap T) Addr) h = .ok (it, h') ∧ Shows h' c (es.take i ++ es.drop (i + 1)) ∧
      SList.posAt c (i + 1) h' = .ok (it, h') ∧ (∀ x, h'.live x = (h.live x && decide (x ≠ es[i].1))) := by
  obtain ⟨hc', r⟩ := shown R hc hs
  obtain ⟨h', q, q', r', ef, _, _, dd, lv⟩ := delNext_at R.world.wf r hi
  rw [List.eraseIdx_eq_take_drop_succ] at r'
  refine ⟨h', posOf 0 ((es.drop (i + 1)).map Prod.fst), ?_, r'.entries ef.wf, ?_, ?_⟩
  · simp only [eraseAfter, Prog.bind_app, r.posAt (Nat.le_of_lt hi), Res.bind_ok, q, q', getNext_eq r'.last_live, r'.next_at]
  · rw [r'.posAt_elem (by simp; omega)]
    have hl : (es.take i).length = i := by simp; omega
    have : (es.take i ++ es.drop (i + 1)).drop i = es.drop (i + 1) := by rw [List.drop_append_of_le_length (by omega)]; simp
    rw [this]
  · intro x
    by_cases hx : x = es[i].1
    · subst hx; simp [dd]
    · simp [hx, lv x hx]

/-- C29 with a reference argument: `insert_after(pos, n, value)` where `value` refers to an element (even of the same list) inserts
copies of the value it had before the call. -/
theorem insert_n_own_element (R : Reach S h) (hc : S.Exists c) (hd : S.Exists d) {es fs : List (Addr × T)} (hs : Shows h c es)
    (hf : Shows h d fs) {e : Addr × T} (he : e ∈ fs) {i : Nat} (hi : i ≤ es.length) (n : Nat) :
    ∃ h' ns, exec (.insertN c i n (.elem e.1)) h = .ok ((), h') ∧ Shows h' c (es.take i ++ (ns ++ es.drop i)) ∧
      NewNodes h ns (List.replicate n e.2) ∧ OthersKept S h h' [c] := by
  obtain ⟨hc', r⟩ := shown R hc hs
  obtain ⟨hd', r'⟩ := shown R hd hf
  have rf : S.Refers e.2 (.elem e.1) := ⟨d, fs, hd', he⟩
  obtain ⟨h', q, R', s, k⟩ := one_list R (.insertN c i n (.elem e.1)) ⟨hc, by rw [get_some hc']; exact hi, _, rf⟩ rfl
  rw [get_some hc', copies_eq R.world rf] at s
  exact ⟨h', _, q, s, newNodes R (Nat.le_refl _) _, k⟩

end Verif.Seq.FwdProps
