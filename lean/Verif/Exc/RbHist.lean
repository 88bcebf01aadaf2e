import Verif.Exc.RbProps
/-!
# Programs over `ttl::map` and `ttl::set` in which calls throw (C129)
-/
set_option linter.unusedVariables false
set_option linter.unusedSimpArgs false
set_option linter.unusedSectionVars false
set_option linter.constructorNameAsVariable false
namespace Verif.Exc.XRb
open Verif Verif.Rb Verif.Exc Tree
variable {K V : Type}

/-- `Shows h c vals`: the loop `for (it = c.begin(); it != c.end(); ++it)` sees the elements `vals`. -/
def Shows (h : Heap V) (c : Addr) (vals : List V) : Prop := ∃ es, entries c h = .ok (es, h) ∧ es.map Prod.snd = vals

section Keyed
variable [DecidableEq K] (lt : K → K → Bool) (keyOf : V → K)

/-- `XReach S n h`: some client program, in which any calls may have been left by exceptions at any points, ends in memory `h`, by the specification
with the containers `S`, and `n` nodes have been lost on the way. -/
inductive XReach : St V → Nat → Heap V → Prop where
  | start (junk : Addr → RbNode) : XReach [] 0 (emptyMemory junk)
  | returned {S : St V} {n : Nat} {h h' : Heap V} {objs : List Addr} (q : XCall K V) (k k' : Nat) : XReach S n h → Legal S q →
      exec lt keyOf S.objs q k h = .ok (.ret objs k', h') → XReach (spec lt keyOf S h.next q) n h'
  | thrown {S S' : St V} {n m : Nat} {h t : Heap V} (q : XCall K V) (k : Nat) : XReach S n h → Legal S q →
      exec lt keyOf S.objs q k h = .ok (.thrown, t) → Interrupted lt keyOf S k q S' m → (∀ c ∈ S'.objs, Shows t c (S'.get c).vals) →
      XReach S' (n + m) t
  | env {S : St V} {n : Nat} {h h' : Heap V} : XReach S n h → Env h h' → XReach S n h'

variable {lt keyOf} {S : St V} {n : Nat} {h : Heap V} {c : Addr}

theorem Inv.box (I : Inv lt keyOf S n h) (hc : c ∈ S.objs) :
    ∃ es, Holds (S.get c).ok h c es ∧ es.map Prod.snd = (S.get c).vals ∧ Ascending lt keyOf es ∧ Wf h := by
  obtain ⟨bs, L, W, rfl, rfl, ha⟩ := I
  obtain ⟨A, b, B, rfl, rfl⟩ := box_at hc
  rw [get_split W]
  exact ⟨b.es, W.holds b (by simp), rfl, ha b (by simp), W.wf⟩

theorem Inv.shows (I : Inv lt keyOf S n h) (hc : c ∈ S.objs) : Shows h c (S.get c).vals := by
  obtain ⟨es, o, e, _⟩ := I.box hc
  exact ⟨es, o.entries, e⟩

theorem get_put {ok : Bool} {vals : List V} (hc : c ∈ S.objs) : (S.put c ok vals).get c = ⟨c, ok, vals⟩ := by
  induction S with
  | nil => simp [St.objs] at hc
  | cons w S ih =>
    simp only [St.put, St.get, List.map_cons, List.find?_cons]
    by_cases e : w.hd = c
    · simp [e]
    · have : c ∈ St.objs S := by
        simp only [St.objs, List.map_cons, List.mem_cons] at hc
        exact hc.resolve_left fun q => e q.symm
      simp only [if_neg e, decide_eq_false e]
      exact ih this

theorem put_objs (S : St V) (c : Addr) (ok : Bool) (vals : List V) : (S.put c ok vals).objs = S.objs := by
  simp only [St.objs, St.put, List.map_map]
  refine List.map_congr_left fun x _ => ?_
  simp only [Function.comp]
  split
  · rename_i e; exact e.symm
  · rfl

/-- What the client sees decides in which of the possible states an exception has left the containers. -/
theorem interrupted_unique {S₁ S₂ : St V} {k m₁ m₂ : Nat} {q : XCall K V} {t : Heap V} (lg : Legal S q) (i₁ : Interrupted lt keyOf S k q S₁ m₁)
    (i₂ : Interrupted lt keyOf S k q S₂ m₂) (I : Inv lt keyOf S₁ n t) (u : ∀ c ∈ S₂.objs, Shows t c (S₂.get c).vals) : S₁ = S₂ ∧ m₁ = m₂ := by
  cases q with
  | ofRange vs => exact ⟨i₁.1.trans i₂.1.symm, i₁.2.trans i₂.2.symm⟩
  | base q =>
  cases q with
  | insertRange c vs =>
    obtain ⟨⟨a, la, rfl⟩, rfl⟩ := i₁
    obtain ⟨⟨b, lb, rfl⟩, rfl⟩ := i₂
    have hc : c ∈ S.objs := lg.1.1 c (by simp [Call.args])
    obtain ⟨es, e, q⟩ := I.shows (c := c) (by rw [put_objs]; exact hc)
    obtain ⟨es', e', q'⟩ := u c (by rw [put_objs]; exact hc)
    rw [e] at e'; cases e'
    rw [get_put hc] at q q'
    simp only at q q'
    rw [← q, ← q']; exact ⟨rfl, rfl⟩
  | copyOf s => exact ⟨i₁.2.1.trans i₂.2.1.symm, i₁.2.2.trans i₂.2.2.symm⟩
  | assign d s => exact ⟨i₁.2.1.trans i₂.2.1.symm, i₁.2.2.trans i₂.2.2.symm⟩
  | insert c v => exact ⟨i₁.1.trans i₂.1.symm, i₁.2.trans i₂.2.symm⟩
  | erase c k => exact ⟨i₁.1.trans i₂.1.symm, i₁.2.trans i₂.2.symm⟩
  | store c v => exact ⟨i₁.1.trans i₂.1.symm, i₁.2.trans i₂.2.symm⟩
  | find c k => exact ⟨i₁.1.trans i₂.1.symm, i₁.2.trans i₂.2.symm⟩
  | lower c k => exact ⟨i₁.1.trans i₂.1.symm, i₁.2.trans i₂.2.symm⟩
  | create => exact i₁.elim
  | destroy c => exact i₁.elim
  | clear c => exact i₁.elim

/-- Every legal call, with an exception at whatever point or with none: it returns having done what the specification says, or throws and leaves what
`Interrupted` allows. It never runs into undefined behaviour and never hangs. -/
theorem call_outcome (ho : StrictTotalOrder lt) (I : Inv lt keyOf S n h) (q : XCall K V) (lg : Legal S q) (k : Nat) :
    (∃ h' k', exec lt keyOf S.objs q k h = .ok (.ret (spec lt keyOf S h.next q).objs k', h') ∧ Inv lt keyOf (spec lt keyOf S h.next q) n h') ∨
    (∃ t S' m, exec lt keyOf S.objs q k h = .ok (.thrown, t) ∧ Interrupted lt keyOf S k q S' m ∧ Inv lt keyOf S' (n + m) t) := by
  obtain ⟨N, h', I', X⟩ := call_points ho I q lg
  rcases X.cases k with ⟨_, x⟩ | ⟨_, t, x, S', m, i, r⟩
  · exact .inl ⟨h', _, x, I'⟩
  · exact .inr ⟨t, S', m, x, i, r⟩

theorem Inv.start (junk : Addr → RbNode) : Inv lt keyOf [] 0 (emptyMemory junk : Heap V) :=
  ⟨[], [], ⟨⟨Nat.zero_lt_one, fun _ _ => ⟨rfl, rfl⟩⟩, by simp, by simp, by simp, by simp, by simp [emptyMemory]⟩, rfl, rfl, by simp⟩

theorem XReach.inv (ho : StrictTotalOrder lt) (X : XReach lt keyOf S n h) : Inv lt keyOf S n h := by
  induction X with
  | start junk => exact .start junk
  | @returned S n h h' objs q k k' _ lg e ih =>
    rcases call_outcome ho ih q lg k with ⟨h1, k1, e1, I1⟩ | ⟨t, S', m, e1, _, _⟩
    · rw [e] at e1; cases e1; exact I1
    · rw [e] at e1; cases e1
  | @thrown S S' n m h t q k _ lg e i u ih =>
    rcases call_outcome ho ih q lg k with ⟨h1, k1, e1, _⟩ | ⟨t1, S1, m1, e1, i1, I1⟩
    · rw [e] at e1; cases e1
    · rw [e] at e1; cases e1
      obtain ⟨rfl, rfl⟩ := interrupted_unique lg i1 i I1 u
      exact I1
  | env _ e ih =>
    obtain ⟨bs, L, W, q, l, a⟩ := ih
    refine ⟨bs, L, ⟨e.wf, fun w hw => (W.holds w hw).congr fun x _ => ⟨by rw [e.node], by rw [e.data]⟩, fun x hx => ?_, W.zero, W.nodup, fun x hx => W.tight x ?_⟩, q, l, a⟩
    · rw [e.node]; exact W.leaked x hx
    · rw [← e.node]; exact hx

/-! ## What a client sees -/

/-- **C129, progress.** Whatever exceptions a program has met, every legal call returns or throws (no undefined behaviour, no endless loop), and the
program goes on. -/
theorem XReach.goes_on (ho : StrictTotalOrder lt) (X : XReach lt keyOf S n h) (q : XCall K V) (lg : Legal S q) (k : Nat) :
    (∃ h' k', exec lt keyOf S.objs q k h = .ok (.ret (spec lt keyOf S h.next q).objs k', h') ∧ XReach lt keyOf (spec lt keyOf S h.next q) n h') ∨
    (∃ t S' m, exec lt keyOf S.objs q k h = .ok (.thrown, t) ∧ Interrupted lt keyOf S k q S' m ∧ XReach lt keyOf S' (n + m) t) := by
  rcases call_outcome ho (X.inv ho) q lg k with ⟨h1, k1, e1, _⟩ | ⟨t1, S1, m1, e1, i, I1⟩
  · exact .inl ⟨h1, k1, e1, .returned q k k1 X lg e1⟩
  · exact .inr ⟨t1, S1, m1, e1, i, .thrown q k X lg e1 i fun c hc => I1.shows hc⟩

/-- **C129, iteration.** Every container shows the elements the specification says, in strictly ascending order of the keys, whatever was thrown. -/
theorem iteration (ho : StrictTotalOrder lt) (X : XReach lt keyOf S n h) (hc : c ∈ S.objs) :
    Shows h c (S.get c).vals ∧ (S.get c).vals.Pairwise fun a b => lt (keyOf a) (keyOf b) = true := by
  obtain ⟨es, o, e, a, _⟩ := (X.inv ho).box hc
  exact ⟨⟨es, o.entries, e⟩, by rw [← e, List.pairwise_map]; exact a⟩

theorem holds_of_entries (ho : StrictTotalOrder lt) (X : XReach lt keyOf S n h) (hc : c ∈ S.objs) {es : List (Addr × V)} {h1 : Heap V}
    (he : entries c h = .ok (es, h1)) : Holds (S.get c).ok h c es ∧ es.map Prod.snd = (S.get c).vals ∧ Ascending lt keyOf es ∧ Wf h := by
  obtain ⟨es', o, e, a, w⟩ := (X.inv ho).box hc
  rw [o.entries] at he; cases he
  exact ⟨o, e, a, w⟩

/-- **C129, lookups.** `find` and `lower_bound` give the positions that a linear search gives, whatever was thrown. -/
theorem lookups (ho : StrictTotalOrder lt) (X : XReach lt keyOf S n h) (hc : c ∈ S.objs) {es : List (Addr × V)} (he : entries c h = .ok (es, h)) (key : K) :
    (∃ j, Rb.find lt keyOf c key h = .ok (((es.find? fun e => decide (keyOf e.2 = key)).map Prod.fst).getD c, h.tick j)) ∧
    (∃ j, Rb.lowerBound lt keyOf c key h = .ok (((es.find? fun e => !lt (keyOf e.2) key).map Prod.fst).getD c, h.tick j)) := by
  obtain ⟨o, _, a, _⟩ := holds_of_entries ho X hc he
  exact ⟨find_holds ho o a key, lowerBound_holds ho.toStrictWeak o (a.weak ho) key⟩

/-- **C129, backward iteration**, of a container whose last `erase` did not throw (see `backward_after_throw_fails`). -/
theorem backward_partial (ho : StrictTotalOrder lt) (X : XReach lt keyOf S n h) (hc : c ∈ S.objs) (ok : (S.get c).ok = true) {es : List (Addr × V)}
    (he : entries c h = .ok (es, h)) : entriesBackward c h = .ok (es.reverse, h) := by
  obtain ⟨o, _⟩ := holds_of_entries ho X hc he
  rw [ok] at o
  exact o.owns.entriesBackward

/-- The sum of the sizes of the containers, each with its header. -/
def St.nodes (S : St V) : Nat := (S.map fun w => 1 + w.vals.length).sum

/-- **C129, memory.** The live memory blocks are the nodes of the containers, their headers and the `n` nodes lost in copies. -/
theorem memory (ho : StrictTotalOrder lt) (X : XReach lt keyOf S n h) :
    ∃ L : List Addr, L.Nodup ∧ (∀ x, x ∈ L ↔ (h.node x).isSome) ∧ L.length = S.nodes + n := by
  obtain ⟨bs, L, W, rfl, rfl, _⟩ := X.inv ho
  refine ⟨_, W.nodup, fun x => ⟨W.live, W.tight x⟩, ?_⟩
  rw [List.length_append, List.length_flatMap]
  congr 1
  simp only [St.nodes, List.map_map]
  congr 1
  refine List.map_congr_left fun b _ => ?_
  simp [cells, Box.cont, Nat.add_comm]

/-- **C129, no leak.** When all containers have been destroyed, nothing is left but what interrupted copies have lost. -/
theorem no_leak (ho : StrictTotalOrder lt) (X : XReach lt keyOf ([] : St V) n h) :
    ∃ L : List Addr, L.Nodup ∧ (∀ x, x ∈ L ↔ (h.node x).isSome) ∧ L.length = n := by
  simpa [St.nodes] using memory ho X

/-- Only copy construction and copy assignment lose nodes. -/
theorem only_copies_lose {S' : St V} {k m : Nat} {q : XCall K V} (i : Interrupted lt keyOf S k q S' m) (hm : m ≠ 0) :
    (∃ s, q = .base (.copyOf s)) ∨ ∃ d s, q = .base (.assign d s) := by
  cases q with
  | ofRange vs => exact absurd i.2 hm
  | base q =>
  cases q with
  | copyOf s => exact .inl ⟨s, rfl⟩
  | assign d s => exact .inr ⟨d, s, rfl⟩
  | insert c v => exact absurd i.2 hm
  | insertRange c vs => exact absurd i.2 hm
  | erase c k => exact absurd i.2 hm
  | store c v => exact absurd i.2 hm
  | find c k => exact absurd i.2 hm
  | lower c k => exact absurd i.2 hm
  | create => exact i.elim
  | destroy c => exact i.elim
  | clear c => exact i.elim

/-! ## Single members -/

/-- **C129, strong guarantee.** If `insert(v)` throws, memory is what it was (the counter of comparisons apart). -/
theorem insert_strong (objs : List Addr) (c : Addr) (v : V) (h t : Heap V) (k : Nat)
    (e : exec lt keyOf objs (.base (.insert c v)) k h = .ok (.thrown, t)) : ∃ j, t = h.tick j := by
  have T : Throws (exec lt keyOf objs (.base (.insert c v))) h fun t => ∃ j, t = h.tick j :=
    throws_bind (throws_insertUnique lt keyOf c v h) fun _ _ _ _ _ => throws_pure
  exact T.out k t e

/-- **C129, basic guarantee of `erase`.** If a comparison throws in `erase`, every container shows what it showed, in the same nodes: all iterators and
references remain valid. -/
theorem erase_interrupted (ho : StrictTotalOrder lt) (X : XReach lt keyOf S n h) (hc : c ∈ S.objs) (key : K) {t : Heap V} {k : Nat}
    (e : exec lt keyOf S.objs (.base (.erase c key)) k h = .ok (.thrown, t)) {d : Addr} (hd : d ∈ S.objs) {es : List (Addr × V)}
    (he : entries d h = .ok (es, h)) : entries d t = .ok (es, t) := by
  obtain ⟨bs, L, W, rfl, rfl, ha⟩ := X.inv ho
  obtain ⟨A, b, B, rfl, rfl⟩ := box_at hc
  obtain ⟨tr, rt, _, it, dt⟩ := W.holds b (by simp)
  have T : Throws (exec lt keyOf (St.objs ((A ++ b :: B).map Box.cont)) (.base (.erase b.hd key))) h (Kept b.hd tr.inorder h) :=
    throws_bind (throws_erase lt keyOf rt W.null key) fun _ _ _ _ _ => throws_pure
  obtain ⟨tr', r', i', _, u⟩ := T.out k t e
  obtain ⟨A', b', B', e', rfl⟩ := box_at hd
  have hb' : b' ∈ A ++ b :: B := by rw [e']; simp
  have o' := W.holds b' hb'
  rw [o'.entries] at he; cases he
  rw [it] at i' u
  rcases List.mem_append.1 hb' with q | q
  · refine (o'.congr fun x hx => ⟨u.node x ?_, by rw [u.data]⟩).entries
    intro hx'
    exact (W.split.1 x hx').1 (List.mem_flatMap.2 ⟨b', by simp [q], hx⟩)
  · rcases List.mem_cons.1 q with rfl | q
    · exact Holds.entries (f := false) ⟨tr', r', fun q => (by cases q), i', fun x hx => by rw [u.data]; exact dt x hx⟩
    · refine (o'.congr fun x hx => ⟨u.node x ?_, by rw [u.data]⟩).entries
      intro hx'
      exact (W.split.1 x hx').1 (List.mem_flatMap.2 ⟨b', by simp [q], hx⟩)

end Keyed
end Verif.Exc.XRb
