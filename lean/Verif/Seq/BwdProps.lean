import Verif.Seq.BwdStep2
import Verif.Seq.Common
/-!
# Properties of `ttl::backward_list`

`Reach S h`: memory `h` is the result of some client program over any number of backward lists (`Verif.Seq.BwdApi`), and `S` says which
lists exist. What the theorems say about contents is said with client-side observations of `h`: iterating (`Shows`), and in `Observes`
also `empty()`, `front()`, `back()` and `before_end()`. An element is shown as the pair of its iterator (node address) and its value.
Position 0 of a list is `before_begin()`, position `i + 1` its `i`-th element.
-/
set_option linter.unusedVariables false
set_option linter.unusedSimpArgs false
set_option linter.unusedSectionVars false
namespace Verif.Seq.BwdProps
open Verif Verif.Seq.BList
open Verif.Seq.DList (Arg fresh insertAt slice cut Blank Relink split_at split_elem posOf posOf_cons posOf_nil)
variable {T : Type} {h : Heap T} {S : State T} {c d t u : Addr} {es fs : List (Addr × T)}

/-- Iterating `c` from `begin()` to `end()` visits exactly the elements `es`, in this order. -/
def Shows (h : Heap T) (c : Addr) (es : List (Addr × T)) : Prop := SList.entries c h = .ok (es, h)

/-- Every observer of `c` answers according to the elements `es`. -/
structure Observes (h : Heap T) (c : Addr) (es : List (Addr × T)) : Prop where
  forward : SList.entries c h = .ok (es, h)
  empty : BList.empty c h = .ok (es.isEmpty, h)
  front : ∀ e, es.head? = some e → SList.front c h = .ok (e.2, h)
  back : ∀ e, es.getLast? = some e → BList.back c h = .ok (e.2, h)
  beforeEnd : BList.beforeEnd c h = .ok (((es.getLast?).map Prod.fst).getD c, h)

/-- Every list other than those in `L` shows the same elements, at the same addresses, after as before, and keeps answering all
observers correctly if it did. -/
def OthersKept (S : State T) (h h' : Heap T) (L : List Addr) : Prop :=
  ∀ d, d ∉ L → S.Exists d → ∀ fs, (Shows h d fs → Shows h' d fs) ∧ (Observes h d fs → Observes h' d fs)

theorem Shows.inj (a : Shows h c es) (b : Shows h c fs) : es = fs := by
  unfold Shows at a b; rw [a] at b; cases b; rfl

theorem exists_mk (hc : S.Exists c) : ∃ es t, S c = some ⟨es, t⟩ := by obtain ⟨⟨es, t⟩, q⟩ := hc; exact ⟨es, t, q⟩

theorem reach_shows (R : Reach S h) (hc : S.Exists c) : Shows h c (S.get c) := by
  obtain ⟨es, t, hs⟩ := exists_mk hc
  rw [get_some hs]
  exact (World.sl R.world hs).entries R.world.wf

theorem get_shown (R : Reach S h) (hc : S.Exists c) (hs : Shows h c es) : S.get c = es :=
  (reach_shows R hc).inj hs

theorem shown (R : Reach S h) (hc : S.Exists c) (hs : Shows h c es) : ∃ t, S c = some ⟨es, t⟩ ∧ Slist h c es ∧ h.tail c = t := by
  have hg := get_shown R hc hs
  obtain ⟨fs, t, q⟩ := exists_mk hc
  rw [get_some q] at hg; subst hg
  exact ⟨t, q, World.sl R.world q, World.tl R.world q⟩

theorem lastOf_last (c : Addr) : ∀ (es : List (Addr × T)), lastOf c (es.map Prod.fst) = ((es.getLast?).map Prod.fst).getD c := by
  intro es
  rcases List.eq_nil_or_concat es with rfl | ⟨es, e, rfl⟩
  · rfl
  · rw [List.concat_eq_append, List.map_append, List.map_cons, List.map_nil, lastOf_concat]; simp

/-- A list whose `tail_` is right answers every observer correctly. -/
theorem observes_of (w : Wf h) (r : Slist h c es) (ht : h.tail c = lastOf c (es.map Prod.fst)) : Observes h c es := by
  refine ⟨r.entries w, ?_, ?_, ?_, ?_⟩
  · simp only [BList.empty, Prog.bind_app, getTail_eq r.head, Res.bind_ok, Prog.pure_app, ht]
    congr 2
    cases es with
    | nil => simp
    | cons e es =>
      have hne : c ≠ lastOf c ((e :: es).map Prod.fst) := by
        intro q
        have m := lastOf_mem' (A := (e :: es).map Prod.fst) c (by simp)
        rw [← q] at m
        exact (List.nodup_cons.1 r.nodup).1 m
      simp only [hne, decide_false, List.isEmpty_cons]
  · intro e he
    cases es with
    | nil => cases he
    | cons x es => cases he; exact r.front
  · intro e he
    obtain ⟨l1, l2⟩ := r.data e (List.mem_of_mem_getLast? he)
    simp only [BList.back, Prog.bind_app, getTail_eq r.head, Res.bind_ok, ht, lastOf_last, he, Option.map_some, Option.getD_some,
      getVal_eq l1 l2]
  · simp only [BList.beforeEnd, getTail_eq r.head, ht, lastOf_last]

theorem Observes.tail (w : Wf h) (r : Slist h c es) (o : Observes h c es) : h.tail c = lastOf c (es.map Prod.fst) := by
  have := o.beforeEnd
  simp only [BList.beforeEnd, getTail_eq r.head] at this
  rw [lastOf_last]; exact (Prod.mk.inj (Res.ok.inj this)).1

/-- `Healthy` is what a client can observe. -/
theorem healthy_iff (R : Reach S h) (hc : S.Exists c) (hs : Shows h c es) : S.Healthy c ↔ Observes h c es := by
  obtain ⟨t, q, r, ht⟩ := shown R hc hs
  unfold State.Healthy
  rw [end_some q, get_some q, lastPos_eq]
  constructor
  · rintro ⟨_, e⟩; exact observes_of R.world.wf r (ht.trans e)
  · intro o; exact ⟨hc, ht.symm.trans (o.tail R.world.wf r)⟩

theorem Observes.shows (o : Observes h c es) : Shows h c es := o.forward

/-- An observed list in terms of the specification state. -/
theorem observed (R : Reach S h) (hc : S.Exists c) (o : Observes h c es) :
    S c = some ⟨es, lastOf c (es.map Prod.fst)⟩ ∧ Slist h c es := by
  obtain ⟨t, q, r, ht⟩ := shown R hc o.shows
  rw [o.tail R.world.wf r] at ht
  exact ⟨ht ▸ q, r⟩

theorem put_other (S : State T) {c d : Addr} (es : List (Addr × T)) (t : Addr) (hd : d ≠ c) : S.put c es t d = S d := upd_other _ _ hd
theorem put_get (S : State T) (c : Addr) (es : List (Addr × T)) (t : Addr) : (S.put c es t).get c = es := get_some (put_same S c es t)
theorem put_end (S : State T) (c : Addr) (es : List (Addr × T)) (t : Addr) : (S.put c es t).endOf c = t := end_some (put_same S c es t)
theorem put_exists (S : State T) (c : Addr) (es : List (Addr × T)) (t : Addr) : (S.put c es t).Exists c := ⟨_, put_same S c es t⟩
theorem put_exists_other (S : State T) {c d : Addr} (es : List (Addr × T)) (t : Addr) (hd : S.Exists d) : (S.put c es t).Exists d := by
  by_cases q : d = c
  · subst q; exact put_exists _ _ _ _
  · obtain ⟨fs, e⟩ := hd; exact ⟨fs, by rw [put_other S es t q]; exact e⟩

/-- Lists the specification says are unchanged. -/
theorem kept_of {S' : State T} {h' : Heap T} (R : Reach S h) (R' : Reach S' h') {L : List Addr} (e : ∀ d, d ∉ L → S.Exists d → S' d = S d) :
    OthersKept S h h' L := by
  intro d hd hx fs
  obtain ⟨gs, t, q⟩ := exists_mk hx
  have q' := (e d hd hx).trans q
  have r' := World.sl R'.world q'
  have t' := World.tl R'.world q'
  have sh : Shows h d fs → gs = fs := fun s => by have := get_shown R hx s; rwa [get_some q] at this
  refine ⟨fun s => ?_, fun o => ?_⟩
  · have := r'.entries R'.world.wf; rwa [sh s] at this
  · have e1 := sh o.shows; subst e1
    refine observes_of R'.world.wf r' (t'.trans ?_)
    rw [← World.tl R.world q]; exact o.tail R.world.wf (World.sl R.world q)

/-- Every legal call returns normally, in a reachable memory again. -/
theorem call_returns (R : Reach S h) (k : Call T) (lg : Legal S k) :
    ∃ h', exec k h = .ok ((), h') ∧ Reach (spec S h.fresh k) h' := by
  obtain ⟨h', q, _, _⟩ := step_ok R.world k lg
  exact ⟨h', q, .step k R lg q⟩

/-- A call that only changes the list `c`. -/
theorem one_list (R : Reach S h) (k : Call T) (lg : Legal S k) {es' : List (Addr × T)} {t' : Addr} (hk : spec S h.fresh k = S.put c es' t') :
    ∃ h', exec k h = .ok ((), h') ∧ Reach (S.put c es' t') h' ∧ Shows h' c es' ∧ OthersKept S h h' [c] ∧ Slist h' c es' ∧ h'.tail c = t' := by
  obtain ⟨h', q, R'⟩ := call_returns R k lg
  rw [hk] at R'
  refine ⟨h', q, R', ?_, kept_of R R' ?_, World.sl R'.world (put_same _ _ _ _), World.tl R'.world (put_same _ _ _ _)⟩
  · have := reach_shows R' (put_exists S c es' t'); rwa [put_get] at this
  · intro d hd _; exact put_other _ _ _ (by simpa using hd)

/-- A call that leaves the list `c` healthy. -/
theorem one_healthy (R : Reach S h) (k : Call T) (lg : Legal S k) {es' : List (Addr × T)} {t' : Addr} (hk : spec S h.fresh k = S.put c es' t')
    (ht : t' = lastOf c (es'.map Prod.fst)) :
    ∃ h', exec k h = .ok ((), h') ∧ Reach (S.put c es' t') h' ∧ Observes h' c es' ∧ OthersKept S h h' [c] := by
  obtain ⟨h', q, R', s, k, r, tl⟩ := one_list R k lg hk
  exact ⟨h', q, R', observes_of R'.world.wf r (tl.trans ht), k⟩

theorem newNodes (R : Reach S h) {a : Addr} (ha : h.fresh ≤ a) (vs : List T) : NewNodes h (fresh a vs) vs :=
  ⟨fresh_values vs a, fun e he => R.world.wf.fresh_dead (Nat.le_trans ha (fresh_addr vs a e he))⟩

/-! ## Last positions -/

theorem lastOf_indep {B : List Addr} (hB : B ≠ []) (a b : Addr) : lastOf a B = lastOf b B := by
  cases B with
  | nil => exact absurd rfl hB
  | cons x xs => rfl

theorem last_insert {i : Nat} (hi : i < es.length) (xs : List (Addr × T)) :
    lastOf c ((insertAt i xs es).map Prod.fst) = lastOf c (es.map Prod.fst) := by
  have hne : (es.drop i).map Prod.fst ≠ [] := by simp; omega
  conv => rhs; rw [← List.take_append_drop i es]
  simp only [insertAt, List.map_append, lastOf_append]
  exact lastOf_indep hne _ _

theorem last_cut {i j : Nat} (hj : j < es.length) : lastOf c ((cut i j es).map Prod.fst) = lastOf c (es.map Prod.fst) := by
  have hne : (es.drop j).map Prod.fst ≠ [] := by simp; omega
  conv => rhs; rw [← List.take_append_drop j es]
  simp only [cut, List.map_append, lastOf_append]
  exact lastOf_indep hne _ _

theorem insert_end (xs : List (Addr × T)) : insertAt es.length xs es = es ++ xs := by simp [insertAt]

theorem full_pos : lastOf c ((es.take es.length).map Prod.fst) = lastOf c (es.map Prod.fst) := by rw [List.take_length]

theorem pos_is_last (r : Slist h c es) {i : Nat} (hi : i ≤ es.length) :
    lastOf c ((es.take i).map Prod.fst) = lastOf c (es.map Prod.fst) ↔ i = es.length := by
  constructor
  · intro q; rw [← full_pos (es := es)] at q; exact pos_inj r hi (Nat.le_refl _) q
  · rintro rfl; exact full_pos

theorem idx_last (r : Slist h c es) : idxOfPos c es (lastOf c (es.map Prod.fst)) = es.length := by
  obtain ⟨h1, h2⟩ := idx_pos c es (lastOf_mem (es.map Prod.fst) c)
  exact (pos_is_last r h1).1 h2

theorem last_is_head (r : Slist h c es) : lastOf c (es.map Prod.fst) = c ↔ es = [] := by
  constructor
  · intro q
    cases es with
    | nil => rfl
    | cons e es =>
      have m := lastOf_mem' (A := (e :: es).map Prod.fst) c (by simp)
      rw [q] at m
      exact absurd m (List.nodup_cons.1 r.nodup).1
  · rintro rfl; rfl

/-! ## C32: histories of one list -/

/-- The operations of a history; `pos` 0 is `before_begin()`, `pos` `i + 1` the `i`-th element. -/
inductive Op (T : Type) where
  | pushFront (v : T)
  | pushBack (v : T)
  | popFront
  | insertAfter (pos : Nat) (v : T)
  | insertAfterN (pos n : Nat) (v : T)
  | insertAfterRange (pos : Nat) (vs : List T)
  | eraseAfter (pos : Nat)
  | eraseAfterRange (pos last : Nat)
  | assign (vs : List T)
  | assignN (n : Nat) (v : T)
  | clear
  | reverse

/-- The same operation on a mathematical sequence. -/
def Op.apply : Op T → List T → List T
  | .pushFront v, vs => v :: vs
  | .pushBack v, vs => vs ++ [v]
  | .popFront, vs => vs.tail
  | .insertAfter i v, vs => vs.take i ++ v :: vs.drop i
  | .insertAfterN i n v, vs => vs.take i ++ (List.replicate n v ++ vs.drop i)
  | .insertAfterRange i ws, vs => vs.take i ++ (ws ++ vs.drop i)
  | .eraseAfter i, vs => vs.take i ++ vs.drop (i + 1)
  | .eraseAfterRange i j, vs => vs.take i ++ vs.drop (j - 1)
  | .assign ws, _ => ws
  | .assignN n v, _ => List.replicate n v
  | .clear, _ => []
  | .reverse, vs => vs.reverse

/-- Its precondition, as documented for such lists. -/
def Op.Pre : Op T → List T → Prop
  | .popFront, vs => vs ≠ []
  | .insertAfter i _, vs => i ≤ vs.length
  | .insertAfterN i _ _, vs => i ≤ vs.length
  | .insertAfterRange i _, vs => i ≤ vs.length
  | .eraseAfter i, vs => i < vs.length
  | .eraseAfterRange i j, vs => i < j ∧ j ≤ vs.length + 1
  | _, _ => True

/-- The cases in which the code keeps `before_end()` right: not popping the only element, not inserting or assigning a non-empty range
at the end, not reversing an empty list. -/
def Op.Safe : Op T → List T → Prop
  | .popFront, vs => 2 ≤ vs.length
  | .insertAfterRange i ws, vs => i < vs.length ∨ ws = []
  | .assign ws, _ => ws = []
  | .reverse, vs => vs ≠ []
  | _, _ => True

/-- Every operation of the history meets the condition `P`. -/
def OpsOk (P : Op T → List T → Prop) : List (Op T) → List T → Prop
  | [], _ => True
  | o :: os, vs => P o vs ∧ OpsOk P os (o.apply vs)

/-- The history applied to a mathematical sequence. -/
def applyOps (os : List (Op T)) (vs : List T) : List T := os.foldl (fun vs o => o.apply vs) vs

/-- The operation on the list at `c`. -/
def Op.call (c : Addr) : Op T → Call T
  | .pushFront v => .pushFront c v
  | .pushBack v => .pushBack c v
  | .popFront => .popFront c
  | .insertAfter i v => .insert c i v
  | .insertAfterN i n v => .insertN c i n (.ext v)
  | .insertAfterRange i vs => .insertVals c i vs
  | .eraseAfter i => .erase c i
  | .eraseAfterRange i j => .eraseRange c i j
  | .assign vs => .assignVals c vs
  | .assignN n v => .assignN c n (.ext v)
  | .clear => .clear c
  | .reverse => .reverse c

/-- The history on the list at `c`. -/
def runOps (c : Addr) : List (Op T) → Prog (Heap T) Unit
  | [] => pure ()
  | o :: os => do exec (o.call c); runOps c os

theorem copies_ext (S : State T) (n : Nat) (v : T) : S.copies n (.ext v) = List.replicate n v := rfl

theorem op_step (R : Reach S h) (hc : S.Exists c) (o : Op T) {es : List (Addr × T)} (ob : Observes h c es)
    (ok : o.Pre (es.map Prod.snd)) (sf : o.Safe (es.map Prod.snd)) :
    ∃ h' es' S', exec (o.call c) h = .ok ((), h') ∧ Reach S' h' ∧ S'.Exists c ∧ Observes h' c es' ∧ OthersKept S h h' [c] ∧
      (∀ d, S.Exists d → S'.Exists d) ∧ es'.map Prod.snd = o.apply (es.map Prod.snd) := by
  obtain ⟨hc', r⟩ := observed R hc ob
  have hg := get_some hc'
  have he := end_some hc'
  have fin : ∀ (es' : List (Addr × T)) (t' : Addr), Legal S (o.call c) → spec S h.fresh (o.call c) = S.put c es' t' →
      t' = lastOf c (es'.map Prod.fst) → es'.map Prod.snd = o.apply (es.map Prod.snd) →
      ∃ h' es' S', exec (o.call c) h = .ok ((), h') ∧ Reach S' h' ∧ S'.Exists c ∧ Observes h' c es' ∧ OthersKept S h h' [c] ∧
      (∀ d, S.Exists d → S'.Exists d) ∧ es'.map Prod.snd = o.apply (es.map Prod.snd) := by
    intro es' t' lg e1 e2 e3
    obtain ⟨h', q, R', o', k⟩ := one_healthy R (o.call c) lg e1 e2
    exact ⟨h', es', _, q, R', put_exists _ _ _ _, o', k, fun d hd => put_exists_other _ _ _ hd, e3⟩
  cases o with
  | pushFront v =>
    refine fin _ _ hc (by simp only [Op.call, spec, hg, he]; rfl) ?_ (by simp [Op.apply])
    simp only [last_is_head r, List.map_cons, lastOf_cons]
    split
    · rename_i q; subst q; rfl
    · rename_i q; exact lastOf_indep (by simpa using q) _ _
  | pushBack v =>
    refine fin _ _ ⟨hc, by rw [hg, he]; exact lastOf_mem _ _⟩ (by simp only [Op.call, spec, hg, he, idx_last r, insert_end]; rfl) ?_ (by simp [Op.apply])
    rw [List.map_append, List.map_cons, List.map_nil, lastOf_concat]
  | popFront =>
    simp only [Op.Pre, Op.Safe, List.length_map] at ok sf
    refine fin es.tail _ ⟨hc, by rw [hg]; intro q; rw [q] at sf; simp at sf⟩ (by simp only [Op.call, spec, hg, he]; rfl) ?_ (by simp [Op.apply])
    match es, sf with
    | x :: y :: es, _ => rfl
  | insertAfter i v =>
    simp only [Op.Pre, List.length_map] at ok
    refine fin _ _ ⟨hc, by rw [hg]; exact ok⟩ (by simp only [Op.call, spec, hg, he, posI_eq]; rfl) ?_ (by simp [Op.apply, insertAt])
    simp only [pos_is_last r ok]
    split
    · rename_i q; subst q
      rw [insert_end, List.map_append, List.map_cons, List.map_nil, lastOf_concat]
    · exact (last_insert (by omega) _).symm
  | insertAfterN i n v =>
    simp only [Op.Pre, List.length_map] at ok
    refine fin _ _ ⟨hc, by rw [hg]; exact ok, v, rfl⟩ (by simp only [Op.call, spec, hg, he, posI_eq, lastPos_eq]; rfl) ?_
      (by simp [Op.apply, insertAt, fresh_values, copies_ext])
    simp only [pos_is_last r ok]
    split
    · rename_i q; subst q
      rw [insert_end, List.map_append, lastOf_append]
    · exact (last_insert (by omega) _).symm
  | insertAfterRange i vs =>
    simp only [Op.Pre, Op.Safe, List.length_map] at ok sf
    refine fin _ _ ⟨hc, by rw [hg]; exact ok⟩ (by simp only [Op.call, spec, hg, he]; rfl) ?_ (by simp [Op.apply, insertAt, fresh_values])
    rcases sf with sf | rfl
    · exact (last_insert sf _).symm
    · simp [insertAt, fresh]
  | eraseAfter i =>
    simp only [Op.Pre, List.length_map] at ok
    refine fin _ _ ⟨hc, by rw [hg]; exact ok⟩ (by simp only [Op.call, spec, hg, he, posI_eq]; rfl) ?_ (by simp [Op.apply, List.eraseIdx_eq_take_drop_succ])
    simp only [pos_is_last r (show i + 1 ≤ es.length from ok), List.eraseIdx_eq_take_drop_succ]
    split
    · rename_i q; rw [q, List.drop_length, List.append_nil]
    · exact (last_cut (i := i) (j := i + 1) (by omega)).symm
  | eraseAfterRange i j =>
    simp only [Op.Pre, List.length_map] at ok
    refine fin _ _ ⟨hc, by rw [hg]; exact ok⟩ (by simp only [Op.call, spec, hg, he, posI_eq]; rfl) ?_ (by simp [Op.apply, cut])
    split
    · rename_i q
      rw [q, Nat.add_sub_cancel, cut, List.drop_length, List.append_nil]
    · exact (last_cut (by omega)).symm
  | assign vs =>
    simp only [Op.Safe] at sf
    subst sf
    exact fin [] c hc (by simp only [Op.call, spec, fresh]) rfl (by simp [Op.apply])
  | assignN n v =>
    exact fin _ _ ⟨hc, ⟨v, rfl⟩, by simp⟩ (by simp only [Op.call, spec, lastPos_eq]; rfl) rfl (by simp [Op.apply, fresh_values, copies_ext])
  | clear => exact fin _ _ hc rfl rfl (by simp [Op.apply])
  | reverse =>
    simp only [Op.Safe] at sf
    refine fin _ _ hc (by simp only [Op.call, spec, hg, firstPos_eq]; rfl) ?_ (by simp [Op.apply])
    cases es with
    | nil => exact absurd rfl sf
    | cons e es => simp only [List.reverse_cons, List.map_append, List.map_cons, List.map_nil, lastOf_concat, posOf_cons]

theorem OthersKept.trans {S' : State T} {h' h'' : Heap T} {L : List Addr} (a : OthersKept S h h' L) (b : OthersKept S' h' h'' L)
    (e : ∀ d, d ∉ L → S.Exists d → S'.Exists d) : OthersKept S h h'' L :=
  fun d hd hx fs => ⟨fun s => (b d hd (e d hd hx) fs).1 ((a d hd hx fs).1 s), fun o => (b d hd (e d hd hx) fs).2 ((a d hd hx fs).2 o)⟩

/-- **C32, the part that holds.** Any history of operations on a backward list that meets the usual preconditions and stays within the
cases the code handles (`Op.Safe`) returns normally, and afterwards all observers of the list, including `back()`, `empty()` and
`before_end()`, agree with the same history on a mathematical sequence; `push_back` always appends. No other list has changed. -/
theorem list_history_partial : ∀ (os : List (Op T)) {h : Heap T} {S : State T} {vs : List T} {es : List (Addr × T)}, Reach S h → S.Exists c →
    Observes h c es → es.map Prod.snd = vs → OpsOk (fun o vs => o.Pre vs ∧ o.Safe vs) os vs →
    ∃ h' es' S', runOps c os h = .ok ((), h') ∧ Reach S' h' ∧ S'.Exists c ∧ Observes h' c es' ∧ es'.map Prod.snd = applyOps os vs ∧
      OthersKept S h h' [c] ∧ ∀ d, S.Exists d → S'.Exists d
  | [], h, S, vs, es, R, hc, hs, hv, ok =>
    ⟨h, es, S, rfl, R, hc, hs, hv, fun _ _ _ _ => ⟨fun s => s, fun o => o⟩, fun _ x => x⟩
  | o :: os, h, S, vs, es, R, hc, hs, hv, ok => by
    subst hv
    obtain ⟨h1, es1, S1, q1, R1, x1, o1, k1, ex, e1⟩ := op_step R hc o hs ok.1.1 ok.1.2
    obtain ⟨h', es', S', q, R', hc', ob, e, k, xs⟩ := list_history_partial os R1 x1 o1 e1 ok.2
    refine ⟨h', es', S', ?_, R', hc', ob, e, k1.trans k fun d _ hx => ex d hx, fun d x => xs d (ex d x)⟩
    simp only [runOps, Prog.bind_app, q1, Res.bind_ok, q]

/-- C32 from scratch: a new list with any such history behaves as the mathematical sequence that starts empty. -/
theorem new_list_history_partial {h0 : Heap T} (b : Blank h0) (os : List (Op T)) (ok : OpsOk (fun o vs => o.Pre vs ∧ o.Safe vs) os []) :
    ∃ c h' es', (do let c ← create; runOps c os; pure c : Prog (Heap T) Addr) h0 = .ok (c, h') ∧ Observes h' c es' ∧
      es'.map Prod.snd = applyOps os [] := by
  have R0 := Reach.start b
  obtain ⟨h1, q1, R1, s1, _⟩ := one_healthy (c := h0.fresh) R0 .create trivial rfl rfl
  obtain ⟨h', es', S', q, _, _, ob, e, _⟩ := list_history_partial os R1 (put_exists _ _ _ _) s1 rfl ok
  have q0 : create h0 = .ok (h0.fresh, h1) := by
    obtain ⟨h2, q2, _⟩ := create_good (T := T) R0.world
    simp only [exec, Prog.bind_app, q2, Res.bind_ok, Prog.pure_app] at q1
    rw [q2]; cases q1; rfl
  refine ⟨h0.fresh, h', es', ?_, ob, e⟩
  simp only [Prog.bind_app, q0, Res.bind_ok, q, Prog.pure_app]

/-- What iteration shows is right for every history without `push_back`, whatever the state of `before_end()`. -/
theorem contents_step (R : Reach S h) (hc : S.Exists c) (o : Op T) (np : ∀ v, o ≠ .pushBack v) (ok : o.Pre ((S.get c).map Prod.snd)) :
    ∃ h' es' t', exec (o.call c) h = .ok ((), h') ∧ Reach (S.put c es' t') h' ∧ OthersKept S h h' [c] ∧
      es'.map Prod.snd = o.apply ((S.get c).map Prod.snd) := by
  have fin : ∀ (es' : List (Addr × T)) (t' : Addr), Legal S (o.call c) → spec S h.fresh (o.call c) = S.put c es' t' →
      es'.map Prod.snd = o.apply ((S.get c).map Prod.snd) →
      ∃ h' es' t', exec (o.call c) h = .ok ((), h') ∧ Reach (S.put c es' t') h' ∧ OthersKept S h h' [c] ∧
      es'.map Prod.snd = o.apply ((S.get c).map Prod.snd) := by
    intro es' t' lg e1 e2
    obtain ⟨h', q, R', _, k, _⟩ := one_list R (o.call c) lg e1
    exact ⟨h', es', t', q, R', k, e2⟩
  cases o with
  | pushFront v => exact fin _ _ hc rfl (by simp [Op.apply])
  | pushBack v => exact absurd rfl (np v)
  | popFront => exact fin _ _ ⟨hc, by simpa [Op.Pre] using ok⟩ rfl (by simp [Op.apply])
  | insertAfter i v => exact fin _ _ ⟨hc, by simpa [Op.Pre] using ok⟩ rfl (by simp [Op.apply, insertAt])
  | insertAfterN i n v =>
    exact fin _ _ ⟨hc, by simpa [Op.Pre] using ok, v, rfl⟩ rfl (by simp [Op.apply, insertAt, fresh_values, copies_ext])
  | insertAfterRange i vs => exact fin _ _ ⟨hc, by simpa [Op.Pre] using ok⟩ rfl (by simp [Op.apply, insertAt, fresh_values])
  | eraseAfter i => exact fin _ _ ⟨hc, by simpa [Op.Pre] using ok⟩ rfl (by simp [Op.apply, List.eraseIdx_eq_take_drop_succ])
  | eraseAfterRange i j =>
    have := ok
    simp only [Op.Pre, List.length_map] at this
    exact fin _ _ ⟨hc, this⟩ rfl (by simp [Op.apply, cut])
  | assign vs => exact fin _ _ hc rfl (by simp [Op.apply, fresh_values])
  | assignN n v => exact fin _ _ ⟨hc, ⟨v, rfl⟩, by simp⟩ rfl (by simp [Op.apply, fresh_values, copies_ext])
  | clear => exact fin _ _ hc rfl (by simp [Op.apply])
  | reverse => exact fin _ _ hc rfl (by simp [Op.apply])

/-- **C32, contents.** For every history of operations other than `push_back` (without the restrictions of `Op.Safe`), iterating the list
shows the same as the history on a mathematical sequence. -/
theorem contents_history_partial : ∀ (os : List (Op T)) {h : Heap T} {S : State T} {vs : List T} {es : List (Addr × T)}, Reach S h → S.Exists c →
    Shows h c es → es.map Prod.snd = vs → OpsOk (fun o vs => o.Pre vs ∧ ∀ v, o ≠ .pushBack v) os vs →
    ∃ h' es' S', runOps c os h = .ok ((), h') ∧ Reach S' h' ∧ S'.Exists c ∧ Shows h' c es' ∧ es'.map Prod.snd = applyOps os vs ∧
      OthersKept S h h' [c] ∧ ∀ d, S.Exists d → S'.Exists d
  | [], h, S, vs, es, R, hc, hs, hv, ok =>
    ⟨h, es, S, rfl, R, hc, hs, hv, fun _ _ _ _ => ⟨fun s => s, fun o => o⟩, fun _ x => x⟩
  | o :: os, h, S, vs, es, R, hc, hs, hv, ok => by
    have hg := get_shown R hc hs
    obtain ⟨h1, es1, t1, q1, R1, k1, e1⟩ := contents_step R hc o ok.1.2 (by rw [hg, hv]; exact ok.1.1)
    have s1 : Shows h1 c es1 := by have := reach_shows R1 (put_exists S c es1 t1); rwa [put_get] at this
    rw [hg, hv] at e1
    obtain ⟨h', es', S', q, R', hc', ob, e, k, xs⟩ := contents_history_partial os R1 (put_exists S c es1 t1) s1 e1 ok.2
    refine ⟨h', es', S', ?_, R', hc', ob, e, k1.trans k fun d _ hx => put_exists_other _ _ _ hx, fun d x => xs d (put_exists_other _ _ _ x)⟩
    simp only [runOps, Prog.bind_app, q1, Res.bind_ok, q]

end Verif.Seq.BwdProps
