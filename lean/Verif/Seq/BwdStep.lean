import Verif.Seq.BwdApi
import Verif.Seq.FwdStep3
/-!
# `ttl::backward_list`: every legal call does what the specification says
-/
set_option linter.unusedVariables false
set_option linter.unusedSimpArgs false
namespace Verif.Seq.BList
open Verif
open Verif.Seq.DList (Arg fresh insertAt slice cut Blank Relink split_at split_elem posOf posOf_cons posOf_nil)
variable {T : Type} {h : Heap T} {S : State T} {c d t u : Addr} {es fs : List (Addr × T)}

theorem lastPos_eq (c : Addr) : ∀ (es : List (Addr × T)), lastPos c es = lastOf c (es.map Prod.fst)
  | [] => rfl
  | e :: es => by
    have : ∀ (l : List Addr) (a b : Addr), (a :: l).getLastD b = lastOf a l := by
      intro l
      induction l with
      | nil => intro a b; rfl
      | cons x l ih => intro a b; exact ih x a
    exact this _ _ _
theorem posI_eq (c : Addr) (es : List (Addr × T)) (i : Nat) : posI c es i = lastOf c ((es.take i).map Prod.fst) := lastPos_eq _ _
theorem firstPos_eq (es : List (Addr × T)) : firstPos es = posOf 0 (es.map Prod.fst) := by cases es <;> rfl

theorem World.sl (W : World iface h S) (hc : S c = some ⟨es, t⟩) : Slist h c es := (W.own c _ hc).1
theorem World.tl (W : World iface h S) (hc : S c = some ⟨es, t⟩) : h.tail c = t := (W.own c _ hc).2
theorem get_some (hc : S c = some ⟨es, t⟩) : S.get c = es := by simp [State.get, hc]
theorem end_some (hc : S c = some ⟨es, t⟩) : S.endOf c = t := by simp [State.endOf, hc]
theorem put_same (S : State T) (c : Addr) (es : List (Addr × T)) (t : Addr) : S.put c es t c = some ⟨es, t⟩ := upd_same _ _ _
theorem put_put (S : State T) (c : Addr) (es fs : List (Addr × T)) (t u : Addr) : (S.put c es t).put c fs u = S.put c fs u := by
  funext x; unfold State.put upd; split <;> rfl
theorem put_self (hc : S c = some ⟨es, t⟩) : S.put c es t = S := by
  funext x; unfold State.put upd; split
  · rename_i q; rw [q, hc]
  · rfl

/-- Only `tail_` of the container at `c` changes. -/
theorem setTail_world (W : World iface h S) (hc : S c = some ⟨es, t⟩) (u : Addr) :
    World iface { h with tail := upd h.tail c u } (S.put c es u) := by
  have r := World.sl W hc
  refine World.chg W hc (s' := ⟨es, u⟩) ⟨?_, fun _ _ _ l => l, fun _ a b => absurd b a, fun _ a b => absurd a b, ⟨W.wf.pos, W.wf.null, W.wf.used⟩, Nat.le_refl _⟩ ⟨?_, by simp⟩
  · intro x hx _ _
    refine ⟨rfl, rfl, upd_other _ _ ?_, rfl, rfl⟩
    intro q; subst q; exact hx (by simp [iface, scells])
  · exact ⟨r.head, r.bare, r.path.congr (fun _ _ => rfl), r.nodup, r.data⟩

theorem setTail_ok (W : World iface h S) (hc : S c = some ⟨es, t⟩) (u : Addr) :
    setTail c u h = .ok ((), { h with tail := upd h.tail c u }) := setTail_eq (World.sl W hc).head u

/-- A call that changes one list and leaves `tail_` alone. -/
theorem one {α : Type} {es' : List (Addr × T)} {p : Prog (Heap T) α} {a : α} {h' : Heap T} (W : World iface h S)
    (hc : S c = some ⟨es, t⟩) (q : p h = .ok (a, h')) (ef : Effect (· ∈ scells c es) (· ∈ scells c es') h h') (r : Slist h' c es')
    (tl : h'.tail = h.tail) : GoodR iface p h a (S.put c es' t) :=
  ⟨h', q, World.chg W hc (s' := ⟨es', t⟩) ef ⟨r, by rw [tl]; exact World.tl W hc⟩, ef.mono⟩

/-- A conditional assignment to `tail_` after a call. -/
theorem then_tail {α β : Type} {p : Prog (Heap T) α} {a : α} {b : β} (cond : Prop) [Decidable cond]
    (g : GoodR iface p h a (S.put c es t)) (u : Addr) {q : Prog (Heap T) β}
    (hq : ∀ h1, p h = .ok (a, h1) → h1.live c = true → h1.tail c = t →
      q h = if cond then .ok (b, { h1 with tail := upd h1.tail c u }) else .ok (b, h1)) :
    GoodR iface q h b (S.put c es (if cond then u else t)) := by
  obtain ⟨h1, q1, W1, m⟩ := g
  have hc := put_same S c es t
  have e := hq h1 q1 (World.sl W1 hc).head (World.tl W1 hc)
  by_cases k : cond
  · rw [if_pos k] at e
    refine ⟨_, e, ?_, m⟩
    have := setTail_world W1 hc u
    rw [put_put] at this
    simpa only [k, if_true] using this
  · rw [if_neg k] at e
    refine ⟨_, e, ?_, m⟩
    simpa only [k, if_false] using W1

/-! ## Reference arguments -/

theorem refers_readable (W : World iface h S) {v : T} {value : Arg T} (rf : S.Refers v value) : Readable h v value := by
  cases value with
  | ext w => exact rf
  | elem a =>
    obtain ⟨c, ⟨es, t⟩, hc, hm⟩ := rf
    exact (World.sl W hc).data (a, v) hm

theorem valueOf_eq (W : World iface h S) {v : T} {value : Arg T} (rf : S.Refers v value) : S.valueOf value = some v := by
  cases value with
  | ext w => exact congrArg some rf
  | elem a =>
    have e : ∃ v, S.Refers v (.elem a) := ⟨v, rf⟩
    simp only [State.valueOf, dif_pos e]
    exact congrArg some (FList.Readable.inj (refers_readable W e.choose_spec) (refers_readable W rf))

theorem copies_eq (W : World iface h S) {v : T} {value : Arg T} (rf : S.Refers v value) (n : Nat) :
    S.copies n value = List.replicate n v := by simp [State.copies, valueOf_eq W rf]

/-! ## Constructors -/

theorem create_good (W : World iface h S) : ∃ h', create h = .ok (h.fresh, h') ∧ World iface h' (S.put h.fresh [] h.fresh) ∧
    h'.fresh = h.fresh + 1 ∧ (∀ x, h.live x = true → Same h h' x) := by
  obtain ⟨h1, q, r, ef, fr, tl⟩ := newHead_ok W.wf
  have n0 := W.fresh_none
  refine ⟨{ h1 with tail := upd h1.tail h.fresh h.fresh }, ?_, ?_, fr, ?_⟩
  · simp only [Prog.bind_app, newRaw_eq, Res.bind_ok, setNext, upd_same, if_true, Prog.pure_app] at q
    cases q
    simp only [create, Prog.bind_app, newRaw_eq, Res.bind_ok, setNext, setTail, upd_same, if_true, Prog.pure_app]
  · refine World.made W (s' := ⟨[], h.fresh⟩) ⟨?_, ef.dead, ef.grown, ef.shrunk, ⟨ef.wf.pos, ef.wf.null, ef.wf.used⟩, ef.mono⟩ ⟨⟨r.head, r.bare, r.path.congr (fun _ _ => rfl), r.nodup, r.data⟩, by simp⟩
    intro x h1 h2 l
    have s := ef.frame x h1 h2 l
    refine ⟨s.next, s.prev, ?_, s.val, s.live⟩
    rw [← s.tail]; exact upd_other _ _ (W.wf.ne_fresh l)
  · intro x l
    have s := ef.keeps l (by simp)
    refine ⟨s.next, s.prev, ?_, s.val, s.live⟩
    rw [← s.tail]; exact upd_other _ _ (W.wf.ne_fresh l)

theorem Slist.keep {h' : Heap T} (k : ∀ x, h.live x = true → Same h h' x) (s : Slist h d fs) : Slist h' d fs :=
  s.frame fun x hx => k x (s.live x hx)

theorem Readable.same {h' : Heap T} (k : ∀ x, h.live x = true → Same h h' x) {v : T} {value : Arg T} (rd : Readable h v value) :
    Readable h' v value := by
  cases value with
  | ext w => exact rd
  | elem a => exact ⟨(k a rd.1).live.trans rd.1, (k a rd.1).val.trans rd.2⟩

/-! ## The calls -/

theorem insertVals_good (W : World iface h S) (hc : S c = some ⟨es, t⟩) {i : Nat} (hi : i ≤ es.length) (vs : List T) :
    GoodR iface (insertVals c (lastOf c ((es.take i).map Prod.fst)) vs) h () (S.put c (insertAt i (fresh h.fresh vs) es) t) := by
  have r := World.sl W hc
  obtain ⟨h', q, r', ef, fr, tl⟩ := insertVals_at W.wf r hi vs
  have g := one W hc q ef r' tl
  have := then_tail (lastOf c ((es.take i).map Prod.fst) = t) (b := ()) g t
    (q := insertVals c (lastOf c ((es.take i).map Prod.fst)) vs) (by
      intro h1 q1 l1 t1
      rw [q] at q1; cases q1
      simp only [insertVals, Prog.bind_app, q, Res.bind_ok, getTail_eq l1, t1, Prog.ite_app]
      split
      · rename_i e; rw [e, setTail_eq l1]
      · rfl)
  simpa only [ite_self] using this

theorem insertN_good (W : World iface h S) (hc : S c = some ⟨es, t⟩) {i : Nat} (hi : i ≤ es.length) (n : Nat) {value : Arg T} {v : T}
    (rd : Readable h v value) :
    GoodR iface (insertN c (lastOf c ((es.take i).map Prod.fst)) n value) h ()
      (S.put c (insertAt i (fresh h.fresh (List.replicate n v)) es)
        (if lastOf c ((es.take i).map Prod.fst) = t then lastOf t ((fresh h.fresh (List.replicate n v)).map Prod.fst) else t)) := by
  have r := World.sl W hc
  obtain ⟨h', q, r', ef, fr, tl⟩ := insertVals_at W.wf r hi (List.replicate n v)
  rw [← insertN_at W.wf r hi rd n] at q
  have g := one W hc q ef r' tl
  refine then_tail (lastOf c ((es.take i).map Prod.fst) = t) (b := ()) g _ ?_
  intro h1 q1 l1 t1
  rw [q] at q1; cases q1
  simp only [insertN, Prog.bind_app, q, Res.bind_ok, getTail_eq l1, t1, Prog.ite_app]
  split
  · rename_i e
    rw [setTail_eq l1, List.map_append, lastOf_append, e]
  · rfl

theorem insertNodes_good (W : World iface h S) (hc : S c = some ⟨es, t⟩) {i : Nat} (hi : i ≤ es.length) (s : Slist h d fs)
    (dj : ∀ x ∈ scells d fs, x ∉ scells c es) :
    GoodR iface (do insertNodes c (lastOf c ((es.take i).map Prod.fst)) (← getNext d) 0) h ()
      (S.put c (insertAt i (fresh h.fresh (fs.map Prod.snd)) es) t) := by
  have r := World.sl W hc
  obtain ⟨h', q, r', ef, fr, tl⟩ := insertNodes_at W.wf r hi s dj
  have g := one W hc q ef r' tl
  have := then_tail (lastOf c ((es.take i).map Prod.fst) = t) (b := ()) g t
    (q := do insertNodes c (lastOf c ((es.take i).map Prod.fst)) (← getNext d) 0) (by
      intro h1 q1 l1 t1
      rw [q] at q1; cases q1
      simp only [Prog.bind_app, getNext_eq s.head, Res.bind_ok] at q
      simp only [insertNodes, Prog.bind_app, getNext_eq s.head, q, Res.bind_ok, getTail_eq l1, t1, Prog.ite_app]
      split
      · rename_i e; rw [e, setTail_eq l1]
      · rfl)
  simpa only [ite_self] using this

/-- `insert_after(new node(v))` behind position `i`. -/
theorem newInsert_at (W : World iface h S) (hc : S c = some ⟨es, t⟩) {i : Nat} (hi : i ≤ es.length) (v : T) :
    GoodR iface (do SNode.insertAfter (lastOf c ((es.take i).map Prod.fst)) (← newNode v)) h h.fresh (S.put c (insertAt i [(h.fresh, v)] es) t) := by
  have r := World.sl W hc
  obtain ⟨h', q, r', ef, fr, tl⟩ := newInsert_ok (A := es.take i) (B := es.drop i) W.wf (by simpa using r) v
  rw [List.take_append_drop] at ef
  exact one W hc q ef r' tl

theorem insert_good (W : World iface h S) (hc : S c = some ⟨es, t⟩) {i : Nat} (hi : i ≤ es.length) (v : T) :
    GoodR iface (insertOne c (lastOf c ((es.take i).map Prod.fst)) v) h h.fresh
      (S.put c (insertAt i [(h.fresh, v)] es) (if lastOf c ((es.take i).map Prod.fst) = t then h.fresh else t)) := by
  refine then_tail _ (newInsert_at W hc hi v) _ ?_
  intro h1 q1 l1 t1
  simp only [Prog.bind_app, newNode_eq, Res.bind_ok] at q1
  simp only [insertOne, Prog.bind_app, newNode_eq, Res.bind_ok, q1, getTail_eq l1, t1, Prog.ite_app, Prog.pure_app]
  split
  · rw [setTail_eq l1]; rfl
  · rfl

theorem pushFront_good (W : World iface h S) (hc : S c = some ⟨es, t⟩) (v : T) :
    GoodR iface (pushFront c v) h () (S.put c ((h.fresh, v) :: es) (if t = c then h.fresh else t)) := by
  refine then_tail _ (newInsert_at W hc (i := 0) (by simp) v) _ ?_
  intro h1 q1 l1 t1
  simp only [Prog.bind_app, newNode_eq, Res.bind_ok, List.take_zero, List.map_nil, lastOf_nil] at q1
  simp only [pushFront, Prog.bind_app, newNode_eq, Res.bind_ok, q1, getTail_eq l1, t1, Prog.ite_app]
  split
  · rw [setTail_eq l1]
  · rfl

theorem idx_pos (c : Addr) (es : List (Addr × T)) {t : Addr} (ht : t ∈ c :: es.map Prod.fst) :
    idxOfPos c es t ≤ es.length ∧ lastOf c ((es.take (idxOfPos c es t)).map Prod.fst) = t := by
  have h1 : idxOfPos c es t < (c :: es.map Prod.fst).length := List.idxOf_lt_length_iff.2 ht
  have h2 : idxOfPos c es t ≤ es.length := by simp at h1; omega
  refine ⟨h2, ?_⟩
  have hg : (c :: es.map Prod.fst)[idxOfPos c es t] = t := List.getElem_idxOf h1
  revert h2 hg h1
  generalize idxOfPos c es t = k
  intro h1 h2 hg
  cases k with
  | zero => simpa using hg
  | succ k =>
    have hk : k < es.length := h2
    rw [List.take_succ_eq_append_getElem hk, List.map_append, List.map_cons, List.map_nil, lastOf_concat]
    simpa using hg

theorem pushBack_good (W : World iface h S) (hc : S c = some ⟨es, t⟩) (ht : t ∈ c :: es.map Prod.fst) (v : T) :
    GoodR iface (pushBack c v) h () (S.put c (insertAt (idxOfPos c es t) [(h.fresh, v)] es) h.fresh) := by
  obtain ⟨h1, h2⟩ := idx_pos c es ht
  have := then_tail True (b := ()) (newInsert_at W hc h1 v) h.fresh (q := pushBack c v) (by
    intro h1 q1 l1 t1
    rw [h2] at q1
    simp only [Prog.bind_app, newNode_eq, Res.bind_ok] at q1
    simp only [pushBack, Prog.bind_app, getTail_eq (World.sl W hc).head, World.tl W hc, newNode_eq, Res.bind_ok, q1, if_true]
    rw [setTail_eq l1])
  simpa using this

theorem popFront_good (W : World iface h S) (hc : S c = some ⟨es, t⟩) (hne : es ≠ []) :
    GoodR iface (popFront c) h () (S.put c es.tail t) := by
  have hi : 0 < es.length := List.length_pos_iff.2 hne
  obtain ⟨h', q, q', r', ef, _, tl, _⟩ := delNext_at W.wf (World.sl W hc) hi
  have e : es.eraseIdx 0 = es.tail := by cases es <;> rfl
  rw [e] at r' ef
  simp only [List.take_zero, List.map_nil, lastOf_nil] at q q'
  have q0 : (do delete (← SNode.unlinkNext c) : Prog (Heap T) Unit) h = .ok ((), h') := by
    simp only [Prog.bind_app, q, Res.bind_ok, q']
  have := then_tail (c = t) (b := ()) (one W hc q0 ef r' tl) t (q := popFront c) (by
    intro h1 q1 l1 t1
    rw [q0] at q1; cases q1
    simp only [popFront, empty, Prog.bind_app, q, q', Res.bind_ok, getTail_eq l1, t1, Prog.pure_app]
    by_cases k : c = t
    · subst k; simp [setTail_eq l1]
    · simp [k])
  simpa only [ite_self] using this

theorem elem_pos {i : Nat} (hi : i < es.length) : lastOf c ((es.take (i + 1)).map Prod.fst) = es[i].1 := by
  rw [List.take_succ_eq_append_getElem hi, List.map_append, List.map_cons, List.map_nil, lastOf_concat]

theorem erase_good (W : World iface h S) (hc : S c = some ⟨es, t⟩) {i : Nat} (hi : i < es.length) :
    GoodR iface (eraseAfter c (lastOf c ((es.take i).map Prod.fst))) h (posOf 0 ((es.drop (i + 1)).map Prod.fst))
      (S.put c (es.eraseIdx i) (if es[i].1 = t then lastOf c ((es.take i).map Prod.fst) else t)) := by
  have r := World.sl W hc
  obtain ⟨h', q, q', r', ef, fr, tl, dd, lv⟩ := delNext_at W.wf r hi
  have q0 : (do delete (← SNode.unlinkNext (lastOf c ((es.take i).map Prod.fst))) : Prog (Heap T) Unit) h = .ok ((), h') := by
    simp only [Prog.bind_app, q, Res.bind_ok, q']
  refine then_tail _ (one W hc q0 ef r' tl) _ ?_
  intro h1 q1 l1 t1
  rw [q0] at q1; cases q1
  have r2 := r'
  rw [List.eraseIdx_eq_take_drop_succ] at r2
  have he := r.data es[i] (List.getElem_mem hi)
  generalize hh : unlA h (lastOf c ((es.take i).map Prod.fst)) = h2 at q q'
  have lc : h2.live c = true := by rw [← hh]; exact r.head
  have tc : h2.tail c = t := by
    have := World.tl W hc
    rw [← hh]; exact this
  have va : h2.val es[i].1 = some es[i].2 := by rw [← hh]; exact he.2
  have la : h2.live es[i].1 = true := by rw [← hh]; exact he.1
  rw [delete_eq la va] at q'
  simp only [eraseAfter, Prog.bind_app, q, Res.bind_ok, getTail_eq lc, tc, Prog.ite_app]
  cases q'
  have ll := r2.last_live
  have nn := r2.next_at
  split
  · rename_i k
    simp only [Prog.bind_app, setTail_eq lc, Res.bind_ok]
    rw [delete_eq (by exact la) (by exact va)]
    simp only [Res.bind_ok]
    rw [getNext_eq (by exact ll)]
    exact congrArg (fun a => Res.ok (a, _)) nn
  · rw [delete_eq la va]
    simp only [Res.bind_ok]
    rw [getNext_eq ll, nn]

theorem eraseRange_good (W : World iface h S) (hc : S c = some ⟨es, t⟩) {i j : Nat} (hij : i ≤ j) (hj : j ≤ es.length) :
    GoodR iface (eraseRange c (lastOf c ((es.take i).map Prod.fst)) (posOf 0 ((es.drop j).map Prod.fst))) h
      (posOf 0 ((es.drop j).map Prod.fst))
      (S.put c (cut i j es) (if j = es.length then lastOf c ((es.take i).map Prod.fst) else t)) := by
  have r := World.sl W hc
  obtain ⟨h', q, r', ef, fr, tl, _⟩ := eraseLoop_at W.wf r hij hj
  refine then_tail _ (one W hc q ef r' tl) _ ?_
  intro h1 q1 l1 t1
  rw [q] at q1; cases q1
  have r2 : Slist h' c (es.take i ++ es.drop j) := r'
  have e0 : (posOf 0 ((es.drop j).map Prod.fst) = 0) ↔ j = es.length := by
    constructor
    · intro e
      apply Decidable.byContradiction
      intro k
      have hj' : j < es.length := by omega
      rw [List.drop_eq_getElem_cons hj', List.map_cons, posOf_cons] at e
      exact W.wf.ne_zero (r.data _ (List.getElem_mem hj')).1 e
    · intro e; subst e; simp
  simp only [eraseRange, Prog.bind_app, q, Res.bind_ok, Prog.ite_app]
  by_cases k : j = es.length
  · rw [if_pos (e0.2 k), if_pos k, setTail_eq l1]
    simp only [Res.bind_ok]
    rw [getNext_eq (by exact r2.last_live)]
    show Res.ok (h'.next _, _) = _
    rw [r2.next_at]
  · rw [if_neg (fun e => k (e0.1 e)), if_neg k]
    rw [getNext_eq r2.last_live, r2.next_at]

theorem clear_good (W : World iface h S) (hc : S c = some ⟨es, t⟩) : ∃ h', clear c h = .ok ((), h') ∧ World iface h' (S.put c [] c) ∧
    h'.fresh = h.fresh ∧ Effect (· ∈ scells c es) (· ∈ scells c ([] : List (Addr × T))) h h' := by
  have W1 := setTail_world W hc c
  have hc1 := put_same S c es c
  have r1 := World.sl W1 hc1
  obtain ⟨h', q, r, ef, fr, tl, _⟩ := clearLoop_ok W1.wf r1
  have W2 := World.chg W1 hc1 (s' := ⟨[], c⟩) ef ⟨r, by rw [tl]; simp⟩
  have e2 : upd (S.put c es c) c (some ⟨[], c⟩) = S.put c [] c := put_put S c es [] c c
  rw [e2] at W2
  refine ⟨h', ?_, W2, fr, ?_⟩
  · simp only [clear, Prog.bind_app, setTail_ok W hc c, Res.bind_ok, q]
  · refine Effect.trans (C' := (· ∈ scells c es)) (h' := { h with tail := upd h.tail c c }) ⟨?_, fun _ _ _ l => l, fun _ a b => absurd b a, fun _ a b => absurd a b, W1.wf, Nat.le_refl _⟩ ef
    intro x hx _ _
    refine ⟨rfl, rfl, upd_other _ _ ?_, rfl, rfl⟩
    intro q; subst q; exact hx (by simp [scells])

theorem destroy_good (W : World iface h S) (hc : S c = some ⟨es, t⟩) : GoodR iface (destroy c) h () (upd S c none) := by
  obtain ⟨h1, q1, W1, _, ef1⟩ := clear_good W hc
  have r1 := World.sl W1 (put_same S c [] c)
  obtain ⟨h2, q2, ef2, _⟩ := freeHead_ok (T := T) W1.wf r1.head
  have := World.gone W hc (ef1.trans ef2)
  exact ⟨h2, by simp only [destroy, Prog.bind_app, q1, Res.bind_ok, q2], this, (ef1.trans ef2).mono⟩

/-- A constructor: an empty list, then something is inserted. -/
theorem ctor_good {p : Addr → Prog (Heap T) Unit} (W : World iface h S)
    (hp : ∀ h1, World iface h1 (S.put h.fresh [] h.fresh) → h1.fresh = h.fresh + 1 → (∀ x, h.live x = true → Same h h1 x) →
      GoodR iface (p h.fresh) h1 () ((S.put h.fresh [] h.fresh).put h.fresh es t)) :
    GoodR iface (do let c ← create; p c; pure c : Prog (Heap T) Addr) h h.fresh (S.put h.fresh es t) := by
  obtain ⟨h1, q1, W1, fr, k⟩ := create_good W
  obtain ⟨h2, q2, W2, m⟩ := hp h1 W1 fr k
  rw [put_put] at W2
  exact ⟨h2, by simp only [Prog.bind_app, q1, Res.bind_ok, q2, Prog.pure_app], W2, by omega⟩

theorem ctorVals_good (W : World iface h S) (vs : List T) :
    GoodR iface (ctorVals vs) h h.fresh (S.put h.fresh (fresh (h.fresh + 1) vs) h.fresh) := by
  refine ctor_good W fun h1 W1 fr k => ?_
  have := insertVals_good W1 (put_same S h.fresh [] h.fresh) (i := 0) (by simp) vs
  rw [fr] at this
  simpa [insertAt] using this

theorem ctorN_good (W : World iface h S) (n : Nat) {value : Arg T} {v : T} (rf : S.Refers v value) :
    GoodR iface (ctorN n value) h h.fresh (S.put h.fresh (fresh (h.fresh + 1) (List.replicate n v))
      (lastOf h.fresh ((fresh (h.fresh + 1) (List.replicate n v)).map Prod.fst))) := by
  refine ctor_good W fun h1 W1 fr k => ?_
  have := insertN_good W1 (put_same S h.fresh [] h.fresh) (i := 0) (by simp) n (Readable.same k (refers_readable W rf))
  rw [fr] at this
  simpa [insertAt] using this

theorem copyCtor_good (W : World iface h S) {s : Addr} (hs : S s = some ⟨fs, u⟩) :
    GoodR iface (copyCtor s) h h.fresh (S.put h.fresh (fresh (h.fresh + 1) (fs.map Prod.snd)) h.fresh) := by
  have sl := World.sl W hs
  have := ctor_good (p := fun c => do insertNodes c c (← getNext s) 0) (es := fresh (h.fresh + 1) (fs.map Prod.snd)) (t := h.fresh) W fun h1 W1 fr k => by
    have := insertNodes_good W1 (put_same S h.fresh [] h.fresh) (i := 0) (by simp) (Slist.keep k sl) (by
      intro x hx
      simp only [scells, List.map_nil, List.mem_singleton]
      exact W.wf.ne_fresh (sl.live x hx))
    rw [fr] at this
    simpa [insertAt] using this
  simpa only [copyCtor, bind_assoc] using this

theorem relinkTail (W : World iface h S) (hc : S c = some ⟨es, t⟩) {es' : List (Addr × T)} {p : Prog (Heap T) Unit} {h' : Heap T}
    (q : p h = .ok ((), h')) (k : Relink (· ∈ scells c es) h h') (pm : es'.Perm es) (r : Slist h' c es') :
    GoodR iface p h () (S.put c es' t) :=
  one W hc q (k.effect W.wf fun x => by simp only [scells, List.mem_cons, (pm.map Prod.fst).mem_iff]) r k.tail

theorem reverse_good (W : World iface h S) (hc : S c = some ⟨es, t⟩) :
    GoodR iface (reverse c) h () (S.put c es.reverse (posOf 0 (es.map Prod.fst))) := by
  have r := World.sl W hc
  have W1 := setTail_world W hc (posOf 0 (es.map Prod.fst))
  have hc1 := put_same S c es (posOf 0 (es.map Prod.fst))
  obtain ⟨h', q, r', k⟩ := reverse_ok W1.wf (World.sl W1 hc1)
  have := relinkTail W1 hc1 q k (List.reverse_perm _) r'
  rw [put_put] at this
  obtain ⟨h2, q2, W2, m2⟩ := this
  refine ⟨h2, ?_, W2, m2⟩
  simp only [reverse, Prog.bind_app, getNext_eq r.head, Res.bind_ok, r.next_head, setTail_ok W hc]
  exact q2

end Verif.Seq.BList
