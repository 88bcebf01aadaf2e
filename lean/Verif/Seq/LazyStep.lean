import Verif.Seq.LazyApi
import Verif.Seq.BwdProps
/-!
# `ttl::lazy_queue`: every legal call does what the specification says
-/
set_option linter.unusedVariables false
set_option linter.unusedSimpArgs false
namespace Verif.Seq.LQueue
open Verif
open Verif.Seq.DList (Arg fresh insertAt slice cut Blank Relink split_at split_elem posOf posOf_cons posOf_nil)
open Verif.Seq.BList (elem_pos)
open Verif.Seq.BwdProps (last_insert last_cut insert_end pos_is_last last_is_head lastOf_indep)
variable {T : Type} {h : Heap T} {S : State T} {c d : Addr} {es fs : List (Addr × T)} {ns ms : List Addr}

theorem World.qu (W : World iface h S) (hc : S c = some ⟨es, ns⟩) : Queue h c es ns := (W.own c _ hc).1
theorem World.sl (W : World iface h S) (hc : S c = some ⟨es, ns⟩) : Slist h c es := (W.own c _ hc).1.main
theorem World.tl (W : World iface h S) (hc : S c = some ⟨es, ns⟩) : h.tail c = lastOf c (es.map Prod.fst) := (W.own c _ hc).2
theorem get_some (hc : S c = some ⟨es, ns⟩) : S.get c = es := by simp [State.get, hc]
theorem pool_some (hc : S c = some ⟨es, ns⟩) : S.pool c = ns := by simp [State.pool, hc]
theorem put_same (S : State T) (c : Addr) (es : List (Addr × T)) (ns : List Addr) : S.put c es ns c = some ⟨es, ns⟩ := upd_same _ _ _
theorem put_other (S : State T) {c d : Addr} (hdc : d ≠ c) (es : List (Addr × T)) (ns : List Addr) : S.put c es ns d = S d := upd_other _ _ hdc
theorem put_put (S : State T) (c : Addr) (es fs : List (Addr × T)) (ns ms : List Addr) : (S.put c es ns).put c fs ms = S.put c fs ms := by
  funext x; unfold State.put upd; split <;> rfl
theorem put_self (hc : S c = some ⟨es, ns⟩) : S.put c es ns = S := by
  funext x; unfold State.put upd; split
  · rename_i q; rw [q, hc]
  · rfl

theorem alloc_nil : ∀ (vs : List T) (a : Addr), alloc a [] vs = fresh a vs
  | [], _ => rfl
  | v :: vs, a => by
    show (a, v) :: alloc (a + 1) [] vs = _
    rw [alloc_nil vs]; rfl

theorem self_mem : c ∈ qcells c es ns := mem_qcells.2 (.inl (by simp [scells]))

/-- A call that changes one queue and ends with an assignment to `tail_`. -/
theorem fin {α : Type} {es' : List (Addr × T)} {ns' : List Addr} {p : Prog (Heap T) α} {a : α} {h' : Heap T} {t : Addr} (W : World iface h S)
    (hc : S c = some ⟨es, ns⟩) (ef : Effect (· ∈ qcells c es ns) (· ∈ qcells c es' ns') h h') (r : Queue h' c es' ns')
    (ht : t = lastOf c (es'.map Prod.fst))
    (q : p h = .ok (a, { h' with tail := upd h'.tail c t })) : GoodR iface p h a (S.put c es' ns') :=
  ⟨_, q, World.chg W hc (s' := ⟨es', ns'⟩) (retail_effect ef self_mem t) ⟨r.retail, by rw [← ht]; exact upd_same _ _ _⟩, ef.mono⟩

/-- A call that changes one queue and leaves `tail_` alone. -/
theorem fin0 {α : Type} {es' : List (Addr × T)} {ns' : List Addr} {p : Prog (Heap T) α} {a : α} {h' : Heap T} (W : World iface h S)
    (hc : S c = some ⟨es, ns⟩) (ef : Effect (· ∈ qcells c es ns) (· ∈ qcells c es' ns') h h') (r : Queue h' c es' ns')
    (tl : h'.tail = h.tail) (ht : lastOf c (es'.map Prod.fst) = lastOf c (es.map Prod.fst))
    (q : p h = .ok (a, h')) : GoodR iface p h a (S.put c es' ns') :=
  ⟨_, q, World.chg W hc (s' := ⟨es', ns'⟩) ef ⟨r, by rw [ht, tl]; exact World.tl W hc⟩, ef.mono⟩

/-! ## Reference arguments -/

theorem refers_readable (W : World iface h S) {v : T} {value : Arg T} (rf : S.Refers v value) : Readable h v value := by
  cases value with
  | ext w => exact rf
  | elem a =>
    obtain ⟨c, ⟨es, t⟩, hc, hm⟩ := rf
    exact (World.sl W hc).data (a, v) hm

theorem valueOf_eq (W : World iface h S) {v : T} {value : Arg T} (rf : S.Refers v value) : S.valueOf value = some v := by
  cases value with
  | ext w => exact congrArg some rf
  | elem a =>
    have e : ∃ v, S.Refers v (.elem a) := ⟨v, rf⟩
    simp only [State.valueOf, dif_pos e]
    exact congrArg some (FList.Readable.inj (refers_readable W e.choose_spec) (refers_readable W rf))

theorem copies_eq (W : World iface h S) {v : T} {value : Arg T} (rf : S.Refers v value) (n : Nat) :
    S.copies n value = List.replicate n v := by simp [State.copies, valueOf_eq W rf]

/-! ## Inserting -/

/-- Any member that runs a loop equivalent to `insertLoopVals` and then updates `tail_`. -/
theorem insert_fin {p : Prog (Heap T) Unit} {vs : List T} (W : World iface h S) (hc : S c = some ⟨es, ns⟩) {i : Nat} (hi : i ≤ es.length)
    (hp : p h = (do
      let t ← insertLoopVals c (lastOf c ((es.take i).map Prod.fst)) vs
      if lastOf c ((es.take i).map Prod.fst) = (← getTail c) then setTail c t else pure () : Prog (Heap T) Unit) h) :
    GoodR iface p h () (S.put c (insertAt i (alloc h.fresh ns vs) es) (ns.drop vs.length)) := by
  have r := World.qu W hc
  have sp : es = es.take i ++ es.drop i := (List.take_append_drop i es).symm
  obtain ⟨h', q, r', ef, fr, tl⟩ := insertLoopVals_ok vs (A := es.take i) (B := es.drop i) W.wf (by rw [← sp]; exact r)
  rw [← sp] at ef
  have lc := r'.main.head
  have tc : h'.tail c = lastOf c (es.map Prod.fst) := by rw [tl]; exact World.tl W hc
  simp only [Prog.bind_app, q, Res.bind_ok, getTail_eq lc, tc, Prog.ite_app, setTail_eq lc] at hp
  by_cases k : i = es.length
  · rw [if_pos ((pos_is_last r.main hi).2 k)] at hp
    refine fin W hc ef r' ?_ hp
    subst k
    simp [insert_end]
  · rw [if_neg (fun e => k ((pos_is_last r.main hi).1 e))] at hp
    refine fin0 W hc ef r' tl ?_ hp
    exact last_insert (by omega) _

theorem insertVals_good (W : World iface h S) (hc : S c = some ⟨es, ns⟩) {i : Nat} (hi : i ≤ es.length) (vs : List T) :
    GoodR iface (insertVals c (lastOf c ((es.take i).map Prod.fst)) vs) h () (S.put c (insertAt i (alloc h.fresh ns vs) es) (ns.drop vs.length)) :=
  insert_fin W hc hi rfl

theorem insertN_good (W : World iface h S) (hc : S c = some ⟨es, ns⟩) {i : Nat} (hi : i ≤ es.length) (n : Nat) {value : Arg T} {v : T}
    (rd : Readable h v value) :
    GoodR iface (insertN c (lastOf c ((es.take i).map Prod.fst)) n value) h ()
      (S.put c (insertAt i (alloc h.fresh ns (List.replicate n v)) es) (ns.drop (List.replicate n v).length)) := by
  refine insert_fin W hc hi ?_
  have r := World.qu W hc
  have sp : es = es.take i ++ es.drop i := (List.take_append_drop i es).symm
  have := insertLoopN_ok n (A := es.take i) (B := es.drop i) (c := c) (ns := ns) W.wf (by rw [← sp]; exact r) rd
  simp only [insertN, Prog.bind_app, this]

theorem insertNodes_good (W : World iface h S) (hc : S c = some ⟨es, ns⟩) {i : Nat} (hi : i ≤ es.length) (s : Slist h d fs)
    (dj : ∀ x ∈ scells d fs, x ∉ qcells c es ns) :
    GoodR iface (do insertNodes c (lastOf c ((es.take i).map Prod.fst)) (← getNext d) 0) h ()
      (S.put c (insertAt i (alloc h.fresh ns (fs.map Prod.snd)) es) (ns.drop (fs.map Prod.snd).length)) := by
  refine insert_fin W hc hi ?_
  have r := World.qu W hc
  have sp : es = es.take i ++ es.drop i := (List.take_append_drop i es).symm
  have := insertLoopNodes_ok fs (A := es.take i) (B := es.drop i) (c := c) (ns := ns) (p := d) (z := 0) W.wf (by rw [← sp]; exact r)
    (s.laid W.wf) s.head (by rw [← sp]; exact dj)
  simp only [insertNodes, Prog.bind_app, getNext_eq s.head, Res.bind_ok, s.next_head, this]

/-- One node is taken and inserted behind position `i`. -/
theorem grab_at (W : World iface h S) (hc : S c = some ⟨es, ns⟩) {i : Nat} (hi : i ≤ es.length) (v : T) :
    ∃ h', (do SNode.insertAfter (lastOf c ((es.take i).map Prod.fst)) (← getNode c v) : Prog (Heap T) Addr) h = .ok (nodeOf h.fresh ns, h') ∧
      Queue h' c (insertAt i (alloc h.fresh ns [v]) es) (ns.drop [v].length) ∧
      Effect (· ∈ qcells c es ns) (· ∈ qcells c (insertAt i (alloc h.fresh ns [v]) es) (ns.drop [v].length)) h h' ∧
      h'.fresh = h.fresh + used ns ∧ h'.tail = h.tail := by
  have r := World.qu W hc
  have sp : es = es.take i ++ es.drop i := (List.take_append_drop i es).symm
  obtain ⟨h', q, r', ef, fr, tl⟩ := grab_ok (A := es.take i) (B := es.drop i) W.wf (by rw [← sp]; exact r) v
  rw [← sp] at ef
  have e : ns.drop [v].length = ns.tail := by cases ns <;> rfl
  rw [e]
  exact ⟨h', q, r', ef, fr, tl⟩

theorem one_fin {α : Type} {p : Prog (Heap T) α} {a : α} {v : T} (W : World iface h S) (hc : S c = some ⟨es, ns⟩) {i : Nat} (hi : i ≤ es.length)
    (hp : ∀ h', (do SNode.insertAfter (lastOf c ((es.take i).map Prod.fst)) (← getNode c v) : Prog (Heap T) Addr) h = .ok (nodeOf h.fresh ns, h') →
      h'.live c = true → h'.tail c = lastOf c (es.map Prod.fst) →
      p h = if i = es.length then .ok (a, { h' with tail := upd h'.tail c (nodeOf h.fresh ns) }) else .ok (a, h')) :
    GoodR iface p h a (S.put c (insertAt i (alloc h.fresh ns [v]) es) (ns.drop [v].length)) := by
  obtain ⟨h', q, r', ef, fr, tl⟩ := grab_at W hc hi v
  have := hp h' q r'.main.head (by rw [tl]; exact World.tl W hc)
  by_cases k : i = es.length
  · rw [if_pos k] at this
    refine fin W hc ef r' ?_ this
    subst k
    simp [insert_end, lastOf_append, alloc]
  · rw [if_neg k] at this
    exact fin0 W hc ef r' tl (last_insert (by omega) _) this

theorem insert_good (W : World iface h S) (hc : S c = some ⟨es, ns⟩) {i : Nat} (hi : i ≤ es.length) (v : T) :
    GoodR iface (insertOne c (lastOf c ((es.take i).map Prod.fst)) v) h (nodeOf h.fresh ns)
      (S.put c (insertAt i (alloc h.fresh ns [v]) es) (ns.drop [v].length)) := by
  refine one_fin W hc hi ?_
  intro h' q lc tc
  simp only [Prog.bind_app] at q
  simp only [insertOne, Prog.bind_app]
  cases g : getNode c v h with
  | ok x =>
    rw [g] at q; simp only [Res.bind_ok] at q ⊢; rw [q]
    simp only [Res.bind_ok, getTail_eq lc, tc, Prog.ite_app, setTail_eq lc, Prog.pure_app, pos_is_last (World.sl W hc) hi]
    split
    · rw [Prog.bind_app, setTail_eq lc]; rfl
    · rfl
  | ub f => rw [g] at q; cases q
  | diverge => rw [g] at q; cases q

theorem pushFront_good (W : World iface h S) (hc : S c = some ⟨es, ns⟩) (v : T) :
    GoodR iface (pushFront c v) h () (S.put c (insertAt 0 (alloc h.fresh ns [v]) es) (ns.drop [v].length)) := by
  refine one_fin W hc (Nat.zero_le _) ?_
  intro h' q lc tc
  simp only [Prog.bind_app, List.take_zero, List.map_nil, lastOf_nil] at q
  simp only [pushFront, Prog.bind_app]
  cases g : getNode c v h with
  | ok x =>
    rw [g] at q; simp only [Res.bind_ok] at q ⊢; rw [q]
    have e : 0 = es.length ↔ es = [] := by rw [eq_comm, List.length_eq_zero_iff]
    simp only [Res.bind_ok, getTail_eq lc, tc, Prog.ite_app, setTail_eq lc, Prog.pure_app, last_is_head (World.sl W hc), e]
  | ub f => rw [g] at q; cases q
  | diverge => rw [g] at q; cases q

theorem pushBack_good (W : World iface h S) (hc : S c = some ⟨es, ns⟩) (v : T) :
    GoodR iface (pushBack c v) h () (S.put c (insertAt es.length (alloc h.fresh ns [v]) es) (ns.drop [v].length)) := by
  refine one_fin W hc (Nat.le_refl _) ?_
  intro h' q lc tc
  simp only [Prog.bind_app, List.take_length] at q
  simp only [pushBack, Prog.bind_app, getTail_eq (World.sl W hc).head, World.tl W hc, Res.bind_ok]
  cases g : getNode c v h with
  | ok x =>
    rw [g] at q; simp only [Res.bind_ok] at q ⊢; rw [q]
    simp only [Res.bind_ok, setTail_eq lc, if_true]
  | ub f => rw [g] at q; cases q
  | diverge => rw [g] at q; cases q

/-! ## Removing -/

theorem split1 {i : Nat} (hi : i < es.length) : es = es.take i ++ es[i] :: es.drop (i + 1) := by
  rw [← List.drop_eq_getElem_cons hi, List.take_append_drop]

theorem slice1 {i : Nat} (hi : i < es.length) : slice i (i + 1) es = [es[i]] := by
  unfold slice
  rw [Nat.add_sub_cancel_left, List.drop_eq_getElem_cons hi]; rfl

theorem erase_good (W : World iface h S) (hc : S c = some ⟨es, ns⟩) {i : Nat} (hi : i < es.length) :
    GoodR iface (eraseAfter c (lastOf c ((es.take i).map Prod.fst))) h (posOf 0 ((es.drop (i + 1)).map Prod.fst))
      (S.put c (es.eraseIdx i) (es[i].1 :: ns)) := by
  have r := World.qu W hc
  have sp := split1 hi
  obtain ⟨q, r', ef⟩ := pool_ok (A := es.take i) (B := es.drop (i + 1)) (e := es[i]) W.wf (by rw [← sp]; exact r)
  rw [← sp] at ef
  rw [List.eraseIdx_eq_take_drop_succ]
  have he := r.main.data es[i] (List.getElem_mem hi)
  have ll := r'.main.last_live
  have nn := r'.main.next_at
  have lc := r.main.head
  have tc := World.tl W hc
  have e1 : es[i].1 = lastOf c (es.map Prod.fst) ↔ i + 1 = es.length := by
    rw [← elem_pos (c := c) hi]; exact pos_is_last r.main hi
  generalize hh : unlA h (lastOf c ((es.take i).map Prod.fst)) = h2 at *
  have lc2 : h2.live c = true := by rw [← hh]; exact lc
  have tc2 : h2.tail c = lastOf c (es.map Prod.fst) := by rw [← hh]; exact tc
  have ld2 : h2.live (c + 1) = true := by rw [← hh]; exact r.dead.head
  have la2 : h2.live es[i].1 = true := by rw [← hh]; exact he.1
  have va2 : h2.val es[i].1 = some es[i].2 := by rw [← hh]; exact he.2
  have tl2 : h2.tail = h.tail := by rw [← hh]; rfl
  by_cases k : i + 1 = es.length
  · refine fin (t := lastOf c ((es.take i).map Prod.fst)) W hc ef r' ?_ ?_
    · rw [k, List.drop_length, List.append_nil]
    · simp only [eraseAfter, Prog.bind_app, q, Res.bind_ok, getTail_eq lc2, tc2, Prog.ite_app, if_pos (e1.2 k), setTail_eq lc2]
      rw [putNode_eq (by exact ld2) (by exact la2) (by exact va2)]
      simp only [Res.bind_ok]
      rw [getNext_eq (by exact ll)]
      exact congrArg (fun a => Res.ok (a, _)) nn
  · refine fin0 W hc ef r' tl2 ?_ ?_
    · have := last_cut (c := c) (es := es) (i := i) (j := i + 1) (by omega)
      exact this
    · simp only [eraseAfter, Prog.bind_app, q, Res.bind_ok, getTail_eq lc2, tc2, Prog.ite_app, if_neg (fun e => k (e1.1 e))]
      rw [putNode_eq ld2 la2 va2]
      simp only [Res.bind_ok, Prog.pure_app]
      rw [getNext_eq ll]
      exact congrArg (fun a => Res.ok (a, _)) nn

theorem popFront_good (W : World iface h S) (hc : S c = some ⟨es, ns⟩) (hne : es ≠ []) :
    GoodR iface (popFront c) h () (S.put c es.tail ((es.take 1).map Prod.fst ++ ns)) := by
  have r := World.qu W hc
  cases es with
  | nil => exact absurd rfl hne
  | cons e es =>
    obtain ⟨q, r', ef⟩ := pool_ok (A := []) (B := es) (e := e) W.wf r
    simp only [List.map_nil, lastOf_nil, List.nil_append] at q r' ef
    obtain ⟨la, va⟩ := r.main.data e (by simp)
    have lc := r'.main.head
    have nx := r'.main.next_head
    have q2 : (do putNode c (← SNode.unlinkNext c) : Prog (Heap T) Unit) h = .ok ((), putA (unlA h c) c e.1) := by
      simp only [Prog.bind_app, q, Res.bind_ok]
      exact putNode_eq r.dead.head la va
    simp only [Prog.bind_app] at q2
    have tl : (putA (unlA h c) c e.1).tail = h.tail := rfl
    generalize putA (unlA h c) c e.1 = h' at *
    cases es with
    | nil =>
      refine fin (t := c) W hc ef r' rfl ?_
      simp only [List.map_nil, posOf_nil] at nx
      simp only [popFront, empty, Prog.bind_app, q, Res.bind_ok] at q2 ⊢
      rw [q2]
      simp [getNext_eq lc, nx, setTail_eq lc]
    | cons f es =>
      refine fin0 W hc ef r' tl rfl ?_
      have f0 : f.1 ≠ 0 := W.wf.ne_zero (r.main.data f (by simp)).1
      simp only [List.map_cons, posOf_cons] at nx
      simp only [popFront, empty, Prog.bind_app, q, Res.bind_ok] at q2 ⊢
      rw [q2]
      simp [getNext_eq lc, nx, f0]

theorem eraseRange_good (W : World iface h S) (hc : S c = some ⟨es, ns⟩) {i j : Nat} (hij : i ≤ j) (hj : j ≤ es.length) :
    GoodR iface (eraseRange c (lastOf c ((es.take i).map Prod.fst)) (posOf 0 ((es.drop j).map Prod.fst))) h
      (posOf 0 ((es.drop j).map Prod.fst))
      (S.put c (cut i j es) (((slice i j es).map Prod.fst).reverse ++ ns)) := by
  have r := World.qu W hc
  have sp := slice_split es hij
  obtain ⟨h', q, r', ef, fr, tl⟩ := eraseLoop_ok (slice i j es) (A := es.take i) (B := es.drop j) W.wf (by rw [← sp]; exact r)
  rw [← sp] at ef
  have e0 : (posOf 0 ((es.drop j).map Prod.fst) = 0) ↔ j = es.length := by
    constructor
    · intro e
      apply Decidable.byContradiction
      intro k
      have hj' : j < es.length := by omega
      rw [List.drop_eq_getElem_cons hj', List.map_cons, posOf_cons] at e
      exact W.wf.ne_zero (r.main.data _ (List.getElem_mem hj')).1 e
    · intro e; subst e; simp
  have ll := r'.main.last_live
  have nn := r'.main.next_at
  have lc := r'.main.head
  by_cases k : j = es.length
  · refine fin (t := lastOf c ((es.take i).map Prod.fst)) W hc ef r' ?_ ?_
    · rw [cut, k, List.drop_length, List.append_nil]
    · simp only [eraseRange, Prog.bind_app, q, Res.bind_ok, Prog.ite_app, if_pos (e0.2 k), setTail_eq lc]
      rw [getNext_eq (by exact ll)]
      exact congrArg (fun a => Res.ok (a, _)) nn
  · refine fin0 W hc ef r' tl (last_cut (by omega)) ?_
    simp only [eraseRange, Prog.bind_app, q, Res.bind_ok, Prog.ite_app, if_neg (fun e => k (e0.1 e)), Prog.pure_app]
    rw [getNext_eq ll, nn]

theorem clear_good (W : World iface h S) (hc : S c = some ⟨es, ns⟩) : ∃ h', clear c h = .ok ((), h') ∧
    World iface h' (S.put c [] ((es.map Prod.fst).reverse ++ ns)) ∧ h'.fresh = h.fresh ∧
    Effect (· ∈ qcells c es ns) (· ∈ qcells c ([] : List (Addr × T)) ((es.map Prod.fst).reverse ++ ns)) h h' := by
  obtain ⟨h', q, r, ef, fr, tl⟩ := clearLoop_ok W.wf (World.qu W hc)
  have ef' := retail_effect ef self_mem c
  refine ⟨{ h' with tail := upd h'.tail c c }, ?_, World.chg W hc (s' := ⟨[], (es.map Prod.fst).reverse ++ ns⟩) ef' ⟨r.retail, upd_same _ _ _⟩, fr, ef'⟩
  simp only [clear, Prog.bind_app, q, Res.bind_ok, setTail_eq r.main.head]

/-! ## Releasing -/

theorem cleanup_heap {triv : Bool} (w : Wf h) (r : Queue h c es ns) (ok : triv = true ∨ ns = []) : ∃ h', cleanup triv c h = .ok ((), h') ∧
    Queue h' c es [] ∧ Effect (· ∈ qcells c es ns) (· ∈ qcells c es ([] : List Addr)) h h' ∧ h'.fresh = h.fresh ∧ h'.tail = h.tail := by
  obtain ⟨h', q, rl⟩ := deleteLoop_ok triv ns r.dead.path r.dead.nodup r.dead.live w.null (ok.imp id (by rintro rfl; simp))
  have hcn : c + 1 ∉ ns := (List.nodup_cons.1 r.dead.nodup).1
  have sm : ∀ x ∈ scells c es, Same h h' x := fun x hx => rl.same x (fun q => r.apart x hx (List.mem_cons_of_mem _ q))
    (fun q => r.apart x hx (by rw [q]; simp))
  refine ⟨h', q, ⟨r.main.frame sm, ⟨?_, rl.val.trans r.dead.bare, rl.next, by simp, by simp⟩, ?_⟩, ⟨?_, ?_, ?_, ?_, ⟨?_, ?_, ?_⟩, ?_⟩, rl.fresh, rl.tail⟩
  · rw [rl.live]; simp [hcn, r.dead.head]
  · intro x hx q
    exact r.apart x hx (by simp only [List.mem_cons, List.not_mem_nil, or_false] at q; rw [q]; simp)
  · intro x h1 h2 l
    have hx : x ∉ ns := fun q => h1 (mem_qcells.2 (.inr (List.mem_cons_of_mem _ q)))
    exact rl.same x hx (fun q => h1 (mem_qcells.2 (.inr (by rw [q]; simp))))
  · intro x _ _ l; rw [rl.live, l]; rfl
  · intro x h1 h2
    exfalso; apply h1
    rcases mem_qcells.1 h2 with q | q
    · exact mem_qcells.2 (.inl q)
    · exact mem_qcells.2 (.inr (by simp only [List.mem_cons, List.not_mem_nil, or_false] at q; rw [q]; simp))
  · intro x h1 h2
    have hx : x ∈ ns := by
      rcases mem_qcells.1 h1 with q | q
      · exact absurd (mem_qcells.2 (.inl q)) h2
      · rcases List.mem_cons.1 q with q | q
        · exact absurd (mem_qcells.2 (.inr (by rw [q]; simp))) h2
        · exact q
    rw [rl.live]; simp [hx]
  · rw [rl.fresh]; exact w.pos
  · rw [rl.live, w.null]; rfl
  · intro x l; rw [rl.fresh]; rw [rl.live] at l; exact w.used x (by revert l; cases h.live x <;> simp)
  · rw [rl.fresh]; exact Nat.le_refl _

theorem cleanup_good {triv : Bool} (W : World iface h S) (hc : S c = some ⟨es, ns⟩) (ok : triv = true ∨ ns = []) :
    GoodR iface (cleanup triv c) h () (S.put c es []) := by
  obtain ⟨h', q, r, ef, fr, tl⟩ := cleanup_heap W.wf (World.qu W hc) ok
  exact fin0 W hc ef r tl rfl q

/-- The first loop of the destructor. -/
theorem drain_heap {triv : Bool} (w : Wf h) (r : Queue h c es ns) : ∃ h', deleteLoop triv c h = .ok ((), h') ∧
    Queue h' c ([] : List (Addr × T)) ns ∧ Effect (· ∈ qcells c es ns) (· ∈ qcells c ([] : List (Addr × T)) ns) h h' ∧ h'.fresh = h.fresh := by
  obtain ⟨h', q, rl⟩ := deleteLoop_ok triv (es.map Prod.fst) r.main.path r.main.nodup r.main.live w.null (.inr (by
    intro n hn
    obtain ⟨e, he, rfl⟩ := List.mem_map.1 hn
    rw [(r.main.data e he).2]; simp))
  have hcn : c ∉ es.map Prod.fst := (List.nodup_cons.1 r.main.nodup).1
  have hd : ∀ x ∈ (c + 1) :: ns, x ∉ es.map Prod.fst ∧ x ≠ c := by
    intro x hx
    refine ⟨fun q => r.apart x (by simp only [scells, List.mem_cons]; exact .inr q) hx, fun q => r.apart x (by simp [q, scells]) hx⟩
  refine ⟨h', q, ⟨⟨?_, rl.val.trans r.main.bare, rl.next, by simp, by simp⟩, r.dead.frame fun x hx => rl.same x (hd x hx).1 (hd x hx).2, ?_⟩,
    ⟨?_, ?_, ?_, ?_, ⟨?_, ?_, ?_⟩, ?_⟩, rl.fresh⟩
  · rw [rl.live]; simp only [hcn, not_false_eq_true, decide_true, Bool.and_true]; exact r.main.head
  · intro x hx
    simp only [scells, List.map_nil, List.mem_singleton] at hx
    exact fun q => (hd x q).2 hx
  · intro x h1 h2 l
    have hx : x ∉ es.map Prod.fst := fun q => h1 (mem_qcells.2 (.inl (by simp only [scells, List.mem_cons]; exact .inr q)))
    exact rl.same x hx (fun q => h1 (by rw [q]; exact self_mem))
  · intro x _ _ l; rw [rl.live, l]; rfl
  · intro x h1 h2
    exfalso; apply h1
    rcases mem_qcells.1 h2 with q | q
    · simp only [scells, List.map_nil, List.mem_singleton] at q; rw [q]; exact self_mem
    · exact mem_qcells.2 (.inr q)
  · intro x h1 h2
    have hx : x ∈ es.map Prod.fst := by
      rcases mem_qcells.1 h1 with q | q
      · rcases List.mem_cons.1 q with q | q
        · exact absurd (by rw [q]; exact self_mem) h2
        · exact q
      · exact absurd (mem_qcells.2 (.inr q)) h2
    rw [rl.live]; simp only [hx, not_true_eq_false, decide_false, Bool.and_false]
  · rw [rl.fresh]; exact w.pos
  · rw [rl.live, w.null]; rfl
  · intro x l; rw [rl.fresh]; rw [rl.live] at l; exact w.used x (by revert l; cases h.live x <;> simp)
  · rw [rl.fresh]; exact Nat.le_refl _

theorem destroy_good {triv : Bool} (W : World iface h S) (hc : S c = some ⟨es, ns⟩) (ok : triv = true ∨ ns = []) :
    GoodR iface (destroy triv c) h () (upd S c none) := by
  obtain ⟨h1, q1, r1, ef1, fr1⟩ := drain_heap (triv := triv) W.wf (World.qu W hc)
  obtain ⟨h2, q2, r2, ef2, fr2, _⟩ := cleanup_heap ef1.wf r1 ok
  obtain ⟨h3, q3, ef3, fr3⟩ := freeHead_ok (T := T) ef2.wf r2.main.head
  have hcd : c + 1 ∉ scells c ([] : List (Addr × T)) := fun q => r2.apart _ q (by simp)
  have ld : h3.live (c + 1) = true := (ef3.keeps r2.dead.head hcd).live.trans r2.dead.head
  obtain ⟨h4, q4, ef4, fr4⟩ := freeHead_ok (T := T) ef3.wf ld
  have e3 : Effect (· ∈ qcells c ([] : List (Addr × T)) []) (· ∈ scells (c + 1) ([] : List (Addr × T))) h2 h3 := by
    refine (ef3.weaken (F := (· ∈ [c + 1]))).congr ?_ ?_
    · intro x; exact mem_qcells.symm
    · intro x; simp [scells]
  have := World.gone W hc (((ef1.trans ef2).trans e3).trans ef4)
  exact ⟨h4, by simp only [destroy, deadOf, Prog.bind_app, q1, Res.bind_ok, q2, q3, q4], this, (((ef1.trans ef2).trans e3).trans ef4).mono⟩

/-! ## Constructors -/

theorem create_good (W : World iface h S) : ∃ h', create h = .ok (h.fresh, h') ∧ World iface h' (S.put h.fresh [] []) ∧
    h'.fresh = h.fresh + 2 ∧ (∀ x, h.live x = true → Same h h' x) := by
  have n0 := W.wf.pos
  have w := W.wf
  let h' : Heap T := { h with next := upd (upd h.next h.fresh 0) (h.fresh + 1) 0, tail := upd h.tail h.fresh h.fresh, val := upd (upd h.val h.fresh none) (h.fresh + 1) none, live := upd (upd h.live h.fresh true) (h.fresh + 1) true, fresh := h.fresh + 2 }
  have ne : h.fresh ≠ h.fresh + 1 := by show (h.fresh : Nat) ≠ _; omega
  have sm : ∀ x, x ≠ h.fresh → x ≠ h.fresh + 1 → Same h h' x := by
    intro x k1 k2; constructor <;> simp [h', upd, k1, k2]
  have big : ∀ x, h.live x = true → x ≠ h.fresh ∧ x ≠ h.fresh + 1 := by
    intro x l
    have : x < h.fresh := w.used x l
    constructor
    · exact Nat.ne_of_lt this
    · exact Nat.ne_of_lt (Nat.lt_succ_of_lt this)
  refine ⟨h', ?_, World.made W (s' := ⟨[], []⟩) ⟨?_, ?_, ?_, ?_, ⟨?_, ?_, ?_⟩, ?_⟩ ⟨⟨⟨?_, ?_, ?_, by simp, by simp⟩, ⟨?_, ?_, ?_, by simp, by simp⟩, ?_⟩, ?_⟩, rfl,
    fun x l => sm x (big x l).1 (big x l).2⟩
  · simp only [create, deadOf, Prog.bind_app, newRaw_eq, Res.bind_ok, setNext, setTail, upd_same, if_true, Prog.pure_app, upd_other _ _ ne, upd_other _ _ ne.symm]
    rfl
  · intro x _ h2 l
    exact sm x (big x l).1 (big x l).2
  · intro x _ h2 l
    simp only [iface, qcells, scells, List.map_nil, List.mem_append, List.mem_cons, List.not_mem_nil, or_false, not_or] at h2
    show upd (upd h.live h.fresh true) (h.fresh + 1) true x = false
    rw [upd_other _ _ h2.2, upd_other _ _ h2.1]; exact l
  · intro x _ h2
    simp only [iface, qcells, scells, List.map_nil, List.mem_append, List.mem_cons, List.not_mem_nil, or_false] at h2
    rcases h2 with rfl | rfl
    · exact w.fresh_dead (Nat.le_refl _)
    · exact w.fresh_dead (Nat.le_succ _)
  · intro x hx; exact hx.elim
  · show 0 < h.fresh + 2; omega
  · show upd (upd h.live h.fresh true) (h.fresh + 1) true 0 = false
    rw [upd_other _ _ (Nat.ne_of_lt (Nat.succ_pos _)), upd_other _ _ (Nat.ne_of_lt n0)]; exact w.null
  · intro x l
    show x < h.fresh + 2
    by_cases k1 : x = h.fresh + 1
    · rw [k1]; exact Nat.lt_succ_self _
    · by_cases k2 : x = h.fresh
      · rw [k2]; exact Nat.lt_succ_of_lt (Nat.lt_succ_self _)
      · have l' : upd (upd h.live h.fresh true) (h.fresh + 1) true x = true := l
        rw [upd_other _ _ k1, upd_other _ _ k2] at l'
        exact Nat.lt_succ_of_lt (Nat.lt_succ_of_lt (w.used x l'))
  · show h.fresh ≤ h.fresh + 2; omega
  · show upd (upd h.live h.fresh true) (h.fresh + 1) true h.fresh = true
    rw [upd_other _ _ ne, upd_same]
  · show upd (upd h.val h.fresh none) (h.fresh + 1) none h.fresh = none
    rw [upd_other _ _ ne, upd_same]
  · show upd (upd h.next h.fresh 0) (h.fresh + 1) 0 h.fresh = 0
    rw [upd_other _ _ ne, upd_same]
  · exact upd_same _ _ _
  · exact upd_same _ _ _
  · exact upd_same _ _ _
  · intro x hx hx'
    simp only [scells, List.map_nil, List.mem_singleton] at hx hx'
    rw [hx] at hx'; exact ne hx'
  · exact upd_same _ _ _

/-- A constructor: an empty queue, then something is inserted. -/
theorem ctor_good {p : Addr → Prog (Heap T) Unit} (W : World iface h S)
    (hp : ∀ h1, World iface h1 (S.put h.fresh [] []) → h1.fresh = h.fresh + 2 → (∀ x, h.live x = true → Same h h1 x) →
      GoodR iface (p h.fresh) h1 () ((S.put h.fresh [] []).put h.fresh es ns)) :
    GoodR iface (do let c ← create; p c; pure c : Prog (Heap T) Addr) h h.fresh (S.put h.fresh es ns) := by
  obtain ⟨h1, q1, W1, fr, k⟩ := create_good W
  obtain ⟨h2, q2, W2, m⟩ := hp h1 W1 fr k
  rw [put_put] at W2
  exact ⟨h2, by simp only [Prog.bind_app, q1, Res.bind_ok, q2, Prog.pure_app], W2, by omega⟩

theorem ctorN_good (W : World iface h S) (n : Nat) {value : Arg T} {v : T} (rf : S.Refers v value) :
    GoodR iface (ctorN n value) h h.fresh (S.put h.fresh (fresh (h.fresh + 2) (List.replicate n v)) []) := by
  refine ctor_good W fun h1 W1 fr k => ?_
  have := insertN_good W1 (put_same S h.fresh [] []) (i := 0) (by simp) n (BList.Readable.same k (refers_readable W rf))
  rw [fr, alloc_nil] at this
  simpa [insertAt] using this

theorem copyCtor_good (W : World iface h S) {s : Addr} (hs : S s = some ⟨fs, ms⟩) :
    GoodR iface (copyCtor s) h h.fresh (S.put h.fresh (fresh (h.fresh + 2) (fs.map Prod.snd)) []) := by
  have sl := World.sl W hs
  have := ctor_good (p := fun c => do insertNodes c c (← getNext s) 0) (es := fresh (h.fresh + 2) (fs.map Prod.snd)) (ns := []) W fun h1 W1 fr k => by
    have := insertNodes_good W1 (put_same S h.fresh [] []) (i := 0) (by simp) (BList.Slist.keep k sl) (by
      intro x hx q
      have := W.wf.used x (sl.live x hx)
      simp only [qcells, scells, List.map_nil, List.mem_append, List.mem_cons, List.not_mem_nil, or_false] at q
      rcases q with rfl | rfl
      · exact Nat.lt_irrefl _ this
      · exact Nat.not_succ_le_self _ (Nat.le_of_lt this))
    rw [fr, alloc_nil] at this
    simpa [insertAt] using this
  simpa only [copyCtor, bind_assoc] using this

end Verif.Seq.LQueue
