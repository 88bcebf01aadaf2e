import Verif.Seq.FwdStep
/-!
# `ttl::forward_list`: the step theorem
-/
set_option linter.unusedVariables false
set_option linter.unusedSimpArgs false
namespace Verif.Seq.FList
open Verif
open Verif.Seq.DList (Arg fresh insertAt slice cut Blank Relink split_at split_elem posOf posOf_cons posOf_nil)
variable {T : Type} {h : Heap T} {S : State T} {c d : Addr} {es fs : List (Addr × T)}

theorem World.sl (W : World iface h S) (hc : S c = some es) : Slist h c es := W.own c _ hc
theorem get_some (hc : S c = some es) : S.get c = es := by simp [State.get, hc]

theorem one {α : Type} {es' : List (Addr × T)} {p : Prog (Heap T) α} {a : α} {h' : Heap T} (W : World iface h S)
    (hc : S c = some es) (q : p h = .ok (a, h')) (ef : Effect (· ∈ scells c es) (· ∈ scells c es') h h') (r : Slist h' c es') :
    GoodR iface p h a (S.put c es') := ⟨h', q, World.chg W hc ef r, ef.mono⟩

theorem relinked {α : Type} {es' : List (Addr × T)} {p : Prog (Heap T) α} {a : α} {h' : Heap T} (W : World iface h S)
    (hc : S c = some es) (q : p h = .ok (a, h')) (k : Relink (· ∈ scells c es) h h') (pm : es'.Perm es) (r : Slist h' c es') :
    GoodR iface p h a (S.put c es') :=
  one W hc q (k.effect W.wf fun x => by simp only [scells, List.mem_cons, (pm.map Prod.fst).mem_iff]) r

theorem two {es' fs' : List (Addr × T)} {p : Prog (Heap T) Unit} {h' : Heap T} (W : World iface h S) (hcd : c ≠ d) (hc : S c = some es)
    (hd : S d = some fs) (q : p h = .ok ((), h')) (k : Relink (fun x => x ∈ scells c es ∨ x ∈ scells d fs) h h') (r : Slist h' c es')
    (r' : Slist h' d fs') (pm : List.Perm (es' ++ fs') (es ++ fs)) : GoodR iface p h () ((S.put c es').put d fs') :=
  ⟨h', q, World.swapped (I := iface) (fun s => s) (fun _ _ => rfl) (fun o => o) W hcd hc hd (k.effect W.wf fun _ => Iff.rfl) r r' pm,
    Nat.le_of_eq k.fresh.symm⟩

/-! ## Reference arguments -/

theorem refers_readable (W : World iface h S) {v : T} {value : Arg T} (rf : S.Refers v value) : Readable h v value := by
  cases value with
  | ext w => exact rf
  | elem a =>
    obtain ⟨c, es, hc, hm⟩ := rf
    exact (World.sl W hc).data (a, v) hm

theorem Readable.inj {v w : T} {value : Arg T} (a : Readable h v value) (b : Readable h w value) : v = w := by
  cases value with
  | ext u => exact a.symm.trans b
  | elem x => have := a.2.symm.trans b.2; cases this; rfl

theorem valueOf_eq (W : World iface h S) {v : T} {value : Arg T} (rf : S.Refers v value) : S.valueOf value = some v := by
  cases value with
  | ext w => exact congrArg some rf
  | elem a =>
    have e : ∃ v, S.Refers v (.elem a) := ⟨v, rf⟩
    simp only [State.valueOf, dif_pos e]
    exact congrArg some (Readable.inj (refers_readable W e.choose_spec) (refers_readable W rf))

theorem copies_eq (W : World iface h S) {v : T} {value : Arg T} (rf : S.Refers v value) (n : Nat) :
    S.copies n value = List.replicate n v := by simp [State.copies, valueOf_eq W rf]

/-! ## The calls -/

theorem create_ok (w : Wf h) : ∃ h', create h = .ok (h.fresh, h') ∧
    Slist h' h.fresh ([] : List (Addr × T)) ∧ Effect (fun _ => False) (· ∈ scells h.fresh ([] : List (Addr × T))) h h' ∧
    h'.fresh = h.fresh + 1 ∧ h'.tail = h.tail := newHead_ok w

theorem create_good (W : World iface h S) : GoodR iface create h h.fresh (S.put h.fresh []) := by
  obtain ⟨h', q, r, ef, _⟩ := create_ok W.wf
  exact ⟨h', q, World.made W ef r, ef.mono⟩

theorem ctor_good {p : Addr → Prog (Heap T) Unit} (W : World iface h S)
    (hp : ∀ h1, Wf h1 → Slist h1 h.fresh ([] : List (Addr × T)) → h1.fresh = h.fresh + 1 →
      Effect (fun _ => False) (· ∈ scells h.fresh ([] : List (Addr × T))) h h1 →
      ∃ h', p h.fresh h1 = .ok ((), h') ∧ Slist h' h.fresh es ∧
        Effect (· ∈ scells h.fresh ([] : List (Addr × T))) (· ∈ scells h.fresh es) h1 h') :
    GoodR iface (do let c ← create; p c; pure c : Prog (Heap T) Addr) h h.fresh (S.put h.fresh es) := by
  obtain ⟨h1, q, r, ef, fr, _⟩ := create_ok W.wf
  obtain ⟨h', q', r', ef'⟩ := hp h1 ef.wf r fr ef
  refine ⟨h', ?_, World.made W (ef.trans ef') r', (ef.trans ef').mono⟩
  simp only [Prog.bind_app, q, Res.bind_ok, q', Prog.pure_app]

theorem ctorVals_good (W : World iface h S) (vs : List T) :
    GoodR iface (ctorVals vs) h h.fresh (S.put h.fresh (fresh (h.fresh + 1) vs)) := by
  refine ctor_good W fun h1 w r fr ef => ?_
  obtain ⟨h', q, r', ef', _⟩ := insertVals_at w r (i := 0) (by simp) vs
  rw [fr] at r' ef'
  simp only [List.take_nil, List.map_nil, lastOf_nil] at q
  exact ⟨h', by simp only [insertVals, Prog.bind_app, q, Res.bind_ok, Prog.pure_app], by simpa [insertAt] using r',
    by simpa [insertAt] using ef'⟩

theorem Readable.keep {h' : Heap T} {C C' : Addr → Prop} (ef : Effect C C' h h') {v : T} {value : Arg T} (rd : Readable h v value)
    (out : ∀ a, value = .elem a → ¬ C a) : Readable h' v value := by
  cases value with
  | ext w => exact rd
  | elem a =>
    have k := ef.keeps rd.1 (out a rfl)
    exact ⟨k.live.trans rd.1, k.val.trans rd.2⟩

theorem ctorN_good (W : World iface h S) (n : Nat) {value : Arg T} {v : T} (rf : S.Refers v value) :
    GoodR iface (ctorN n value) h h.fresh (S.put h.fresh (fresh (h.fresh + 1) (List.replicate n v))) := by
  refine ctor_good W fun h1 w r fr ef => ?_
  have rd := Readable.keep ef (refers_readable W rf) (by simp)
  obtain ⟨h', q, r', ef', _⟩ := insertVals_at w r (i := 0) (by simp) (List.replicate n v)
  rw [← insertN_at w r (i := 0) (by simp) rd n] at q
  rw [fr] at r' ef'
  simp only [List.take_nil, List.map_nil, lastOf_nil] at q
  exact ⟨h', by simp only [insertN, Prog.bind_app, q, Res.bind_ok, Prog.pure_app], by simpa [insertAt] using r',
    by simpa [insertAt] using ef'⟩

/-- A chain outside the cells an effect is about. -/
theorem Effect.slist {C C' : Addr → Prop} {h' : Heap T} (ef : Effect C C' h h') (s : Slist h d fs) (dj : ∀ x ∈ scells d fs, ¬ C x) :
    Slist h' d fs := s.frame fun x hx => ef.keeps (s.live x hx) (dj x hx)

theorem copyCtor_good (W : World iface h S) {s : Addr} (hs : S s = some fs) :
    GoodR iface (copyCtor s) h h.fresh (S.put h.fresh (fresh (h.fresh + 1) (fs.map Prod.snd))) := by
  have sl := World.sl W hs
  have := ctor_good (p := fun c => do insertNodes c (← getNext s) 0) (es := fresh (h.fresh + 1) (fs.map Prod.snd)) W fun h1 w r fr ef => by
    have sl1 := Effect.slist ef sl (by simp)
    obtain ⟨h', q, r', ef', _⟩ := insertNodes_at w r (i := 0) (by simp) sl1 (by
      intro x hx
      simp only [scells, List.map_nil, List.mem_singleton]
      exact W.wf.ne_fresh (sl.live x hx))
    rw [fr] at r' ef'
    simp only [List.take_nil, List.map_nil, lastOf_nil, Prog.bind_app, getNext_eq sl1.head, Res.bind_ok] at q
    exact ⟨h', by simp only [insertNodes, Prog.bind_app, getNext_eq sl1.head, q, Res.bind_ok, Prog.pure_app], by simpa [insertAt] using r',
      by simpa [insertAt] using ef'⟩
  simpa only [copyCtor, bind_assoc] using this

theorem clear_good (W : World iface h S) (hc : S c = some es) : ∃ h', clear c h = .ok ((), h') ∧ World iface h' (S.put c []) ∧
    h'.fresh = h.fresh ∧ Slist h' c ([] : List (Addr × T)) ∧ Effect (· ∈ scells c es) (· ∈ scells c ([] : List (Addr × T))) h h' := by
  obtain ⟨h', q, r, ef, fr, _⟩ := clearLoop_ok W.wf (World.sl W hc)
  exact ⟨h', q, World.chg W hc ef r, fr, r, ef⟩

theorem destroy_good (W : World iface h S) (hc : S c = some es) : GoodR iface (destroy c) h () (upd S c none) := by
  obtain ⟨h1, q1, W1, _, r1, ef1⟩ := clear_good W hc
  obtain ⟨h2, q2, ef2, _⟩ := freeHead_ok (T := T) ef1.wf r1.head
  exact ⟨h2, by simp only [destroy, Prog.bind_app, q1, Res.bind_ok, q2], World.gone W hc (ef1.trans ef2), (ef1.trans ef2).mono⟩

theorem insertVals_good (W : World iface h S) (hc : S c = some es) {i : Nat} (hi : i ≤ es.length) (vs : List T) :
    GoodR iface (do insertVals (← SList.posAt c i) vs) h () (S.put c (insertAt i (fresh h.fresh vs) es)) := by
  have r := World.sl W hc
  obtain ⟨h', q, r', ef, _⟩ := insertVals_at W.wf r hi vs
  exact one W hc (by simp only [insertVals, Prog.bind_app, r.posAt hi, Res.bind_ok, q, Prog.pure_app]) ef r'

theorem insertN_good (W : World iface h S) (hc : S c = some es) {i : Nat} (hi : i ≤ es.length) (n : Nat) {value : Arg T} {v : T}
    (rf : S.Refers v value) :
    GoodR iface (do insertN (← SList.posAt c i) n value) h () (S.put c (insertAt i (fresh h.fresh (List.replicate n v)) es)) := by
  have r := World.sl W hc
  obtain ⟨h', q, r', ef, _⟩ := insertVals_at W.wf r hi (List.replicate n v)
  rw [← insertN_at W.wf r hi (refers_readable W rf) n] at q
  exact one W hc (by simp only [insertN, Prog.bind_app, r.posAt hi, Res.bind_ok, q, Prog.pure_app]) ef r'

theorem insert_good (W : World iface h S) (hc : S c = some es) {i : Nat} (hi : i ≤ es.length) (v : T) :
    GoodR iface (do insertOne (← SList.posAt c i) v) h h.fresh (S.put c (insertAt i [(h.fresh, v)] es)) := by
  have r := World.sl W hc
  obtain ⟨h', q, r', ef, _⟩ := insertVals_at W.wf r hi [v]
  refine one W hc ?_ ef r'
  simp only [SList.insertVals, Prog.bind_app, Prog.pure_app] at q
  simp only [insertOne, Prog.bind_app, r.posAt hi, Res.bind_ok]
  rw [show (lastOf c ((es.take i ++ fresh h.fresh [v]).map Prod.fst)) = h.fresh by
    simp only [List.map_append, fresh, List.map_cons, List.map_nil, lastOf_concat]] at q
  revert q
  cases newNode v h with
  | ok r1 =>
    simp only [Res.bind_ok]
    cases SNode.insertAfter (lastOf c ((es.take i).map Prod.fst)) r1.1 r1.2 with
    | ok r2 => simp only [Res.bind_ok]; exact fun q => q
    | _ => simp
  | _ => simp

theorem insertNodes_good (W : World iface h S) (hc : S c = some es) (hd : S d = some fs) (hcd : c ≠ d) {i : Nat} (hi : i ≤ es.length) :
    GoodR iface (do insertNodes (← SList.posAt c i) (← getNext d) 0) h ()
      (S.put c (insertAt i (fresh h.fresh (fs.map Prod.snd)) es)) := by
  have r := World.sl W hc
  have s := World.sl W hd
  obtain ⟨h', q, r', ef, _⟩ := insertNodes_at W.wf r hi s (W.disj d _ c _ hd hc (Ne.symm hcd))
  simp only [Prog.bind_app, getNext_eq s.head, Res.bind_ok] at q
  exact one W hc (by simp only [insertNodes, Prog.bind_app, r.posAt hi, getNext_eq s.head, Res.bind_ok, q, Prog.pure_app]) ef r'

theorem erase_good (W : World iface h S) (hc : S c = some es) {i : Nat} (hi : i < es.length) :
    GoodR iface (do eraseAfter (← SList.posAt c i)) h (posOf 0 ((es.drop (i + 1)).map Prod.fst)) (S.put c (es.eraseIdx i)) := by
  have r := World.sl W hc
  obtain ⟨h', q, q', r', ef, _⟩ := delNext_at W.wf r hi
  refine one W hc ?_ ef r'
  have r2 := r'
  rw [List.eraseIdx_eq_take_drop_succ] at r2
  simp only [eraseAfter, Prog.bind_app, r.posAt (Nat.le_of_lt hi), Res.bind_ok, q, q', getNext_eq r2.last_live, r2.next_at]

theorem eraseRange_good (W : World iface h S) (hc : S c = some es) {i j : Nat} (hij : i ≤ j) (hj : j ≤ es.length) :
    GoodR iface (do eraseRange (← SList.posAt c i) (← SList.posAt c (j + 1))) h (posOf 0 ((es.drop j).map Prod.fst)) (S.put c (cut i j es)) := by
  have r := World.sl W hc
  obtain ⟨h', q, r', ef, _⟩ := eraseLoop_at W.wf r hij hj
  refine one W hc ?_ ef r'
  have r2 : Slist h' c (es.take i ++ es.drop j) := r'
  simp only [eraseRange, Prog.bind_app, r.posAt (Nat.le_trans hij hj), r.posAt_elem hj, Res.bind_ok, q, getNext_eq r2.last_live, r2.next_at]

end Verif.Seq.FList
