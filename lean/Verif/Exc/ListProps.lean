import Verif.Exc.List
/-!
# Properties of `ttl::list` under exceptions (C126, C127)

`XList.exec c k` executes the call `c` when the `k`-th allocation, element construction, comparison or predicate call (from 0) throws.
-/
set_option linter.unusedVariables false
set_option linter.unusedSimpArgs false
set_option linter.unusedSectionVars false
namespace Verif.Exc.XList
open Verif Verif.Seq Verif.Seq.DList Verif.Seq.ListProps Verif.Exc
variable {T : Type} {S : State T} {h h' : Heap T} {c d : Addr} {es fs : List (Addr × T)}

/-- `Interrupted S a k q S'`: an exception at point `k` of the call `q` may leave the lists as `S'` says. (`a` is the next address the allocator
hands out.) Single insertions leave everything as it was; insertions of `n` elements have inserted the first `k`; `remove_if` and `unique` have dealt
with the first elements; `merge` has merged the first `j` elements of the other list, which keeps the rest. -/
def Interrupted (S : State T) (a : Addr) (k : Nat) : Call T → State T → Prop
  | .pushFront _ _, S' => S' = S
  | .pushBack _ _, S' => S' = S
  | .insert _ _ _, S' => S' = S
  | .insertN c i n v, S' => k < n ∧ S' = S.put c (insertAt i (fresh a (List.replicate k v)) (S.get c))
  | .insertVals c i vs, S' => k < vs.length ∧ S' = S.put c (insertAt i (fresh a (vs.take k)) (S.get c))
  | .insertList c i d, S' => k < (S.get d).length ∧ S' = S.put c (insertAt i (fresh a (((S.get d).map Prod.snd).take k)) (S.get c))
  | .assign c d, S' => k < (S.get d).length ∧ S' = S.put c (fresh a (((S.get d).map Prod.snd).take k))
  | .assignN c n v, S' => k < n ∧ S' = S.put c (fresh a (List.replicate k v))
  | .assignVals c vs, S' => k < vs.length ∧ S' = S.put c (fresh a (vs.take k))
  | .resize c n v, S' => (S.get c).length + k < n ∧ S' = S.put c (S.get c ++ fresh a (List.replicate k v))
  | .removeIf c p, S' => k < (S.get c).length ∧ S' = S.put c (((S.get c).take k).filter (fun e => !p e.2) ++ (S.get c).drop k)
  | .remove c eqv v, S' => k < (S.get c).length ∧ S' = S.put c (((S.get c).take k).filter (fun e => !eqv e.2 v) ++ (S.get c).drop k)
  | .unique c pred, S' => k + 1 < (S.get c).length ∧ S' = S.put c (uniq pred ((S.get c).take (k + 1)) ++ (S.get c).drop (k + 1))
  | .merge c d lt, S' => ∃ j, j ≤ (S.get d).length ∧
      S' = (S.put c (List.merge (S.get c) ((S.get d).take j) fun x y => !lt y.2 x.2)).put d ((S.get d).drop j)
  | _, _ => False

/-- The constructors that insert elements. -/
def Constructs : Call T → Prop
  | .copyOf _ => True
  | .ctorN _ _ => True
  | .ctorVals _ => True
  | _ => False

/-! ## One call -/

theorem reach_prefix (R : Reach S h) (hc : S.Intact c) {i : Nat} (hi : i ≤ (S.get c).length) {vs : List T} {t : Heap T}
    (q : DList.insertVals (posOf c (((S.get c).drop i).map Prod.fst)) vs h = .ok ((), t)) :
    Reach (S.put c (insertAt i (fresh h.fresh vs) (S.get c))) t := by
  have r : Ring h c (S.get c) := by
    obtain ⟨es, q⟩ := hc
    rw [State.get_ring q]; exact World.ring R.world q
  refine Reach.step (.insertVals c i vs) R ⟨hc, hi⟩ ?_
  simp only [DList.exec, Prog.bind_app, iterAt_ok r hi, Res.bind_ok]
  exact q

theorem intact_ring (R : Reach S h) (hc : S.Intact c) : Ring h c (S.get c) := by
  obtain ⟨es, q⟩ := hc
  rw [State.get_ring q]; exact World.ring R.world q

theorem intact_get (hc : S.Intact c) : S c = some (.ring (S.get c)) := by
  obtain ⟨es, q⟩ := hc
  rw [State.get_ring q]; exact q

/-- Inserting the elements of another list is inserting their values. -/
theorem insert_other_eq (R : Reach S h) (hc : S.Intact c) (hd : S.Exists d) (hcd : c ≠ d) {i : Nat} (hi : i ≤ (S.get c).length) :
    DList.insertNodes (posOf c (((S.get c).drop i).map Prod.fst)) (h.next d) d h =
      DList.insertVals (posOf c (((S.get c).drop i).map Prod.fst)) ((S.get d).map Prod.snd) h ∧
    ∀ k, insertNodes (posOf c (((S.get c).drop i).map Prod.fst)) (h.next d) d k h =
      insertVals (posOf c (((S.get c).drop i).map Prod.fst)) ((S.get d).map Prod.snd) k h := by
  have r := intact_ring R hc
  have hs := reach_shows R (intact_ex hc)
  have ht := reach_shows R hd
  have sp : S.get c = (S.get c).take i ++ (S.get c).drop i := (List.take_append_drop i _).symm
  obtain ⟨lp, lq⟩ := Ring.pos_live (A := (S.get c).take i) (B := (S.get c).drop i) (by rw [← sp]; exact r)
  have rn := run_any R hd ht (Nat.zero_le (S.get d).length)
  rw [List.drop_length, List.drop_zero, List.map_nil, posOf_nil, slice, List.drop_zero, Nat.sub_zero, List.take_length] at rn
  have e0 : h.next d = posOf d ((S.get d).map Prod.fst) := by
    obtain ⟨s, q, hq⟩ := shown R hd ht
    have := (World.laid R.world q).1.next
    rwa [hq] at this
  rw [← e0] at rn
  have dj : ∀ e ∈ S.get d, e.1 ≠ h.prev (posOf c (((S.get c).drop i).map Prod.fst)) := by
    intro e he x
    obtain ⟨s, qd, hsd⟩ := shown R hd ht
    obtain ⟨s', qc, hsc⟩ := shown R (intact_ex hc) hs
    refine R.world.disj d _ c _ qd qc (Ne.symm hcd) e.1 ?_ ?_
    · show e.1 ∈ cells d s.elems
      rw [hsd]
      simp only [cells, List.mem_cons, List.mem_map]
      exact .inr ⟨e, he, rfl⟩
    · show e.1 ∈ cells c s'.elems
      rw [hsc, x]
      have hl : Links h c (((S.get c).take i).map Prod.fst ++ ((S.get c).drop i).map Prod.fst) := by rw [← List.map_append, ← sp]; exact r.links
      rw [Links.prev_last hl]
      have := lastOf_mem (((S.get c).take i).map Prod.fst) c
      simp only [cells, List.mem_cons] at this ⊢
      rcases this with g | g
      · exact .inl g
      · exact .inr (((List.take_sublist i _).map Prod.fst).subset g)
  exact ⟨DList.insertNodes_run _ R.world.wf lp lq rn dj, fun k => XList.insertNodes_run _ R.world.wf lp lq rn dj k⟩

/-- Inserting the elements of another list at position `i`: the points and what exceptions there leave. -/
theorem insert_other_points (R : Reach S h) (hc : S.Intact c) (hd : S.Exists d) (hcd : c ≠ d) {i : Nat} (hi : i ≤ (S.get c).length)
    (q : DList.insertNodes (posOf c (((S.get c).drop i).map Prod.fst)) (h.next d) d h = .ok ((), h')) :
    Points (insertNodes (posOf c (((S.get c).drop i).map Prod.fst)) (h.next d) d) h (S.get d).length () h'
      fun k t => Reach (S.put c (insertAt i (fresh h.fresh (((S.get d).map Prod.snd).take k)) (S.get c))) t := by
  obtain ⟨e2, e1⟩ := insert_other_eq R hc hd hcd hi
  rw [e2] at q
  have X := insertVals_points _ q
  rw [List.length_map] at X
  constructor
  · intro k; rw [e1]; exact X.returns k
  · intro k l
    obtain ⟨t, x, y⟩ := X.throws k l
    exact ⟨t, by rw [e1]; exact x, reach_prefix R hc hi y⟩

/-- The number of allocations (each with the copy of its element), comparisons and predicate calls of a call. -/
def work (S : State T) : Call T → Nat
  | .copyOf d => (S.get d).length
  | .ctorN n _ => n
  | .ctorVals vs => vs.length
  | .pushFront _ _ | .pushBack _ _ | .insert _ _ _ => 1
  | .insertN _ _ n _ => n
  | .insertVals _ _ vs => vs.length
  | .insertList _ _ d => (S.get d).length
  | .assign _ d => (S.get d).length
  | .assignN _ n _ => n
  | .assignVals _ vs => vs.length
  | .resize c n _ => n - (S.get c).length
  | .removeIf c _ | .remove c _ _ => (S.get c).length
  | .unique c _ => (S.get c).length - 1
  | .merge c d lt => mergeCompares lt ((S.get d).map Prod.snd) ((S.get c).map Prod.snd)
  | _ => 0

theorem call_points_work (R : Reach S h) (q : Call T) (lg : Legal S q) (nc : ¬ Constructs q) :
    ∃ h', DList.exec q h = .ok ((), h') ∧ Reach (spec S h.fresh q) h' ∧
      Points (exec q) h (work S q) () h' fun k t => ∃ S', Interrupted S h.fresh k q S' ∧ Reach S' t := by
  obtain ⟨h', e, R'⟩ := call_returns R q lg
  have simple : exec q = Thr.call (DList.exec q) → work S q = 0 → ∃ h', DList.exec q h = .ok ((), h') ∧ Reach (spec S h.fresh q) h' ∧
      Points (exec q) h (work S q) () h' fun k t => ∃ S', Interrupted S h.fresh k q S' ∧ Reach S' t := by
    intro x y; rw [x, y]; exact ⟨h', e, R', Points.call_ e⟩
  cases q with
  | create => exact simple rfl rfl
  | copyOf s => exact absurd trivial nc
  | ctorN n v => exact absurd trivial nc
  | ctorVals vs => exact absurd trivial nc
  | destroy c => exact simple rfl rfl
  | popFront c => exact simple rfl rfl
  | popBack c => exact simple rfl rfl
  | erase c i => exact simple rfl rfl
  | eraseRange c i j => exact simple rfl rfl
  | clear c => exact simple rfl rfl
  | reverse c => exact simple rfl rfl
  | spliceAll c i d => exact simple rfl rfl
  | spliceOne c i d j => exact simple rfl rfl
  | splice c i d j k => exact simple rfl rfl
  | swap c d => exact simple rfl rfl
  | store c i v => exact simple rfl rfl
  | pushFront c v =>
    refine ⟨h', e, R', ?_⟩
    have r := intact_ring R lg
    simp only [DList.exec, DList.pushFront, Prog.bind_app, getNext_eq r.head, newNode_eq, Res.bind_ok] at e
    refine Points.call_seq (getNext_eq r.head) (Points.seq (m := 0) (newNode_points ⟨S, rfl, R⟩) ?_)
    cases g : insertBefore (h.next c) h.fresh { h with val := upd h.val h.fresh (some v), live := upd h.live h.fresh true, fresh := h.fresh + 1 } with
    | ub f => rw [g] at e; cases e
    | diverge => rw [g] at e; cases e
    | ok y => rw [g] at e; cases e; exact Points.call_seq g Points.pure_
  | pushBack c v =>
    refine ⟨h', e, R', ?_⟩
    simp only [DList.exec, DList.pushBack, Prog.bind_app, newNode_eq, Res.bind_ok] at e
    refine Points.seq (m := 0) (newNode_points ⟨S, rfl, R⟩) ?_
    cases g : insertBefore c h.fresh { h with val := upd h.val h.fresh (some v), live := upd h.live h.fresh true, fresh := h.fresh + 1 } with
    | ub f => rw [g] at e; cases e
    | diverge => rw [g] at e; cases e
    | ok y => rw [g] at e; cases e; exact Points.call_seq g Points.pure_
  | insert c i v =>
    refine ⟨h', e, R', ?_⟩
    have it := iterAt_ok (intact_ring R lg.1) lg.2
    simp only [DList.exec, DList.insert, Prog.bind_app, newNode_eq, Res.bind_ok, it] at e
    refine Points.call_seq it ?_
    simp only [XList.insert, bind_assoc]
    refine Points.seq (m := 0) (newNode_points ⟨S, rfl, R⟩) ?_
    cases g : insertBefore (posOf c (((S.get c).drop i).map Prod.fst)) h.fresh
        { h with val := upd h.val h.fresh (some v), live := upd h.live h.fresh true, fresh := h.fresh + 1 } with
    | ub f => rw [g] at e; cases e
    | diverge => rw [g] at e; cases e
    | ok y => rw [g] at e; cases e; exact Points.call_seq g Points.pure_
  | insertN c i n v =>
    refine ⟨h', e, R', ?_⟩
    have it := iterAt_ok (intact_ring R lg.1) lg.2
    simp only [DList.exec, Prog.bind_app, Res.bind_ok, it] at e
    refine Points.call_seq it ((insertN_points e).imp fun k t l y => ⟨_, ⟨l, rfl⟩, ?_⟩)
    rw [DList.insertN_eq] at y
    exact reach_prefix R lg.1 lg.2 y
  | insertVals c i vs =>
    refine ⟨h', e, R', ?_⟩
    have it := iterAt_ok (intact_ring R lg.1) lg.2
    simp only [DList.exec, Prog.bind_app, Res.bind_ok, it] at e
    exact Points.call_seq it ((insertVals_points _ e).imp fun k t l y => ⟨_, ⟨l, rfl⟩, reach_prefix R lg.1 lg.2 y⟩)
  | insertList c i d =>
    refine ⟨h', e, R', ?_⟩
    have it := iterAt_ok (intact_ring R lg.1) lg.2.1
    have ld : h.live d = true := by obtain ⟨s, q⟩ := lg.2.2.1; exact (World.laid R.world q).2.1
    simp only [DList.exec, Prog.bind_app, Res.bind_ok, it, begin, getNext_eq ld] at e
    exact Points.call_seq it (Points.call_seq (getNext_eq ld)
      ((insert_other_points R lg.1 lg.2.2.1 lg.2.2.2 lg.2.1 e).imp fun k t l y => ⟨_, ⟨l, rfl⟩, y⟩))
  | assign c d =>
    refine ⟨h', e, R', ?_⟩
    obtain ⟨hc, h0, hd, hcd⟩ := lg
    have r := intact_ring R hc
    rw [h0] at r
    have cl := clear_nil r.head r.next_head
    have ld : h.live d = true := by obtain ⟨s, q⟩ := hd; exact (World.laid R.world q).2.1
    have nx : h.next c = c := r.next_head
    simp only [DList.exec, DList.opAssign, Prog.bind_app, Res.bind_ok, cl, getNext_eq r.head, getNext_eq ld, nx] at e
    have X := insert_other_points (i := 0) R hc hd hcd (Nat.zero_le _) (by rw [h0]; exact e)
    refine Points.call_seq cl (Points.call_seq (getNext_eq r.head) (Points.call_seq (getNext_eq ld) ?_))
    rw [h0] at X
    rw [nx]
    refine X.imp fun k t l y => ⟨_, ⟨l, rfl⟩, ?_⟩
    simpa [insertAt] using y
  | assignN c n v =>
    refine ⟨h', e, R', ?_⟩
    obtain ⟨hc, h0⟩ := lg
    have r := intact_ring R hc
    rw [h0] at r
    have cl := clear_nil r.head r.next_head
    simp only [DList.exec, DList.assignN, Prog.bind_app, Res.bind_ok, cl] at e
    refine Points.call_seq cl ((insertN_points e).imp fun k t l y => ⟨_, ⟨l, rfl⟩, ?_⟩)
    rw [DList.insertN_eq] at y
    have := reach_prefix (i := 0) R hc (Nat.zero_le _) (by rw [h0]; exact y)
    rw [h0] at this
    simpa [insertAt] using this
  | assignVals c vs =>
    refine ⟨h', e, R', ?_⟩
    obtain ⟨hc, h0⟩ := lg
    have r := intact_ring R hc
    rw [h0] at r
    have cl := clear_nil r.head r.next_head
    simp only [DList.exec, DList.assignVals, Prog.bind_app, Res.bind_ok, cl] at e
    refine Points.call_seq cl ((insertVals_points _ e).imp fun k t l y => ⟨_, ⟨l, rfl⟩, ?_⟩)
    have := reach_prefix (i := 0) R hc (Nat.zero_le _) (by rw [h0]; exact y)
    rw [h0] at this
    simpa [insertAt] using this
  | resize c n v =>
    refine ⟨h', e, R', ?_⟩
    have r := intact_ring R lg.1
    simp only [DList.exec, DList.resize, Prog.bind_app, Res.bind_ok, getNext_eq r.head, r.next_head] at e
    refine Points.call_seq (getNext_eq r.head) ?_
    rw [r.next_head]
    refine (resizeLoop_points (S.get c) (A := []) n r e (by rcases Nat.eq_zero_or_pos n with x | x <;> simp [x])).imp fun k t l y => ⟨_, ⟨?_, rfl⟩, ?_⟩
    · simp only [List.nil_append] at l; omega
    rw [DList.insertN_eq] at y
    have := reach_prefix (i := (S.get c).length) R lg.1 (Nat.le_refl _) (by rw [List.drop_length]; exact y)
    simpa [insertAt] using this
  | removeIf c p =>
    refine ⟨h', e, R', ?_⟩
    have r := intact_ring R lg
    have l1 : h.live (posOf c ((S.get c).map Prod.fst)) = true := (show Ring h c ([] ++ S.get c) from r).pos_live.1
    simp only [DList.exec, DList.removeIf, Prog.bind_app, getNext_eq r.head, Res.bind_ok, r.next_head, getNext_eq l1] at e
    refine Points.call_seq (getNext_eq r.head) ?_
    rw [r.next_head]
    exact Points.call_seq (getNext_eq l1) ((removeLoop_points (A := []) _ R (intact_get lg) _ (fun _ => rfl) e).imp fun k t l y => ⟨_, ⟨l, rfl⟩, y⟩)
  | remove c eqv v =>
    refine ⟨h', e, R', ?_⟩
    have r := intact_ring R lg
    have l1 : h.live (posOf c ((S.get c).map Prod.fst)) = true := (show Ring h c ([] ++ S.get c) from r).pos_live.1
    simp only [DList.exec, DList.remove, Prog.bind_app, getNext_eq r.head, Res.bind_ok, r.next_head, getNext_eq l1] at e
    refine Points.call_seq (getNext_eq r.head) ?_
    rw [r.next_head]
    exact Points.call_seq (getNext_eq l1) ((removeLoop_points (A := []) _ R (intact_get lg) _ (fun _ => rfl) e).imp fun k t l y => ⟨_, ⟨l, rfl⟩, y⟩)
  | unique c pred =>
    refine ⟨h', e, R', ?_⟩
    show Points (exec (.unique c pred)) h ((S.get c).length - 1) () h' _
    have r := intact_ring R lg
    have g0 := intact_get lg
    cases g : S.get c with
    | nil =>
      rw [g] at r
      have nx : h.next c = c := r.next_head
      simp only [DList.exec, DList.unique, Prog.bind_app, getNext_eq r.head, Res.bind_ok, nx] at e
      refine Points.call_seq (getNext_eq r.head) ?_
      rw [nx]
      refine Points.call_seq (getNext_eq r.head) ?_
      rw [nx]
      refine Points.call_seq (getNext_eq r.head) ?_
      rw [nx]
      rw [DList.uniqueLoop] at e
      rw [uniqueLoop]
      simp only [ne_eq, not_true_eq_false, if_false] at e ⊢
      cases e; exact Points.pure_
    | cons b B =>
      rw [g] at r g0
      have hl : Links h c ([] ++ b.1 :: B.map Prod.fst) := r.links
      obtain ⟨lb, vb⟩ := r.data b (by simp)
      have l1 : h.live (posOf c (B.map Prod.fst)) = true := (show Ring h c ([b] ++ B) from r).pos_live.1
      have nx : h.next c = b.1 := r.next_head
      simp only [DList.exec, DList.unique, Prog.bind_app, getNext_eq r.head, Res.bind_ok, nx, getNext_eq lb, hl.at_node.1, getNext_eq l1] at e
      refine Points.call_seq (getNext_eq r.head) ?_
      rw [nx]
      refine Points.call_seq (getNext_eq lb) ?_
      rw [hl.at_node.1]
      refine Points.call_seq (getNext_eq l1) ?_
      refine (uniqueLoop_points B (A := []) R g0 _ (fun _ => rfl) e).imp fun k t l y => ⟨_, ⟨?_, rfl⟩, ?_⟩
      · rw [g]; simpa using l
      · rw [g, List.take_succ_cons, List.drop_succ_cons]; exact y
  | merge c d lt =>
    obtain ⟨hc, hd, hcd, so⟩ := lg
    have r := intact_ring R hc
    have s := intact_ring R hd
    have e0 := e
    simp only [DList.exec, DList.merge, Prog.bind_app, getNext_eq r.head, getNext_eq s.head, Res.bind_ok, r.next_head, s.next_head] at e
    have X := mergeLoop_points hcd _ (A := []) rfl R (intact_get hc) (intact_get hd) e
    refine ⟨h', e0, R', Points.call_seq (getNext_eq s.head) (Points.call_seq (getNext_eq r.head) ?_)⟩
    rw [r.next_head, s.next_head]
    refine X.imp fun k t l ⟨j, hj, y⟩ => ⟨_, ⟨j, hj, rfl⟩, ?_⟩
    rw [List.nil_append, mergeSeq_eq_merge _ rfl (so.sublist (List.take_sublist j _))] at y
    exact y

/-- **C126.** Every legal call that is not a constructor passes some number `n` of points where an exception may appear. If none appears, the call
does what the model without exceptions does. If one appears, at any of the points, it leaves the call in a memory that is again reachable, i.e. one
that some client program without exceptions produces: every list is intact and nothing is lost, and `Interrupted` says what the lists contain. -/
theorem call_points (R : Reach S h) (q : Call T) (lg : Legal S q) (nc : ¬ Constructs q) :
    ∃ n h', DList.exec q h = .ok ((), h') ∧ Reach (spec S h.fresh q) h' ∧
      Points (exec q) h n () h' fun k t => ∃ S', Interrupted S h.fresh k q S' ∧ Reach S' t :=
  ⟨work S q, call_points_work R q lg nc⟩

/-- Every legal call that is not a constructor, with an exception at whatever point or with none. -/
theorem call_outcome (R : Reach S h) (q : Call T) (lg : Legal S q) (nc : ¬ Constructs q) (k : Nat) :
    (∃ h' k', exec q k h = .ok (.ret () k', h') ∧ DList.exec q h = .ok ((), h') ∧ Reach (spec S h.fresh q) h') ∨
    (∃ t S', exec q k h = .ok (.thrown, t) ∧ Interrupted S h.fresh k q S' ∧ Reach S' t) := by
  obtain ⟨n, h', e, R', X⟩ := call_points R q lg nc
  rcases X.cases k with ⟨_, x⟩ | ⟨_, t, x, S', i, r⟩
  · exact .inl ⟨h', _, x, e, R'⟩
  · exact .inr ⟨t, S', x, i, r⟩

/-! ## Programs in which calls throw -/

/-- What the client sees decides in which of the possible states an exception has left the lists. -/
theorem interrupted_unique {S₁ S₂ : State T} {a : Addr} {k : Nat} {q : Call T} {t : Heap T} (i₁ : Interrupted S a k q S₁) (i₂ : Interrupted S a k q S₂)
    (R : Reach S₁ t) (u : ∀ c, S₂.Exists c → Shows t c (S₂.get c)) : S₁ = S₂ := by
  cases q with
  | merge c d lt =>
    obtain ⟨j₁, l₁, rfl⟩ := i₁
    obtain ⟨j₂, l₂, rfl⟩ := i₂
    have s1 := reach_shows R (put_exists _ d _)
    have s2 := u d (put_exists _ d _)
    have e := s1.inj s2
    rw [put_get, put_get] at e
    have : j₁ = j₂ := by
      have := congrArg List.length e
      simp only [List.length_drop] at this
      omega
    rw [this]
  | pushFront c v => exact i₁.trans i₂.symm
  | pushBack c v => exact i₁.trans i₂.symm
  | insert c i v => exact i₁.trans i₂.symm
  | insertN c i n v => exact i₁.2.trans i₂.2.symm
  | insertVals c i vs => exact i₁.2.trans i₂.2.symm
  | insertList c i d => exact i₁.2.trans i₂.2.symm
  | assign c d => exact i₁.2.trans i₂.2.symm
  | assignN c n v => exact i₁.2.trans i₂.2.symm
  | assignVals c vs => exact i₁.2.trans i₂.2.symm
  | resize c n v => exact i₁.2.trans i₂.2.symm
  | removeIf c p => exact i₁.2.trans i₂.2.symm
  | remove c eqv v => exact i₁.2.trans i₂.2.symm
  | unique c pred => exact i₁.2.trans i₂.2.symm
  | _ => exact i₁.elim

/-- `XReach S h`: some client program, in which any calls may have been left by exceptions at any points, ends in memory `h` and, by the
specification, in state `S`. (Constructors with elements are not among these calls, see `ctor_vals_leaks`.) -/
inductive XReach : State T → Heap T → Prop where
  | start {h : Heap T} : Blank h → XReach (fun _ => none) h
  | returned {S : State T} {h h' : Heap T} (q : Call T) (k k' : Nat) : XReach S h → Legal S q → ¬ Constructs q →
      exec q k h = .ok (.ret () k', h') → XReach (spec S h.fresh q) h'
  | thrown {S S' : State T} {h t : Heap T} (q : Call T) (k : Nat) : XReach S h → Legal S q → ¬ Constructs q →
      exec q k h = .ok (.thrown, t) → Interrupted S h.fresh k q S' → (∀ c, S'.Exists c → Shows t c (S'.get c)) → XReach S' t
  | env {S : State T} {h h' : Heap T} : XReach S h → Env h h' → XReach S h'

/-- **C126, histories.** Whatever exceptions a program has met, its lists are in a state that a program without exceptions reaches: so every theorem
about reachable memories (observers, no leak, no undefined behaviour in later calls, destruction) holds after exceptions as well. -/
theorem XReach.reach (X : XReach S h) : Reach S h := by
  induction X with
  | start b => exact .start b
  | @returned S h h' q k k' _ lg nc e ih =>
    rcases call_outcome ih q lg nc k with ⟨h1, k1, e1, _, R1⟩ | ⟨t, S', e1, _, _⟩
    · rw [e] at e1; cases e1; exact R1
    · rw [e] at e1; cases e1
  | @thrown S S' h t q k _ lg nc e i u ih =>
    rcases call_outcome ih q lg nc k with ⟨h1, k1, e1, _, R1⟩ | ⟨t1, S1, e1, i1, R1⟩
    · rw [e] at e1; cases e1
    · rw [e] at e1; cases e1
      exact interrupted_unique i1 i R1 u ▸ R1
  | env _ e ih => exact .env ih e

/-- Programs with exceptions never get stuck: every legal call returns or throws, and the program goes on. -/
theorem XReach.goes_on (X : XReach S h) (q : Call T) (lg : Legal S q) (nc : ¬ Constructs q) (k : Nat) :
    (∃ h' k', exec q k h = .ok (.ret () k', h') ∧ XReach (spec S h.fresh q) h') ∨ (∃ t S', exec q k h = .ok (.thrown, t) ∧ XReach S' t) := by
  rcases call_outcome X.reach q lg nc k with ⟨h1, k1, e1, _, _⟩ | ⟨t1, S1, e1, i, R1⟩
  · exact .inl ⟨h1, k1, e1, .returned q k k1 X lg nc e1⟩
  · exact .inr ⟨t1, S1, e1, .thrown q k X lg nc e1 i fun c hc => reach_shows R1 hc⟩

/-! ## Single members, in terms of what a client sees -/

/-- **C126, strong guarantee.** If `push_back` throws, the memory is exactly what it was. -/
theorem push_back_strong (c : Addr) (v : T) (h : Heap T) : exec (.pushBack c v) 0 h = .ok (.thrown, h) := rfl

/-- **C126, strong guarantee.** If `push_front` throws, the memory is exactly what it was. -/
theorem push_front_strong (R : Reach S h) (hc : S.Exists c) (v : T) : exec (.pushFront c v) 0 h = .ok (.thrown, h) := by
  obtain ⟨s, q⟩ := hc
  have lv := (World.laid R.world q).2.1
  simp only [exec, pushFront, Thr.bind_app, Thr.call_app, getNext_eq lv, Res.bind_ok, Thr.after_ret, newNode, Thr.point_zero, Thr.after_thrown]

/-- **C126, strong guarantee.** If `insert(pos, v)` throws, the memory is exactly what it was. -/
theorem insert_strong (R : Reach S h) (hc : S.Exists c) (hs : Shows h c es) {i : Nat} (hi : i ≤ es.length) (v : T) :
    exec (.insert c i v) 0 h = .ok (.thrown, h) := by
  simp only [exec, Thr.bind_app, Thr.call_app, iterAt_any R hc hs hi, Res.bind_ok, Thr.after_ret, insert, newNode, Thr.point_zero, Thr.after_thrown]

theorem merge_sublists {α : Type} (le : α → α → Bool) : ∀ xs ys : List α, xs.Sublist (List.merge xs ys le) ∧ ys.Sublist (List.merge xs ys le)
  | [], ys => by simp
  | x :: xs, [] => by simp
  | x :: xs, y :: ys => by
    rw [List.cons_merge_cons]
    split
    · have := merge_sublists le xs (y :: ys)
      exact ⟨this.1.cons_cons _, this.2.cons _⟩
    · have := merge_sublists le (x :: xs) ys
      exact ⟨this.1.cons _, this.2.cons_cons _⟩

/-- An exception that changed only the list `c`. -/
theorem one_interrupted (R : Reach S h) {t : Heap T} {es' : List (Addr × T)} (R' : Reach (S.put c es') t) :
    Shows t c es' ∧ OthersKept S h t [c] := by
  refine ⟨by have := reach_shows R' (put_exists S c es'); rwa [put_get] at this, ?_⟩
  intro d hd hx fs hf
  have hd : d ≠ c := by simpa using hd
  have := reach_shows R' (c := d) (by obtain ⟨s, q⟩ := hx; exact ⟨s, by rw [put_other S es' hd]; exact q⟩)
  rwa [put_get_other S es' hd, get_shown R hx hf] at this

/-- **C126, basic guarantee.** If the copy of element `k` throws in `insert(pos, first, last)`, the first `k` values have been inserted, in new nodes
immediately before `pos`, and nothing else has changed. -/
theorem insert_range_interrupted (R : Reach S h) (hc : S.Intact c) (hs : Shows h c es) {i : Nat} (hi : i ≤ es.length) (vs : List T) {k : Nat}
    (hk : k < vs.length) :
    ∃ t ns, exec (.insertVals c i vs) k h = .ok (.thrown, t) ∧ Shows t c (es.take i ++ (ns ++ es.drop i)) ∧ NewNodes h ns (vs.take k) ∧
      OthersKept S h t [c] := by
  have hg := get_shown R (intact_ex hc) hs
  have it := iterAt_any R (intact_ex hc) hs hi
  have lg : Legal S (.insertVals c i vs) := ⟨hc, by rw [hg]; exact hi⟩
  obtain ⟨h', e, R'⟩ := call_returns R _ lg
  simp only [DList.exec, Prog.bind_app, it, Res.bind_ok] at e
  obtain ⟨t, x, y⟩ := (insertVals_points vs e).throws k hk
  have y := reach_prefix R hc (by rw [hg]; exact hi) (by rw [hg]; exact y)
  rw [hg] at y
  obtain ⟨s1, s2⟩ := one_interrupted R y
  refine ⟨t, _, ?_, s1, newNodes R (Nat.le_refl _) _, s2⟩
  simp only [exec, Thr.bind_app, Thr.call_app, it, Res.bind_ok, Thr.after_ret, x]

/-- **C126, basic guarantee.** If the predicate throws at element `k` in `remove_if(p)`, the first `k` elements have been dealt with and the others are
still there. -/
theorem remove_if_interrupted (R : Reach S h) (hc : S.Intact c) (hs : Shows h c es) (p : T → Bool) {k : Nat} (hk : k < es.length) :
    ∃ t, exec (.removeIf c p) k h = .ok (.thrown, t) ∧ Shows t c ((es.take k).filter (fun e => !p e.2) ++ es.drop k) ∧ OthersKept S h t [c] := by
  have hg := get_shown R (intact_ex hc) hs
  have r := intact_ring R hc
  obtain ⟨h', e, R'⟩ := call_returns R (.removeIf c p) hc
  have l1 : h.live (posOf c ((S.get c).map Prod.fst)) = true := (show Ring h c ([] ++ S.get c) from r).pos_live.1
  simp only [DList.exec, DList.removeIf, Prog.bind_app, getNext_eq r.head, Res.bind_ok, r.next_head, getNext_eq l1] at e
  obtain ⟨t, x, y⟩ := (removeLoop_points (A := []) (S.get c) R (intact_get hc) _ (fun _ => rfl) e).throws k (by rw [hg]; exact hk)
  rw [hg] at y
  obtain ⟨s1, s2⟩ := one_interrupted R y
  refine ⟨t, ?_, s1, s2⟩
  simp only [exec, removeIf, Thr.bind_app, Thr.call_app, getNext_eq r.head, Res.bind_ok, Thr.after_ret, r.next_head, getNext_eq l1, x]

/-- **C126, basic guarantee.** If a comparison throws in `c.merge(d)`, the lists are intact and together contain the elements they contained, in their
nodes: `d` keeps its elements from some index on, and the others have been merged into `c`. -/
theorem merge_interrupted (R : Reach S h) (hc : S.Intact c) (hd : S.Intact d) (hcd : c ≠ d) (hs : Shows h c es) (hf : Shows h d fs) {lt : T → T → Bool}
    (so : SortedBy lt fs) (k : Nat) :
    (∃ k' h', exec (.merge c d lt) k h = .ok (.ret () k', h') ∧ Shows h' c (List.merge es fs fun x y => !lt y.2 x.2) ∧ Shows h' d []) ∨
    (∃ t gs j, exec (.merge c d lt) k h = .ok (.thrown, t) ∧ Shows t c gs ∧ Shows t d (fs.drop j) ∧ (gs ++ fs.drop j).Perm (es ++ fs) ∧ es.Sublist gs ∧
      (fs.take j).Sublist gs ∧ OthersKept S h t [c, d]) := by
  have hg := get_shown R (intact_ex hc) hs
  have hg' := get_shown R (intact_ex hd) hf
  have lg : Legal S (.merge c d lt) := ⟨hc, hd, hcd, by rw [hg']; exact so⟩
  rcases call_outcome R (.merge c d lt) lg (fun x => x) k with ⟨h', k', x, e, R'⟩ | ⟨t, S', x, ⟨j, hj, rfl⟩, R'⟩
  · left
    obtain ⟨h1, e1, _, s1, s2, _⟩ := two_lists (c := c) (d := d) R (.merge c d lt) lg hcd rfl
    rw [e] at e1; cases e1
    rw [hg, hg'] at s1
    exact ⟨k', h', x, s1, s2⟩
  · right
    rw [hg, hg'] at R'
    refine ⟨t, List.merge es (fs.take j) fun x y => !lt y.2 x.2, j, x, ?_, ?_, ?_, ?_, ?_, ?_⟩
    · have := reach_shows R' (c := c) ⟨_, by rw [put_other _ _ hcd]; exact put_same S c _⟩
      rwa [put_get_other _ _ hcd, put_get] at this
    · have := reach_shows R' (put_exists _ d _); rwa [put_get] at this
    · refine ((List.merge_perm_append _).append_right _).trans ?_
      rw [List.append_assoc, List.take_append_drop]
    · exact (merge_sublists _ es (fs.take j)).1
    · exact (merge_sublists _ es (fs.take j)).2
    · intro x hx he gs hf
      simp only [List.mem_cons, List.not_mem_nil, or_false, not_or] at hx
      have := reach_shows R' (c := x) (by obtain ⟨s, q⟩ := he; exact ⟨s, by rw [put_other _ _ hx.2, put_other _ _ hx.1]; exact q⟩)
      rwa [put_get_other _ _ hx.2, put_get_other _ _ hx.1, get_shown R he hf] at this

end Verif.Exc.XList
