import Verif.Exc.ListModel
/-!
# `ttl::list` when something throws: what every exception leaves behind
-/
set_option linter.unusedVariables false
set_option linter.unusedSimpArgs false
set_option linter.unusedSectionVars false
namespace Verif.Exc.XList
open Verif Verif.Seq Verif.Seq.DList Verif.Seq.ListProps Verif.Exc
variable {T : Type}

theorem newNode_points {h : Heap T} {v : T} {P : Nat → Heap T → Prop} (p : P 0 h) : Points (newNode v) h 1 h.fresh
    { h with val := upd h.val h.fresh (some v), live := upd h.live h.fresh true, fresh := h.fresh + 1 } P :=
  Points.seq_call (Points.point_ p) rfl

theorem insertVals_points {pos : Addr} : ∀ (vs : List T) {h h' : Heap T}, DList.insertVals pos vs h = .ok ((), h') →
    Points (insertVals pos vs) h vs.length () h' fun k t => DList.insertVals pos (vs.take k) h = .ok ((), t)
  | [], h, h', q => by cases q; exact Points.pure_
  | v :: vs, h, h', q => by
    rw [List.length_cons, Nat.add_comm]
    simp only [DList.insertVals, Prog.bind_app, newNode_eq, Res.bind_ok] at q
    refine Points.seq (newNode_points rfl) ?_
    cases g : insertBefore pos h.fresh { h with val := upd h.val h.fresh (some v), live := upd h.live h.fresh true, fresh := h.fresh + 1 } with
    | ub f => rw [g] at q; cases q
    | diverge => rw [g] at q; cases q
    | ok y =>
      obtain ⟨a, h1⟩ := y
      rw [g] at q
      refine Points.call_seq g ((insertVals_points vs q).imp fun k t l e => ?_)
      rw [Nat.add_comm 1 k, List.take_succ_cons]
      simp only [DList.insertVals, Prog.bind_app, newNode_eq, Res.bind_ok, g, e]

theorem insertN_eq : ∀ (n : Nat) (p : Addr) (v : T), insertN p n v = insertVals p (List.replicate n v)
  | 0, p, v => rfl
  | n + 1, p, v => by
    simp only [insertN, List.replicate_succ, insertVals, insertN_eq n p v]

theorem insertN_points {pos : Addr} {n : Nat} {v : T} {h h' : Heap T} (q : DList.insertN pos n v h = .ok ((), h')) :
    Points (insertN pos n v) h n () h' fun k t => DList.insertN pos k v h = .ok ((), t) := by
  rw [DList.insertN_eq] at q
  rw [insertN_eq]
  have := insertVals_points _ q
  rw [List.length_replicate] at this
  refine this.imp fun k t l e => ?_
  rw [DList.insertN_eq]
  rw [List.take_replicate, Nat.min_eq_left (Nat.le_of_lt l)] at e
  exact e

/-- The loop over list iterators is the loop over the values (compare `insertNodes_run`). -/
theorem insertNodes_run : ∀ (es : List (Addr × T)) {h : Heap T} {pos f l : Addr}, Wf h → h.live pos = true → h.live (h.prev pos) = true →
    Run h f es l → (∀ e ∈ es, e.1 ≠ h.prev pos) → ∀ k, insertNodes pos f l k h = insertVals pos (es.map Prod.snd) k h
  | [], h, pos, f, l, w, lp, lq, r, hd, k => by
    rw [insertNodes]; simp only [Run] at r; simp [r, insertVals]
  | e :: es, h, pos, f, l, w, lp, lq, r, hd, 0 => by
    obtain ⟨rfl, r2, r3, r4, r5⟩ := r
    rw [insertNodes]
    simp only [Thr.ite_app, ne_eq, r2, not_false_eq_true, if_true, Thr.bind_app, Thr.call_app, getVal_eq r3 r4, Res.bind_ok, Thr.after_ret, newNode,
      Thr.point_zero, Thr.after_thrown, List.map_cons, insertVals]
  | e :: es, h, pos, f, l, w, lp, lq, r, hd, k + 1 => by
    obtain ⟨rfl, r2, r3, r4, r5⟩ := r
    have np := w.ne_fresh lp
    have nq := w.ne_fresh lq
    let h1 : Heap T := { h with val := upd h.val h.fresh (some e.2), live := upd h.live h.fresh true, fresh := h.fresh + 1 }
    have l1 : ∀ x, h.live x = true → h1.live x = true := by
      intro x hx; show upd h.live h.fresh true x = true; rw [upd_other _ _ (w.ne_fresh hx)]; exact hx
    have lf : h1.live h.fresh = true := upd_same _ _ _
    have ib := insertBefore_eq (h := h1) (p := pos) (n := h.fresh) (l1 _ lp) (l1 _ lq) lf
    let h2 := insB h1 pos h.fresh
    have kk : ∀ x ∈ e :: es, h2.next x.1 = h.next x.1 ∧ h2.val x.1 = h.val x.1 ∧ h2.live x.1 = h.live x.1 := by
      intro x hx
      have xl : h.live x.1 = true := (Run.live (f := e.1) (l := l) (es := e :: es) ⟨rfl, r2, r3, r4, r5⟩ x hx).1
      have x1 := w.ne_fresh xl
      have x2 := hd x hx
      refine ⟨?_, upd_other _ _ x1, upd_other _ _ x1⟩
      show upd (upd h.next (h.prev pos) h.fresh) h.fresh pos x.1 = _
      rw [upd_other _ _ x1, upd_other _ _ x2]
    have w2 : Wf h2 := by
      refine ⟨Nat.succ_pos _, ?_, ?_⟩
      · show upd h.live h.fresh true 0 = false
        rw [upd_other _ _ (Nat.ne_of_lt w.pos)]; exact w.null
      · intro x hx
        by_cases q : x = h.fresh
        · rw [q]; exact Nat.lt_succ_self _
        · have : upd h.live h.fresh true x = true := hx
          rw [upd_other _ _ q] at this; exact Nat.lt_succ_of_lt (w.used x this)
    have p2 : h2.prev pos = h.fresh := upd_same _ _ _
    have rr : Run h2 (h2.next e.1) es l := by
      rw [(kk e (by simp)).1]; exact r5.frame fun x hx => kk x (List.mem_cons_of_mem _ hx)
    have ih := insertNodes_run es (pos := pos) w2 (l1 _ lp) (by rw [p2]; exact lf) rr (by
      intro x hx
      rw [p2]
      exact w.ne_fresh (Run.live (f := e.1) (l := l) (es := e :: es) ⟨rfl, r2, r3, r4, r5⟩ x (List.mem_cons_of_mem _ hx)).1) k
    have l2 : h2.live e.1 = true := by rw [(kk e (by simp)).2.2]; exact r3
    rw [insertNodes]
    simp only [Thr.ite_app, ne_eq, r2, not_false_eq_true, if_true, Thr.bind_app, Thr.call_app, getVal_eq r3 r4, Res.bind_ok, Thr.after_ret, newNode,
      Thr.point_succ, newNode_eq, List.map_cons, insertVals]
    change ((insertBefore pos h.fresh h1).bind _).bind _ = ((insertBefore pos h.fresh h1).bind _).bind _
    rw [ib]
    simp only [Res.bind_ok, Thr.after_ret]
    change (((getNext e.1 h2).bind _).bind _) = _
    rw [getNext_eq l2]
    exact ih

/-! ## resize -/

theorem resizeLoop_points {c : Addr} {v : T} : ∀ (R : List (Addr × T)) {h h' : Heap T} {A : List (Addr × T)} (n : Nat), Ring h c (A ++ R) →
    DList.resizeLoop c (posOf c (R.map Prod.fst)) A.length n v h = .ok ((), h') →
    A.length < n ∨ n = 0 →
    Points (resizeLoop c (posOf c (R.map Prod.fst)) A.length n v) h (n - (A ++ R).length) () h' fun k t => DList.insertN c k v h = .ok ((), t)
  | [], h, h', A, n, r, q, hn => by
    rw [DList.resizeLoop] at q
    rw [resizeLoop, List.append_nil]
    simp only [List.map_nil, posOf_nil, ne_eq, not_true_eq_false, if_false] at q ⊢
    exact insertN_points q
  | e :: R, h, h', A, n, r, q, hn => by
    have hne : e.1 ≠ c := fun q => r.laid.stop (by simp [q])
    have hl : Links h c (A.map Prod.fst ++ e.1 :: R.map Prod.fst) := by have := r.links; simpa using this
    have le := (r.data e (by simp)).1
    rw [DList.resizeLoop] at q
    rw [resizeLoop]
    simp only [List.map_cons, posOf_cons, if_pos hne] at q ⊢
    by_cases hl' : A.length + 1 = n
    · rw [if_pos hl'] at q ⊢
      have : n - (A ++ e :: R).length = 0 := by simp; omega
      rw [this]
      exact Points.call_ q
    · rw [if_neg hl'] at q ⊢
      simp only [Prog.bind_app, getNext_eq le, Res.bind_ok, hl.at_node.1] at q
      have ih := resizeLoop_points R (A := A ++ [e]) n (by simpa using r) (by simpa using q) (by rcases hn with hn | hn <;> simp <;> omega)
      refine Points.call_seq (getNext_eq le) ?_
      rw [hl.at_node.1]
      simpa using ih

/-! ## remove, unique, merge -/
variable {S : State T} {h h' : Heap T} {c d : Addr} {es fs : List (Addr × T)}

theorem put_self (q : S c = some (.ring es)) : S.put c es = S := by
  funext x
  by_cases e : x = c
  · subst e; rw [put_same, q]
  · rw [put_other S es e]

theorem put_put (S : State T) (c : Addr) (es fs : List (Addr × T)) : (S.put c es).put c fs = S.put c fs := by
  funext x
  by_cases e : x = c
  · subst e; rw [put_same, put_same]
  · rw [put_other _ _ e, put_other _ _ e, put_other _ _ e]

theorem put_comm (S : State T) (hcd : c ≠ d) (es fs : List (Addr × T)) : (S.put c es).put d fs = (S.put d fs).put c es := by
  funext x
  by_cases e : x = c
  · subst e; rw [put_same, put_other _ _ hcd, put_same]
  · rw [put_other _ es e]
    by_cases f : x = d
    · subst f; rw [put_same, put_same]
    · rw [put_other _ _ f, put_other _ _ e, put_other _ _ f]

/-- Unlinking and deleting a node is `erase`. -/
theorem reach_unlinked (R : Reach S h) {A B : List (Addr × T)} {e : Addr × T} (q : S c = some (.ring (A ++ e :: B))) :
    ∃ h1, unlink e.1 h = .ok ((), unl h e.1) ∧ delete e.1 (unl h e.1) = .ok ((), h1) ∧ Reach (S.put c (A ++ B)) h1 := by
  have r := World.ring R.world q
  obtain ⟨h1, u, d, l, nx, r1, ef, fr, _, _⟩ := unlink_delete_ok (A := A) (B := B) R.world.wf r
  refine ⟨h1, u, d, ?_⟩
  have lg : Legal S (.erase c A.length) := ⟨⟨_, q⟩, by rw [State.get_ring q]; simp⟩
  have ex : DList.exec (.erase c A.length) h = .ok ((), h1) := by
    simp only [DList.exec, Prog.bind_app, iterAt_ok r (show A.length ≤ _ by simp), Res.bind_ok, List.drop_left, List.map_cons, posOf_cons, erase,
      getNext_eq l, u, d, Prog.pure_app]
  have := Reach.step _ R lg ex
  have e : spec S h.fresh (.erase c A.length) = S.put c (A ++ B) := by
    show S.put c _ = _
    rw [State.get_ring q, List.eraseIdx_append_of_length_le (Nat.le_refl _), Nat.sub_self]; rfl
  rwa [e] at this

theorem removeLoop_points {test : T → Bool} : ∀ (B : List (Addr × T)) {A : List (Addr × T)} {S : State T} {h h' : Heap T}, Reach S h →
    S c = some (.ring (A ++ B)) → ∀ n, (B ≠ [] → n = h.next (posOf c (B.map Prod.fst))) →
    DList.removeLoop c (fun v => pure (test v)) (posOf c (B.map Prod.fst)) n h = .ok ((), h') →
    Points (removeLoop c test (posOf c (B.map Prod.fst)) n) h B.length () h' fun k t =>
      Reach (S.put c (A ++ ((B.take k).filter (fun e => !test e.2) ++ B.drop k))) t
  | [], A, S, h, h', R, q, n, hn, m => by
    rw [DList.removeLoop] at m
    rw [removeLoop]
    simp only [List.map_nil, posOf_nil, ne_eq, not_true_eq_false, if_false, List.length_nil] at m ⊢
    cases m
    exact Points.pure_
  | e :: B, A, S, h, h', R, q, n, hn, m => by
    have r := World.ring R.world q
    have hn := hn (by simp)
    have hne : e.1 ≠ c := fun q => r.laid.stop (by simp [q])
    have hl : Links h c (A.map Prod.fst ++ e.1 :: B.map Prod.fst) := by have := r.links; simpa using this
    obtain ⟨le, ve⟩ := r.data e (by simp)
    simp only [List.map_cons, posOf_cons, hl.at_node.1] at hn
    subst hn
    rw [DList.removeLoop] at m
    rw [removeLoop, List.length_cons, Nat.add_comm]
    simp only [List.map_cons, posOf_cons, if_pos hne, Prog.bind_app, getVal_eq le ve, Res.bind_ok, Prog.pure_app] at m ⊢
    refine Points.call_seq (getVal_eq le ve) (Points.seq (Points.point_ ?_) ?_)
    · simp only [List.take_zero, List.filter_nil, List.nil_append, List.drop_zero]
      rw [put_self q]; exact R
    · cases hp : test e.2 with
      | true =>
        obtain ⟨h1, u, dl, R1⟩ := reach_unlinked R q
        have l1 : h1.live (posOf c (B.map Prod.fst)) = true := (World.ring R1.world (put_same S c (A ++ B))).pos_live.1
        simp only [hp, if_true, Prog.bind_app, u, dl, Res.bind_ok, getNext_eq l1] at m
        rw [if_pos rfl]
        refine Points.call_seq u (Points.call_seq dl (Points.call_seq (getNext_eq l1) ?_))
        refine (removeLoop_points B R1 (put_same S c (A ++ B)) _ (fun _ => rfl) m).imp fun k t lk rt => ?_
        rw [put_put] at rt
        rw [Nat.add_comm 1 k, List.take_succ_cons, List.drop_succ_cons, List.filter_cons_of_neg (by simp [hp])]
        exact rt
      | false =>
        have r2 : Ring h c ((A ++ [e]) ++ B) := by simpa using r
        have l1 : h.live (posOf c (B.map Prod.fst)) = true := r2.pos_live.1
        simp only [hp, Bool.false_eq_true, if_false, Prog.bind_app, Res.bind_ok, getNext_eq l1] at m
        rw [if_neg (by simp)]
        refine Points.call_seq (getNext_eq l1) ?_
        refine (removeLoop_points B (A := A ++ [e]) R (by simpa using q) _ (fun _ => rfl) m).imp fun k t lk rt => ?_
        rw [Nat.add_comm 1 k, List.take_succ_cons, List.drop_succ_cons, List.filter_cons_of_pos (by simp [hp])]
        simpa using rt

theorem uniqueLoop_points {pred : T → T → Bool} : ∀ (B : List (Addr × T)) {A : List (Addr × T)} {g : Addr × T} {S : State T} {h h' : Heap T},
    Reach S h → S c = some (.ring (A ++ g :: B)) → ∀ n, (B ≠ [] → n = h.next (posOf c (B.map Prod.fst))) →
    DList.uniqueLoop c pred g.1 (posOf c (B.map Prod.fst)) n h = .ok ((), h') →
    Points (uniqueLoop c pred g.1 (posOf c (B.map Prod.fst)) n) h B.length () h' fun k t =>
      Reach (S.put c (A ++ g :: (dedup pred g (B.take k) ++ B.drop k))) t
  | [], A, g, S, h, h', R, q, n, hn, m => by
    rw [DList.uniqueLoop] at m
    rw [uniqueLoop]
    simp only [List.map_nil, posOf_nil, ne_eq, not_true_eq_false, if_false, List.length_nil] at m ⊢
    cases m
    exact Points.pure_
  | e :: B, A, g, S, h, h', R, q, n, hn, m => by
    have q0 : S c = some (.ring ((A ++ [g]) ++ e :: B)) := by simpa using q
    have r := World.ring R.world q0
    have hn := hn (by simp)
    have hne : e.1 ≠ c := fun q => r.laid.stop (by simp [q])
    have hl : Links h c ((A ++ [g]).map Prod.fst ++ e.1 :: B.map Prod.fst) := by have := r.links; simpa using this
    obtain ⟨le, ve⟩ := r.data e (by simp)
    obtain ⟨lg, vg⟩ := r.data g (by simp)
    simp only [List.map_cons, posOf_cons, hl.at_node.1] at hn
    subst hn
    rw [DList.uniqueLoop] at m
    rw [uniqueLoop, List.length_cons, Nat.add_comm]
    simp only [List.map_cons, posOf_cons, if_pos hne, Prog.bind_app, getVal_eq le ve, getVal_eq lg vg, Res.bind_ok, Prog.pure_app] at m ⊢
    refine Points.call_seq (getVal_eq le ve) (Points.call_seq (getVal_eq lg vg) (Points.seq (Points.point_ ?_) ?_))
    · simp only [List.take_zero, dedup, List.nil_append, List.drop_zero]
      rw [put_self q]; exact R
    · cases hp : pred e.2 g.2 with
      | true =>
        obtain ⟨h1, u, dl, R1⟩ := reach_unlinked R q0
        have l1 : h1.live (posOf c (B.map Prod.fst)) = true := (World.ring R1.world (put_same S c _)).pos_live.1
        simp only [hp, if_true, Prog.bind_app, u, dl, Res.bind_ok, getNext_eq l1] at m
        rw [if_pos rfl]
        refine Points.call_seq u (Points.call_seq dl (Points.call_seq (getNext_eq l1) ?_))
        refine (uniqueLoop_points B (A := A) R1 (by rw [put_same]; simp) _ (fun _ => rfl) m).imp fun k t lk rt => ?_
        rw [put_put] at rt
        rw [Nat.add_comm 1 k, List.take_succ_cons, List.drop_succ_cons, dedup, if_pos hp]
        exact rt
      | false =>
        have r2 : Ring h c ((A ++ [g] ++ [e]) ++ B) := by simpa using r
        have l1 : h.live (posOf c (B.map Prod.fst)) = true := r2.pos_live.1
        simp only [hp, Bool.false_eq_true, if_false, Prog.bind_app, Res.bind_ok, getNext_eq l1] at m
        rw [if_neg (by simp)]
        refine Points.call_seq (getNext_eq l1) ?_
        refine (uniqueLoop_points B (A := A ++ [g]) (g := e) R q0 _ (fun _ => rfl) m).imp fun k t lk rt => ?_
        rw [Nat.add_comm 1 k, List.take_succ_cons, List.drop_succ_cons, dedup, if_neg (by simp [hp])]
        simpa using rt

/-- Unlinking the first node of `d` and linking it in front of a node of `c` is `splice` of one element. -/
theorem reach_moved (R : Reach S h) (hcd : c ≠ d) {A B O : List (Addr × T)} {e i : Addr × T} (q : S c = some (.ring (A ++ i :: B)))
    (qd : S d = some (.ring (e :: O))) :
    ∃ h1, unlink e.1 h = .ok ((), unl h e.1) ∧ insertBefore i.1 e.1 (unl h e.1) = .ok (e.1, h1) ∧ h.next e.1 = posOf d (O.map Prod.fst) ∧
      Reach ((S.put c (A ++ e :: i :: B)).put d O) h1 := by
  have r := World.ring R.world q
  have s := World.ring R.world qd
  have dj := R.world.disj c _ d _ q qd hcd
  obtain ⟨h1, u, ib, nx, r1, s1, rl⟩ := move_ok r s dj
  refine ⟨h1, u, ib, nx, ?_⟩
  have lg : Legal S (.spliceOne c A.length d 0) :=
    ⟨⟨_, q⟩, ⟨_, qd⟩, by rw [State.get_ring q]; simp, by rw [State.get_ring qd]; simp, fun x => absurd x hcd⟩
  have sp : spec S h.fresh (.spliceOne c A.length d 0) = (S.put c (A ++ e :: i :: B)).put d O := by
    show (if c = d then _ else _) = _
    rw [if_neg hcd, State.get_ring q, State.get_ring qd]
    simp [insertAt, slice, cut]
  -- the cells involved
  have hls : Links h d ([] ++ e.1 :: O.map Prod.fst) := s.links
  obtain ⟨_, pe⟩ := hls.at_node
  have pe : h.prev e.1 = d := by simpa using pe
  obtain ⟨le, _⟩ := s.data e (by simp)
  obtain ⟨li, _⟩ := r.data i (by simp)
  obtain ⟨m1, m2⟩ := r.pos_cells (A := A) (B := i :: B)
  change i.1 ∈ _ at m1; change h.prev i.1 ∈ _ at m2
  have me : e.1 ∈ cells d (e :: O) := by simp [cells]
  have md : d ∈ cells d (e :: O) := by simp [cells]
  have mn : h.next e.1 ∈ cells d (e :: O) := by rw [nx]; cases O <;> simp [cells]
  have pn : h.prev (h.next e.1) = e.1 := by
    rw [nx]
    have : Links h d ((e.1 :: []) ++ O.map Prod.fst) := hls
    exact Links.prev_last this
  have hn := s.nodup
  have ned : e.1 ≠ d := fun x => by simp [x] at hn
  have nne : h.next e.1 ≠ e.1 := by
    rw [nx]
    cases O with
    | nil => exact fun x => ned x.symm
    | cons o O => intro x; change o.1 = e.1 at x; simp [x] at hn
  have i_e : i.1 ≠ e.1 := fun x => dj _ m1 (x ▸ me)
  have i_n : i.1 ≠ h.next e.1 := fun x => dj _ m1 (x ▸ mn)
  have p_e : h.prev i.1 ≠ e.1 := fun x => dj _ m2 (x ▸ me)
  have p_d : h.prev i.1 ≠ d := fun x => dj _ m2 (x ▸ md)
  have eq := nodeSplice_eq (h := h) (p := i.1) (f := e.1) (l := h.next e.1) li le (s.live _ mn) (r.live _ m2) (by rw [pe]; exact s.head)
    (by rw [pn]; exact le) (Ne.symm i_e)
  have ib' := insertBefore_eq (h := unl h e.1) (p := i.1) (n := e.1) li
    (by show h.live (upd h.prev (h.next e.1) (h.prev e.1) i.1) = true; rw [upd_other _ _ i_n]; exact r.live _ m2) le
  have same : spl h i.1 e.1 (h.next e.1) = h1 := by
    rw [ib'] at ib; cases ib
    have p1 : (unl h e.1).prev i.1 = h.prev i.1 := upd_other _ _ i_n
    unfold spl insB
    rw [p1, pn, pe]
    have a : upd (upd (upd h.next e.1 i.1) d (h.next e.1)) (h.prev i.1) e.1 = upd (upd (unl h e.1).next (h.prev i.1) e.1) e.1 i.1 := by
      funext x
      simp only [unl, upd, pe]
      grind
    have b : upd (upd (upd h.prev i.1 e.1) (h.next e.1) d) e.1 (h.prev i.1) = upd (upd (unl h e.1).prev e.1 (h.prev i.1)) i.1 e.1 := by
      funext x
      simp only [unl, upd, pe]
      grind
    rw [a, b]; rfl
  have ex : DList.exec (.spliceOne c A.length d 0) h = .ok ((), h1) := by
    simp only [DList.exec, Prog.bind_app, iterAt_ok r (show A.length ≤ _ by simp), iterAt_ok s (Nat.zero_le _), Res.bind_ok, List.drop_left, List.drop_zero,
      List.map_cons, posOf_cons, spliceOne, Prog.ite_app]
    rw [if_pos (Ne.symm i_e)]
    simp only [Prog.bind_app, getNext_eq le, Res.bind_ok, eq, same]
  have := Reach.step _ R lg ex
  rwa [sp] at this

/-- The number of comparisons of merging the values `os` into the values `bs`: after an element was moved, the next one is first compared with it again
(ttl/list.hpp:480, `i = o`). -/
def mergeCompares (lt : T → T → Bool) : List T → List T → Nat
  | [], _ => 0
  | _ :: _, [] => 0
  | o :: os, b :: bs => if lt o b then 1 + mergeCompares lt os (o :: b :: bs) else 1 + mergeCompares lt (o :: os) bs
termination_by os bs => 2 * os.length + bs.length
decreasing_by all_goals (simp only [List.length_cons]; omega)

theorem mergeLoop_points {lt : T → T → Bool} (hcd : c ≠ d) : ∀ (m : Nat) {A B O : List (Addr × T)} {S : State T} {h h' : Heap T},
    2 * O.length + B.length = m → Reach S h → S c = some (.ring (A ++ B)) → S d = some (.ring O) →
    DList.mergeLoop c d lt (posOf d (O.map Prod.fst)) (posOf c (B.map Prod.fst)) h = .ok ((), h') →
    Points (mergeLoop c d lt (posOf d (O.map Prod.fst)) (posOf c (B.map Prod.fst))) h (mergeCompares lt (O.map Prod.snd) (B.map Prod.snd)) () h' fun k t =>
      ∃ j, j ≤ O.length ∧ Reach ((S.put c (A ++ mergeSeq lt (O.take j) B)).put d (O.drop j)) t := by
  intro m
  induction m using Nat.strongRecOn with
  | _ m ih =>
  intro A B O S h h' hm R q qd e
  have r := World.ring R.world q
  have s := World.ring R.world qd
  rw [DList.mergeLoop] at e
  rw [mergeLoop]
  cases O with
  | nil =>
    simp only [List.map_nil, posOf_nil, ne_eq, not_true_eq_false, false_and, if_false] at e ⊢
    cases e
    rw [mergeCompares]; exact Points.pure_
  | cons o O =>
    have ho : o.1 ≠ d := fun q => s.laid.stop (by simp [q])
    cases B with
    | nil =>
      simp only [List.map_nil, posOf_nil, List.map_cons, posOf_cons] at e ⊢
      rw [if_neg (by simp), if_pos ho] at e ⊢
      simp only [Prog.bind_app, getNext_eq s.head, Res.bind_ok] at e
      rw [mergeCompares]
      exact Points.call_seq (getNext_eq s.head) (Points.call_ e)
    | cons i B =>
      have hi : i.1 ≠ c := fun q => r.laid.stop (by simp [q])
      obtain ⟨lo, vo⟩ := s.data o (by simp)
      obtain ⟨li, vi⟩ := r.data i (by simp)
      simp only [List.map_cons, posOf_cons] at e ⊢
      rw [if_pos ⟨ho, hi⟩] at e ⊢
      simp only [Prog.bind_app, getVal_eq lo vo, getVal_eq li vi, Res.bind_ok] at e
      have p0 : ∃ j, j ≤ (o :: O).length ∧ Reach ((S.put c (A ++ mergeSeq lt ((o :: O).take j) (i :: B))).put d ((o :: O).drop j)) h := by
        refine ⟨0, Nat.zero_le _, ?_⟩
        rw [List.take_zero, List.drop_zero, mergeSeq, put_self q, put_self qd]
        exact R
      by_cases hlt : lt o.2 i.2 = true
      · rw [if_pos hlt] at e
        obtain ⟨h1, u, ib, nx, R1⟩ := reach_moved R hcd q qd
        simp only [Prog.bind_app, getNext_eq lo, Res.bind_ok, u, ib, nx] at e
        have X := ih (2 * O.length + (o :: i :: B).length) (by simp at hm ⊢; omega) (A := A) (B := o :: i :: B) rfl R1
          (by rw [put_other _ _ hcd, put_same]) (put_same _ _ _) e
        rw [mergeCompares, if_pos hlt]
        refine Points.call_seq (getVal_eq lo vo) (Points.call_seq (getVal_eq li vi) (Points.seq (Points.point_ p0) ?_))
        rw [if_pos hlt]
        refine Points.call_seq (getNext_eq lo) (Points.call_seq u (Points.call_seq ib ?_))
        rw [nx]
        refine X.imp fun k t lk ⟨j, hj, rt⟩ => ⟨j + 1, by simpa using hj, ?_⟩
        rw [put_comm _ (Ne.symm hcd), put_put, put_put] at rt
        rw [List.take_succ_cons, List.drop_succ_cons, mergeSeq, if_pos hlt, put_comm _ hcd]
        rw [put_comm _ hcd] at rt
        exact rt
      · rw [if_neg hlt] at e
        have hl : Links h c (A.map Prod.fst ++ i.1 :: B.map Prod.fst) := by have := r.links; simpa using this
        simp only [Prog.bind_app, getNext_eq li, Res.bind_ok, hl.at_node.1] at e
        have X := ih (2 * (o :: O).length + B.length) (by simp at hm ⊢; omega) (A := A ++ [i]) (B := B) rfl R
          (by simpa using q) qd e
        rw [mergeCompares, if_neg hlt]
        refine Points.call_seq (getVal_eq lo vo) (Points.call_seq (getVal_eq li vi) (Points.seq (Points.point_ p0) ?_))
        rw [if_neg hlt]
        refine Points.call_seq (getNext_eq li) ?_
        rw [hl.at_node.1]
        refine X.imp fun k t lk ⟨j, hj, rt⟩ => ⟨j, hj, ?_⟩
        cases j with
        | zero => simpa [mergeSeq] using rt
        | succ j =>
          rw [List.take_succ_cons] at rt ⊢
          rw [mergeSeq, if_neg hlt]
          simpa using rt

end Verif.Exc.XList
