import Verif.Seq.BwdProps
import Verif.Seq.FwdProps2
/-!
# Properties of `ttl::backward_list`, continued: defects, copies, swap, comparison, memory; concrete cases

The defects all concern `tail_`: the member functions that leave it at the wrong place are named here, with what a client sees.
-/
set_option linter.unusedVariables false
set_option linter.unusedSimpArgs false
set_option linter.unusedSectionVars false
namespace Verif.Seq.BwdProps
open Verif Verif.Seq.BList
open Verif.Seq.DList (Arg fresh insertAt slice cut Blank Relink split_at split_elem posOf posOf_cons posOf_nil)
open Verif.Seq.FwdProps (Keeps keeps_getNext keeps_setNext Keeps.bind Keeps.ite Keeps.pure)
variable {T : Type} {h : Heap T} {S : State T} {c d t u : Addr} {es fs : List (Addr × T)}

theorem put_get_other (S : State T) {c d : Addr} (es : List (Addr × T)) (t : Addr) (hd : d ≠ c) : (S.put c es t).get d = S.get d := by
  simp [State.get, put_other S es t hd]

/-! ## Return values -/

/-- `insert_after(pos, v)` returns the position of the new element, inserted directly behind `pos`. -/
theorem insert_after_returns_new (R : Reach S h) (hc : S.Exists c) (ob : Observes h c es) {i : Nat} (hi : i ≤ es.length) (v : T) :
    ∃ h' n, (do insertOne c (← SList.posAt c i) v : Prog (Heap T) Addr) h = .ok (n, h') ∧
      Observes h' c (es.take i ++ (n, v) :: es.drop i) ∧ h.live n = false ∧ OthersKept S h h' [c] := by
  obtain ⟨hc', r⟩ := observed R hc ob
  obtain ⟨h1, q1, _⟩ := insert_good R.world hc' hi v
  have hv : Op.Pre (.insertAfter i v) (es.map Prod.snd) := by simpa [Op.Pre] using hi
  obtain ⟨h2, q2, R2, s2, k2, r2, t2⟩ := one_list R (.insert c i v) ⟨hc, by rw [get_some hc']; exact hi⟩ rfl
  have e : h1 = h2 := by
    have : exec (.insert c i v) h = .ok ((), h1) := by
      simp only [exec, Prog.bind_app, r.posAt hi, Res.bind_ok, q1, Prog.pure_app]
    rw [q2] at this; cases this; rfl
  subst e
  rw [get_some hc', end_some hc', posI_eq] at t2
  rw [get_some hc'] at r2
  refine ⟨h1, h.fresh, ?_, observes_of R2.world.wf r2 (t2.trans ?_), R.world.wf.fresh_dead (Nat.le_refl _), k2⟩
  · simp only [Prog.bind_app, r.posAt hi, Res.bind_ok, q1]
  · show _ = lastOf c ((insertAt i [(h.fresh, v)] es).map Prod.fst)
    simp only [pos_is_last r hi]
    split
    · rename_i q; subst q
      rw [insert_end, List.map_append, List.map_cons, List.map_nil, lastOf_concat]
    · exact (last_insert (by omega) _).symm

/-- `erase_after(pos)` removes exactly the element behind `pos`, releases exactly its node, and returns the position after it. -/
theorem erase_after_removes (R : Reach S h) (hc : S.Exists c) (ob : Observes h c es) {i : Nat} (hi : i < es.length) :
    ∃ h', (do eraseAfter c (← SList.posAt c i) : Prog (Heap T) Addr) h = .ok (((es.drop (i + 1)).map Prod.fst).headD 0, h') ∧
      Observes h' c (es.take i ++ es.drop (i + 1)) ∧ h'.live es[i].1 = false ∧ OthersKept S h h' [c] := by
  obtain ⟨hc', r⟩ := observed R hc ob
  obtain ⟨h1, q1, _⟩ := erase_good R.world hc' hi
  obtain ⟨h2, q2, R2, s2, k2, r2, t2⟩ := one_list R (.erase c i) ⟨hc, by rw [get_some hc']; exact hi⟩ rfl
  have e : h1 = h2 := by
    have : exec (.erase c i) h = .ok ((), h1) := by
      simp only [exec, Prog.bind_app, r.posAt (Nat.le_of_lt hi), Res.bind_ok, q1, Prog.pure_app]
    rw [q2] at this; cases this; rfl
  subst e
  rw [get_some hc', end_some hc', posI_eq, posI_eq] at t2
  rw [get_some hc'] at r2
  have hp : posOf 0 ((es.drop (i + 1)).map Prod.fst) = ((es.drop (i + 1)).map Prod.fst).headD 0 := by
    cases (es.drop (i + 1)) <;> rfl
  rw [List.eraseIdx_eq_take_drop_succ] at r2
  refine ⟨h1, ?_, observes_of R2.world.wf r2 (t2.trans ?_), ?_, k2⟩
  · rw [← hp]; simp only [Prog.bind_app, r.posAt (Nat.le_of_lt hi), Res.bind_ok, q1]
  · simp only [pos_is_last r (show i + 1 ≤ es.length from hi)]
    split
    · rename_i q; rw [q, List.drop_length, List.append_nil]
    · exact (last_cut (i := i) (j := i + 1) (by omega)).symm
  · -- the erased node belongs to nobody any more
    apply Decidable.byContradiction
    intro l
    have l : h1.live es[i].1 = true := by simpa using l
    obtain ⟨d, s, hd, hx⟩ := R2.world.tight _ l
    have nd := r.nodup
    rw [split_elem hi] at nd
    by_cases q : d = c
    · subst q
      rw [put_same] at hd
      cases hd
      simp only [iface, scells, get_some hc', List.eraseIdx_eq_take_drop_succ, List.mem_cons] at hx
      simp only [List.map_append, List.map_cons, List.nodup_cons, List.nodup_append, List.mem_append, List.mem_cons] at nd hx
      grind
    · have hd' : S d = some s := by rw [← hd]; exact (put_other _ _ _ q).symm
      refine R.world.disj d _ c _ hd' hc' q _ hx ?_
      simp only [iface, scells, List.mem_cons]
      exact .inr (List.mem_map_of_mem (List.getElem_mem hi))

/-- `clear()` empties the list from every reachable state and puts `before_end()` right again. -/
theorem clear_restores (R : Reach S h) (hc : S.Exists c) :
    ∃ h', exec (.clear c) h = .ok ((), h') ∧ Observes h' c ([] : List (Addr × T)) ∧ OthersKept S h h' [c] := by
  obtain ⟨h', q, R', ob, k⟩ := one_healthy R (.clear c) hc rfl rfl
  exact ⟨h', q, ob, k⟩

/-- `assign(n, v)` where `v` refers to an object outside the list, from every reachable state: the list holds `n` copies of that value
and all observers agree. -/
theorem assign_n_partial (R : Reach S h) (hc : S.Exists c) (hs : Shows h c es) (n : Nat) {value : Arg T} {v : T} (rf : S.Refers v value)
    (ho : ∀ a, value = .elem a → a ∉ es.map Prod.fst) :
    ∃ h' ns, exec (.assignN c n value) h = .ok ((), h') ∧ Observes h' c ns ∧ NewNodes h ns (List.replicate n v) ∧ OthersKept S h h' [c] := by
  obtain ⟨t, hc', r, _⟩ := shown R hc hs
  obtain ⟨h', q, R', ob, k⟩ := one_healthy (c := c) R (.assignN c n value) ⟨hc, ⟨v, rf⟩, by rw [get_some hc']; exact ho⟩ rfl (lastPos_eq _ _)
  rw [copies_eq R.world rf] at ob
  exact ⟨h', _, q, ob, newNodes R (Nat.le_refl _) _, k⟩

/-- **`assign(n, v)` with an own element `v` is undefined behaviour** for every `n > 0`: the element is destroyed before it is read. -/
theorem assign_n_own_element_ub (R : Reach S h) (hc : S.Exists c) (hs : Shows h c es) {e : Addr × T} (he : e ∈ es) (n : Nat) :
    ∃ f, exec (.assignN c (n + 1) (.elem e.1)) h = .ub f := by
  obtain ⟨t, hc', r, _⟩ := shown R hc hs
  obtain ⟨h1, q1, W1, _, ef⟩ := clear_good R.world hc'
  refine ⟨.access, ?_⟩
  have dd : h1.live e.1 = false := by
    have hne : e.1 ≠ c := fun q => (List.nodup_cons.1 r.nodup).1 (q ▸ List.mem_map_of_mem he)
    refine ef.shrunk e.1 ?_ ?_
    · simp only [scells, List.mem_cons]; exact .inr (List.mem_map_of_mem he)
    · simp [scells, hne]
  simp only [exec, assignN, Prog.bind_app, q1, Res.bind_ok, BList.insertN, SList.insertN, DList.readArg]
  simp [getVal, dd, Res.bind]

/-! ## Where `before_end()` goes wrong -/

/-- A list whose `before_end()` is still `before_begin()`. -/
theorem stale_front (R : Reach S h) (hc : S c = some ⟨es, c⟩) :
    BList.empty c h = .ok (true, h) ∧ BList.beforeEnd c h = .ok (c, h) ∧
    ∀ v, ∃ h' n, exec (.pushBack c v) h = .ok ((), h') ∧ Shows h' c ((n, v) :: es) ∧ OthersKept S h h' [c] := by
  have r := World.sl R.world hc
  have t := World.tl R.world hc
  refine ⟨?_, ?_, ?_⟩
  · simp only [BList.empty, Prog.bind_app, getTail_eq r.head, Res.bind_ok, Prog.pure_app, t, decide_true]
  · simp only [BList.beforeEnd, getTail_eq r.head, t]
  · intro v
    obtain ⟨h', q, R', s, k, _⟩ := one_list R (.pushBack c v) ⟨⟨_, hc⟩, by rw [end_some hc]; simp⟩ rfl
    refine ⟨h', h.fresh, q, ?_, k⟩
    rw [get_some hc, end_some hc] at s
    have e : idxOfPos c es c = 0 := by simp [idxOfPos]
    rw [e] at s
    exact s

/-- **C32 fails for every non-empty range inserted at the end:** `insert_after(before_end(), first, last)` appends the values, but
`before_end()` still is the old last element, and the next `push_back(v)` puts `v` before the inserted values. -/
theorem insert_range_at_end_loses_end (R : Reach S h) (hc : S.Exists c) (ob : Observes h c es) (vs : List T) :
    ∃ h1 ns, exec (.insertVals c es.length vs) h = .ok ((), h1) ∧ Shows h1 c (es ++ ns) ∧ NewNodes h ns vs ∧
      BList.beforeEnd c h1 = .ok (((es.getLast?).map Prod.fst).getD c, h1) ∧
      ∀ v, ∃ h2 n, exec (.pushBack c v) h1 = .ok ((), h2) ∧ Shows h2 c (es ++ (n, v) :: ns) := by
  obtain ⟨hc', r⟩ := observed R hc ob
  obtain ⟨h1, q1, R1, s1, k1, r1, t1⟩ := one_list R (.insertVals c es.length vs) ⟨hc, by rw [get_some hc']; exact Nat.le_refl _⟩ rfl
  simp only [get_some hc', end_some hc', insert_end] at R1 s1 r1 t1
  refine ⟨h1, _, q1, s1, newNodes R (Nat.le_refl _) _, ?_, ?_⟩
  · simp only [BList.beforeEnd, getTail_eq r1.head, t1, lastOf_last]
  · intro v
    have hc1 := put_same S c (es ++ fresh h.fresh vs) (lastOf c (es.map Prod.fst))
    obtain ⟨h2, q2, R2, s2, _⟩ := one_list R1 (.pushBack c v) ⟨put_exists _ _ _ _, by
      rw [put_end, put_get, List.map_append, ← List.cons_append]; exact List.mem_append_left _ (lastOf_mem _ _)⟩ rfl
    rw [put_end, put_get] at s2
    have e : idxOfPos c (es ++ fresh h.fresh vs) (lastOf c (es.map Prod.fst)) = es.length := by
      have m : lastOf c (es.map Prod.fst) ∈ c :: (es ++ fresh h.fresh vs).map Prod.fst := by
        rw [List.map_append, ← List.cons_append]; exact List.mem_append_left _ (lastOf_mem _ _)
      obtain ⟨a, b⟩ := idx_pos c (es ++ fresh h.fresh vs) m
      refine pos_inj r1 a (by simp) (b.trans ?_)
      rw [List.take_left]
    rw [e] at s2
    refine ⟨h2, h1.fresh, q2, ?_⟩
    simpa [insertAt] using s2

/-- **Constructing from a range:** the values are there, but `empty()` says `true` for every range, and the next `push_back(v)` puts
`v` at the front. -/
theorem construct_from_range_loses_end (R : Reach S h) (vs : List T) :
    ∃ h1 c ns S1, ctorVals vs h = .ok (c, h1) ∧ Reach S1 h1 ∧ S1.Exists c ∧ ¬ S.Exists c ∧ Shows h1 c ns ∧ NewNodes h ns vs ∧ OthersKept S h h1 [c] ∧
      BList.empty c h1 = .ok (true, h1) ∧ ∀ v, ∃ h2 n, exec (.pushBack c v) h1 = .ok ((), h2) ∧ Shows h2 c ((n, v) :: ns) := by
  have nx : ¬ S.Exists h.fresh := by
    rintro ⟨s, q⟩
    exact R.world.wf.ne_fresh (iface.live (R.world.own _ _ q) _ (iface.self _ _)) rfl
  obtain ⟨h', q, R', s, k, _⟩ := one_list (c := h.fresh) R (.ctorVals vs) trivial rfl
  obtain ⟨h2, q2, _, _⟩ := ctorVals_good R.world vs
  have e : h' = h2 := by
    have : exec (.ctorVals vs) h = .ok ((), h2) := by simp only [exec, Prog.bind_app, q2, Res.bind_ok, Prog.pure_app]
    rw [q] at this; cases this; rfl
  subst e
  obtain ⟨a, b, p⟩ := stale_front R' (put_same _ _ _ _)
  refine ⟨h', h.fresh, _, _, q2, R', put_exists _ _ _ _, nx, s, newNodes R (Nat.le_succ _) _, k, a, fun v => ?_⟩
  obtain ⟨h3, n, q3, s3, _⟩ := p v
  exact ⟨h3, n, q3, s3⟩

/-- **Copies:** the copy constructor makes a new list with the same values in new nodes, the source and every other list stay as they
are; but `empty()` of every copy says `true`, and its next `push_back(v)` puts `v` at the front. -/
theorem copy_loses_end (R : Reach S h) (hd : S.Exists d) (hf : Shows h d fs) :
    ∃ h1 c ns S1, copyCtor d h = .ok (c, h1) ∧ Reach S1 h1 ∧ S1.Exists c ∧ ¬ S.Exists c ∧ Shows h1 c ns ∧ NewNodes h ns (fs.map Prod.snd) ∧
      OthersKept S h h1 [c] ∧
      BList.empty c h1 = .ok (true, h1) ∧ ∀ v, ∃ h2 n, exec (.pushBack c v) h1 = .ok ((), h2) ∧ Shows h2 c ((n, v) :: ns) := by
  obtain ⟨u, hd', r, _⟩ := shown R hd hf
  have nx : ¬ S.Exists h.fresh := by
    rintro ⟨s, q⟩
    exact R.world.wf.ne_fresh (iface.live (R.world.own _ _ q) _ (iface.self _ _)) rfl
  obtain ⟨h', q, R', s, k, _⟩ := one_list (c := h.fresh) R (.copyOf d) hd rfl
  obtain ⟨h2, q2, _, _⟩ := copyCtor_good R.world hd'
  have e : h' = h2 := by
    have : exec (.copyOf d) h = .ok ((), h2) := by simp only [exec, Prog.bind_app, q2, Res.bind_ok, Prog.pure_app]
    rw [q] at this; cases this; rfl
  subst e
  rw [get_some hd'] at R' s
  obtain ⟨a, b, p⟩ := stale_front R' (put_same _ _ _ _)
  refine ⟨h', h.fresh, _, _, q2, R', put_exists _ _ _ _, nx, s, newNodes R (Nat.le_succ _) _, k, a, fun v => ?_⟩
  obtain ⟨h3, n, q3, s3, _⟩ := p v
  exact ⟨h3, n, q3, s3⟩

/-- **Assignment:** `c = d` gives `c` the values of `d` in new nodes and leaves `d` as it is, for two different lists; but `empty()`
of `c` says `true`, and its next `push_back(v)` puts `v` at the front. -/
theorem assign_loses_end (R : Reach S h) (hc : S.Exists c) (hd : S.Exists d) (hcd : c ≠ d) (hf : Shows h d fs) :
    ∃ h1 ns, exec (.assign c d) h = .ok ((), h1) ∧ Shows h1 c ns ∧ NewNodes h ns (fs.map Prod.snd) ∧ OthersKept S h h1 [c] ∧
      BList.empty c h1 = .ok (true, h1) ∧ ∀ v, ∃ h2 n, exec (.pushBack c v) h1 = .ok ((), h2) ∧ Shows h2 c ((n, v) :: ns) := by
  obtain ⟨u, hd', r, _⟩ := shown R hd hf
  obtain ⟨h', q, R', s, k, _⟩ := one_list R (.assign c d) ⟨hc, hd, hcd⟩ rfl
  rw [get_some hd'] at R' s
  obtain ⟨a, b, p⟩ := stale_front R' (put_same _ _ _ _)
  refine ⟨h', _, q, s, newNodes R (Nat.le_refl _) _, k, a, fun v => ?_⟩
  obtain ⟨h3, n, q3, s3, _⟩ := p v
  exact ⟨h3, n, q3, s3⟩

/-- **`assign(first, last)`:** as for assignment. -/
theorem assign_range_loses_end (R : Reach S h) (hc : S.Exists c) (vs : List T) :
    ∃ h1 ns, exec (.assignVals c vs) h = .ok ((), h1) ∧ Shows h1 c ns ∧ NewNodes h ns vs ∧ OthersKept S h h1 [c] ∧
      BList.empty c h1 = .ok (true, h1) ∧ ∀ v, ∃ h2 n, exec (.pushBack c v) h1 = .ok ((), h2) ∧ Shows h2 c ((n, v) :: ns) := by
  obtain ⟨h', q, R', s, k, _⟩ := one_list R (.assignVals c vs) hc rfl
  obtain ⟨a, b, p⟩ := stale_front R' (put_same _ _ _ _)
  refine ⟨h', _, q, s, newNodes R (Nat.le_refl _) _, k, a, fun v => ?_⟩
  obtain ⟨h3, n, q3, s3, _⟩ := p v
  exact ⟨h3, n, q3, s3⟩

/-- **Self-assignment empties every list.** -/
theorem self_assign_empties (R : Reach S h) (hc : S.Exists c) :
    ∃ h', exec (.assign c c) h = .ok ((), h') ∧ Observes h' c ([] : List (Addr × T)) := by
  obtain ⟨es, t, hc'⟩ := exists_mk hc
  obtain ⟨h1, q1, W1, _, _⟩ := clear_good R.world hc'
  have r1 := World.sl W1 (put_same _ _ _ _)
  have t1 := World.tl W1 (put_same _ _ _ _)
  refine ⟨h1, ?_, observes_of W1.wf r1 t1⟩
  have nh : h1.next c = 0 := by have := r1.next_head; simpa using this
  have tc : ({ h1 with tail := upd h1.tail c c } : Heap T) = h1 := by
    have : upd h1.tail c c = h1.tail := by
      funext x; unfold upd; split
      · rename_i q; rw [q]; exact t1.symm
      · rfl
    rw [this]
  simp only [exec, opAssign, Prog.bind_app, q1, Res.bind_ok, getNext_eq r1.head, nh, BList.insertNodes]
  rw [SList.insertNodes]
  simp only [Prog.ite_app, if_true, ne_eq, not_true_eq_false, if_false, Prog.pure_app, Res.bind_ok, getTail_eq r1.head, t1, setTail_eq r1.head, tc]

/-- `push_back` through a `before_end()` that points to no object is undefined behaviour. -/
theorem push_back_dead (l : h.live c = true) (dd : h.live (h.tail c) = false) (hf : h.tail c ≠ h.fresh) (v : T) :
    exec (.pushBack c v) h = .ub .access := by
  have : ({ h with live := upd h.live h.fresh true, val := upd h.val h.fresh (some v), fresh := h.fresh + 1 } : Heap T).live (h.tail c) = false := by
    show upd h.live h.fresh true (h.tail c) = false
    rw [upd_other _ _ hf]; exact dd
  simp only [exec, pushBack, Prog.bind_app, getTail_eq l, newNode_eq, Res.bind_ok, SNode.insertAfter]
  simp [getNext, upd, hf, dd, Res.bind, setNext]

/-- **`pop_front()` of the only element** leaves no elements, but `empty()` says `false` and `push_back` is undefined behaviour. -/
theorem pop_last_element_breaks {e : Addr × T} (R : Reach S h) (hc : S.Exists c) (ob : Observes h c [e]) :
    ∃ h1, exec (.popFront c) h = .ok ((), h1) ∧ Shows h1 c [] ∧ BList.empty c h1 = .ok (false, h1) ∧
      ∀ v, exec (.pushBack c v) h1 = .ub .access := by
  obtain ⟨hc', r⟩ := observed R hc ob
  obtain ⟨h1, q1, R1, s1, k1, r1, t1⟩ := one_list R (.popFront c) ⟨hc, by rw [get_some hc']; simp⟩ rfl
  simp only [get_some hc', end_some hc', List.tail_cons, List.map_cons, List.map_nil, lastOf_cons, lastOf_nil] at R1 s1 r1 t1
  have le := (r.data e (by simp)).1
  have hne : c ≠ e.1 := fun q => (List.nodup_cons.1 r.nodup).1 (by simp [q])
  have dd : h1.live e.1 = false := by
    apply Decidable.byContradiction
    intro l
    have l : h1.live e.1 = true := by simpa using l
    obtain ⟨d, s, hd, hx⟩ := R1.world.tight _ l
    by_cases q : d = c
    · subst q
      rw [put_same] at hd; cases hd
      simp [iface, scells] at hx
      exact hne hx.symm
    · rw [put_other _ _ _ q] at hd
      exact R.world.disj d _ c _ hd hc' q _ hx (by simp [iface, scells])
  refine ⟨h1, q1, s1, ?_, fun v => push_back_dead r1.head (by rw [t1]; exact dd) ?_ v⟩
  · simp only [BList.empty, Prog.bind_app, getTail_eq r1.head, Res.bind_ok, Prog.pure_app, t1, decide_eq_false hne]
  · rw [t1]
    have m : h.fresh ≤ h1.fresh := by
      obtain ⟨h2, q2, _, m⟩ := step_ok R.world (.popFront c) ⟨hc, by rw [get_some hc']; simp⟩
      rw [q1] at q2; cases q2; exact m
    have := R.world.wf.used e.1 (by omega)
    intro q
    rw [q] at le
    have : h.live h1.fresh = false := R.world.wf.fresh_dead m
    rw [le] at this; cases this

/-- **`reverse()` of an empty list** leaves no elements, but `empty()` says `false` and `push_back` is undefined behaviour. -/
theorem reverse_empty_breaks (R : Reach S h) (hc : S.Exists c) (hs : Shows h c ([] : List (Addr × T))) :
    ∃ h1, exec (.reverse c) h = .ok ((), h1) ∧ Shows h1 c [] ∧ BList.empty c h1 = .ok (false, h1) ∧
      ∀ v, exec (.pushBack c v) h1 = .ub .access := by
  obtain ⟨t, hc', r, _⟩ := shown R hc hs
  obtain ⟨h1, q1, R1, s1, k1, r1, t1⟩ := one_list R (.reverse c) hc rfl
  simp only [get_some hc', List.reverse_nil] at R1 s1 r1 t1
  have t1 : h1.tail c = 0 := t1
  have c0 : c ≠ 0 := R.world.wf.ne_zero r.head
  refine ⟨h1, q1, s1, ?_, fun v => push_back_dead r1.head (by rw [t1]; exact R1.world.wf.null) ?_ v⟩
  · simp only [BList.empty, Prog.bind_app, getTail_eq r1.head, Res.bind_ok, Prog.pure_app, t1, decide_eq_false c0]
  · rw [t1]; exact (Nat.ne_of_gt R1.world.wf.pos).symm

/-- **`swap` with an empty list:** the elements are exchanged, but the list that is now empty says `empty() == false`, and its
`push_back(v)` adds `v` to the front of the other list. -/
theorem swap_with_empty_breaks (R : Reach S h) (hc : S.Exists c) (hd : S.Exists d) (hcd : c ≠ d) (hs : Shows h c es)
    (ob : Observes h d ([] : List (Addr × T))) :
    ∃ h1, exec (.swap c d) h = .ok ((), h1) ∧ Shows h1 c [] ∧ Shows h1 d es ∧ BList.empty c h1 = .ok (false, h1) ∧
      ∀ v, ∃ h2 n, exec (.pushBack c v) h1 = .ok ((), h2) ∧ Shows h2 c [] ∧ Shows h2 d ((n, v) :: es) := by
  obtain ⟨t, hc', r, _⟩ := shown R hc hs
  obtain ⟨hd', s⟩ := observed R hd ob
  obtain ⟨h1, q1, R1⟩ := call_returns R (.swap c d) ⟨hc, hd⟩
  have e : spec S h.fresh (.swap c d) = (S.put c [] d).put d es t := by
    simp only [spec, get_some hc', get_some hd', end_some hc', end_some hd', List.map_nil, lastOf_nil]
  rw [e] at R1
  have ec : ((S.put c [] d).put d es t) c = some ⟨[], d⟩ := by rw [put_other _ _ _ hcd]; exact put_same _ _ _ _
  have ed := put_same (S.put c [] d) d es t
  have r1 := World.sl R1.world ec
  have t1 := World.tl R1.world ec
  refine ⟨h1, q1, r1.entries R1.world.wf, (World.sl R1.world ed).entries R1.world.wf, ?_, ?_⟩
  · simp only [BList.empty, Prog.bind_app, getTail_eq r1.head, Res.bind_ok, Prog.pure_app, t1, decide_eq_false hcd]
  · intro v
    obtain ⟨h2, q2, W2, _⟩ := newInsert_at R1.world ed (i := 0) (by simp) v
    simp only [List.take_zero, List.map_nil, lastOf_nil, Prog.bind_app, newNode_eq, Res.bind_ok] at q2
    have ec2 : (((S.put c [] d).put d es t).put d (insertAt 0 [(h1.fresh, v)] es) t) c = some ⟨[], d⟩ := by
      rw [put_other _ _ _ hcd]; exact ec
    have W3 := setTail_world W2 ec2 h1.fresh
    have r3 := World.sl W3 (put_same _ _ _ _)
    have s3 := World.sl W3 (c := d) (by rw [put_other _ _ _ hcd.symm]; exact put_same _ _ _ _)
    refine ⟨_, h1.fresh, ?_, r3.entries W3.wf, s3.entries W3.wf⟩
    simp only [exec, pushBack, Prog.bind_app, getTail_eq r1.head, t1, newNode_eq, Res.bind_ok, q2]
    exact setTail_eq (World.sl W2 ec2).head _

end Verif.Seq.BwdProps
