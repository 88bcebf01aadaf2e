import Verif.Seq.FwdProps2
/-!
# Properties of `ttl::forward_list`, continued: swap, copies, comparison, memory; concrete cases
-/
set_option linter.unusedVariables false
set_option linter.unusedSimpArgs false
set_option linter.unusedSectionVars false
namespace Verif.Seq.FwdProps
open Verif Verif.Seq.FList
open Verif.Seq.DList (Arg fresh insertAt slice cut Blank Relink split_at split_elem posOf posOf_cons posOf_nil)
variable {T : Type} {h : Heap T} {S : State T} {c d : Addr} {es fs : List (Addr × T)}

/-! ## Swap -/

/-- `a.swap(b)` exchanges the contents of two lists, also when one or both are empty; nothing is allocated, released or copied. -/
theorem swap_swaps (R : Reach S h) (hc : S.Exists c) (hd : S.Exists d) (hcd : c ≠ d) (hs : Shows h c es) (hf : Shows h d fs) :
    ∃ h', exec (.swap c d) h = .ok ((), h') ∧ Observes h' c fs ∧ Observes h' d es ∧ NoAlloc h h' ∧ OthersKept S h h' [c, d] := by
  obtain ⟨hc', r⟩ := shown R hc hs
  obtain ⟨hd', s⟩ := shown R hd hf
  obtain ⟨h1, q1, R1, s1, s2, o1⟩ := two_lists R (.swap c d) ⟨hc, hd⟩ hcd rfl
  rw [get_some hd'] at s1
  rw [get_some hc'] at s2
  refine ⟨h1, q1, observes_shown R1 (put_exists_other _ _ (put_exists _ _ _)) s1, observes_shown R1 (put_exists _ _ _) s2, ?_, o1⟩
  have kp : Keeps (exec (.swap c d) : Prog (Heap T) Unit) := by
    unfold exec FList.swap
    repeat' (first | apply Keeps.bind | apply keeps_getNext | apply keeps_setNext | intro _)
  exact kp h _ _ q1

/-- Swapping a list with itself changes nothing observable. -/
theorem swap_self (R : Reach S h) (hc : S.Exists c) (hs : Shows h c es) :
    ∃ h', exec (.swap c c) h = .ok ((), h') ∧ Observes h' c es ∧ OthersKept S h h' [c] := by
  obtain ⟨hc', r⟩ := shown R hc hs
  have e : spec S h.fresh (.swap c c) = S.put c es := by
    show (S.put c (S.get c)).put c (S.get c) = _
    rw [get_some hc']; funext x
    by_cases q : x = c
    · subst q; rw [put_same, put_same]
    · rw [put_other _ _ q, put_other _ _ q]
  obtain ⟨h1, q1, R1, s1, o1⟩ := one_list R (.swap c c) ⟨hc, hc⟩ e
  exact ⟨h1, q1, observes_shown R1 (put_exists _ _ _) s1, o1⟩

/-! ## Copies -/

theorem not_exists_fresh (R : Reach S h) : ¬ S.Exists h.fresh := by
  rintro ⟨s, q⟩
  exact R.world.wf.ne_fresh (iface.live (R.world.own _ _ q) _ (iface.self _ _)) rfl

/-- The copy constructor makes a new list with the same values in new nodes; the source and every other list stay as they are. -/
theorem copy_copies (R : Reach S h) (hd : S.Exists d) (hf : Shows h d fs) :
    ∃ h' c ns S', copyCtor d h = .ok (c, h') ∧ Reach S' h' ∧ S'.Exists c ∧ ¬ S.Exists c ∧ Observes h' c ns ∧ NewNodes h ns (fs.map Prod.snd) ∧
      Shows h' d fs ∧ OthersKept S h h' [c] := by
  obtain ⟨hd', r⟩ := shown R hd hf
  have nx := not_exists_fresh R
  obtain ⟨h', q, R', s, k⟩ := one_list (c := h.fresh) R (.copyOf d) hd rfl
  obtain ⟨h2, q2, _, _⟩ := copyCtor_good R.world hd'
  have e : h' = h2 := by
    have : exec (.copyOf d) h = .ok ((), h2) := by simp only [exec, Prog.bind_app, q2, Res.bind_ok, Prog.pure_app]
    rw [q] at this; cases this; rfl
  subst e
  rw [get_some hd'] at s
  refine ⟨h', h.fresh, _, _, q2, R', put_exists _ _ _, nx, observes_shown R' (put_exists _ _ _) s, newNodes R (Nat.le_succ _) _, ?_, k⟩
  exact k d (by simp; exact fun q => nx (q ▸ hd)) hd fs hf

/-- `c = d` makes `c` a copy of `d` (whatever `c` held before), for two different lists. -/
theorem assign_copies_partial (R : Reach S h) (hc : S.Exists c) (hd : S.Exists d) (hcd : c ≠ d) (hf : Shows h d fs) :
    ∃ h' ns, exec (.assign c d) h = .ok ((), h') ∧ Observes h' c ns ∧ NewNodes h ns (fs.map Prod.snd) ∧ Shows h' d fs ∧
      OthersKept S h h' [c] := by
  obtain ⟨hd', r⟩ := shown R hd hf
  obtain ⟨h', q, R', s, k⟩ := one_list R (.assign c d) ⟨hc, hd, hcd⟩ rfl
  rw [get_some hd'] at s
  exact ⟨h', _, q, observes_shown R' (put_exists _ _ _) s, newNodes R (Nat.le_refl _) _, k d (by simp [hcd.symm]) hd fs hf, k⟩

/-- **Self-assignment empties every list.** -/
theorem self_assign_empties (R : Reach S h) (hc : S.Exists c) (hs : Shows h c es) :
    ∃ h', exec (.assign c c) h = .ok ((), h') ∧ Shows h' c [] := by
  obtain ⟨hc', r⟩ := shown R hc hs
  obtain ⟨h1, q1, W1, _⟩ := clear_good R.world hc'
  have r1 := World.sl W1 (put_same _ _ _)
  refine ⟨h1, ?_, r1.entries W1.wf⟩
  have nh : h1.next c = 0 := by have := r1.next_head; simpa using this
  simp only [exec, opAssign, Prog.bind_app, q1, Res.bind_ok, getNext_eq r1.head, nh, FList.insertNodes]
  rw [SList.insertNodes]; simp [Prog.pure_app]

/-- `forward_list(first, last)`: a new list with exactly these values. -/
theorem construct_from_range (R : Reach S h) (vs : List T) :
    ∃ h' c ns, ctorVals vs h = .ok (c, h') ∧ ¬ S.Exists c ∧ Observes h' c ns ∧ NewNodes h ns vs ∧ OthersKept S h h' [c] := by
  obtain ⟨h', q, R', s, k⟩ := one_list (c := h.fresh) R (.ctorVals vs) trivial rfl
  obtain ⟨h2, q2, _, _⟩ := ctorVals_good R.world vs
  have e : h' = h2 := by
    have : exec (.ctorVals vs) h = .ok ((), h2) := by simp only [exec, Prog.bind_app, q2, Res.bind_ok, Prog.pure_app]
    rw [q] at this; cases this; rfl
  subst e
  exact ⟨h', h.fresh, _, q2, not_exists_fresh R, observes_shown R' (put_exists _ _ _) s, newNodes R (Nat.le_succ _) _, k⟩

/-- `forward_list(n, v)`: a new list of `n` copies of the value `v` refers to (possibly an element of a list). -/
theorem construct_n (R : Reach S h) (n : Nat) {value : Arg T} {v : T} (rf : S.Refers v value) :
    ∃ h' c ns, ctorN n value h = .ok (c, h') ∧ ¬ S.Exists c ∧ Observes h' c ns ∧ NewNodes h ns (List.replicate n v) ∧ OthersKept S h h' [c] := by
  obtain ⟨h', q, R', s, k⟩ := one_list (c := h.fresh) R (.ctorN n value) ⟨v, rf⟩ rfl
  obtain ⟨h2, q2, _, _⟩ := ctorN_good R.world n rf
  have e : h' = h2 := by
    have : exec (.ctorN n value) h = .ok ((), h2) := by simp only [exec, Prog.bind_app, q2, Res.bind_ok, Prog.pure_app]
    rw [q] at this; cases this; rfl
  subst e
  rw [copies_eq R.world rf] at s
  exact ⟨h', h.fresh, _, q2, not_exists_fresh R, observes_shown R' (put_exists _ _ _) s, newNodes R (Nat.le_succ _) _, k⟩

/-- `assign(n, v)` where `v` refers to an object outside the list: the list holds `n` copies of that value. -/
theorem assign_n_partial (R : Reach S h) (hc : S.Exists c) (hs : Shows h c es) (n : Nat) {value : Arg T} {v : T} (rf : S.Refers v value)
    (ho : ∀ a, value = .elem a → a ∉ es.map Prod.fst) :
    ∃ h' ns, exec (.assignN c n value) h = .ok ((), h') ∧ Observes h' c ns ∧ NewNodes h ns (List.replicate n v) ∧ OthersKept S h h' [c] := by
  obtain ⟨hc', r⟩ := shown R hc hs
  obtain ⟨h', q, R', s, k⟩ := one_list R (.assignN c n value) ⟨hc, ⟨v, rf⟩, by rw [get_some hc']; exact ho⟩ rfl
  rw [copies_eq R.world rf] at s
  exact ⟨h', _, q, observes_shown R' (put_exists _ _ _) s, newNodes R (Nat.le_refl _) _, k⟩

/-- **`assign(n, v)` with an own element `v` is undefined behaviour** for every `n > 0`: the element is destroyed before it is read. -/
theorem assign_n_own_element_ub (R : Reach S h) (hc : S.Exists c) (hs : Shows h c es) {e : Addr × T} (he : e ∈ es) (n : Nat) :
    ∃ f, exec (.assignN c (n + 1) (.elem e.1)) h = .ub f := by
  obtain ⟨hc', r⟩ := shown R hc hs
  obtain ⟨h1, q1, _, _, _, _, hdead⟩ := clearLoop_ok R.world.wf r
  refine ⟨.access, ?_⟩
  have dd : h1.live e.1 = false := hdead e.1 (List.mem_map_of_mem he)
  simp only [exec, assignN, FList.clear, Prog.bind_app, q1, Res.bind_ok, FList.insertN, SList.insertN, DList.readArg]
  simp [getVal, dd, Res.bind]

/-! ## Comparison -/

/-- `a == b`, with any `operator==` of the elements, answers whether the two lists have the same length and hold equal elements at
corresponding positions, and changes nothing. -/
theorem equal_compares (eqv : T → T → Bool) (R : Reach S h) (hc : S.Exists c) (hd : S.Exists d) (hs : Shows h c es) (hf : Shows h d fs) :
    ∃ b, SList.equals eqv c d h = .ok (b, h) ∧
      (b = true ↔ es.length = fs.length ∧ ∀ (i : Nat) x y, es[i]? = some x → fs[i]? = some y → eqv x.2 y.2 = true) :=
  ⟨_, Slist.equals R.world.wf (shown R hc hs).2 (shown R hd hf).2, DList.same_iff⟩

/-- For an `operator==` that decides equality, `a == b` decides whether the sequences of values are equal. -/
theorem equal_compares_values [DecidableEq T] (R : Reach S h) (hc : S.Exists c) (hd : S.Exists d) (hs : Shows h c es) (hf : Shows h d fs) :
    SList.equals (fun x y => decide (x = y)) c d h = .ok (decide (es.map Prod.snd = fs.map Prod.snd), h) := by
  obtain ⟨b, q, i⟩ := equal_compares (fun x y => decide (x = y)) R hc hd hs hf
  rw [q, DList.same_values i]

/-- `a != b`, with any `operator==` of the elements, holds iff the lengths differ or some corresponding elements are not equal;
nothing changes. -/
theorem not_equal_compares (eqv : T → T → Bool) (R : Reach S h) (hc : S.Exists c) (hd : S.Exists d) (hs : Shows h c es) (hf : Shows h d fs) :
    ∃ b, SList.notEquals eqv c d h = .ok (b, h) ∧
      (b = true ↔ es.length ≠ fs.length ∨ ∃ (i : Nat) (x y : Addr × T), es[i]? = some x ∧ fs[i]? = some y ∧ eqv x.2 y.2 = false) := by
  obtain ⟨b, q, i⟩ := equal_compares eqv R hc hd hs hf
  refine ⟨!b, by simp only [SList.notEquals, Prog.bind_app, q, Res.bind_ok, Prog.pure_app], ?_⟩
  exact DList.negated i

/-! ## Memory -/

/-- What is allocated is exactly the existing lists and their elements: no leaks, and no list element is dangling. -/
theorem no_leak (R : Reach S h) (x : Addr) :
    h.live x = true ↔ ∃ c es, S.Exists c ∧ Shows h c es ∧ (x = c ∨ x ∈ es.map Prod.fst) := by
  constructor
  · intro l
    obtain ⟨c, s, hs, hx⟩ := R.world.tight x l
    refine ⟨c, _, ⟨s, hs⟩, reach_shows R ⟨s, hs⟩, ?_⟩
    rw [get_some hs]
    simpa only [iface, scells, List.mem_cons] using hx
  · rintro ⟨c, es, hc, hs, hx⟩
    refine (shown R hc hs).2.live x ?_
    simpa only [scells, List.mem_cons] using hx

/-- No node belongs to two lists, nor twice to one list. -/
theorem lists_disjoint (R : Reach S h) (hc : S.Exists c) (hd : S.Exists d) (hs : Shows h c es) (hf : Shows h d fs) :
    (es.map Prod.fst).Nodup ∧ (c ≠ d → ∀ e ∈ es, ∀ f ∈ fs, e.1 ≠ f.1) := by
  obtain ⟨hc', r⟩ := shown R hc hs
  obtain ⟨hd', s⟩ := shown R hd hf
  refine ⟨(List.nodup_cons.1 r.nodup).2, ?_⟩
  intro hcd e he f hf q
  refine R.world.disj c _ d _ hc' hd' hcd e.1 ?_ ?_
  · simp only [iface, scells, List.mem_cons]; exact .inr (List.mem_map_of_mem he)
  · rw [q]; simp only [iface, scells, List.mem_cons]; exact .inr (List.mem_map_of_mem hf)

/-- The destructor releases exactly the list and its nodes. -/
theorem destroy_frees (R : Reach S h) (hc : S.Exists c) (hs : Shows h c es) :
    ∃ h', exec (.destroy c) h = .ok ((), h') ∧ (∀ x, h'.live x = (h.live x && decide (x ≠ c ∧ x ∉ es.map Prod.fst))) ∧ OthersKept S h h' [c] := by
  obtain ⟨h', q, R'⟩ := call_returns R (.destroy c) hc
  obtain ⟨hc', r⟩ := shown R hc hs
  have gone : ¬ (spec S h.fresh (.destroy c)).Exists c := by
    rintro ⟨s, q⟩
    have : (none : Option (List (Addr × T))) = some s := (upd_same S c none).symm.trans q
    cases this
  have same : ∀ d, d ≠ c → spec S h.fresh (.destroy c) d = S d := fun d hd => upd_other _ _ hd
  have kept : OthersKept S h h' [c] := by
    intro d hd hx fs hf
    have hd : d ≠ c := by simpa using hd
    have := reach_shows R' (c := d) (by obtain ⟨t, q⟩ := hx; exact ⟨t, by rw [same d hd]; exact q⟩)
    have e2 : (spec S h.fresh (.destroy c)).get d = S.get d := by simp [State.get, same d hd]
    rwa [e2, get_shown R hx hf] at this
  refine ⟨h', q, ?_, kept⟩
  intro x
  have a := no_leak R x
  have b := no_leak R' x
  have own : ∀ d fs, S.Exists d → Shows h d fs → (x = d ∨ x ∈ fs.map Prod.fst) → (x = c ∨ x ∈ es.map Prod.fst) → d = c := by
    intro d fs hd hf h1 h2
    obtain ⟨hd', _⟩ := shown R hd hf
    by_cases hcd : d = c
    · exact hcd
    · exfalso
      refine R.world.disj d _ c _ hd' hc' hcd x ?_ ?_
      · simpa only [iface, scells, List.mem_cons] using h1
      · simpa only [iface, scells, List.mem_cons] using h2
  have key : h'.live x = true ↔ h.live x = true ∧ (x ≠ c ∧ x ∉ es.map Prod.fst) := by
    rw [a, b]
    constructor
    · rintro ⟨d, fs, hd, hf, hx⟩
      have hdc : d ≠ c := fun q => gone (q ▸ hd)
      have hd0 : S.Exists d := by obtain ⟨t, q⟩ := hd; exact ⟨t, by rw [← same d hdc]; exact q⟩
      have hf0 : Shows h d (S.get d) := reach_shows R hd0
      have : fs = S.get d := hf.inj (kept d (by simpa using hdc) hd0 _ hf0)
      subst this
      refine ⟨⟨d, _, hd0, hf0, hx⟩, ?_, ?_⟩
      · intro q; exact hdc (own d _ hd0 hf0 hx (.inl q))
      · intro q; exact hdc (own d _ hd0 hf0 hx (.inr q))
    · rintro ⟨⟨d, fs, hd, hf, hx⟩, n1, n2⟩
      have hdc : d ≠ c := by
        intro q; subst q
        rw [hf.inj hs] at hx
        rcases hx with q | q
        · exact n1 q
        · exact n2 q
      refine ⟨d, fs, ?_, kept d (by simpa using hdc) hd fs hf, hx⟩
      obtain ⟨t, q⟩ := hd; exact ⟨t, by rw [same d hdc]; exact q⟩
  cases l : h.live x <;> cases l' : h'.live x <;> simp_all

/-! ## Elements never move -/

/-- The calls that neither remove nor overwrite elements. -/
def Preserving : Call T → Prop
  | .destroy _ | .popFront _ | .erase _ _ | .eraseRange _ _ _ | .clear _ | .assign _ _ | .assignN _ _ _ | .assignVals _ _ | .store _ _ _ => False
  | _ => True

theorem stay_one {e : Addr × T} {es' : List (Addr × T)} (he : e ∈ S.get d) (hd : S.Exists d) (sub : ∀ x ∈ S.get c, x ∈ es') :
    ∃ d', (S.put c es').Exists d' ∧ e ∈ (S.put c es').get d' := by
  by_cases hcd : d = c
  · subst hcd; exact ⟨d, put_exists _ _ _, by rw [put_get]; exact sub e he⟩
  · obtain ⟨t, ht⟩ := hd
    exact ⟨d, ⟨t, by rw [put_other _ _ hcd]; exact ht⟩, by rw [put_get_other _ _ hcd]; exact he⟩

theorem stay_two {e : Addr × T} {b : Addr} {es' fs' : List (Addr × T)} (hab : c ≠ b) (he : e ∈ S.get d) (hd : S.Exists d)
    (sub : ∀ x, x ∈ S.get c ∨ x ∈ S.get b → x ∈ es' ∨ x ∈ fs') :
    ∃ d', ((S.put c es').put b fs').Exists d' ∧ e ∈ ((S.put c es').put b fs').get d' := by
  have r1 : ((S.put c es').put b fs').Exists c ∧ ((S.put c es').put b fs').get c = es' :=
    ⟨⟨_, by rw [put_other _ _ hab]; exact put_same _ _ _⟩, by rw [put_get_other _ _ hab, put_get]⟩
  have r2 : ((S.put c es').put b fs').Exists b ∧ ((S.put c es').put b fs').get b = fs' := ⟨put_exists _ _ _, put_get _ _ _⟩
  have fin : (e ∈ es' ∨ e ∈ fs') → ∃ d', ((S.put c es').put b fs').Exists d' ∧ e ∈ ((S.put c es').put b fs').get d' := by
    rintro (q | q)
    · exact ⟨c, r1.1, by rw [r1.2]; exact q⟩
    · exact ⟨b, r2.1, by rw [r2.2]; exact q⟩
  by_cases h1 : d = c
  · subst h1; exact fin (sub e (.inl he))
  · by_cases h2 : d = b
    · subst h2; exact fin (sub e (.inr he))
    · obtain ⟨t, ht⟩ := hd
      exact ⟨d, ⟨t, by rw [put_other _ _ h2, put_other _ _ h1]; exact ht⟩, by rw [put_get_other _ _ h2, put_get_other _ _ h1]; exact he⟩

/-- A call that is not a removal leaves every element of every list at its address with its value, in one of the lists: iterators,
pointers and references to elements stay valid. -/
theorem elements_stay (R : Reach S h) (k : Call T) (lg : Legal S k) (pr : Preserving k) :
    ∃ h' S', exec k h = .ok ((), h') ∧ Reach S' h' ∧ ∀ d es, S.Exists d → Shows h d es → ∀ e ∈ es,
      ∃ d' es', S'.Exists d' ∧ Shows h' d' es' ∧ e ∈ es' := by
  obtain ⟨h', q, R'⟩ := call_returns R k lg
  refine ⟨h', _, q, R', ?_⟩
  intro d es hd hs e he
  suffices ∃ d', (spec S h.fresh k).Exists d' ∧ e ∈ (spec S h.fresh k).get d' by
    obtain ⟨d', h1, h2⟩ := this
    exact ⟨d', _, h1, reach_shows R' h1, h2⟩
  rw [← get_shown R hd hs] at he
  have new : ∀ x ∈ S.get h.fresh, False := by
    intro x hx
    cases q : S h.fresh with
    | none => simp [State.get, q] at hx
    | some s => exact not_exists_fresh R ⟨s, q⟩
  cases k with
  | create => exact stay_one he hd fun x hx => (new x hx).elim
  | copyOf s => exact stay_one he hd fun x hx => (new x hx).elim
  | ctorN n v => exact stay_one he hd fun x hx => (new x hx).elim
  | ctorVals vs => exact stay_one he hd fun x hx => (new x hx).elim
  | pushFront c v => exact stay_one he hd fun x hx => List.mem_cons_of_mem _ hx
  | insert c i v => exact stay_one he hd fun x hx => mem_insertAt.2 (.inr hx)
  | insertN c i n v => exact stay_one he hd fun x hx => mem_insertAt.2 (.inr hx)
  | insertVals c i vs => exact stay_one he hd fun x hx => mem_insertAt.2 (.inr hx)
  | insertList c i d => exact stay_one he hd fun x hx => mem_insertAt.2 (.inr hx)
  | reverse c => exact stay_one he hd fun x hx => List.mem_reverse.2 hx
  | spliceAll c i b => exact stay_two lg.2.2.1 he hd fun x hx => .inl (mem_insertAt.2 hx.symm)
  | spliceOne c i b j =>
    by_cases hcd : c = b
    · simp only [spec, if_pos hcd]
      exact stay_one he hd fun x hx => mem_insertAt.2 ((mem_slice_cut (Nat.le_succ j)).2 hx)
    · simp only [spec, if_neg hcd]
      refine stay_two hcd he hd fun x hx => ?_
      rcases hx with hx | hx
      · exact .inl (mem_insertAt.2 (.inr hx))
      · rcases (mem_slice_cut (Nat.le_succ j)).2 hx with q | q
        · exact .inl (mem_insertAt.2 (.inl q))
        · exact .inr q
  | splice c i b j k =>
    have hjk : j ≤ k - 1 := by have : j + 1 < k := lg.2.2.2.1; omega
    by_cases hcd : c = b
    · simp only [spec, if_pos hcd]
      exact stay_one he hd fun x hx => mem_insertAt.2 ((mem_slice_cut hjk).2 hx)
    · simp only [spec, if_neg hcd]
      refine stay_two hcd he hd fun x hx => ?_
      rcases hx with hx | hx
      · exact .inl (mem_insertAt.2 (.inr hx))
      · rcases (mem_slice_cut hjk).2 hx with q | q
        · exact .inl (mem_insertAt.2 (.inl q))
        · exact .inr q
  | swap c b =>
    by_cases hcd : c = b
    · subst hcd
      refine ⟨d, ?_, ?_⟩
      · exact put_exists_other _ _ (put_exists_other _ _ hd)
      · show e ∈ ((S.put c (S.get c)).put c (S.get c)).get d
        by_cases q : d = c
        · subst q; rw [put_get]; exact he
        · rw [put_get_other _ _ q, put_get_other _ _ q]; exact he
    · exact stay_two hcd he hd fun x hx => hx.symm
  | _ => exact pr.elim

/-! ## Concrete cases -/

/-- For any two sequences of values there is a reachable memory with two lists holding them: the hypotheses of the theorems above
are met by lists of every length. -/
theorem exists_lists (vs ws : List T) : ∃ (S : State T) (h : Heap T) (c d : Addr) (es fs : List (Addr × T)), Reach S h ∧ S.Exists c ∧ S.Exists d ∧ c ≠ d ∧
    Shows h c es ∧ Shows h d fs ∧ es.map Prod.snd = vs ∧ fs.map Prod.snd = ws := by
  have R0 := Reach.start (blank_blank (T := T))
  obtain ⟨h1, q1, R1, s1, _⟩ := one_list (c := (blank T).fresh) R0 (.ctorVals vs) trivial rfl
  have n1 : h1.fresh ≠ (blank T).fresh := by
    have := R1.world.wf.ne_fresh (iface.live (R1.world.own _ _ (put_same _ _ _)) _ (iface.self _ _))
    exact this.symm
  obtain ⟨h2, q2, R2, s2, k2⟩ := one_list (c := h1.fresh) R1 (.ctorVals ws) trivial rfl
  refine ⟨_, h2, (blank T).fresh, h1.fresh, _, _, R2, ⟨_, by rw [put_other _ _ n1.symm]; exact put_same _ _ _⟩, put_exists _ _ _, n1.symm,
    k2 _ (by simp; exact n1.symm) (put_exists _ _ _) _ s1, s2, fresh_values _ _, fresh_values _ _⟩

/-- The history theorem applies to a concrete history. -/
example : ∃ c h' es', (do let c ← create; runOps c [.pushFront 2, .pushFront 1, .insertAfterRange 2 [7, 8], .eraseAfter 1, .reverse,
    .insertAfterN 0 2 5, .eraseAfterRange 1 3]; pure c : Prog (Heap Nat) Addr) (blank Nat) = .ok (c, h') ∧ Observes h' c es' ∧
    es'.map Prod.snd = [5, 8, 7, 1] := by
  obtain ⟨c, h', es', q, o, e⟩ := new_list_history (blank_blank (T := Nat))
    [.pushFront 2, .pushFront 1, .insertAfterRange 2 [7, 8], .eraseAfter 1, .reverse, .insertAfterN 0 2 5, .eraseAfterRange 1 3]
    (by simp [OpsOk, Op.Ok, Op.apply])
  exact ⟨c, h', es', q, o, by rw [e]; rfl⟩

/-- Splicing the two middle elements of `[10, 20, 30, 40]` behind the first of `[1, 2]`. -/
example : ∃ (S : State Nat) (h : Heap Nat) (c d : Addr) (h' : Heap Nat) (es' fs' : List (Addr × Nat)), Reach S h ∧
    exec (.splice c 1 d 1 4) h = .ok ((), h') ∧ Shows h' c es' ∧ Shows h' d fs' ∧ es'.map Prod.snd = [1, 20, 30, 2] ∧ fs'.map Prod.snd = [10, 40] := by
  obtain ⟨S, h, c, d, es, fs, R, hc, hd, hcd, s1, s2, e1, e2⟩ := exists_lists [1, 2] [10, 20, 30, 40]
  have l1 : es.length = 2 := by have := congrArg List.length e1; simpa using this
  have l2 : fs.length = 4 := by have := congrArg List.length e2; simpa using this
  obtain ⟨h', q, a, b, _⟩ := splice_moves_partial R hc hd hcd s1 s2 (i := 1) (j := 1) (k := 4) (by omega) (by omega) (by omega)
  refine ⟨S, h, c, d, h', _, _, R, q, a, b, ?_, ?_⟩
  · simp only [List.map_append, List.map_take, List.map_drop, e1, e2]; rfl
  · simp only [List.map_append, List.map_take, List.map_drop, e2]; rfl

/-- The defect on a concrete case: splicing an empty list behind the first of `[1, 2, 3]` leaves `[1]`. -/
example : ∃ (S : State Nat) (h : Heap Nat) (c d : Addr) (h' : Heap Nat) (es' : List (Addr × Nat)), Reach S h ∧ Shows h d [] ∧
    exec (.spliceAll c 1 d) h = .ok ((), h') ∧ Shows h' c es' ∧ es'.map Prod.snd = [1] := by
  obtain ⟨S, h, c, d, es, fs, R, hc, hd, hcd, s1, s2, e1, e2⟩ := exists_lists [1, 2, 3] ([] : List Nat)
  have l1 : es.length = 3 := by have := congrArg List.length e1; simpa using this
  have l2 : fs = [] := by simpa using e2
  subst l2
  obtain ⟨h', q, a, _⟩ := splice_all_empty_loses R hc hd hcd s1 s2 (i := 1) (by omega)
  exact ⟨S, h, c, d, h', _, R, s2, q, a, by simp only [List.map_take, e1]; rfl⟩

end Verif.Seq.FwdProps
