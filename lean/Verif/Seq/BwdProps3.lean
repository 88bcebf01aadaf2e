import Verif.Seq.BwdProps2
/-!
# Properties of `ttl::backward_list`, continued: construction, swap, comparison, memory; concrete cases
-/
set_option linter.unusedVariables false
set_option linter.unusedSimpArgs false
set_option linter.unusedSectionVars false
namespace Verif.Seq.BwdProps
open Verif Verif.Seq.BList
open Verif.Seq.DList (Arg fresh insertAt slice cut Blank Relink split_at split_elem posOf posOf_cons posOf_nil)
open Verif.Seq.FwdProps (Keeps keeps_getNext keeps_setNext Keeps.bind Keeps.ite Keeps.pure)
variable {T : Type} {h : Heap T} {S : State T} {c d t u : Addr} {es fs : List (Addr × T)}

theorem keeps_getTail (x : Addr) : Keeps (getTail x : Prog (Heap T) Addr) := by
  intro h a h' q
  by_cases l : h.live x = true
  · rw [getTail_eq l] at q; cases q; exact ⟨rfl, rfl, rfl⟩
  · simp [getTail, l] at q
theorem keeps_setTail (x y : Addr) : Keeps (setTail x y : Prog (Heap T) Unit) := by
  intro h a h' q
  by_cases l : h.live x = true
  · rw [setTail_eq l] at q; cases q; exact ⟨rfl, rfl, rfl⟩
  · simp [setTail, l] at q

theorem not_exists_fresh (R : Reach S h) : ¬ S.Exists h.fresh := by
  rintro ⟨s, q⟩
  exact R.world.wf.ne_fresh (iface.live (R.world.own _ _ q) _ (iface.self _ _)) rfl

theorem slist_of (R : Reach S h) (hc : S.Exists c) (hs : Shows h c es) : Slist h c es := by
  obtain ⟨t, _, r, _⟩ := shown R hc hs; exact r

/-! ## Construction -/

/-- `backward_list()`: a new empty list. -/
theorem construct_empty (R : Reach S h) :
    ∃ h' c S', create h = .ok (c, h') ∧ Reach S' h' ∧ S'.Exists c ∧ ¬ S.Exists c ∧ Observes h' c ([] : List (Addr × T)) ∧ OthersKept S h h' [c] := by
  obtain ⟨h', q, R', ob, k⟩ := one_healthy (c := h.fresh) R .create trivial rfl rfl
  obtain ⟨h2, q2, _⟩ := create_good (T := T) R.world
  have e : h' = h2 := by
    have : exec .create h = .ok ((), h2) := by simp only [exec, Prog.bind_app, q2, Res.bind_ok, Prog.pure_app]
    rw [q] at this; cases this; rfl
  subst e
  exact ⟨h', h.fresh, _, q2, R', put_exists _ _ _ _, not_exists_fresh R, ob, k⟩

/-- `backward_list(n, v)`: a new list of `n` copies of the value `v` refers to (possibly an element of a list). -/
theorem construct_n (R : Reach S h) (n : Nat) {value : Arg T} {v : T} (rf : S.Refers v value) :
    ∃ h' c ns S', ctorN n value h = .ok (c, h') ∧ Reach S' h' ∧ S'.Exists c ∧ ¬ S.Exists c ∧ Observes h' c ns ∧ NewNodes h ns (List.replicate n v) ∧
      OthersKept S h h' [c] := by
  obtain ⟨h', q, R', ob, k⟩ := one_healthy (c := h.fresh) R (.ctorN n value) ⟨v, rf⟩ rfl (lastPos_eq _ _)
  obtain ⟨h2, q2, _, _⟩ := ctorN_good R.world n rf
  have e : h' = h2 := by
    have : exec (.ctorN n value) h = .ok ((), h2) := by simp only [exec, Prog.bind_app, q2, Res.bind_ok, Prog.pure_app]
    rw [q] at this; cases this; rfl
  subst e
  rw [copies_eq R.world rf] at ob
  exact ⟨h', h.fresh, _, _, q2, R', put_exists _ _ _ _, not_exists_fresh R, ob, newNodes R (Nat.le_succ _) _, k⟩

/-- `insert_after(pos, n, v)` also works when `v` refers to an element of the list itself or of another list. -/
theorem insert_n_own_element (R : Reach S h) (hc : S.Exists c) (hd : S.Exists d) (ob : Observes h c es)
    (hf : Shows h d fs) {e : Addr × T} (he : e ∈ fs) {i : Nat} (hi : i ≤ es.length) (n : Nat) :
    ∃ h' ns, exec (.insertN c i n (.elem e.1)) h = .ok ((), h') ∧ Observes h' c (es.take i ++ (ns ++ es.drop i)) ∧
      NewNodes h ns (List.replicate n e.2) ∧ OthersKept S h h' [c] := by
  obtain ⟨hc', r⟩ := observed R hc ob
  obtain ⟨u, hd', s, _⟩ := shown R hd hf
  have rf : S.Refers e.2 (.elem e.1) := ⟨d, _, hd', he⟩
  obtain ⟨h', q, R', ob', k⟩ := one_healthy (c := c) R (.insertN c i n (.elem e.1)) ⟨hc, by rw [get_some hc']; exact hi, _, rf⟩ rfl (by
    rw [get_some hc', end_some hc', posI_eq, lastPos_eq]
    simp only [pos_is_last r hi]
    split
    · rename_i q; subst q
      rw [insert_end, List.map_append, lastOf_append]
    · exact (last_insert (by omega) _).symm)
  rw [get_some hc', copies_eq R.world rf] at ob'
  exact ⟨h', _, q, ob', newNodes R (Nat.le_refl _) _, k⟩

/-! ## Swap and reverse -/

theorem swap_keeps (c d : Addr) : Keeps (exec (.swap c d) : Prog (Heap T) Unit) := by
  unfold exec BList.swap
  repeat' (first | apply Keeps.bind | apply keeps_getNext | apply keeps_setNext | apply keeps_getTail | apply keeps_setTail | intro _)

/-- `a.swap(b)` exchanges the elements two lists show, in their nodes, whatever the lists hold; nothing is allocated, released or
copied. (See `swap_with_empty_breaks` for `before_end()`.) -/
theorem swap_contents (R : Reach S h) (hc : S.Exists c) (hd : S.Exists d) (hcd : c ≠ d) (hs : Shows h c es) (hf : Shows h d fs) :
    ∃ h', exec (.swap c d) h = .ok ((), h') ∧ Shows h' c fs ∧ Shows h' d es ∧ NoAlloc h h' ∧ OthersKept S h h' [c, d] := by
  obtain ⟨t, hc', r, _⟩ := shown R hc hs
  obtain ⟨u, hd', s, _⟩ := shown R hd hf
  obtain ⟨h1, q1, R1⟩ := call_returns R (.swap c d) ⟨hc, hd⟩
  have e : spec S h.fresh (.swap c d) = (S.put c fs u).put d es t := by
    simp only [spec, get_some hc', get_some hd', end_some hc', end_some hd']
  rw [e] at R1
  have ec : ((S.put c fs u).put d es t) c = some ⟨fs, u⟩ := by rw [put_other _ _ _ hcd]; exact put_same _ _ _ _
  have ed := put_same (S.put c fs u) d es t
  refine ⟨h1, q1, (World.sl R1.world ec).entries R1.world.wf, (World.sl R1.world ed).entries R1.world.wf, swap_keeps c d h _ _ q1, kept_of R R1 ?_⟩
  intro x hx _
  simp only [List.mem_cons, List.not_mem_nil, or_false, not_or] at hx
  rw [put_other _ _ _ hx.2, put_other _ _ _ hx.1]

/-- `a.swap(b)` of two non-empty lists: all observers of both lists agree with the exchange. -/
theorem swap_swaps_partial (R : Reach S h) (hc : S.Exists c) (hd : S.Exists d) (hcd : c ≠ d) (oc : Observes h c es) (od : Observes h d fs)
    (he : es ≠ []) (hf : fs ≠ []) :
    ∃ h' S', exec (.swap c d) h = .ok ((), h') ∧ Reach S' h' ∧ S'.Exists c ∧ S'.Exists d ∧ Observes h' c fs ∧ Observes h' d es ∧ NoAlloc h h' ∧
      OthersKept S h h' [c, d] := by
  obtain ⟨hc', r⟩ := observed R hc oc
  obtain ⟨hd', s⟩ := observed R hd od
  obtain ⟨h1, q1, R1⟩ := call_returns R (.swap c d) ⟨hc, hd⟩
  obtain ⟨h2, q2, _, _, na, k⟩ := swap_contents R hc hd hcd oc.shows od.shows
  rw [q1] at q2; cases q2
  have e : spec S h.fresh (.swap c d) = (S.put c fs (lastOf d (fs.map Prod.fst))).put d es (lastOf c (es.map Prod.fst)) := by
    simp only [spec, get_some hc', get_some hd', end_some hc', end_some hd']
  rw [e] at R1
  have ec : ((S.put c fs (lastOf d (fs.map Prod.fst))).put d es (lastOf c (es.map Prod.fst))) c = some ⟨fs, lastOf d (fs.map Prod.fst)⟩ := by
    rw [put_other _ _ _ hcd]; exact put_same _ _ _ _
  have ed := put_same (S.put c fs (lastOf d (fs.map Prod.fst))) d es (lastOf c (es.map Prod.fst))
  refine ⟨h1, _, q1, R1, ⟨_, ec⟩, ⟨_, ed⟩, ?_, ?_, na, k⟩
  · exact observes_of R1.world.wf (World.sl R1.world ec) ((World.tl R1.world ec).trans (lastOf_indep (by simpa using hf) _ _))
  · exact observes_of R1.world.wf (World.sl R1.world ed) ((World.tl R1.world ed).trans (lastOf_indep (by simpa using he) _ _))

/-- Swapping a list with itself changes nothing. -/
theorem swap_self (R : Reach S h) (hc : S.Exists c) : exec (.swap c c) h = .ok ((), h) := by
  obtain ⟨es, t, hc'⟩ := exists_mk hc
  have e1 : ∀ f : Addr → Addr, upd (upd f c (f c)) c (f c) = f := by
    intro f; funext x; unfold upd; split
    · rename_i hx; rw [hx]
    · rfl
  have := swap_eq (World.sl R.world hc').head (World.sl R.world hc').head
  unfold bswp swpA at this
  simp only [e1] at this
  exact this

/-- `reverse()` of a non-empty list leaves the same nodes with the same values in opposite order, all observers agree, whatever
`before_end()` was before. -/
theorem reverse_reverses_partial (R : Reach S h) (hc : S.Exists c) (hs : Shows h c es) (hne : es ≠ []) :
    ∃ h', exec (.reverse c) h = .ok ((), h') ∧ Observes h' c es.reverse ∧ OthersKept S h h' [c] := by
  obtain ⟨t, hc', r, _⟩ := shown R hc hs
  obtain ⟨h1, q1, R1, ob, k⟩ := one_healthy (c := c) R (.reverse c) hc rfl (by
    rw [get_some hc', firstPos_eq]
    cases es with
    | nil => exact absurd rfl hne
    | cons e es => simp only [List.reverse_cons, List.map_append, List.map_cons, List.map_nil, lastOf_concat, posOf_cons])
  rw [get_some hc'] at ob
  exact ⟨h1, q1, ob, k⟩

/-! ## Comparison -/

/-- `a == b`, with any `operator==` of the elements, answers whether the two lists have the same length and hold equal elements at
corresponding positions, and changes nothing. -/
theorem equal_compares (eqv : T → T → Bool) (R : Reach S h) (hc : S.Exists c) (hd : S.Exists d) (hs : Shows h c es) (hf : Shows h d fs) :
    ∃ b, SList.equals eqv c d h = .ok (b, h) ∧
      (b = true ↔ es.length = fs.length ∧ ∀ (i : Nat) x y, es[i]? = some x → fs[i]? = some y → eqv x.2 y.2 = true) :=
  ⟨_, Slist.equals R.world.wf (slist_of R hc hs) (slist_of R hd hf), DList.same_iff⟩

/-- For an `operator==` that decides equality, `a == b` decides whether the sequences of values are equal. -/
theorem equal_compares_values [DecidableEq T] (R : Reach S h) (hc : S.Exists c) (hd : S.Exists d) (hs : Shows h c es) (hf : Shows h d fs) :
    SList.equals (fun x y => decide (x = y)) c d h = .ok (decide (es.map Prod.snd = fs.map Prod.snd), h) := by
  obtain ⟨b, q, i⟩ := equal_compares (fun x y => decide (x = y)) R hc hd hs hf
  rw [q, DList.same_values i]

/-- `a != b`, with any `operator==` of the elements, holds iff the lengths differ or some corresponding elements are not equal;
nothing changes. -/
theorem not_equal_compares (eqv : T → T → Bool) (R : Reach S h) (hc : S.Exists c) (hd : S.Exists d) (hs : Shows h c es) (hf : Shows h d fs) :
    ∃ b, SList.notEquals eqv c d h = .ok (b, h) ∧
      (b = true ↔ es.length ≠ fs.length ∨ ∃ (i : Nat) (x y : Addr × T), es[i]? = some x ∧ fs[i]? = some y ∧ eqv x.2 y.2 = false) := by
  obtain ⟨b, q, i⟩ := equal_compares eqv R hc hd hs hf
  refine ⟨!b, by simp only [SList.notEquals, Prog.bind_app, q, Res.bind_ok, Prog.pure_app], ?_⟩
  exact DList.negated i

/-! ## Memory -/

/-- What is allocated is exactly the existing lists and their elements: no leaks, and no list element is dangling. -/
theorem no_leak (R : Reach S h) (x : Addr) :
    h.live x = true ↔ ∃ c es, S.Exists c ∧ Shows h c es ∧ (x = c ∨ x ∈ es.map Prod.fst) := by
  constructor
  · intro l
    obtain ⟨c, ⟨gs, t⟩, hs, hx⟩ := R.world.tight x l
    refine ⟨c, _, ⟨_, hs⟩, reach_shows R ⟨_, hs⟩, ?_⟩
    rw [get_some hs]
    simpa only [iface, scells, List.mem_cons] using hx
  · rintro ⟨c, es, hc, hs, hx⟩
    obtain ⟨t, hc', r, _⟩ := shown R hc hs
    refine r.live x ?_
    simpa only [scells, List.mem_cons] using hx

/-- No node belongs to two lists, nor twice to one list. -/
theorem lists_disjoint (R : Reach S h) (hc : S.Exists c) (hd : S.Exists d) (hs : Shows h c es) (hf : Shows h d fs) :
    (es.map Prod.fst).Nodup ∧ (c ≠ d → ∀ e ∈ es, ∀ f ∈ fs, e.1 ≠ f.1) := by
  obtain ⟨t, hc', r, _⟩ := shown R hc hs
  obtain ⟨u, hd', s, _⟩ := shown R hd hf
  refine ⟨(List.nodup_cons.1 r.nodup).2, ?_⟩
  intro hcd e he f hf q
  refine R.world.disj c _ d _ hc' hd' hcd e.1 ?_ ?_
  · simp only [iface, scells, List.mem_cons]; exact .inr (List.mem_map_of_mem he)
  · rw [q]; simp only [iface, scells, List.mem_cons]; exact .inr (List.mem_map_of_mem hf)

/-- The destructor releases exactly the list and its nodes. -/
theorem destroy_frees (R : Reach S h) (hc : S.Exists c) (hs : Shows h c es) :
    ∃ h', exec (.destroy c) h = .ok ((), h') ∧ (∀ x, h'.live x = (h.live x && decide (x ≠ c ∧ x ∉ es.map Prod.fst))) ∧ OthersKept S h h' [c] := by
  obtain ⟨h', q, R'⟩ := call_returns R (.destroy c) hc
  obtain ⟨t, hc', r, _⟩ := shown R hc hs
  have gone : ¬ (spec S h.fresh (.destroy c)).Exists c := by
    rintro ⟨s, q⟩
    have : (none : Option (BState T)) = some s := (upd_same S c none).symm.trans q
    cases this
  have same : ∀ d, d ≠ c → spec S h.fresh (.destroy c) d = S d := fun d hd => upd_other _ _ hd
  have kept : OthersKept S h h' [c] := by
    refine kept_of R R' fun d hd hx => same d (by simpa using hd)
  refine ⟨h', q, ?_, kept⟩
  intro x
  have a := no_leak R x
  have b := no_leak R' x
  have own : ∀ d fs, S.Exists d → Shows h d fs → (x = d ∨ x ∈ fs.map Prod.fst) → (x = c ∨ x ∈ es.map Prod.fst) → d = c := by
    intro d fs hd hf h1 h2
    obtain ⟨u, hd', _, _⟩ := shown R hd hf
    by_cases hcd : d = c
    · exact hcd
    · exfalso
      refine R.world.disj d _ c _ hd' hc' hcd x ?_ ?_
      · simpa only [iface, scells, List.mem_cons] using h1
      · simpa only [iface, scells, List.mem_cons] using h2
  have key : h'.live x = true ↔ h.live x = true ∧ (x ≠ c ∧ x ∉ es.map Prod.fst) := by
    rw [a, b]
    constructor
    · rintro ⟨d, fs, hd, hf, hx⟩
      have hdc : d ≠ c := fun q => gone (q ▸ hd)
      have hd0 : S.Exists d := by obtain ⟨t, q⟩ := hd; exact ⟨t, by rw [← same d hdc]; exact q⟩
      have hf0 : Shows h d (S.get d) := reach_shows R hd0
      have : fs = S.get d := hf.inj ((kept d (by simpa using hdc) hd0 _).1 hf0)
      subst this
      refine ⟨⟨d, _, hd0, hf0, hx⟩, ?_, ?_⟩
      · intro q; exact hdc (own d _ hd0 hf0 hx (.inl q))
      · intro q; exact hdc (own d _ hd0 hf0 hx (.inr q))
    · rintro ⟨⟨d, fs, hd, hf, hx⟩, n1, n2⟩
      have hdc : d ≠ c := by
        intro q; subst q
        rw [hf.inj hs] at hx
        rcases hx with q | q
        · exact n1 q
        · exact n2 q
      refine ⟨d, fs, ?_, (kept d (by simpa using hdc) hd fs).1 hf, hx⟩
      obtain ⟨t, q⟩ := hd; exact ⟨t, by rw [same d hdc]; exact q⟩
  cases l : h.live x <;> cases l' : h'.live x <;> simp_all

/-! ## Elements never move -/

/-- The calls that neither remove nor overwrite elements. -/
def Preserving : Call T → Prop
  | .destroy _ | .popFront _ | .erase _ _ | .eraseRange _ _ _ | .clear _ | .assign _ _ | .assignN _ _ _ | .assignVals _ _ | .store _ _ _ => False
  | _ => True

theorem stay_one {e : Addr × T} {es' : List (Addr × T)} (he : e ∈ S.get d) (hd : S.Exists d) (sub : ∀ x ∈ S.get c, x ∈ es') :
    ∃ d', (S.put c es' t).Exists d' ∧ e ∈ (S.put c es' t).get d' := by
  by_cases hcd : d = c
  · subst hcd; exact ⟨d, put_exists _ _ _ _, by rw [put_get]; exact sub e he⟩
  · obtain ⟨t, ht⟩ := hd
    exact ⟨d, ⟨t, by rw [put_other _ _ _ hcd]; exact ht⟩, by rw [put_get_other _ _ _ hcd]; exact he⟩

theorem stay_two {e : Addr × T} {b : Addr} {es' fs' : List (Addr × T)} (hab : c ≠ b) (he : e ∈ S.get d) (hd : S.Exists d)
    (sub : ∀ x, x ∈ S.get c ∨ x ∈ S.get b → x ∈ es' ∨ x ∈ fs') :
    ∃ d', ((S.put c es' t).put b fs' u).Exists d' ∧ e ∈ ((S.put c es' t).put b fs' u).get d' := by
  have r1 : ((S.put c es' t).put b fs' u).Exists c ∧ ((S.put c es' t).put b fs' u).get c = es' :=
    ⟨⟨_, by rw [put_other _ _ _ hab]; exact put_same _ _ _ _⟩, by rw [put_get_other _ _ _ hab, put_get]⟩
  have r2 : ((S.put c es' t).put b fs' u).Exists b ∧ ((S.put c es' t).put b fs' u).get b = fs' := ⟨put_exists _ _ _ _, put_get _ _ _ _⟩
  have fin : (e ∈ es' ∨ e ∈ fs') → ∃ d', ((S.put c es' t).put b fs' u).Exists d' ∧ e ∈ ((S.put c es' t).put b fs' u).get d' := by
    rintro (q | q)
    · exact ⟨c, r1.1, by rw [r1.2]; exact q⟩
    · exact ⟨b, r2.1, by rw [r2.2]; exact q⟩
  by_cases h1 : d = c
  · subst h1; exact fin (sub e (.inl he))
  · by_cases h2 : d = b
    · subst h2; exact fin (sub e (.inr he))
    · obtain ⟨t, ht⟩ := hd
      exact ⟨d, ⟨t, by rw [put_other _ _ _ h2, put_other _ _ _ h1]; exact ht⟩, by rw [put_get_other _ _ _ h2, put_get_other _ _ _ h1]; exact he⟩

/-- A call that is not a removal leaves every element of every list at its address with its value, in one of the lists: iterators,
pointers and references to elements stay valid. -/
theorem elements_stay (R : Reach S h) (k : Call T) (lg : Legal S k) (pr : Preserving k) :
    ∃ h' S', exec k h = .ok ((), h') ∧ Reach S' h' ∧ ∀ d es, S.Exists d → Shows h d es → ∀ e ∈ es,
      ∃ d' es', S'.Exists d' ∧ Shows h' d' es' ∧ e ∈ es' := by
  obtain ⟨h', q, R'⟩ := call_returns R k lg
  refine ⟨h', _, q, R', ?_⟩
  intro d es hd hs e he
  suffices ∃ d', (spec S h.fresh k).Exists d' ∧ e ∈ (spec S h.fresh k).get d' by
    obtain ⟨d', h1, h2⟩ := this
    exact ⟨d', _, h1, reach_shows R' h1, h2⟩
  rw [← get_shown R hd hs] at he
  have new : ∀ x ∈ S.get h.fresh, False := by
    intro x hx
    cases q : S h.fresh with
    | none => simp [State.get, q] at hx
    | some s => exact not_exists_fresh R ⟨s, q⟩
  cases k with
  | create => exact stay_one he hd fun x hx => (new x hx).elim
  | copyOf s => exact stay_one he hd fun x hx => (new x hx).elim
  | ctorN n v => exact stay_one he hd fun x hx => (new x hx).elim
  | ctorVals vs => exact stay_one he hd fun x hx => (new x hx).elim
  | pushFront c v => exact stay_one he hd fun x hx => List.mem_cons_of_mem _ hx
  | insert c i v => exact stay_one he hd fun x hx => mem_insertAt.2 (.inr hx)
  | insertN c i n v => exact stay_one he hd fun x hx => mem_insertAt.2 (.inr hx)
  | insertVals c i vs => exact stay_one he hd fun x hx => mem_insertAt.2 (.inr hx)
  | insertList c i d => exact stay_one he hd fun x hx => mem_insertAt.2 (.inr hx)
  | reverse c => exact stay_one he hd fun x hx => List.mem_reverse.2 hx
  | pushBack c v => exact stay_one he hd fun x hx => mem_insertAt.2 (.inr hx)
  | swap c b =>
    by_cases hcd : c = b
    · subst hcd
      refine ⟨d, ?_, ?_⟩
      · exact put_exists_other _ _ _ (put_exists_other _ _ _ hd)
      · show e ∈ ((S.put c (S.get c) (S.endOf c)).put c (S.get c) (S.endOf c)).get d
        by_cases q : d = c
        · subst q; rw [put_get]; exact he
        · rw [put_get_other _ _ _ q, put_get_other _ _ _ q]; exact he
    · exact stay_two hcd he hd fun x hx => hx.symm
  | _ => exact pr.elim

/-! ## Concrete cases -/

/-- For any two sequences of values there is a reachable memory with two lists holding them, with all observers right: the hypotheses of the
theorems above are met by lists of every length. -/
theorem exists_lists (vs ws : List T) : ∃ (S : State T) (h : Heap T) (c d : Addr) (es fs : List (Addr × T)), Reach S h ∧ S.Exists c ∧ S.Exists d ∧ c ≠ d ∧
    Observes h c es ∧ Observes h d fs ∧ es.map Prod.snd = vs ∧ fs.map Prod.snd = ws := by
  have R0 := Reach.start (blank_blank (T := T))
  have ap : ∀ (vs ws : List T), applyOps (vs.map Op.pushBack) ws = ws ++ vs := by
    intro vs
    induction vs with
    | nil => intro ws; simp [applyOps]
    | cons v vs ih => intro ws; simp only [applyOps, List.map_cons, List.foldl_cons] at ih ⊢; rw [ih]; simp [Op.apply]
  have ok : ∀ (vs ws : List T), OpsOk (fun o vs => o.Pre vs ∧ o.Safe vs) (vs.map Op.pushBack) ws := by
    intro vs
    induction vs with
    | nil => intro ws; trivial
    | cons v vs ih => intro ws; exact ⟨⟨trivial, trivial⟩, ih _⟩
  obtain ⟨h1, q1, R1, o1, _⟩ := one_healthy (c := (blank T).fresh) R0 .create trivial rfl rfl
  have n1 : h1.fresh ≠ (blank T).fresh := by
    have := R1.world.wf.ne_fresh (iface.live (R1.world.own _ _ (put_same _ _ _ _)) _ (iface.self _ _))
    exact this.symm
  obtain ⟨h2, q2, R2, o2, k2⟩ := one_healthy (c := h1.fresh) R1 .create trivial rfl rfl
  have o1' := (k2 _ (by simpa using n1.symm) (put_exists _ _ _ _) _).2 o1
  obtain ⟨h3, es, S3, q3, R3, x3, o3, e3, k3, xs3⟩ := list_history_partial (vs.map Op.pushBack) R2 (put_exists_other _ _ _ (put_exists _ _ _ _)) o1' rfl (ok vs [])
  have o2' := (k3 _ (by simpa using n1) (put_exists _ _ _ _) _).2 o2
  obtain ⟨h4, fs, S4, q4, R4, x4, o4, e4, k4, xs4⟩ := list_history_partial (ws.map Op.pushBack) R3 (xs3 _ (put_exists _ _ _ _)) o2' rfl (ok ws [])
  refine ⟨S4, h4, _, _, es, fs, R4, xs4 _ x3, x4, n1.symm, (k4 _ (by simpa using n1.symm) x3 _).2 o3, o4, ?_, ?_⟩
  · rw [e3, List.map_nil, ap, List.nil_append]
  · rw [e4, List.map_nil, ap, List.nil_append]

/-- The history theorem applies to a concrete history. -/
example : ∃ c h' es', (do let c ← create; runOps c [.pushFront 2, .pushBack 3, .pushFront 1, .insertAfterRange 2 [7, 8], .eraseAfter 4, .reverse,
    .pushBack 9, .insertAfterN 5 2 5, .eraseAfterRange 1 3, .popFront]; pure c : Prog (Heap Nat) Addr) (blank Nat) = .ok (c, h') ∧ Observes h' c es' ∧
    es'.map Prod.snd = [2, 1, 9, 5, 5] := by
  obtain ⟨c, h', es', q, o, e⟩ := new_list_history_partial (blank_blank (T := Nat))
    [.pushFront 2, .pushBack 3, .pushFront 1, .insertAfterRange 2 [7, 8], .eraseAfter 4, .reverse,
    .pushBack 9, .insertAfterN 5 2 5, .eraseAfterRange 1 3, .popFront]
    (by simp [OpsOk, Op.Pre, Op.Safe, Op.apply])
  exact ⟨c, h', es', q, o, by rw [e]; rfl⟩

/-- The defect on a concrete case: a copy of `[1, 2]` says it is empty, and after `push_back(3)` it is `[3, 1, 2]`. -/
example : ∃ (S : State Nat) (h : Heap Nat) (d c : Addr) (h1 h2 : Heap Nat) (es : List (Addr × Nat)), Reach S h ∧ copyCtor d h = .ok (c, h1) ∧
    BList.empty c h1 = .ok (true, h1) ∧ exec (.pushBack c 3) h1 = .ok ((), h2) ∧ Shows h2 c es ∧ es.map Prod.snd = [3, 1, 2] := by
  obtain ⟨S, h, c, d, es, fs, R, hc, hd, hcd, o1, o2, e1, e2⟩ := exists_lists [1] [1, 2]
  obtain ⟨h1, c, ns, _, q, _, _, _, s, nn, _, em, p⟩ := copy_loses_end R hd o2.shows
  obtain ⟨h2, n, q2, s2⟩ := p 3
  exact ⟨S, h, d, c, h1, h2, _, R, q, em, q2, s2, by simp [nn.values, e2]⟩

end Verif.Seq.BwdProps
