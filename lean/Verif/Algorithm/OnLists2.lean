import Verif.Algorithm.OnLists
/-!
# The singly linked lists present their contents to the algorithms

`begin()` of these lists is the first node (`getNext c`), `end()` the null pointer.
-/
set_option linter.unusedVariables false
set_option linter.unusedSimpArgs false
namespace Verif.Gen
open Verif Verif.Seq
open Verif.Seq.DList (posOf posOf_nil posOf_cons Laid)
variable {T : Type}

theorem slist_window {h : Heap T} {c : Addr} {es : List (Addr × T)} (w : Wf h) (r : Slist h c es) :
    Window nodeIter (nodeAt 0 es) es.length (putVals h (es.map Prod.fst)) :=
  node_window (r.laid w) (List.nodup_cons.1 r.nodup).2

theorem slist_vals {h : Heap T} {c : Addr} {es : List (Addr × T)} (r : Slist h c es) : putVals h (es.map Prod.fst) (es.map Prod.snd) = h :=
  putVals_same es (fun e he => (r.data e he).2)

theorem slist_begin {h : Heap T} {c : Addr} {es : List (Addr × T)} (r : Slist h c es) : getNext c h = .ok (nodeAt 0 es 0, h) := by
  rw [getNext_eq r.head, r.next_head]; rfl

/-! ## ttl::forward_list -/
section FL
variable {S : FList.State T} {h : Heap T} {c d : Addr} {es fs : List (Addr × T)}

theorem fwd_values (R : FList.Reach S h) (hc : S c = some es) {ys : List T} (hy : ys.length = es.length) :
    FList.Reach (S.put c ((es.map Prod.fst).zip ys)) (putVals h (es.map Prod.fst) ys) := by
  have r0 := FList.World.sl R.world hc
  have W := slist_window R.world.wf r0
  refine all_values (P := fun ys => FList.Reach (S.put c ((es.map Prod.fst).zip ys)) (putVals h (es.map Prod.fst) ys)) (n := es.length) ?_ (xs := es.map Prod.snd) (by simp) hy ?_
  · intro xs hx R' i hi v
    have hc' := FwdProps.put_same S c ((es.map Prod.fst).zip xs)
    have r := FList.World.sl R'.world hc'
    have hl : ((es.map Prod.fst).zip xs).length = es.length := by simp [hx]
    have := FList.Reach.step (.store c i v) R' ⟨⟨_, hc'⟩, by rw [FwdProps.put_get, hl]; exact hi⟩ (h' := putVals h (es.map Prod.fst) (xs.set i v)) (by
      simp only [FList.exec, Prog.bind_app, r.posAt_elem (i := i) (by omega), Res.bind_ok, zip_drop_fst es hx]
      exact W.assign xs hx i hi v)
    simp only [FList.spec, FwdProps.put_get, zip_modify] at this
    have e : ∀ A B, (S.put c A).put c B = S.put c B := by
      intro A B; funext x; simp only [FList.State.put, upd]; split <;> rfl
    rwa [e] at this
  · rw [zip_self, slist_vals r0]
    have : S.put c es = S := by
      funext x; simp only [FList.State.put, upd]; split
      · rename_i q; rw [q, hc]
      · rfl
    rwa [this]

/-- After values were assigned through the iterators of the forward list `c`: a memory of a client program again, `c` has the same nodes with the
values `ys`, and the other lists are as before. -/
structure FwdOk (S : FList.State T) (h : Heap T) (c : Addr) (es : List (Addr × T)) (ys : List T) (h' : Heap T) : Prop where
  reach : FList.Reach (S.put c ((es.map Prod.fst).zip ys)) h'
  shows' : FwdProps.Shows h' c ((es.map Prod.fst).zip ys)
  kept : FwdProps.OthersKept S h h' [c]

theorem fwd_ok (R : FList.Reach S h) (hc : S c = some es) {ys : List T} (hy : ys.length = es.length) :
    FwdOk S h c es ys (putVals h (es.map Prod.fst) ys) := by
  have R' := fwd_values R hc hy
  refine ⟨R', ?_, ?_⟩
  · have := FwdProps.reach_shows R' (FwdProps.put_exists _ _ _)
    rwa [FwdProps.put_get] at this
  · intro d hd hx gs hg
    have hd : d ≠ c := by simpa using hd
    have := FwdProps.reach_shows R' (FwdProps.put_exists_other _ _ hx)
    rwa [FwdProps.put_get_other S _ hd, FwdProps.get_shown R hx hg] at this

/-- `begin()` and `end()` of a forward list, in every memory a client program can have, are forward iterators presenting its values. -/
theorem fwd_presents (R : FList.Reach S h) (hc : S.Exists c) (hs : FwdProps.Shows h c es) :
    getNext c h = .ok (nodeAt 0 es 0, h) ∧ nodeAt 0 es es.length = 0 ∧ Presents nodeIter (nodeAt 0 es) (es.map Prod.snd) h (FwdOk S h c es) := by
  obtain ⟨q, r⟩ := FwdProps.shown R hc hs
  refine ⟨slist_begin r, nodeAt_end es, putVals h (es.map Prod.fst), by simpa using slist_window R.world.wf r, slist_vals r, ?_⟩
  intro ys hy; exact fwd_ok R q (by simpa using hy)

/-- After values were assigned through iterators of two forward lists. -/
structure FwdOk2 (S : FList.State T) (h : Heap T) (c d : Addr) (es fs : List (Addr × T)) (xs ys : List T) (h' : Heap T) : Prop where
  reach : FList.Reach ((S.put c ((es.map Prod.fst).zip xs)).put d ((fs.map Prod.fst).zip ys)) h'
  shows1 : FwdProps.Shows h' c ((es.map Prod.fst).zip xs)
  shows2 : FwdProps.Shows h' d ((fs.map Prod.fst).zip ys)
  kept : FwdProps.OthersKept S h h' [c, d]

/-- Two different forward lists have no common objects. -/
theorem fwd_presents2 (R : FList.Reach S h) (hc : S.Exists c) (hd : S.Exists d) (hcd : c ≠ d) (hs : FwdProps.Shows h c es) (hs' : FwdProps.Shows h d fs) :
    Presents2 nodeIter (nodeAt 0 es) (es.map Prod.snd) nodeIter (nodeAt 0 fs) (fs.map Prod.snd) h (FwdOk2 S h c d es fs) := by
  obtain ⟨q, r⟩ := FwdProps.shown R hc hs
  obtain ⟨q', r'⟩ := FwdProps.shown R hd hs'
  have dj : ∀ a ∈ es.map Prod.fst, a ∉ fs.map Prod.fst := by
    intro a ha hb
    have := R.world.disj c _ d _ q q' hcd a (List.mem_cons_of_mem _ ha)
    exact this (List.mem_cons_of_mem _ hb)
  refine ⟨fun xs ys => putVals (putVals h (es.map Prod.fst) xs) (fs.map Prod.fst) ys, ?_, ?_, ?_⟩
  · have := node_window2 (r.laid R.world.wf) (List.nodup_cons.1 r.nodup).2 (r'.laid R.world.wf) (List.nodup_cons.1 r'.nodup).2 dj
    simpa using this
  · show putVals (putVals h _ _) _ _ = h; rw [slist_vals r, slist_vals r']
  · intro xs ys hx hy
    simp only [List.length_map] at hx hy
    have k1 := fwd_ok R q hx
    have k2 := fwd_ok k1.reach (c := d) (es := fs) (by rw [FwdProps.put_other _ _ hcd.symm]; exact q') hy
    refine ⟨k2.reach, k2.kept c (by simpa using hcd) (FwdProps.put_exists _ _ _) _ k1.shows', k2.shows', ?_⟩
    intro x hx' he gs hg
    simp only [List.mem_cons, List.not_mem_nil, or_false, not_or] at hx'
    exact k2.kept x (by simpa using hx'.2) (FwdProps.put_exists_other _ _ he) gs (k1.kept x (by simpa using hx'.1) he gs hg)
end FL

/-! ## ttl::backward_list -/
section BL
variable {S : BList.State T} {h : Heap T} {c d t : Addr} {es fs : List (Addr × T)}

theorem bwd_values (R : BList.Reach S h) (hc : S c = some ⟨es, t⟩) {ys : List T} (hy : ys.length = es.length) :
    BList.Reach (S.put c ((es.map Prod.fst).zip ys) t) (putVals h (es.map Prod.fst) ys) := by
  have r0 := BList.World.sl R.world hc
  have W := slist_window R.world.wf r0
  refine all_values (P := fun ys => BList.Reach (S.put c ((es.map Prod.fst).zip ys) t) (putVals h (es.map Prod.fst) ys)) (n := es.length) ?_ (xs := es.map Prod.snd) (by simp) hy ?_
  · intro xs hx R' i hi v
    have hc' := BList.put_same S c ((es.map Prod.fst).zip xs) t
    have r := BList.World.sl R'.world hc'
    have hl : ((es.map Prod.fst).zip xs).length = es.length := by simp [hx]
    have := BList.Reach.step (.store c i v) R' ⟨⟨_, hc'⟩, by rw [BwdProps.put_get, hl]; exact hi⟩ (h' := putVals h (es.map Prod.fst) (xs.set i v)) (by
      simp only [BList.exec, Prog.bind_app, r.posAt_elem (i := i) (by show i ≤ List.length _; omega), Res.bind_ok, zip_drop_fst es hx]
      exact W.assign xs hx i hi v)
    simp only [BList.spec, BwdProps.put_get, BwdProps.put_end, zip_modify] at this
    have e : ∀ A B, (S.put c A t).put c B t = S.put c B t := by
      intro A B; funext x; simp only [BList.State.put, upd]; split <;> rfl
    rwa [e] at this
  · rw [zip_self, slist_vals r0]
    have : S.put c es t = S := by
      funext x; simp only [BList.State.put, upd]; split
      · rename_i q; rw [q, hc]
      · rfl
    rwa [this]

/-- After values were assigned through the iterators of the backward list `c`: a memory of a client program again, `c` has the same nodes with the
values `ys` (and answers every observer right, if it did), and the other lists are as before. -/
structure BwdOk (S : BList.State T) (h : Heap T) (c : Addr) (es : List (Addr × T)) (ys : List T) (h' : Heap T) : Prop where
  reach : BList.Reach (S.put c ((es.map Prod.fst).zip ys) (S.endOf c)) h'
  shows' : BwdProps.Shows h' c ((es.map Prod.fst).zip ys)
  observes : BwdProps.Observes h c es → BwdProps.Observes h' c ((es.map Prod.fst).zip ys)
  kept : BwdProps.OthersKept S h h' [c]

theorem bwd_ok (R : BList.Reach S h) (hc : S c = some ⟨es, t⟩) {ys : List T} (hy : ys.length = es.length) :
    BwdOk S h c es ys (putVals h (es.map Prod.fst) ys) := by
  have R' := bwd_values R hc hy
  have sh := BwdProps.reach_shows R' (BwdProps.put_exists _ _ _ _)
  rw [BwdProps.put_get] at sh
  refine ⟨by rw [BList.end_some hc]; exact R', sh, ?_, ?_⟩
  · intro o
    have q := (BwdProps.observed R ⟨_, hc⟩ o).1
    rw [hc] at q
    have ht : t = lastOf c (es.map Prod.fst) := (BList.BState.mk.inj (Option.some.inj q)).2
    have q1 := BList.put_same S c ((es.map Prod.fst).zip ys) t
    refine BwdProps.observes_of R'.world.wf (BList.World.sl R'.world q1) ((BList.World.tl R'.world q1).trans ?_)
    rw [zip_fst_map es hy]; exact ht
  · exact BwdProps.kept_of R R' (fun d hd _ => BwdProps.put_other _ _ _ (by simpa using hd))

/-- `begin()` and `end()` of a backward list, in every memory a client program can have, are forward iterators presenting its values. -/
theorem bwd_presents (R : BList.Reach S h) (hc : S.Exists c) (hs : BwdProps.Shows h c es) :
    getNext c h = .ok (nodeAt 0 es 0, h) ∧ nodeAt 0 es es.length = 0 ∧ Presents nodeIter (nodeAt 0 es) (es.map Prod.snd) h (BwdOk S h c es) := by
  obtain ⟨t, q, r, _⟩ := BwdProps.shown R hc hs
  refine ⟨slist_begin r, nodeAt_end es, putVals h (es.map Prod.fst), by simpa using slist_window R.world.wf r, slist_vals r, ?_⟩
  intro ys hy; exact bwd_ok R q (by simpa using hy)

/-- After values were assigned through iterators of two backward lists. -/
structure BwdOk2 (S : BList.State T) (h : Heap T) (c d : Addr) (es fs : List (Addr × T)) (xs ys : List T) (h' : Heap T) : Prop where
  reach : BList.Reach ((S.put c ((es.map Prod.fst).zip xs) (S.endOf c)).put d ((fs.map Prod.fst).zip ys) (S.endOf d)) h'
  shows1 : BwdProps.Shows h' c ((es.map Prod.fst).zip xs)
  shows2 : BwdProps.Shows h' d ((fs.map Prod.fst).zip ys)
  kept : BwdProps.OthersKept S h h' [c, d]

/-- Two different backward lists have no common objects. -/
theorem bwd_presents2 (R : BList.Reach S h) (hc : S.Exists c) (hd : S.Exists d) (hcd : c ≠ d) (hs : BwdProps.Shows h c es) (hs' : BwdProps.Shows h d fs) :
    Presents2 nodeIter (nodeAt 0 es) (es.map Prod.snd) nodeIter (nodeAt 0 fs) (fs.map Prod.snd) h (BwdOk2 S h c d es fs) := by
  obtain ⟨t, q, r, _⟩ := BwdProps.shown R hc hs
  obtain ⟨t', q', r', _⟩ := BwdProps.shown R hd hs'
  have dj : ∀ a ∈ es.map Prod.fst, a ∉ fs.map Prod.fst := by
    intro a ha hb
    have := R.world.disj c _ d _ q q' hcd a (List.mem_cons_of_mem _ ha)
    exact this (List.mem_cons_of_mem _ hb)
  refine ⟨fun xs ys => putVals (putVals h (es.map Prod.fst) xs) (fs.map Prod.fst) ys, ?_, ?_, ?_⟩
  · have := node_window2 (r.laid R.world.wf) (List.nodup_cons.1 r.nodup).2 (r'.laid R.world.wf) (List.nodup_cons.1 r'.nodup).2 dj
    simpa using this
  · show putVals (putVals h _ _) _ _ = h; rw [slist_vals r, slist_vals r']
  · intro xs ys hx hy
    simp only [List.length_map] at hx hy
    have k1 := bwd_ok R q hx
    have qd : (S.put c ((es.map Prod.fst).zip xs) (S.endOf c)) d = some ⟨fs, t'⟩ := by rw [BwdProps.put_other _ _ _ hcd.symm]; exact q'
    have k2 := bwd_ok k1.reach (c := d) (es := fs) qd hy
    refine ⟨?_, (k2.kept c (by simpa using hcd) (BwdProps.put_exists _ _ _ _) _).1 k1.shows', k2.shows', ?_⟩
    · have := k2.reach
      rwa [BList.end_some qd, ← BList.end_some q'] at this
    · intro x hx' he gs
      simp only [List.mem_cons, List.not_mem_nil, or_false, not_or] at hx'
      have a := k1.kept x (by simpa using hx'.1) he gs
      have b := k2.kept x (by simpa using hx'.2) (BwdProps.put_exists_other _ _ _ he) gs
      exact ⟨fun z => b.1 (a.1 z), fun z => b.2 (a.2 z)⟩
end BL

/-! ## ttl::lazy_queue -/
section LQ
variable {triv : Bool} {S : LQueue.State T} {h : Heap T} {c d : Addr} {es fs : List (Addr × T)} {ns ms : List Addr}

theorem lazy_values (R : LQueue.Reach triv S h) (hc : S c = some ⟨es, ns⟩) {ys : List T} (hy : ys.length = es.length) :
    LQueue.Reach triv (S.put c ((es.map Prod.fst).zip ys) ns) (putVals h (es.map Prod.fst) ys) := by
  have r0 := LQueue.World.sl R.world hc
  have W := slist_window R.world.wf r0
  refine all_values (P := fun ys => LQueue.Reach triv (S.put c ((es.map Prod.fst).zip ys) ns) (putVals h (es.map Prod.fst) ys)) (n := es.length) ?_ (xs := es.map Prod.snd) (by simp) hy ?_
  · intro xs hx R' i hi v
    have hc' := LQueue.put_same S c ((es.map Prod.fst).zip xs) ns
    have r := LQueue.World.sl R'.world hc'
    have hl : ((es.map Prod.fst).zip xs).length = es.length := by simp [hx]
    have := LQueue.Reach.step (.store c i v) R' ⟨⟨_, hc'⟩, by rw [LazyProps.put_get, hl]; exact hi⟩ (h' := putVals h (es.map Prod.fst) (xs.set i v)) (by
      simp only [LQueue.exec, Prog.bind_app, r.posAt_elem (i := i) (by show i ≤ List.length _; omega), Res.bind_ok, zip_drop_fst es hx]
      exact W.assign xs hx i hi v)
    simp only [LQueue.spec, LazyProps.put_get, LazyProps.put_pool, zip_modify] at this
    have e : ∀ A B, (S.put c A ns).put c B ns = S.put c B ns := by
      intro A B; funext x; simp only [LQueue.State.put, upd]; split <;> rfl
    rwa [e] at this
  · rw [zip_self, slist_vals r0]
    have : S.put c es ns = S := by
      funext x; simp only [LQueue.State.put, upd]; split
      · rename_i q; rw [q, hc]
      · rfl
    rwa [this]

/-- After values were assigned through the iterators of the queue `c`: a memory of a client program again, `c` has the same nodes (and the same
pooled ones) with the values `ys`, and the other queues are as before. -/
structure LazyOk (triv : Bool) (S : LQueue.State T) (h : Heap T) (c : Addr) (es : List (Addr × T)) (ys : List T) (h' : Heap T) : Prop where
  reach : LQueue.Reach triv (S.put c ((es.map Prod.fst).zip ys) (S.pool c)) h'
  observes : LazyProps.Observes h' c ((es.map Prod.fst).zip ys)
  kept : LazyProps.OthersKept S h h' [c]

theorem lazy_ok (R : LQueue.Reach triv S h) (hc : S c = some ⟨es, ns⟩) {ys : List T} (hy : ys.length = es.length) :
    LazyOk triv S h c es ys (putVals h (es.map Prod.fst) ys) := by
  have R' := lazy_values R hc hy
  refine ⟨by rw [LQueue.pool_some hc]; exact R', ?_, LazyProps.kept_of R R'.world (fun d hd _ => LQueue.put_other _ (by simpa using hd) _ _)⟩
  have := LazyProps.reach_observes R' (LazyProps.put_exists _ _ _ _)
  rwa [LazyProps.put_get] at this

/-- `begin()` and `end()` of a lazy queue, in every memory a client program can have, are forward iterators presenting its values. -/
theorem lazy_presents (R : LQueue.Reach triv S h) (hc : S.Exists c) (o : LazyProps.Observes h c es) :
    getNext c h = .ok (nodeAt 0 es 0, h) ∧ nodeAt 0 es es.length = 0 ∧ Presents nodeIter (nodeAt 0 es) (es.map Prod.snd) h (LazyOk triv S h c es) := by
  obtain ⟨ns, q, r⟩ := LazyProps.observed R hc o
  refine ⟨slist_begin r.main, nodeAt_end es, putVals h (es.map Prod.fst), by simpa using slist_window R.world.wf r.main, slist_vals r.main, ?_⟩
  intro ys hy; exact lazy_ok R q (by simpa using hy)

/-- After values were assigned through iterators of two queues. -/
structure LazyOk2 (triv : Bool) (S : LQueue.State T) (h : Heap T) (c d : Addr) (es fs : List (Addr × T)) (xs ys : List T) (h' : Heap T) : Prop where
  reach : LQueue.Reach triv ((S.put c ((es.map Prod.fst).zip xs) (S.pool c)).put d ((fs.map Prod.fst).zip ys) (S.pool d)) h'
  observes1 : LazyProps.Observes h' c ((es.map Prod.fst).zip xs)
  observes2 : LazyProps.Observes h' d ((fs.map Prod.fst).zip ys)
  kept : LazyProps.OthersKept S h h' [c, d]

/-- Two different queues have no common objects. -/
theorem lazy_presents2 (R : LQueue.Reach triv S h) (hc : S.Exists c) (hd : S.Exists d) (hcd : c ≠ d) (o : LazyProps.Observes h c es) (o' : LazyProps.Observes h d fs) :
    Presents2 nodeIter (nodeAt 0 es) (es.map Prod.snd) nodeIter (nodeAt 0 fs) (fs.map Prod.snd) h (LazyOk2 triv S h c d es fs) := by
  obtain ⟨ns, q, r⟩ := LazyProps.observed R hc o
  obtain ⟨ms, q', r'⟩ := LazyProps.observed R hd o'
  have dj : ∀ a ∈ es.map Prod.fst, a ∉ fs.map Prod.fst := by
    intro a ha hb
    have := R.world.disj c _ d _ q q' hcd a (LQueue.mem_qcells.2 (.inl (List.mem_cons_of_mem _ ha)))
    exact this (LQueue.mem_qcells.2 (.inl (List.mem_cons_of_mem _ hb)))
  refine ⟨fun xs ys => putVals (putVals h (es.map Prod.fst) xs) (fs.map Prod.fst) ys, ?_, ?_, ?_⟩
  · have := node_window2 (r.main.laid R.world.wf) (List.nodup_cons.1 r.main.nodup).2 (r'.main.laid R.world.wf) (List.nodup_cons.1 r'.main.nodup).2 dj
    simpa using this
  · show putVals (putVals h _ _) _ _ = h; rw [slist_vals r.main, slist_vals r'.main]
  · intro xs ys hx hy
    simp only [List.length_map] at hx hy
    have k1 := lazy_ok R q hx
    have qd : (S.put c ((es.map Prod.fst).zip xs) (S.pool c)) d = some ⟨fs, ms⟩ := by rw [LQueue.put_other _ hcd.symm]; exact q'
    have k2 := lazy_ok k1.reach (c := d) (es := fs) qd hy
    refine ⟨?_, k2.kept c (by simpa using hcd) (LazyProps.put_exists _ _ _ _) _ k1.observes, k2.observes, ?_⟩
    · have := k2.reach
      rwa [LQueue.pool_some qd, ← LQueue.pool_some q'] at this
    · intro x hx' he gs hg
      simp only [List.mem_cons, List.not_mem_nil, or_false, not_or] at hx'
      exact k2.kept x (by simpa using hx'.2) (LazyProps.put_exists_other _ _ _ he) gs (k1.kept x (by simpa using hx'.1) he gs hg)
end LQ
end Verif.Gen
