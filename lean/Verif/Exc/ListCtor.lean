import Verif.Exc.ListProps
import Verif.Seq.ListProps5
/-!
# Constructors of `ttl::list` that throw (C127), and examples
-/
set_option linter.unusedVariables false
set_option linter.unusedSimpArgs false
set_option linter.unusedSectionVars false
namespace Verif.Exc.XList
open Verif Verif.Seq Verif.Seq.DList Verif.Seq.ListProps Verif.Exc
variable {T : Type} {S : State T} {h h' : Heap T} {c d : Addr} {es fs : List (Addr × T)}

/-- Memory `t` differs from memory `h` by nodes that hold the values `vs` and belong to no list: they can never be released. -/
structure Leaked (S : State T) (h t : Heap T) (vs : List T) : Prop where
  /-- storage in use after: the storage in use before, and one more node for each of `vs` -/
  live : ∀ x, t.live x = true ↔ h.live x = true ∨ ∃ j, j < vs.length ∧ x = h.fresh + 1 + j
  /-- the elements are there -/
  values : ∀ (j : Nat) (v : T), vs[j]? = some v → getVal (h.fresh + 1 + j) t = .ok (v, t)
  /-- every list is what it was -/
  others : ∀ d, S.Exists d → ∀ fs, Shows h d fs → Shows t d fs
  /-- the allocator goes on beyond the storage in use -/
  wf : Wf t

theorem fresh_get : ∀ (vs : List T) (a j : Nat), (fresh a vs)[j]? = vs[j]?.map fun v => (a + j, v)
  | [], a, j => by simp [fresh]
  | v :: vs, a, 0 => by simp [fresh]
  | v :: vs, a, j + 1 => by simp [fresh, fresh_get vs (a + 1) j, Nat.add_assoc, Nat.add_comm 1 j]

theorem mem_fresh {vs : List T} {a x : Nat} : x ∈ (fresh a vs).map Prod.fst ↔ ∃ j, j < vs.length ∧ x = a + j := by
  rw [List.mem_iff_getElem?]
  simp only [List.getElem?_map, fresh_get]
  constructor
  · rintro ⟨j, e⟩
    cases q : vs[j]? with
    | none => rw [q] at e; simp at e
    | some v =>
      rw [q] at e
      exact ⟨j, (List.getElem?_eq_some_iff.1 q).1, by simpa using e.symm⟩
  · rintro ⟨j, l, rfl⟩
    exact ⟨j, by simp [List.getElem?_eq_getElem l]⟩

theorem wf_freed {t : Heap T} (w : Wf t) (p : Addr) : Wf { t with live := upd t.live p false } := by
  have k : ∀ x, upd t.live p false x = true → t.live x = true := by
    intro x
    by_cases e : x = p
    · subst e; rw [upd_same]; intro q; cases q
    · rw [upd_other _ _ e]; exact id
  refine ⟨w.pos, ?_, fun x l => w.used x (k x l)⟩
  cases q : upd t.live p false 0 with
  | false => exact q
  | true => have := k 0 q; rw [w.null] at this; cases this

/-- The object under construction disappears, its elements stay. -/
theorem leaked_of (R : Reach S h) {vs : List T} {t : Heap T} (R' : Reach (S.put h.fresh (fresh (h.fresh + 1) vs)) t) :
    ∃ t', freeRaw h.fresh t = .ok ((), t') ∧ Leaked S h t' vs := by
  have r := World.ring R'.world (put_same S h.fresh _)
  have nf : ∀ d, S.Exists d → d ≠ h.fresh := by
    rintro d ⟨s, q⟩
    exact R.world.wf.ne_fresh (World.laid R.world q).2.1
  have own : ∀ x, t.live x = true ↔ h.live x = true ∨ x = h.fresh ∨ ∃ j, j < vs.length ∧ x = h.fresh + 1 + j := by
    intro x
    constructor
    · intro l
      obtain ⟨c, s, q, m⟩ := R'.world.tight x l
      by_cases e : c = h.fresh
      · subst e
        rw [put_same] at q; cases q
        rcases List.mem_cons.1 m with m | m
        · exact .inr (.inl m)
        · exact .inr (.inr (mem_fresh.1 m))
      · rw [put_other _ _ e] at q
        exact .inl (iface.live (R.world.own c s q) x m)
    · rintro (l | rfl | m)
      · obtain ⟨c, s, q, m⟩ := R.world.tight x l
        have e := nf c ⟨s, q⟩
        exact iface.live (R'.world.own c s (by rw [put_other _ _ e]; exact q)) x m
      · exact r.head
      · exact r.live x (List.mem_cons_of_mem _ (mem_fresh.2 m))
  refine ⟨_, freeRaw_eq r.head, ?_, ?_, ?_, (wf_freed R'.world.wf h.fresh)⟩
  · intro x
    show upd t.live h.fresh false x = true ↔ _
    by_cases e : x = h.fresh
    · subst e
      rw [upd_same]
      constructor
      · intro q; cases q
      · rintro (l | ⟨j, _, l⟩)
        · exact absurd rfl (R.world.wf.ne_fresh l)
        · exact absurd (show h.fresh = h.fresh + 1 + j from l) (by omega)
    · rw [upd_other _ _ e, own]
      constructor
      · rintro (l | l | l)
        · exact .inl l
        · exact absurd l e
        · exact .inr l
      · rintro (l | l)
        · exact .inl l
        · exact .inr (.inr l)
  · intro j v q
    have m : (h.fresh + 1 + j, v) ∈ fresh (h.fresh + 1) vs := List.mem_iff_getElem?.2 ⟨j, by rw [fresh_get, q]; rfl⟩
    obtain ⟨lv, vv⟩ := r.data _ m
    refine getVal_eq ?_ vv
    show upd t.live h.fresh false _ = true
    rw [upd_other _ _ (show h.fresh + 1 + j ≠ h.fresh by omega)]; exact lv
  · intro d hd fs hf
    have e := nf d hd
    have hg := get_shown R hd hf
    obtain ⟨s, q⟩ := hd
    have q' : (S.put h.fresh (fresh (h.fresh + 1) vs)) d = some s := by rw [put_other _ _ e]; exact q
    have o := R'.world.own d s q'
    have o' : iface.own { t with live := upd t.live h.fresh false } d s := by
      refine iface.frame o fun x hx => ?_
      have : x ≠ h.fresh := fun g => R'.world.disj d s h.fresh _ q' (put_same S h.fresh _) e x hx (by rw [g]; exact iface.self _ _)
      exact ⟨rfl, rfl, rfl, rfl, upd_other _ _ this⟩
    rw [get_some q] at hg
    subst hg
    cases s with
    | ring es => exact Ring.entries o'
    | cleared => exact Cleared.entries o'

theorem create_reach (R : Reach S h) : ∃ h1, create h = .ok (h.fresh, h1) ∧ Reach (S.put h.fresh []) h1 ∧ h1.fresh = h.fresh + 1 := by
  obtain ⟨h1, q1, r1, ef, fr⟩ := create_ok (T := T) R.world.wf
  refine ⟨h1, q1, Reach.step .create R trivial ?_, fr⟩
  simp only [DList.exec, Prog.bind_app, q1, Res.bind_ok, Prog.pure_app]

/-- **C127.** If the copy of element `k` throws in `list(first, last)`, the `k` nodes made before are lost: the destructor does not run, and nobody
else knows them. (For `k = 0` nothing is lost.) -/
theorem ctor_vals_points (R : Reach S h) (vs : List T) : ∃ h', DList.exec (.ctorVals vs) h = .ok ((), h') ∧
    Points (exec (.ctorVals vs)) h vs.length () h' fun k t => Leaked S h t (vs.take k) := by
  obtain ⟨h', e, R'⟩ := call_returns R (.ctorVals vs) trivial
  obtain ⟨h1, q1, R1, fr⟩ := create_reach R
  refine ⟨h', e, ?_⟩
  simp only [DList.exec, DList.ctorVals, Prog.bind_app, q1, Res.bind_ok] at e
  cases g : DList.insertVals h.fresh vs h1 with
  | ub f => rw [g] at e; cases e
  | diverge => rw [g] at e; cases e
  | ok y =>
    rw [g] at e; cases e
    simp only [exec, ctorVals, bind_assoc, pure_bind]
    refine Points.call_seq q1 (Points.seq_pure (g := fun _ => ()) (unwinding_points (insertVals_points vs g) fun k t l y => ?_))
    have i1 : (S.put h.fresh []).Intact h.fresh := put_intact _ _ _
    have := reach_prefix (i := 0) R1 i1 (Nat.zero_le _) (by rw [put_get]; exact y)
    rw [put_get, put_put, fr] at this
    exact leaked_of R (by simpa [insertAt] using this)

/-- **C127.** If the copy of element `k` throws in `list(n, v)`, the `k` nodes made before are lost. -/
theorem ctor_n_points (R : Reach S h) (n : Nat) (v : T) : ∃ h', DList.exec (.ctorN n v) h = .ok ((), h') ∧
    Points (exec (.ctorN n v)) h n () h' fun k t => Leaked S h t (List.replicate k v) := by
  obtain ⟨h', e, X⟩ := ctor_vals_points R (List.replicate n v)
  have e1 : DList.exec (.ctorN n v) = DList.exec (.ctorVals (List.replicate n v)) := by
    simp only [DList.exec, DList.ctorN, DList.ctorVals, DList.insertN_eq]
  have e2 : exec (.ctorN n v) = exec (.ctorVals (List.replicate n v)) := by
    simp only [exec, ctorN, ctorVals, insertN_eq]
  rw [e1, e2]
  rw [List.length_replicate] at X
  refine ⟨h', e, X.imp fun k t l y => ?_⟩
  rwa [List.take_replicate, Nat.min_eq_left (Nat.le_of_lt l)] at y

/-- **C127.** If the copy of element `k` throws in the copy constructor, the `k` nodes made before are lost. -/
theorem copy_ctor_points (R : Reach S h) (hd : S.Exists d) (hf : Shows h d fs) : ∃ h', DList.exec (.copyOf d) h = .ok ((), h') ∧
    Points (exec (.copyOf d)) h fs.length () h' fun k t => Leaked S h t ((fs.map Prod.snd).take k) := by
  have hg := get_shown R hd hf
  obtain ⟨h', e, R'⟩ := call_returns R (.copyOf d) hd
  obtain ⟨h1, q1, R1, fr⟩ := create_reach R
  have ne : d ≠ h.fresh := by
    obtain ⟨s, q⟩ := hd
    exact R.world.wf.ne_fresh (World.laid R.world q).2.1
  have hd1 : (S.put h.fresh []).Exists d := by obtain ⟨s, q⟩ := hd; exact ⟨s, by rw [put_other _ _ ne]; exact q⟩
  have i1 : (S.put h.fresh []).Intact h.fresh := put_intact _ _ _
  have r := World.ring R1.world (put_same S h.fresh [])
  have ld : h1.live d = true := by obtain ⟨s, q⟩ := hd1; exact (World.laid R1.world q).2.1
  refine ⟨h', e, ?_⟩
  have nx : h1.next h.fresh = h.fresh := r.next_head
  simp only [DList.exec, DList.copyCtor, Prog.bind_app, q1, Res.bind_ok, getNext_eq r.head, getNext_eq ld, nx] at e
  cases g : DList.insertNodes h.fresh (h1.next d) d h1 with
  | ub f => rw [g] at e; cases e
  | diverge => rw [g] at e; cases e
  | ok y =>
    rw [g] at e; cases e
    simp only [exec, copyCtor, bind_assoc, pure_bind]
    have X := insert_other_points (i := 0) R1 i1 hd1 (Ne.symm ne) (Nat.zero_le _) (by rw [put_get]; exact g)
    rw [put_get, put_get_other _ _ ne, hg, fr] at X
    refine Points.call_seq q1 (Points.seq_pure (g := fun _ => ()) (unwinding_points (n := fs.length) (a := ())
      (P := fun k t => Reach (S.put h.fresh (fresh (h.fresh + 1) ((fs.map Prod.snd).take k))) t) (Points.call_seq (getNext_eq r.head) ?_) ?_))
    · rw [nx]
      refine Points.call_seq (getNext_eq ld) (X.imp fun k t l y => ?_)
      rw [put_put] at y
      simpa [insertAt] using y
    · intro k t l y
      exact leaked_of R y

/-- **C127, the part that holds.** If the first element throws, a constructor leaves the memory as it was: no storage is lost and all lists are the
same. -/
theorem ctor_first_throw_clean_partial (R : Reach S h) {vs : List T} (hv : vs ≠ []) :
    ∃ t, exec (.ctorVals vs) 0 h = .ok (.thrown, t) ∧ (∀ x, t.live x = h.live x) ∧ ∀ d, S.Exists d → ∀ fs, Shows h d fs → Shows t d fs := by
  obtain ⟨h', e, X⟩ := ctor_vals_points R vs
  obtain ⟨t, x, y⟩ := X.throws 0 (List.length_pos_iff.2 hv)
  refine ⟨t, x, fun a => ?_, y.others⟩
  have := y.live a
  simp only [List.take_zero, List.length_nil, Nat.not_lt_zero, false_and, exists_false, or_false] at this
  cases g : h.live a with
  | true => exact this.2 g
  | false =>
    cases g' : t.live a with
    | false => rfl
    | true => rw [this.1 g'] at g; cases g

/-- **C127 fails in general.** If the second or a later element throws in `list(first, last)`, storage that was free before the call is in use after it,
and it belongs to no list. -/
theorem ctor_throw_leaks (R : Reach S h) (vs : List T) {k : Nat} (h0 : 0 < k) (hk : k < vs.length) :
    ∃ t x, exec (.ctorVals vs) k h = .ok (.thrown, t) ∧ h.live x = false ∧ t.live x = true ∧
      ∀ d, S.Exists d → ∀ fs, Shows t d fs → x ≠ d ∧ x ∉ fs.map Prod.fst := by
  obtain ⟨h', e, X⟩ := ctor_vals_points R vs
  obtain ⟨t, q, y⟩ := X.throws k hk
  refine ⟨t, h.fresh + 1 + 0, q, R.world.wf.fresh_dead (by omega), (y.live _).2 (.inr ⟨0, by rw [List.length_take]; omega, rfl⟩), ?_⟩
  intro d hd fs hf
  have hs := reach_shows R hd
  have := (y.others d hd _ hs).inj hf
  subst this
  obtain ⟨s, qd⟩ := hd
  have lv := iface.live (R.world.own d s qd)
  refine ⟨fun g => ?_, fun g => ?_⟩
  · have l : h.fresh + 1 + 0 < h.fresh := g ▸ R.world.wf.used _ (lv d (iface.self _ _))
    omega
  · rw [get_some qd] at g
    have l : h.fresh + 1 + 0 < h.fresh := R.world.wf.used _ (lv _ (List.mem_cons_of_mem _ g))
    omega

theorem get_other {s : Option (LState T)} (e : d ≠ c) : State.get (upd S c s) d = S.get d := by
  have : (upd S c s : State T) d = S d := upd_other (α := Option (LState T)) S s e
  simp only [State.get, this]

/-- Copy assignment is not all-or-nothing: an exception at its first point leaves a list without its elements. -/
theorem assign_throw_loses (R : Reach S h) (hc : S.Exists c) (hd : S.Exists d) (hcd : c ≠ d) (hf : Shows h d fs) (hne : fs ≠ []) :
    ∃ t, exec (.assign c d) 0 h = .ok (.thrown, t) ∧ Shows t c [] ∧ OthersKept S h t [c] := by
  obtain ⟨h1, e, R1⟩ := call_returns R (.clear c) hc
  have e : clear c h = .ok ((), h1) := e
  have hd1 : (spec S h.fresh (.clear c)).Exists d ∧ (spec S h.fresh (.clear c)).get d = S.get d := by
    by_cases g : (S.get c).isEmpty = true
    · rw [spec_clear_nil g]; exact ⟨hd, rfl⟩
    · rw [spec_clear g]
      obtain ⟨s, q⟩ := hd
      refine ⟨⟨s, by rw [upd_other _ _ (Ne.symm hcd)]; exact q⟩, ?_⟩
      exact get_other (Ne.symm hcd)
  have hc1 : (spec S h.fresh (.clear c)).Exists c ∧ (spec S h.fresh (.clear c)).get c = [] := by
    by_cases g : (S.get c).isEmpty = true
    · rw [spec_clear_nil g]; exact ⟨hc, by simpa using g⟩
    · rw [spec_clear g]
      exact ⟨⟨_, upd_same _ _ _⟩, State.get_cleared (upd_same _ _ _)⟩
  have hg := get_shown R hd hf
  have sd := reach_shows R1 hd1.1
  rw [hd1.2, hg] at sd
  have sc := reach_shows R1 hc1.1
  rw [hc1.2] at sc
  have rn := run_any R1 hd1.1 sd (Nat.zero_le fs.length)
  rw [List.drop_length, List.drop_zero, List.map_nil, posOf_nil, slice, List.drop_zero, Nat.sub_zero, List.take_length] at rn
  have lc : h1.live c = true := by obtain ⟨s, q⟩ := hc1.1; exact (World.laid R1.world q).2.1
  have ld : h1.live d = true := by obtain ⟨s, q⟩ := hd1.1; exact (World.laid R1.world q).2.1
  have nx : h1.next d = posOf d (fs.map Prod.fst) := by
    obtain ⟨s, q, hq⟩ := shown R1 hd1.1 sd
    have := (World.laid R1.world q).1.next
    rwa [hq] at this
  refine ⟨h1, ?_, sc, ?_⟩
  · cases fs with
    | nil => exact absurd rfl hne
    | cons f fs =>
      obtain ⟨rfl', r2, r3, r4, r5⟩ := rn
      simp only [exec, opAssign, Thr.bind_app, Thr.call_app, e, Res.bind_ok, Thr.after_ret, getNext_eq lc, getNext_eq ld, nx]
      rw [insertNodes]
      have r3' : h1.live (posOf d ((f :: fs).map Prod.fst)) = true := r3
      simp only [Thr.ite_app, List.map_cons, posOf_cons, ne_eq, r2, not_false_eq_true, if_true, Thr.bind_app, Thr.call_app, getVal_eq r3 r4, Res.bind_ok,
        Thr.after_ret, newNode, Thr.point_zero, Thr.after_thrown]
  · intro x hx he gs hs
    have hx : x ≠ c := by simpa using hx
    have : (spec S h.fresh (.clear c)).Exists x ∧ (spec S h.fresh (.clear c)).get x = S.get x := by
      by_cases g : (S.get c).isEmpty = true
      · rw [spec_clear_nil g]; exact ⟨he, rfl⟩
      · rw [spec_clear g]
        obtain ⟨s, q⟩ := he
        refine ⟨⟨s, by rw [upd_other _ _ hx]; exact q⟩, ?_⟩
        exact get_other hx
    have s1 := reach_shows R1 this.1
    rwa [this.2, get_shown R he hs] at s1

/-- The hypotheses are met: two lists; an insertion of four elements that throws at the third, a `merge` that throws at its third comparison, a removal
that throws, and a constructor that throws at its third element. -/
example : ∃ (S : State Nat) (h t1 t2 t3 t4 : Heap Nat) (c d x : Addr) (g1 g3 : List (Addr × Nat)), Reach S h ∧
    exec (.insertVals c 1 [4, 5, 6, 7]) 2 h = .ok (.thrown, t1) ∧ Shows t1 c g1 ∧ g1.map Prod.snd = [1, 4, 5, 2, 3] ∧
    exec (.removeIf c fun v => decide (v ≠ 2)) 2 h = .ok (.thrown, t3) ∧ Shows t3 c g3 ∧ g3.map Prod.snd = [2, 3] ∧
    exec (.ctorVals [4, 5, 6]) 2 h = .ok (.thrown, t4) ∧ h.live x = false ∧ t4.live x = true := by
  obtain ⟨S, h, c, d, es, fs, R, hc, hd, hcd, hs, ht, e1, e2⟩ := exists_lists [1, 2, 3] [7, 8, 9]
  have l1 : es.length = 3 := by simpa using congrArg List.length e1
  obtain ⟨t1, ns, q1, s1, v1, _⟩ := insert_range_interrupted (i := 1) (k := 2) R hc hs (by omega) [4, 5, 6, 7] (by decide)
  obtain ⟨t3, q3, s3, _⟩ := remove_if_interrupted (k := 2) R hc hs (fun v => decide (v ≠ 2)) (by omega)
  obtain ⟨t4, x, q4, x1, x2, _⟩ := ctor_throw_leaks (k := 2) R [4, 5, 6] (by decide) (by decide)
  refine ⟨S, h, t1, t1, t3, t4, c, d, x, _, _, R, q1, s1, ?_, q3, s3, ?_, q4, x1, x2⟩
  · simp only [List.map_append, List.map_take, List.map_drop, v1.values, e1]; rfl
  · clear hs s1 s3 q1 v1
    match es, l1, e1 with
    | [a, b, c'], _, e => simp at e; obtain ⟨ea, eb, ec⟩ := e; simp [ea, eb, ec]

/-- An interrupted `merge` that is really interrupted: the third comparison throws after the element 2 of `d` went into `c`. -/
example : ∃ (S : State Nat) (h t : Heap Nat) (c d : Addr) (gs : List (Addr × Nat)) (j : Nat) (fs : List (Addr × Nat)), Reach S h ∧ Shows h d fs ∧
    fs.map Prod.snd = [2, 9] ∧ exec (.merge c d fun a b => decide (a < b)) 0 h = .ok (.thrown, t) ∧ Shows t c gs ∧ Shows t d (fs.drop j) := by
  obtain ⟨S, h, c, d, es, fs, R, hc, hd, hcd, hs, ht, e1, e2⟩ := exists_lists [1, 3] [2, 9]
  have so : SortedBy (fun a b => decide (a < b)) fs := by
    clear ht
    have l2 : fs.length = 2 := by simpa using congrArg List.length e2
    match fs, l2, e2 with
    | [a, b], _, e => simp at e; obtain ⟨ea, eb⟩ := e; simp [SortedBy, ea, eb]
  rcases merge_interrupted R hc hd hcd hs ht so 0 with ⟨k', h', x, _, _⟩ | ⟨t, gs, j, x, s1, s2, _⟩
  · -- the first comparison cannot be passed with nothing left of the countdown
    exfalso
    have r := intact_ring R hc
    have s := intact_ring R hd
    rw [get_shown R (intact_ex hc) hs] at r
    rw [get_shown R (intact_ex hd) ht] at s
    match es, fs, e1, e2 with
    | e :: es, f :: fs, _, _ =>
      have ne := fun q => s.laid.stop (show d ∈ (f :: fs).map Prod.fst by rw [show d = f.1 from q]; simp)
      have ne' := fun q => r.laid.stop (show c ∈ (e :: es).map Prod.fst by rw [show c = e.1 from q]; simp)
      have n1 : h.next d = f.1 := s.next_head
      have n2 : h.next c = e.1 := r.next_head
      simp only [exec, merge, Thr.bind_app, Thr.call_app, getNext_eq r.head, getNext_eq s.head, Res.bind_ok, Thr.after_ret, n1, n2] at x
      rw [mergeLoop] at x
      rw [if_pos ⟨fun q => ne q.symm, fun q => ne' q.symm⟩] at x
      obtain ⟨lf, vf⟩ := s.data f (by simp)
      obtain ⟨le, ve⟩ := r.data e (by simp)
      simp only [Thr.bind_app, Thr.call_app, getVal_eq lf vf, getVal_eq le ve, Res.bind_ok, Thr.after_ret, Thr.point_zero, Thr.after_thrown] at x
      cases x
  · exact ⟨S, h, t, c, d, gs, j, fs, R, ht, e2, x, s1, s2⟩

end Verif.Exc.XList
