import Verif.Exc.Fwd
/-!
# Constructors of `ttl::forward_list` that throw (C132), and examples
-/
set_option linter.unusedVariables false
set_option linter.unusedSimpArgs false
set_option linter.unusedSectionVars false
namespace Verif.Exc.XFwd
open Verif Verif.Seq Verif.Seq.FList Verif.Seq.FwdProps Verif.Exc
open Verif.Seq.DList (Arg fresh insertAt slice Blank)
open Verif.Exc.XSList (insertVals_points insertN_points insertNodes_points newNode_points made Leaked)
variable {T : Type} {S : State T} {h h' : Heap T} {c d : Addr} {es fs : List (Addr × T)}

theorem leaked_of (R : Reach S h) {t : Heap T} {vs : List T} (R' : Reach (S.put h.fresh (fresh (h.fresh + 1) vs)) t) :
    ∃ t', freeRaw h.fresh t = .ok ((), t') ∧ Leaked S.Exists h t' vs := by
  obtain ⟨t', e, L, _⟩ := XSList.leaked_of (I := iface) R.world (s := fresh (h.fresh + 1) vs) R'.world (fun s => s) (fun c s => rfl) (fun o => o) rfl
  exact ⟨t', e, L.live, L.values, fun d hd => L.others d (by obtain ⟨s, q⟩ := hd; rw [q]; simp), L.wf⟩

theorem create_reach (R : Reach S h) : ∃ h1, create h = .ok (h.fresh, h1) ∧ Reach (S.put h.fresh []) h1 ∧ h1.fresh = h.fresh + 1 := by
  obtain ⟨h1, q1, r1, ef, fr, _⟩ := create_ok (T := T) R.world.wf
  refine ⟨h1, q1, Reach.step .create R trivial ?_, fr⟩
  simp only [FList.exec, Prog.bind_app, q1, Res.bind_ok, Prog.pure_app]

/-- **C132.** If the copy of element `k` throws in `forward_list(first, last)`, the `k` nodes made before are lost: the destructor does not run, and
nobody else knows them. (For `k = 0` nothing is lost.) -/
theorem ctor_vals_points (R : Reach S h) (vs : List T) : ∃ h', FList.exec (.ctorVals vs) h = .ok ((), h') ∧
    Points (exec (.ctorVals vs)) h vs.length () h' fun k t => Leaked S.Exists h t (vs.take k) := by
  obtain ⟨h', e, R'⟩ := call_returns R (.ctorVals vs) trivial
  obtain ⟨h1, q1, R1, fr⟩ := create_reach R
  refine ⟨h', e, ?_⟩
  simp only [FList.exec, FList.ctorVals, FList.insertVals, Prog.bind_app, q1, Res.bind_ok] at e
  cases g : SList.insertVals h.fresh vs h1 with
  | ub f => rw [g] at e; cases e
  | diverge => rw [g] at e; cases e
  | ok y =>
    rw [g] at e; cases e
    simp only [exec, ctorVals, bind_assoc, pure_bind]
    refine Points.call_seq (a := h.fresh) (s' := h1) q1 (Points.seq_pure (g := fun _ => ()) (unwinding_points
      (Points.seq_pure (g := fun _ => ()) (insertVals_points vs g)) fun k t l ⟨b', y⟩ => ?_))
    have := reach_prefix (i := 0) R1 (put_exists S h.fresh []) (Nat.zero_le _) (by rw [put_get]; exact y)
    rw [put_get, FwdProps.put_put, fr] at this
    exact leaked_of R (by simpa [insertAt] using this)

theorem refers_new (R : Reach S h) {v : T} {value : Arg T} (rf : S.Refers v value) : (S.put h.fresh []).Refers v value := by
  cases value with
  | ext w => exact rf
  | elem a =>
    obtain ⟨d, fs, hd, m⟩ := rf
    refine ⟨d, fs, ?_, m⟩
    rw [put_other _ _ (fun q => ?_)]
    · exact hd
    · exact R.world.wf.ne_fresh (iface.live (R.world.own _ _ hd) _ (iface.self _ _)) q

/-- **C132.** If the copy of element `k` throws in `forward_list(n, v)`, the `k` nodes made before are lost. -/
theorem ctor_n_arg_points (R : Reach S h) (n : Nat) {value : Arg T} {v : T} (rf : S.Refers v value) : ∃ h', FList.exec (.ctorN n value) h = .ok ((), h') ∧
    Points (exec (.ctorN n value)) h n () h' fun k t => Leaked S.Exists h t (List.replicate k v) := by
  obtain ⟨h', e, R'⟩ := call_returns R (.ctorN n value) ⟨v, rf⟩
  obtain ⟨h1, q1, R1, fr⟩ := create_reach R
  refine ⟨h', e, ?_⟩
  simp only [FList.exec, FList.ctorN, FList.insertN, Prog.bind_app, q1, Res.bind_ok] at e
  cases g : SList.insertN h.fresh n value h1 with
  | ub f => rw [g] at e; cases e
  | diverge => rw [g] at e; cases e
  | ok y =>
    rw [g] at e; cases e
    have lc := live_pos R1 (put_exists S h.fresh []) 0
    simp only [exec, ctorN, bind_assoc, pure_bind]
    refine Points.call_seq (a := h.fresh) (s' := h1) q1 (Points.seq_pure (g := fun _ => ()) (unwinding_points
      (Points.seq_pure (g := fun _ => ()) (insertN_points (v := v) R1.world.wf (by simpa using lc) (refers_readable R1.world (refers_new R rf)) g)) fun k t l ⟨b', y⟩ => ?_))
    have := reach_prefix (i := 0) R1 (put_exists S h.fresh []) (Nat.zero_le _) (by rw [put_get]; exact y)
    rw [put_get, FwdProps.put_put, fr] at this
    exact leaked_of R (by simpa [insertAt] using this)

theorem ctor_n_points (R : Reach S h) (n : Nat) (v : T) : ∃ h', FList.exec (.ctorN n (.ext v)) h = .ok ((), h') ∧
    Points (exec (.ctorN n (.ext v))) h n () h' fun k t => Leaked S.Exists h t (List.replicate k v) :=
  ctor_n_arg_points R n rfl

/-- **C132.** If the copy of element `k` throws in the copy constructor, the `k` nodes made before are lost. -/
theorem copy_ctor_points (R : Reach S h) (hd : S.Exists d) (hf : Shows h d fs) : ∃ h', FList.exec (.copyOf d) h = .ok ((), h') ∧
    Points (exec (.copyOf d)) h fs.length () h' fun k t => Leaked S.Exists h t ((fs.map Prod.snd).take k) := by
  have hg := get_shown R hd hf
  obtain ⟨h', e, R'⟩ := call_returns R (.copyOf d) hd
  obtain ⟨h1, q1, R1, fr⟩ := create_reach R
  have ne : h.fresh ≠ d := (R.world.wf.ne_fresh (sl R hd).head).symm
  have hd1 : (S.put h.fresh []).Exists d := put_exists_other _ _ hd
  have s := sl R1 hd1
  refine ⟨h', e, ?_⟩
  simp only [FList.exec, FList.copyCtor, Prog.bind_app, q1, Res.bind_ok, getNext_eq s.head] at e
  cases g : FList.insertNodes h.fresh (h1.next d) 0 h1 with
  | ub f => rw [g] at e; cases e
  | diverge => rw [g] at e; cases e
  | ok y =>
    rw [g] at e; cases e
    simp only [exec, copyCtor, bind_assoc, pure_bind]
    have X := insert_other_points (i := 0) R1 (put_exists S h.fresh []) hd1 ne (Nat.zero_le _) (by simpa using g)
    rw [put_get, put_get_other _ _ ne.symm, hg, fr] at X
    refine Points.call_seq (a := h.fresh) (s' := h1) q1 (Points.seq_pure (g := fun _ => ()) (unwinding_points (n := fs.length) (a := ())
      (P := fun k t => Reach (S.put h.fresh (fresh (h.fresh + 1) ((fs.map Prod.snd).take k))) t)
      (Points.call_seq (a := _) (s' := h1) (getNext_eq s.head) (X.imp fun k t l y => ?_)) ?_))
    · rw [FwdProps.put_put] at y
      simpa [insertAt] using y
    · intro k t l y
      exact leaked_of R y

/-- **C132, the part that holds.** If the first element throws, a constructor leaves the memory as it was: no storage is lost and all lists are the
same. -/
theorem ctor_first_throw_clean_partial (R : Reach S h) {vs : List T} (hv : vs ≠ []) :
    ∃ t, exec (.ctorVals vs) 0 h = .ok (.thrown, t) ∧ (∀ x, t.live x = h.live x) ∧ ∀ d, S.Exists d → ∀ fs, Shows h d fs → Shows t d fs := by
  obtain ⟨h', e, X⟩ := ctor_vals_points R vs
  obtain ⟨t, x, y⟩ := X.throws 0 (List.length_pos_iff.2 hv)
  refine ⟨t, x, fun a => ?_, y.others⟩
  have := y.live a
  simp only [List.take_zero, List.length_nil, Nat.not_lt_zero, false_and, exists_false, or_false] at this
  cases g : h.live a with
  | true => exact this.2 g
  | false =>
    cases g' : t.live a with
    | false => rfl
    | true => rw [this.1 g'] at g; cases g

/-- **C132 fails in general.** If the second or a later element throws in `forward_list(first, last)`, storage that was free before the call is in use
after it, and it belongs to no list. -/
theorem ctor_throw_leaks (R : Reach S h) (vs : List T) {k : Nat} (h0 : 0 < k) (hk : k < vs.length) :
    ∃ t x, exec (.ctorVals vs) k h = .ok (.thrown, t) ∧ h.live x = false ∧ t.live x = true ∧
      ∀ d, S.Exists d → ∀ fs, Shows t d fs → x ≠ d ∧ x ∉ fs.map Prod.fst := by
  obtain ⟨h', e, X⟩ := ctor_vals_points R vs
  obtain ⟨t, q, y⟩ := X.throws k hk
  refine ⟨t, h.fresh + 1 + 0, q, R.world.wf.fresh_dead (by omega), (y.live _).2 (.inr ⟨0, by rw [List.length_take]; omega, rfl⟩), ?_⟩
  intro d hd fs hf
  have hs := reach_shows R hd
  have := (show Shows t d _ from y.others d hd _ hs).inj hf
  subst this
  have r := sl R hd
  refine ⟨fun g => ?_, fun g => ?_⟩
  · have l : h.fresh + 1 + 0 < h.fresh := g ▸ R.world.wf.used _ r.head
    omega
  · have l : h.fresh + 1 + 0 < h.fresh := R.world.wf.used _ (r.live _ (List.mem_cons_of_mem _ g))
    omega

/-- **C132 fails.** Copy assignment is not all-or-nothing: an exception at its first point leaves the list without its elements. -/
theorem assign_throw_loses (R : Reach S h) (hc : S.Exists c) (hd : S.Exists d) (hcd : c ≠ d) (hs : Shows h c es) (hf : Shows h d fs) (hne : fs ≠ []) :
    ∃ t, exec (.assign c d) 0 h = .ok (.thrown, t) ∧ Shows t c [] ∧ OthersKept S h t [c] := by
  obtain ⟨t, ns, x, s, nn, o⟩ := assign_interrupted R hc hd hcd hs hf (List.length_pos_iff.2 hne)
  have : ns = [] := by simpa using nn.values
  subst this
  exact ⟨t, x, s, o⟩

/-- The hypotheses are met: two lists; an insertion of four elements that throws at the third, an assignment that throws at its second copy, and a
constructor that throws at its third element. -/
example : ∃ (S : State Nat) (h t1 t2 t4 : Heap Nat) (c d x : Addr) (g1 g2 : List (Addr × Nat)), Reach S h ∧
    exec (.insertVals c 1 [4, 5, 6, 7]) 2 h = .ok (.thrown, t1) ∧ Shows t1 c g1 ∧ g1.map Prod.snd = [1, 4, 5, 2, 3] ∧
    exec (.assign c d) 1 h = .ok (.thrown, t2) ∧ Shows t2 c g2 ∧ g2.map Prod.snd = [7] ∧
    exec (.ctorVals [4, 5, 6]) 2 h = .ok (.thrown, t4) ∧ h.live x = false ∧ t4.live x = true := by
  obtain ⟨S, h, c, d, es, fs, R, hc, hd, hcd, hs, ht, e1, e2⟩ := exists_lists [1, 2, 3] [7, 8, 9]
  have l1 : es.length = 3 := by simpa using congrArg List.length e1
  have l2 : fs.length = 3 := by simpa using congrArg List.length e2
  obtain ⟨t1, ns, q1, s1, v1, _⟩ := insert_range_interrupted (i := 1) (k := 2) R hc hs (by omega) [4, 5, 6, 7] (by decide)
  obtain ⟨t2, ns2, q2, s2, v2, _⟩ := assign_interrupted (k := 1) R hc hd hcd hs ht (by omega)
  obtain ⟨t4, x, q4, x1, x2, _⟩ := ctor_throw_leaks (k := 2) R [4, 5, 6] (by decide) (by decide)
  refine ⟨S, h, t1, t2, t4, c, d, x, _, _, R, q1, s1, ?_, q2, s2, ?_, q4, x1, x2⟩
  · simp only [List.map_append, List.map_take, List.map_drop, v1.values, e1]; rfl
  · rw [v2.values, e2]; rfl

end Verif.Exc.XFwd
