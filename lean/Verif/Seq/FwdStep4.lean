import Verif.Seq.FwdStep3
/-!
# `ttl::forward_list`: the step theorem
-/
set_option linter.unusedVariables false
set_option linter.unusedSimpArgs false
namespace Verif.Seq.FList
open Verif
open Verif.Seq.DList (Arg fresh insertAt slice cut Blank Relink split_at split_elem posOf posOf_cons posOf_nil)
variable {T : Type} {h : Heap T} {S : State T} {c d : Addr} {es fs : List (Addr × T)}

theorem swap_good (W : World iface h S) (hc : S c = some es) (hd : S d = some fs) :
    GoodR iface (swap c d) h () ((S.put c fs).put d es) := by
  have r := World.sl W hc
  have s := World.sl W hd
  by_cases hcd : c = d
  · subst hcd
    rw [hc] at hd; cases hd
    have e : (S.put c es).put c es = S := by
      funext x; unfold State.put upd; split
      · rename_i hx; rw [hx, hc]
      · rfl
    refine ⟨h, ?_, by rw [e]; exact W, Nat.le_refl _⟩
    have e1 : upd h.next c (h.next c) = h.next := by
      funext x; unfold upd; split
      · rename_i hx; rw [hx]
      · rfl
    simp only [swap, Prog.bind_app, getNext_eq r.head, Res.bind_ok, setNext, r.head, if_true, e1]
  · obtain ⟨a, b, k⟩ := swpA_ok r s hcd (W.disj c _ d _ hc hd hcd)
    refine two W hcd hc hd ?_ k a b List.perm_append_comm
    simp only [swap, Prog.bind_app, getNext_eq r.head, getNext_eq s.head, Res.bind_ok, setNext, r.head, s.head, if_true, swpA]

/-- **Every legal call returns normally and does what the specification says.** -/
theorem step_ok (W : World iface h S) (k : Call T) (lg : Legal S k) : GoodR iface (exec k) h () (spec S h.fresh k) := by
  cases k with
  | create => exact (create_good W).drop
  | copyOf s =>
    obtain ⟨fs, hs⟩ := lg
    simp only [spec, get_some hs]
    exact (copyCtor_good W hs).drop
  | ctorN n value =>
    obtain ⟨v, rf⟩ := lg
    simp only [spec, copies_eq W rf]
    exact (ctorN_good W n rf).drop
  | ctorVals vs => exact (ctorVals_good W vs).drop
  | destroy c => obtain ⟨es, hc⟩ := lg; exact destroy_good W hc
  | pushFront c v =>
    obtain ⟨es, hc⟩ := lg
    simp only [spec, get_some hc]
    obtain ⟨h', q, r, ef, _⟩ := newInsert_ok (A := []) (B := es) W.wf (World.sl W hc) v
    refine one W hc ?_ ef r
    simp only [Prog.bind_app, newNode_eq, Res.bind_ok, List.map_nil, lastOf_nil] at q
    simp only [exec, pushFront, Prog.bind_app, newNode_eq, Res.bind_ok, q, Prog.pure_app]
  | popFront c =>
    obtain ⟨⟨es, hc⟩, hne⟩ := lg
    rw [get_some hc] at hne
    simp only [spec, get_some hc]
    have hi : 0 < es.length := List.length_pos_iff.2 hne
    obtain ⟨h', q, q', r', ef, _⟩ := delNext_at W.wf (World.sl W hc) hi
    have e : es.eraseIdx 0 = es.tail := by cases es <;> rfl
    rw [e] at r' ef
    refine one W hc ?_ ef r'
    simp only [List.take_zero, List.map_nil, lastOf_nil] at q q'
    simp only [exec, popFront, Prog.bind_app, q, Res.bind_ok, q']
  | insert c i v =>
    obtain ⟨⟨es, hc⟩, hi⟩ := lg
    rw [get_some hc] at hi
    simp only [spec, get_some hc]
    have := (insert_good W hc hi v).drop
    simpa only [exec, bind_assoc] using this
  | insertN c i n value =>
    obtain ⟨⟨es, hc⟩, hi, v, rf⟩ := lg
    rw [get_some hc] at hi
    simp only [spec, get_some hc, copies_eq W rf]
    exact insertN_good W hc hi n rf
  | insertVals c i vs =>
    obtain ⟨⟨es, hc⟩, hi⟩ := lg
    rw [get_some hc] at hi
    simp only [spec, get_some hc]
    exact insertVals_good W hc hi vs
  | insertList c i d =>
    obtain ⟨⟨es, hc⟩, hi, ⟨fs, hd⟩, hcd⟩ := lg
    rw [get_some hc] at hi
    simp only [spec, get_some hc, get_some hd]
    exact insertNodes_good W hc hd hcd hi
  | erase c i =>
    obtain ⟨⟨es, hc⟩, hi⟩ := lg
    rw [get_some hc] at hi
    simp only [spec, get_some hc]
    have := (erase_good W hc hi).drop
    simpa only [exec, bind_assoc] using this
  | eraseRange c i j =>
    obtain ⟨⟨es, hc⟩, hij, hj⟩ := lg
    rw [get_some hc] at hj
    simp only [spec, get_some hc]
    obtain ⟨j, rfl⟩ : ∃ j', j = j' + 1 := ⟨j - 1, by omega⟩
    rw [Nat.add_sub_cancel]
    have := (eraseRange_good W hc (show i ≤ j by omega) (by omega)).drop
    simpa only [exec, bind_assoc] using this
  | clear c =>
    obtain ⟨es, hc⟩ := lg
    obtain ⟨h', q, W', fr, _⟩ := clear_good W hc
    exact ⟨h', q, W', Nat.le_of_eq fr.symm⟩
  | assign c d =>
    obtain ⟨⟨es, hc⟩, ⟨fs, hd⟩, hcd⟩ := lg
    simp only [spec, get_some hd]
    obtain ⟨h1, q1, W1, fr, r1, ef1⟩ := clear_good W hc
    have s1 := Effect.slist ef1 (World.sl W hd) (W.disj d _ c _ hd hc (Ne.symm hcd))
    obtain ⟨h', q, r', ef, _⟩ := insertNodes_at ef1.wf r1 (i := 0) (by simp) s1 (by
      intro x hx
      have := W.disj d _ c _ hd hc (Ne.symm hcd) x hx
      simp only [iface, scells, List.mem_cons, not_or] at this
      simp only [scells, List.map_nil, List.mem_singleton]; exact this.1)
    rw [fr] at r' ef
    refine one W hc ?_ (ef1.trans (by simpa [insertAt] using ef)) (by simpa [insertAt] using r')
    simp only [List.take_nil, List.map_nil, lastOf_nil, Prog.bind_app, getNext_eq s1.head, Res.bind_ok] at q
    simp only [exec, opAssign, Prog.bind_app, q1, Res.bind_ok, getNext_eq s1.head, insertNodes, q, Prog.pure_app]
  | assignN c n value =>
    obtain ⟨⟨es, hc⟩, ⟨v, rf⟩, ha⟩ := lg
    rw [get_some hc] at ha
    simp only [spec, copies_eq W rf]
    obtain ⟨h1, q1, W1, fr, r1, ef1⟩ := clear_good W hc
    have rd : Readable h1 v value := Readable.keep ef1 (refers_readable W rf) (by
      rintro a rfl
      simp only [scells, List.mem_cons, not_or]
      refine ⟨?_, ha a rfl⟩
      rintro rfl
      obtain ⟨_, hv⟩ := refers_readable W rf
      rw [(World.sl W hc).bare] at hv; cases hv)
    obtain ⟨h', q, r', ef, _⟩ := insertVals_at ef1.wf r1 (i := 0) (by simp) (List.replicate n v)
    rw [← insertN_at ef1.wf r1 (i := 0) (by simp) rd n] at q
    rw [fr] at r' ef
    refine one W hc ?_ (ef1.trans (by simpa [insertAt] using ef)) (by simpa [insertAt] using r')
    simp only [List.take_nil, List.map_nil, lastOf_nil] at q
    simp only [exec, assignN, Prog.bind_app, q1, Res.bind_ok, insertN, q, Prog.pure_app]
  | assignVals c vs =>
    obtain ⟨es, hc⟩ := lg
    simp only [spec]
    obtain ⟨h1, q1, W1, fr, r1, ef1⟩ := clear_good W hc
    obtain ⟨h', q, r', ef, _⟩ := insertVals_at ef1.wf r1 (i := 0) (by simp) vs
    rw [fr] at r' ef
    refine one W hc ?_ (ef1.trans (by simpa [insertAt] using ef)) (by simpa [insertAt] using r')
    simp only [List.take_nil, List.map_nil, lastOf_nil] at q
    simp only [exec, assignVals, Prog.bind_app, q1, Res.bind_ok, insertVals, q, Prog.pure_app]
  | reverse c =>
    obtain ⟨es, hc⟩ := lg
    simp only [spec, get_some hc]
    obtain ⟨h', q, r', k⟩ := reverse_ok W.wf (World.sl W hc)
    exact relinked W hc q k (List.reverse_perm es) r'
  | spliceAll c i d =>
    obtain ⟨⟨es, hc⟩, ⟨fs, hd⟩, hcd, hi, hne⟩ := lg
    rw [get_some hc] at hi
    rw [get_some hd] at hne
    simp only [spec, get_some hc, get_some hd]
    have r := World.sl W hc
    have s := World.sl W hd
    obtain ⟨h', q, r', s', k⟩ := splice_two_at (i := i) W.wf r s (W.disj c _ d _ hc hd hcd) (List.length_pos_iff.2 hne) (Nat.le_refl _)
    have e1 : slice 0 fs.length fs = fs := by simp [slice]
    have e2 : cut 0 fs.length fs = [] := by simp [cut]
    rw [e1] at r'
    rw [e2] at s'
    refine two W hcd hc hd ?_ k r' s' ?_
    · simp only [List.take_zero, List.map_nil, lastOf_nil, List.drop_length, posOf_nil] at q
      simp only [exec, spliceAll, Prog.bind_app, r.posAt hi, Res.bind_ok, q]
    · have := splice_two_perm es fs (i := i) (Nat.zero_le fs.length)
      rwa [e1, e2] at this
  | spliceOne c i d j =>
    obtain ⟨⟨es, hc⟩, ⟨fs, hd⟩, hi, hj, hx⟩ := lg
    rw [get_some hc] at hi
    rw [get_some hd] at hj
    simp only [spec, get_some hc, get_some hd]
    have r := World.sl W hc
    have s := World.sl W hd
    have hj' := Nat.le_of_lt hj
    have lp : h.live (lastOf c ((es.take i).map Prod.fst)) = true :=
      Slist.last_live (B := es.drop i) (by rw [List.take_append_drop]; exact r)
    have mp : lastOf c ((es.take i).map Prod.fst) ∈ scells c es := by
      have := Slist.last_mem (c := c) (A := es.take i) (B := es.drop i)
      rwa [List.take_append_drop] at this
    have mq : lastOf d ((fs.take j).map Prod.fst) ∈ scells d fs := by
      have := Slist.last_mem (c := d) (A := fs.take j) (B := fs.drop j)
      rwa [List.take_append_drop] at this
    have me : fs[j].1 ∈ scells d fs := by
      simp only [scells, List.mem_cons]; exact .inr (List.mem_map_of_mem (List.getElem_mem hj))
    have run : exec (.spliceOne c i d j) h = if lastOf d ((fs.take j).map Prod.fst) = lastOf c ((es.take i).map Prod.fst) then .ok ((), h)
        else SNode.spliceNext (lastOf c ((es.take i).map Prod.fst)) (lastOf d ((fs.take j).map Prod.fst)) h := by
      simp only [exec, spliceOne, Prog.bind_app, r.posAt hi, s.posAt hj', Res.bind_ok, Prog.ite_app, Prog.pure_app]
    by_cases hcd : c = d
    · subst hcd
      rw [hc] at hd; cases hd
      rw [if_pos rfl]
      by_cases hij : i = j
      · subst hij
        rw [if_pos (Nat.le_refl _), splice_id hj]
        have e2 : S.put c es = S := by
          funext x; unfold State.put upd; split
          · rename_i hx; rw [hx, hc]
          · rfl
        refine ⟨h, by rw [run, if_pos rfl], by rw [e2]; exact W, Nat.le_refl _⟩
      · have n1 : lastOf c ((es.take i).map Prod.fst) ≠ lastOf c ((es.take j).map Prod.fst) := fun q => hij (pos_inj r hi hj' q)
        have n2 : lastOf c ((es.take i).map Prod.fst) ≠ es[j].1 := by
          intro q
          have := pos_inj r (i := i) (j := j + 1) hi hj (by
            rw [List.take_succ_eq_append_getElem hj, List.map_append, List.map_cons, List.map_nil, lastOf_concat]; exact q)
          exact hx rfl this
        rw [if_neg n1.symm, spliceNext_at s W.wf hj lp n1 n2] at run
        by_cases hlt : i < j
        · obtain ⟨h', q, r', k⟩ := splice_before_at W.wf r hlt (Nat.lt_succ_self j) hj
          rw [if_pos (Nat.le_of_lt hlt)]
          exact relinked W hc (run.trans q) k (splice_self_perm es (Nat.le_succ j)) r'
        · have := hx rfl
          obtain ⟨h', q, r', k⟩ := splice_behind_at W.wf r (Nat.lt_succ_self j) (show j + 1 < i by omega) hi
          rw [if_neg (show ¬ i ≤ j by omega)]
          rw [show i - (j.succ - j) = i - 1 by omega] at r'
          exact relinked W hc (run.trans q) k (splice_self_perm es (Nat.le_succ j)) r'
    · rw [if_neg hcd]
      have dj := W.disj c _ d _ hc hd hcd
      have n1 : lastOf c ((es.take i).map Prod.fst) ≠ lastOf d ((fs.take j).map Prod.fst) := fun q => dj _ mp (by rw [q]; exact mq)
      have n2 : lastOf c ((es.take i).map Prod.fst) ≠ fs[j].1 := fun q => dj _ mp (by rw [q]; exact me)
      rw [if_neg n1.symm, spliceNext_at s W.wf hj lp n1 n2] at run
      obtain ⟨h', q, r', s', k⟩ := splice_two_at (i := i) W.wf r s dj (Nat.lt_succ_self j) hj
      exact two W hcd hc hd (run.trans q) k r' s' (splice_two_perm es fs (Nat.le_succ j))
  | splice c i d j k =>
    obtain ⟨⟨es, hc⟩, ⟨fs, hd⟩, hi, hjk, hk, hx⟩ := lg
    rw [get_some hc] at hi
    rw [get_some hd] at hk
    simp only [spec, get_some hc, get_some hd]
    have r := World.sl W hc
    have s := World.sl W hd
    obtain ⟨k, rfl⟩ : ∃ k', k = k' + 1 := ⟨k - 1, by omega⟩
    have hjk' : j < k := by omega
    have hk' : k ≤ fs.length := by omega
    rw [Nat.add_sub_cancel]
    have l0 : lastOf d ((fs.take j).map Prod.fst) ≠ 0 :=
      W.wf.ne_zero (Slist.last_live (B := fs.drop j) (by rw [List.take_append_drop]; exact s))
    have run : exec (.splice c i d j (k + 1)) h = SNode.spliceRange (lastOf c ((es.take i).map Prod.fst)) (lastOf d ((fs.take j).map Prod.fst))
        (posOf 0 ((fs.drop k).map Prod.fst)) h := by
      simp only [exec, spliceRange, Prog.bind_app, r.posAt hi, s.posAt (i := j) (by omega), s.posAt_elem hk', Res.bind_ok, Prog.ite_app]
      rw [if_neg l0]
    by_cases hcd : c = d
    · subst hcd
      rw [hc] at hd; cases hd
      rw [if_pos rfl]
      rcases hx rfl with hx | hx
      · obtain ⟨h', q, r', k⟩ := splice_before_at W.wf r hx hjk' hk'
        rw [if_pos (Nat.le_of_lt hx)]
        exact relinked W hc (run.trans q) k (splice_self_perm es (Nat.le_of_lt hjk')) r'
      · obtain ⟨h', q, r', k⟩ := splice_behind_at W.wf r hjk' (show k < i by omega) hi
        rw [if_neg (show ¬ i ≤ j by omega)]
        exact relinked W hc (run.trans q) k (splice_self_perm es (Nat.le_of_lt hjk')) r'
    · rw [if_neg hcd]
      obtain ⟨h', q, r', s', k⟩ := splice_two_at (i := i) W.wf r s (W.disj c _ d _ hc hd hcd) hjk' hk'
      exact two W hcd hc hd (run.trans q) k r' s' (splice_two_perm es fs (Nat.le_of_lt hjk'))
  | swap c d =>
    obtain ⟨⟨es, hc⟩, ⟨fs, hd⟩⟩ := lg
    simp only [spec, get_some hc, get_some hd]
    exact swap_good W hc hd
  | store c i v =>
    obtain ⟨⟨es, hc⟩, hi⟩ := lg
    rw [get_some hc] at hi
    simp only [spec, get_some hc]
    obtain ⟨h', q, r', ef, _⟩ := store_ok W.wf (World.sl W hc) hi v
    exact one W hc q ef r'

/-- After any client program memory holds exactly the lists the specification says, and nothing else. -/
theorem Reach.world (R : Reach S h) : World iface h S := by
  induction R with
  | start b => exact blank_world b
  | step k _ lg q ih =>
    obtain ⟨h', q', W', _⟩ := step_ok ih k lg
    rw [q] at q'; cases q'; exact W'
  | env _ e ih => exact ih.env e

end Verif.Seq.FList
