import Verif.Seq.BwdStep
/-!
# `ttl::backward_list`: the step theorem
-/
set_option linter.unusedVariables false
set_option linter.unusedSimpArgs false
namespace Verif.Seq.BList
open Verif
open Verif.Seq.DList (Arg fresh insertAt slice cut Blank Relink split_at split_elem posOf posOf_cons posOf_nil)
variable {T : Type} {h : Heap T} {S : State T} {c d t u : Addr} {es fs : List (Addr × T)}

/-- After `a.swap(b)`. -/
def bswp (h : Heap T) (a b : Addr) : Heap T := { swpA h a b with tail := upd (upd h.tail a (h.tail b)) b (h.tail a) }

theorem swap_eq (la : h.live c = true) (lb : h.live d = true) : swap c d h = .ok ((), bswp h c d) := by
  simp only [swap, Prog.bind_app, getNext_eq la, getNext_eq lb, Res.bind_ok, setNext, la, lb, if_true]
  rw [getTail_eq (by exact la)]
  simp only [Res.bind_ok]
  rw [getTail_eq (by exact lb)]
  simp only [Res.bind_ok]
  rw [setTail_eq (by exact la)]
  simp only [Res.bind_ok]
  rw [setTail_eq (by exact lb)]
  rfl

theorem swap_good (W : World iface h S) (hc : S c = some ⟨es, t⟩) (hd : S d = some ⟨fs, u⟩) :
    GoodR iface (swap c d) h () ((S.put c fs u).put d es t) := by
  have r := World.sl W hc
  have s := World.sl W hd
  have t1 := World.tl W hc
  have t2 := World.tl W hd
  by_cases hcd : c = d
  · subst hcd
    rw [hc] at hd; cases hd
    rw [put_put, put_self hc]
    refine ⟨h, ?_, W, Nat.le_refl _⟩
    rw [swap_eq r.head r.head]
    have e1 : ∀ f : Addr → Addr, upd (upd f c (f c)) c (f c) = f := by
      intro f; funext x; unfold upd; split
      · rename_i hx; rw [hx]
      · rfl
    unfold bswp swpA
    simp only [e1]
  · have dj := W.disj c _ d _ hc hd hcd
    obtain ⟨a, b, k⟩ := swpA_ok r s hcd dj
    have ef := k.effect W.wf (C' := fun x => x ∈ scells c es ∨ x ∈ scells d fs) fun _ => Iff.rfl
    refine ⟨bswp h c d, swap_eq r.head s.head, ?_, Nat.le_of_eq k.fresh.symm⟩
    refine World.swapped (I := iface) BState.elems (fun _ _ => rfl) (fun o => o.1) W hcd hc hd (s' := ⟨fs, u⟩) (t' := ⟨es, t⟩)
      ⟨?_, ef.dead, ef.grown, ef.shrunk, ⟨ef.wf.pos, ef.wf.null, ef.wf.used⟩, ef.mono⟩ ?_ ?_ List.perm_append_comm
    · intro x h1 h2 l
      have q := ef.frame x h1 h2 l
      have hxc : x ≠ c := by rintro rfl; exact h1 (.inl (by simp [scells]))
      have hxd : x ≠ d := by rintro rfl; exact h1 (.inr (by simp [scells]))
      refine ⟨q.next, q.prev, ?_, q.val, q.live⟩
      show upd (upd h.tail c (h.tail d)) d (h.tail c) x = h.tail x
      rw [upd_other _ _ hxd, upd_other _ _ hxc]
    · refine ⟨⟨a.head, a.bare, a.path.congr (fun _ _ => rfl), a.nodup, a.data⟩, ?_⟩
      show upd (upd h.tail c (h.tail d)) d (h.tail c) c = u
      rw [upd_other _ _ hcd, upd_same, t2]
    · refine ⟨⟨b.head, b.bare, b.path.congr (fun _ _ => rfl), b.nodup, b.data⟩, ?_⟩
      show upd (upd h.tail c (h.tail d)) d (h.tail c) d = t
      rw [upd_same, t1]

/-- `clear()`, then something that only changes the (now empty) list. -/
theorem refill {p : Prog (Heap T) Unit} (W : World iface h S) (hc : S c = some ⟨es, t⟩)
    (hp : ∀ h1, World iface h1 (S.put c [] c) → h1.fresh = h.fresh → Effect (· ∈ scells c es) (· ∈ scells c ([] : List (Addr × T))) h h1 →
      GoodR iface p h1 () ((S.put c [] c).put c fs u)) :
    GoodR iface (do clear c; p) h () (S.put c fs u) := by
  obtain ⟨h1, q1, W1, fr, ef⟩ := clear_good W hc
  obtain ⟨h2, q2, W2, m⟩ := hp h1 W1 fr ef
  rw [put_put] at W2
  exact ⟨h2, by simp only [Prog.bind_app, q1, Res.bind_ok, q2], W2, by omega⟩

/-- **Every legal call returns normally and does what the specification says.** -/
theorem step_ok (W : World iface h S) (k : Call T) (lg : Legal S k) : GoodR iface (exec k) h () (spec S h.fresh k) := by
  cases k with
  | create =>
    obtain ⟨h', q, W', fr, _⟩ := create_good W
    exact GoodR.drop ⟨h', q, W', by omega⟩
  | copyOf s =>
    obtain ⟨⟨fs, u⟩, hs⟩ := lg
    simp only [spec, get_some hs]
    exact (copyCtor_good W hs).drop
  | ctorN n value =>
    obtain ⟨v, rf⟩ := lg
    simp only [spec, copies_eq W rf, lastPos_eq]
    exact (ctorN_good W n rf).drop
  | ctorVals vs => exact (ctorVals_good W vs).drop
  | destroy c => obtain ⟨⟨es, t⟩, hc⟩ := lg; exact destroy_good W hc
  | pushFront c v =>
    obtain ⟨⟨es, t⟩, hc⟩ := lg
    simp only [spec, get_some hc, end_some hc]
    exact pushFront_good W hc v
  | pushBack c v =>
    obtain ⟨⟨⟨es, t⟩, hc⟩, ht⟩ := lg
    rw [get_some hc, end_some hc] at ht
    simp only [spec, get_some hc, end_some hc]
    exact pushBack_good W hc ht v
  | popFront c =>
    obtain ⟨⟨⟨es, t⟩, hc⟩, hne⟩ := lg
    rw [get_some hc] at hne
    simp only [spec, get_some hc, end_some hc]
    exact popFront_good W hc hne
  | insert c i v =>
    obtain ⟨⟨⟨es, t⟩, hc⟩, hi⟩ := lg
    rw [get_some hc] at hi
    simp only [spec, get_some hc, end_some hc, posI_eq]
    refine GoodR.of_eq (insert_good W hc hi v) fun h' q => ?_
    simp only [exec, Prog.bind_app, (World.sl W hc).posAt hi, Res.bind_ok, q, Prog.pure_app]
  | insertN c i n value =>
    obtain ⟨⟨⟨es, t⟩, hc⟩, hi, v, rf⟩ := lg
    rw [get_some hc] at hi
    simp only [spec, get_some hc, end_some hc, posI_eq, copies_eq W rf, lastPos_eq]
    refine GoodR.of_eq (insertN_good W hc hi n (refers_readable W rf)) fun h' q => ?_
    simp only [exec, Prog.bind_app, (World.sl W hc).posAt hi, Res.bind_ok, q]
  | insertVals c i vs =>
    obtain ⟨⟨⟨es, t⟩, hc⟩, hi⟩ := lg
    rw [get_some hc] at hi
    simp only [spec, get_some hc, end_some hc]
    refine GoodR.of_eq (insertVals_good W hc hi vs) fun h' q => ?_
    simp only [exec, Prog.bind_app, (World.sl W hc).posAt hi, Res.bind_ok, q]
  | insertList c i d =>
    obtain ⟨⟨⟨es, t⟩, hc⟩, hi, ⟨⟨fs, u⟩, hd⟩, hcd⟩ := lg
    rw [get_some hc] at hi
    simp only [spec, get_some hc, get_some hd, end_some hc]
    have s := World.sl W hd
    refine GoodR.of_eq (insertNodes_good W hc hi s (W.disj d _ c _ hd hc (Ne.symm hcd))) fun h' q => ?_
    simp only [Prog.bind_app, getNext_eq s.head, Res.bind_ok] at q
    simp only [exec, Prog.bind_app, (World.sl W hc).posAt hi, getNext_eq s.head, Res.bind_ok, q]
  | erase c i =>
    obtain ⟨⟨⟨es, t⟩, hc⟩, hi⟩ := lg
    rw [get_some hc] at hi
    simp only [spec, get_some hc, end_some hc, posI_eq, elem_pos hi]
    refine GoodR.of_eq (erase_good W hc hi) fun h' q => ?_
    simp only [exec, Prog.bind_app, (World.sl W hc).posAt (Nat.le_of_lt hi), Res.bind_ok, q, Prog.pure_app]
  | eraseRange c i j =>
    obtain ⟨⟨⟨es, t⟩, hc⟩, hij, hj⟩ := lg
    rw [get_some hc] at hj
    simp only [spec, get_some hc, end_some hc, posI_eq]
    obtain ⟨j, rfl⟩ : ∃ j', j = j' + 1 := ⟨j - 1, by omega⟩
    rw [Nat.add_sub_cancel]
    have r := World.sl W hc
    have := eraseRange_good W hc (show i ≤ j by omega) (by omega)
    have e : (j + 1 = es.length + 1) ↔ j = es.length := by omega
    simp only [e]
    refine GoodR.of_eq this fun h' q => ?_
    simp only [exec, Prog.bind_app, r.posAt (i := i) (by omega), r.posAt_elem (i := j) (by omega), Res.bind_ok, q, Prog.pure_app]
  | clear c =>
    obtain ⟨⟨es, t⟩, hc⟩ := lg
    obtain ⟨h', q, W', fr, _⟩ := clear_good W hc
    exact ⟨h', q, W', Nat.le_of_eq fr.symm⟩
  | assign c d =>
    obtain ⟨⟨⟨es, t⟩, hc⟩, ⟨⟨fs, u⟩, hd⟩, hcd⟩ := lg
    simp only [spec, get_some hd]
    have dj := W.disj d _ c _ hd hc (Ne.symm hcd)
    refine refill (p := do insertNodes c c (← getNext d) 0) W hc fun h1 W1 fr ef => ?_
    have s1 := FList.Effect.slist ef (World.sl W hd) dj
    have := insertNodes_good W1 (put_same S c [] c) (i := 0) (by simp) s1 (by
      intro x hx
      have := dj x hx
      simp only [iface, scells, List.mem_cons, not_or] at this
      simp only [scells, List.map_nil, List.mem_singleton]; exact this.1)
    rw [fr] at this
    simpa [insertAt] using this
  | assignN c n value =>
    obtain ⟨⟨⟨es, t⟩, hc⟩, ⟨v, rf⟩, ha⟩ := lg
    rw [get_some hc] at ha
    simp only [spec, copies_eq W rf, lastPos_eq]
    refine refill (p := insertN c c n value) W hc fun h1 W1 fr ef => ?_
    have rd : Readable h1 v value := FList.Readable.keep ef (refers_readable W rf) (by
      rintro a rfl
      simp only [scells, List.mem_cons, not_or]
      refine ⟨?_, ha a rfl⟩
      rintro rfl
      obtain ⟨_, hv⟩ := refers_readable W rf
      rw [(World.sl W hc).bare] at hv; cases hv)
    have := insertN_good W1 (put_same S c [] c) (i := 0) (by simp) n rd
    rw [fr] at this
    simpa [insertAt] using this
  | assignVals c vs =>
    obtain ⟨⟨es, t⟩, hc⟩ := lg
    simp only [spec]
    refine refill (p := insertVals c c vs) W hc fun h1 W1 fr ef => ?_
    have := insertVals_good W1 (put_same S c [] c) (i := 0) (by simp) vs
    rw [fr] at this
    simpa [insertAt] using this
  | reverse c =>
    obtain ⟨⟨es, t⟩, hc⟩ := lg
    simp only [spec, get_some hc, firstPos_eq]
    exact reverse_good W hc
  | swap c d =>
    obtain ⟨⟨⟨es, t⟩, hc⟩, ⟨⟨fs, u⟩, hd⟩⟩ := lg
    simp only [spec, get_some hc, get_some hd, end_some hc, end_some hd]
    exact swap_good W hc hd
  | store c i v =>
    obtain ⟨⟨⟨es, t⟩, hc⟩, hi⟩ := lg
    rw [get_some hc] at hi
    simp only [spec, get_some hc, end_some hc]
    obtain ⟨h', q, r', ef, _, tl⟩ := store_ok W.wf (World.sl W hc) hi v
    exact one W hc q ef r' tl

/-- After any client program memory holds exactly the lists the specification says, and nothing else. -/
theorem Reach.world (R : Reach S h) : World iface h S := by
  induction R with
  | start b => exact blank_world b
  | step k _ lg q ih =>
    obtain ⟨h', q', W', _⟩ := step_ok ih k lg
    rw [q] at q'; cases q'; exact W'
  | env _ e ih => exact ih.env e

end Verif.Seq.BList
