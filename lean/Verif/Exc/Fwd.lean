import Verif.Exc.FwdLoops
import Verif.Seq.FwdProps3
/-!
# Properties of `ttl::forward_list` under exceptions (C131, C132)

`XFwd.exec q k` executes the call `q` when the `k`-th allocation or copy of an element (from 0) throws.
-/
set_option linter.unusedVariables false
set_option linter.unusedSimpArgs false
namespace Verif.Exc.XFwd
open Verif Verif.Seq Verif.Seq.FList Verif.Seq.FwdProps Verif.Exc
open Verif.Seq.DList (Arg fresh insertAt slice Blank)
open Verif.Exc.XSList (insertVals_points insertN_points insertNodes_points newNode_points made)
variable {T : Type} {S : State T} {h h' : Heap T} {c d : Addr} {es fs : List (Addr × T)}

/-- `Interrupted S a k q S'`: an exception at point `k` of the call `q` leaves the lists as `S'` says. (`a` is the next address the allocator
hands out.) Single insertions leave everything as it was; insertions of several elements have inserted the first `k`; assignments have dropped the old
elements and inserted the first `k` new ones. -/
def Interrupted (S : State T) (a : Addr) (k : Nat) : Call T → State T → Prop
  | .pushFront _ _, S' => S' = S
  | .insert _ _ _, S' => S' = S
  | .insertN c i n v, S' => k < n ∧ S' = S.put c (insertAt i (fresh a (S.copies k v)) (S.get c))
  | .insertVals c i vs, S' => k < vs.length ∧ S' = S.put c (insertAt i (fresh a (vs.take k)) (S.get c))
  | .insertList c i d, S' => k < (S.get d).length ∧ S' = S.put c (insertAt i (fresh a (((S.get d).map Prod.snd).take k)) (S.get c))
  | .assign c d, S' => k < (S.get d).length ∧ S' = S.put c (fresh a (((S.get d).map Prod.snd).take k))
  | .assignN c n v, S' => k < n ∧ S' = S.put c (fresh a (S.copies k v))
  | .assignVals c vs, S' => k < vs.length ∧ S' = S.put c (fresh a (vs.take k))
  | _, _ => False

/-- The constructors that insert elements. -/
def Constructs : Call T → Prop
  | .copyOf _ => True
  | .ctorN _ _ => True
  | .ctorVals _ => True
  | _ => False

/-! ## One call -/

theorem sl (R : Reach S h) (hc : S.Exists c) : Slist h c (S.get c) := by
  obtain ⟨es, q⟩ := hc
  rw [get_some q]; exact World.sl R.world q

theorem reach_prefix (R : Reach S h) (hc : S.Exists c) {i : Nat} (hi : i ≤ (S.get c).length) {vs : List T} {t : Heap T} {b : Addr}
    (q : SList.insertVals (lastOf c (((S.get c).take i).map Prod.fst)) vs h = .ok (b, t)) :
    Reach (S.put c (insertAt i (fresh h.fresh vs) (S.get c))) t := by
  refine Reach.step (.insertVals c i vs) R ⟨hc, hi⟩ ?_
  simp only [FList.exec, Prog.bind_app, (sl R hc).posAt hi, Res.bind_ok, FList.insertVals, q, Prog.pure_app]

theorem live_pos (R : Reach S h) (hc : S.Exists c) (i : Nat) : h.live (lastOf c (((S.get c).take i).map Prod.fst)) = true := by
  have r := sl R hc
  exact Slist.last_live (A := (S.get c).take i) (B := (S.get c).drop i) (by simpa using r)

/-- What the loop returns is what is thrown away. -/
theorem drop_result {p : Prog (Heap T) Addr} {h h' : Heap T} (e : (do let _ ← p : Prog (Heap T) Unit) h = .ok ((), h')) : ∃ b, p h = .ok (b, h') := by
  simp only [Prog.bind_app] at e
  cases g : p h with
  | ub f => rw [g] at e; cases e
  | diverge => rw [g] at e; cases e
  | ok y => obtain ⟨b, h1⟩ := y; rw [g] at e; cases e; exact ⟨b, rfl⟩

theorem other_run (R : Reach S h) (hd : S.Exists d) : Run h (h.next d) (S.get d) 0 := by
  have s := sl R hd
  have rn := s.run R.world.wf (Nat.zero_le (S.get d).length)
  rw [List.drop_length, List.drop_zero, List.map_nil, DList.posOf_nil, slice, List.drop_zero, Nat.sub_zero, List.take_length] at rn
  rw [s.next_head]; exact rn

theorem other_apart (R : Reach S h) (hc : S.Exists c) (hd : S.Exists d) (hcd : c ≠ d) (i : Nat) :
    ∀ e ∈ S.get d, e.1 ≠ lastOf c (((S.get c).take i).map Prod.fst) := by
  intro e he x
  obtain ⟨es, qc⟩ := hc
  obtain ⟨fs, qd⟩ := hd
  rw [get_some qc] at x
  rw [get_some qd] at he
  refine R.world.disj d _ c _ qd qc (Ne.symm hcd) e.1 ?_ ?_
  · simp only [iface, scells, List.mem_cons, List.mem_map]
    exact .inr ⟨e, he, rfl⟩
  · rw [x]
    have := Slist.last_mem (c := c) (A := es.take i) (B := es.drop i)
    rwa [List.take_append_drop] at this

/-- Inserting the elements of another list. -/
theorem insert_other_points (R : Reach S h) (hc : S.Exists c) (hd : S.Exists d) (hcd : c ≠ d) {i : Nat} (hi : i ≤ (S.get c).length)
    (q : FList.insertNodes (lastOf c (((S.get c).take i).map Prod.fst)) (h.next d) 0 h = .ok ((), h')) :
    Points (insertNodes (lastOf c (((S.get c).take i).map Prod.fst)) (h.next d) 0) h (S.get d).length () h'
      fun k t => Reach (S.put c (insertAt i (fresh h.fresh (((S.get d).map Prod.snd).take k)) (S.get c))) t := by
  obtain ⟨b, q⟩ := drop_result q
  exact Points.seq_pure (g := fun _ => ()) ((insertNodes_points R.world.wf (live_pos R hc i) (other_run R hd) (other_apart R hc hd hcd i) q).imp
    fun k t l ⟨b', y⟩ => reach_prefix R hc hi y)

theorem clear_reach (R : Reach S h) (hc : S.Exists c) :
    ∃ h1, FList.clear c h = .ok ((), h1) ∧ Reach (S.put c []) h1 ∧ h1.fresh = h.fresh ∧ ∀ v value, S.Refers v value →
      (∀ a, value = .elem a → a ∉ (S.get c).map Prod.fst) → (S.put c []).Refers v value := by
  obtain ⟨es, hc⟩ := hc
  obtain ⟨h1, q1, _, fr, _, _⟩ := clear_good R.world hc
  refine ⟨h1, q1, .step (.clear c) R ⟨es, hc⟩ q1, fr, ?_⟩
  intro v value rf ha
  cases value with
  | ext w => exact rf
  | elem a =>
    obtain ⟨d, fs, hd, m⟩ := rf
    have : d ≠ c := by
      rintro rfl
      rw [hc] at hd; cases hd
      rw [get_some hc] at ha
      exact ha a rfl (List.mem_map.2 ⟨_, m, rfl⟩)
    exact ⟨d, fs, by rw [put_other _ _ this]; exact hd, m⟩

/-- How many nodes a call makes: each is an allocation together with the copy of an element. -/
def work (S : State T) : Call T → Nat
  | .pushFront _ _ | .insert _ _ _ => 1
  | .insertN _ _ n _ | .assignN _ n _ | .ctorN n _ => n
  | .insertVals _ _ vs | .assignVals _ vs | .ctorVals vs => vs.length
  | .insertList _ _ d | .assign _ d | .copyOf d => (S.get d).length
  | _ => 0

/-- `call_points` with the exact number of points. -/
theorem call_points_work (R : Reach S h) (q : Call T) (lg : Legal S q) (nc : ¬ Constructs q) :
    ∃ h', FList.exec q h = .ok ((), h') ∧ Reach (spec S h.fresh q) h' ∧
      Points (exec q) h (work S q) () h' fun k t => ∃ S', Interrupted S h.fresh k q S' ∧ Reach S' t := by
  obtain ⟨h', e, R'⟩ := call_returns R q lg
  have simple : exec q = Thr.call (FList.exec q) → work S q = 0 → ∃ h', FList.exec q h = .ok ((), h') ∧ Reach (spec S h.fresh q) h' ∧
      Points (exec q) h (work S q) () h' fun k t => ∃ S', Interrupted S h.fresh k q S' ∧ Reach S' t := by
    intro x y; rw [x, y]; exact ⟨h', e, R', Points.call_ e⟩
  cases q with
  | create => exact simple rfl rfl
  | copyOf s => exact absurd trivial nc
  | ctorN n v => exact absurd trivial nc
  | ctorVals vs => exact absurd trivial nc
  | destroy c => exact simple rfl rfl
  | popFront c => exact simple rfl rfl
  | erase c i => exact simple rfl rfl
  | eraseRange c i j => exact simple rfl rfl
  | clear c => exact simple rfl rfl
  | reverse c => exact simple rfl rfl
  | spliceAll c i d => exact simple rfl rfl
  | spliceOne c i d j => exact simple rfl rfl
  | splice c i d j k => exact simple rfl rfl
  | swap c d => exact simple rfl rfl
  | store c i v => exact simple rfl rfl
  | pushFront c v =>
    refine ⟨h', e, R', ?_⟩
    show Points _ h 1 _ _ _
    simp only [FList.exec, FList.pushFront, Prog.bind_app, newNode_eq, Res.bind_ok] at e
    refine Points.seq (m := 0) (newNode_points ⟨S, rfl, R⟩) ?_
    obtain ⟨b, g⟩ := drop_result (p := SNode.insertAfter c h.fresh) (h := made h v) e
    exact Points.call_seq (a := b) (s' := h') g Points.pure_
  | insert c i v =>
    refine ⟨h', e, R', ?_⟩
    show Points _ h 1 _ _ _
    have it := (sl R lg.1).posAt lg.2
    simp only [FList.exec, FList.insertOne, Prog.bind_app, newNode_eq, Res.bind_ok, it] at e
    refine Points.call_seq (a := _) (s' := h) it ?_
    simp only [insertOne, bind_assoc]
    refine Points.seq (m := 0) (newNode_points ⟨S, rfl, R⟩) ?_
    obtain ⟨b, g⟩ := drop_result (p := SNode.insertAfter _ h.fresh) (h := made h v) e
    exact Points.call_seq (a := b) (s' := h') g Points.pure_
  | insertN c i n value =>
    obtain ⟨hc, hi, v, rf⟩ := lg
    refine ⟨h', e, R', ?_⟩
    show Points _ h n _ _ _
    have it := (sl R hc).posAt hi
    simp only [FList.exec, Prog.bind_app, Res.bind_ok, it] at e
    obtain ⟨b, g⟩ := drop_result e
    refine Points.call_seq (a := _) (s' := h) it (Points.seq_pure (g := fun _ => ())
      ((insertN_points R.world.wf (live_pos R hc i) (refers_readable R.world rf) g).imp fun k t l ⟨b', y⟩ => ⟨_, ⟨l, rfl⟩, ?_⟩))
    rw [copies_eq R.world rf]
    exact reach_prefix R hc hi y
  | insertVals c i vs =>
    obtain ⟨hc, hi⟩ := lg
    refine ⟨h', e, R', ?_⟩
    show Points _ h vs.length _ _ _
    have it := (sl R hc).posAt hi
    simp only [FList.exec, Prog.bind_app, Res.bind_ok, it] at e
    obtain ⟨b, g⟩ := drop_result e
    exact Points.call_seq (a := _) (s' := h) it (Points.seq_pure (g := fun _ => ())
      ((insertVals_points vs g).imp fun k t l ⟨b', y⟩ => ⟨_, ⟨l, rfl⟩, reach_prefix R hc hi y⟩))
  | insertList c i d =>
    obtain ⟨hc, hi, hd, hcd⟩ := lg
    refine ⟨h', e, R', ?_⟩
    show Points _ h (S.get d).length _ _ _
    have it := (sl R hc).posAt hi
    have s := sl R hd
    simp only [FList.exec, Prog.bind_app, Res.bind_ok, it, getNext_eq s.head] at e
    exact Points.call_seq (a := _) (s' := h) it (Points.call_seq (a := _) (s' := h) (getNext_eq s.head)
      ((insert_other_points R hc hd hcd hi e).imp fun k t l y => ⟨_, ⟨l, rfl⟩, y⟩))
  | assign c d =>
    obtain ⟨hc, hd, hcd⟩ := lg
    refine ⟨h', e, R', ?_⟩
    show Points _ h (S.get d).length _ _ _
    obtain ⟨h1, q1, R1, fr, _⟩ := clear_reach R hc
    have hd1 : (S.put c []).Exists d := put_exists_other _ _ hd
    have s := sl R1 hd1
    simp only [FList.exec, FList.opAssign, Prog.bind_app, q1, Res.bind_ok, getNext_eq s.head] at e
    have X := insert_other_points (i := 0) R1 (put_exists S c []) hd1 hcd (Nat.zero_le _) (by simpa using e)
    rw [put_get_other _ _ (Ne.symm hcd), put_get, fr] at X
    refine Points.call_seq (a := ()) (s' := h1) q1 (Points.call_seq (a := _) (s' := h1) (getNext_eq s.head) ?_)
    refine X.imp fun k t l y => ⟨_, ⟨l, rfl⟩, ?_⟩
    rw [FwdProps.put_put] at y
    simpa [insertAt] using y
  | assignN c n value =>
    obtain ⟨hc, ⟨v, rf⟩, ha⟩ := lg
    refine ⟨h', e, R', ?_⟩
    show Points _ h n _ _ _
    obtain ⟨h1, q1, R1, fr, kr⟩ := clear_reach R hc
    simp only [FList.exec, FList.assignN, Prog.bind_app, q1, Res.bind_ok] at e
    obtain ⟨b, g⟩ := drop_result e
    have lc := live_pos R1 (put_exists S c []) 0
    refine Points.call_seq (a := ()) (s' := h1) q1 (Points.seq_pure (g := fun _ => ())
      ((insertN_points R1.world.wf (by simpa using lc) (refers_readable R1.world (kr v value rf ha)) g).imp fun k t l ⟨b', y⟩ => ⟨_, ⟨l, rfl⟩, ?_⟩))
    rw [copies_eq R.world rf]
    have := reach_prefix (i := 0) R1 (put_exists S c []) (Nat.zero_le _) (by simpa using y)
    rw [FwdProps.put_put, put_get, fr] at this
    simpa [insertAt] using this
  | assignVals c vs =>
    refine ⟨h', e, R', ?_⟩
    show Points _ h vs.length _ _ _
    obtain ⟨h1, q1, R1, fr, kr⟩ := clear_reach R lg
    simp only [FList.exec, FList.assignVals, Prog.bind_app, q1, Res.bind_ok] at e
    obtain ⟨b, g⟩ := drop_result e
    refine Points.call_seq (a := ()) (s' := h1) q1 (Points.seq_pure (g := fun _ => ())
      ((insertVals_points vs g).imp fun k t l ⟨b', y⟩ => ⟨_, ⟨l, rfl⟩, ?_⟩))
    have := reach_prefix (i := 0) R1 (put_exists S c []) (Nat.zero_le _) (by simpa using y)
    rw [FwdProps.put_put, put_get, fr] at this
    simpa [insertAt] using this

/-- **C131.** Every legal call that is not a constructor passes some number `n` of points where an exception may appear. If none appears, the call
does what the model without exceptions does. If one appears, at any of the points, it leaves the call in a memory that is again reachable, i.e. one
that some client program without exceptions produces: every list is intact and nothing is lost, and `Interrupted` says what the lists contain. -/
theorem call_points (R : Reach S h) (q : Call T) (lg : Legal S q) (nc : ¬ Constructs q) :
    ∃ n h', FList.exec q h = .ok ((), h') ∧ Reach (spec S h.fresh q) h' ∧
      Points (exec q) h n () h' fun k t => ∃ S', Interrupted S h.fresh k q S' ∧ Reach S' t :=
  ⟨work S q, call_points_work R q lg nc⟩

/-- Every legal call that is not a constructor, with an exception at whatever point or with none. -/
theorem call_outcome (R : Reach S h) (q : Call T) (lg : Legal S q) (nc : ¬ Constructs q) (k : Nat) :
    (∃ h' k', exec q k h = .ok (.ret () k', h') ∧ FList.exec q h = .ok ((), h') ∧ Reach (spec S h.fresh q) h') ∨
    (∃ t S', exec q k h = .ok (.thrown, t) ∧ Interrupted S h.fresh k q S' ∧ Reach S' t) := by
  obtain ⟨n, h', e, R', X⟩ := call_points R q lg nc
  rcases X.cases k with ⟨_, x⟩ | ⟨_, t, x, S', i, r⟩
  · exact .inl ⟨h', _, x, e, R'⟩
  · exact .inr ⟨t, S', x, i, r⟩

theorem interrupted_unique {S₁ S₂ : State T} {a : Addr} {k : Nat} {q : Call T} (i₁ : Interrupted S a k q S₁) (i₂ : Interrupted S a k q S₂) : S₁ = S₂ := by
  cases q with
  | pushFront c v => exact i₁.trans i₂.symm
  | insert c i v => exact i₁.trans i₂.symm
  | insertN c i n v => exact i₁.2.trans i₂.2.symm
  | insertVals c i vs => exact i₁.2.trans i₂.2.symm
  | insertList c i d => exact i₁.2.trans i₂.2.symm
  | assign c d => exact i₁.2.trans i₂.2.symm
  | assignN c n v => exact i₁.2.trans i₂.2.symm
  | assignVals c vs => exact i₁.2.trans i₂.2.symm
  | _ => exact i₁.elim

/-! ## Programs in which calls throw -/

/-- `XReach S h`: some client program, in which any calls may have been left by exceptions at any points, ends in memory `h` and, by the
specification, in state `S`. (Constructors with elements are not among these calls, see `ctor_throw_leaks`.) -/
inductive XReach : State T → Heap T → Prop where
  | start {h : Heap T} : Blank h → XReach (fun _ => none) h
  | returned {S : State T} {h h' : Heap T} (q : Call T) (k k' : Nat) : XReach S h → Legal S q → ¬ Constructs q →
      exec q k h = .ok (.ret () k', h') → XReach (spec S h.fresh q) h'
  | thrown {S S' : State T} {h t : Heap T} (q : Call T) (k : Nat) : XReach S h → Legal S q → ¬ Constructs q →
      exec q k h = .ok (.thrown, t) → Interrupted S h.fresh k q S' → XReach S' t
  | env {S : State T} {h h' : Heap T} : XReach S h → Env h h' → XReach S h'

/-- **C131, histories.** Whatever exceptions a program has met, its lists are in a state that a program without exceptions reaches: so every theorem
about reachable memories (observers, no leak, no undefined behaviour in later calls, destruction) holds after exceptions as well. -/
theorem XReach.reach (X : XReach S h) : Reach S h := by
  induction X with
  | start b => exact .start b
  | @returned S h h' q k k' _ lg nc e ih =>
    rcases call_outcome ih q lg nc k with ⟨h1, k1, e1, _, R1⟩ | ⟨t, S', e1, _, _⟩
    · rw [e] at e1; cases e1; exact R1
    · rw [e] at e1; cases e1
  | @thrown S S' h t q k _ lg nc e i ih =>
    rcases call_outcome ih q lg nc k with ⟨h1, k1, e1, _, R1⟩ | ⟨t1, S1, e1, i1, R1⟩
    · rw [e] at e1; cases e1
    · rw [e] at e1; cases e1
      exact interrupted_unique i1 i ▸ R1
  | env _ e ih => exact .env ih e

/-- Programs with exceptions never get stuck: every legal call returns or throws, and the program goes on. -/
theorem XReach.goes_on (X : XReach S h) (q : Call T) (lg : Legal S q) (nc : ¬ Constructs q) (k : Nat) :
    (∃ h' k', exec q k h = .ok (.ret () k', h') ∧ XReach (spec S h.fresh q) h') ∨
    (∃ t S', exec q k h = .ok (.thrown, t) ∧ Interrupted S h.fresh k q S' ∧ XReach S' t) := by
  rcases call_outcome X.reach q lg nc k with ⟨h1, k1, e1, _, _⟩ | ⟨t1, S1, e1, i, R1⟩
  · exact .inl ⟨h1, k1, e1, .returned q k k1 X lg nc e1⟩
  · exact .inr ⟨t1, S1, e1, i, .thrown q k X lg nc e1 i⟩

/-! ## Single members, in terms of what a client sees -/

/-- **C131, strong guarantee.** If `push_front` throws, the memory is exactly what it was. -/
theorem push_front_strong (c : Addr) (v : T) (h : Heap T) : exec (.pushFront c v) 0 h = .ok (.thrown, h) := rfl

/-- **C131, strong guarantee.** If `insert_after(pos, v)` throws, the memory is exactly what it was. -/
theorem insert_strong (R : Reach S h) (hc : S.Exists c) (hs : Shows h c es) {i : Nat} (hi : i ≤ es.length) (v : T) :
    exec (.insert c i v) 0 h = .ok (.thrown, h) := by
  simp only [exec, Thr.bind_app, Thr.call_app, (shown R hc hs).2.posAt hi, Res.bind_ok, Thr.after_ret, insertOne, XSList.newNode, Thr.point_zero,
    Thr.after_thrown]

/-- An exception that changed only the list `c`. -/
theorem one_interrupted (R : Reach S h) {t : Heap T} {es' : List (Addr × T)} (R' : Reach (S.put c es') t) :
    Shows t c es' ∧ OthersKept S h t [c] := by
  refine ⟨by have := reach_shows R' (put_exists S c es'); rwa [put_get] at this, ?_⟩
  intro d hd hx fs hf
  have hd : d ≠ c := by simpa using hd
  have := reach_shows R' (c := d) (put_exists_other S es' hx)
  rwa [put_get_other S es' hd, get_shown R hx hf] at this

/-- **C131, basic guarantee.** If the copy of element `k` throws in `insert_after(pos, first, last)`, the first `k` values have been inserted, in new
nodes immediately after `pos`, and nothing else has changed. -/
theorem insert_range_interrupted (R : Reach S h) (hc : S.Exists c) (hs : Shows h c es) {i : Nat} (hi : i ≤ es.length) (vs : List T) {k : Nat}
    (hk : k < vs.length) :
    ∃ t ns, exec (.insertVals c i vs) k h = .ok (.thrown, t) ∧ Shows t c (es.take i ++ (ns ++ es.drop i)) ∧ NewNodes h ns (vs.take k) ∧
      OthersKept S h t [c] := by
  have hg := get_shown R hc hs
  have r := (shown R hc hs).2
  have lg : Legal S (.insertVals c i vs) := ⟨hc, by rw [hg]; exact hi⟩
  obtain ⟨h', e, R'⟩ := call_returns R _ lg
  simp only [FList.exec, Prog.bind_app, r.posAt hi, Res.bind_ok] at e
  obtain ⟨b, g⟩ := drop_result e
  obtain ⟨t, x, b', y⟩ := (insertVals_points vs g).throws k hk
  have y := reach_prefix R hc (by rw [hg]; exact hi) (by rw [hg]; exact y)
  rw [hg] at y
  obtain ⟨s1, s2⟩ := one_interrupted R y
  refine ⟨t, _, ?_, s1, newNodes R (Nat.le_refl _) _, s2⟩
  simp only [exec, insertVals, Thr.bind_app, Thr.call_app, r.posAt hi, Res.bind_ok, Thr.after_ret, x, Thr.after_thrown]

/-- **C131, basic guarantee.** If the copy of element `k` throws in `c = d`, the old elements of `c` are gone and `c` has copies of the first `k` elements
of `d`; `d` and all other lists are unchanged. -/
theorem assign_interrupted (R : Reach S h) (hc : S.Exists c) (hd : S.Exists d) (hcd : c ≠ d) (hs : Shows h c es) (hf : Shows h d fs) {k : Nat}
    (hk : k < fs.length) :
    ∃ t ns, exec (.assign c d) k h = .ok (.thrown, t) ∧ Shows t c ns ∧ NewNodes h ns ((fs.map Prod.snd).take k) ∧ OthersKept S h t [c] := by
  have hg := get_shown R hd hf
  obtain ⟨n, h', e, R', X⟩ := call_points R (.assign c d) ⟨hc, hd, hcd⟩ (fun x => x)
  have en : n = fs.length := by
    obtain ⟨h1, q1, R1, fr, _⟩ := clear_reach R hc
    have hd1 : (S.put c []).Exists d := put_exists_other _ _ hd
    have s := sl R1 hd1
    simp only [FList.exec, FList.opAssign, Prog.bind_app, q1, Res.bind_ok, getNext_eq s.head] at e
    have Y := insert_other_points (i := 0) R1 (put_exists S c []) hd1 hcd (Nat.zero_le _) (by simpa using e)
    rw [put_get_other _ _ (Ne.symm hcd), put_get, hg] at Y
    have a := X.returns 0
    have b : exec (.assign c d) fs.length h = .ok (.ret () 0, h') := by
      have := Y.returns 0
      simp only [exec, opAssign, Thr.bind_app, Thr.call_app, q1, Res.bind_ok, Thr.after_ret, getNext_eq s.head]
      simpa using this
    rcases X.cases fs.length with ⟨l, y⟩ | ⟨l, t, y, _⟩
    · rw [b] at y
      simp only [Res.ok.injEq, Prod.mk.injEq, Out.ret.injEq, true_and, and_true] at y
      omega
    · rw [b] at y; cases y
  obtain ⟨t, x, S', ⟨_, rfl⟩, R2⟩ := X.throws k (by omega)
  rw [hg] at R2
  obtain ⟨s1, s2⟩ := one_interrupted R R2
  exact ⟨t, _, x, s1, newNodes R (Nat.le_refl _) _, s2⟩

end Verif.Exc.XFwd
