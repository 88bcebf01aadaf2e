import Verif.Exc.FwdLoops
import Verif.Seq.BwdProps3
/-!
# Properties of `ttl::backward_list` under exceptions (C133)

`XBwd.exec q k` executes the call `q` when the `k`-th allocation or copy of an element (from 0) throws.
-/
set_option linter.unusedVariables false
set_option linter.unusedSimpArgs false
namespace Verif.Exc.XBwd
open Verif Verif.Seq Verif.Seq.BList Verif.Seq.BwdProps Verif.Exc
open Verif.Seq.DList (Arg fresh insertAt slice Blank)
open Verif.Exc.XSList (insertVals_points insertN_points insertNodes_points newNode_points made)
variable {T : Type} {S : State T} {h h' : Heap T} {c d : Addr} {es fs : List (Addr × T)}

/-- `Interrupted S a k q S'`: an exception at point `k` of the call `q` leaves the lists as `S'` says. (`a` is the next address the allocator
hands out.) Single insertions leave everything as it was; insertions of several elements have inserted the first `k`, and `before_end()` is what it was
before; assignments have dropped the old elements and inserted the first `k` new ones, and `before_end()` is `before_begin()`. -/
def Interrupted (S : State T) (a : Addr) (k : Nat) : Call T → State T → Prop
  | .pushFront _ _, S' => S' = S
  | .pushBack _ _, S' => S' = S
  | .insert _ _ _, S' => S' = S
  | .insertN c i n v, S' => k < n ∧ S' = S.put c (insertAt i (fresh a (S.copies k v)) (S.get c)) (S.endOf c)
  | .insertVals c i vs, S' => k < vs.length ∧ S' = S.put c (insertAt i (fresh a (vs.take k)) (S.get c)) (S.endOf c)
  | .insertList c i d, S' => k < (S.get d).length ∧ S' = S.put c (insertAt i (fresh a (((S.get d).map Prod.snd).take k)) (S.get c)) (S.endOf c)
  | .assign c d, S' => k < (S.get d).length ∧ S' = S.put c (fresh a (((S.get d).map Prod.snd).take k)) c
  | .assignN c n v, S' => k < n ∧ S' = S.put c (fresh a (S.copies k v)) c
  | .assignVals c vs, S' => k < vs.length ∧ S' = S.put c (fresh a (vs.take k)) c
  | _, _ => False

/-- The constructors that insert elements. -/
def Constructs : Call T → Prop
  | .copyOf _ => True
  | .ctorN _ _ => True
  | .ctorVals _ => True
  | _ => False

/-! ## One call -/

theorem sl (R : Reach S h) (hc : S.Exists c) : Slist h c (S.get c) := by
  obtain ⟨es, t, q⟩ := exists_mk hc
  rw [get_some q]; exact World.sl R.world q

theorem tl (R : Reach S h) (hc : S.Exists c) : h.tail c = S.endOf c := by
  obtain ⟨es, t, q⟩ := exists_mk hc
  rw [end_some q]; exact World.tl R.world q

theorem same_tail {t : Heap T} {c : Addr} : ({ t with tail := upd t.tail c (t.tail c) } : Heap T) = t := by
  have : upd t.tail c (t.tail c) = t.tail := by
    funext x; unfold upd; split
    · rename_i q; rw [q]
    · rfl
  rw [this]

theorem reach_prefix (R : Reach S h) (hc : S.Exists c) {i : Nat} (hi : i ≤ (S.get c).length) {vs : List T} {t : Heap T} {b : Addr}
    (q : SList.insertVals (lastOf c (((S.get c).take i).map Prod.fst)) vs h = .ok (b, t)) :
    Reach (S.put c (insertAt i (fresh h.fresh vs) (S.get c)) (S.endOf c)) t := by
  refine Reach.step (.insertVals c i vs) R ⟨hc, hi⟩ ?_
  have r := sl R hc
  obtain ⟨h1, q1, r1, ef, fr, tl⟩ := insertVals_at R.world.wf r hi vs
  rw [q] at q1; cases q1
  simp only [BList.exec, Prog.bind_app, r.posAt hi, Res.bind_ok, BList.insertVals, q, Prog.pure_app, getTail_eq r1.head, Prog.ite_app]
  split
  · rename_i e
    rw [setTail_eq r1.head, e, same_tail]
  · rfl

theorem live_pos (R : Reach S h) (hc : S.Exists c) (i : Nat) : h.live (lastOf c (((S.get c).take i).map Prod.fst)) = true := by
  have r := sl R hc
  exact Slist.last_live (A := (S.get c).take i) (B := (S.get c).drop i) (by simpa using r)

theorem split_result {α β : Type} {p : Prog (Heap T) α} {f : α → Prog (Heap T) β} {h h' : Heap T} {b : β} (e : (p >>= f) h = .ok (b, h')) :
    ∃ a h1, p h = .ok (a, h1) ∧ f a h1 = .ok (b, h') := by
  simp only [Prog.bind_app] at e
  cases g : p h with
  | ub f => rw [g] at e; cases e
  | diverge => rw [g] at e; cases e
  | ok y => obtain ⟨a, h1⟩ := y; rw [g] at e; exact ⟨a, h1, rfl, e⟩

/-- What comes after an insertion loop throws nothing. -/
theorem then_tail_points {n : Nat} {L : Thr (Heap T) Addr} {h h1 h' : Heap T} {b pos : Addr} {f : Addr → Addr} {P : Nat → Heap T → Prop}
    (X : Points L h n b h1 P) (e : (do let t ← getTail c; if pos = t then setTail c (f b) else pure () : Prog (Heap T) Unit) h1 = .ok ((), h')) :
    Points (do
      let p ← L
      let t ← Thr.call (getTail c)
      if pos = t then Thr.call (setTail c (f p)) else pure ()) h n () h' P := by
  refine Points.seq (m := 0) X ⟨fun k => ?_, fun k l => absurd l (Nat.not_lt_zero _)⟩
  obtain ⟨t, h2, e1, e2⟩ := split_result e
  rw [Prog.ite_app] at e2
  simp only [Thr.bind_app, Thr.call_app, e1, Res.bind_ok, Thr.after_ret, Thr.ite_app]
  split
  · rename_i q
    rw [if_pos q] at e2
    rw [e2]; simp
  · rename_i q
    rw [if_neg q] at e2
    cases e2; simp [Thr.pure_app]

theorem other_run (R : Reach S h) (hd : S.Exists d) : Run h (h.next d) (S.get d) 0 := by
  have s := sl R hd
  have rn := s.run R.world.wf (Nat.zero_le (S.get d).length)
  rw [List.drop_length, List.drop_zero, List.map_nil, DList.posOf_nil, slice, List.drop_zero, Nat.sub_zero, List.take_length] at rn
  rw [s.next_head]; exact rn

theorem other_apart (R : Reach S h) (hc : S.Exists c) (hd : S.Exists d) (hcd : c ≠ d) (i : Nat) :
    ∀ e ∈ S.get d, e.1 ≠ lastOf c (((S.get c).take i).map Prod.fst) := by
  intro e he x
  obtain ⟨es, t, qc⟩ := exists_mk hc
  obtain ⟨fs, u, qd⟩ := exists_mk hd
  rw [get_some qc] at x
  rw [get_some qd] at he
  refine R.world.disj d _ c _ qd qc (Ne.symm hcd) e.1 ?_ ?_
  · simp only [iface, scells, List.mem_cons, List.mem_map]
    exact .inr ⟨e, he, rfl⟩
  · rw [x]
    have := Slist.last_mem (c := c) (A := es.take i) (B := es.drop i)
    rwa [List.take_append_drop] at this

/-- Inserting the elements of another list. -/
theorem insert_other_points (R : Reach S h) (hc : S.Exists c) (hd : S.Exists d) (hcd : c ≠ d) {i : Nat} (hi : i ≤ (S.get c).length)
    (q : BList.insertNodes c (lastOf c (((S.get c).take i).map Prod.fst)) (h.next d) 0 h = .ok ((), h')) :
    Points (insertNodes c (lastOf c (((S.get c).take i).map Prod.fst)) (h.next d) 0) h (S.get d).length () h'
      fun k t => Reach (S.put c (insertAt i (fresh h.fresh (((S.get d).map Prod.snd).take k)) (S.get c)) (S.endOf c)) t := by
  obtain ⟨b, h1, q, q'⟩ := split_result q
  exact then_tail_points (f := fun _ => _) ((insertNodes_points R.world.wf (live_pos R hc i) (other_run R hd) (other_apart R hc hd hcd i) q).imp
    fun k t l ⟨b', y⟩ => reach_prefix R hc hi y) q'

theorem clear_reach (R : Reach S h) (hc : S.Exists c) :
    ∃ h1, BList.clear c h = .ok ((), h1) ∧ Reach (S.put c [] c) h1 ∧ h1.fresh = h.fresh ∧ ∀ v value, S.Refers v value →
      (∀ a, value = .elem a → a ∉ (S.get c).map Prod.fst) → (S.put c [] c).Refers v value := by
  obtain ⟨es, t, hc⟩ := exists_mk hc
  obtain ⟨h1, q1, _, fr, _⟩ := clear_good R.world hc
  refine ⟨h1, q1, .step (.clear c) R ⟨_, hc⟩ q1, fr, ?_⟩
  intro v value rf ha
  cases value with
  | ext w => exact rf
  | elem a =>
    obtain ⟨d, fs, hd, m⟩ := rf
    have : d ≠ c := by
      rintro rfl
      rw [hc] at hd; cases hd
      rw [get_some hc] at ha
      exact ha a rfl (List.mem_map.2 ⟨_, m, rfl⟩)
    exact ⟨d, fs, by rw [put_other _ _ _ this]; exact hd, m⟩

theorem call_tail_points {P : Nat → Heap T → Prop} {p : Prog (Heap T) Unit} {x : Thr (Heap T) Unit} (e : ∀ k, x k h = Thr.call p k h) (q : p h = .ok ((), h')) :
    Points x h 0 () h' P :=
  ⟨fun k => by rw [e, Thr.call_app, q]; simp, fun k l => absurd l (Nat.not_lt_zero _)⟩

/-- How many nodes a call makes: each is an allocation together with the copy of an element. -/
def work (S : State T) : Call T → Nat
  | .pushFront _ _ | .pushBack _ _ | .insert _ _ _ => 1
  | .insertN _ _ n _ | .assignN _ n _ | .ctorN n _ => n
  | .insertVals _ _ vs | .assignVals _ vs | .ctorVals vs => vs.length
  | .insertList _ _ d | .assign _ d | .copyOf d => (S.get d).length
  | _ => 0

/-- `call_points` with the exact number of points. -/
theorem call_points_work (R : Reach S h) (q : Call T) (lg : Legal S q) (nc : ¬ Constructs q) :
    ∃ h', BList.exec q h = .ok ((), h') ∧ Reach (spec S h.fresh q) h' ∧
      Points (exec q) h (work S q) () h' fun k t => ∃ S', Interrupted S h.fresh k q S' ∧ Reach S' t := by
  obtain ⟨h', e, R'⟩ := call_returns R q lg
  have simple : exec q = Thr.call (BList.exec q) → work S q = 0 → ∃ h', BList.exec q h = .ok ((), h') ∧ Reach (spec S h.fresh q) h' ∧
      Points (exec q) h (work S q) () h' fun k t => ∃ S', Interrupted S h.fresh k q S' ∧ Reach S' t := by
    intro x y; rw [x, y]; exact ⟨h', e, R', Points.call_ e⟩
  cases q with
  | create => exact simple rfl rfl
  | copyOf s => exact absurd trivial nc
  | ctorN n v => exact absurd trivial nc
  | ctorVals vs => exact absurd trivial nc
  | destroy c => exact simple rfl rfl
  | popFront c => exact simple rfl rfl
  | erase c i => exact simple rfl rfl
  | eraseRange c i j => exact simple rfl rfl
  | clear c => exact simple rfl rfl
  | reverse c => exact simple rfl rfl
  | swap c d => exact simple rfl rfl
  | store c i v => exact simple rfl rfl
  | pushFront c v =>
    refine ⟨h', e, R', ?_⟩
    show Points _ h 1 _ _ _
    simp only [BList.exec, BList.pushFront] at e
    obtain ⟨a, h1, e1, e⟩ := split_result e
    rw [newNode_eq] at e1; cases e1
    refine Points.seq (m := 0) (newNode_points ⟨S, rfl, R⟩) (call_tail_points (p := _) (fun k => ?_) e)
    simp only [Thr.bind_app, Thr.call_app, Prog.bind_app]
    cases g : SNode.insertAfter c h.fresh (made h v) with
    | ub f => rfl
    | diverge => rfl
    | ok y => simp only [Res.bind_ok, Thr.after_ret, Thr.bind_app, Thr.call_app]
              cases g2 : getTail c y.2 with
              | ub f => rfl
              | diverge => rfl
              | ok z => simp only [Res.bind_ok, Thr.after_ret, Thr.ite_app, Prog.ite_app]; split <;> rfl
  | pushBack c v =>
    refine ⟨h', e, R', ?_⟩
    show Points _ h 1 _ _ _
    simp only [BList.exec, BList.pushBack] at e
    obtain ⟨t, h1, e1, e⟩ := split_result e
    rw [getTail_eq (sl R lg.1).head] at e1; cases e1
    obtain ⟨a, h1, e1, e⟩ := split_result e
    rw [newNode_eq] at e1; cases e1
    obtain ⟨p, h2, e2, e⟩ := split_result e
    refine Points.call_seq (a := h.tail c) (s' := h) (getTail_eq (sl R lg.1).head) (Points.seq (m := 0) (newNode_points ⟨S, rfl, R⟩)
      (Points.call_seq (a := p) (s' := h2) e2 (Points.call_ e)))
  | insert c i v =>
    refine ⟨h', e, R', ?_⟩
    show Points _ h 1 _ _ _
    have it := (sl R lg.1).posAt lg.2
    simp only [BList.exec] at e
    obtain ⟨t, h1, e1, e⟩ := split_result e
    rw [it] at e1; cases e1
    obtain ⟨x, h1, e1, e⟩ := split_result e
    cases e
    simp only [BList.insertOne] at e1
    obtain ⟨a, h1, e2, e⟩ := split_result e1
    rw [newNode_eq] at e2; cases e2
    obtain ⟨p, h2, e2, e⟩ := split_result e
    obtain ⟨t, h3, e3, e⟩ := split_result e
    refine Points.call_seq (a := _) (s' := h) it (Points.seq_pure (g := fun _ => ()) (a := x) ?_)
    refine Points.seq (m := 0) (newNode_points ⟨S, rfl, R⟩) (Points.call_seq (a := p) (s' := h2) e2 (Points.call_seq (a := t) (s' := h3) e3 ?_))
    refine ⟨fun k => ?_, fun k l => absurd l (Nat.not_lt_zero _)⟩
    rw [Prog.ite_app] at e
    rw [Thr.ite_app]
    split
    · rename_i q
      rw [if_pos q] at e
      obtain ⟨_, h4, e4, e⟩ := split_result e
      cases e
      simp only [Thr.bind_app, Thr.call_app, e4, Res.bind_ok, Thr.after_ret, Thr.pure_app, Nat.add_zero, Nat.zero_add]
    · rename_i q
      rw [if_neg q] at e
      cases e
      simp only [Thr.pure_app, Nat.add_zero, Nat.zero_add]
  | insertN c i n value =>
    obtain ⟨hc, hi, v, rf⟩ := lg
    refine ⟨h', e, R', ?_⟩
    show Points _ h n _ _ _
    have it := (sl R hc).posAt hi
    simp only [BList.exec] at e
    obtain ⟨t, h1, e1, e⟩ := split_result e
    rw [it] at e1; cases e1
    obtain ⟨b, h1, g, e⟩ := split_result e
    refine Points.call_seq (a := _) (s' := h) it (then_tail_points (f := fun p => p)
      ((insertN_points R.world.wf (live_pos R hc i) (refers_readable R.world rf) g).imp fun k t l ⟨b', y⟩ => ⟨_, ⟨l, rfl⟩, ?_⟩) e)
    rw [copies_eq R.world rf]
    exact reach_prefix R hc hi y
  | insertVals c i vs =>
    obtain ⟨hc, hi⟩ := lg
    refine ⟨h', e, R', ?_⟩
    show Points _ h vs.length _ _ _
    have it := (sl R hc).posAt hi
    simp only [BList.exec] at e
    obtain ⟨t, h1, e1, e⟩ := split_result e
    rw [it] at e1; cases e1
    obtain ⟨b, h1, g, e⟩ := split_result e
    exact Points.call_seq (a := _) (s' := h) it (then_tail_points (f := fun _ => _)
      ((insertVals_points vs g).imp fun k t l ⟨b', y⟩ => ⟨_, ⟨l, rfl⟩, reach_prefix R hc hi y⟩) e)
  | insertList c i d =>
    obtain ⟨hc, hi, hd, hcd⟩ := lg
    refine ⟨h', e, R', ?_⟩
    show Points _ h (S.get d).length _ _ _
    have it := (sl R hc).posAt hi
    have s := sl R hd
    simp only [BList.exec, Prog.bind_app, Res.bind_ok, it, getNext_eq s.head] at e
    exact Points.call_seq (a := _) (s' := h) it (Points.call_seq (a := _) (s' := h) (getNext_eq s.head)
      ((insert_other_points R hc hd hcd hi e).imp fun k t l y => ⟨_, ⟨l, rfl⟩, y⟩))
  | assign c d =>
    obtain ⟨hc, hd, hcd⟩ := lg
    refine ⟨h', e, R', ?_⟩
    show Points _ h (S.get d).length _ _ _
    obtain ⟨h1, q1, R1, fr, _⟩ := clear_reach R hc
    have hd1 : (S.put c [] c).Exists d := put_exists_other _ _ _ hd
    have s := sl R1 hd1
    simp only [BList.exec, BList.opAssign, Prog.bind_app, q1, Res.bind_ok, getNext_eq s.head] at e
    have X := insert_other_points (i := 0) R1 (put_exists S c [] c) hd1 hcd (Nat.zero_le _) (by simpa using e)
    rw [put_get_other _ _ _ (Ne.symm hcd), put_get, put_end, fr] at X
    refine Points.call_seq (a := ()) (s' := h1) q1 (Points.call_seq (a := _) (s' := h1) (getNext_eq s.head) ?_)
    refine X.imp fun k t l y => ⟨_, ⟨l, rfl⟩, ?_⟩
    rw [put_put] at y
    simpa [insertAt] using y
  | assignN c n value =>
    obtain ⟨hc, ⟨v, rf⟩, ha⟩ := lg
    refine ⟨h', e, R', ?_⟩
    show Points _ h n _ _ _
    obtain ⟨h1, q1, R1, fr, kr⟩ := clear_reach R hc
    simp only [BList.exec, BList.assignN] at e
    obtain ⟨_, h2, e1, e⟩ := split_result e
    rw [q1] at e1; cases e1
    obtain ⟨b, h2, g, e⟩ := split_result e
    have lc := live_pos R1 (put_exists S c [] c) 0
    refine Points.call_seq (a := ()) (s' := h1) q1 (then_tail_points (f := fun p => p)
      ((insertN_points R1.world.wf (by simpa using lc) (refers_readable R1.world (kr v value rf ha)) g).imp fun k t l ⟨b', y⟩ => ⟨_, ⟨l, rfl⟩, ?_⟩) e)
    rw [copies_eq R.world rf]
    have := reach_prefix (i := 0) R1 (put_exists S c [] c) (Nat.zero_le _) (by simpa using y)
    rw [put_put, put_get, put_end, fr] at this
    simpa [insertAt] using this
  | assignVals c vs =>
    refine ⟨h', e, R', ?_⟩
    show Points _ h vs.length _ _ _
    obtain ⟨h1, q1, R1, fr, kr⟩ := clear_reach R lg
    simp only [BList.exec, BList.assignVals] at e
    obtain ⟨_, h2, e1, e⟩ := split_result e
    rw [q1] at e1; cases e1
    obtain ⟨b, h2, g, e⟩ := split_result e
    refine Points.call_seq (a := ()) (s' := h1) q1 (then_tail_points (f := fun _ => c)
      ((insertVals_points vs g).imp fun k t l ⟨b', y⟩ => ⟨_, ⟨l, rfl⟩, ?_⟩) e)
    have := reach_prefix (i := 0) R1 (put_exists S c [] c) (Nat.zero_le _) (by simpa using y)
    rw [put_put, put_get, put_end, fr] at this
    simpa [insertAt] using this

/-- **C133, the part that holds.** Every legal call that is not a constructor passes some number `n` of points where an exception may appear. If none
appears, the call does what the model without exceptions does. If one appears, at any of the points, it leaves the call in a memory that is again
reachable, i.e. one that some client program without exceptions produces: the elements of every list are intact and nothing is lost. `Interrupted` says
what the lists contain and what `before_end()` is. -/
theorem call_points (R : Reach S h) (q : Call T) (lg : Legal S q) (nc : ¬ Constructs q) :
    ∃ n h', BList.exec q h = .ok ((), h') ∧ Reach (spec S h.fresh q) h' ∧
      Points (exec q) h n () h' fun k t => ∃ S', Interrupted S h.fresh k q S' ∧ Reach S' t :=
  ⟨work S q, call_points_work R q lg nc⟩

/-- Every legal call that is not a constructor, with an exception at whatever point or with none. -/
theorem call_outcome (R : Reach S h) (q : Call T) (lg : Legal S q) (nc : ¬ Constructs q) (k : Nat) :
    (∃ h' k', exec q k h = .ok (.ret () k', h') ∧ BList.exec q h = .ok ((), h') ∧ Reach (spec S h.fresh q) h') ∨
    (∃ t S', exec q k h = .ok (.thrown, t) ∧ Interrupted S h.fresh k q S' ∧ Reach S' t) := by
  obtain ⟨n, h', e, R', X⟩ := call_points R q lg nc
  rcases X.cases k with ⟨_, x⟩ | ⟨_, t, x, S', i, r⟩
  · exact .inl ⟨h', _, x, e, R'⟩
  · exact .inr ⟨t, S', x, i, r⟩

theorem interrupted_unique {S₁ S₂ : State T} {a : Addr} {k : Nat} {q : Call T} (i₁ : Interrupted S a k q S₁) (i₂ : Interrupted S a k q S₂) : S₁ = S₂ := by
  cases q with
  | pushFront c v => exact i₁.trans i₂.symm
  | pushBack c v => exact i₁.trans i₂.symm
  | insert c i v => exact i₁.trans i₂.symm
  | insertN c i n v => exact i₁.2.trans i₂.2.symm
  | insertVals c i vs => exact i₁.2.trans i₂.2.symm
  | insertList c i d => exact i₁.2.trans i₂.2.symm
  | assign c d => exact i₁.2.trans i₂.2.symm
  | assignN c n v => exact i₁.2.trans i₂.2.symm
  | assignVals c vs => exact i₁.2.trans i₂.2.symm
  | _ => exact i₁.elim

/-! ## Programs in which calls throw -/

/-- `XReach S h`: some client program, in which any calls may have been left by exceptions at any points, ends in memory `h` and, by the
specification, in state `S`. (Constructors with elements are not among these calls, see `ctor_throw_leaks`.) -/
inductive XReach : State T → Heap T → Prop where
  | start {h : Heap T} : Blank h → XReach (fun _ => none) h
  | returned {S : State T} {h h' : Heap T} (q : Call T) (k k' : Nat) : XReach S h → Legal S q → ¬ Constructs q →
      exec q k h = .ok (.ret () k', h') → XReach (spec S h.fresh q) h'
  | thrown {S S' : State T} {h t : Heap T} (q : Call T) (k : Nat) : XReach S h → Legal S q → ¬ Constructs q →
      exec q k h = .ok (.thrown, t) → Interrupted S h.fresh k q S' → XReach S' t
  | env {S : State T} {h h' : Heap T} : XReach S h → Env h h' → XReach S h'

/-- **C133, histories.** Whatever exceptions a program has met, its lists are in a state that a program without exceptions reaches: so every theorem
about reachable memories (observers, no leak, no undefined behaviour in later calls, destruction) holds after exceptions as well. -/
theorem XReach.reach (X : XReach S h) : Reach S h := by
  induction X with
  | start b => exact .start b
  | @returned S h h' q k k' _ lg nc e ih =>
    rcases call_outcome ih q lg nc k with ⟨h1, k1, e1, _, R1⟩ | ⟨t, S', e1, _, _⟩
    · rw [e] at e1; cases e1; exact R1
    · rw [e] at e1; cases e1
  | @thrown S S' h t q k _ lg nc e i ih =>
    rcases call_outcome ih q lg nc k with ⟨h1, k1, e1, _, R1⟩ | ⟨t1, S1, e1, i1, R1⟩
    · rw [e] at e1; cases e1
    · rw [e] at e1; cases e1
      exact interrupted_unique i1 i ▸ R1
  | env _ e ih => exact .env ih e

/-- Programs with exceptions never get stuck: every legal call returns or throws, and the program goes on. -/
theorem XReach.goes_on (X : XReach S h) (q : Call T) (lg : Legal S q) (nc : ¬ Constructs q) (k : Nat) :
    (∃ h' k', exec q k h = .ok (.ret () k', h') ∧ XReach (spec S h.fresh q) h') ∨
    (∃ t S', exec q k h = .ok (.thrown, t) ∧ Interrupted S h.fresh k q S' ∧ XReach S' t) := by
  rcases call_outcome X.reach q lg nc k with ⟨h1, k1, e1, _, _⟩ | ⟨t1, S1, e1, i, R1⟩
  · exact .inl ⟨h1, k1, e1, .returned q k k1 X lg nc e1⟩
  · exact .inr ⟨t1, S1, e1, i, .thrown q k X lg nc e1 i⟩

/-! ## Single members, in terms of what a client sees -/

/-- **C133, strong guarantee.** If `push_front` throws, the memory is exactly what it was. -/
theorem push_front_strong (c : Addr) (v : T) (h : Heap T) : exec (.pushFront c v) 0 h = .ok (.thrown, h) := rfl

/-- **C133, strong guarantee.** If `push_back` throws, the memory is exactly what it was. -/
theorem push_back_strong (R : Reach S h) (hc : S.Exists c) (v : T) : exec (.pushBack c v) 0 h = .ok (.thrown, h) := by
  simp only [exec, pushBack, Thr.bind_app, Thr.call_app, getTail_eq (sl R hc).head, Res.bind_ok, Thr.after_ret, XSList.newNode, Thr.point_zero,
    Thr.after_thrown]

/-- **C133, strong guarantee.** If `insert_after(pos, v)` throws, the memory is exactly what it was. -/
theorem insert_strong (R : Reach S h) (hc : S.Exists c) (hs : Shows h c es) {i : Nat} (hi : i ≤ es.length) (v : T) :
    exec (.insert c i v) 0 h = .ok (.thrown, h) := by
  obtain ⟨t, _, r, _⟩ := shown R hc hs
  simp only [exec, Thr.bind_app, Thr.call_app, r.posAt hi, Res.bind_ok, Thr.after_ret, insertOne, XSList.newNode, Thr.point_zero, Thr.after_thrown]

/-- An exception that changed only the list `c`. -/
theorem one_interrupted (R : Reach S h) {t : Heap T} {es' : List (Addr × T)} {u : Addr} (R' : Reach (S.put c es' u) t) :
    Shows t c es' ∧ OthersKept S h t [c] ∧ BList.beforeEnd c t = .ok (u, t) := by
  refine ⟨by have := reach_shows R' (put_exists S c es' u); rwa [put_get] at this, kept_of R R' ?_, ?_⟩
  · intro d hd _; exact put_other _ _ _ (by simpa using hd)
  · simp only [BList.beforeEnd, getTail_eq (World.sl R'.world (put_same S c es' u)).head, World.tl R'.world (put_same S c es' u)]

theorem insert_range_put (R : Reach S h) (hc : S.Exists c) (hs : Shows h c es) {i : Nat} (hi : i ≤ es.length) (vs : List T) {k : Nat}
    (hk : k < vs.length) :
    ∃ t, exec (.insertVals c i vs) k h = .ok (.thrown, t) ∧ Reach (S.put c (insertAt i (fresh h.fresh (vs.take k)) es) (S.endOf c)) t := by
  have hg := get_shown R hc hs
  obtain ⟨u, _, r, _⟩ := shown R hc hs
  have lg : Legal S (.insertVals c i vs) := ⟨hc, by rw [hg]; exact hi⟩
  obtain ⟨h', e, R'⟩ := call_returns R _ lg
  simp only [BList.exec] at e
  obtain ⟨t, h1, e1, e⟩ := split_result e
  rw [r.posAt hi] at e1; cases e1
  obtain ⟨b, h1, g, e⟩ := split_result e
  obtain ⟨t, x, b', y⟩ := (insertVals_points vs g).throws k hk
  have y := reach_prefix R hc (by rw [hg]; exact hi) (by rw [hg]; exact y)
  rw [hg] at y
  refine ⟨t, ?_, y⟩
  simp only [exec, insertVals, Thr.bind_app, Thr.call_app, r.posAt hi, Res.bind_ok, Thr.after_ret, x, Thr.after_thrown]

theorem insert_n_put (R : Reach S h) (hc : S.Exists c) (hs : Shows h c es) {i : Nat} (hi : i ≤ es.length) {n : Nat} (v : T) {k : Nat}
    (hk : k < n) :
    ∃ t, exec (.insertN c i n (.ext v)) k h = .ok (.thrown, t) ∧ Reach (S.put c (insertAt i (fresh h.fresh (List.replicate k v)) es) (S.endOf c)) t := by
  have hg := get_shown R hc hs
  obtain ⟨u, _, r, _⟩ := shown R hc hs
  have lg : Legal S (.insertN c i n (.ext v)) := ⟨hc, by rw [hg]; exact hi, v, rfl⟩
  obtain ⟨h', e, R'⟩ := call_returns R _ lg
  simp only [BList.exec] at e
  obtain ⟨t, h1, e1, e⟩ := split_result e
  rw [r.posAt hi] at e1; cases e1
  obtain ⟨b, h1, g, e⟩ := split_result e
  have lp := live_pos R hc i
  rw [hg] at lp
  obtain ⟨t, x, b', y⟩ := (insertN_points (v := v) (value := .ext v) R.world.wf lp rfl g).throws k hk
  have y := reach_prefix R hc (by rw [hg]; exact hi) (by rw [hg]; exact y)
  rw [hg] at y
  refine ⟨t, ?_, y⟩
  simp only [exec, insertN, Thr.bind_app, Thr.call_app, r.posAt hi, Res.bind_ok, Thr.after_ret, x, Thr.after_thrown]

/-- **C133, basic guarantee.** If the copy of element `k` throws in `insert_after(pos, first, last)`, the first `k` values have been inserted, in new
nodes immediately after `pos`, and no other element and no other list has changed. If `pos` was not the last position, a list whose `before_end()` was
right still answers every observer correctly. -/
theorem insert_range_interrupted (R : Reach S h) (hc : S.Exists c) (hs : Shows h c es) {i : Nat} (hi : i ≤ es.length) (vs : List T) {k : Nat}
    (hk : k < vs.length) :
    ∃ t ns, exec (.insertVals c i vs) k h = .ok (.thrown, t) ∧ Shows t c (es.take i ++ (ns ++ es.drop i)) ∧ NewNodes h ns (vs.take k) ∧
      OthersKept S h t [c] ∧ (Observes h c es → i < es.length → Observes t c (es.take i ++ (ns ++ es.drop i))) := by
  obtain ⟨t, x, y⟩ := insert_range_put R hc hs hi vs hk
  obtain ⟨s1, s2, _⟩ := one_interrupted R y
  refine ⟨t, _, x, s1, newNodes R (Nat.le_refl _) _, s2, fun o l => ?_⟩
  refine observes_of y.world.wf (World.sl y.world (put_same S c _ _)) ((World.tl y.world (put_same S c _ _)).trans ?_)
  obtain ⟨hc', r⟩ := observed R hc o
  rw [end_some hc']
  exact (last_insert l _).symm

/-- **C133 fails.** If the second or a later copy throws in `insert_after(before_end(), n, v)`, the elements inserted before are in the list, but
`before_end()` is still the old last position: it is not the last element, and the next `push_back(w)` puts `w` in the middle of the list. -/
theorem insert_n_throw_loses_end (R : Reach S h) (hc : S.Exists c) (ob : Observes h c es) {n : Nat} (v : T) {k : Nat} (h0 : 0 < k) (hk : k < n) :
    ∃ t ns, exec (.insertN c es.length n (.ext v)) k h = .ok (.thrown, t) ∧ Shows t c (es ++ ns) ∧ NewNodes h ns (List.replicate k v) ∧
      ¬ Observes t c (es ++ ns) ∧ BList.beforeEnd c t = .ok (((es.getLast?).map Prod.fst).getD c, t) ∧
      ∀ w, ∃ t' m, BList.exec (.pushBack c w) t = .ok ((), t') ∧ Shows t' c (es ++ (m, w) :: ns) := by
  obtain ⟨hc', r⟩ := observed R hc ob
  obtain ⟨t, x, R1⟩ := insert_n_put R hc ob.shows (Nat.le_refl _) v hk
  rw [end_some hc', insert_end] at R1
  obtain ⟨s1, s2, b1⟩ := one_interrupted R R1
  have r1 := World.sl R1.world (put_same _ _ _ _)
  have nn := newNodes (T := T) R (Nat.le_refl h.fresh) (List.replicate k v)
  have m1 : lastOf c (es.map Prod.fst) ∈ c :: (es ++ fresh h.fresh (List.replicate k v)).map Prod.fst := by
    rw [List.map_append, ← List.cons_append]; exact List.mem_append_left _ (lastOf_mem _ _)
  have e : idxOfPos c (es ++ fresh h.fresh (List.replicate k v)) (lastOf c (es.map Prod.fst)) = es.length := by
    obtain ⟨a, b⟩ := idx_pos c (es ++ fresh h.fresh (List.replicate k v)) m1
    refine pos_inj r1 a (by simp) (b.trans ?_)
    rw [List.take_left]
  have ln : (fresh h.fresh (List.replicate k v)).length = k := by
    have := congrArg List.length nn.values
    simpa using this
  refine ⟨t, _, x, s1, nn, fun o => ?_, by rw [← lastOf_last]; exact b1, fun w => ?_⟩
  · have q := o.tail R1.world.wf r1
    rw [World.tl R1.world (put_same _ _ _ _)] at q
    have := idx_last r1
    rw [← q, e, List.length_append, ln] at this
    omega
  · obtain ⟨h2, q2, R2, s2, _⟩ := one_list R1 (.pushBack c w) ⟨put_exists _ _ _ _, by rw [put_end, put_get]; exact m1⟩ rfl
    rw [put_end, put_get, e] at s2
    exact ⟨h2, t.fresh, q2, by simpa [insertAt] using s2⟩

/-- **C133, basic guarantee.** If the copy of element `k` throws in `c = d`, the old elements of `c` are gone and `c` has copies of the first `k` elements
of `d`; `d` and all other lists are unchanged. `before_end()` of `c` is `before_begin()`. -/
theorem assign_interrupted (R : Reach S h) (hc : S.Exists c) (hd : S.Exists d) (hcd : c ≠ d) (hf : Shows h d fs) {k : Nat} (hk : k < fs.length) :
    ∃ t ns, exec (.assign c d) k h = .ok (.thrown, t) ∧ Shows t c ns ∧ NewNodes h ns ((fs.map Prod.snd).take k) ∧ OthersKept S h t [c] ∧
      BList.beforeEnd c t = .ok (c, t) := by
  have hg := get_shown R hd hf
  obtain ⟨h', e, R'⟩ := call_returns R (.assign c d) ⟨hc, hd, hcd⟩
  obtain ⟨h1, q1, R1, fr, _⟩ := clear_reach R hc
  have hd1 : (S.put c [] c).Exists d := put_exists_other _ _ _ hd
  have s := sl R1 hd1
  simp only [BList.exec, BList.opAssign, Prog.bind_app, q1, Res.bind_ok, getNext_eq s.head] at e
  have X := insert_other_points (i := 0) R1 (put_exists S c [] c) hd1 hcd (Nat.zero_le _) (by simpa using e)
  rw [put_get_other _ _ _ (Ne.symm hcd), put_get, put_end, fr, hg] at X
  obtain ⟨t, x, y⟩ := X.throws k hk
  rw [put_put] at y
  obtain ⟨s1, s2, s3⟩ := one_interrupted R (es' := fresh h.fresh ((fs.map Prod.snd).take k)) (by simpa [insertAt] using y)
  refine ⟨t, _, ?_, s1, newNodes R (Nat.le_refl _) _, s2, s3⟩
  simp only [exec, opAssign, Thr.bind_app, Thr.call_app, q1, Res.bind_ok, Thr.after_ret, getNext_eq s.head]
  simpa using x

/-! ## Constructors -/

open Verif.Exc.XSList (Leaked) in
/-- Like `Leaked`, and what `before_end()` of every list says is what it was. -/
structure LeakedB (S : State T) (h t : Heap T) (vs : List T) : Prop where
  nodes : Leaked S.Exists h t vs
  ends : ∀ d, S.Exists d → ∀ a, BList.beforeEnd d h = .ok (a, h) → BList.beforeEnd d t = .ok (a, t)

theorem leaked_of (R : Reach S h) {t : Heap T} {vs : List T} {u : Addr} (R' : Reach (S.put h.fresh (fresh (h.fresh + 1) vs) u) t) :
    ∃ t', freeRaw h.fresh t = .ok ((), t') ∧ LeakedB S h t' vs := by
  obtain ⟨t', e, L, o⟩ := XSList.leaked_of (I := iface) R.world (s := ⟨fresh (h.fresh + 1) vs, u⟩) R'.world (fun s => s.elems) (fun c s => rfl)
    (fun o => o.1) rfl
  refine ⟨t', e, ⟨L.live, L.values, fun d hd => L.others d (by obtain ⟨s, q⟩ := hd; rw [q]; simp), L.wf⟩, fun d hd a q => ?_⟩
  obtain ⟨es, b, qd⟩ := exists_mk hd
  have o' := o d _ qd
  have r := World.sl R.world qd
  simp only [BList.beforeEnd, getTail_eq r.head, World.tl R.world qd] at q
  simp only [BList.beforeEnd, getTail_eq o'.1.head, o'.2]
  cases q; rfl

theorem create_reach (R : Reach S h) : ∃ h1, create h = .ok (h.fresh, h1) ∧ Reach (S.put h.fresh [] h.fresh) h1 ∧ h1.fresh = h.fresh + 1 := by
  obtain ⟨h1, q1, _, fr, _⟩ := create_good R.world
  refine ⟨h1, q1, Reach.step .create R trivial ?_, fr⟩
  simp only [BList.exec, Prog.bind_app, q1, Res.bind_ok, Prog.pure_app]

/-- **C132.** If the copy of element `k` throws in `backward_list(first, last)`, the `k` nodes made before are lost. (For `k = 0` nothing is lost.) -/
theorem ctor_vals_points (R : Reach S h) (vs : List T) : ∃ h', BList.exec (.ctorVals vs) h = .ok ((), h') ∧
    Points (exec (.ctorVals vs)) h vs.length () h' fun k t => LeakedB S h t (vs.take k) := by
  obtain ⟨h', e, R'⟩ := call_returns R (.ctorVals vs) trivial
  obtain ⟨h1, q1, R1, fr⟩ := create_reach R
  refine ⟨h', e, ?_⟩
  simp only [BList.exec] at e
  obtain ⟨x, h2, e, e'⟩ := split_result e
  cases e'
  obtain ⟨x1, h2, e1, e⟩ := split_result e
  rw [q1] at e1; cases e1
  obtain ⟨_, h2, e, e'⟩ := split_result e
  cases e'
  obtain ⟨b, h2, g, e⟩ := split_result e
  simp only [exec, ctorVals, bind_assoc, pure_bind]
  refine Points.call_seq (a := h.fresh) (s' := h1) q1 (Points.seq_pure (g := fun _ => ()) (unwinding_points
    (then_tail_points (f := fun _ => h.fresh) (insertVals_points vs g) e) fun k t l ⟨b', y⟩ => ?_))
  have := reach_prefix (i := 0) R1 (put_exists S h.fresh [] h.fresh) (Nat.zero_le _) (by rw [put_get]; exact y)
  rw [put_get, put_put, put_end, fr] at this
  exact leaked_of R (by simpa [insertAt] using this)

theorem refers_new (R : Reach S h) {v : T} {value : Arg T} (rf : S.Refers v value) : (S.put h.fresh [] h.fresh).Refers v value := by
  cases value with
  | ext w => exact rf
  | elem a =>
    obtain ⟨d, fs, hd, m⟩ := rf
    refine ⟨d, fs, ?_, m⟩
    rw [put_other _ _ _ (fun q => ?_)]
    · exact hd
    · exact R.world.wf.ne_fresh (iface.live (R.world.own _ _ hd) _ (iface.self _ _)) q

/-- **C132.** If the copy of element `k` throws in `backward_list(n, v)`, the `k` nodes made before are lost. -/
theorem ctor_n_arg_points (R : Reach S h) (n : Nat) {value : Arg T} {v : T} (rf : S.Refers v value) : ∃ h', BList.exec (.ctorN n value) h = .ok ((), h') ∧
    Points (exec (.ctorN n value)) h n () h' fun k t => LeakedB S h t (List.replicate k v) := by
  obtain ⟨h', e, R'⟩ := call_returns R (.ctorN n value) ⟨v, rf⟩
  obtain ⟨h1, q1, R1, fr⟩ := create_reach R
  refine ⟨h', e, ?_⟩
  simp only [BList.exec] at e
  obtain ⟨x, h2, e, e'⟩ := split_result e
  cases e'
  obtain ⟨x1, h2, e1, e⟩ := split_result e
  rw [q1] at e1; cases e1
  obtain ⟨_, h2, e, e'⟩ := split_result e
  cases e'
  obtain ⟨b, h2, g, e⟩ := split_result e
  have lc := live_pos R1 (put_exists S h.fresh [] h.fresh) 0
  simp only [exec, ctorN, bind_assoc, pure_bind]
  refine Points.call_seq (a := h.fresh) (s' := h1) q1 (Points.seq_pure (g := fun _ => ()) (unwinding_points
    (then_tail_points (f := fun p => p) (insertN_points (v := v) R1.world.wf (by simpa using lc) (refers_readable R1.world (refers_new R rf)) g) e) fun k t l ⟨b', y⟩ => ?_))
  have := reach_prefix (i := 0) R1 (put_exists S h.fresh [] h.fresh) (Nat.zero_le _) (by rw [put_get]; exact y)
  rw [put_get, put_put, put_end, fr] at this
  exact leaked_of R (by simpa [insertAt] using this)

theorem ctor_n_points (R : Reach S h) (n : Nat) (v : T) : ∃ h', BList.exec (.ctorN n (.ext v)) h = .ok ((), h') ∧
    Points (exec (.ctorN n (.ext v))) h n () h' fun k t => LeakedB S h t (List.replicate k v) :=
  ctor_n_arg_points R n rfl

/-- **C132.** If the copy of element `k` throws in the copy constructor, the `k` nodes made before are lost. -/
theorem copy_ctor_points (R : Reach S h) (hd : S.Exists d) (hf : Shows h d fs) : ∃ h', BList.exec (.copyOf d) h = .ok ((), h') ∧
    Points (exec (.copyOf d)) h fs.length () h' fun k t => LeakedB S h t ((fs.map Prod.snd).take k) := by
  have hg := get_shown R hd hf
  obtain ⟨h', e, R'⟩ := call_returns R (.copyOf d) hd
  obtain ⟨h1, q1, R1, fr⟩ := create_reach R
  have ne : h.fresh ≠ d := (R.world.wf.ne_fresh (sl R hd).head).symm
  have hd1 : (S.put h.fresh [] h.fresh).Exists d := put_exists_other _ _ _ hd
  have s := sl R1 hd1
  refine ⟨h', e, ?_⟩
  simp only [BList.exec, BList.copyCtor, Prog.bind_app, q1, Res.bind_ok, getNext_eq s.head] at e
  cases g : BList.insertNodes h.fresh h.fresh (h1.next d) 0 h1 with
  | ub f => rw [g] at e; cases e
  | diverge => rw [g] at e; cases e
  | ok y =>
    rw [g] at e; cases e
    simp only [exec, copyCtor, bind_assoc, pure_bind]
    have X := insert_other_points (i := 0) R1 (put_exists S h.fresh [] h.fresh) hd1 ne (Nat.zero_le _) (by simpa using g)
    rw [put_get, put_get_other _ _ _ ne.symm, put_end, hg, fr] at X
    refine Points.call_seq (a := h.fresh) (s' := h1) q1 (Points.seq_pure (g := fun _ => ()) (unwinding_points (n := fs.length) (a := ())
      (P := fun k t => Reach (S.put h.fresh (fresh (h.fresh + 1) ((fs.map Prod.snd).take k)) h.fresh) t)
      (Points.call_seq (a := _) (s' := h1) (getNext_eq s.head) (X.imp fun k t l y => ?_)) ?_))
    · rw [put_put] at y
      simpa [insertAt] using y
    · intro k t l y
      exact leaked_of R y

/-- **C132, the part that holds.** If the first element throws, a constructor leaves the memory as it was: no storage is lost and all lists are the
same. -/
theorem ctor_first_throw_clean_partial (R : Reach S h) {vs : List T} (hv : vs ≠ []) :
    ∃ t, exec (.ctorVals vs) 0 h = .ok (.thrown, t) ∧ (∀ x, t.live x = h.live x) ∧ (∀ d, S.Exists d → ∀ fs, Shows h d fs → Shows t d fs) ∧
      ∀ d, S.Exists d → ∀ a, BList.beforeEnd d h = .ok (a, h) → BList.beforeEnd d t = .ok (a, t) := by
  obtain ⟨h', e, X⟩ := ctor_vals_points R vs
  obtain ⟨t, x, y⟩ := X.throws 0 (List.length_pos_iff.2 hv)
  refine ⟨t, x, fun a => ?_, y.nodes.others, y.ends⟩
  have := y.nodes.live a
  simp only [List.take_zero, List.length_nil, Nat.not_lt_zero, false_and, exists_false, or_false] at this
  cases g : h.live a with
  | true => exact this.2 g
  | false =>
    cases g' : t.live a with
    | false => rfl
    | true => rw [this.1 g'] at g; cases g

/-- **C132 fails in general.** If the second or a later element throws in `backward_list(first, last)`, storage that was free before the call is in use
after it, and it belongs to no list. -/
theorem ctor_throw_leaks (R : Reach S h) (vs : List T) {k : Nat} (h0 : 0 < k) (hk : k < vs.length) :
    ∃ t x, exec (.ctorVals vs) k h = .ok (.thrown, t) ∧ h.live x = false ∧ t.live x = true ∧
      ∀ d, S.Exists d → ∀ fs, Shows t d fs → x ≠ d ∧ x ∉ fs.map Prod.fst := by
  obtain ⟨h', e, X⟩ := ctor_vals_points R vs
  obtain ⟨t, q, y⟩ := X.throws k hk
  refine ⟨t, h.fresh + 1 + 0, q, R.world.wf.fresh_dead (by omega), (y.nodes.live _).2 (.inr ⟨0, by rw [List.length_take]; omega, rfl⟩), ?_⟩
  intro d hd fs hf
  have hs := reach_shows R hd
  have := (show Shows t d _ from y.nodes.others d hd _ hs).inj hf
  subst this
  have r := sl R hd
  refine ⟨fun g => ?_, fun g => ?_⟩
  · have l : h.fresh + 1 + 0 < h.fresh := g ▸ R.world.wf.used _ r.head
    omega
  · have l : h.fresh + 1 + 0 < h.fresh := R.world.wf.used _ (r.live _ (List.mem_cons_of_mem _ g))
    omega

/-- **C132 fails.** Copy assignment is not all-or-nothing: an exception at its first point leaves the list without its elements. -/
theorem assign_throw_loses (R : Reach S h) (hc : S.Exists c) (hd : S.Exists d) (hcd : c ≠ d) (hf : Shows h d fs) (hne : fs ≠ []) :
    ∃ t, exec (.assign c d) 0 h = .ok (.thrown, t) ∧ Shows t c [] ∧ OthersKept S h t [c] := by
  obtain ⟨t, ns, x, s, nn, o, _⟩ := assign_interrupted R hc hd hcd hf (List.length_pos_iff.2 hne)
  have : ns = [] := by simpa using nn.values
  subst this
  exact ⟨t, x, s, o⟩

/-- The hypotheses are met: two lists; an insertion of four elements that throws at the third, an assignment that throws at its second copy, an
`insert_after(before_end(), 3, 6)` that throws at its third copy, and a constructor that throws at its third element. -/
example : ∃ (S : State Nat) (h t1 t2 t3 t3' t4 : Heap Nat) (c d x : Addr) (g1 g2 g3 g3' : List (Addr × Nat)), Reach S h ∧
    exec (.insertVals c 1 [4, 5, 6, 7]) 2 h = .ok (.thrown, t1) ∧ Observes t1 c g1 ∧ g1.map Prod.snd = [1, 4, 5, 2, 3] ∧
    exec (.assign c d) 1 h = .ok (.thrown, t2) ∧ Shows t2 c g2 ∧ g2.map Prod.snd = [7] ∧
    exec (.insertN c 3 3 (.ext 6)) 2 h = .ok (.thrown, t3) ∧ Shows t3 c g3 ∧ g3.map Prod.snd = [1, 2, 3, 6, 6] ∧
    BList.exec (.pushBack c 4) t3 = .ok ((), t3') ∧ Shows t3' c g3' ∧ g3'.map Prod.snd = [1, 2, 3, 4, 6, 6] ∧
    exec (.ctorVals [4, 5, 6]) 2 h = .ok (.thrown, t4) ∧ h.live x = false ∧ t4.live x = true := by
  obtain ⟨S, h, c, d, es, fs, R, hc, hd, hcd, hs, ht, e1, e2⟩ := exists_lists [1, 2, 3] [7, 8, 9]
  have l1 : es.length = 3 := by simpa using congrArg List.length e1
  have l2 : fs.length = 3 := by simpa using congrArg List.length e2
  obtain ⟨t1, ns, q1, s1, v1, _, o1⟩ := insert_range_interrupted (i := 1) (k := 2) R hc hs.shows (by omega) [4, 5, 6, 7] (by decide)
  obtain ⟨t2, ns2, q2, s2, v2, _⟩ := assign_interrupted (k := 1) R hc hd hcd ht.shows (by omega)
  obtain ⟨t3, ns3, q3, s3, v3, _, _, p3⟩ := insert_n_throw_loses_end (n := 3) (k := 2) R hc hs 6 (by decide) (by decide)
  obtain ⟨t3', m, q3', s3'⟩ := p3 4
  obtain ⟨t4, x, q4, x1, x2, _⟩ := ctor_throw_leaks (k := 2) R [4, 5, 6] (by decide) (by decide)
  rw [l1] at q3
  refine ⟨S, h, t1, t2, t3, t3', t4, c, d, x, _, _, _, _, R, q1, o1 hs (by omega), ?_, q2, s2, ?_, q3, s3, ?_, q3', s3', ?_, q4, x1, x2⟩
  · simp only [List.map_append, List.map_take, List.map_drop, v1.values, e1]; rfl
  · rw [v2.values, e2]; rfl
  · rw [List.map_append, v3.values, e1]; rfl
  · rw [List.map_append, List.map_cons, v3.values, e1]; rfl

end Verif.Exc.XBwd
