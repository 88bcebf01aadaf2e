import Verif.Exc.Lazy
/-!
# Every call of a client of lazy queues, with an exception at any point
-/
set_option linter.unusedVariables false
set_option linter.unusedSimpArgs false
namespace Verif.Exc.XLq
open Verif Verif.Seq Verif.Seq.SNode Verif.Seq.LQueue Verif.Exc Verif.Exc.XSeq Verif.Seq.LazyProps
open Verif.Seq.DList (Arg readArg posOf posOf_nil posOf_cons Laid insertAt fresh)
open Verif.Exc.XBwd (split_result then_tail_points call_tail_points)
variable {T : Type} {h h' t : Heap T} {S : State T} {Q : Stales T} {L : Addr → Prop} {c d : Addr} {es fs : List (Addr × T)} {ns : List Addr} {triv : Bool}

/-- A constructor that was left by an exception: the object is gone and the `j` elements made before, and the node of the next one if the exception came
from copying its value, are lost. The nodes are the cells after the object. -/
def CtorLeak (a : Addr) (k n : Nat) (L' : Addr → Prop) : Prop :=
  ∃ j leak, At 0 k j leak ∧ j < n ∧ ∀ x, L' x ↔ a + 2 ≤ x ∧ x < a + 2 + (j + if leak = true then 1 else 0)

/-- `Interrupted S a k q S' Q' L'`: an exception at point `k` of the call `q` leaves the queues of `S'` in order, those of `Q'` out of order and the
cells `L'` lost. (`a` is the next address the allocator hands out.) -/
def Interrupted (S : State T) (a : Addr) (k : Nat) : Call T → State T → Stales T → (Addr → Prop) → Prop
  | .copyOf s, S', Q', L' => S' = S ∧ Q' = noQueue ∧ CtorLeak a k (S.get s).length L'
  | .ctorN n _, S', Q', L' => S' = S ∧ Q' = noQueue ∧ CtorLeak a k n L'
  | .pushFront c v, S', Q', L' => Ins S a k c 0 [v] S' Q' L'
  | .pushBack c v, S', Q', L' => Ins S a k c (S.get c).length [v] S' Q' L'
  | .insert c i v, S', Q', L' => Ins S a k c i [v] S' Q' L'
  | .insertN c i n value, S', Q', L' => Ins S a k c i (S.copies n value) S' Q' L'
  | .insertVals c i vs, S', Q', L' => Ins S a k c i vs S' Q' L'
  | .insertQueue c i d, S', Q', L' => Ins S a k c i ((S.get d).map Prod.snd) S' Q' L'
  | .assign c d, S', Q', L' => Ins (S.put c [] (((S.get c).map Prod.fst).reverse ++ S.pool c)) a k c 0 ((S.get d).map Prod.snd) S' Q' L'
  | _, _, _, _ => False

/-- How many allocations and copies of elements a call makes. -/
def points (S : State T) : Call T → Nat
  | .copyOf s => pts 0 (S.get s).length
  | .ctorN n _ => pts 0 n
  | .pushFront c _ => pts (S.pool c).length 1
  | .pushBack c _ => pts (S.pool c).length 1
  | .insert c _ _ => pts (S.pool c).length 1
  | .insertN c _ n _ => pts (S.pool c).length n
  | .insertVals c _ vs => pts (S.pool c).length vs.length
  | .insertQueue c _ d => pts (S.pool c).length (S.get d).length
  | .assign c d => pts ((S.get c).length + (S.pool c).length) (S.get d).length
  | _ => 0

/-- What an exception at point `k` leaves. -/
def Left (S : State T) (a : Addr) (q : Call T) (k : Nat) (t : Heap T) : Prop := ∃ S' Q' L', Interrupted S a k q S' Q' L' ∧ XInv t S' Q' L'

/-- What an interrupted insertion leaves. -/
def LeftIns (S : State T) (a : Addr) (c : Addr) (i : Nat) (vs : List T) (k : Nat) (t : Heap T) : Prop := ∃ S' Q' L', Ins S a k c i vs S' Q' L' ∧ XInv t S' Q' L'

theorem queue_of (W : World iface h S) (hc : S.Exists c) : Queue h c (S.get c) (S.pool c) := by
  obtain ⟨⟨es, ns⟩, q⟩ := hc
  rw [get_some q, pool_some q]; exact World.qu W q

theorem split_queue (W : World iface h S) (hc : S.Exists c) (i : Nat) : Queue h c ((S.get c).take i ++ (S.get c).drop i) (S.pool c) := by
  rw [List.take_append_drop]; exact queue_of W hc

/-- The insertion loops. -/
theorem loop_points (W : World iface h S) (hc : S.Exists c) {i : Nat} (hi : i ≤ (S.get c).length) (vs : List T) {Lp : Thr (Heap T) Addr}
    (hL : ∀ k, Lp k h = insertLoopVals c (lastOf c (((S.get c).take i).map Prod.fst)) vs k h) {b : Addr} {h1 : Heap T}
    (e : LQueue.insertLoopVals c (lastOf c (((S.get c).take i).map Prod.fst)) vs h = .ok (b, h1)) :
    Points Lp h (pts (S.pool c).length vs.length) b h1 (LeftIns S h.fresh c i vs) :=
  run_points hL ((insertLoopVals_points vs W.wf (split_queue W hc i) e).imp fun k t l y => insert_interrupted W hc hi y)

/-- An insertion loop and the assignment to `tail_`. -/
theorem insert_points (W : World iface h S) (hc : S.Exists c) {i : Nat} (hi : i ≤ (S.get c).length) (vs : List T) {Lp : Thr (Heap T) Addr}
    (hL : ∀ k, Lp k h = insertLoopVals c (lastOf c (((S.get c).take i).map Prod.fst)) vs k h) {M : Prog (Heap T) Addr}
    (hM : M h = LQueue.insertLoopVals c (lastOf c (((S.get c).take i).map Prod.fst)) vs h)
    (e : (do
      let p ← M
      let t ← getTail c
      if lastOf c (((S.get c).take i).map Prod.fst) = t then setTail c p else pure () : Prog (Heap T) Unit) h = .ok ((), h')) :
    Points (do
      let p ← Lp
      let t ← Thr.call (getTail c)
      if lastOf c (((S.get c).take i).map Prod.fst) = t then Thr.call (setTail c p) else pure ()) h (pts (S.pool c).length vs.length) () h'
      (LeftIns S h.fresh c i vs) := by
  obtain ⟨b, h1, g, e⟩ := split_result e
  rw [hM] at g
  exact then_tail_points (f := fun p => p) (loop_points W hc hi vs hL g) e

/-- A single insertion: it can throw only in `get_node`. -/
theorem single_points (W : World iface h S) (hc : S.Exists c) {i : Nat} (hi : i ≤ (S.get c).length) (v : T) {n : Addr} {h1 : Heap T}
    (e : LQueue.getNode c v h = .ok (n, h1)) : Points (getNode c v) h (pts (S.pool c).length 1) n h1 (LeftIns S h.fresh c i [v]) := by
  have en : n = nodeOf h.fresh (S.pool c) := by
    obtain ⟨h2, q, _⟩ := grab_ok W.wf (split_queue W hc i) v
    simp only [Prog.bind_app, e, Res.bind_ok] at q
    have r := queue_of W hc
    cases hp : S.pool c with
    | nil =>
      rw [hp] at r
      rw [getNode_new v r.dead.head r.dead.path, newNode_eq] at e
      simp only [Res.ok.injEq, Prod.mk.injEq] at e
      exact e.1.symm
    | cons n' ns =>
      rw [hp] at r
      obtain ⟨ln, vn⟩ := r.dead.data n' (by simp)
      rw [getNode_pool v r.dead.head r.dead.path.1 (W.wf.ne_zero ln) ln vn] at e
      simp only [Res.ok.injEq, Prod.mk.injEq] at e
      exact e.1.symm
  subst en
  have ecount : used (S.pool c) + 1 = pts (S.pool c).length 1 := by
    cases S.pool c with
    | nil => rfl
    | cons n ns => simp [used, pts]
  rw [← ecount]
  refine (getNode_points W.wf (queue_of W hc) v e).imp fun k t l y => insert_interrupted W hc hi ?_
  rcases y with ⟨y, e⟩ | ⟨y, e⟩
  · refine ⟨0, false, _, h, ?_, by simp, rfl, by simp [e]⟩
    cases g : S.pool c with
    | nil => rw [g] at y; exact .inr ⟨rfl, Nat.le_refl _, by simp only [used] at y; omega⟩
    | cons n ns => rw [g] at y; exact absurd y (Nat.not_lt_zero _)
  · refine ⟨0, true, _, h, ?_, by simp, rfl, by simp [e]⟩
    cases g : S.pool c with
    | nil => rw [g] at y; exact .inl ⟨rfl, by simp only [used] at y; simp [y]⟩
    | cons n ns => rw [g] at y; exact .inl ⟨rfl, by simp only [used] at y; simp [y]⟩

/-! ## Constructors -/

theorem arith1 (a x : Nat) : ¬ (a ≤ x ∧ x < a) := by omega
theorem arith2 (a x n : Nat) : (x = a ∨ a + 1 ≤ x ∧ x < a + 1 + n) ↔ (a ≤ x ∧ x < a + (n + 1)) := by omega
theorem arith3 (x f j : Nat) (leak : Bool) : ((x = f ∨ (f + 2 ≤ x ∧ x < f + 2 + j)) ∨ x = f + 1) ∨ (leak = true ∧ x = f + 2 + j) ↔
    (x = f ∨ x = f + 1 ∨ (f + 2 ≤ x ∧ x < f + 2 + (j + if leak = true then 1 else 0))) := by
  cases leak <;> simp <;> omega

theorem fresh_cells : ∀ (vs : List T) (a x : Addr), x ∈ (fresh a vs).map Prod.fst ↔ a ≤ x ∧ x < a + vs.length
  | [], a, x => by
    simp only [fresh, List.map_nil, List.not_mem_nil, List.length_nil, Nat.add_zero, false_iff]
    exact arith1 a x
  | v :: vs, a, x => by
    simp only [fresh, List.map_cons, List.mem_cons, fresh_cells vs, List.length_cons]
    exact arith2 a x vs.length

/-- The object of a constructor that throws is released, the nodes are not. -/
theorem ctor_interrupted (W : World iface h S) {h1 : Heap T} (W1 : World iface h1 (S.put h.fresh [] [])) (fr : h1.fresh = h.fresh + 2)
    {vs : List T} {k : Nat} (p : Partly h1 h.fresh h.fresh [] vs k t) :
    ∃ t', dropObject h.fresh t = .ok ((), t') ∧ ∃ L', CtorLeak h.fresh k vs.length L' ∧ XInv t' S noQueue L' := by
  have r1 := World.qu W1 (put_same S h.fresh [] [])
  obtain ⟨j, leak, a, hj, wt, tl, frt, ll, ln, rt, ef⟩ := partly_inv (i := 0) W1.wf r1 p
  have enode : nodeOf (h1.fresh + (j - ([] : List Addr).length)) (([] : List Addr).drop j) = h.fresh + 2 + j := by
    simp [nodeOf, fr]
  have e1 : insertAt 0 (alloc h1.fresh [] (vs.take j)) ([] : List (Addr × T)) = fresh (h.fresh + 2) (vs.take j) := by
    rw [alloc_nil, fr]; simp [insertAt]
  have e2 : ([] : List Addr).drop (if leak = true then j + 1 else j) = [] := by simp
  rw [enode, e1, e2] at rt ef ln
  rw [enode] at ll
  have lt : (vs.take j).length = j := by rw [List.length_take]; omega
  have lq : ∀ x ∈ qcells h.fresh (fresh (h.fresh + 2) (vs.take j)) [], t.live x = true := fun x hx => (without_live.1 (rt.live x hx)).2
  have lc : t.live h.fresh = true := lq _ self_mem
  have ld : t.live (h.fresh + 1) = true := lq _ (mem_qcells.2 (.inr (by simp)))
  have ne : h.fresh + 1 ≠ h.fresh := by show (h.fresh : Nat) + 1 ≠ _; omega
  have lb : leak = true → t.live (h.fresh + 2 + j) = true := ll
  let t' : Heap T := { t with live := upd (upd t.live h.fresh false) (h.fresh + 1) false }
  have hd : dropObject h.fresh t = .ok ((), t') := by
    simp only [dropObject, Prog.bind_app, freeRaw_eq lc, Res.bind_ok, deadOf]
    rw [freeRaw_eq (by show upd t.live h.fresh false (h.fresh + 1) = true; rw [upd_other _ _ ne]; exact ld)]
  let L' : Addr → Prop := fun x => h.fresh + 2 ≤ x ∧ x < h.fresh + 2 + (j + if leak = true then 1 else 0)
  have cells : ∀ x, (x ∈ qcells h.fresh (fresh (h.fresh + 2) (vs.take j)) [] ∨ (leak = true ∧ x = h.fresh + 2 + j)) ↔ (x = h.fresh ∨ x = h.fresh + 1 ∨ L' x) := by
    intro x
    rw [mem_qcells]
    simp only [scells, List.mem_cons, fresh_cells, lt, List.not_mem_nil, or_false, L']
    exact arith3 x h.fresh j leak
  have lL : ∀ x, L' x → t.live x = true ∧ x ≠ h.fresh ∧ x ≠ h.fresh + 1 := by
    intro x hx
    refine ⟨?_, ?_, ?_⟩
    · rcases (cells x).2 (.inr (.inr hx)) with q | ⟨q, e⟩
      · exact lq x q
      · rw [e]; exact lb q
    · have := hx.1
      rintro rfl
      exact absurd this (by show ¬ (h.fresh : Nat) + 2 ≤ h.fresh; omega)
    · have := hx.1
      rintro rfl
      exact absurd this (by show ¬ (h.fresh : Nat) + 2 ≤ h.fresh + 1; omega)
  have mk : ∀ x, mask (noQueue : Stales T) L' x = true ↔ L' x := by
    intro x; rw [mask_true]
    exact ⟨fun q => q.elim id fun q => absurd q no_cells, .inl⟩
  have hmem : ∀ x, lostSet leak (h.fresh + 2 + j) x = true ↔ (leak = true ∧ x = h.fresh + 2 + j) := by
    intro x; simp [lostSet, only]
  refine ⟨t', hd, L', ⟨j, leak, a, hj, fun x => Iff.rfl⟩, ⟨⟨wt.pos, ?_, ?_⟩, ?_, ?_, ?_, ?_, ?_, ?_⟩⟩
  · show upd (upd t.live h.fresh false) (h.fresh + 1) false 0 = false
    unfold upd; split
    · rfl
    · split
      · rfl
      · exact wt.null
  · intro x l
    refine wt.used x ?_
    have l : upd (upd t.live h.fresh false) (h.fresh + 1) false x = true := l
    unfold upd at l; split at l
    · cases l
    · split at l
      · cases l
      · exact l
  · have g := World.gone W1 (put_same S h.fresh [] []) (Effect.hide ef
      (M := fun x => decide (x ∈ qcells h.fresh (fresh (h.fresh + 2) (vs.take j)) [])) fun x => by rw [decide_eq_true_iff])
    have es : upd (S.put h.fresh [] []) h.fresh none = S := by
      funext x
      by_cases q : x = h.fresh
      · subst q
        have := W.fresh_none
        exact (upd_same (α := Option (QState T)) _ _ _).trans this.symm
      · exact (upd_other (α := Option (QState T)) _ _ q).trans (put_other S q [] [])
    have eh : without t' (mask (noQueue : Stales T) L') = without (without t (lostSet leak (h.fresh + 2 + j)))
        (fun x => decide (x ∈ qcells h.fresh (fresh (h.fresh + 2) (vs.take j)) [])) := by
      rw [without_twice]
      simp only [without, t']
      congr 1
      funext x
      rw [Bool.eq_iff_iff]
      simp only [Bool.and_eq_true, Bool.not_eq_true', Bool.or_eq_false_iff, decide_eq_false_iff_not]
      have c1 := cells x
      have c2 := mk x
      have c3 := hmem x
      constructor
      · rintro ⟨q1, q2⟩
        have n1 : ¬ L' x := fun q => by rw [c2.2 q] at q1; cases q1
        unfold upd at q2; split at q2
        · cases q2
        · split at q2
          · cases q2
          · rename_i g1 g2
            have n2 : ¬ _ := fun q => (by rcases c1.1 q with q | q | q
                                          · exact g2 q
                                          · exact g1 q
                                          · exact n1 q : False)
            refine ⟨⟨?_, fun q => n2 (.inl q)⟩, q2⟩
            rw [← Bool.not_eq_true]
            exact fun q => n2 (.inr (c3.1 q))
      · rintro ⟨⟨q1, q2⟩, q3⟩
        have n3 : ¬ (x = h.fresh ∨ x = h.fresh + 1 ∨ L' x) := fun q => by
          rcases c1.2 q with q | q
          · exact q2 q
          · rw [c3.2 q] at q1; cases q1
        refine ⟨?_, ?_⟩
        · rw [← Bool.not_eq_true]
          exact fun q => n3 (.inr (.inr (c2.1 q)))
        · unfold upd
          rw [if_neg (fun q => n3 (.inr (.inl q))), if_neg (fun q => n3 (.inl q))]
          exact q3
    rw [eh]
    rw [es] at g
    exact g
  · intro d s q; cases q
  · intro d s q; cases q
  · intro d s q; cases q
  · intro d s d' s' q; cases q
  · intro x l
    obtain ⟨l1, l2, l3⟩ := lL x l
    show upd (upd t.live h.fresh false) (h.fresh + 1) false x = true
    rw [upd_other _ _ l3, upd_other _ _ l2]; exact l1

/-! ## Every call -/

/-- Inserting the elements of another queue. -/
theorem nodes_points (W : World iface h S) (hc : S.Exists c) (hd : S.Exists d) (hcd : c ≠ d) {i : Nat} (hi : i ≤ (S.get c).length)
    (e : LQueue.insertNodes c (lastOf c (((S.get c).take i).map Prod.fst)) (h.next d) 0 h = .ok ((), h')) :
    Points (insertNodes c (lastOf c (((S.get c).take i).map Prod.fst)) (h.next d) 0) h (pts (S.pool c).length (S.get d).length) () h'
      (LeftIns S h.fresh c i ((S.get d).map Prod.snd)) := by
  have s := (queue_of W hd).main
  have dj : ∀ x ∈ d :: (S.get d).map Prod.fst, x ∉ qcells c ((S.get c).take i ++ (S.get c).drop i) (S.pool c) := by
    intro x hx hx'
    rw [List.take_append_drop] at hx'
    obtain ⟨⟨es, ns⟩, qc⟩ := hc
    obtain ⟨⟨fs, ms⟩, qd⟩ := hd
    rw [get_some qc, pool_some qc] at hx'
    rw [get_some qd] at hx
    exact W.disj d _ c _ qd qc (Ne.symm hcd) x (mem_qcells.2 (.inl hx)) hx'
  have l := insertLoopNodes_run (S.get d) W.wf (split_queue W hc i) (s.laid W.wf) s.head dj
  have m := insertLoopNodes_ok (S.get d) W.wf (split_queue W hc i) (s.laid W.wf) s.head dj
  rw [← s.next_head] at l m
  have := insert_points W hc hi ((S.get d).map Prod.snd) l m e
  rwa [List.length_map] at this

/-- Every legal call makes `points S q` allocations and copies. If all of them succeed it does what the model without exceptions does; if one throws, the
call is left in a memory that `Interrupted` describes. -/
theorem call_points (W : World iface h S) (q : Call T) (lg : Legal triv S q) :
    ∃ h', LQueue.exec triv q h = .ok ((), h') ∧ World iface h' (spec S h.fresh q) ∧
      Points (exec triv q) h (points S q) () h' (Left S h.fresh q) := by
  obtain ⟨h', e, W', _⟩ := step_ok W q lg
  refine ⟨h', e, W', ?_⟩
  have simple : exec triv q = Thr.call (LQueue.exec triv q) → points S q = 0 → Points (exec triv q) h (points S q) () h' (Left S h.fresh q) := by
    intro x y; rw [x, y]; exact Points.call_ e
  cases q with
  | create => exact simple rfl rfl
  | destroy c => exact simple rfl rfl
  | cleanup c => exact simple rfl rfl
  | popFront c => exact simple rfl rfl
  | erase c i => exact simple rfl rfl
  | eraseRange c i j => exact simple rfl rfl
  | clear c => exact simple rfl rfl
  | swap c d => exact simple rfl rfl
  | rollHead c => exact simple rfl rfl
  | store c i v => exact simple rfl rfl
  | pushFront c v =>
    simp only [LQueue.exec, LQueue.pushFront] at e
    obtain ⟨a, h1, e1, e⟩ := split_result e
    refine Points.seq (m := 0) (single_points (i := 0) W lg (Nat.zero_le _) v e1) (call_tail_points (p := _) (fun k => ?_) e)
    simp only [Thr.bind_app, Thr.call_app, Prog.bind_app]
    cases g : SNode.insertAfter c a h1 with
    | ub f => rfl
    | diverge => rfl
    | ok y => simp only [Res.bind_ok, Thr.after_ret, Thr.bind_app, Thr.call_app]
              cases g2 : getTail c y.2 with
              | ub f => rfl
              | diverge => rfl
              | ok z => simp only [Res.bind_ok, Thr.after_ret, Thr.ite_app, Prog.ite_app]; split <;> rfl
  | pushBack c v =>
    simp only [LQueue.exec, LQueue.pushBack] at e
    have et := getTail_eq (queue_of W lg).main.head
    obtain ⟨t, h1, e1, e⟩ := split_result e
    rw [et] at e1; cases e1
    obtain ⟨a, h1, e1, e⟩ := split_result e
    obtain ⟨p, h2, e2, e⟩ := split_result e
    exact Points.call_seq (a := h.tail c) (s' := h) et (Points.seq (m := 0) (single_points W lg (Nat.le_refl _) v e1)
      (Points.call_seq (a := p) (s' := h2) e2 (Points.call_ e)))
  | insert c i v =>
    have it := (queue_of W lg.1).main.posAt lg.2
    simp only [LQueue.exec] at e
    obtain ⟨t, h1, e1, e⟩ := split_result e
    rw [it] at e1; cases e1
    obtain ⟨x, h1, e1, e⟩ := split_result e
    cases e
    simp only [LQueue.insertOne] at e1
    obtain ⟨a, h1, e2, e⟩ := split_result e1
    obtain ⟨p, h2, e3, e⟩ := split_result e
    obtain ⟨t, h3, e4, e⟩ := split_result e
    refine Points.call_seq (a := _) (s' := h) it (Points.seq_pure (g := fun _ => ()) (a := x) ?_)
    refine Points.seq (m := 0) (single_points W lg.1 lg.2 v e2) (Points.call_seq (a := p) (s' := h2) e3 (Points.call_seq (a := t) (s' := h3) e4 ?_))
    refine ⟨fun k => ?_, fun k l => absurd l (Nat.not_lt_zero _)⟩
    rw [Prog.ite_app] at e
    rw [Thr.ite_app]
    split
    · rename_i q
      rw [if_pos q] at e
      obtain ⟨_, h4, e4, e⟩ := split_result e
      cases e
      simp only [Thr.bind_app, Thr.call_app, e4, Res.bind_ok, Thr.after_ret, Thr.pure_app, Nat.add_zero, Nat.zero_add]
    · rename_i q
      rw [if_neg q] at e
      cases e
      simp only [Thr.pure_app, Nat.add_zero, Nat.zero_add]
  | insertN c i n value =>
    obtain ⟨hc, hi, v, rf⟩ := lg
    have it := (queue_of W hc).main.posAt hi
    simp only [LQueue.exec] at e
    obtain ⟨t, h1, e1, e⟩ := split_result e
    rw [it] at e1; cases e1
    have := insert_points W hc hi (List.replicate n v) (insertLoopN_run n W.wf (split_queue W hc i) (refers_readable W rf))
      (insertLoopN_ok n W.wf (split_queue W hc i) (refers_readable W rf)) e
    rw [List.length_replicate] at this
    refine Points.call_seq (a := _) (s' := h) it (this.imp fun k t l y => ?_)
    show LeftIns S h.fresh c i (S.copies n value) k t
    rw [copies_eq W rf]; exact y
  | insertVals c i vs =>
    obtain ⟨hc, hi⟩ := lg
    have it := (queue_of W hc).main.posAt hi
    simp only [LQueue.exec] at e
    obtain ⟨t, h1, e1, e⟩ := split_result e
    rw [it] at e1; cases e1
    exact Points.call_seq (a := _) (s' := h) it (insert_points W hc hi vs (fun k => rfl) rfl e)
  | insertQueue c i d =>
    obtain ⟨hc, hi, hd, hcd⟩ := lg
    have it := (queue_of W hc).main.posAt hi
    have s := (queue_of W hd).main
    simp only [LQueue.exec, Prog.bind_app, Res.bind_ok, it, getNext_eq s.head] at e
    exact Points.call_seq (a := _) (s' := h) it (Points.call_seq (a := _) (s' := h) (getNext_eq s.head) (nodes_points W hc hd hcd hi e))
  | assign c d =>
    obtain ⟨hc, hd, hcd⟩ := lg
    obtain ⟨⟨es, ns⟩, qc⟩ := hc
    obtain ⟨h1, q1, W1, fr, _⟩ := clear_good W qc
    have hd1 := put_exists_other S (c := c) [] ((es.map Prod.fst).reverse ++ ns) hd
    have s := (queue_of W1 hd1).main
    simp only [LQueue.exec, LQueue.opAssign, Prog.bind_app, q1, Res.bind_ok, getNext_eq s.head] at e
    have X := nodes_points (i := 0) W1 (put_exists S c [] _) hd1 hcd (Nat.zero_le _) (by simpa using e)
    have eg : (S.put c [] ((es.map Prod.fst).reverse ++ ns)).get d = S.get d := by
      simp only [State.get, put_other S (Ne.symm hcd)]
    rw [put_pool, eg, fr] at X
    refine Points.call_seq (a := ()) (s' := h1) q1 (Points.call_seq (a := _) (s' := h1) (getNext_eq s.head) ?_)
    have en : points S (.assign c d) = pts ((es.map Prod.fst).reverse ++ ns).length (S.get d).length := by
      simp only [points, get_some qc, pool_some qc, List.length_append, List.length_reverse, List.length_map]
    rw [en]
    simp only [put_get, List.take_nil, List.map_nil, lastOf_nil] at X
    refine X.imp fun k t l y => ?_
    show LeftIns (S.put c [] (((S.get c).map Prod.fst).reverse ++ S.pool c)) h.fresh c 0 ((S.get d).map Prod.snd) k t
    rw [get_some qc, pool_some qc]; exact y
  | copyOf d =>
    have hd : S.Exists d := lg
    obtain ⟨h1, q1, W1, fr, sm⟩ := create_good W
    have ne : h.fresh ≠ d := (W.wf.ne_fresh (queue_of W hd).main.head).symm
    have hd1 := put_exists_other S (c := h.fresh) [] [] hd
    have s := (queue_of W1 hd1).main
    have eg : (S.put h.fresh [] []).get d = S.get d := by
      simp only [State.get, put_other S (Ne.symm ne)]
    simp only [LQueue.exec, LQueue.copyCtor, Prog.bind_app, q1, Res.bind_ok, getNext_eq s.head] at e
    cases g : LQueue.insertNodes h.fresh h.fresh (h1.next d) 0 h1 with
    | ub f => rw [g] at e; cases e
    | diverge => rw [g] at e; cases e
    | ok y =>
      rw [g] at e; cases e
      obtain ⟨_, h2⟩ := y
      have sq : Queue h1 h.fresh ([] ++ []) [] := World.qu W1 (put_same S h.fresh [] [])
      have dj : ∀ x ∈ d :: (S.get d).map Prod.fst, x ∉ qcells h.fresh (([] : List (Addr × T)) ++ []) [] := by
        intro x hx hx'
        obtain ⟨⟨fs, ms⟩, qd⟩ := hd
        rw [get_some qd] at hx
        exact W1.disj d ⟨fs, ms⟩ h.fresh _ (by rw [put_other S (Ne.symm ne)]; exact qd) (put_same S h.fresh [] []) (Ne.symm ne) x (mem_qcells.2 (.inl hx)) hx'
      rw [eg] at s
      have l := insertLoopNodes_run (S.get d) W1.wf sq (s.laid W1.wf) s.head dj
      have m := insertLoopNodes_ok (S.get d) W1.wf sq (s.laid W1.wf) s.head dj
      rw [← s.next_head] at l m
      simp only [List.map_nil, lastOf_nil] at l m
      obtain ⟨b, h3, g1, g2⟩ := split_result (p := LQueue.insertLoopNodes h.fresh h.fresh (h1.next d) 0) g
      rw [m] at g1
      have X := insertLoopVals_points ((S.get d).map Prod.snd) (A := []) W1.wf sq g1
      simp only [List.map_nil, lastOf_nil, List.length_map, List.length_nil] at X
      simp only [exec, copyCtor, bind_assoc, pure_bind]
      refine Points.call_seq (a := h.fresh) (s' := h1) q1 (Points.seq_pure (g := fun _ => ()) (unwinding_points (n := pts 0 (S.get d).length) (a := ())
        (Points.call_seq (a := _) (s' := h1) (getNext_eq s.head) (then_tail_points (f := fun p => p) (run_points l X) g2)) ?_))
      intro k t l y
      obtain ⟨t', q2, L', y2, y3⟩ := ctor_interrupted W W1 fr y
      rw [List.length_map] at y2
      exact ⟨t', q2, S, noQueue, L', ⟨rfl, rfl, y2⟩, y3⟩
  | ctorN n value =>
    obtain ⟨v, rf⟩ := lg
    obtain ⟨h1, q1, W1, fr, sm⟩ := create_good W
    simp only [LQueue.exec, LQueue.ctorN, Prog.bind_app, q1, Res.bind_ok] at e
    cases g : LQueue.insertN h.fresh h.fresh n value h1 with
    | ub f => rw [g] at e; cases e
    | diverge => rw [g] at e; cases e
    | ok y =>
      rw [g] at e; cases e
      obtain ⟨_, h2⟩ := y
      have sq : Queue h1 h.fresh ([] ++ []) [] := World.qu W1 (put_same S h.fresh [] [])
      have rd : Readable h1 v value := BList.Readable.same sm (refers_readable W rf)
      have l := insertLoopN_run (A := []) (c := h.fresh) n W1.wf sq rd
      have m := insertLoopN_ok (A := []) (c := h.fresh) n W1.wf sq rd
      simp only [List.map_nil, lastOf_nil] at l m
      obtain ⟨b, h3, g1, g2⟩ := split_result (p := LQueue.insertLoopN h.fresh h.fresh n value) g
      rw [m] at g1
      have X := insertLoopVals_points (List.replicate n v) (A := []) W1.wf sq g1
      simp only [List.map_nil, lastOf_nil, List.length_replicate, List.length_nil] at X
      simp only [exec, ctorN, bind_assoc, pure_bind]
      refine Points.call_seq (a := h.fresh) (s' := h1) q1 (Points.seq_pure (g := fun _ => ()) (unwinding_points (n := pts 0 n) (a := ())
        (then_tail_points (f := fun p => p) (run_points l X) g2) ?_))
      intro k t l y
      obtain ⟨t', q2, L', y2, y3⟩ := ctor_interrupted W W1 fr y
      rw [List.length_replicate] at y2
      exact ⟨t', q2, S, noQueue, L', ⟨rfl, rfl, y2⟩, y3⟩

end Verif.Exc.XLq
