import Verif.Exc.LazyModel
import Verif.Exc.FwdLoops
import Verif.Seq.LazyProps2
/-!
# Taking nodes and inserting when something throws
-/
set_option linter.unusedVariables false
set_option linter.unusedSimpArgs false
namespace Verif.Exc.XLq
open Verif Verif.Seq Verif.Seq.SNode Verif.Seq.LQueue Verif.Exc Verif.Exc.XSeq
open Verif.Seq.DList (Arg readArg posOf posOf_nil posOf_cons Laid)
variable {T : Type} {h h' : Heap T} {c p : Addr} {es A B : List (Addr × T)} {ns : List Addr}

/-- Memory after a node was taken and the copy of the value threw: the node is out of the pool, or newly allocated, and holds no value. -/
def lost (h : Heap T) (c : Addr) : List Addr → Heap T
  | [] => { h with val := upd h.val h.fresh none, live := upd h.live h.fresh true, fresh := h.fresh + 1 }
  | _ :: _ => unlA h (c + 1)

theorem getNode_points (w : Wf h) (r : Queue h c es ns) (v : T) (q : LQueue.getNode c v h = .ok (nodeOf h.fresh ns, h')) :
    Points (getNode c v) h (used ns + 1) (nodeOf h.fresh ns) h' fun k t => (k < used ns ∧ t = h) ∨ (k = used ns ∧ t = lost h c ns) := by
  cases ns with
  | nil =>
    have n0 : h.next (c + 1) = 0 := r.dead.path
    have : h' = XSList.made h v := by
      rw [getNode_new v r.dead.head n0, newNode_eq] at q
      simp only [Res.ok.injEq, Prod.mk.injEq] at q
      exact q.2.symm
    subst this
    have t : Points (takeNode c) h 1 h.fresh (lost h c []) fun k t => (k < 1 ∧ t = h) ∨ (k = 1 ∧ t = lost h c []) := by
      refine Points.call_seq (a := 0) (s' := h) (by rw [← n0]; exact getNext_eq r.dead.head) ?_
      exact Points.seq_call (Points.point_ (.inl ⟨Nat.zero_lt_one, rfl⟩)) rfl
    refine Points.seq t (Points.seq (n := 1) (m := 0) (Points.point_ (.inr ⟨rfl, rfl⟩)) ?_)
    refine Points.call_seq (a := ()) (s' := XSList.made h v) ?_ Points.pure_
    simp only [nodeOf, construct, lost, upd_same, if_true, XSList.made]
    congr 3
    funext x; unfold upd; split <;> rfl
  | cons n ns =>
    obtain ⟨ln, vn⟩ := r.dead.data n (by simp)
    have n0 : n ≠ 0 := w.ne_zero ln
    have p1 : h.next (c + 1) = n := r.dead.path.1
    have t : Points (takeNode c) h 0 n (unlA h (c + 1)) fun k t => (k < 0 ∧ t = h) ∨ (k = 0 ∧ t = lost h c (n :: ns)) := by
      refine Points.call_seq (a := n) (s' := h) (by rw [← p1]; exact getNext_eq r.dead.head) ?_
      rw [if_pos n0]
      have e := unlinkNext_eq (h := h) r.dead.head (by rw [p1]; exact ln)
      rw [p1] at e
      exact Points.call_ (p := unlinkNext (deadOf c)) e
    refine Points.seq (n := 0) (m := 1) t (Points.seq (n := 1) (m := 0) (Points.point_ (.inr ⟨rfl, rfl⟩)) ?_)
    rw [getNode_pool v r.dead.head p1 n0 ln vn] at q
    simp only [Res.ok.injEq, Prod.mk.injEq] at q
    refine Points.call_seq (a := ()) (s' := h') ?_ Points.pure_
    rw [← q.2]
    simp only [nodeOf, construct, unlA, ln, vn, if_true]
    rw [p1]

/-- How many points the insertion of `n` elements passes when there are `m` pooled nodes: an allocation for each node that is not in the pool and a
copy for each element. -/
def pts (m n : Nat) : Nat := n + (n - m)

/-- Point `k` of such an insertion is: the copy of element `j`, whose node gets lost (`leak`), or the allocation for element `j`. -/
def At (m k j : Nat) (leak : Bool) : Prop := (leak = true ∧ k = j + (j + 1 - m)) ∨ (leak = false ∧ m ≤ j ∧ k = j + (j - m))

theorem At.shift {ns : List Addr} {k j : Nat} {leak : Bool} (a : At ns.tail.length k j leak) : At ns.length (used ns + 1 + k) (j + 1) leak := by
  cases ns with
  | nil =>
    rcases a with ⟨l, e⟩ | ⟨l, g, e⟩
    · exact .inl ⟨l, by simp only [used, List.tail_nil, List.length_nil] at e ⊢; omega⟩
    · exact .inr ⟨l, by simp, by simp only [used, List.tail_nil, List.length_nil] at e ⊢; omega⟩
  | cons n ns =>
    rcases a with ⟨l, e⟩ | ⟨l, g, e⟩
    · exact .inl ⟨l, by simp only [used, List.tail_cons, List.length_cons] at e ⊢; omega⟩
    · exact .inr ⟨l, by simp only [List.tail_cons, List.length_cons] at g ⊢; omega, by simp only [used, List.tail_cons, List.length_cons] at e ⊢; omega⟩

theorem At.lt {m n k j : Nat} {leak : Bool} (a : At m k j leak) (hj : j < n) : k < pts m n := by
  unfold pts
  rcases a with ⟨l, e⟩ | ⟨l, g, e⟩ <;> omega

/-- Every point is one of these. -/
theorem At.exists {m n k : Nat} (hk : k < pts m n) : ∃ j leak, j < n ∧ At m k j leak := by
  unfold pts at hk
  by_cases q : k < m
  · exact ⟨k, true, by omega, .inl ⟨rfl, by omega⟩⟩
  · by_cases par : (k - m) % 2 = 0
    · exact ⟨m + (k - m) / 2, false, by omega, .inr ⟨rfl, by omega, by omega⟩⟩
    · exact ⟨m + (k - m) / 2, true, by omega, .inl ⟨rfl, by omega⟩⟩

/-- Only one. -/
theorem At.unique {m k j j' : Nat} {leak leak' : Bool} (a : At m k j leak) (b : At m k j' leak') : j = j' ∧ leak = leak' := by
  rcases a with ⟨l, e⟩ | ⟨l, g, e⟩ <;> rcases b with ⟨l', e'⟩ | ⟨l', g', e'⟩ <;> subst l <;> subst l'
  · exact ⟨by omega, rfl⟩
  · exfalso; omega
  · exfalso; omega
  · exact ⟨by omega, rfl⟩

/-- What an interrupted insertion loop did: it inserted the first `j` values, and then a node got lost or not. -/
def Partly (h : Heap T) (c p : Addr) (ns : List Addr) (vs : List T) (k : Nat) (t : Heap T) : Prop :=
  ∃ j leak b h1, At ns.length k j leak ∧ j < vs.length ∧ LQueue.insertLoopVals c p (vs.take j) h = .ok (b, h1) ∧
    t = if leak = true then lost h1 c (ns.drop j) else h1

theorem insertLoopVals_points : ∀ (vs : List T) {h h' : Heap T} {A B : List (Addr × T)} {ns : List Addr} {b : Addr}, Wf h → Queue h c (A ++ B) ns →
    LQueue.insertLoopVals c (lastOf c (A.map Prod.fst)) vs h = .ok (b, h') →
    Points (insertLoopVals c (lastOf c (A.map Prod.fst)) vs) h (pts ns.length vs.length) b h' (Partly h c (lastOf c (A.map Prod.fst)) ns vs)
  | [], h, h', A, B, ns, b, w, r, q => by
    cases q
    refine (Points.pure_ (P := fun _ _ => False)).cast (by simp [pts]) |>.imp fun k t l f => f.elim
  | v :: vs, h, h', A, B, ns, b, w, r, q => by
    obtain ⟨h1, q1, r1, ef, fr, tl⟩ := grab_ok w r v
    simp only [LQueue.insertLoopVals, Prog.bind_app] at q q1
    cases g : LQueue.getNode c v h with
    | ub f => rw [g] at q; cases q
    | diverge => rw [g] at q; cases q
    | ok x =>
      obtain ⟨n, h0⟩ := x
      rw [g] at q q1
      simp only [Res.bind_ok] at q q1
      have en : n = nodeOf h.fresh ns := by
        cases ns with
        | nil =>
          rw [getNode_new v r.dead.head r.dead.path, newNode_eq] at g
          simp only [Res.ok.injEq, Prod.mk.injEq] at g
          exact g.1.symm
        | cons n' ns =>
          obtain ⟨ln, vn⟩ := r.dead.data n' (by simp)
          rw [getNode_pool v r.dead.head r.dead.path.1 (w.ne_zero ln) ln vn] at g
          simp only [Res.ok.injEq, Prod.mk.injEq] at g
          exact g.1.symm
      subst en
      rw [q1] at q
      simp only [Res.bind_ok] at q
      have ih := insertLoopVals_points vs (A := A ++ [(nodeOf h.fresh ns, v)]) (B := B) (b := b) (h' := h') ef.wf (by simpa using r1)
        (by simpa only [List.map_append, List.map_cons, List.map_nil, lastOf_concat] using q)
      simp only [List.map_append, List.map_cons, List.map_nil, lastOf_concat] at ih
      have ecount : used ns + 1 + pts ns.tail.length vs.length = pts ns.length (v :: vs).length := by
        have := used_tail vs.length ns
        simp only [pts, List.length_cons]; omega
      rw [← ecount]
      refine Points.seq ((getNode_points w r v g).imp fun k t l y => ?_) (Points.call_seq (a := nodeOf h.fresh ns) (s' := h1) q1 (ih.imp fun k t l y => ?_))
      · rcases y with ⟨y, e⟩ | ⟨y, e⟩
        · refine ⟨0, false, lastOf c (A.map Prod.fst), h, ?_, by simp, rfl, by simp [e]⟩
          cases ns with
          | nil => exact .inr ⟨rfl, Nat.le_refl _, by simp only [used] at y; omega⟩
          | cons n ns => exact absurd y (Nat.not_lt_zero _)
        · refine ⟨0, true, lastOf c (A.map Prod.fst), h, ?_, by simp, rfl, by simp [e]⟩
          cases ns with
          | nil => exact .inl ⟨rfl, by simp only [used] at y; simp [y]⟩
          | cons n ns => exact .inl ⟨rfl, by simp only [used] at y; simp [y]⟩
      · obtain ⟨j, leak, b', h2, a, hj, e1, e2⟩ := y
        refine ⟨j + 1, leak, b', h2, a.shift, by simpa using hj, ?_, ?_⟩
        · rw [List.take_succ_cons]
          simp only [LQueue.insertLoopVals, Prog.bind_app, g, Res.bind_ok, q1, e1]
        · rw [e2]
          have : ns.tail.drop j = ns.drop (j + 1) := by simp [List.drop_tail]
          rw [this]

/-- One step of the loops: they behave alike at every countdown if they do from the next element on. -/
theorem getNode_cases (w : Wf h) (r : Queue h c (A ++ B) ns) (v : T) (k : Nat) :
    (∃ t, getNode c v k h = .ok (.thrown, t)) ∨
    (∃ k' h0 h1, getNode c v k h = .ok (.ret (nodeOf h.fresh ns) k', h0) ∧
      insertAfter (lastOf c (A.map Prod.fst)) (nodeOf h.fresh ns) h0 = .ok (nodeOf h.fresh ns, h1) ∧
      Queue h1 c (A ++ (nodeOf h.fresh ns, v) :: B) ns.tail ∧
      Effect (· ∈ qcells c (A ++ B) ns) (· ∈ qcells c (A ++ (nodeOf h.fresh ns, v) :: B) ns.tail) h h1) := by
  obtain ⟨h1, q1, r1, ef, fr, tl⟩ := grab_ok w r v
  simp only [Prog.bind_app] at q1
  cases g : LQueue.getNode c v h with
  | ub f => rw [g] at q1; cases q1
  | diverge => rw [g] at q1; cases q1
  | ok x =>
    obtain ⟨n, h0⟩ := x
    rw [g] at q1
    simp only [Res.bind_ok] at q1
    have en : n = nodeOf h.fresh ns := by
      cases ns with
      | nil =>
        rw [getNode_new v r.dead.head r.dead.path, newNode_eq] at g
        simp only [Res.ok.injEq, Prod.mk.injEq] at g
        exact g.1.symm
      | cons n' ns =>
        obtain ⟨ln, vn⟩ := r.dead.data n' (by simp)
        rw [getNode_pool v r.dead.head r.dead.path.1 (w.ne_zero ln) ln vn] at g
        simp only [Res.ok.injEq, Prod.mk.injEq] at g
        exact g.1.symm
    subst en
    rcases (getNode_points w r v g).cases k with ⟨_, e⟩ | ⟨_, t, e, _⟩
    · exact .inr ⟨_, h0, h1, e, q1, r1, ef⟩
    · exact .inl ⟨t, e⟩

theorem insertLoopN_run {value : Arg T} {v : T} : ∀ (n : Nat) {h : Heap T} {A B : List (Addr × T)} {ns : List Addr}, Wf h →
    Queue h c (A ++ B) ns → Readable h v value → ∀ k,
    insertLoopN c (lastOf c (A.map Prod.fst)) n value k h = insertLoopVals c (lastOf c (A.map Prod.fst)) (List.replicate n v) k h
  | 0, h, A, B, ns, w, r, rd, k => rfl
  | n + 1, h, A, B, ns, w, r, rd, k => by
    rw [List.replicate_succ]
    simp only [insertLoopN, insertLoopVals, Thr.bind_app, Thr.call_app, rd.read, Res.bind_ok, Thr.after_ret]
    rcases getNode_cases w r v k with ⟨t, e⟩ | ⟨k', h0, h1, e, e1, r1, ef⟩
    · simp only [e, Res.bind_ok, Thr.after_thrown]
    · have rd1 : Readable h1 v value := by
        cases value with
        | ext w => exact rd
        | elem a => exact kept_values r r1 ef (by intro e he; simp only [List.mem_append, List.mem_cons] at he ⊢; grind) rd.1 rd.2
      have ih := insertLoopN_run n (A := A ++ [(nodeOf h.fresh ns, v)]) (B := B) ef.wf (by simpa using r1) rd1 k'
      simp only [List.map_append, List.map_cons, List.map_nil, lastOf_concat] at ih
      simp only [e, Res.bind_ok, Thr.after_ret, Thr.bind_app, Thr.call_app, e1, ih]

theorem insertLoopNodes_run : ∀ (fs : List (Addr × T)) {h : Heap T} {A B : List (Addr × T)} {ns : List Addr} {p z : Addr}, Wf h →
    Queue h c (A ++ B) ns → Laid h p fs z → h.live p = true → (∀ x ∈ p :: fs.map Prod.fst, x ∉ qcells c (A ++ B) ns) → ∀ k,
    insertLoopNodes c (lastOf c (A.map Prod.fst)) (posOf z (fs.map Prod.fst)) z k h =
      insertLoopVals c (lastOf c (A.map Prod.fst)) (fs.map Prod.snd) k h
  | [], h, A, B, ns, p, z, w, r, l, lp, hd, k => by
    rw [insertLoopNodes]; simp [insertLoopVals]
  | f :: fs, h, A, B, ns, p, z, w, r, l, lp, hd, k => by
    obtain ⟨l1, l2⟩ := l.data f (by simp)
    have hne : f.1 ≠ z := fun q => l.stop (by simp [q])
    rw [insertLoopNodes]
    simp only [List.map_cons, posOf_cons, Thr.ite_app, if_pos hne, Thr.bind_app, Thr.call_app, getVal_eq l1 l2, Res.bind_ok, Thr.after_ret, insertLoopVals]
    rcases getNode_cases w r f.2 k with ⟨t, e⟩ | ⟨k', h0, h1, e, e1, r1, ef⟩
    · simp only [e, Res.bind_ok, Thr.after_thrown]
    · have m : Laid h1 f.1 fs z := DList.Effect.laid ef l.tail l1 (fun x hx => hd x (List.mem_cons_of_mem _ hx))
      have l1' : h1.live f.1 = true := by
        rw [(ef.keeps l1 (hd f.1 (by simp))).live]; exact l1
      have ih := insertLoopNodes_run fs (A := A ++ [(nodeOf h.fresh ns, f.2)]) (B := B) (ns := ns.tail) ef.wf (by simpa using r1) m l1' (by
        intro x hx hx'
        have hx0 : x ∈ p :: (f :: fs).map Prod.fst := List.mem_cons_of_mem _ hx
        have lx : h.live x = true := by
          simp only [List.mem_cons, List.mem_map] at hx
          rcases hx with rfl | ⟨e, he, rfl⟩
          · exact l1
          · exact (l.data e (List.mem_cons_of_mem _ he)).1
        have : x ∈ qcells c (A ++ (nodeOf h.fresh ns, f.2) :: B) ns.tail := by simpa using hx'
        have := ef.grown x (hd x hx0) this
        rw [lx] at this; cases this) k'
      simp only [List.map_append, List.map_cons, List.map_nil, lastOf_concat] at ih
      simp only [e, Res.bind_ok, Thr.after_ret, Thr.bind_app, Thr.call_app, e1, getNext_eq l1', m.next, ih]

theorem run_points {x y : Thr (Heap T) Addr} {n : Nat} {b : Addr} {P : Nat → Heap T → Prop} (e : ∀ k, x k h = y k h) (Y : Points y h n b h' P) : Points x h n b h' P :=
  ⟨fun k => by rw [e]; exact Y.returns k, fun k l => by rw [e]; exact Y.throws k l⟩

/-! ## The lost node -/

/-- The set with one element. -/
def only (x : Addr) (y : Addr) : Bool := decide (y = x)

theorem lost_ok (w : Wf h) (r : Queue h c es ns) :
    Wf (lost h c ns) ∧ (lost h c ns).live (nodeOf h.fresh ns) = true ∧ nodeOf h.fresh ns ∉ qcells c es ns.tail ∧
    Queue (without (lost h c ns) (only (nodeOf h.fresh ns))) c es ns.tail ∧
    Effect (· ∈ qcells c es ns) (· ∈ qcells c es ns.tail) h (without (lost h c ns) (only (nodeOf h.fresh ns))) ∧
    (lost h c ns).tail = h.tail ∧ (lost h c ns).fresh = h.fresh + used ns := by
  cases ns with
  | nil =>
    have nf : ∀ x, h.live x = true → x ≠ h.fresh := fun x l => w.ne_fresh l
    have hw : Wf (lost h c []) := by
      refine ⟨Nat.succ_pos _, ?_, ?_⟩
      · show upd h.live h.fresh true 0 = false
        rw [upd_other _ _ (Nat.ne_of_lt w.pos)]; exact w.null
      · intro x hx
        by_cases q : x = h.fresh
        · rw [q]; exact Nat.lt_succ_self _
        · have : upd h.live h.fresh true x = true := hx
          rw [upd_other _ _ q] at this; exact Nat.lt_succ_of_lt (w.used x this)
    have sm : ∀ x, h.live x = true → Same h (without (lost h c []) (only (nodeOf h.fresh []))) x := by
      intro x l
      have q := nf x l
      refine ⟨rfl, rfl, rfl, upd_other _ _ q, ?_⟩
      show (!only h.fresh x && upd h.live h.fresh true x) = _
      rw [upd_other _ _ q]; simp [only, q]
    have dead : ∀ x, h.live x = false → (without (lost h c []) (only (nodeOf h.fresh []))).live x = false := by
      intro x l
      show (!only h.fresh x && upd h.live h.fresh true x) = false
      by_cases q : x = h.fresh
      · simp [only, q]
      · rw [upd_other _ _ q]; simp [l]
    refine ⟨hw, upd_same _ _ _, ?_, r.frame fun x hx => sm x (r.live x hx), ⟨fun x _ _ l => sm x l, fun x _ _ l => dead x l, fun x a b => absurd b a, fun x a b => absurd a b, ⟨hw.pos, ?_, ?_⟩, Nat.le_succ _⟩, rfl, rfl⟩
    · intro q
      exact nf _ (r.live _ q) rfl
    · exact dead 0 w.null
    · intro x l; exact hw.used x (without_live.1 l).2
  | cons n ns =>
    have nd := r.dead.nodup
    obtain ⟨ln, vn⟩ := r.dead.data n (by simp)
    have p1 : h.next (c + 1) = n := r.dead.path.1
    have p2 := r.dead.path.2
    have hnm : n ∉ scells c es := fun q => r.apart n q (by simp)
    have hdm : c + 1 ∉ scells c es := fun q => r.apart _ q (by simp)
    have k3 : c + 1 ≠ n := by simp only [List.nodup_cons, List.mem_cons] at nd; grind
    have hnn : n ∉ ns := (List.nodup_cons.1 (List.nodup_cons.1 nd).2).1
    have hcn : c + 1 ∉ ns := by simp only [List.nodup_cons, List.mem_cons] at nd; grind
    have sm : ∀ x, x ≠ c + 1 → x ≠ n → Same h (without (unlA h (c + 1)) (only n)) x := by
      intro x q1 q2
      refine ⟨upd_other _ _ q1, rfl, rfl, rfl, ?_⟩
      show (!only n x && h.live x) = h.live x
      simp [only, q2]
    have hnc : n ∉ qcells c es ns := by
      intro q
      rcases mem_qcells.1 q with q | q
      · exact hnm q
      · rcases List.mem_cons.1 q with q | q
        · exact k3 q.symm
        · exact hnn q
    refine ⟨⟨w.pos, w.null, w.used⟩, ln, hnc, ?_, ?_, rfl, rfl⟩
    · refine ⟨r.main.frame fun x hx => sm x (fun q => hdm (q ▸ hx)) (fun q => hnm (q ▸ hx)), ⟨?_, r.dead.bare, ?_, ?_, ?_⟩, ?_⟩
      · show (!only n (c + 1) && h.live (c + 1)) = true
        simp [only, k3, r.dead.head]
      · have e1 : (without (unlA h (c + 1)) (only n)).next (c + 1) = h.next n := by
          show upd h.next (c + 1) (h.next (h.next (c + 1))) (c + 1) = _
          rw [upd_same, p1]
        cases ns with
        | nil => exact e1.trans p2
        | cons m ns =>
          refine ⟨e1.trans p2.1, p2.2.congr ?_⟩
          intro x hx
          exact (sm x (fun q => hcn (q ▸ hx)) (fun q => hnn (q ▸ hx))).next
      · simp only [List.nodup_cons, List.mem_cons, List.tail_cons] at nd ⊢; grind
      · intro m hm
        have s := sm m (fun q => hcn (q ▸ hm)) (fun q => hnn (q ▸ hm))
        have := r.dead.data m (List.mem_cons_of_mem _ hm)
        exact ⟨s.live.trans this.1, s.val.trans this.2⟩
      · intro x hx q
        have := r.apart x hx
        simp only [List.mem_cons, List.tail_cons] at q this
        grind
    · refine ⟨?_, ?_, ?_, ?_, ⟨w.pos, ?_, ?_⟩, Nat.le_refl _⟩
      · intro x a _ _
        exact sm x (fun q => a (mem_qcells.2 (.inr (by simp [q])))) (fun q => a (mem_qcells.2 (.inr (by simp [q]))))
      · intro x _ _ l
        show (!only n x && h.live x) = false
        simp [l]
      · intro x a b
        refine absurd (mem_qcells.2 ?_) a
        rcases mem_qcells.1 b with q | q
        · exact .inl q
        · right
          simp only [List.mem_cons, List.tail_cons] at q ⊢
          grind
      · intro x a b
        have : x = n := by
          apply Decidable.byContradiction
          intro k
          apply b
          rcases mem_qcells.1 a with q | q
          · exact mem_qcells.2 (.inl q)
          · refine mem_qcells.2 (.inr ?_)
            simp only [List.mem_cons, List.tail_cons] at q ⊢
            grind
        show (!only n x && h.live x) = false
        simp [only, this]
      · show (!only n 0 && h.live 0) = false
        simp [w.null]
      · intro x l; exact w.used x (without_live.1 l).2

end Verif.Exc.XLq
