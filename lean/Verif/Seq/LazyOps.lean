import Verif.Seq.LazyChain
import Verif.Seq.SWorld
/-!
# `ttl::lazy_queue`: the loops
-/
set_option linter.unusedVariables false
set_option linter.unusedSimpArgs false
namespace Verif.Seq.LQueue
open Verif
open Verif.Seq.DList (Arg readArg posOf posOf_nil posOf_cons Laid)
variable {T : Type} {h : Heap T} {c : Addr} {es A B : List (Addr × T)} {ns : List Addr}

/-- The elements made for the values `vs` when the pool is `ns` and `a` is the next address of the allocator: pooled nodes first. -/
def alloc (a : Addr) : List Addr → List T → List (Addr × T)
  | _, [] => []
  | ns, v :: vs => (nodeOf a ns, v) :: alloc (a + used ns) ns.tail vs

theorem alloc_values : ∀ (vs : List T) (a : Addr) (ns : List Addr), (alloc a ns vs).map Prod.snd = vs
  | [], _, _ => by simp [alloc]
  | v :: vs, a, ns => by simp [alloc, alloc_values vs]

theorem alloc_length (vs : List T) (a : Addr) (ns : List Addr) : (alloc a ns vs).length = vs.length := by
  have := congrArg List.length (alloc_values vs a ns); simpa using this

/-- Values alive before are alive after when the elements stay. -/
theorem kept_values {h' : Heap T} {es' : List (Addr × T)} {ns' : List Addr} (r : Queue h c es ns) (r' : Queue h' c es' ns')
    (ef : Effect (· ∈ qcells c es ns) (· ∈ qcells c es' ns') h h') (sub : ∀ e ∈ es, e ∈ es') {x : Addr} {v : T} (l : h.live x = true)
    (hv : h.val x = some v) : h'.live x = true ∧ h'.val x = some v := by
  by_cases hx : x ∈ qcells c es ns
  · rcases mem_qcells.1 hx with hx | hx
    · simp only [scells, List.mem_cons, List.mem_map] at hx
      rcases hx with rfl | ⟨e, he, rfl⟩
      · rw [r.main.bare] at hv; cases hv
      · rw [(r.main.data e he).2] at hv; cases hv
        exact r'.main.data e (sub e he)
    · rcases List.mem_cons.1 hx with rfl | hx
      · rw [r.dead.bare] at hv; cases hv
      · rw [(r.dead.data x hx).2] at hv; cases hv
  · have := ef.keeps l hx
    exact ⟨this.live.trans l, this.val.trans hv⟩

theorem used_tail (n : Nat) (ns : List Addr) : used ns + (n - ns.tail.length) = n + 1 - ns.length := by
  cases ns with
  | nil => simp [used]; omega
  | cons m ns => simp [used]

theorem insertLoopVals_ok : ∀ (vs : List T) {h : Heap T} {c : Addr} {A B : List (Addr × T)} {ns : List Addr}, Wf h → Queue h c (A ++ B) ns →
    ∃ h', insertLoopVals c (lastOf c (A.map Prod.fst)) vs h = .ok (lastOf c ((A ++ alloc h.fresh ns vs).map Prod.fst), h') ∧
      Queue h' c (A ++ (alloc h.fresh ns vs ++ B)) (ns.drop vs.length) ∧
      Effect (· ∈ qcells c (A ++ B) ns) (· ∈ qcells c (A ++ (alloc h.fresh ns vs ++ B)) (ns.drop vs.length)) h h' ∧
      h'.fresh = h.fresh + (vs.length - ns.length) ∧ h'.tail = h.tail
  | [], h, c, A, B, ns, w, r => ⟨h, by simp [insertLoopVals, alloc], r, Effect.refl w, by simp, rfl⟩
  | v :: vs, h, c, A, B, ns, w, r => by
    obtain ⟨h1, q, r1, ef, fr, tl⟩ := grab_ok w r v
    obtain ⟨h', q', r', ef', fr', tl'⟩ := insertLoopVals_ok vs (A := A ++ [(nodeOf h.fresh ns, v)]) (B := B) (ns := ns.tail) ef.wf (by simpa using r1)
    rw [fr] at r' ef' fr' q'
    have hd : ns.tail.drop vs.length = ns.drop (v :: vs).length := by simp [List.drop_tail]
    rw [hd] at r' ef'
    refine ⟨h', ?_, by simpa [alloc] using r', ?_, ?_, tl'.trans tl⟩
    · unfold insertLoopVals
      simp only [Prog.bind_app] at q ⊢
      cases g : getNode c v h with
      | ok x =>
        rw [g] at q
        simp only [Res.bind_ok] at q ⊢
        rw [q]
        simp only [Res.bind_ok]
        simp only [List.map_append, List.map_cons, List.map_nil, lastOf_concat] at q'
        rw [q']; simp [alloc]
      | ub f => rw [g] at q; cases q
      | diverge => rw [g] at q; cases q
    · simpa [alloc] using ef.trans (by simpa using ef')
    · rw [fr']
      have := used_tail vs.length ns
      simp only [List.length_cons]
      omega

theorem insertLoopN_ok {value : Arg T} {v : T} : ∀ (n : Nat) {h : Heap T} {c : Addr} {A B : List (Addr × T)} {ns : List Addr}, Wf h →
    Queue h c (A ++ B) ns → Readable h v value →
    insertLoopN c (lastOf c (A.map Prod.fst)) n value h = insertLoopVals c (lastOf c (A.map Prod.fst)) (List.replicate n v) h
  | 0, h, c, A, B, ns, w, r, rd => rfl
  | n + 1, h, c, A, B, ns, w, r, rd => by
    obtain ⟨h1, q, r1, ef, fr, tl⟩ := grab_ok w r v
    have rd1 : Readable h1 v value := by
      cases value with
      | ext w => exact rd
      | elem a => exact kept_values r r1 ef (by intro e he; simp only [List.mem_append, List.mem_cons] at he ⊢; grind) rd.1 rd.2
    have ih := insertLoopN_ok n (A := A ++ [(nodeOf h.fresh ns, v)]) (B := B) ef.wf (by simpa using r1) rd1
    simp only [List.map_append, List.map_cons, List.map_nil, lastOf_concat] at ih
    rw [List.replicate_succ]
    unfold insertLoopN insertLoopVals
    simp only [Prog.bind_app, Res.bind_ok, rd.read] at q ⊢
    cases g : getNode c v h with
    | ok x =>
      rw [g] at q
      simp only [Res.bind_ok] at q ⊢
      rw [q]
      simp only [Res.bind_ok, ih]
    | ub f => rw [g] at q; cases q
    | diverge => rw [g] at q; cases q

theorem insertLoopNodes_ok : ∀ (fs : List (Addr × T)) {h : Heap T} {c : Addr} {A B : List (Addr × T)} {ns : List Addr} {p z : Addr}, Wf h →
    Queue h c (A ++ B) ns → Laid h p fs z → h.live p = true → (∀ x ∈ p :: fs.map Prod.fst, x ∉ qcells c (A ++ B) ns) →
    insertLoopNodes c (lastOf c (A.map Prod.fst)) (posOf z (fs.map Prod.fst)) z h =
      insertLoopVals c (lastOf c (A.map Prod.fst)) (fs.map Prod.snd) h
  | [], h, c, A, B, ns, p, z, w, r, l, lp, hd => by
    rw [insertLoopNodes]; simp [insertLoopVals]
  | f :: fs, h, c, A, B, ns, p, z, w, r, l, lp, hd => by
    obtain ⟨l1, l2⟩ := l.data f (by simp)
    have hne : f.1 ≠ z := fun q => l.stop (by simp [q])
    obtain ⟨h1, q, r1, ef, fr, tl⟩ := grab_ok w r f.2
    have m : Laid h1 f.1 fs z := DList.Effect.laid ef l.tail l1 (fun x hx => hd x (List.mem_cons_of_mem _ hx))
    have l1' : h1.live f.1 = true := by
      rw [(ef.keeps l1 (hd f.1 (by simp))).live]; exact l1
    have ih := insertLoopNodes_ok fs (A := A ++ [(nodeOf h.fresh ns, f.2)]) (B := B) (ns := ns.tail) ef.wf (by simpa using r1) m l1' (by
      intro x hx hx'
      have hx0 : x ∈ p :: (f :: fs).map Prod.fst := List.mem_cons_of_mem _ hx
      have := hd x hx0
      have lx : h.live x = true := by
        simp only [List.mem_cons, List.mem_map] at hx
        rcases hx with rfl | ⟨e, he, rfl⟩
        · exact l1
        · exact (l.data e (List.mem_cons_of_mem _ he)).1
      have : x ∈ qcells c (A ++ (nodeOf h.fresh ns, f.2) :: B) ns.tail := by simpa using hx'
      have := ef.grown x (hd x hx0) this
      rw [lx] at this; cases this)
    simp only [List.map_append, List.map_cons, List.map_nil, lastOf_concat] at ih
    rw [insertLoopNodes]
    simp only [List.map_cons, posOf_cons, Prog.ite_app, if_pos hne, Prog.bind_app, getVal_eq l1 l2, Res.bind_ok, insertLoopVals] at q ⊢
    cases g : getNode c f.2 h with
    | ok x =>
      rw [g] at q
      simp only [Res.bind_ok] at q ⊢
      rw [q]
      simp only [Res.bind_ok, getNext_eq l1', m.next, ih]
    | ub f => rw [g] at q; cases q
    | diverge => rw [g] at q; cases q

/-! ## Removing -/

theorem eraseLoop_ok : ∀ (M : List (Addr × T)) {h : Heap T} {c : Addr} {A B : List (Addr × T)} {ns : List Addr}, Wf h → Queue h c (A ++ (M ++ B)) ns →
    ∃ h', eraseLoop c (lastOf c (A.map Prod.fst)) (posOf 0 (B.map Prod.fst)) h = .ok ((), h') ∧
      Queue h' c (A ++ B) ((M.map Prod.fst).reverse ++ ns) ∧
      Effect (· ∈ qcells c (A ++ (M ++ B)) ns) (· ∈ qcells c (A ++ B) ((M.map Prod.fst).reverse ++ ns)) h h' ∧ h'.fresh = h.fresh ∧ h'.tail = h.tail
  | [], h, c, A, B, ns, w, r => by
    refine ⟨h, ?_, r, Effect.refl w, rfl, rfl⟩
    have lp := r.main.last_live
    have nx := r.main.next_at
    simp only [List.nil_append] at nx
    rw [eraseLoop]
    simp only [Prog.bind_app, getNext_eq lp, nx, Res.bind_ok, Prog.ite_app, ne_eq, not_true_eq_false, if_false, Prog.pure_app]
  | m :: M, h, c, A, B, ns, w, r => by
    have r0 : Queue h c (A ++ m :: (M ++ B)) ns := r
    obtain ⟨q1, r1, ef⟩ := pool_ok w r0
    have lp := r0.main.last_live
    have nx := r0.main.next_at
    obtain ⟨lm, vm⟩ := r0.main.data m (by simp)
    simp only [List.map_cons, posOf_cons] at nx
    obtain ⟨h', q', r', ef', fr', tl'⟩ := eraseLoop_ok M (A := A) (B := B) ef.wf r1
    have hne : m.1 ≠ posOf 0 (B.map Prod.fst) := by
      intro q
      cases B with
      | nil => exact w.ne_zero lm q
      | cons b B =>
        have nd := r0.main.nodup
        simp only [List.map_append, List.map_cons, posOf_cons, List.nodup_cons, List.nodup_append, List.mem_append, List.mem_cons] at nd q
        grind
    refine ⟨h', ?_, by simpa using r', by simpa using ef.trans ef', fr', tl'⟩
    rw [eraseLoop]
    simp only [Prog.bind_app, getNext_eq lp, nx, Res.bind_ok, Prog.ite_app, if_pos hne, q1]
    rw [putNode_eq (v := m.2) (by exact r0.dead.head) (by exact lm) (by exact vm)]
    exact q'

theorem clearLoop_eq (c : Addr) : ∀ (es : List (Addr × T)) {h : Heap T} {ns : List Addr}, Wf h → Queue h c es ns → clearLoop c h = eraseLoop c c 0 h
  | [], h, ns, w, r => by
    rw [clearLoop, eraseLoop]
    have : h.next c = 0 := r.main.path
    simp [getNext_eq r.main.head, this]
  | m :: M, h, ns, w, r => by
    obtain ⟨q1, r1, ef⟩ := pool_ok (A := []) (B := M) w r
    have lp := r.main.head
    obtain ⟨lm, vm⟩ := r.main.data m (by simp)
    have nx : h.next c = m.1 := r.main.path.1
    have hne : m.1 ≠ 0 := w.ne_zero lm
    rw [clearLoop, eraseLoop]
    simp only [List.map_nil, lastOf_nil] at q1
    simp only [Prog.bind_app, getNext_eq lp, nx, Res.bind_ok, Prog.ite_app, if_pos hne, q1]
    rw [putNode_eq (v := m.2) (by exact r.dead.head) (by exact lm) (by exact vm)]
    exact clearLoop_eq c M ef.wf r1

theorem clearLoop_ok (w : Wf h) (r : Queue h c es ns) : ∃ h', clearLoop c h = .ok ((), h') ∧
    Queue h' c ([] : List (Addr × T)) ((es.map Prod.fst).reverse ++ ns) ∧
    Effect (· ∈ qcells c es ns) (· ∈ qcells c ([] : List (Addr × T)) ((es.map Prod.fst).reverse ++ ns)) h h' ∧ h'.fresh = h.fresh ∧ h'.tail = h.tail := by
  obtain ⟨h', q, r', ef, fr, tl⟩ := eraseLoop_ok es (A := []) (B := []) (ns := ns) w (by simpa using r)
  refine ⟨h', ?_, by simpa using r', by simpa using ef, fr, tl⟩
  rw [clearLoop_eq c es w r]; exact q

/-! ## Releasing -/

theorem deleteNode_eq {triv : Bool} {n : Addr} (ln : h.live n = true) (ok : triv = true ∨ h.val n ≠ none) :
    deleteNode triv n h = .ok ((), { h with val := upd h.val n none, live := upd h.live n false }) := by
  unfold deleteNode
  cases triv with
  | true => simp [ln]
  | false =>
    rcases ok with ok | ok
    · cases ok
    · cases v : h.val n with
      | none => exact absurd v ok
      | some v => simp [delete, ln, v]

/-- What the deleting loop leaves. -/
structure Released (h h' : Heap T) (p : Addr) (ns : List Addr) : Prop where
  next : h'.next p = 0
  same : ∀ x, x ∉ ns → x ≠ p → Same h h' x
  live : ∀ x, h'.live x = (h.live x && decide (x ∉ ns))
  val : h'.val p = h.val p
  tail : h'.tail = h.tail
  fresh : h'.fresh = h.fresh

theorem deleteLoop_ok (triv : Bool) : ∀ (ns : List Addr) {h : Heap T} {p : Addr}, Path h p ns 0 → (p :: ns).Nodup → (∀ x ∈ p :: ns, h.live x = true) →
    h.live 0 = false → (triv = true ∨ ∀ n ∈ ns, h.val n ≠ none) → ∃ h', deleteLoop triv p h = .ok ((), h') ∧ Released h h' p ns
  | [], h, p, pa, nd, lv, l0, ok => by
    refine ⟨h, ?_, pa, fun _ _ _ => Same.rfl, fun x => by simp, rfl, rfl, rfl⟩
    have : h.next p = 0 := pa
    rw [deleteLoop]; simp [getNext_eq (lv p (by simp)), this]
  | n :: ns, h, p, pa, nd, lv, l0, ok => by
    have lp := lv p (by simp)
    have ln := lv n (by simp)
    have nx : h.next p = n := pa.1
    have n0 : n ≠ 0 := by intro q; subst q; rw [l0] at ln; cases ln
    have hpn : p ≠ n := fun q => (List.nodup_cons.1 nd).1 (by simp [q])
    have hpns : p ∉ ns := fun q => (List.nodup_cons.1 nd).1 (List.mem_cons_of_mem _ q)
    have hn : n ∉ ns := (List.nodup_cons.1 (List.nodup_cons.1 nd).2).1
    let h1 : Heap T := { unlA h p with val := upd h.val n none, live := upd h.live n false }
    have q0 := unlinkNext_eq (h := h) lp (by rw [nx]; exact ln)
    have hn1 : h1.next p = h.next n := by simp [h1, unlA, nx]
    have hx1 : ∀ x ∈ ns, h1.next x = h.next x := by
      intro x hx
      have : x ≠ p := fun q => hpns (q ▸ hx)
      simp only [h1, unlA, upd_other _ _ this]
    obtain ⟨h', q, rl⟩ := deleteLoop_ok triv ns (h := h1) (p := p) (by
        cases ns with
        | nil => exact hn1.trans pa.2
        | cons m ns => exact ⟨hn1.trans pa.2.1, pa.2.2.congr hx1⟩)
      (by simp only [List.nodup_cons, List.mem_cons] at nd ⊢; grind)
      (by
        intro x hx
        have : x ≠ n := by rintro rfl; rcases List.mem_cons.1 hx with q | q; exact hpn q.symm; exact hn q
        show upd h.live n false x = true
        rw [upd_other _ _ this]
        refine lv x ?_
        rcases List.mem_cons.1 hx with q | q
        · simp [q]
        · exact List.mem_cons_of_mem _ (List.mem_cons_of_mem _ q))
      (by show upd h.live n false 0 = false; simp only [upd]; split <;> simp_all)
      (ok.imp id (by
        intro o x hx
        have : x ≠ n := fun q => hn (q ▸ hx)
        show upd h.val n none x ≠ none
        rw [upd_other _ _ this]; exact o x (List.mem_cons_of_mem _ hx)))
    refine ⟨h', ?_, rl.next, ?_, ?_, ?_, rl.tail, rl.fresh⟩
    · rw [deleteLoop]
      simp only [Prog.bind_app, getNext_eq lp, nx, Res.bind_ok, Prog.ite_app, if_pos n0, q0]
      rw [deleteNode_eq (h := unlA h p) (by exact ln) (ok.imp id fun o => o n (by simp))]
      exact q
    · intro x hx hp
      have k1 : x ≠ n := fun q => hx (by simp [q])
      have s1 : Same h h1 x := by constructor <;> simp [h1, unlA, upd, k1, hp]
      exact s1.trans (rl.same x (fun q => hx (List.mem_cons_of_mem _ q)) hp)
    · intro x
      rw [rl.live x]
      show (upd h.live n false x && _) = _
      by_cases k : x = n
      · subst k; simp
      · rw [upd_other _ _ k]; simp [k]
    · refine rl.val.trans ?_
      show upd h.val n none p = _
      rw [upd_other _ _ hpn]

/-- The loop over a pool with nodes, for a `T` with a non-trivial destructor. -/
theorem deleteLoop_ub {p n : Addr} (lp : h.live p = true) (nx : h.next p = n) (n0 : n ≠ 0) (ln : h.live n = true) (vn : h.val n = none) :
    deleteLoop false p h = .ub .lifetime := by
  have q0 := unlinkNext_eq (h := h) lp (by rw [nx]; exact ln)
  rw [deleteLoop]
  simp only [Prog.bind_app, getNext_eq lp, nx, Res.bind_ok, Prog.ite_app, if_pos n0, q0]
  simp [deleteNode, delete, unlA, ln, vn, Res.bind]

end Verif.Seq.LQueue
