import Verif.Seq.SOps
import Verif.Seq.LazyModel
/-!
# `ttl::lazy_queue`: the chain of elements and the pool of dead nodes
-/
set_option linter.unusedVariables false
set_option linter.unusedSimpArgs false
namespace Verif.Seq.LQueue
open Verif
open Verif.Seq.DList (Arg readArg posOf posOf_nil posOf_cons Laid)
variable {T : Type} {h : Heap T} {c : Addr} {es A B : List (Addr × T)} {ns : List Addr}

/-- A null-terminated chain of nodes without values, hanging off `p`. -/
structure Pool (h : Heap T) (p : Addr) (ns : List Addr) : Prop where
  head : h.live p = true
  bare : h.val p = none
  path : Path h p ns 0
  nodup : (p :: ns).Nodup
  data : ∀ n ∈ ns, h.live n = true ∧ h.val n = none

/-- The cells of a queue. -/
def qcells (c : Addr) (es : List (Addr × T)) (ns : List Addr) : List Addr := scells c es ++ (c + 1) :: ns

/-- A queue with elements `es` and pooled nodes `ns` (nothing is said about `tail_`). -/
structure Queue (h : Heap T) (c : Addr) (es : List (Addr × T)) (ns : List Addr) : Prop where
  main : Slist h c es
  dead : Pool h (c + 1) ns
  apart : ∀ x ∈ scells c es, x ∉ (c + 1) :: ns

theorem mem_qcells {x : Addr} : x ∈ qcells c es ns ↔ x ∈ scells c es ∨ x ∈ (c + 1) :: ns := by
  simp only [qcells, List.mem_append]

theorem Pool.live {p : Addr} (r : Pool h p ns) : ∀ x ∈ p :: ns, h.live x = true := by
  intro x hx
  rcases List.mem_cons.1 hx with rfl | hx
  · exact r.head
  · exact (r.data x hx).1

theorem Pool.frame {h' : Heap T} {p : Addr} (r : Pool h p ns) (e : ∀ x ∈ p :: ns, Same h h' x) : Pool h' p ns := by
  refine ⟨(e p (by simp)).live.trans r.head, (e p (by simp)).val.trans r.bare, r.path.congr fun x hx => (e x hx).next, r.nodup, ?_⟩
  intro n hn
  have := e n (List.mem_cons_of_mem _ hn)
  exact ⟨this.live.trans (r.data n hn).1, this.val.trans (r.data n hn).2⟩

theorem Queue.live (r : Queue h c es ns) : ∀ x ∈ qcells c es ns, h.live x = true := by
  intro x hx
  rcases mem_qcells.1 hx with hx | hx
  · exact r.main.live x hx
  · exact r.dead.live x hx

theorem Queue.frame {h' : Heap T} (r : Queue h c es ns) (e : ∀ x ∈ qcells c es ns, Same h h' x) : Queue h' c es ns :=
  ⟨r.main.frame fun x hx => e x (mem_qcells.2 (.inl hx)), r.dead.frame fun x hx => e x (mem_qcells.2 (.inr hx)), r.apart⟩

theorem Slist.retail {t : Addr → Addr} (r : Slist h c es) : Slist { h with tail := t } c es :=
  ⟨r.head, r.bare, r.path.congr fun _ _ => rfl, r.nodup, r.data⟩
theorem Pool.retail {t : Addr → Addr} {p : Addr} (r : Pool h p ns) : Pool { h with tail := t } p ns :=
  ⟨r.head, r.bare, r.path.congr fun _ _ => rfl, r.nodup, r.data⟩
theorem Queue.retail {t : Addr → Addr} (r : Queue h c es ns) : Queue { h with tail := t } c es ns :=
  ⟨Slist.retail r.main, Pool.retail r.dead, r.apart⟩

/-- Writing `tail_` of the owned container. -/
theorem retail_effect {C C' : Addr → Prop} {h' : Heap T} (ef : Effect C C' h h') (hc : C c) (t : Addr) :
    Effect C C' h { h' with tail := upd h'.tail c t } := by
  refine ⟨?_, ef.dead, ef.grown, ef.shrunk, ⟨ef.wf.pos, ef.wf.null, ef.wf.used⟩, ef.mono⟩
  intro x h1 h2 l
  have s := ef.frame x h1 h2 l
  refine ⟨s.next, s.prev, ?_, s.val, s.live⟩
  show upd h'.tail c t x = h.tail x
  have hx : x ≠ c := by rintro rfl; exact h1 hc
  rw [upd_other _ _ hx]; exact s.tail

/-- Only links and values of owned, allocated cells change. -/
theorem inner_effect {C C' : Addr → Prop} {h' : Heap T} (w : Wf h) (e : ∀ x, C x ↔ C' x) (hl : h'.live = h.live) (hf : h'.fresh = h.fresh)
    (s : ∀ x, ¬ C x → Same h h' x) : Effect C C' h h' := by
  refine ⟨fun x h1 _ _ => s x h1, fun x _ _ l => by rw [hl]; exact l, fun x h1 h2 => absurd ((e x).2 h2) h1, fun x h1 h2 => absurd ((e x).1 h1) h2,
    ⟨by rw [hf]; exact w.pos, by rw [hl]; exact w.null, fun x l => by rw [hf]; exact w.used x (by rw [hl] at l; exact l)⟩, by rw [hf]; exact Nat.le_refl _⟩

/-! ## Taking a node and inserting it -/

/-- The node `get_node` delivers. -/
def nodeOf (a : Addr) : List Addr → Addr
  | [] => a
  | n :: _ => n
/-- How many nodes are allocated. -/
def used : List Addr → Nat
  | [] => 1
  | _ :: _ => 0

theorem getNode_new (v : T) (l : h.live (c + 1) = true) (n0 : h.next (c + 1) = 0) :
    getNode c v h = newNode v h := by
  have e : upd (upd h.val h.fresh none) h.fresh (some v) = upd h.val h.fresh (some v) := by
    funext x; unfold upd; split <;> rfl
  simp only [getNode, deadOf, Prog.bind_app, getNext_eq l, n0, Res.bind_ok, Prog.ite_app, ne_eq, not_true_eq_false, if_false, newRaw_eq, construct,
    upd_same, if_true, Prog.pure_app, newNode_eq, e]

theorem getNode_pool {n : Addr} (v : T) (l : h.live (c + 1) = true) (nx : h.next (c + 1) = n) (n0 : n ≠ 0) (ln : h.live n = true) (vn : h.val n = none) :
    getNode c v h = .ok (n, { h with next := upd h.next (c + 1) (h.next n), val := upd h.val n (some v) }) := by
  have e := unlinkNext_eq (h := h) l (by rw [nx]; exact ln)
  simp only [getNode, deadOf, Prog.bind_app, getNext_eq l, nx, Res.bind_ok, Prog.ite_app, ne_eq, n0, not_false_eq_true, if_true, e, construct,
    unlA, ln, vn, Prog.pure_app]

/-- `p->insert_after(get_node(v))` behind the elements `A`. -/
theorem grab_ok (w : Wf h) (r : Queue h c (A ++ B) ns) (v : T) :
    ∃ h', (do SNode.insertAfter (lastOf c (A.map Prod.fst)) (← getNode c v) : Prog (Heap T) Addr) h = .ok (nodeOf h.fresh ns, h') ∧
      Queue h' c (A ++ (nodeOf h.fresh ns, v) :: B) ns.tail ∧
      Effect (· ∈ qcells c (A ++ B) ns) (· ∈ qcells c (A ++ (nodeOf h.fresh ns, v) :: B) ns.tail) h h' ∧
      h'.fresh = h.fresh + used ns ∧ h'.tail = h.tail := by
  cases ns with
  | nil =>
    obtain ⟨h', q, r', ef, fr, tl⟩ := newInsert_ok w r.main v
    have hd : c + 1 ∉ scells c (A ++ B) := fun q => r.apart _ q (by simp)
    have s := ef.keeps r.dead.head hd
    refine ⟨h', ?_, ⟨r', r.dead.frame (by simpa using s), ?_⟩, ?_, fr, tl⟩
    · simp only [Prog.bind_app, getNode_new v r.dead.head r.dead.path] at q ⊢; exact q
    · have := w.ne_fresh r.dead.head
      simp only [scells, List.map_append, List.map_cons, List.mem_cons, List.mem_append, List.not_mem_nil, nodeOf] at hd ⊢
      grind
    · refine (ef.weaken (F := (· ∈ [c + 1]))).congr ?_ ?_ <;> intro x <;> exact mem_qcells.symm
  | cons n ns =>
    have nd := r.dead.nodup
    obtain ⟨ln, vn⟩ := r.dead.data n (by simp)
    have n0 : n ≠ 0 := w.ne_zero ln
    have p1 : h.next (c + 1) = n := r.dead.path.1
    have p2 := r.dead.path.2
    have hnm : n ∉ scells c (A ++ B) := fun q => r.apart n q (by simp)
    have hdm : c + 1 ∉ scells c (A ++ B) := fun q => r.apart _ q (by simp)
    let h1 : Heap T := { h with next := upd h.next (c + 1) (h.next n), val := upd h.val n (some v) }
    have sm : ∀ x, x ≠ c + 1 → x ≠ n → Same h h1 x := by
      intro x k1 k2; constructor <;> simp [h1, upd, k1, k2]
    have r1 : Slist h1 c (A ++ B) := r.main.frame fun x hx => sm x (fun q => hdm (q ▸ hx)) (fun q => hnm (q ▸ hx))
    have r2 := r1.insA (n := n) (v := v) ln (by simp [h1]) hnm
    have m1 : lastOf c (A.map Prod.fst) ∈ scells c (A ++ B) := Slist.last_mem
    have same : ∀ x, x ∉ scells c (A ++ B) → x ≠ c + 1 → x ≠ n → Same h (insA h1 (lastOf c (A.map Prod.fst)) n) x := by
      intro x k1 k2 k3
      have k4 : x ≠ lastOf c (A.map Prod.fst) := fun q => k1 (q ▸ m1)
      constructor <;> simp [insA, h1, upd, k2, k3, k4]
    refine ⟨insA h1 (lastOf c (A.map Prod.fst)) n, ?_, ⟨r2, ?_, ?_⟩, ?_, rfl, rfl⟩
    · rw [Prog.bind_app, getNode_pool v r.dead.head p1 n0 ln vn, Res.bind_ok]
      exact insertAfter_eq r1.last_live ln
    · have k4 : c + 1 ≠ lastOf c (A.map Prod.fst) := fun q => hdm (q ▸ m1)
      have k3 : c + 1 ≠ n := by simp only [List.nodup_cons, List.mem_cons] at nd; grind
      refine ⟨r.dead.head, ?_, ?_, ?_, ?_⟩
      · show upd h.val n (some v) (c + 1) = none
        rw [upd_other _ _ k3]; exact r.dead.bare
      · have e1 : (insA h1 (lastOf c (A.map Prod.fst)) n).next (c + 1) = h.next n := by
          simp only [insA, h1, upd_other _ _ k4, upd_other _ _ k3, upd_same]
        cases ns with
        | nil => exact e1.trans p2
        | cons m ns =>
          refine ⟨e1.trans p2.1, p2.2.congr ?_⟩
          intro x hx
          refine (same x (fun q => r.apart x q ?_) ?_ ?_).next
          · exact List.mem_cons_of_mem _ (List.mem_cons_of_mem _ hx)
          · intro q; subst q; exact (List.nodup_cons.1 nd).1 (List.mem_cons_of_mem _ hx)
          · intro q; subst q; exact (List.nodup_cons.1 (List.nodup_cons.1 nd).2).1 hx
      · simp only [List.nodup_cons, List.tail_cons, List.mem_cons] at nd ⊢; grind
      · intro m hm
        have : m ≠ n := by intro q; subst q; exact (List.nodup_cons.1 (List.nodup_cons.1 nd).2).1 hm
        refine ⟨(r.dead.data m (List.mem_cons_of_mem _ hm)).1, ?_⟩
        show upd h.val n (some v) m = none
        rw [upd_other _ _ this]; exact (r.dead.data m (List.mem_cons_of_mem _ hm)).2
    · have ap := r.apart
      have k3 : c + 1 ≠ n := by simp only [List.nodup_cons, List.mem_cons] at nd; grind
      intro x hx hx'
      simp only [scells, List.map_append, List.map_cons, List.mem_cons, List.mem_append, nodeOf, List.tail_cons] at hx hx' ap hdm
      simp only [List.nodup_cons, List.mem_cons] at nd
      grind
    · refine inner_effect w ?_ rfl rfl ?_
      · intro x
        simp only [mem_qcells, scells, List.map_append, List.map_cons, List.mem_cons, List.mem_append, nodeOf, List.tail_cons]
        generalize (x ∈ A.map Prod.fst) = p1
        generalize (x ∈ B.map Prod.fst) = p2
        clear sm r1 r2 m1 same
        grind
      · intro x hx
        simp only [mem_qcells, List.mem_cons, not_or] at hx
        exact same x hx.1 hx.2.1 hx.2.2.1

/-! ## Unlinking a node and pooling it -/

/-- Memory after `put_node(n)`. -/
def putA (h : Heap T) (c n : Addr) : Heap T := insA { h with val := upd h.val n none } (c + 1) n

theorem putNode_eq {n : Addr} {v : T} (l : h.live (c + 1) = true) (ln : h.live n = true) (vn : h.val n = some v) :
    putNode c n h = .ok ((), putA h c n) := by
  simp only [putNode, deadOf, Prog.bind_app, destruct, ln, vn, if_true, Res.bind_ok]
  rw [insertAfter_eq (by exact l) (by exact ln)]; rfl

theorem pool_ok {e : Addr × T} (w : Wf h) (r : Queue h c (A ++ e :: B) ns) :
    SNode.unlinkNext (lastOf c (A.map Prod.fst)) h = .ok (e.1, unlA h (lastOf c (A.map Prod.fst))) ∧
    Queue (putA (unlA h (lastOf c (A.map Prod.fst))) c e.1) c (A ++ B) (e.1 :: ns) ∧
    Effect (· ∈ qcells c (A ++ e :: B) ns) (· ∈ qcells c (A ++ B) (e.1 :: ns)) h (putA (unlA h (lastOf c (A.map Prod.fst))) c e.1) := by
  have nx := r.main.next_at
  simp only [List.map_cons, posOf_cons] at nx
  obtain ⟨l1, l2⟩ := r.main.data e (by simp)
  have lp := r.main.last_live
  have r1 := r.main.unlA
  have nd := r.main.nodup
  have ne : e.1 ∉ scells c (A ++ B) := by
    simp only [scells, List.map_append, List.map_cons, List.nodup_cons, List.nodup_append, List.mem_append, List.mem_cons, not_or] at nd ⊢
    grind
  have m1 : lastOf c (A.map Prod.fst) ∈ scells c (A ++ B) := Slist.last_mem
  have sub : ∀ x ∈ scells c (A ++ B), x ∈ scells c (A ++ e :: B) := by
    intro x hx; simp only [scells, List.map_append, List.map_cons, List.mem_cons, List.mem_append] at hx ⊢; grind
  have me : e.1 ∈ scells c (A ++ e :: B) := by simp [scells]
  have hde : c + 1 ≠ e.1 := fun q => r.apart e.1 me (by rw [← q]; simp)
  have hdl : c + 1 ≠ lastOf c (A.map Prod.fst) := fun q => r.apart _ (sub _ m1) (by rw [← q]; simp)
  have hen : e.1 ∉ ns := fun q => r.apart e.1 me (List.mem_cons_of_mem _ q)
  refine ⟨?_, ⟨?_, ⟨?_, ?_, ?_, ?_, ?_⟩, ?_⟩, ?_⟩
  · rw [unlinkNext_eq lp (by rw [nx]; exact l1), nx]
  · refine ⟨r1.head, ?_, r1.path.congr ?_, r1.nodup, ?_⟩
    · have : c ≠ e.1 := fun q => ne (by rw [← q]; simp [scells])
      show upd h.val e.1 none c = none
      rw [upd_other _ _ this]; exact r1.bare
    · intro x hx
      have k1 : x ≠ e.1 := fun q => ne (q ▸ hx)
      have k2 : x ≠ c + 1 := fun q => r.apart x (sub x hx) (by rw [q]; simp)
      simp only [putA, insA, upd_other _ _ k2, upd_other _ _ k1]
    · intro x hx
      have k1 : x.1 ≠ e.1 := fun q => ne (by rw [← q]; simp only [scells, List.mem_cons]; exact .inr (List.mem_map_of_mem hx))
      refine ⟨(r1.data x hx).1, ?_⟩
      show upd h.val e.1 none x.1 = _
      rw [upd_other _ _ k1]; exact (r1.data x hx).2
  · exact r.dead.head
  · show upd h.val e.1 none (c + 1) = none
    rw [upd_other _ _ hde]; exact r.dead.bare
  · have e1 : (putA (unlA h (lastOf c (A.map Prod.fst))) c e.1).next (c + 1) = e.1 := by simp [putA, insA]
    have e2 : (putA (unlA h (lastOf c (A.map Prod.fst))) c e.1).next e.1 = h.next (c + 1) := by
      simp only [putA, insA, unlA, upd_other _ _ hde.symm, upd_same, upd_other _ _ hdl]
    refine ⟨e1, ?_⟩
    cases ns with
    | nil => exact e2.trans r.dead.path
    | cons m ns =>
      refine ⟨e2.trans r.dead.path.1, r.dead.path.2.congr ?_⟩
      intro x hx
      have k1 : x ≠ e.1 := fun q => hen (q ▸ hx)
      have k2 : x ≠ c + 1 := fun q => (List.nodup_cons.1 r.dead.nodup).1 (q ▸ hx)
      have k3 : x ≠ lastOf c (A.map Prod.fst) := fun q => r.apart _ (sub _ m1) (by rw [← q]; exact List.mem_cons_of_mem _ hx)
      simp only [putA, insA, unlA, upd_other _ _ k2, upd_other _ _ k1, upd_other _ _ k3]
  · have := r.dead.nodup
    simp only [List.nodup_cons, List.mem_cons] at this ⊢
    grind
  · intro n hn
    rcases List.mem_cons.1 hn with rfl | hn
    · exact ⟨l1, by simp [putA, insA]⟩
    · have k1 : n ≠ e.1 := fun q => hen (q ▸ hn)
      refine ⟨(r.dead.data n hn).1, ?_⟩
      show upd h.val e.1 none n = none
      rw [upd_other _ _ k1]; exact (r.dead.data n hn).2
  · intro x hx hx'
    have := r.apart x (sub x hx)
    simp only [List.mem_cons] at hx' this
    have : x = e.1 := by grind
    exact ne (this ▸ hx)
  · refine inner_effect w ?_ rfl rfl ?_
    · intro x
      simp only [mem_qcells, scells, List.map_append, List.map_cons, List.mem_cons, List.mem_append]
      generalize (x ∈ A.map Prod.fst) = p1
      generalize (x ∈ B.map Prod.fst) = p2
      grind
    · intro x hx
      simp only [mem_qcells, List.mem_cons, not_or] at hx
      have k1 : x ≠ e.1 := fun q => hx.1 (q ▸ me)
      have k3 : x ≠ lastOf c (A.map Prod.fst) := fun q => hx.1 (q ▸ sub _ m1)
      constructor <;> simp [putA, insA, unlA, upd, k1, k3, hx.2.1]

end Verif.Seq.LQueue
