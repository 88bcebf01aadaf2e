import Verif.Seq.RingOps2
/-!
# Members of `ttl::list` that loop over the elements: erase(range), resize, remove, unique, merge
-/
set_option linter.unusedVariables false
set_option linter.unusedSimpArgs false
namespace Verif.Seq.DList
open Verif Verif.Seq
variable {T : Type}

/-! ## erase(first, last) -/

/-- `erase(first, last)` on a non-empty range: every element but the last one of the range is erased. -/
theorem eraseRange_ok : ∀ (M : List (Addr × T)) {h : Heap T} {c : Addr} {A B : List (Addr × T)} {m : Addr × T}, Wf h →
    Ring h c (A ++ (M ++ m :: B)) →
    ∃ h', eraseRange (posOf m.1 (M.map Prod.fst)) (posOf c (B.map Prod.fst)) h = .ok (posOf c (B.map Prod.fst), h') ∧
      Ring h' c (A ++ m :: B) ∧ Effect (· ∈ cells c (A ++ (M ++ m :: B))) (· ∈ cells c (A ++ m :: B)) h h' ∧
      h'.fresh = h.fresh
  | [], h, c, A, B, m, w, r => by
    have hl : Links h c (A.map Prod.fst ++ m.1 :: B.map Prod.fst) := by have := r.links; simpa using this
    refine ⟨h, ?_, r, Effect.refl w, rfl⟩
    rw [eraseRange]
    simp only [List.map_nil, posOf_nil, Prog.bind_app, getNext_eq (r.data m (by simp)).1, Res.bind_ok, hl.at_node.1]
    simp
  | e :: M, h, c, A, B, m, w, r => by
    have nd := r.nodup
    obtain ⟨h1, u, d, l, nx, r1, ef, fr, _, _⟩ := unlink_delete_ok (A := A) (B := M ++ m :: B) w r
    obtain ⟨h', q, r', ef', fr'⟩ := eraseRange_ok M ef.wf r1
    refine ⟨h', ?_, r', ef.trans ef', fr'.trans fr⟩
    have e1 : posOf c ((M ++ m :: B).map Prod.fst) = posOf m.1 (M.map Prod.fst) := by cases M <;> simp
    have hne : posOf m.1 (M.map Prod.fst) ≠ posOf c (B.map Prod.fst) := by
      have k1 : posOf m.1 (M.map Prod.fst) ∈ M.map Prod.fst ++ [m.1] := by cases M <;> simp
      have k2 : posOf c (B.map Prod.fst) ∈ B.map Prod.fst ++ [c] := by cases B <;> simp
      intro q; rw [← q] at k2
      simp only [List.map_append, List.map_cons, List.nodup_cons, List.mem_append, List.nodup_append, List.mem_cons] at nd k1 k2
      grind
    rw [eraseRange]
    simp only [List.map_cons, posOf_cons, Prog.bind_app, getNext_eq l, Res.bind_ok, nx, e1, Prog.ite_app, if_pos hne, u, d]
    exact q

/-- On its way around the ring `erase` reaches the header and deletes it. -/
theorem eraseRange_runs_over : ∀ (B : List (Addr × T)) {h : Heap T} {c : Addr} {A : List (Addr × T)} {z : Addr}, Wf h →
    Ring h c (A ++ B) → z ∉ cells c (A ++ B) → eraseRange (posOf c (B.map Prod.fst)) z h = .ub .lifetime
  | [], h, c, A, z, w, r, hz => by
    have r0 : Ring h c A := by simpa using r
    have hn : h.next c ≠ z := by
      rw [r0.next_head]; intro q; apply hz
      cases A <;> simp [cells] at q ⊢ <;> simp [q]
    rw [eraseRange]
    simp only [List.map_nil, posOf_nil, Prog.bind_app, getNext_eq r.head, Res.bind_ok, Prog.ite_app, if_pos hn]
    have l1 : h.live (h.next c) = true := by rw [r0.next_head]; apply r0.live; cases A <;> simp [cells]
    obtain ⟨p1, p2⟩ := (show Ring h c (A ++ []) from r).pos_live
    simp only [List.map_nil, posOf_nil] at p1 p2
    unfold unlink
    have lq : ∀ q, h.live q = true → (({ h with prev := upd h.prev (h.next c) (h.prev c) } : Heap T).live q = true) := fun q hq => hq
    simp only [Prog.bind_app, getNext_eq r.head, getPrev_eq r.head, Res.bind_ok, setPrev_eq l1]
    have l2 : h.live (upd h.prev (h.next c) (h.prev c) c) = true := by
      simp only [upd]; split
      · exact p2
      · exact p2
    simp only [getPrev, getNext, setNext, r.head, if_true, Res.bind_ok, Prog.bind_app, l2, delete, r.bare]
    rfl
  | e :: B, h, c, A, z, w, r, hz => by
    obtain ⟨h1, u, d, l, nx, r1, ef, fr, _, _⟩ := unlink_delete_ok (A := A) (B := B) w r
    have hz' : z ∉ cells c (A ++ B) := by
      simp only [cells, List.mem_cons, List.map_append, List.mem_append, List.map_cons] at hz ⊢; grind
    have hne : posOf c (B.map Prod.fst) ≠ z := by
      intro q; apply hz
      have k : posOf c (B.map Prod.fst) ∈ B.map Prod.fst ++ [c] := by cases B <;> simp
      rw [q] at k
      simp only [cells, List.mem_cons, List.map_append, List.mem_append, List.map_cons, List.not_mem_nil, or_false] at k ⊢; grind
    rw [eraseRange]
    simp only [List.map_cons, posOf_cons, Prog.bind_app, getNext_eq l, Res.bind_ok, nx, Prog.ite_app, if_pos hne, u, d]
    exact eraseRange_runs_over B ef.wf r1 hz'

/-- `erase(p, p)` on an element is never a no-op: it erases up to the end and then deletes the header. -/
theorem eraseRange_self {h : Heap T} {c : Addr} {A B : List (Addr × T)} {e : Addr × T} (w : Wf h) (r : Ring h c (A ++ e :: B)) :
    eraseRange e.1 e.1 h = .ub .lifetime := by
  obtain ⟨h1, u, d, l, nx, r1, ef, fr, _, _⟩ := unlink_delete_ok (A := A) (B := B) w r
  have nd := r.nodup
  have hz : e.1 ∉ cells c (A ++ B) := by
    simp only [cells, List.mem_cons, List.map_append, List.mem_append, List.map_cons, List.nodup_cons, List.nodup_append] at nd ⊢; grind
  have hne : posOf c (B.map Prod.fst) ≠ e.1 := by
    intro q; apply hz
    have k : posOf c (B.map Prod.fst) ∈ B.map Prod.fst ++ [c] := by cases B <;> simp
    rw [q] at k
    simp only [cells, List.mem_cons, List.map_append, List.mem_append, List.map_cons, List.not_mem_nil, or_false] at k ⊢; grind
  rw [eraseRange]
  simp only [Prog.bind_app, getNext_eq l, Res.bind_ok, nx, Prog.ite_app, if_pos hne, u, d]
  exact eraseRange_runs_over B ef.wf r1 hz

/-- `erase(end(), end())` on a non-empty list deletes the header. -/
theorem eraseRange_end {h : Heap T} {c : Addr} {es : List (Addr × T)} (w : Wf h) (r : Ring h c es) (he : es ≠ []) :
    eraseRange c c h = .ub .lifetime := by
  have hn : h.next c ≠ c := by
    rw [r.next_head]; intro q
    cases es with
    | nil => exact he rfl
    | cons e es => exact r.laid.stop (by simp only [List.map_cons, posOf_cons] at q; simp [q])
  have l1 : h.live (h.next c) = true := by rw [r.next_head]; apply r.live; cases es <;> simp [cells]
  obtain ⟨p1, p2⟩ := (show Ring h c (es ++ []) by simpa using r).pos_live
  simp only [List.map_nil, posOf_nil] at p1 p2
  rw [eraseRange]
  simp only [Prog.bind_app, getNext_eq r.head, Res.bind_ok, Prog.ite_app, if_pos hn]
  rw [unlink_eq r.head l1 p2 hn]
  simp only [Res.bind_ok, delete]
  rw [if_pos (show (unl h c).live c = true from r.head)]
  have : (unl h c).val c = none := r.bare
  rw [this]; rfl

/-! ## resize -/

theorem resizeDrop_ok : ∀ (n : Nat) {h : Heap T} {c : Addr} {A B : List (Addr × T)} {e : Addr × T}, B.length = n → Wf h →
    Ring h c (A ++ e :: B) → ∃ h', resizeDrop c e.1 h = .ok ((), h') ∧ Ring h' c (A ++ [e]) ∧
      Effect (· ∈ cells c (A ++ e :: B)) (· ∈ cells c (A ++ [e])) h h' ∧ h'.fresh = h.fresh
  | 0, h, c, A, B, e, hn, w, r => by
    obtain rfl := List.length_eq_zero_iff.1 hn
    have hl : Links h c (A.map Prod.fst ++ e.1 :: []) := by have := r.links; simpa using this
    refine ⟨h, ?_, r, Effect.refl w, rfl⟩
    rw [resizeDrop]
    simp [getNext_eq (r.data e (by simp)).1, hl.at_node.1]
  | n + 1, h, c, A, B, e, hn, w, r => by
    have hl : Links h c (A.map Prod.fst ++ e.1 :: B.map Prod.fst) := by have := r.links; simpa using this
    rcases List.eq_nil_or_concat B with q | ⟨B', b, q⟩
    · subst q; simp at hn
    · rw [List.concat_eq_append] at q; subst q
      have r0 : Ring h c ((A ++ e :: B') ++ [b]) := by simpa using r
      have r2 : Ring h c ((A ++ e :: B') ++ b :: []) := by simpa using r
      obtain ⟨h1, u, d, l, nx, r1, ef, fr, _, _⟩ := unlink_delete_ok w r2
      obtain ⟨h', q, r', ef', fr'⟩ := resizeDrop_ok n (h := h1) (A := A) (B := B') (e := e) (by simpa using hn) ef.wf (by simpa using r1)
      refine ⟨h', ?_, r', ?_, fr'.trans fr⟩
      · have hne : posOf c ((B' ++ [b]).map Prod.fst) ≠ c := by
          intro q
          have k : posOf c ((B' ++ [b]).map Prod.fst) ∈ (B' ++ [b]).map Prod.fst := by cases B' <;> simp
          rw [q] at k
          have := r.laid.stop
          simp only [List.map_append, List.map_cons, List.mem_append, List.mem_cons] at this k
          grind
        rw [resizeDrop]
        simp only [Prog.bind_app, getNext_eq (r.data e (by simp)).1, Res.bind_ok, hl.at_node.1, Prog.ite_app, if_pos hne,
          getPrev_eq r.head, r0.prev_last, u, d]
        exact q
      · exact (by simpa using ef : Effect (· ∈ cells c (A ++ e :: (B' ++ [b]))) (· ∈ cells c (A ++ e :: B')) h h1).trans ef'

/-- The elements `resize(n, v)` leaves: for `n > 0` the first `n`, or all of them followed by copies of `v`. -/
theorem resizeLoop_ok : ∀ (R : List (Addr × T)) {h : Heap T} {c : Addr} {A : List (Addr × T)} (n : Nat) (v : T), Wf h →
    Ring h c (A ++ R) → A.length < n ∨ n = 0 →
    ∃ h', resizeLoop c (posOf c (R.map Prod.fst)) A.length n v h = .ok ((), h') ∧
      Ring h' c (if n = 0 then A ++ R else (A ++ R).take n ++ fresh h.fresh (List.replicate (n - (A ++ R).length) v)) ∧
      Effect (· ∈ cells c (A ++ R))
        (· ∈ cells c (if n = 0 then A ++ R else (A ++ R).take n ++ fresh h.fresh (List.replicate (n - (A ++ R).length) v))) h h' ∧
      h'.fresh = h.fresh + (n - (A ++ R).length)
  | [], h, c, A, n, v, w, r, hn => by
    rcases hn with hn | hn
    · have n0 : n ≠ 0 := by omega
      rw [List.append_nil] at r ⊢
      obtain ⟨h', q, r', ef, fr⟩ := insertVals_ok (List.replicate (n - A.length) v) (A := A) (B := []) w (by simpa using r)
      simp only [List.append_nil, List.map_nil, posOf_nil, List.length_replicate] at q r' ef fr
      rw [if_neg n0]
      have e1 : A.take n = A := List.take_of_length_le (by omega)
      rw [e1]
      refine ⟨h', ?_, r', ef, fr⟩
      rw [resizeLoop]
      simp only [List.map_nil, posOf_nil, Prog.ite_app]
      rw [if_neg (by simp), insertN_eq]
      exact q
    · subst hn
      refine ⟨h, ?_, by simpa using r, by simpa using Effect.refl w, by simp⟩
      rw [resizeLoop]
      simp [insertN]
  | e :: R, h, c, A, n, v, w, r, hn => by
    have hne : e.1 ≠ c := fun q => r.laid.stop (by simp [q])
    have hl : Links h c (A.map Prod.fst ++ e.1 :: R.map Prod.fst) := by have := r.links; simpa using this
    have le := (r.data e (by simp)).1
    rw [resizeLoop]
    simp only [List.map_cons, posOf_cons, Prog.ite_app, if_pos hne]
    by_cases hs : A.length + 1 = n
    · rw [if_pos hs]
      obtain ⟨h', q, r', ef, fr⟩ := resizeDrop_ok R.length rfl w r
      have e1 : (A ++ e :: R).take n = A ++ [e] := by
        rw [← hs, List.take_append]; simp [List.take_of_length_le]
      have e2 : n - (A ++ e :: R).length = 0 := by simp; omega
      rw [if_neg (by omega), e1, e2]
      simp only [List.replicate_zero, fresh, List.append_nil]
      exact ⟨h', q, r', ef, by rw [fr]; simp⟩
    · rw [if_neg hs]
      simp only [Prog.bind_app, getNext_eq le, Res.bind_ok, hl.at_node.1]
      have := resizeLoop_ok R (A := A ++ [e]) n v w (by simpa using r) (by rcases hn with hn | hn <;> simp <;> omega)
      simpa using this

/-! ## remove_if, remove -/

theorem removeLoop_ok {test : T → Prog (Heap T) Bool} {p : T → Bool} {c : Addr} :
    ∀ (R : List (Addr × T)) {h : Heap T} {A : List (Addr × T)}, Wf h → Ring h c (A ++ R) →
    (∀ h' v, test v h' = .ok (p v, h')) → ∀ n, (R ≠ [] → n = h.next (posOf c (R.map Prod.fst))) →
    ∃ h', removeLoop c test (posOf c (R.map Prod.fst)) n h = .ok ((), h') ∧
      Ring h' c (A ++ R.filter (fun e => !p e.2)) ∧
      Effect (· ∈ cells c (A ++ R)) (· ∈ cells c (A ++ R.filter (fun e => !p e.2))) h h' ∧ h'.fresh = h.fresh
  | [], h, A, w, r, ht, n, hn => by
    refine ⟨h, ?_, by simpa using r, by simpa using Effect.refl w, rfl⟩
    rw [removeLoop]; simp
  | e :: R, h, A, w, r, ht, n, hn => by
    have hn := hn (by simp)
    have hne : e.1 ≠ c := fun q => r.laid.stop (by simp [q])
    have hl : Links h c (A.map Prod.fst ++ e.1 :: R.map Prod.fst) := by have := r.links; simpa using this
    obtain ⟨le, ve⟩ := r.data e (by simp)
    simp only [List.map_cons, posOf_cons, hl.at_node.1] at hn
    subst hn
    rw [removeLoop]
    simp only [List.map_cons, posOf_cons, Prog.ite_app, if_pos hne, Prog.bind_app, getVal_eq le ve, Res.bind_ok, ht]
    cases hp : p e.2 with
    | true =>
      obtain ⟨h1, u, d, l, nx, r1, ef, fr, _, _⟩ := unlink_delete_ok (A := A) (B := R) w r
      obtain ⟨h', q, r', ef', fr'⟩ := removeLoop_ok R ef.wf r1 ht _ (fun _ => rfl)
      have l1 : h1.live (posOf c (R.map Prod.fst)) = true := r1.pos_live.1
      rw [if_pos rfl]
      simp only [Res.bind_ok, u, d, getNext_eq l1]
      exact ⟨h', q, by simpa [hp] using r', by simpa [hp] using ef.trans ef', fr'.trans fr⟩
    | false =>
      have l1 : h.live (posOf c (R.map Prod.fst)) = true :=
        (show Ring h c ((A ++ [e]) ++ R) by simpa using r).pos_live.1
      obtain ⟨h', q, r', ef', fr'⟩ := removeLoop_ok R (A := A ++ [e]) w (by simpa using r) ht _ (fun _ => rfl)
      rw [if_neg (by simp)]
      simp only [Res.bind_ok, getNext_eq l1]
      exact ⟨h', q, by simpa [hp] using r', by simpa [hp] using ef', fr'⟩

theorem removeIf_ok {h : Heap T} {c : Addr} {es : List (Addr × T)} (w : Wf h) (r : Ring h c es) (p : T → Bool) :
    ∃ h', removeIf c p h = .ok ((), h') ∧ Ring h' c (es.filter (fun e => !p e.2)) ∧
      Effect (· ∈ cells c es) (· ∈ cells c (es.filter (fun e => !p e.2))) h h' ∧ h'.fresh = h.fresh := by
  obtain ⟨h', q, r', ef, fr⟩ := removeLoop_ok (p := p) (test := fun v => pure (p v)) es (A := []) w r (fun _ _ => rfl) _ (fun _ => rfl)
  refine ⟨h', ?_, r', ef, fr⟩
  have l1 : h.live (posOf c (es.map Prod.fst)) = true := (show Ring h c ([] ++ es) from r).pos_live.1
  unfold removeIf
  simp only [Prog.bind_app, getNext_eq r.head, Res.bind_ok, r.next_head, getNext_eq l1]
  exact q

theorem remove_ok {h : Heap T} {c : Addr} {es : List (Addr × T)} (w : Wf h) (r : Ring h c es) (eqv : T → T → Bool) (v : T) :
    ∃ h', remove c eqv (.ext v) h = .ok ((), h') ∧ Ring h' c (es.filter (fun e => !eqv e.2 v)) ∧
      Effect (· ∈ cells c es) (· ∈ cells c (es.filter (fun e => !eqv e.2 v))) h h' ∧ h'.fresh = h.fresh := by
  obtain ⟨h', q, r', ef, fr⟩ := removeLoop_ok (p := fun x => eqv x v)
    (test := fun x => do pure (eqv x (← readArg (.ext v)))) es (A := []) w r (fun _ _ => rfl) _ (fun _ => rfl)
  refine ⟨h', ?_, r', ef, fr⟩
  have l1 : h.live (posOf c (es.map Prod.fst)) = true := (show Ring h c ([] ++ es) from r).pos_live.1
  unfold remove
  simp only [Prog.bind_app, getNext_eq r.head, Res.bind_ok, r.next_head, getNext_eq l1]
  exact q

/-- `l.remove(x)` where `x` is an element of `l` reads `x` after destroying it, unless `x` is the last element. -/
theorem removeLoop_alias {eqv : T → T → Bool} {c : Addr} {a : Addr} {v : T} {B : List (Addr × T)} {b : Addr × T} (hv : eqv v v = true) :
    ∀ (R : List (Addr × T)) {h : Heap T} {A : List (Addr × T)}, Wf h → Ring h c (A ++ (R ++ (a, v) :: b :: B)) →
    ∀ n, n = h.next (posOf c ((R ++ (a, v) :: b :: B).map Prod.fst)) →
    removeLoop c (fun x => do pure (eqv x (← readArg (.elem a)))) (posOf c ((R ++ (a, v) :: b :: B).map Prod.fst)) n h = .ub .access
  | [], h, A, w, r, n, hn => by
    have hne : a ≠ c := fun q => r.laid.stop (by simp [q])
    obtain ⟨le, ve⟩ := r.data (a, v) (by simp)
    have hl : Links h c (A.map Prod.fst ++ a :: (b :: B).map Prod.fst) := by have := r.links; simpa using this
    simp only [List.nil_append, List.map_cons, posOf_cons, hl.at_node.1] at hn
    subst hn
    rw [removeLoop]
    simp only [List.nil_append, List.map_cons, posOf_cons, Prog.ite_app, if_pos hne, Prog.bind_app, getVal_eq le ve, Res.bind_ok, readArg,
      Prog.pure_app, hv, if_true]
    obtain ⟨h1, u, d, l, nx, r1, ef, fr, oth, dd⟩ := unlink_delete_ok (A := A) (B := b :: B) w r
    obtain ⟨lb, vb⟩ := r1.data b (by simp)
    have hne2 : b.1 ≠ c := fun q => r1.laid.stop (by simp [q])
    simp only at u d dd
    simp only [u, d, Res.bind_ok, getNext_eq lb]
    rw [removeLoop]
    simp only [Prog.ite_app, if_pos hne2, Prog.bind_app, getVal_eq lb vb, Res.bind_ok]
    simp [getVal, dd]
  | e :: R, h, A, w, r, n, hn => by
    have hne : e.1 ≠ c := fun q => r.laid.stop (by simp [q])
    obtain ⟨le, ve⟩ := r.data e (by simp)
    obtain ⟨la, va⟩ := r.data (a, v) (by simp)
    have hl : Links h c (A.map Prod.fst ++ e.1 :: (R ++ (a, v) :: b :: B).map Prod.fst) := by have := r.links; simpa using this
    simp only [List.cons_append, List.map_cons, posOf_cons, hl.at_node.1] at hn
    subst hn
    rw [removeLoop]
    simp only [List.cons_append, List.map_cons, posOf_cons, Prog.ite_app, if_pos hne, Prog.bind_app, getVal_eq le ve, Res.bind_ok, readArg,
      getVal_eq la va, Prog.pure_app]
    by_cases he : eqv e.2 v = true
    · obtain ⟨h1, u, d, l, nx, r1, ef, fr, oth, dd⟩ := unlink_delete_ok (A := A) (B := R ++ (a, v) :: b :: B) w r
      have ih := removeLoop_alias hv R ef.wf r1 _ rfl
      have l1 : h1.live (posOf c ((R ++ (a, v) :: b :: B).map Prod.fst)) = true := r1.pos_live.1
      rw [if_pos (by simp [he])]
      simp only [u, d, Res.bind_ok, getNext_eq l1]
      exact ih
    · have r2 : Ring h c ((A ++ [e]) ++ (R ++ (a, v) :: b :: B)) := by simpa using r
      have l1 : h.live (posOf c ((R ++ (a, v) :: b :: B).map Prod.fst)) = true := r2.pos_live.1
      have ih := removeLoop_alias hv R w r2 _ rfl
      rw [if_neg (by simp [he])]
      simp only [Res.bind_ok, getNext_eq l1]
      exact ih

/-! ## unique -/

/-- What is kept behind the kept element `q`. -/
def dedup (pred : T → T → Bool) : (Addr × T) → List (Addr × T) → List (Addr × T)
  | _, [] => []
  | q, e :: R => if pred e.2 q.2 then dedup pred q R else e :: dedup pred e R

theorem uniqueLoop_ok {pred : T → T → Bool} {c : Addr} :
    ∀ (R : List (Addr × T)) {h : Heap T} {A : List (Addr × T)} {q : Addr × T}, Wf h → Ring h c (A ++ q :: R) →
    ∀ n, (R ≠ [] → n = h.next (posOf c (R.map Prod.fst))) →
    ∃ h', uniqueLoop c pred q.1 (posOf c (R.map Prod.fst)) n h = .ok ((), h') ∧
      Ring h' c (A ++ q :: dedup pred q R) ∧
      Effect (· ∈ cells c (A ++ q :: R)) (· ∈ cells c (A ++ q :: dedup pred q R)) h h' ∧ h'.fresh = h.fresh
  | [], h, A, q, w, r, n, hn => by
    refine ⟨h, ?_, r, Effect.refl w, rfl⟩
    rw [uniqueLoop]; simp
  | e :: R, h, A, q, w, r, n, hn => by
    have hn := hn (by simp)
    have r0 : Ring h c ((A ++ [q]) ++ e :: R) := by simpa using r
    have hne : e.1 ≠ c := fun q => r.laid.stop (by simp [q])
    have hl : Links h c ((A ++ [q]).map Prod.fst ++ e.1 :: R.map Prod.fst) := by have := r.links; simpa using this
    obtain ⟨le, ve⟩ := r.data e (by simp)
    obtain ⟨lq, vq⟩ := r.data q (by simp)
    simp only [List.map_cons, posOf_cons, hl.at_node.1] at hn
    subst hn
    rw [uniqueLoop]
    simp only [List.map_cons, posOf_cons, Prog.ite_app, if_pos hne, Prog.bind_app, getVal_eq le ve, getVal_eq lq vq, Res.bind_ok]
    cases hp : pred e.2 q.2 with
    | true =>
      obtain ⟨h1, u, d, l, nx, r1, ef, fr, _, _⟩ := unlink_delete_ok w r0
      obtain ⟨h', k, r', ef', fr'⟩ := uniqueLoop_ok R (h := h1) (A := A) (q := q) ef.wf (by simpa using r1) _ (fun _ => rfl)
      have l1 : h1.live (posOf c (R.map Prod.fst)) = true := r1.pos_live.1
      simp only [if_true, Res.bind_ok, u, d, getNext_eq l1]
      refine ⟨h', k, by simpa [dedup, hp] using r', ?_, fr'.trans fr⟩
      have := (show Effect (· ∈ cells c (A ++ q :: e :: R)) (· ∈ cells c (A ++ q :: R)) h h1 by simpa using ef).trans ef'
      simpa [dedup, hp] using this
    | false =>
      have r1 : Ring h c ((A ++ [q] ++ [e]) ++ R) := by simpa using r
      have l1 : h.live (posOf c (R.map Prod.fst)) = true := r1.pos_live.1
      obtain ⟨h', k, r', ef', fr'⟩ := uniqueLoop_ok R (h := h) (A := A ++ [q]) (q := e) w r0 _ (fun _ => rfl)
      simp only [Bool.false_eq_true, if_false, Res.bind_ok, getNext_eq l1]
      exact ⟨h', k, by simpa [dedup, hp] using r', by simpa [dedup, hp] using ef', fr'⟩

/-- The elements `unique(pred)` keeps. -/
def uniq (pred : T → T → Bool) : List (Addr × T) → List (Addr × T)
  | [] => []
  | q :: R => q :: dedup pred q R

theorem unique_ok {h : Heap T} {c : Addr} {es : List (Addr × T)} (w : Wf h) (r : Ring h c es) (pred : T → T → Bool) :
    ∃ h', unique c pred h = .ok ((), h') ∧ Ring h' c (uniq pred es) ∧
      Effect (· ∈ cells c es) (· ∈ cells c (uniq pred es)) h h' ∧ h'.fresh = h.fresh := by
  cases es with
  | nil =>
    refine ⟨h, ?_, r, Effect.refl w, rfl⟩
    unfold unique
    have e : h.next c = c := r.next_head
    simp only [Prog.bind_app, getNext_eq r.head, Res.bind_ok, e]
    rw [uniqueLoop]; simp
  | cons q R =>
    obtain ⟨h', k, r', ef, fr⟩ := uniqueLoop_ok (pred := pred) R (A := []) (q := q) w r _ (fun _ => rfl)
    refine ⟨h', ?_, r', ef, fr⟩
    have hl : Links h c ([] ++ q.1 :: R.map Prod.fst) := r.links
    obtain ⟨lq, vq⟩ := r.data q (by simp)
    have l1 : h.live (posOf c (R.map Prod.fst)) = true := (show Ring h c ([q] ++ R) from r).pos_live.1
    unfold unique
    simp only [Prog.bind_app, getNext_eq r.head, Res.bind_ok, r.next_head, List.map_cons, posOf_cons, getNext_eq lq, hl.at_node.1,
      getNext_eq l1]
    exact k

/-! ## merge -/

/-- The sequence the loop of `merge` produces from what is left of the other list and of this list. -/
def mergeSeq (lt : T → T → Bool) : List (Addr × T) → List (Addr × T) → List (Addr × T)
  | [], R => R
  | O, [] => O
  | e :: O, r :: R => if lt e.2 r.2 then mergeSeq lt O (e :: r :: R) else r :: mergeSeq lt (e :: O) R
termination_by O R => 2 * O.length + R.length
decreasing_by all_goals (simp_wf; try omega)

/-- Moving the first node of `other` in front of a node of `c`, as the loop of `merge` does. -/
theorem move_ok {h : Heap T} {c d : Addr} {A R O : List (Addr × T)} {e i : Addr × T}
    (r : Ring h c (A ++ i :: R)) (s : Ring h d (e :: O)) (hd : ∀ x ∈ cells c (A ++ i :: R), x ∉ cells d (e :: O)) :
    ∃ h', unlink e.1 h = .ok ((), unl h e.1) ∧ insertBefore i.1 e.1 (unl h e.1) = .ok (e.1, h') ∧
      h.next e.1 = posOf d (O.map Prod.fst) ∧ Ring h' c (A ++ e :: i :: R) ∧ Ring h' d O ∧
      Relink (fun x => x ∈ cells c (A ++ i :: R) ∨ x ∈ cells d (e :: O)) h h' := by
  have hl : Links h d ([] ++ e.1 :: O.map Prod.fst) := s.links
  have hn : (d :: ([] ++ e.1 :: O.map Prod.fst)).Nodup := s.nodup
  obtain ⟨e1, e2⟩ := hl.at_node
  obtain ⟨le, ve⟩ := s.data e (by simp)
  have mn : h.next e.1 ∈ cells d O := by rw [e1]; cases O <;> simp [cells]
  have mp : h.prev e.1 = d := by simpa using e2
  have sub : ∀ y, y ∈ cells d O → y ∈ cells d (e :: O) := by
    intro y hy; simp only [cells, List.mem_cons, List.map_cons] at hy ⊢; grind
  have hes : e.1 ∉ cells d O := by simp [cells] at hn ⊢; grind
  have nx : h.next e.1 ≠ e.1 := fun q => hes (q ▸ mn)
  have u := unlink_eq le (s.live _ (sub _ mn)) (by rw [mp]; exact s.head) nx
  have rl1 : Relink (· ∈ cells d (e :: O)) h (unl h e.1) := by
    refine ⟨rfl, rfl, rfl, rfl, ?_, ?_⟩
    · intro x hx
      have q1 : x ≠ h.prev e.1 := fun q => hx (by rw [q, mp]; simp [cells])
      simp [unl, upd, q1]
    · intro x hx
      have q1 : x ≠ h.next e.1 := fun q => hx (q ▸ sub _ mn)
      simp [unl, upd, q1]
  have s1 : Ring (unl h e.1) d O := by
    refine Ring.relink rl1 s.head s.bare ?_ (fun x hx => s.data x (List.mem_cons_of_mem _ hx)) ?_
    · simp only [List.nil_append, List.nodup_cons, List.mem_cons] at hn ⊢; grind
    · have := unl_links hl hn; simpa using this
  have r1 : Ring (unl h e.1) c (A ++ i :: R) := rl1.ring r hd
  have hec : e.1 ∉ cells c (A ++ i :: R) := fun q => hd _ q (by simp [cells])
  obtain ⟨m1, m2⟩ := r1.pos_cells (A := A) (B := i :: R)
  change i.1 ∈ _ at m1; change (unl h e.1).prev i.1 ∈ _ at m2
  have hl2 : Links (unl h e.1) c (A.map Prod.fst ++ i.1 :: R.map Prod.fst) := by have := r1.links; simpa using this
  have hn2 : (c :: (A.map Prod.fst ++ i.1 :: R.map Prod.fst)).Nodup := by have := r1.nodup; simpa using this
  have ib := insertBefore_eq (h := unl h e.1) (p := i.1) (n := e.1) (r1.live _ m1) (r1.live _ m2) le
  have rl2 : Relink (fun x => x ∈ cells c (A ++ i :: R) ∨ x = e.1) (unl h e.1) (insB (unl h e.1) i.1 e.1) := by
    refine ⟨rfl, rfl, rfl, rfl, ?_, ?_⟩
    · intro x hx
      have q1 : x ≠ (unl h e.1).prev i.1 := fun q => hx (.inl (q ▸ m2))
      have q2 : x ≠ e.1 := fun q => hx (.inr q)
      simp [insB, upd, q1, q2]
    · intro x hx
      have q1 : x ≠ i.1 := fun q => hx (.inl (q ▸ m1))
      have q2 : x ≠ e.1 := fun q => hx (.inr q)
      simp [insB, upd, q1, q2]
  refine ⟨_, u, ib, e1, ?_, ?_, ?_⟩
  · refine Ring.relink rl2 r1.head r1.bare ?_ ?_ ?_
    · simp only [cells, List.map_append, List.map_cons, List.nodup_cons, List.mem_append, List.nodup_append, List.mem_cons] at hn2 hec ⊢
      grind
    · intro x hx
      by_cases q : x = e
      · subst q; exact ⟨le, ve⟩
      · exact r1.data x (by simp only [List.mem_append, List.mem_cons] at hx ⊢; grind)
    · have := insB_links (h := unl h e.1) (B := (i :: R).map Prod.fst) hl2 hn2 (n := e.1)
        (by simpa only [cells, List.map_append] using hec)
      simpa using this
  · refine rl2.ring s1 ?_
    intro x hx
    rintro (q | q)
    · exact hd x q (sub x hx)
    · exact hes (q ▸ hx)
  · refine (rl1.mono (fun x hx => .inr hx)).trans (rl2.mono ?_)
    rintro x (q | q)
    · exact .inl q
    · exact .inr (by simp [cells, q])

theorem mergeLoop_ok {lt : T → T → Bool} {c d : Addr} : ∀ (n : Nat) {h : Heap T} {A O R : List (Addr × T)},
    2 * O.length + R.length = n → Ring h c (A ++ R) → Ring h d O → (∀ x ∈ cells c (A ++ R), x ∉ cells d O) →
    ∃ h', mergeLoop c d lt (posOf d (O.map Prod.fst)) (posOf c (R.map Prod.fst)) h = .ok ((), h') ∧
      Ring h' c (A ++ mergeSeq lt O R) ∧ Ring h' d [] ∧
      Relink (fun x => x ∈ cells c (A ++ R) ∨ x ∈ cells d O) h h' := by
  intro n
  induction n using Nat.strongRecOn with
  | _ n ih =>
  intro h A O R hn r s hd
  rw [mergeLoop]
  cases O with
  | nil =>
    refine ⟨h, ?_, by simpa [mergeSeq] using r, s, Relink.refl⟩
    simp
  | cons e O =>
    have he : e.1 ≠ d := fun q => s.laid.stop (by simp [q])
    cases R with
    | nil =>
      obtain ⟨h', q, r', s', rl⟩ := splice_two (A := A) (B := []) (P := []) (Q := []) (f := e) (M := O) r (by simpa using s)
        (by simpa using hd)
      refine ⟨h', ?_, by simpa [mergeSeq] using r', by simpa using s', rl.mono (by simp)⟩
      simp only [List.map_nil, posOf_nil, List.map_cons, posOf_cons, Prog.ite_app]
      rw [if_neg (by simp), if_pos he]
      simp only [Prog.bind_app, getNext_eq s.head, Res.bind_ok, s.next_head, List.map_cons, posOf_cons]
      simpa using q
    | cons i R =>
      have hi : i.1 ≠ c := fun q => r.laid.stop (by simp [q])
      obtain ⟨le, ve⟩ := s.data e (by simp)
      obtain ⟨li, vi⟩ := r.data i (by simp)
      simp only [List.map_cons, posOf_cons, Prog.ite_app]
      rw [if_pos ⟨he, hi⟩]
      simp only [Prog.bind_app, getVal_eq le ve, getVal_eq li vi, Res.bind_ok, Prog.ite_app]
      rw [mergeSeq]
      by_cases hlt : lt e.2 i.2 = true
      · rw [if_pos hlt, if_pos hlt]
        obtain ⟨h1, u, ib, nx, r1, s1, rl⟩ := move_ok r s hd
        have sep : ∀ x ∈ cells c (A ++ e :: i :: R), x ∉ cells d O := by
          intro x hx hx'
          have h1 := s.nodup
          have h2 := hd x
          simp only [cells, List.map_append, List.map_cons, List.mem_cons, List.mem_append, List.nodup_cons] at hx hx' h1 h2
          grind
        obtain ⟨h', q, r', s', rl'⟩ := ih (2 * O.length + (e :: i :: R).length) (by simp at hn ⊢; omega) rfl r1 s1 sep
        refine ⟨h', ?_, r', s', rl.trans (rl'.mono ?_)⟩
        · simp only [getNext_eq le, Res.bind_ok, u, ib, nx]
          exact q
        · intro x hx
          simp only [cells, List.map_append, List.map_cons, List.mem_cons, List.mem_append] at hx ⊢
          grind
      · rw [if_neg hlt, if_neg hlt]
        have hl : Links h c (A.map Prod.fst ++ i.1 :: R.map Prod.fst) := by have := r.links; simpa using this
        simp only [getNext_eq li, Res.bind_ok, hl.at_node.1]
        obtain ⟨h', q, r', s', rl'⟩ := ih (2 * (e :: O).length + R.length) (by simp at hn ⊢; omega) (A := A ++ [i]) rfl
          (by simpa using r) s (by simpa using hd)
        exact ⟨h', q, by simpa using r', s', by simpa using rl'⟩

theorem merge_ok {lt : T → T → Bool} {h : Heap T} {c d : Addr} {R O : List (Addr × T)} (r : Ring h c R) (s : Ring h d O)
    (hd : ∀ x ∈ cells c R, x ∉ cells d O) : ∃ h', merge c d lt h = .ok ((), h') ∧ Ring h' c (mergeSeq lt O R) ∧ Ring h' d [] ∧
      Relink (fun x => x ∈ cells c R ∨ x ∈ cells d O) h h' := by
  obtain ⟨h', q, r'⟩ := mergeLoop_ok (lt := lt) _ (A := []) rfl r s hd
  refine ⟨h', ?_, r'⟩
  unfold merge
  simp only [Prog.bind_app, getNext_eq r.head, getNext_eq s.head, Res.bind_ok, r.next_head, s.next_head]
  exact q

/-- Sorted: no element is less than an earlier one. -/
def SortedBy (lt : T → T → Bool) (es : List (Addr × T)) : Prop := es.Pairwise fun a b => lt b.2 a.2 = false

/-- If the other list is sorted, the loop computes the ordinary merge that prefers this list on ties. -/
theorem mergeSeq_eq_merge {lt : T → T → Bool} : ∀ (n : Nat) {O R : List (Addr × T)}, 2 * O.length + R.length = n → SortedBy lt O →
    mergeSeq lt O R = List.merge R O (fun r o => !lt o.2 r.2) := by
  intro n
  induction n using Nat.strongRecOn with
  | _ n ih =>
  intro O R hn hs
  cases O with
  | nil => rw [mergeSeq]; simp
  | cons e O =>
    cases R with
    | nil => rw [mergeSeq]; simp; simp
    | cons r R =>
      rw [mergeSeq]
      by_cases hlt : lt e.2 r.2 = true
      · rw [if_pos hlt]
        have hs' : SortedBy lt O := (List.pairwise_cons.1 hs).2
        simp only [List.length_cons] at hn
        rw [ih (2 * O.length + (R.length + 2)) (by omega) (by simp) hs']
        cases O with
        | nil => simp [List.cons_merge_cons, hlt]
        | cons o O =>
          have ho : lt o.2 e.2 = false := (List.pairwise_cons.1 hs).1 o (by simp)
          rw [List.cons_merge_cons]
          simp only [ho, Bool.not_false, if_true]
          rw [List.cons_merge_cons (a := r) (b := e)]
          simp only [hlt, Bool.not_true, Bool.false_eq_true, if_false]
      · rw [if_neg hlt]
        simp only [List.length_cons] at hn
        rw [ih (2 * (O.length + 1) + R.length) (by omega) (by simp) hs]
        rw [List.cons_merge_cons]
        simp [hlt]

end Verif.Seq.DList
