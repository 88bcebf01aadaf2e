import Verif.Seq.FwdApi
import Verif.Seq.SWorld
/-!
# `ttl::forward_list`: every legal call does what the specification says
-/
set_option linter.unusedVariables false
set_option linter.unusedSimpArgs false
namespace Verif.Seq
open Verif
open Verif.Seq.DList (Arg fresh insertAt slice cut Blank Relink split_at split_elem posOf posOf_cons posOf_nil)
variable {T : Type}

/-- A header is made. -/
theorem newHead_ok {h : Heap T} (w : Wf h) : ∃ h', (do let c ← newRaw; setNext c 0; pure c : Prog (Heap T) Addr) h = .ok (h.fresh, h') ∧
    Slist h' h.fresh ([] : List (Addr × T)) ∧ Effect (fun _ => False) (· ∈ scells h.fresh ([] : List (Addr × T))) h h' ∧
    h'.fresh = h.fresh + 1 ∧ h'.tail = h.tail := by
  have n0 : (0 : Nat) ≠ h.fresh := Nat.ne_of_lt w.pos
  refine ⟨{ h with next := upd h.next h.fresh 0, val := upd h.val h.fresh none, live := upd h.live h.fresh true, fresh := h.fresh + 1 }, ?_, ⟨by simp, by simp, by simp [Path], by simp, by simp⟩, ⟨?_, ?_, ?_, ?_, ⟨?_, ?_, ?_⟩, ?_⟩, rfl, rfl⟩
  · simp only [Prog.bind_app, newRaw_eq, Res.bind_ok, setNext, upd_same, if_true, Prog.pure_app]
  · intro x _ hx l
    have q1 : x ≠ h.fresh := fun q => hx (by simp [scells, q])
    constructor <;> simp [upd, q1]
  · intro x _ hx l
    have q1 : x ≠ h.fresh := fun q => hx (by simp [scells, q])
    simpa [upd, q1] using l
  · intro x _ hx
    simp only [scells, List.map_nil, List.mem_singleton] at hx
    subst hx; exact w.fresh_dead (Nat.le_refl _)
  · intro x hx; exact absurd hx (by simp)
  · show 0 < h.fresh + 1; omega
  · show upd h.live h.fresh true 0 = false
    rw [upd_other _ _ n0]; exact w.null
  · intro x l
    change upd h.live h.fresh true x = true at l
    show x < h.fresh + 1
    by_cases q : x = h.fresh
    · rw [q]; exact Nat.lt_succ_self _
    · rw [upd_other _ _ q] at l; exact Nat.lt_succ_of_lt (w.used x l)
  · exact Nat.le_succ _

theorem freeHead_ok {h : Heap T} {c : Addr} (w : Wf h) (l : h.live c = true) : ∃ h', freeRaw c h = .ok ((), h') ∧
    Effect (· ∈ scells c ([] : List (Addr × T))) (fun _ => False) h h' ∧ h'.fresh = h.fresh := DList.freeRaw_ok w l

/-- `*it = v` on an element. -/
theorem store_ok {h : Heap T} {c : Addr} {es : List (Addr × T)} (w : Wf h) (r : Slist h c es) {i : Nat} (hi : i < es.length) (v : T) :
    ∃ h', (do setVal (← SList.posAt c (i + 1)) v : Prog (Heap T) Unit) h = .ok ((), h') ∧ Slist h' c (es.modify i fun e => (e.1, v)) ∧
      Effect (· ∈ scells c es) (· ∈ scells c (es.modify i fun e => (e.1, v))) h h' ∧ h'.fresh = h.fresh ∧ h'.tail = h.tail := by
  have he := r.data es[i] (List.getElem_mem hi)
  have hf : (es.modify i fun e => (e.1, v)).map Prod.fst = es.map Prod.fst := by
    apply List.ext_getElem
    · simp
    · intro n h1 h2
      simp only [List.getElem_map, List.getElem_modify]
      split <;> rfl
  have inj : ∀ {m : Nat} (hm : m < es.length), es[m].1 = es[i].1 → m = i := by
    intro m hm q
    have nd := (List.nodup_cons.1 r.nodup).2
    exact (List.getElem_inj (h₀ := by simpa using hm) (h₁ := by simpa using hi) nd).1 (by simpa using q)
  have hcv : c ≠ es[i].1 := fun q => (List.nodup_cons.1 r.nodup).1 (by rw [q]; exact List.mem_map_of_mem (List.getElem_mem hi))
  refine ⟨{ h with val := upd h.val es[i].1 (some v) }, ?_, ?_, ?_, rfl, rfl⟩
  · simp only [Prog.bind_app, r.posAt_elem (Nat.le_of_lt hi), Res.bind_ok]
    rw [List.drop_eq_getElem_cons hi, List.map_cons, posOf_cons]
    exact setVal_eq he.1 he.2 v
  · refine ⟨r.head, ?_, ?_, by rw [hf]; exact r.nodup, ?_⟩
    · show upd h.val es[i].1 (some v) c = none
      rw [upd_other _ _ hcv]; exact r.bare
    · rw [hf]; exact r.path.congr (fun _ _ => rfl)
    · intro e hm
      obtain ⟨n, hn, rfl⟩ := List.getElem_of_mem hm
      have hn' : n < es.length := by simpa using hn
      simp only [List.getElem_modify]
      by_cases q : i = n
      · subst q; simp; exact he.1
      · simp only [q, if_false]
        refine ⟨(r.data _ (List.getElem_mem hn')).1, ?_⟩
        show upd h.val es[i].1 (some v) es[n].1 = _
        rw [upd_other _ _ (fun w => q (inj hn' w).symm)]
        exact (r.data _ (List.getElem_mem hn')).2
  · have : ∀ x, (x ∈ scells c (es.modify i fun e => (e.1, v))) ↔ x ∈ scells c es := by intro x; simp only [scells, hf]
    refine Effect.congr (C := (· ∈ scells c es)) (C' := (· ∈ scells c es)) ?_ (fun _ => Iff.rfl) (fun x => (this x).symm)
    refine ⟨?_, fun _ _ _ l => l, fun _ a b => absurd b a, fun _ a b => absurd a b, ⟨w.pos, w.null, w.used⟩, Nat.le_refl _⟩
    intro x hx _ _
    refine ⟨rfl, rfl, rfl, ?_, rfl⟩
    refine upd_other _ _ (fun q => hx ?_)
    rw [q]; simp only [scells, List.mem_cons]; exact .inr (List.mem_map_of_mem (List.getElem_mem hi))

/-! ## Indexed forms of the operations on one chain -/
section
variable {h : Heap T} {c : Addr} {es : List (Addr × T)}

theorem insertAt_eq {α : Type} (i : Nat) (xs es : List α) : insertAt i xs es = es.take i ++ (xs ++ es.drop i) := rfl

theorem insertVals_at (w : Wf h) (r : Slist h c es) {i : Nat} (hi : i ≤ es.length) (vs : List T) :
    ∃ h', SList.insertVals (lastOf c ((es.take i).map Prod.fst)) vs h =
        .ok (lastOf c ((es.take i ++ fresh h.fresh vs).map Prod.fst), h') ∧ Slist h' c (insertAt i (fresh h.fresh vs) es) ∧
      Effect (· ∈ scells c es) (· ∈ scells c (insertAt i (fresh h.fresh vs) es)) h h' ∧ h'.fresh = h.fresh + vs.length ∧ h'.tail = h.tail := by
  have := insertVals_ok vs (A := es.take i) (B := es.drop i) w (by simpa using r)
  simp only [List.take_append_drop] at this
  exact this

theorem insertN_at (w : Wf h) (r : Slist h c es) {i : Nat} (hi : i ≤ es.length) {value : Arg T} {v : T} (rd : Readable h v value) (n : Nat) :
    SList.insertN (lastOf c ((es.take i).map Prod.fst)) n value h =
      SList.insertVals (lastOf c ((es.take i).map Prod.fst)) (List.replicate n v) h :=
  insertN_ok n (A := es.take i) (B := es.drop i) w (by simpa using r) rd

theorem insertNodes_at (w : Wf h) (r : Slist h c es) {i : Nat} (hi : i ≤ es.length) {d : Addr} {fs : List (Addr × T)} (s : Slist h d fs)
    (dj : ∀ x ∈ scells d fs, x ∉ scells c es) :
    ∃ h', (do SList.insertNodes (lastOf c ((es.take i).map Prod.fst)) (← getNext d) 0 : Prog (Heap T) Addr) h =
        .ok (lastOf c ((es.take i ++ fresh h.fresh (fs.map Prod.snd)).map Prod.fst), h') ∧
      Slist h' c (insertAt i (fresh h.fresh (fs.map Prod.snd)) es) ∧
      Effect (· ∈ scells c es) (· ∈ scells c (insertAt i (fresh h.fresh (fs.map Prod.snd)) es)) h h' ∧
      h'.fresh = h.fresh + fs.length ∧ h'.tail = h.tail := by
  have := insertNodes_ok fs (A := es.take i) (B := es.drop i) w (by simpa using r) (s.laid w) s.head (by
    simp only [List.take_append_drop]; exact dj)
  simp only [List.take_append_drop] at this
  simp only [Prog.bind_app, getNext_eq s.head, Res.bind_ok, s.next_head]
  exact this

theorem delNext_at (w : Wf h) (r : Slist h c es) {i : Nat} (hi : i < es.length) :
    ∃ h', SNode.unlinkNext (lastOf c ((es.take i).map Prod.fst)) h = .ok (es[i].1, unlA h (lastOf c ((es.take i).map Prod.fst))) ∧
      delete es[i].1 (unlA h (lastOf c ((es.take i).map Prod.fst))) = .ok ((), h') ∧
      Slist h' c (es.eraseIdx i) ∧ Effect (· ∈ scells c es) (· ∈ scells c (es.eraseIdx i)) h h' ∧
      h'.fresh = h.fresh ∧ h'.tail = h.tail ∧ h'.live es[i].1 = false ∧ (∀ x, x ≠ es[i].1 → h'.live x = h.live x) := by
  have sp := split_elem hi
  have := delNext_ok (A := es.take i) (B := es.drop (i + 1)) (e := es[i]) w (by rw [← sp]; exact r)
  rw [← sp, ← List.eraseIdx_eq_take_drop_succ] at this
  exact this

theorem slice_split {α : Type} (es : List α) {i j : Nat} (hij : i ≤ j) : es = es.take i ++ (slice i j es ++ es.drop j) := by
  have : es.drop j = (es.drop i).drop (j - i) := by rw [List.drop_drop]; congr 1; omega
  unfold slice
  rw [this, List.take_append_drop, List.take_append_drop]

theorem eraseLoop_at (w : Wf h) (r : Slist h c es) {i j : Nat} (hij : i ≤ j) (hj : j ≤ es.length) :
    ∃ h', SList.eraseLoop (lastOf c ((es.take i).map Prod.fst)) (posOf 0 ((es.drop j).map Prod.fst)) h = .ok ((), h') ∧
      Slist h' c (cut i j es) ∧ Effect (· ∈ scells c es) (· ∈ scells c (cut i j es)) h h' ∧ h'.fresh = h.fresh ∧ h'.tail = h.tail ∧
      (∀ x ∈ (slice i j es).map Prod.fst, h'.live x = false) := by
  have sp := slice_split es hij
  have := eraseLoop_ok (slice i j es) (A := es.take i) (B := es.drop j) w (by rw [← sp]; exact r)
  rw [← sp] at this
  exact this

end
end Verif.Seq
