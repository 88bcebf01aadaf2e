import Verif.Exc.SeqFrame
/-!
# Storage lost by a constructor that throws
-/
set_option linter.unusedVariables false
namespace Verif.Exc.XSeq
open Verif Verif.Seq Verif.Exc
variable {T : Type} {h t m : Heap T} {L : Addr → Bool}

/-- The storage that a call took and that is still in use: in use after (`t`), not before (`h`). -/
def newly (h t : Heap T) : Addr → Bool := fun x => t.live x && !h.live x

/-- With what a call took also left out, a call that only took storage is a step of the rest of the program. -/
theorem env_newly (s : ∀ x, h.live x = true → Same h t x) (w : Wf t) : Env (without h L) (without t fun x => L x || newly h t x) := by
  refine ⟨fun x l => ?_, fun x l => ?_, ⟨w.pos, by simp [without, w.null], fun x l => w.used x (without_live.1 l).2⟩⟩
  · obtain ⟨l1, l2⟩ := without_live.1 l
    have q := s x l2
    refine ⟨q.next, q.prev, q.tail, q.val, ?_⟩
    simp only [without, newly, l1, l2, q.live]; rfl
  · simp only [without, newly] at l ⊢
    cases q : L x with
    | true => rfl
    | false =>
      have l : h.live x = false := by simpa [q] using l
      rw [l]
      cases t.live x <;> rfl

/-- A memory is well-formed if it is so without cells `L` that were in use before and are unchanged. -/
theorem wf_with (w : Wf h) (hL : ∀ x, L x = true → h.live x = true) (f : h.fresh ≤ t.fresh) (s : ∀ x, L x = true → Same h t x) (w' : Wf (without t L)) :
    Wf t := by
  refine ⟨w'.pos, ?_, fun x l => ?_⟩
  · cases q : L 0 with
    | true => rw [(s 0 q).live]; exact w.null
    | false => have := w'.null; rwa [live_without q] at this
  · cases q : L x with
    | true => exact Nat.lt_of_lt_of_le (w.used x (hL x q)) f
    | false => exact w'.used x (by rw [live_without q]; exact l)

/-- Two programs that do the same without the cells `L` do the same with them. -/
theorem FramedT.agree {α : Type} {x y : Thr (Heap T) α} (hx : FramedT x) (hy : FramedT y) (hL : ∀ a, L a = true → a < h.fresh) {k : Nat} {o : Out α}
    (e : x k (without h L) = .ok (o, m)) (f : y k (without h L) = .ok (o, m)) : x k h = y k h := by
  obtain ⟨h1, q1, e1, _, s1⟩ := (hx k).out L h hL _ _ e
  obtain ⟨h2, q2, e2, _, s2⟩ := (hy k).out L h hL _ _ f
  have : h2 = h1 := eq_of (L := L) (e2.trans e1.symm) fun a l => by
    have u := s1 a l
    have v := s2 a l
    exact ⟨v.next.trans u.next.symm, v.prev.trans u.prev.symm, v.tail.trans u.tail.symm, v.val.trans u.val.symm, v.live.trans u.live.symm⟩
  rw [q1, q2, this]

end Verif.Exc.XSeq
