import Verif.Seq.ListModel
/-!
# Doubly linked chains

`Chain h l`: consecutive addresses of `l` are linked both ways. A chain may be cut between two nodes and the
pieces put together differently: only the `next` of last nodes and the `prev` of first nodes matter then.
-/
set_option linter.unusedVariables false
set_option linter.unusedSimpArgs false
namespace Verif.Seq.DList
open Verif Verif.Seq
variable {T : Type}

/-- Consecutive addresses are linked both ways. -/
def Chain (h : Heap T) : List Addr → Prop
  | [] => True
  | [_] => True
  | a :: b :: l => h.next a = b ∧ h.prev b = a ∧ Chain h (b :: l)

theorem Chain.glue {h : Heap T} : ∀ {X : List Addr} {a p : Addr} {Y : List Addr},
    Chain h (X ++ a :: p :: Y) ↔ Chain h (X ++ [a]) ∧ h.next a = p ∧ h.prev p = a ∧ Chain h (p :: Y)
  | [], a, p, Y => by simp [Chain]
  | [x], a, p, Y => by simp [Chain]; grind
  | x :: y :: X, a, p, Y => by
    have := Chain.glue (h := h) (X := y :: X) (a := a) (p := p) (Y := Y)
    simp only [List.cons_append, Chain] at this ⊢
    rw [this]; grind

theorem Chain.congr {h h' : Heap T} : ∀ {l : List Addr}, Chain h l → (∀ x ∈ l.dropLast, h'.next x = h.next x) →
    (∀ x ∈ l.tail, h'.prev x = h.prev x) → Chain h' l
  | [], _, _, _ => trivial
  | [_], _, _, _ => trivial
  | a :: b :: l, c, hn, hp => by
    obtain ⟨h1, h2, h3⟩ := c
    refine ⟨by rw [hn a (by simp)]; exact h1, by rw [hp b (by simp)]; exact h2, ?_⟩
    exact Chain.congr h3 (fun x hx => hn x (by simp [hx])) (fun x hx => hp x (by simp at hx ⊢; exact .inr hx))

/-- The ring of a list: header `c`, then the nodes `ns`, then the header again. -/
def Links (h : Heap T) (c : Addr) (ns : List Addr) : Prop := Chain h (c :: (ns ++ [c]))

/-- The iterator in front of which the nodes `A` and behind which the nodes `B` are. -/
def posOf (c : Addr) (B : List Addr) : Addr := B.headD c

@[simp] theorem posOf_nil (c : Addr) : posOf c [] = c := rfl
@[simp] theorem posOf_cons (c b : Addr) (B : List Addr) : posOf c (b :: B) = b := rfl

/-- Cutting a ring: the piece up to `a` and the piece from `p`. -/
structure Cut (c : Addr) (A B X : List Addr) (a p : Addr) (Y : List Addr) : Prop where
  left : c :: A = X ++ [a]
  right : B ++ [c] = p :: Y
  pos : p = posOf c B

theorem exists_cut (c : Addr) (A B : List Addr) : ∃ X a p Y, Cut c A B X a p Y := by
  have h1 : ∃ X a, c :: A = X ++ [a] := by
    rcases List.eq_nil_or_concat (c :: A) with h | ⟨X, a, h⟩
    · cases h
    · exact ⟨X, a, by simpa using h⟩
  obtain ⟨X, a, h1⟩ := h1
  cases B with
  | nil => exact ⟨X, a, c, [], h1, rfl, rfl⟩
  | cons b B => exact ⟨X, a, b, B ++ [c], h1, rfl, rfl⟩

theorem Cut.ring {c A B X a p Y} (k : Cut c A B X a p Y) : c :: ((A ++ B) ++ [c]) = X ++ a :: p :: Y := by
  have : c :: ((A ++ B) ++ [c]) = (c :: A) ++ (B ++ [c]) := by simp
  rw [this, k.left, k.right]; simp

theorem Cut.links {h : Heap T} {c A B X a p Y} (k : Cut c A B X a p Y) : Links h c (A ++ B) ↔
    Chain h (X ++ [a]) ∧ h.next a = p ∧ h.prev p = a ∧ Chain h (p :: Y) := by
  unfold Links; rw [k.ring, Chain.glue]

theorem Cut.dropLast_right {c A B X a p Y} (k : Cut c A B X a p Y) : (p :: Y).dropLast = B := by
  rw [← k.right]; simp

theorem Cut.tail_left {c A B X a p Y} (k : Cut c A B X a p Y) : (X ++ [a]).tail = A := by
  rw [← k.left]; rfl

theorem Cut.mem_a {c A B X a p Y} (k : Cut c A B X a p Y) : a ∈ c :: A := by rw [k.left]; simp
theorem Cut.mem_p {c A B X a p Y} (k : Cut c A B X a p Y) : p ∈ B ++ [c] := by rw [k.right]; simp

/-- Facts about distinctness that survive the cut. -/
structure Cut.Nd (c : Addr) (A B X : List Addr) (a p : Addr) (Y : List Addr) : Prop where
  aX : a ∉ X
  aB : a ∉ B
  pA : p ∉ A
  pY : p ∉ Y

theorem Cut.nd {c A B X a p Y} (k : Cut c A B X a p Y) (hn : (c :: (A ++ B)).Nodup) : Cut.Nd c A B X a p Y := by
  have e1 : ((X ++ [a]) ++ B).Nodup := by rw [← k.left]; simpa using hn
  have e2 : (A ++ (p :: Y)).Nodup := by
    rw [← k.right]
    simp only [List.nodup_cons, List.mem_append, List.nodup_append] at hn ⊢
    grind
  simp only [List.nodup_append, List.nodup_cons, List.mem_append, List.mem_cons] at e1 e2
  refine ⟨?_, ?_, ?_, ?_⟩ <;> grind

/-! ## The pointer surgery of `list_node` on rings -/

/-- Memory after `p->insert_before(n)`. -/
def insB (h : Heap T) (p n : Addr) : Heap T :=
  { h with next := upd (upd h.next (h.prev p) n) n p, prev := upd (upd h.prev n (h.prev p)) p n }

theorem insertBefore_eq {h : Heap T} {p n : Addr} (lp : h.live p = true) (lq : h.live (h.prev p) = true)
    (ln : h.live n = true) : insertBefore p n h = .ok (n, insB h p n) := by
  unfold insertBefore
  simp only [Prog.bind_app, getPrev_eq lp, Res.bind_ok, setNext_eq lq]
  simp only [Prog.bind_app, setNext, setPrev, getPrev, lp, ln, if_true, Res.bind_ok, Prog.pure_app]
  rfl

theorem insB_links {h : Heap T} {c : Addr} {A B : List Addr} {n : Addr} (hl : Links h c (A ++ B))
    (hn : (c :: (A ++ B)).Nodup) (nn : n ∉ c :: (A ++ B)) :
    Links (insB h (posOf c B) n) c (A ++ n :: B) := by
  obtain ⟨X, a, p, Y, k⟩ := exists_cut c A B
  have nd := k.nd hn
  rw [← k.pos]
  obtain ⟨c1, e1, e2, c2⟩ := k.links.1 hl
  have nL : n ∉ X ++ [a] := by rw [← k.left]; grind
  have nR : n ∉ p :: Y := by rw [← k.right]; grind
  have hring : c :: ((A ++ n :: B) ++ [c]) = X ++ a :: n :: (p :: Y) := by
    have : c :: ((A ++ n :: B) ++ [c]) = (c :: A) ++ n :: (B ++ [c]) := by simp
    rw [this, k.left, k.right]; simp
  unfold Links; rw [hring, Chain.glue]
  have dl := k.dropLast_right
  have tl := k.tail_left
  refine ⟨c1.congr ?_ ?_, ?_, ?_, ?_, ?_, c2.congr ?_ ?_⟩
  · intro x hx; simp only [List.dropLast_concat] at hx; simp only [insB, e2, upd]; have := nd.aX; grind
  · intro x hx; rw [tl] at hx; simp only [insB, e2, upd]; have := nd.pA; grind
  · simp only [insB, e2, upd]; grind
  · simp only [insB, e2, upd]; grind
  · simp [insB]
  · simp [insB]
  · intro x hx; rw [dl] at hx; simp only [insB, e2, upd]; have := nd.aB; grind
  · intro x hx; simp only [List.tail_cons] at hx; simp only [insB, e2, upd]; have := nd.pY; grind

/-- The node before a position is a node of the ring. -/
theorem Links.prev_pos {h : Heap T} {c : Addr} {A B : List Addr} (hl : Links h c (A ++ B)) :
    h.prev (posOf c B) ∈ c :: A := by
  obtain ⟨X, a, p, Y, k⟩ := exists_cut c A B
  obtain ⟨c1, e1, e2, c2⟩ := k.links.1 hl
  rw [← k.pos, e2]; exact k.mem_a

theorem Links.next_head {h : Heap T} {c : Addr} {ns : List Addr} (hl : Links h c ns) : h.next c = posOf c ns := by
  cases ns <;> exact hl.1

/-- Memory after `x->unlink()`. -/
def unl (h : Heap T) (x : Addr) : Heap T :=
  { h with prev := upd h.prev (h.next x) (h.prev x), next := upd h.next (h.prev x) (h.next x) }

theorem unlink_eq {h : Heap T} {x : Addr} (lx : h.live x = true) (ln : h.live (h.next x) = true)
    (lp : h.live (h.prev x) = true) (hx : h.next x ≠ x) : unlink x h = .ok ((), unl h x) := by
  unfold unlink
  simp only [Prog.bind_app, getNext_eq lx, getPrev_eq lx, Res.bind_ok, setPrev_eq ln]
  simp only [Prog.bind_app, setNext, getPrev, getNext, lx, if_true, Res.bind_ok]
  rw [upd_other _ _ (Ne.symm hx), if_pos lp]
  rfl

theorem Links.at_node {h : Heap T} {c x : Addr} {A B : List Addr} (hl : Links h c (A ++ x :: B)) :
    h.next x = posOf c B ∧ h.prev x ∈ c :: A := by
  constructor
  · have := hl
    unfold Links at this
    have e : c :: ((A ++ x :: B) ++ [c]) = (c :: A) ++ x :: (B ++ [c]) := by simp
    rw [e] at this
    cases B with
    | nil => exact (Chain.glue.1 this).2.1
    | cons b B => exact (Chain.glue.1 this).2.1
  · have := hl.prev_pos (A := A) (B := x :: B); exact this

theorem unl_links {h : Heap T} {c x : Addr} {A B : List Addr} (hl : Links h c (A ++ x :: B))
    (hn : (c :: (A ++ x :: B)).Nodup) : Links (unl h x) c (A ++ B) := by
  have hn' : (c :: (A ++ B)).Nodup := by
    simp only [List.nodup_cons, List.mem_append, List.nodup_append, List.mem_cons] at hn ⊢; grind
  obtain ⟨X, a, p, Y, k⟩ := exists_cut c A B
  have nd := k.nd hn'
  have hring : c :: ((A ++ x :: B) ++ [c]) = X ++ a :: x :: (p :: Y) := by
    have : c :: ((A ++ x :: B) ++ [c]) = (c :: A) ++ x :: (B ++ [c]) := by simp
    rw [this, k.left, k.right]; simp
  unfold Links at hl
  rw [hring, Chain.glue] at hl
  obtain ⟨c1, e1, e2, e3, e4, c2⟩ := hl
  rw [k.links]
  have dl := k.dropLast_right
  have tl := k.tail_left
  refine ⟨c1.congr ?_ ?_, ?_, ?_, c2.congr ?_ ?_⟩
  · intro y hy; simp only [List.dropLast_concat] at hy; simp only [unl, e2, e3, upd]; have := nd.aX; grind
  · intro y hy; rw [tl] at hy; simp only [unl, e2, e3, upd]; have := nd.pA; grind
  · simp [unl, e2, e3]
  · simp [unl, e2, e3]
  · intro y hy; rw [dl] at hy; simp only [unl, e2, e3, upd]; have := nd.aB; grind
  · intro y hy; simp only [List.tail_cons] at hy; simp only [unl, e2, e3, upd]; have := nd.pY; grind

end Verif.Seq.DList
