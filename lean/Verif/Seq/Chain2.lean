import Verif.Seq.Chain
import Verif.Seq.Path
/-!
# Splicing, swapping and reversing rings
-/
set_option linter.unusedVariables false
set_option linter.unusedSimpArgs false
namespace Verif.Seq.DList
open Verif Verif.Seq
variable {T : Type}

/-- A non-empty block of nodes with its first and last node. -/
structure Block (M : List Addr) (f : Addr) (M' M0 : List Addr) (m : Addr) : Prop where
  first : M = f :: M'
  last : M = M0 ++ [m]

theorem exists_block {M : List Addr} (hM : M ≠ []) : ∃ f M' M0 m, Block M f M' M0 m := by
  rcases List.eq_nil_or_concat M with h | ⟨M0, m, h⟩
  · exact absurd h hM
  · cases M with
    | nil => exact absurd rfl hM
    | cons f M' => exact ⟨f, M', M0, m, rfl, by simpa using h⟩

theorem Block.dropLast {M f M' M0 m} (b : Block M f M' M0 m) : M.dropLast = M0 := by rw [b.last]; simp
theorem Block.tail {M f M' M0 m} (b : Block M f M' M0 m) : M.tail = M' := by rw [b.first]; rfl
theorem Block.mem_f {M f M' M0 m} (b : Block M f M' M0 m) : f ∈ M := by rw [b.first]; simp
theorem Block.mem_m {M f M' M0 m} (b : Block M f M' M0 m) : m ∈ M := by rw [b.last]; simp
theorem Block.nd {M f M' M0 m} (b : Block M f M' M0 m) (hn : M.Nodup) : f ∉ M' ∧ m ∉ M0 := by
  constructor
  · rw [b.first] at hn; exact (List.nodup_cons.1 hn).1
  · rw [b.last] at hn; simp [List.nodup_append] at hn; grind

/-- A chain with a block in the middle. -/
theorem Chain.glue_block {h : Heap T} {X : List Addr} {a : Addr} {M f M' M0 m} (b : Block M f M' M0 m) {p : Addr}
    {Y : List Addr} : Chain h (X ++ a :: (M ++ p :: Y)) ↔ Chain h (X ++ [a]) ∧ (h.next a = f ∧ h.prev f = a) ∧
      Chain h M ∧ (h.next m = p ∧ h.prev p = m) ∧ Chain h (p :: Y) := by
  have e : X ++ a :: (M ++ p :: Y) = X ++ a :: f :: (M' ++ p :: Y) := by rw [b.first]; simp
  have e2 : f :: (M' ++ p :: Y) = M0 ++ m :: p :: Y := by
    have : f :: (M' ++ p :: Y) = M ++ p :: Y := by rw [b.first]; simp
    rw [this, b.last]; simp
  rw [e, Chain.glue, e2, Chain.glue, ← b.last]
  grind

theorem Cut.links_mid {h : Heap T} {c P Q X q l Y} (k : Cut c P Q X q l Y) {M f M' M0 m} (b : Block M f M' M0 m) :
    Links h c (P ++ (M ++ Q)) ↔ Chain h (X ++ [q]) ∧ (h.next q = f ∧ h.prev f = q) ∧
      Chain h M ∧ (h.next m = l ∧ h.prev l = m) ∧ Chain h (l :: Y) := by
  have : c :: ((P ++ (M ++ Q)) ++ [c]) = X ++ q :: (M ++ l :: Y) := by
    have : c :: ((P ++ (M ++ Q)) ++ [c]) = (c :: P) ++ M ++ (Q ++ [c]) := by simp
    rw [this, k.left, k.right]; simp
  unfold Links; rw [this, Chain.glue_block b]

/-- A ring with two blocks in the middle. -/
theorem Cut.links_mid2 {h : Heap T} {c P Q X q l Y} (k : Cut c P Q X q l Y) {M f M' M0 m} (b : Block M f M' M0 m)
    {N g N' N0 n} (b2 : Block N g N' N0 n) :
    Links h c (P ++ (M ++ (N ++ Q))) ↔ Chain h (X ++ [q]) ∧ (h.next q = f ∧ h.prev f = q) ∧
      Chain h M ∧ (h.next m = g ∧ h.prev g = m) ∧ Chain h N ∧ (h.next n = l ∧ h.prev l = n) ∧ Chain h (l :: Y) := by
  have e0 : c :: ((P ++ (M ++ (N ++ Q))) ++ [c]) = X ++ q :: (M ++ g :: (N' ++ l :: Y)) := by
    have : c :: ((P ++ (M ++ (N ++ Q))) ++ [c]) = (c :: P) ++ M ++ N ++ (Q ++ [c]) := by simp
    rw [this, k.left, k.right, b2.first]; simp
  have e1 : g :: (N' ++ l :: Y) = N0 ++ n :: l :: Y := by
    have : g :: (N' ++ l :: Y) = N ++ l :: Y := by rw [b2.first]; simp
    rw [this, b2.last]; simp
  unfold Links; rw [e0, Chain.glue_block b, e1, Chain.glue, ← b2.last]
  grind

/-- Memory after `p->splice(f, l)`. -/
def spl (h : Heap T) (p f l : Addr) : Heap T :=
  { h with
    next := upd (upd (upd h.next (h.prev l) p) (h.prev f) l) (h.prev p) f
    prev := upd (upd (upd h.prev p (h.prev l)) l (h.prev f)) f (h.prev p) }

theorem nodeSplice_eq {h : Heap T} {p f l : Addr} (lp : h.live p = true) (lf : h.live f = true) (ll : h.live l = true)
    (lp' : h.live (h.prev p) = true) (lf' : h.live (h.prev f) = true) (ll' : h.live (h.prev l) = true)
    (hpf : f ≠ p) : nodeSplice p f l h = .ok ((), spl h p f l) := by
  unfold nodeSplice
  simp only [Prog.bind_app, getPrev, setNext, setPrev, lp, lf, ll, lp', lf', ll', if_true, Res.bind_ok]
  rw [upd_other _ _ hpf]
  rfl

theorem spl_links_two {h : Heap T} {c d : Addr} {A B P M Q : List Addr} {f : Addr} {M' : List Addr}
    (h1 : Links h c (A ++ B)) (h2 : Links h d (P ++ (M ++ Q))) (hM : M = f :: M')
    (hn : ((c :: (A ++ B)) ++ (d :: (P ++ (M ++ Q)))).Nodup) :
    Links (spl h (posOf c B) f (posOf d Q)) c (A ++ (M ++ B)) ∧
      Links (spl h (posOf c B) f (posOf d Q)) d (P ++ Q) := by
  obtain ⟨X, a, p, Y, k⟩ := exists_cut c A B
  obtain ⟨X2, q, l, Y2, k2⟩ := exists_cut d P Q
  obtain ⟨f', M', M0, m, b⟩ := exists_block (M := M) (by rw [hM]; simp)
  have hff : f' = f := by have := b.first; rw [hM] at this; simp at this; exact this.1.symm
  subst hff
  rw [← k.pos, ← k2.pos, k.links_mid b, k2.links]
  obtain ⟨c1, e1, e2, c2⟩ := k.links.1 h1
  obtain ⟨d1, ⟨e3, e4⟩, d2, ⟨e5, e6⟩, d3⟩ := (k2.links_mid b).1 h2
  have nd1 := k.nd (by simp only [List.nodup_append] at hn; exact hn.1)
  have nd2 := k2.nd (by simp only [List.nodup_append, List.nodup_cons, List.mem_append] at hn ⊢; grind)
  have nd3 := b.nd (by simp only [List.nodup_append, List.nodup_cons, List.mem_append] at hn ⊢; grind)
  have s : ∀ x, x ∈ c :: (A ++ B) → x ∉ d :: (P ++ (M ++ Q)) := by
    simp only [List.nodup_append] at hn; intro x hx hx'; exact hn.2.2 x hx x hx' rfl
  have sM : ∀ x, x ∈ M → x ∉ d :: (P ++ Q) := by
    simp only [List.nodup_append, List.nodup_cons, List.mem_append] at hn; grind
  have ma := k.mem_a; have mp := k.mem_p; have mq := k2.mem_a; have ml := k2.mem_p; have mf := b.mem_f; have mm := b.mem_m
  have dl := k.dropLast_right; have tl := k.tail_left; have dl2 := k2.dropLast_right; have tl2 := k2.tail_left
  have dM := b.dropLast; have tM := b.tail
  have lX : ∀ x ∈ X, x ∈ c :: A := by intro x hx; rw [k.left]; simp [hx]
  have lX2 : ∀ x ∈ X2, x ∈ d :: P := by intro x hx; rw [k2.left]; simp [hx]
  have lY : ∀ x ∈ Y, x ∈ B ++ [c] := by intro x hx; rw [k.right]; simp [hx]
  have lY2 : ∀ x ∈ Y2, x ∈ Q ++ [d] := by intro x hx; rw [k2.right]; simp [hx]
  have lM0 : ∀ x ∈ M0, x ∈ M := by intro x hx; rw [b.last]; simp [hx]
  have lM' : ∀ x ∈ M', x ∈ M := by intro x hx; rw [b.first]; simp [hx]
  obtain ⟨n1, n2, n3, n4⟩ := nd1
  obtain ⟨n5, n6, n7, n8⟩ := nd2
  obtain ⟨n9, n10⟩ := nd3
  clear hn h1 h2 k k2 b
  simp only [List.mem_append, List.mem_cons, List.mem_nil_iff, or_false] at *
  refine ⟨⟨c1.congr ?_ ?_, ⟨?_, ?_⟩, d2.congr ?_ ?_, ⟨?_, ?_⟩, c2.congr ?_ ?_⟩, d1.congr ?_ ?_, ?_, ?_, d3.congr ?_ ?_⟩
  · intro x hx; simp only [List.dropLast_concat] at hx; simp only [spl, e2, e4, e6, upd]; grind
  · intro x hx; rw [tl] at hx; simp only [spl, e2, e4, e6, upd]; grind
  · simp only [spl, e2, e4, e6, upd]; grind
  · simp only [spl, e2, e4, e6, upd]; grind
  · intro x hx; rw [dM] at hx; simp only [spl, e2, e4, e6, upd]; grind
  · intro x hx; rw [tM] at hx; simp only [spl, e2, e4, e6, upd]; grind
  · simp only [spl, e2, e4, e6, upd]; grind
  · simp only [spl, e2, e4, e6, upd]; grind
  · intro x hx; rw [dl] at hx; simp only [spl, e2, e4, e6, upd]; grind
  · intro x hx; simp only [List.tail_cons] at hx; simp only [spl, e2, e4, e6, upd]; grind
  · intro x hx; simp only [List.dropLast_concat] at hx; simp only [spl, e2, e4, e6, upd]; grind
  · intro x hx; rw [tl2] at hx; simp only [spl, e2, e4, e6, upd]; grind
  · simp only [spl, e2, e4, e6, upd]; grind
  · simp only [spl, e2, e4, e6, upd]; grind
  · intro x hx; rw [dl2] at hx; simp only [spl, e2, e4, e6, upd]; grind
  · intro x hx; simp only [List.tail_cons] at hx; simp only [spl, e2, e4, e6, upd]; grind

/-- Splicing within one list exchanges two adjacent blocks: the spliced block `M` lies before the block `N`
that ends at the position ... -/
theorem spl_links_right {h : Heap T} {c : Addr} {A M N B : List Addr} {f : Addr} {M' : List Addr} {g : Addr} {N' : List Addr}
    (h1 : Links h c (A ++ (M ++ (N ++ B)))) (hM : M = f :: M') (hN : N = g :: N')
    (hn : (c :: (A ++ (M ++ (N ++ B)))).Nodup) : Links (spl h (posOf c B) f g) c (A ++ (N ++ (M ++ B))) := by
  obtain ⟨X, a, p, Y, k⟩ := exists_cut c A B
  obtain ⟨f', M', M0, m, b⟩ := exists_block (M := M) (by rw [hM]; simp)
  have hff : f' = f := by have := b.first; rw [hM] at this; simp at this; exact this.1.symm
  subst hff
  obtain ⟨g', N', N0, n, b2⟩ := exists_block (M := N) (by rw [hN]; simp)
  have hgg : g' = g := by have := b2.first; rw [hN] at this; simp at this; exact this.1.symm
  subst hgg
  rw [← k.pos, k.links_mid2 b2 b]
  obtain ⟨d1, ⟨e1, e2⟩, d2, ⟨e3, e4⟩, d3, ⟨e5, e6⟩, d4⟩ := (k.links_mid2 b b2).1 h1
  have nd1 := k.nd (by simp only [List.nodup_append, List.nodup_cons, List.mem_append] at hn ⊢; grind)
  have nd2 := b.nd (by simp only [List.nodup_append, List.nodup_cons, List.mem_append] at hn ⊢; grind)
  have nd3 := b2.nd (by simp only [List.nodup_append, List.nodup_cons, List.mem_append] at hn ⊢; grind)
  have sM : ∀ x, x ∈ M → x ∉ c :: (A ++ (N ++ B)) := by
    simp only [List.nodup_append, List.nodup_cons, List.mem_append] at hn; grind
  have sN : ∀ x, x ∈ N → x ∉ c :: (A ++ (M ++ B)) := by
    simp only [List.nodup_append, List.nodup_cons, List.mem_append] at hn; grind
  have ma := k.mem_a; have mp := k.mem_p; have mf := b.mem_f; have mm := b.mem_m; have mg := b2.mem_f; have mn := b2.mem_m
  have dl := k.dropLast_right; have tl := k.tail_left
  have dM := b.dropLast; have tM := b.tail; have dN := b2.dropLast; have tN := b2.tail
  have lX : ∀ x ∈ X, x ∈ c :: A := by intro x hx; rw [k.left]; simp [hx]
  have lY : ∀ x ∈ Y, x ∈ B ++ [c] := by intro x hx; rw [k.right]; simp [hx]
  have lM0 : ∀ x ∈ M0, x ∈ M := by intro x hx; rw [b.last]; simp [hx]
  have lM' : ∀ x ∈ M', x ∈ M := by intro x hx; rw [b.first]; simp [hx]
  have lN0 : ∀ x ∈ N0, x ∈ N := by intro x hx; rw [b2.last]; simp [hx]
  have lN' : ∀ x ∈ N', x ∈ N := by intro x hx; rw [b2.first]; simp [hx]
  obtain ⟨n1, n2, n3, n4⟩ := nd1
  obtain ⟨n5, n6⟩ := nd2
  obtain ⟨n7, n8⟩ := nd3
  clear hn h1 k b b2
  simp only [List.mem_append, List.mem_cons, List.mem_nil_iff, or_false] at *
  refine ⟨d1.congr ?_ ?_, ⟨?_, ?_⟩, d3.congr ?_ ?_, ⟨?_, ?_⟩, d2.congr ?_ ?_, ⟨?_, ?_⟩, d4.congr ?_ ?_⟩
  · intro x hx; simp only [List.dropLast_concat] at hx; simp only [spl, e2, e4, e6, upd]; grind
  · intro x hx; rw [tl] at hx; simp only [spl, e2, e4, e6, upd]; grind
  · simp only [spl, e2, e4, e6, upd]; grind
  · simp only [spl, e2, e4, e6, upd]; grind
  · intro x hx; rw [dN] at hx; simp only [spl, e2, e4, e6, upd]; grind
  · intro x hx; rw [tN] at hx; simp only [spl, e2, e4, e6, upd]; grind
  · simp only [spl, e2, e4, e6, upd]; grind
  · simp only [spl, e2, e4, e6, upd]; grind
  · intro x hx; rw [dM] at hx; simp only [spl, e2, e4, e6, upd]; grind
  · intro x hx; rw [tM] at hx; simp only [spl, e2, e4, e6, upd]; grind
  · simp only [spl, e2, e4, e6, upd]; grind
  · simp only [spl, e2, e4, e6, upd]; grind
  · intro x hx; rw [dl] at hx; simp only [spl, e2, e4, e6, upd]; grind
  · intro x hx; simp only [List.tail_cons] at hx; simp only [spl, e2, e4, e6, upd]; grind

/-- ... or after the block `N` that starts at the position. -/
theorem spl_links_left {h : Heap T} {c : Addr} {A M N B : List Addr} {f : Addr} {M' : List Addr} {g : Addr} {N' : List Addr}
    (h1 : Links h c (A ++ (N ++ (M ++ B)))) (hM : M = f :: M') (hN : N = g :: N')
    (hn : (c :: (A ++ (N ++ (M ++ B)))).Nodup) : Links (spl h g f (posOf c B)) c (A ++ (M ++ (N ++ B))) := by
  obtain ⟨X, a, p, Y, k⟩ := exists_cut c A B
  obtain ⟨f', M', M0, m, b⟩ := exists_block (M := M) (by rw [hM]; simp)
  have hff : f' = f := by have := b.first; rw [hM] at this; simp at this; exact this.1.symm
  subst hff
  obtain ⟨g', N', N0, n, b2⟩ := exists_block (M := N) (by rw [hN]; simp)
  have hgg : g' = g := by have := b2.first; rw [hN] at this; simp at this; exact this.1.symm
  subst hgg
  rw [← k.pos, k.links_mid2 b b2]
  obtain ⟨d1, ⟨e1, e2⟩, d2, ⟨e3, e4⟩, d3, ⟨e5, e6⟩, d4⟩ := (k.links_mid2 b2 b).1 h1
  have nd1 := k.nd (by simp only [List.nodup_append, List.nodup_cons, List.mem_append] at hn ⊢; grind)
  have nd2 := b.nd (by simp only [List.nodup_append, List.nodup_cons, List.mem_append] at hn ⊢; grind)
  have nd3 := b2.nd (by simp only [List.nodup_append, List.nodup_cons, List.mem_append] at hn ⊢; grind)
  have sM : ∀ x, x ∈ M → x ∉ c :: (A ++ (N ++ B)) := by
    simp only [List.nodup_append, List.nodup_cons, List.mem_append] at hn; grind
  have sN : ∀ x, x ∈ N → x ∉ c :: (A ++ (M ++ B)) := by
    simp only [List.nodup_append, List.nodup_cons, List.mem_append] at hn; grind
  have ma := k.mem_a; have mp := k.mem_p; have mf := b.mem_f; have mm := b.mem_m; have mg := b2.mem_f; have mn := b2.mem_m
  have dl := k.dropLast_right; have tl := k.tail_left
  have dM := b.dropLast; have tM := b.tail; have dN := b2.dropLast; have tN := b2.tail
  have lX : ∀ x ∈ X, x ∈ c :: A := by intro x hx; rw [k.left]; simp [hx]
  have lY : ∀ x ∈ Y, x ∈ B ++ [c] := by intro x hx; rw [k.right]; simp [hx]
  have lM0 : ∀ x ∈ M0, x ∈ M := by intro x hx; rw [b.last]; simp [hx]
  have lM' : ∀ x ∈ M', x ∈ M := by intro x hx; rw [b.first]; simp [hx]
  have lN0 : ∀ x ∈ N0, x ∈ N := by intro x hx; rw [b2.last]; simp [hx]
  have lN' : ∀ x ∈ N', x ∈ N := by intro x hx; rw [b2.first]; simp [hx]
  obtain ⟨n1, n2, n3, n4⟩ := nd1
  obtain ⟨n5, n6⟩ := nd2
  obtain ⟨n7, n8⟩ := nd3
  clear hn h1 k b b2
  simp only [List.mem_append, List.mem_cons, List.mem_nil_iff, or_false] at *
  refine ⟨d1.congr ?_ ?_, ⟨?_, ?_⟩, d3.congr ?_ ?_, ⟨?_, ?_⟩, d2.congr ?_ ?_, ⟨?_, ?_⟩, d4.congr ?_ ?_⟩
  · intro x hx; simp only [List.dropLast_concat] at hx; simp only [spl, e2, e4, e6, upd]; grind
  · intro x hx; rw [tl] at hx; simp only [spl, e2, e4, e6, upd]; grind
  · simp only [spl, e2, e4, e6, upd]; grind
  · simp only [spl, e2, e4, e6, upd]; grind
  · intro x hx; rw [dM] at hx; simp only [spl, e2, e4, e6, upd]; grind
  · intro x hx; rw [tM] at hx; simp only [spl, e2, e4, e6, upd]; grind
  · simp only [spl, e2, e4, e6, upd]; grind
  · simp only [spl, e2, e4, e6, upd]; grind
  · intro x hx; rw [dN] at hx; simp only [spl, e2, e4, e6, upd]; grind
  · intro x hx; rw [tN] at hx; simp only [spl, e2, e4, e6, upd]; grind
  · simp only [spl, e2, e4, e6, upd]; grind
  · simp only [spl, e2, e4, e6, upd]; grind
  · intro x hx; rw [dl] at hx; simp only [spl, e2, e4, e6, upd]; grind
  · intro x hx; simp only [List.tail_cons] at hx; simp only [spl, e2, e4, e6, upd]; grind

/-! ## swap -/

/-- A non-empty ring, cut at the header. -/
theorem links_block {h : Heap T} {c : Addr} {M f M' M0 m} (b : Block M f M' M0 m) :
    Links h c M ↔ (h.next c = f ∧ h.prev f = c) ∧ Chain h M ∧ (h.next m = c ∧ h.prev c = m) := by
  have k : Cut c [] [] [] c c [] := ⟨rfl, rfl, rfl⟩
  have := k.links_mid (h := h) b
  simp only [List.nil_append, List.append_nil] at this
  rw [this]; simp [Chain]

/-- Memory after `halfswap(a, b)`, `b` not empty. -/
def half (h : Heap T) (a b : Addr) : Heap T :=
  { h with
    prev := upd (upd (upd h.prev a (h.prev b)) (h.next b) a) b b
    next := upd (upd (upd h.next a (h.next b)) (h.prev b) a) b b }

theorem halfSwap_eq {h : Heap T} {a b : Addr} (la : h.live a = true) (lb : h.live b = true)
    (ln : h.live (h.next b) = true) (lp : h.live (h.prev b) = true) (hab : a ≠ b) (hb : h.next b ≠ b) :
    halfSwap a b h = .ok ((), half h a b) := by
  unfold halfSwap
  have e1 : upd h.next a (h.next b) b = h.next b := upd_other _ _ (Ne.symm hab)
  have e2 : upd (upd h.prev a (h.prev b)) (h.next b) a b = h.prev b := by
    rw [upd_other _ _ (Ne.symm hb), upd_other _ _ (Ne.symm hab)]
  simp only [Prog.bind_app, getPrev, getNext, setNext, setPrev, la, lb, ln, lp, if_true, Res.bind_ok, e1, e2]
  rfl

theorem half_links {h : Heap T} {a b : Addr} {M : List Addr} (hM : M ≠ []) (hl : Links h b M) (hn : (a :: b :: M).Nodup) :
    Links (half h a b) a M ∧ Links (half h a b) b [] := by
  obtain ⟨f, M', M0, m, k⟩ := exists_block hM
  obtain ⟨⟨e1, e2⟩, d, e3, e4⟩ := (links_block k).1 hl
  rw [links_block k]
  have nd := k.nd (by simp only [List.nodup_cons] at hn; grind)
  have dM := k.dropLast; have tM := k.tail; have mf := k.mem_f; have mm := k.mem_m
  have lM0 : ∀ x ∈ M0, x ∈ M := by intro x hx; rw [k.last]; simp [hx]
  have lM' : ∀ x ∈ M', x ∈ M := by intro x hx; rw [k.first]; simp [hx]
  simp only [List.nodup_cons, List.mem_cons] at hn
  refine ⟨⟨⟨?_, ?_⟩, d.congr ?_ ?_, ⟨?_, ?_⟩⟩, ?_⟩
  · simp only [half, e1, e4, upd]; grind
  · simp only [half, e1, e4, upd]; grind
  · intro x hx; rw [dM] at hx; simp only [half, e1, e4, upd]; grind
  · intro x hx; rw [tM] at hx; simp only [half, e1, e4, upd]; grind
  · simp only [half, e1, e4, upd]; grind
  · simp only [half, e1, e4, upd]; grind
  · simp [Links, Chain, half]

/-- Memory after `swap(a, b)`, both not empty. -/
def swp (h : Heap T) (a b : Addr) : Heap T :=
  { h with
    prev := upd (upd (upd (upd h.prev a (h.prev b)) b (h.prev a)) (h.next b) a) (h.next a) b
    next := upd (upd (upd (upd h.next a (h.next b)) b (h.next a)) (h.prev b) a) (h.prev a) b }

theorem swp_links {h : Heap T} {a b : Addr} {M N : List Addr} (hM : M ≠ []) (hN : N ≠ []) (h1 : Links h a M)
    (h2 : Links h b N) (hn : ((a :: M) ++ (b :: N)).Nodup) :
    Links (swp h a b) a N ∧ Links (swp h a b) b M := by
  obtain ⟨f, M', M0, m, k⟩ := exists_block hM
  obtain ⟨g, N', N0, n, k2⟩ := exists_block hN
  obtain ⟨⟨e1, e2⟩, d, e3, e4⟩ := (links_block k).1 h1
  obtain ⟨⟨e5, e6⟩, d2, e7, e8⟩ := (links_block k2).1 h2
  rw [links_block k, links_block k2]
  have nd := k.nd (by simp only [List.nodup_cons, List.nodup_append] at hn; grind)
  have nd2 := k2.nd (by simp only [List.nodup_cons, List.nodup_append] at hn; grind)
  have dM := k.dropLast; have tM := k.tail; have mf := k.mem_f; have mm := k.mem_m
  have lM0 : ∀ x ∈ M0, x ∈ M := by intro x hx; rw [k.last]; simp [hx]
  have lM' : ∀ x ∈ M', x ∈ M := by intro x hx; rw [k.first]; simp [hx]
  have dN := k2.dropLast; have tN := k2.tail; have mg := k2.mem_f; have mn := k2.mem_m
  have lN0 : ∀ x ∈ N0, x ∈ N := by intro x hx; rw [k2.last]; simp [hx]
  have lN' : ∀ x ∈ N', x ∈ N := by intro x hx; rw [k2.first]; simp [hx]
  simp only [List.nodup_append, List.nodup_cons, List.mem_cons] at hn
  clear h1 h2 k k2
  refine ⟨⟨⟨?_, ?_⟩, d2.congr ?_ ?_, ⟨?_, ?_⟩⟩, ⟨⟨?_, ?_⟩, d.congr ?_ ?_, ⟨?_, ?_⟩⟩⟩
  · simp only [swp, e1, e4, e5, e8, upd]; grind
  · simp only [swp, e1, e4, e5, e8, upd]; grind
  · intro x hx; rw [dN] at hx; simp only [swp, e1, e4, e5, e8, upd]; grind
  · intro x hx; rw [tN] at hx; simp only [swp, e1, e4, e5, e8, upd]; grind
  · simp only [swp, e1, e4, e5, e8, upd]; grind
  · simp only [swp, e1, e4, e5, e8, upd]; grind
  · simp only [swp, e1, e4, e5, e8, upd]; grind
  · simp only [swp, e1, e4, e5, e8, upd]; grind
  · intro x hx; rw [dM] at hx; simp only [swp, e1, e4, e5, e8, upd]; grind
  · intro x hx; rw [tM] at hx; simp only [swp, e1, e4, e5, e8, upd]; grind
  · simp only [swp, e1, e4, e5, e8, upd]; grind
  · simp only [swp, e1, e4, e5, e8, upd]; grind

/-- `swap` of two non-empty lists. -/
theorem nodeSwap_eq {h : Heap T} {a b : Addr} (la : h.live a = true) (lb : h.live b = true)
    (l1 : h.live (h.next a) = true) (l2 : h.live (h.prev a) = true) (l3 : h.live (h.next b) = true)
    (l4 : h.live (h.prev b) = true) (hab : a ≠ b) (ha : h.next a ≠ a) (hb : h.next b ≠ b)
    (d1 : h.next a ≠ b) (d2 : h.next b ≠ a) (d3 : h.prev a ≠ b) (d4 : h.prev b ≠ a)
    (d5 : h.prev b ≠ b) : nodeSwap a b h = .ok ((), swp h a b) := by
  have e1 : upd h.prev a (h.prev b) b = h.prev b := upd_other _ _ (Ne.symm hab)
  have e2 : upd h.next a (h.next b) b = h.next b := upd_other _ _ (Ne.symm hab)
  have e3 : ∀ x, upd (upd h.next a (h.next b)) b x a = h.next b := by intro x; rw [upd_other _ _ hab, upd_same]
  have e4 : ∀ x, upd (upd (upd h.prev a (h.prev b)) b x) (h.next b) a a = h.prev b := by
    intro x; rw [upd_other _ _ (Ne.symm d2), upd_other _ _ hab, upd_same]
  have e5 : ∀ x, upd (upd (upd h.next a (h.next b)) b x) (h.prev b) a b = x := by
    intro x; rw [upd_other _ _ (Ne.symm d5), upd_same]
  have e6 : ∀ x y, upd (upd (upd (upd h.prev a (h.prev b)) b x) (h.next b) a) (h.next a) y b = x := by
    intro x y; rw [upd_other _ _ (Ne.symm d1), upd_other _ _ (Ne.symm hb), upd_same]
  unfold nodeSwap
  simp only [Prog.bind_app, getNext_eq la, Res.bind_ok, Prog.ite_app, if_pos (Ne.symm ha), getNext_eq lb, if_pos (Ne.symm hb)]
  simp only [getPrev, getNext, setNext, setPrev, la, lb, l1, l2, l3, l4, if_true, Res.bind_ok, Prog.bind_app, e1, e2, e3, e4, e5, e6]
  rfl

/-! ## reverse -/

theorem Chain.path {h : Heap T} : ∀ {ns : List Addr} {p z : Addr}, Chain h (p :: (ns ++ [z])) → Path h p ns z
  | [], _, _, c => c.1
  | _ :: _, _, _, c => ⟨c.1, Chain.path c.2.2⟩

/-- The loop of `reverse` exchanges the pointers of every node it visits. -/
theorem reverseLoop_eq {c : Addr} : ∀ (ns : List Addr) (p : Addr) (h : Heap T), Path h p ns c →
    (∀ x ∈ p :: ns, h.live x = true) → (p :: ns).Nodup → c ∉ ns →
    ∃ h', reverseLoop c p h = .ok ((), h') ∧ h'.val = h.val ∧ h'.live = h.live ∧ h'.tail = h.tail ∧ h'.fresh = h.fresh ∧
      (∀ x ∈ p :: ns, h'.next x = h.prev x ∧ h'.prev x = h.next x) ∧
      (∀ x, x ∉ p :: ns → h'.next x = h.next x ∧ h'.prev x = h.prev x)
  | ns, p, h, hc, hl, hn, hcn => by
    have lp := hl p (by simp)
    rw [reverseLoop]
    simp only [Prog.bind_app, getNext_eq lp, getPrev, setNext, setPrev, lp, if_true, Res.bind_ok, Prog.ite_app]
    cases ns with
    | nil =>
      have e : h.next p = c := hc
      rw [if_neg (by simp [e])]
      refine ⟨_, rfl, rfl, rfl, rfl, rfl, ?_, ?_⟩
      · intro x hx; simp only [List.mem_cons, List.not_mem_nil, or_false] at hx; subst hx; simp
      · intro x hx; simp only [List.mem_cons, List.not_mem_nil, or_false] at hx; simp [upd_other _ _ hx]
    | cons n ns =>
      obtain ⟨e1, e3⟩ := hc
      simp only [List.nodup_cons, List.mem_cons, not_or] at hn hcn
      rw [if_pos (by rw [e1]; grind), e1]
      obtain ⟨h', r, q1, q2, q3, q4, q5, q6⟩ := reverseLoop_eq ns n
        { h with next := upd h.next p (h.prev p), prev := upd h.prev p n }
        (Path.congr (h := h) e3 (by
          intro x hx
          simp only [List.mem_cons] at hx
          exact upd_other _ _ (by grind)))
        (fun x hx => hl x (by simp only [List.mem_cons] at hx ⊢; exact .inr hx)) (by simp only [List.nodup_cons]; exact hn.2) (by grind)
      refine ⟨h', r, q1, q2, q3, q4, ?_, ?_⟩
      · intro x hx
        by_cases hxp : x = p
        · subst hxp
          have := q6 x (by simp only [List.mem_cons]; grind)
          rw [this.1, this.2]; simp [e1]
        · have := q5 x (by simp only [List.mem_cons] at hx ⊢; grind)
          rw [this.1, this.2]; simp only [upd_other _ _ hxp]; exact ⟨trivial, trivial⟩
      · intro x hx
        simp only [List.mem_cons, not_or] at hx
        have := q6 x (by simp only [List.mem_cons]; grind)
        rw [this.1, this.2]; simp only [upd_other _ _ hx.1]; exact ⟨trivial, trivial⟩

theorem Chain.snoc {h : Heap T} {X : List Addr} {a p : Addr} :
    Chain h (X ++ [a, p]) ↔ Chain h (X ++ [a]) ∧ h.next a = p ∧ h.prev p = a := by
  have := Chain.glue (h := h) (X := X) (a := a) (p := p) (Y := [])
  rw [this]; simp [Chain]

theorem Chain.reverse {h h' : Heap T} : ∀ {l : List Addr}, Chain h l →
    (∀ x ∈ l, h'.next x = h.prev x ∧ h'.prev x = h.next x) → Chain h' l.reverse
  | [], _, _ => trivial
  | [_], _, _ => trivial
  | a :: b :: l, c, e => by
    obtain ⟨h1, h2, h3⟩ := c
    have ih := Chain.reverse h3 (fun x hx => e x (List.mem_cons_of_mem _ hx))
    simp only [List.reverse_cons, List.append_assoc, List.cons_append, List.nil_append] at ih ⊢
    rw [Chain.snoc]
    refine ⟨ih, ?_, ?_⟩
    · rw [(e b (by simp)).1]; exact h2
    · rw [(e a (by simp)).2]; exact h1

theorem reverse_links {h h' : Heap T} {c : Addr} {ns : List Addr} (hl : Links h c ns)
    (e : ∀ x ∈ c :: ns, h'.next x = h.prev x ∧ h'.prev x = h.next x) : Links h' c ns.reverse := by
  have := Chain.reverse hl (h' := h') (by
    intro x hx; apply e; simp only [List.mem_cons, List.mem_append, List.not_mem_nil, or_false] at hx ⊢; grind)
  simpa [Links] using this

end Verif.Seq.DList
