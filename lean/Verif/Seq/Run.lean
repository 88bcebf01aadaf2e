import Verif.Seq.ListProps5
import Verif.Seq.SPath
/-!
# Ranges of iterators of a linked list, read while memory changes

`insert(pos, first, last)`, `assign(first, last)` and the range constructors of the linked containers read `*first` and `++first`
while they insert. `Run h f es l`: going from `f` with `++` visits the elements `es` and then arrives at `l`.
-/
set_option linter.unusedVariables false
set_option linter.unusedSimpArgs false
namespace Verif.Seq
open Verif Verif.Seq.DList
variable {T : Type} {h h' : Heap T}

/-- Going from `f` with `++` visits the elements `es` and then arrives at `l`. -/
def Run (h : Heap T) : Addr → List (Addr × T) → Addr → Prop
  | f, [], l => f = l
  | f, e :: es, l => f = e.1 ∧ e.1 ≠ l ∧ h.live e.1 = true ∧ h.val e.1 = some e.2 ∧ Run h (h.next e.1) es l

theorem Run.frame : ∀ {es : List (Addr × T)} {f l : Addr}, Run h f es l →
    (∀ e ∈ es, h'.next e.1 = h.next e.1 ∧ h'.val e.1 = h.val e.1 ∧ h'.live e.1 = h.live e.1) → Run h' f es l
  | [], f, l, r, k => r
  | e :: es, f, l, ⟨r1, r2, r3, r4, r5⟩, k => by
    obtain ⟨k1, k2, k3⟩ := k e (by simp)
    refine ⟨r1, r2, by rw [k3]; exact r3, by rw [k2]; exact r4, ?_⟩
    rw [k1]
    exact Run.frame r5 fun x hx => k x (List.mem_cons_of_mem _ hx)

theorem Run.live : ∀ {es : List (Addr × T)} {f l : Addr}, Run h f es l → ∀ e ∈ es, h.live e.1 = true ∧ h.val e.1 = some e.2
  | e :: es, f, l, ⟨r1, r2, r3, r4, r5⟩, x, hx => by
    simp only [List.mem_cons] at hx
    rcases hx with rfl | hx
    · exact ⟨r3, r4⟩
    · exact Run.live r5 x hx

/-- The part `B` of a chain of elements. -/
theorem Run.of_laid {z : Addr} : ∀ {A B C : List (Addr × T)} {p : Addr}, Laid h p (A ++ (B ++ C)) z → ((A ++ (B ++ C)).map Prod.fst).Nodup →
    Run h (posOf z ((B ++ C).map Prod.fst)) B (posOf z (C.map Prod.fst))
  | [], [], C, p, l, nd => rfl
  | [], b :: B, C, p, l, nd => by
    obtain ⟨l1, l2⟩ := l.data b (by simp)
    refine ⟨rfl, ?_, l1, l2, ?_⟩
    · cases C with
      | nil => exact fun q => l.stop (by have q : b.1 = z := q; simp [← q])
      | cons c C =>
        intro q
        have q : b.1 = c.1 := q
        simp [q] at nd
    · have t : Laid h b.1 (B ++ C) z := Laid.tail (by simpa using l)
      have := Run.of_laid (A := []) (B := B) (C := C) (p := b.1) (by simpa using t) (by
        simp only [List.nil_append, List.cons_append, List.map_cons, List.nodup_cons] at nd ⊢; exact nd.2)
      rw [t.next]; exact this
  | a :: A, B, C, p, l, nd => Run.of_laid (A := A) (B := B) (C := C) (p := a.1) l.tail (by
      simp only [List.cons_append, List.map_cons, List.nodup_cons] at nd ⊢; exact nd.2)

theorem three_parts {α : Type} (es : List α) {j k : Nat} (hjk : j ≤ k) : es = es.take j ++ (slice j k es ++ es.drop k) := by
  have : (es.drop j).drop (k - j) = es.drop k := by rw [List.drop_drop]; congr 1; omega
  rw [slice, ← this, List.take_append_drop, List.take_append_drop]

theorem drop_parts {α : Type} (es : List α) {j k : Nat} (hjk : j ≤ k) : es.drop j = slice j k es ++ es.drop k := by
  have : (es.drop j).drop (k - j) = es.drop k := by rw [List.drop_drop]; congr 1; omega
  rw [slice, ← this, List.take_append_drop]

/-- The elements between two iterators of a chain. -/
theorem Run.slice {z p : Addr} {es : List (Addr × T)} (l : Laid h p es z) (nd : (es.map Prod.fst).Nodup) {j k : Nat} (hjk : j ≤ k) :
    Run h (posOf z ((es.drop j).map Prod.fst)) (slice j k es) (posOf z ((es.drop k).map Prod.fst)) := by
  have e := three_parts es hjk
  rw [drop_parts es hjk]
  exact Run.of_laid (A := es.take j) (p := p) (by rw [← e]; exact l) (by rw [← e]; exact nd)

theorem mem_slice {α : Type} {es : List α} {j k : Nat} {e : α} (he : e ∈ slice j k es) : ∃ n, j ≤ n ∧ n < k ∧ es[n]? = some e := by
  obtain ⟨m, hm⟩ := List.getElem?_of_mem he
  rw [slice, List.getElem?_take] at hm
  split at hm
  · rename_i hlt
    rw [List.getElem?_drop] at hm
    exact ⟨j + m, by omega, by omega, hm⟩
  · cases hm

theorem lastOf_take {c : Addr} {es : List (Addr × T)} {m : Nat} {x : Addr × T} (hx : es[m]? = some x) :
    lastOf c ((es.take (m + 1)).map Prod.fst) = x.1 := by
  rw [List.take_add_one, hx, List.map_append]
  exact lastOf_concat _ _ _

/-- The element in front of position `i` is not between the positions `j` and `k`. -/
theorem last_not_in_slice {c : Addr} {es : List (Addr × T)} (nd : (c :: es.map Prod.fst).Nodup) {i j k : Nat} (hi : i ≤ es.length)
    (hd : i ≤ j ∨ k < i) : ∀ e ∈ slice j k es, e.1 ≠ lastOf c ((es.take i).map Prod.fst) := by
  intro e he q
  obtain ⟨n, hj, hk, hn⟩ := mem_slice he
  obtain ⟨hc, nd⟩ := List.nodup_cons.1 nd
  cases i with
  | zero => exact hc (by rw [← show e.1 = c from q]; exact List.mem_map.2 ⟨e, List.mem_of_getElem? hn, rfl⟩)
  | succ m =>
    have hm : m < es.length := by omega
    rw [lastOf_take (List.getElem?_eq_getElem hm)] at q
    have hn' : n < es.length := by
      rcases Nat.lt_or_ge n es.length with g | g
      · exact g
      · rw [List.getElem?_eq_none g] at hn; cases hn
    have e1 : (es.map Prod.fst)[n]? = (es.map Prod.fst)[m]? := by simp [List.getElem?_map, hn, List.getElem?_eq_getElem hm, q]
    have := (List.getElem?_inj (by simpa using hn') nd).1 e1
    omega

theorem Links.prev_last {c : Addr} {A B : List Addr} (hl : Links h c (A ++ B)) : h.prev (posOf c B) = lastOf c A := by
  obtain ⟨X, a, p, Y, k⟩ := exists_cut c A B
  obtain ⟨c1, e1, e2, c2⟩ := k.links.1 hl
  rw [← k.pos, e2]
  have := k.left
  cases X with
  | nil => simp only [List.nil_append, List.cons.injEq] at this; obtain ⟨rfl, rfl⟩ := this; rfl
  | cons x X => simp only [List.cons_append, List.cons.injEq] at this; obtain ⟨rfl, rfl⟩ := this; exact (lastOf_concat _ _ _).symm

end Verif.Seq
