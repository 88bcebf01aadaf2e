import Verif.Algorithm.GenericProps3
import Verif.Seq.ListProps
/-!
# Linked lists as sequences for the generic algorithms

`nodeIter` are the iterators of `ttl::list`, `ttl::forward_list`, `ttl::backward_list` and `ttl::lazy_queue`: a pointer to a node; `*it` is its
value, `++it` follows `next` and `--it` (only `ttl::list`) follows `prev`. Elements laid out on a path form a window.
-/
set_option linter.unusedVariables false
set_option linter.unusedSimpArgs false
namespace Verif.Gen
open Verif Verif.Seq
open Verif.Seq.DList (posOf posOf_nil posOf_cons Laid)
variable {T : Type}

/-- `list::iterator` (ttl/list.hpp:24-118), `forward_list::iterator` (ttl/forward_list.hpp, ttl/slist_node.hpp): `*it`, `++it`, `*it = v`, `--it`. -/
def nodeIter : WIter (Heap T) Addr T where
  deref := getVal
  next := getNext
  assign := setVal
  prev := getPrev

/-- The memory `h` with the values `vs` in the nodes `as`. -/
def putVals (h : Heap T) : List Addr → List T → Heap T
  | a :: as, v :: vs => { putVals h as vs with val := upd (putVals h as vs).val a (some v) }
  | _, _ => h

section
variable {h : Heap T}

theorem heap_ext {h k : Heap T} (e1 : h.next = k.next) (e2 : h.prev = k.prev) (e3 : h.tail = k.tail) (e4 : h.val = k.val) (e5 : h.live = k.live)
    (e6 : h.fresh = k.fresh) : h = k := by
  cases h; cases k; simp_all

theorem putVals_links : ∀ (as : List Addr) (vs : List T), (putVals h as vs).next = h.next ∧ (putVals h as vs).prev = h.prev ∧
    (putVals h as vs).tail = h.tail ∧ (putVals h as vs).live = h.live ∧ (putVals h as vs).fresh = h.fresh
  | [], _ => by simp [putVals]
  | a :: as, [] => by simp [putVals]
  | a :: as, v :: vs => by simpa [putVals] using putVals_links as vs

theorem putVals_other {x : Addr} : ∀ (as : List Addr) (vs : List T), x ∉ as → (putVals h as vs).val x = h.val x
  | [], _, _ => by simp [putVals]
  | a :: as, [], _ => by simp [putVals]
  | a :: as, v :: vs, hx => by
    simp only [List.mem_cons, not_or] at hx
    simp only [putVals]
    rw [upd_other _ _ hx.1]; exact putVals_other as vs hx.2

theorem putVals_at : ∀ (as : List Addr) (vs : List T) (i : Nat) (a : Addr) (v : T), as.Nodup → as[i]? = some a → vs[i]? = some v →
    (putVals h as vs).val a = some v
  | [], _, i, a, v, _, q, _ => by simp at q
  | _ :: _, [], i, a, v, _, _, q => by simp at q
  | a' :: as, v' :: vs, 0, a, v, nd, q, q' => by
    simp at q q'; subst q; subst q'; simp [putVals]
  | a' :: as, v' :: vs, i + 1, a, v, nd, q, q' => by
    simp only [List.getElem?_cons_succ] at q q'
    have hne : a ≠ a' := fun e => (List.nodup_cons.1 nd).1 (e ▸ List.mem_of_getElem? q)
    simp only [putVals]
    rw [upd_other _ _ hne]
    exact putVals_at as vs i a v (List.nodup_cons.1 nd).2 q q'

theorem putVals_set : ∀ (as : List Addr) (vs : List T) (i : Nat) (a : Addr) (v : T), as.Nodup → as.length = vs.length → as[i]? = some a →
    (putVals h as (vs.set i v)).val = upd (putVals h as vs).val a (some v)
  | [], _, i, a, v, _, _, q => by simp at q
  | _ :: _, [], i, a, v, _, l, _ => by simp at l
  | a' :: as, v' :: vs, 0, a, v, nd, l, q => by
    simp at q; subst q
    simp only [List.set_cons_zero, putVals]
    funext x; simp only [upd]; split <;> rfl
  | a' :: as, v' :: vs, i + 1, a, v, nd, l, q => by
    simp only [List.getElem?_cons_succ] at q
    have hne : a ≠ a' := fun e => (List.nodup_cons.1 nd).1 (e ▸ List.mem_of_getElem? q)
    simp only [List.set_cons_succ, putVals]
    rw [putVals_set as vs i a v (List.nodup_cons.1 nd).2 (by simpa using l) q]
    funext x; simp only [upd]; split <;> split <;> simp_all

/-- Writing the values that are there. -/
theorem putVals_same : ∀ (es : List (Addr × T)), (∀ e ∈ es, h.val e.1 = some e.2) → putVals h (es.map Prod.fst) (es.map Prod.snd) = h
  | [], _ => by simp [putVals]
  | e :: es, d => by
    simp only [List.map_cons, putVals]
    rw [putVals_same es (fun x hx => d x (List.mem_cons_of_mem _ hx))]
    refine heap_ext rfl rfl rfl ?_ rfl rfl
    funext x; simp only [upd]; split
    · rename_i q; rw [q, d e (by simp)]
    · rfl

/-- Other nodes are independent. -/
theorem putVals_comm (bs : List Addr) (ys : List T) : ∀ (as : List Addr) (xs : List T), (∀ a ∈ as, a ∉ bs) →
    putVals (putVals h as xs) bs ys = putVals (putVals h bs ys) as xs := by
  have val : ∀ (as : List Addr) (xs : List T) (k : Heap T), (∀ a ∈ as, a ∉ bs) → ∀ x, (putVals (putVals k bs ys) as xs).val x = (putVals (putVals k as xs) bs ys).val x := by
    intro as
    induction as with
    | nil => intro xs k _ x; simp [putVals]
    | cons a as ih =>
      intro xs k hd x
      cases xs with
      | nil => simp [putVals]
      | cons v xs =>
        simp only [putVals, upd]
        have hd' : ∀ a ∈ as, a ∉ bs := fun a ha => hd a (List.mem_cons_of_mem _ ha)
        split
        · rename_i q
          subst q
          rw [putVals_other bs ys (hd x (by simp))]
          simp
        · rename_i q
          rw [ih xs k hd' x]
          by_cases hb : x ∈ bs
          · have aux : ∀ (bs : List Addr) (ys : List T) (k k' : Heap T), (∀ y, y ≠ a → k.val y = k'.val y) → x ≠ a → (putVals k bs ys).val x = (putVals k' bs ys).val x := by
              intro bs
              induction bs with
              | nil => intro ys k k' e q; simpa [putVals] using e x q
              | cons b bs ih2 =>
                intro ys k k' e q
                cases ys with
                | nil => simpa [putVals] using e x q
                | cons y ys =>
                  simp only [putVals, upd]
                  split
                  · rfl
                  · exact ih2 ys k k' e q
            refine aux bs ys _ _ ?_ q
            intro y hy
            simp [upd_other _ _ hy]
          · rw [putVals_other bs ys hb, putVals_other bs ys hb]
            simp [upd, q]
  intro as xs hd
  have l1 := fun (k : Heap T) => putVals_links (h := k) bs ys
  have l2 := fun (k : Heap T) => putVals_links (h := k) as xs
  refine heap_ext ?_ ?_ ?_ ?_ ?_ ?_
  · rw [(l1 _).1, (l2 _).1, (l2 _).1, (l1 _).1]
  · rw [(l1 _).2.1, (l2 _).2.1, (l2 _).2.1, (l1 _).2.1]
  · rw [(l1 _).2.2.1, (l2 _).2.2.1, (l2 _).2.2.1, (l1 _).2.2.1]
  · funext x; exact (val as xs h hd x).symm
  · rw [(l1 _).2.2.2.1, (l2 _).2.2.2.1, (l2 _).2.2.2.1, (l1 _).2.2.2.1]
  · rw [(l1 _).2.2.2.2, (l2 _).2.2.2.2, (l2 _).2.2.2.2, (l1 _).2.2.2.2]

/-- The iterator at index `i`: the node of element `i`, or the end. -/
def nodeAt (z : Addr) (es : List (Addr × T)) (i : Nat) : Addr := posOf z ((es.map Prod.fst).drop i)

theorem nodeAt_lt {z : Addr} {es : List (Addr × T)} {i : Nat} (hi : i < es.length) : nodeAt z es i = es[i].1 := by
  unfold nodeAt
  rw [List.drop_eq_getElem_cons (by simpa using hi), posOf_cons]
  simp

theorem nodeAt_end {z : Addr} (es : List (Addr × T)) : nodeAt z es es.length = z := by
  unfold nodeAt
  rw [List.drop_of_length_le (by simp)]; rfl

theorem Laid.next_at {p z : Addr} : ∀ {es : List (Addr × T)} {p : Addr}, Laid h p es z → ∀ (i : Nat) (hi : i < es.length), h.next es[i].1 = nodeAt z es (i + 1)
  | [], _, _, i, hi => by simp at hi
  | e :: es, p, l, 0, hi => by simpa [nodeAt] using l.tail.next
  | e :: es, p, l, i + 1, hi => by
    have := Laid.next_at (p := p) l.tail i (by simpa using hi)
    simpa [nodeAt] using this

/-- Elements on a path are a window: the iterators are the nodes and the end `z`. -/
theorem node_window {p z : Addr} {es : List (Addr × T)} (l : Laid h p es z) (nd : (es.map Prod.fst).Nodup) :
    Window nodeIter (nodeAt z es) es.length (putVals h (es.map Prod.fst)) := by
  have fst : ∀ i (hi : i < es.length), (es.map Prod.fst)[i]? = some es[i].1 := by intro i hi; simp [hi]
  have live : ∀ i (hi : i < es.length) xs, (putVals h (es.map Prod.fst) xs).live es[i].1 = true := by
    intro i hi xs
    rw [(putVals_links _ _).2.2.2.1]; exact (l.data _ (List.getElem_mem hi)).1
  refine ⟨?_, ?_, ?_, ?_⟩
  · intro i j hi hj e
    rcases Nat.lt_or_ge i es.length with h1 | h1
    · rw [nodeAt_lt h1] at e
      rcases Nat.lt_or_ge j es.length with h2 | h2
      · rw [nodeAt_lt h2] at e
        exact (List.getElem_inj (h₀ := by simpa using h1) (h₁ := by simpa using h2) nd).1 (by simpa using e)
      · have : j = es.length := by omega
        subst this; rw [nodeAt_end] at e
        exact absurd (e ▸ List.mem_map_of_mem (f := Prod.fst) (List.getElem_mem h1)) l.stop
    · have : i = es.length := by omega
      subst this; rw [nodeAt_end] at e
      rcases Nat.lt_or_ge j es.length with h2 | h2
      · rw [nodeAt_lt h2] at e
        exact absurd (e.symm ▸ List.mem_map_of_mem (f := Prod.fst) (List.getElem_mem h2)) l.stop
      · omega
  · intro xs hl i x hx
    have hi : i < es.length := by have := (List.getElem?_eq_some_iff.1 hx).1; omega
    rw [nodeAt_lt hi]
    exact getVal_eq (live i hi xs) (putVals_at _ _ i _ _ nd (fst i hi) hx)
  · intro xs hl i hi v
    rw [nodeAt_lt hi]
    have hx : xs[i]? = some (xs[i]'(by omega)) := by simp [hl, hi]
    show setVal _ v _ = _
    rw [setVal_eq (live i hi xs) (putVals_at _ _ i _ _ nd (fst i hi) hx) v, ← putVals_set _ _ i _ v nd (by simp [hl]) (fst i hi)]
    have a := putVals_links (h := h) (es.map Prod.fst) xs
    have b := putVals_links (h := h) (es.map Prod.fst) (xs.set i v)
    congr 2
    exact heap_ext (a.1.trans b.1.symm) (a.2.1.trans b.2.1.symm) (a.2.2.1.trans b.2.2.1.symm) rfl (a.2.2.2.1.trans b.2.2.2.1.symm) (a.2.2.2.2.trans b.2.2.2.2.symm)
  · intro xs hl i hi
    have hn : (putVals h (es.map Prod.fst) xs).next es[i].1 = nodeAt z es (i + 1) := by
      rw [(putVals_links _ _).1]; exact Laid.next_at (p := p) l i hi
    rw [nodeAt_lt hi]
    show getNext _ _ = _
    rw [getNext_eq (live i hi xs), hn]

/-- A path is still there after other nodes got other values. -/
theorem Laid.putVals {p z : Addr} {es : List (Addr × T)} (l : Laid h p es z) {bs : List Addr} (hd : ∀ a ∈ es.map Prod.fst, a ∉ bs) (ys : List T) :
    Laid (putVals h bs ys) p es z := by
  refine ⟨l.path.congr (fun x _ => by rw [(putVals_links _ _).1]), ?_, l.stop⟩
  intro e he
  rw [(putVals_links _ _).2.2.2.1, putVals_other _ _ (hd _ (List.mem_map_of_mem he))]
  exact l.data e he

/-- Two disjoint paths are separate windows. -/
theorem node_window2 {p z q w : Addr} {es fs : List (Addr × T)} (l : Laid h p es z) (nd : (es.map Prod.fst).Nodup) (l' : Laid h q fs w)
    (nd' : (fs.map Prod.fst).Nodup) (hd : ∀ a ∈ es.map Prod.fst, a ∉ fs.map Prod.fst) :
    Window2 nodeIter (nodeAt z es) es.length nodeIter (nodeAt w fs) fs.length (fun xs ys => Gen.putVals (Gen.putVals h (es.map Prod.fst) xs) (fs.map Prod.fst) ys) := by
  refine ⟨?_, ?_⟩
  · intro ys _
    have := node_window (Laid.putVals l hd ys) nd
    simpa only [putVals_comm _ _ _ _ hd] using this
  · intro xs _
    exact node_window (Laid.putVals l' (fun a ha q => hd a q ha) xs) nd'

/-- Everything reachable by single assignments is reachable. -/
theorem all_values {P : List T → Prop} {n : Nat} (set : ∀ xs, xs.length = n → P xs → ∀ i, i < n → ∀ v, P (xs.set i v)) {xs ys : List T}
    (hx : xs.length = n) (hy : ys.length = n) (h0 : P xs) : P ys := by
  have : ∀ k, k ≤ n → P (ys.take k ++ xs.drop k) := by
    intro k
    induction k with
    | zero => intro _; simpa using h0
    | succ k ih =>
      intro hk
      have := set _ (by simp; omega) (ih (by omega)) k (by omega) (ys[k]'(by omega))
      rw [List.set_append_right _ _ (by simp; omega)] at this
      simp only [List.length_take, show min k ys.length = k by omega, Nat.sub_self] at this
      rw [List.drop_eq_getElem_cons (by omega : k < xs.length), List.set_cons_zero] at this
      rw [List.take_succ_eq_append_getElem (by omega), List.append_assoc]
      exact this
  have := this n (Nat.le_refl _)
  rwa [List.take_of_length_le (by omega), List.drop_of_length_le (by omega), List.append_nil] at this

/-- Storing a value in element `i`. -/
theorem zip_modify (as : List Addr) (xs : List T) (i : Nat) (v : T) :
    (as.zip xs).modify i (fun e => (e.1, v)) = as.zip (xs.set i v) := by
  induction as generalizing xs i with
  | nil => cases i <;> simp [List.modify]
  | cons a as ih =>
    cases xs with
    | nil => cases i <;> simp [List.modify]
    | cons x xs => cases i <;> simp [ih]
end
end Verif.Gen
