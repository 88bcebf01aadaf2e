import Verif.Rb.AnyProps
import Verif.Rb.ContainerProps2
/-!
# Writing to the elements of a `ttl::set` through its iterators

`set::iterator::operator*` answers a reference to the key that is not const (set.hpp:50), so `*it = v` compiles. `storeData n v` (of `Verif.Rb.Reach`) is that statement, `n` being the iterator's
position. The key function is the identity: the elements of a set are its keys.
-/
set_option linter.unusedSimpArgs false
set_option linter.unusedSectionVars false
set_option linter.unusedVariables false
namespace Verif.Rb.Edit
open Verif Tree
variable {K : Type} [DecidableEq K] {lt : K → K → Bool}

/-- Memories a client can reach with calls of set members and with assignments `*it = v` to an element, where `v` is greater than the elements before and less than those behind it. -/
inductive Edited [DecidableEq K] (lt : K → K → Bool) : List Addr → Heap K → Prop where
  | start (junk : Addr → RbNode) : Edited lt [] (emptyMemory junk)
  | step {objs h objs' h'} (c : Call K K) : Edited lt objs h → c.Legal objs → call lt id objs c h = .ok (objs', h') → Edited lt objs' h'
  | env {objs h h'} : Edited lt objs h → Env h h' → Edited lt objs h'
  | write {objs h h' c A e B v} : Edited lt objs h → c ∈ objs → entries c h = .ok (A ++ e :: B, h) → (∀ a ∈ A, lt a.2 v = true) → (∀ b ∈ B, lt v b.2 = true) →
      storeData e.1 v h = .ok ((), h') → Edited lt objs h'

/-- Memories a client can reach with calls of set members and with any assignments `*it = v` to elements. As with any comparator (C123), `erase(k)` is left out if an element equal to `k` is
followed by one not greater than `k`. -/
inductive Scribbled [DecidableEq K] (lt : K → K → Bool) : List Addr → Heap K → Prop where
  | start (junk : Addr → RbNode) : Scribbled lt [] (emptyMemory junk)
  | step {objs h objs' h'} (c : Call K K) : Scribbled lt objs h → c.Legal objs → AnyOrder.Keeps lt id h c → call lt id objs c h = .ok (objs', h') → Scribbled lt objs' h'
  | env {objs h h'} : Scribbled lt objs h → Env h h' → Scribbled lt objs h'
  | write {objs h h' c es e v} : Scribbled lt objs h → c ∈ objs → entries c h = .ok (es, h) → e ∈ es → storeData e.1 v h = .ok ((), h') → Scribbled lt objs h'

theorem sees {h : Heap K} {c : Addr} {es es' : List (Addr × K)} {t : Heap K} (o : Owns h c es) (he : entries c h = .ok (es', t)) : es' = es := by
  have := he.symm.trans o.entries
  simp only [Res.ok.injEq, Prod.mk.injEq] at this
  exact this.1

/-- The assignment, in a memory that consists of containers. -/
theorem store_world {h : Heap K} {ws : List (Addr × List (Addr × K))} (W : World h ws) {c : Addr} {A B : List (Addr × K)} {e : Addr × K} (hw : (c, A ++ e :: B) ∈ ws) (v : K) :
    ∃ L R h', ws = L ++ (c, A ++ e :: B) :: R ∧ storeData e.1 v h = .ok ((), h') ∧ World h' (L ++ (c, A ++ (e.1, v) :: B) :: R) := by
  obtain ⟨L, R, q⟩ := List.append_of_mem hw
  obtain ⟨h', q', o', ef, _, _⟩ := storeData_owns W.wf (W.owns _ hw) v
  exact ⟨L, R, h', q, q', (q ▸ W).step ef o'⟩

theorem at_ {h : Heap K} {ws : List (Addr × List (Addr × K))} (W : World h ws) {c : Addr} (hc : c ∈ ws.map Prod.fst) {es : List (Addr × K)} {t : Heap K}
    (he : entries c h = .ok (es, t)) : (c, es) ∈ ws := by
  obtain ⟨L, es', R, q⟩ := split_at hc
  have hw : (c, es') ∈ ws := by rw [q]; simp
  rw [sees (W.owns _ hw) he]; exact hw

theorem Edited.inv (ho : StrictTotalOrder lt) {objs : List Addr} {h : Heap K} (r : Edited lt objs h) : Inv lt id objs h := by
  induction r with
  | start junk => exact Inv.start junk
  | step c _ hl e ih =>
    obtain ⟨objs', h', e', I, _⟩ := call_ok ho ih c hl
    rw [e] at e'
    simp only [Res.ok.injEq, Prod.mk.injEq] at e'
    obtain ⟨rfl, rfl⟩ := e'
    exact I
  | env _ e ih =>
    obtain ⟨ws, W, q, a⟩ := ih
    exact ⟨ws, W.env e, q, a⟩
  | @write objs h h' c A e B v _ hc he hA hB es ih =>
    obtain ⟨ws, W, rfl, a⟩ := ih
    have hw := at_ W hc he
    obtain ⟨L, R, h1, rfl, q, W'⟩ := store_world W hw v
    rw [es] at q
    simp only [Res.ok.injEq, Prod.mk.injEq, true_and] at q
    subst q
    refine ⟨_, W', by simp, fun w hw' => ?_⟩
    simp only [List.mem_append, List.mem_cons] at hw'
    rcases hw' with hw' | rfl | hw'
    · exact a w (by simp [hw'])
    · have := a _ hw
      simp only [Ascending, List.pairwise_append, List.pairwise_cons, List.mem_cons, id] at this ⊢
      grind
    · exact a w (by simp [hw'])

theorem Scribbled.inv {objs : List Addr} {h : Heap K} (r : Scribbled lt objs h) : AnyOrder.Inv objs h := by
  induction r with
  | start junk => exact ⟨[], ⟨⟨Nat.zero_lt_one, fun _ _ => ⟨rfl, rfl⟩⟩, by simp, by simp, by simp [emptyMemory]⟩, rfl⟩
  | step c _ hl hk e ih =>
    obtain ⟨objs', h', e', I, _⟩ := AnyOrder.call_ok ih c hl hk
    rw [e] at e'
    simp only [Res.ok.injEq, Prod.mk.injEq] at e'
    obtain ⟨rfl, rfl⟩ := e'
    exact I
  | env _ e ih =>
    obtain ⟨ws, W, q⟩ := ih
    exact ⟨ws, W.env e, q⟩
  | @write objs h h' c es e v _ hc he hm es' ih =>
    obtain ⟨ws, W, rfl⟩ := ih
    obtain ⟨A, B, rfl⟩ := List.append_of_mem hm
    obtain ⟨L, R, h1, rfl, q, W'⟩ := store_world W (at_ W hc he) v
    rw [es'] at q
    simp only [Res.ok.injEq, Prod.mk.injEq, true_and] at q
    subst q
    exact ⟨_, W', by simp⟩

/-! ## Assignments that keep the order -/

theorem others {h h' : Heap K} {L R : List (Addr × List (Addr × K))} {c : Addr} {es es' : List (Addr × K)} (W : World h (L ++ (c, es) :: R)) (W' : World h' (L ++ (c, es') :: R))
    {d : Addr} (hd : d ∈ (L ++ (c, es) :: R).map Prod.fst) (hne : d ≠ c) {fs : List (Addr × K)} {t : Heap K} (he : entries d h = .ok (fs, t)) : entries d h' = .ok (fs, h') := by
  have hm := at_ W hd he
  refine (W'.owns (d, fs) ?_).entries
  simp only [List.mem_append, List.mem_cons, Prod.mk.injEq] at hm ⊢
  rcases hm with hm | ⟨q, _⟩ | hm
  · exact Or.inl hm
  · exact absurd q hne
  · exact Or.inr (Or.inr hm)

/-- An element of a set is assigned a key that is greater than all before and less than all behind it: the set consists of the same elements, at the same places, with the new key, and of
nothing else; other sets are as before. -/
theorem write_in_place_partial (ho : StrictTotalOrder lt) {objs : List Addr} {h : Heap K} (r : Edited lt objs h) {c : Addr} (hc : c ∈ objs) {A B : List (Addr × K)} {e : Addr × K}
    (he : entries c h = .ok (A ++ e :: B, h)) (v : K) (hA : ∀ a ∈ A, lt a.2 v = true) (hB : ∀ b ∈ B, lt v b.2 = true) :
    ∃ h', storeData e.1 v h = .ok ((), h') ∧ Edited lt objs h' ∧ entries c h' = .ok (A ++ (e.1, v) :: B, h') ∧
      ∀ d ∈ objs, d ≠ c → ∀ fs, entries d h = .ok (fs, h) → entries d h' = .ok (fs, h') := by
  obtain ⟨ws, W, rfl, a⟩ := r.inv ho
  obtain ⟨L, R, h', rfl, q, W'⟩ := store_world W (at_ W hc he) v
  exact ⟨h', q, r.write hc he hA hB q, (W'.owns (c, _) (by simp)).entries, fun d hd hne fs hf => others W W' hd hne hf⟩

/-- In every history of calls and of assignments that keep the order, every legal call returns and leaves the sets it does not change alone. -/
theorem edited_calls_return_partial (ho : StrictTotalOrder lt) {objs : List Addr} {h : Heap K} (r : Edited lt objs h) (c : Call K K) (hl : c.Legal objs) :
    ∃ objs' h', call lt id objs c h = .ok (objs', h') ∧ Edited lt objs' h' ∧
      ∀ d ∈ objs, d ∉ c.changes → ∀ es, entries d h = .ok (es, h) → d ∈ objs' ∧ entries d h' = .ok (es, h') := by
  obtain ⟨objs', h', e, _, keep⟩ := call_ok ho (r.inv ho) c hl
  refine ⟨objs', h', e, r.step c hl e, fun d hd hn es he => ?_⟩
  obtain ⟨ws, W, rfl, _⟩ := r.inv ho
  obtain ⟨k1, k2⟩ := keep d es hd hn (W.owns _ (at_ W hd he))
  exact ⟨k1, k2.entries⟩

/-- In every history of calls and of assignments that keep the order, a set behaves as the set of the keys its loops see: they are ascending; `find` answers the element with the key, `end()` if
there is none; `insert` adds exactly a key that is not there yet; `erase` removes exactly the element with the key. -/
theorem edited_members_partial (ho : StrictTotalOrder lt) {objs : List Addr} {h : Heap K} (r : Edited lt objs h) {c : Addr} (hc : c ∈ objs) (k : K) :
    ∃ es, entries c h = .ok (es, h) ∧ entriesBackward c h = .ok (es.reverse, h) ∧ es.Pairwise (fun a b => lt a.2 b.2 = true) ∧
      (∃ x h', find lt id c k h = .ok (x, h') ∧ ((x = c ∧ ∀ e ∈ es, e.2 ≠ k) ∨ (x, k) ∈ es)) ∧
      (∃ x b h', insertUnique lt id c k h = .ok ((x, b), h') ∧
        ((b = false ∧ (x, k) ∈ es ∧ entries c h' = .ok (es, h')) ∨ (b = true ∧ (∀ e ∈ es, e.2 ≠ k) ∧ ∃ A B, es = A ++ B ∧ entries c h' = .ok (A ++ (x, k) :: B, h')))) ∧
      (∃ n h', erase lt id c k h = .ok (n, h') ∧
        ((n = 0 ∧ (∀ e ∈ es, e.2 ≠ k) ∧ entries c h' = .ok (es, h')) ∨ (n = 1 ∧ ∃ A x B, es = A ++ (x, k) :: B ∧ entries c h' = .ok (A ++ B, h')))) := by
  obtain ⟨ws, W, rfl, a⟩ := r.inv ho
  obtain ⟨L, es, R, q⟩ := split_at hc
  have hw : (c, es) ∈ ws := by rw [q]; simp
  have o := W.owns _ hw
  have as := a _ hw
  refine ⟨es, o.entries, o.entriesBackward, as, ?_, ?_, ?_⟩
  · obtain ⟨n, _, q⟩ := find_owns ho o as k
    refine ⟨_, _, q, ?_⟩
    cases hf : es.find? (fun e => decide (id e.2 = k)) with
    | none =>
      left
      rw [List.find?_eq_none] at hf
      exact ⟨rfl, fun e he => by simpa using hf e he⟩
    | some e =>
      right
      have h1 := List.find?_some hf
      have h2 : e.2 = k := by simpa using h1
      simp only [Option.map_some, Option.getD_some, ← h2]
      exact List.mem_of_find?_eq_some hf
  · obtain ⟨n, hn, hcase⟩ := insertUnique_owns ho W.wf o as k
    rcases hcase with ⟨e, he, hk, q⟩ | ⟨A, B, h', rfl, hA, hB, q, o', _⟩
    · refine ⟨e.1, false, h.tick n, q, Or.inl ⟨rfl, ?_, (o.tick n).entries⟩⟩
      have : e.2 = k := hk
      rw [← this]; exact he
    · refine ⟨h.next, true, h', q, Or.inr ⟨rfl, fun e he q' => ?_, A, B, rfl, o'.entries⟩⟩
      rcases List.mem_append.1 he with hm | hm
      · have := hA e hm
        simp only [id, q', ho.irrefl] at this; cases this
      · have := hB e hm
        simp only [id, q', ho.irrefl] at this; cases this
  · obtain ⟨h', _, _, hcase⟩ := erase_owns ho W.wf o as k
    rcases hcase with ⟨hno, q, o', _⟩ | ⟨A, e, B, rfl, hk, q, o', _⟩
    · exact ⟨0, h', q, Or.inl ⟨rfl, hno, o'.entries⟩⟩
    · refine ⟨1, h', q, Or.inr ⟨rfl, A, e.1, B, ?_, o'.entries⟩⟩
      have : e.2 = k := hk
      rw [← this]

/-! ## Any assignments -/

/-- Whatever keys are assigned, nothing but the values seen changes: the loops see the same places with the new value, other sets are as before. -/
theorem write_anything {objs : List Addr} {h : Heap K} (r : Scribbled lt objs h) {c : Addr} (hc : c ∈ objs) {A B : List (Addr × K)} {e : Addr × K}
    (he : entries c h = .ok (A ++ e :: B, h)) (v : K) :
    ∃ h', storeData e.1 v h = .ok ((), h') ∧ Scribbled lt objs h' ∧ entries c h' = .ok (A ++ (e.1, v) :: B, h') ∧
      ∀ d ∈ objs, d ≠ c → ∀ fs, entries d h = .ok (fs, h) → entries d h' = .ok (fs, h') := by
  obtain ⟨ws, W, rfl⟩ := r.inv
  obtain ⟨L, R, h', rfl, q, W'⟩ := store_world W (at_ W hc he) v
  exact ⟨h', q, r.write hc he (by simp) q, (W'.owns (c, _) (by simp)).entries, fun d hd hne fs hf => others W W' hd hne hf⟩

/-- Whatever keys are assigned, every legal call (but an `erase` of a key that is followed by one not greater) returns and leaves the sets it does not change alone. -/
theorem scribbled_calls_return {objs : List Addr} {h : Heap K} (r : Scribbled lt objs h) (c : Call K K) (hl : c.Legal objs) (hk : AnyOrder.Keeps lt id h c) :
    ∃ objs' h', call lt id objs c h = .ok (objs', h') ∧ Scribbled lt objs' h' ∧
      ∀ d ∈ objs, d ∉ c.changes → ∀ es, entries d h = .ok (es, h) → d ∈ objs' ∧ entries d h' = .ok (es, h') := by
  obtain ⟨objs', h', e, _, keep⟩ := AnyOrder.call_ok r.inv c hl hk
  refine ⟨objs', h', e, r.step c hl hk e, fun d hd hn es he => ?_⟩
  obtain ⟨ws, W, rfl⟩ := r.inv
  obtain ⟨k1, k2⟩ := keep d es hd hn (W.owns _ (at_ W hd he))
  exact ⟨k1, k2.entries⟩

/-- Whatever keys are assigned, loops forwards and backwards see the same elements, each once, and `find` answers `end()` or an element equal to the key. -/
theorem scribbled_members {objs : List Addr} {h : Heap K} (r : Scribbled lt objs h) {c : Addr} (hc : c ∈ objs) (k : K) :
    ∃ es, entries c h = .ok (es, h) ∧ entriesBackward c h = .ok (es.reverse, h) ∧ (es.map Prod.fst).Nodup ∧
      ∃ x h', find lt id c k h = .ok (x, h') ∧ entries c h' = .ok (es, h') ∧ (x = c ∨ (x, k) ∈ es) := by
  obtain ⟨ws, W, rfl⟩ := r.inv
  obtain ⟨L, es, R, q⟩ := split_at hc
  have o := W.owns (c, es) (by rw [q]; simp)
  have hn := o.cells_nodup
  simp only [cells, List.nodup_cons] at hn
  refine ⟨es, o.entries, o.entriesBackward, hn.2, ?_⟩
  obtain ⟨n, _, hf⟩ := AnyOrder.find_any (lt := lt) (keyOf := id) o k
  rcases hf with ⟨e, he, hk, q⟩ | q
  · have : e.2 = k := hk
    exact ⟨e.1, h.tick n, q, (o.tick n).entries, Or.inr (by rw [← this]; exact he)⟩
  · exact ⟨c, h.tick n, q, (o.tick n).entries, Or.inl rfl⟩

/-- Whatever keys are assigned, nothing leaks: when all sets are gone no node is left. -/
theorem scribbled_no_leak {h : Heap K} (r : Scribbled lt [] h) (x : Addr) : h.node x = none := by
  obtain ⟨ws, W, e⟩ := r.inv
  have hw : ws = [] := by simpa using e
  subst hw
  cases hn : h.node x with
  | none => rfl
  | some n => exact absurd (W.tight x (by simp [hn])) (by simp)

/-! ## An assignment that breaks the order -/

/-- After `*it = v` with the iterator at `e`, loops see the element `v`, but `find(v)` answers `end()`. -/
def Missed (lt : K → K → Bool) (h : Heap K) (c : Addr) (e : Addr × K) (v : K) : Prop :=
  ∃ h' h'' es', storeData e.1 v h = .ok ((), h') ∧ entries c h' = .ok (es', h') ∧ (e.1, v) ∈ es' ∧ find lt id c v h' = .ok (c, h'')

/-- Every set with at least two elements has an element `e` and a key `k` such that assigning to `e` a new key less than `k`, whichever (or: greater than `k`, whichever), makes `find` miss it. -/
theorem find_misses_rekeyed (ho : StrictTotalOrder lt) {objs : List Addr} {h : Heap K} (r : Edited lt objs h) {c : Addr} (hc : c ∈ objs) {es : List (Addr × K)}
    (he : entries c h = .ok (es, h)) (two : 2 ≤ es.length) :
    ∃ e ∈ es, ∃ k ∈ es.map Prod.snd, (∀ v, v ∉ es.map Prod.snd → lt v k = true → Missed lt h c e v) ∨ (∀ v, v ∉ es.map Prod.snd → lt k v = true → Missed lt h c e v) := by
  obtain ⟨ws, W, rfl, asc⟩ := r.inv ho
  have o := W.owns _ (at_ W hc he)
  have o0 := o
  obtain ⟨t, rt, b, i, d⟩ := o
  have nd := rt.rep
  cases t with
  | leaf =>
    have : es.length = 0 := by have := congrArg List.length i; simpa using this.symm
    omega
  | node a col l r =>
    have ha : a ∈ es.map Prod.fst := by rw [← i]; simp
    obtain ⟨ea, hea, rfl⟩ := List.mem_map.1 ha
    have main : ∀ e ∈ es, ∀ v, v ∉ es.map Prod.snd → e.1 ≠ ea.1 →
        ((lt v ea.2 = true ∧ e.1 ∉ l.inorder) ∨ (lt ea.2 v = true ∧ e.1 ∉ r.inorder)) → Missed lt h c e v := by
      intro e hm v hv hne side
      obtain ⟨A, B, rfl⟩ := List.append_of_mem hm
      obtain ⟨h', q, o', _, _, _⟩ := storeData_owns W.wf o0 v
      have hh : h' = { h with data := fun x => if x = e.1 then some v else h.data x } := by
        have q2 := q
        unfold storeData at q2
        rw [d e (by simp)] at q2
        simp only [Res.ok.injEq, Prod.mk.injEq, true_and] at q2
        exact q2.symm
      have rt' : RepTree h' c (.node ea.1 col l r) := rt.congr (fun x _ => by rw [hh])
      obtain ⟨_, _, _, _, d'⟩ := o'
      have i' : (Tree.node ea.1 col l r).inorder = (A ++ (e.1, v) :: B).map Prod.fst := by rw [i]; simp
      have ks := keys_of (keyOf := id) (dflt := v) d'
      rw [← i'] at ks
      have o' : Owns h' c (A ++ (e.1, v) :: B) := ⟨_, rt', b, i', d'⟩
      have hd' : h'.data ea.1 = some ea.2 := by rw [hh]; simp only [if_neg (Ne.symm hne)]; exact d ea hea
      obtain ⟨n1, n2, n3, n4⟩ := rt'.rep
      have n1' : (h'.tick 1).node ea.1 = some ⟨_, l.addr, r.addr, col⟩ := n1
      -- a subtree without `e` has no element `v`
      have sub : ∀ s : Tree, (∀ x ∈ s.inorder, x ∈ (Tree.node ea.1 col l r).inorder) → e.1 ∉ s.inorder → Rep (h'.tick 1) s ea.1 →
          ∃ n, findLoop lt id v s.addr (h'.tick 1) = .ok (0, h'.tick n) := by
        intro s hs no rs
        obtain ⟨n, x, _, f, g⟩ := AnyOrder.findLoop_any (lt := lt) (keyOf := id) v rs (fun y hy => ks y (hs y hy))
        rcases g with ⟨g1, g2⟩ | rfl
        · exfalso
          have gm : x ∈ (A ++ e :: B).map Prod.fst := by rw [← i]; exact hs x g1
          obtain ⟨y, hy, rfl⟩ := List.mem_map.1 gm
          have hye : y.1 ≠ e.1 := fun q => no (q ▸ g1)
          have hy' : y ∈ A ++ (e.1, v) :: B := by
            simp only [List.mem_append, List.mem_cons] at hy ⊢
            rcases hy with hy | rfl | hy
            · exact Or.inl hy
            · exact absurd rfl hye
            · exact Or.inr (Or.inr hy)
          rw [kfOf_mem (d' y hy')] at g2
          have : y.2 = v := g2
          exact hv (this ▸ List.mem_map_of_mem hy)
        · exact ⟨1 + n, by rw [f, tick_tick]⟩
      have hva : v ≠ ea.2 := fun q => hv (q ▸ List.mem_map_of_mem hea)
      have loop : ∃ n, findLoop lt id v ea.1 h' = .ok (0, h'.tick n) := by
        rw [findLoop, if_neg n2]
        simp only [Prog.bind_app, dataOf_eq hd', Res.bind_ok, less_app, Prog.ite_app, nd_eq n1', id]
        rcases side with ⟨s1, s2⟩ | ⟨s1, s2⟩
        · rw [if_pos s1]
          exact sub l (fun x hx => by simp [hx]) s2 (n3.congr fun _ _ => rfl)
        · rw [if_neg (by rw [ho.asymm s1]; simp), if_neg hva]
          exact sub r (fun x hx => by simp [hx]) s2 (n4.congr fun _ _ => rfl)
      obtain ⟨n, hn⟩ := loop
      refine ⟨h', h'.tick n, _, q, o'.entries, by simp, ?_⟩
      unfold find
      have hr : rootOf c h' = .ok (ea.1, h') := root_of_zip rt'
      simp only [Prog.bind_app, hr, Res.bind_ok, hn, Prog.pure_app, ne_eq, not_true_eq_false, if_false]
    have nodup : (l.inorder ++ ea.1 :: r.inorder).Nodup := by
      have hn := o0.cells_nodup
      simp only [cells, List.nodup_cons] at hn
      have := hn.2
      rw [← i] at this
      exact this
    have i2 : l.inorder ++ ea.1 :: r.inorder = es.map Prod.fst := i
    rw [List.nodup_append, List.nodup_cons] at nodup
    obtain ⟨_, ⟨nr, _⟩, dis⟩ := nodup
    by_cases hl : l.inorder = []
    · have : ∃ y, y ∈ r.inorder := by
        cases hr : r.inorder with
        | nil =>
          rw [hl, hr] at i2
          have := congrArg List.length i2
          simp at this; omega
        | cons y ys => exact ⟨y, by simp⟩
      obtain ⟨y, hy⟩ := this
      have : y ∈ es.map Prod.fst := by rw [← i2]; simp [hy]
      obtain ⟨e, hm, rfl⟩ := List.mem_map.1 this
      refine ⟨e, hm, ea.2, List.mem_map_of_mem hea, Or.inl fun v hv hlt => main e hm v hv (fun q => nr (q ▸ hy)) (Or.inl ⟨hlt, by rw [hl]; simp⟩)⟩
    · obtain ⟨y, hy⟩ := List.exists_mem_of_ne_nil _ hl
      have : y ∈ es.map Prod.fst := by rw [← i2]; simp [hy]
      obtain ⟨e, hm, rfl⟩ := List.mem_map.1 this
      exact ⟨e, hm, ea.2, List.mem_map_of_mem hea, Or.inr fun v hv hlt => main e hm v hv (dis e.1 hy ea.1 (by simp))
        (Or.inr ⟨hlt, fun q => dis e.1 hy e.1 (by simp [q]) rfl⟩)⟩

theorem edited_of_reach {objs : List Addr} {h : Heap K} (r : Reach lt id objs h) : Edited lt objs h := by
  induction r with
  | start junk => exact .start junk
  | step c _ hl e ih => exact ih.step c hl e
  | env _ e ih => exact ih.env e

/-- The set `{2, 5, 7}`: the 5 can be made a 6, and 6 is found; and there is an element that, made a 1 or a 9, is not found although it is there. -/
example : ∃ c h es, Reach (fun a b : Nat => decide (a < b)) id [c] h ∧ entries c h = .ok (es, h) ∧ es.map Prod.snd = [2, 5, 7] ∧
    (∃ x h' h'', storeData x 6 h = .ok ((), h') ∧ find (fun a b : Nat => decide (a < b)) id c 6 h' = .ok (x, h'')) ∧
    ∃ e ∈ es, Missed (fun a b : Nat => decide (a < b)) h c e 1 ∨ Missed (fun a b : Nat => decide (a < b)) h c e 9 := by
  obtain ⟨c, h, es, r, he, hv⟩ := Container.exists_reach_257
  refine ⟨c, h, es, r, he, hv, ?_, ?_⟩
  · obtain ⟨x, l1, rfl, hx, hv1⟩ := List.map_eq_cons_iff.1 hv
    obtain ⟨y, l2, rfl, hy, hv2⟩ := List.map_eq_cons_iff.1 hv1
    obtain ⟨z, l3, rfl, hz, hv3⟩ := List.map_eq_cons_iff.1 hv2
    obtain rfl : l3 = [] := by simpa using hv3
    · have hv : x.2 = 2 ∧ y.2 = 5 ∧ z.2 = 7 := ⟨hx, hy, hz⟩
      obtain ⟨h', q, E, e', _⟩ := write_in_place_partial natOrder (edited_of_reach r) (c := c) (by simp) (A := [x]) (e := y) (B := [z]) he 6
        (by simp [hv.1]) (by simp [hv.2.2])
      obtain ⟨es', e2, _, asc, ⟨w, h'', f, g⟩, _⟩ := edited_members_partial natOrder E (c := c) (by simp) 6
      rw [e'] at e2
      simp only [Res.ok.injEq, Prod.mk.injEq, and_true] at e2
      subst e2
      refine ⟨y.1, h', h'', q, ?_⟩
      rcases g with ⟨_, g⟩ | g
      · exact absurd rfl (g (y.1, 6) (by simp))
      · have g' : (w, 6) = x ∨ (w, 6) = (y.1, 6) ∨ (w, 6) = z := by simpa using g
        rcases g' with rfl | g' | rfl
        · simp at hv
        · simp only [Prod.mk.injEq, and_true] at g'; rw [← g']; exact f
        · simp at hv
  · obtain ⟨e, hm, k, hk, g⟩ := find_misses_rekeyed natOrder (edited_of_reach r) (c := c) (by simp) he (by have := congrArg List.length hv; simp at this; omega)
    rw [hv] at hk g
    have hk' : 1 < k ∧ k < 9 := by simp at hk; omega
    refine ⟨e, hm, ?_⟩
    rcases g with g | g
    · exact Or.inl (g 1 (by simp) (by simpa using hk'.1))
    · exact Or.inr (g 9 (by simp) (by simpa using hk'.2))
end Verif.Rb.Edit
