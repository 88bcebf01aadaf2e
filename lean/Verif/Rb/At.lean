import Verif.Rb.Ref
import Verif.Rb.Header
/-!
# `map::at` (C113)
-/
set_option linter.unusedSimpArgs false
set_option linter.unusedSectionVars false
set_option linter.unusedVariables false
namespace Verif.Rb.MapAt
open Verif Tree
variable {K T : Type} [DecidableEq K] {lt : K → K → Bool}

theorem find_entry (ho : StrictTotalOrder lt) {h : Heap (K × T)} {c : Addr} {A B : List (Addr × (K × T))} {x : Addr} {k : K} {t : T}
    (o : Owns h c (A ++ (x, (k, t)) :: B)) (a : Ascending lt Prod.fst (A ++ (x, (k, t)) :: B)) :
    ∃ n, find lt Prod.fst c k h = .ok (x, h.tick n) := by
  obtain ⟨n, _, q⟩ := find_owns ho o a k
  refine ⟨n, ?_⟩
  rw [q]
  cases hq : (A ++ (x, (k, t)) :: B).find? (fun e => decide (e.2.1 = k)) with
  | none =>
    rw [List.find?_eq_none] at hq
    exact absurd (by simp) (hq (x, (k, t)) (by simp))
  | some e =>
    have h1 := List.find?_some hq
    rw [sorted_inj ho (kf := fun e : Addr × (K × T) => e.2.1) a (List.mem_of_find?_eq_some hq) (y := (x, (k, t))) (by simp) (by simpa using h1)]
    rfl

/-- `m.at(k)` of a present key reads its value and changes nothing; `m.at(k) = t` replaces exactly that value. -/
theorem at_present_partial (ho : StrictTotalOrder lt) {objs : List Addr} {h : Heap (K × T)} (r : Reach lt Prod.fst objs h) {c : Addr}
    (hc : c ∈ objs) {A B : List (Addr × (K × T))} {x : Addr} {k : K} {t : T}
    (he : entries c h = .ok (A ++ (x, (k, t)) :: B, h)) (u : T) :
    (∃ h', atKey lt c k h = .ok (t, h') ∧ entries c h' = .ok (A ++ (x, (k, t)) :: B, h') ∧ Reach lt Prod.fst objs h') ∧
    (∃ h', atAssign lt c k u h = .ok ((), h') ∧ entries c h' = .ok (A ++ (x, (k, u)) :: B, h') ∧ Reach lt Prod.fst objs h' ∧
      ∀ d ∈ objs, d ≠ c → ∀ ds, entries d h = .ok (ds, h) → entries d h' = .ok (ds, h')) := by
  obtain ⟨o, a, w⟩ := Container.owns_of_entries ho r hc he
  obtain ⟨n, q⟩ := find_entry ho o a
  have hd : (h.tick n).data x = some (k, t) := by
    obtain ⟨_, _, _, _, dd⟩ := o
    exact dd (x, (k, t)) (by simp)
  have hno := o.cells_nodup
  simp only [cells, List.nodup_cons] at hno
  have hne : x ≠ c := fun e => hno.1 (e ▸ List.mem_map_of_mem (f := Prod.fst) (by simp : (x, (k, t)) ∈ A ++ (x, (k, t)) :: B))
  refine ⟨⟨h.tick n, ?_, (o.tick n).entries, ?_⟩, ?_⟩
  · simp only [atKey, Prog.bind_app, q, Res.bind_ok, dataOf_eq hd, Prog.pure_app]
  · exact r.step (.find c k) ⟨by simpa [Call.args] using hc, by simp⟩ (by simp only [call, Prog.bind_app, q, Res.bind_ok, Prog.pure_app])
  · obtain ⟨h', q', o', ef, _, _⟩ := storeData_owns (w.tick n) (o.tick n) (k, u)
    have q2 : storeSecond x u (h.tick n) = .ok ((), h') := by
      unfold storeData at q'
      unfold storeSecond
      rw [hd] at q' ⊢
      exact q'
    have hl : (Call.store c (k, u) : Call K (K × T)).Legal objs := ⟨by simpa [Call.args] using hc, by simp⟩
    have hcall : call lt Prod.fst objs (.store c (k, u)) h = .ok (objs, h') := by
      simp only [call, Prog.bind_app, q, q', Res.bind_ok, if_neg hne, Prog.ite_app, Prog.pure_app]
    refine ⟨h', by simp only [atAssign, Prog.bind_app, q, Res.bind_ok, q2], o'.entries, r.step _ hl hcall, ?_⟩
    intro d hd' hdc ds hds
    obtain ⟨objs', h2, e2, _, keep⟩ := call_ok ho (r.inv ho) (.store c (k, u)) hl
    rw [hcall] at e2
    simp only [Res.ok.injEq, Prod.mk.injEq] at e2
    obtain ⟨rfl, rfl⟩ := e2
    obtain ⟨od, _, _⟩ := Container.owns_of_entries ho r hd' hds
    exact (keep d ds hd' (by simpa [Call.changes] using hdc) od).2.entries

/-- `m.at(k)` of an absent key reads past the header: undefined behaviour for every map and key. -/
theorem at_absent_ub (ho : StrictTotalOrder lt) {objs : List Addr} {h : Heap (K × T)} (r : Reach lt Prod.fst objs h) {c : Addr}
    (hc : c ∈ objs) {es : List (Addr × (K × T))} (he : entries c h = .ok (es, h)) {k : K} (hk : ∀ e ∈ es, e.2.1 ≠ k) :
    atKey lt c k h = .ub .access := by
  obtain ⟨o, a, w⟩ := Container.owns_of_entries ho r hc he
  obtain ⟨n, _, q⟩ := find_owns ho o a k
  have : es.find? (fun e => decide (e.2.1 = k)) = none := by
    rw [List.find?_eq_none]; intro e he; simpa using hk e he
  rw [this] at q
  simp only [Option.map_none, Option.getD_none] at q
  simp only [atKey, Prog.bind_app, q, Res.bind_ok]
  unfold dataOf
  have : (h.tick n).data c = none := (Header.header_bare ho r c hc).2
  rw [this]
  rfl

/-- A map with the keys 2, 5, 7: `at(5)` reads and assigns, `at(4)` is undefined. -/
example : ∃ c h es, Reach (fun a b : Nat => decide (a < b)) Prod.fst [c] h ∧ entries c h = .ok (es, h) ∧
    es.map Prod.snd = [(2, 'a'), (5, 'b'), (7, 'c')] ∧
    (∃ h', atKey (fun a b : Nat => decide (a < b)) c 5 h = .ok ('b', h')) ∧
    (∃ h' es', atAssign (fun a b : Nat => decide (a < b)) c 5 'x' h = .ok ((), h') ∧ entries c h' = .ok (es', h') ∧
      es'.map Prod.snd = [(2, 'a'), (5, 'x'), (7, 'c')]) ∧
    atKey (fun a b : Nat => decide (a < b)) c 4 h = .ub .access := by
  obtain ⟨c, h, es, r, e, q⟩ := Container.exists_reach (keyOf := fun p : Nat × Char => p.1) natOrder [(2, 'a'), (5, 'b'), (7, 'c')] (by simp)
  refine ⟨c, h, es, r, e, q, ?_⟩
  match es, q with
  | [(x, _), (y, _), (z, _)], q =>
    simp only [List.map_cons, List.map_nil, List.cons.injEq, and_true] at q
    obtain ⟨rfl, rfl, rfl⟩ := q
    obtain ⟨⟨h1, q1, _⟩, ⟨h2, q2, e2, _⟩⟩ := at_present_partial natOrder r (by simp) (A := [(x, (2, 'a'))]) (B := [(z, (7, 'c'))]) e 'x'
    exact ⟨⟨h1, q1⟩, ⟨h2, _, q2, e2, rfl⟩, at_absent_ub natOrder r (by simp) e (by simp)⟩

end Verif.Rb.MapAt
