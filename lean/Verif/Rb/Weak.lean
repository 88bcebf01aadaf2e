import Verif.Rb.AnyProps
/-!
# `ttl::map` and `ttl::set` with a comparator that is only a strict weak ordering (C111)

A comparator such as "compare case-insensitively" makes unequal keys equivalent. The tree's search loops test `key < x` and then
`key == x`, so they do not recognise an equivalent unequal key. As long as no element is erased that is followed by an equivalent
one (C111; see `Rb/WeakErase.lean` for what happens otherwise) the container stays a balanced tree in
weakly ascending order, but it may hold equivalent keys and lookups of keys that are present may fail.
-/
set_option linter.unusedSimpArgs false
set_option linter.unusedSectionVars false
set_option linter.unusedVariables false
namespace Verif.Rb.Weak
open Verif Tree
variable {K V : Type}

open Verif.Rb.AnyOrder (Keeps Grown)
variable [DecidableEq K] {lt : K → K → Bool} {keyOf : V → K}

/-! ## The search loops -/

/-- The loop of `insert_unique` stops at an equal key or ends where `insert_equal` would. -/
theorem insUqLoop_weak (ho : StrictWeakOrder lt) {kf : Addr → K} {key : K} {h : Heap V} {hd : Addr}
    {k : List Frame} {t : Tree} (hr : RepTree h hd (zip k t)) (hk : Keys keyOf h t.inorder kf)
    (hlo : ∀ x ∈ pre k, lt key (kf x) = false) (hhi : ∀ x ∈ post k, lt key (kf x) = true)
    (hs : WeakSortedBy lt kf t.inorder) :
    ∃ n, n ≤ t.height ∧ ((∃ x ∈ t.inorder, kf x = key ∧
        insUqLoop lt keyOf hd key (ctxEdge k) (ctxParent hd k) h = .ok (.inl x, h.tick n)) ∨
      (∃ k', zip k' leaf = zip k t ∧ (∀ x ∈ pre k', lt key (kf x) = false) ∧
        (∀ x ∈ post k', lt key (kf x) = true) ∧
        insUqLoop lt keyOf hd key (ctxEdge k) (ctxParent hd k) h = .ok (.inr (ctxEdge k', ctxParent hd k'), h.tick n) ∧
        ((∀ y ∈ t.inorder, kf y ≠ key) ∨ ∃ y ∈ t.inorder, kf y ≠ key ∧ lt key (kf y) = false ∧ lt (kf y) key = false))) := by
  induction t generalizing k h with
  | leaf =>
    refine ⟨0, Nat.zero_le _, Or.inr ⟨k, rfl, hlo, hhi, ?_, Or.inl (by simp)⟩⟩
    rw [insUqLoop]
    simp [(repTree_zip.1 hr).1.rd, tick_zero]
  | node a c l r ihl ihr =>
    obtain ⟨hc, htr, _, _⟩ := repTree_zip.1 hr
    obtain ⟨h1, h2, h3, h4⟩ := htr
    obtain ⟨v, hv, hkv⟩ := hk a (by simp)
    obtain ⟨s1, s2, s3, s4⟩ := weak_node hs
    have hrd := hc.rd
    simp only [addr_node] at hrd
    rw [insUqLoop]
    simp only [hrd, if_neg h2, Prog.bind_app, dataOf_eq hv, Res.bind_ok, less_app, hkv, Prog.ite_app]
    by_cases hlt : lt key (kf a) = true
    · rw [if_pos hlt]
      obtain ⟨n, q1, q⟩ := ihl (h := h.tick 1) (k := .L a c r :: k) (hr.tick 1)
        (fun y hy => hk y (by simp [hy])) hlo (by
          intro x hx
          simp only [post, List.cons_append, List.mem_cons, List.mem_append] at hx
          rcases hx with rfl | hx | hx
          · exact hlt
          · exact ho.lt_of_lt_of_not_lt hlt (s2 x hx)
          · exact hhi x hx) s3
      simp only [ctxEdge_L, ctxParent_L, tick_tick] at q
      refine ⟨1 + n, by simp only [Tree.height]; omega, ?_⟩
      rcases q with ⟨x, hx, e1, e2⟩ | ⟨k', e1, e2, e3, e4, e5⟩
      · exact Or.inl ⟨x, by simp [hx], e1, e2⟩
      · refine Or.inr ⟨k', e1, e2, e3, e4, ?_⟩
        rcases e5 with e5 | ⟨y, hy, e5⟩
        · left
          intro y hy e
          simp only [inorder_node, List.mem_append, List.mem_cons] at hy
          rcases hy with hy | rfl | hy
          · exact e5 y hy e
          · rw [e, ho.irrefl] at hlt; cases hlt
          · have := ho.lt_of_lt_of_not_lt hlt (s2 y hy)
            rw [e, ho.irrefl] at this; cases this
        · exact Or.inr ⟨y, by simp [hy], e5⟩
    · rw [if_neg hlt]
      have hlt' : lt key (kf a) = false := by simpa using hlt
      by_cases he : key = kf a
      · rw [if_pos he]
        exact ⟨1, by simp only [Tree.height]; omega, Or.inl ⟨a, by simp, he.symm, rfl⟩⟩
      rw [if_neg he]
      obtain ⟨n, q1, q⟩ := ihr (h := h.tick 1) (k := .R a c l :: k) (hr.tick 1)
        (fun y hy => hk y (by simp [hy])) (by
          intro x hx
          simp only [pre, List.mem_append, List.mem_cons, List.not_mem_nil, or_false] at hx
          rcases hx with hx | hx | rfl
          · exact hlo x hx
          · exact ho.negTrans _ _ _ hlt' (s1 x hx)
          · exact hlt') hhi s4
      simp only [ctxEdge_R, ctxParent_R, tick_tick] at q
      refine ⟨1 + n, by simp only [Tree.height]; omega, ?_⟩
      rcases q with ⟨x, hx, e1, e2⟩ | ⟨k', e1, e2, e3, e4, e5⟩
      · exact Or.inl ⟨x, by simp [hx], e1, e2⟩
      · refine Or.inr ⟨k', e1, e2, e3, e4, ?_⟩
        rcases e5 with e5 | ⟨y, hy, e5⟩
        · cases hgt : lt (kf a) key with
          | false => exact Or.inr ⟨a, by simp, fun e => he e.symm, hlt', hgt⟩
          | true =>
            left
            intro y hy e
            simp only [inorder_node, List.mem_append, List.mem_cons] at hy
            rcases hy with hy | rfl | hy
            · have := s1 y hy
              rw [e, hgt] at this; cases this
            · exact he e.symm
            · exact e5 y hy e
        · exact Or.inr ⟨y, by simp [hy], e5⟩

theorem insertUnique_weak (ho : StrictWeakOrder lt) {h : Heap V} {hd : Addr} {es : List (Addr × V)} (w : Wf h)
    (o : Owns h hd es) (ha : WeakAscending lt keyOf es) (v : V) :
    ∃ n, n ≤ 2 * Nat.log2 (es.length + 1) ∧
    ((∃ e ∈ es, keyOf e.2 = keyOf v ∧ insertUnique lt keyOf hd v h = .ok ((e.1, false), h.tick n)) ∨
     (∃ A B h', es = A ++ B ∧ (∀ e ∈ A, lt (keyOf v) (keyOf e.2) = false) ∧
       (∀ e ∈ B, lt (keyOf v) (keyOf e.2) = true) ∧
       insertUnique lt keyOf hd v h = .ok ((h.next, true), h') ∧ Owns h' hd (A ++ (h.next, v) :: B) ∧
       Effect (cells hd es) (cells hd (A ++ (h.next, v) :: B)) h h' ∧
       ((∀ e ∈ es, keyOf e.2 ≠ keyOf v) ∨ ∃ e ∈ es, keyOf e.2 ≠ keyOf v ∧ lt (keyOf v) (keyOf e.2) = false ∧ lt (keyOf e.2) (keyOf v) = false))) := by
  obtain ⟨t, r, b, i, d⟩ := o
  have hk : Keys keyOf h t.inorder (kfOf keyOf (keyOf v) h) := by rw [i]; exact keys_of d
  have hs : WeakSortedBy lt (kfOf keyOf (keyOf v) h) t.inorder := by rw [i]; exact weakSortedBy_of d ha
  obtain ⟨n, hn, hcase⟩ := insUqLoop_weak ho (key := keyOf v) (k := []) (t := t) r hk (by simp [pre]) (by simp [post]) hs
  refine ⟨n, by rw [← size_of i]; exact Nat.le_trans hn b.height, ?_⟩
  rcases hcase with ⟨x, hx, hkx, e⟩ | ⟨k, hz, hlo, hhi, e, hno⟩
  · left
    rw [i, List.mem_map] at hx
    obtain ⟨y, hy, rfl⟩ := hx
    rw [kfOf_mem (d y hy)] at hkx
    refine ⟨y, hy, hkx, ?_⟩
    unfold insertUnique
    simp only [ctxEdge, ctxParent] at e
    simp only [Prog.bind_app, e, Res.bind_ok, Prog.pure_app]
  · right
    have hz' : zip k leaf = t := hz
    have hsplit : pre k ++ post k = es.map Prod.fst := by
      rw [← i, ← hz', inorder_zip]; simp
    obtain ⟨A, B, rfl, hA, hB⟩ := List.map_eq_append_iff.1 hsplit.symm
    obtain ⟨h', e', o', ef, hnx, hcm⟩ := linkNew_owns (h := h.tick n) v (w.tick n)
      (hr := by rw [hz']; exact r.tick n) (by rw [hz']; exact b) hA.symm hB.symm (fun e he => d e he)
    refine ⟨A, B, h', rfl, ?_, ?_, ?_, o', ef.of_tick, ?_⟩
    · intro y hy
      have := hlo y.1 (by rw [← hA]; exact List.mem_map_of_mem hy)
      rwa [kfOf_mem (d y (by simp [hy]))] at this
    · intro y hy
      have := hhi y.1 (by rw [← hB]; exact List.mem_map_of_mem hy)
      rwa [kfOf_mem (d y (by simp [hy]))] at this
    · unfold insertUnique
      have e0 : insUqLoop lt keyOf hd (keyOf v) .root hd h = .ok (.inr (ctxEdge k, ctxParent hd k), h.tick n) := e
      simp only [Prog.bind_app, e0, Res.bind_ok, e', Prog.pure_app]
      rfl
    · rw [i] at hno
      rcases hno with hno | ⟨y, hy, hno⟩
      · left
        intro e he
        have := hno e.1 (List.mem_map_of_mem he)
        rwa [kfOf_mem (d e he)] at this
      · right
        obtain ⟨z, hz, rfl⟩ := List.mem_map.1 hy
        rw [kfOf_mem (d z hz)] at hno
        exact ⟨z, hz, hno⟩

/-- `find`'s loop answers an equal key or null; null only if no element equals the key or some element is equivalent to but
different from it. -/
theorem findLoop_weak (ho : StrictWeakOrder lt) {kf : Addr → K} (key : K) {h : Heap V} {t : Tree} {p : Addr}
    (hr : Rep h t p) (hk : Keys keyOf h t.inorder kf) (hs : WeakSortedBy lt kf t.inorder) :
    ∃ n x, findLoop lt keyOf key t.addr h = .ok (x, h.tick n) ∧
      ((x ∈ t.inorder ∧ kf x = key) ∨ (x = 0 ∧ ((∀ y ∈ t.inorder, kf y ≠ key) ∨
        ∃ y ∈ t.inorder, kf y ≠ key ∧ lt key (kf y) = false ∧ lt (kf y) key = false))) := by
  induction t generalizing p h with
  | leaf =>
    refine ⟨0, 0, ?_, Or.inr ⟨rfl, Or.inl (by simp)⟩⟩
    rw [findLoop]; simp [tick_zero]
  | node a c l r ihl ihr =>
    obtain ⟨h1, h2, h3, h4⟩ := hr
    obtain ⟨v, hv, hkv⟩ := hk a (by simp)
    obtain ⟨s1, s2, s3, s4⟩ := weak_node hs
    have h1' : (h.tick 1).node a = some ⟨p, l.addr, r.addr, c⟩ := h1
    rw [findLoop]
    rw [if_neg (show (Tree.node a c l r).addr ≠ 0 from h2)]
    simp only [addr_node, Prog.bind_app, dataOf_eq hv, Res.bind_ok, less_app, hkv, Prog.ite_app, nd_eq h1']
    by_cases hlt : lt key (kf a) = true
    · rw [if_pos hlt]
      obtain ⟨n, x, q2, q3⟩ := ihl (h := h.tick 1) (p := a) (h3.congr fun _ _ => rfl) (fun y hy => hk y (by simp [hy])) s3
      refine ⟨1 + n, x, by rw [q2, tick_tick], ?_⟩
      rcases q3 with ⟨q3, q4⟩ | ⟨q3, q4 | ⟨y, hy, q4⟩⟩
      · exact Or.inl ⟨by simp [q3], q4⟩
      · refine Or.inr ⟨q3, Or.inl ?_⟩
        intro y hy e
        simp only [inorder_node, List.mem_append, List.mem_cons] at hy
        rcases hy with hy | rfl | hy
        · exact q4 y hy e
        · rw [e, ho.irrefl] at hlt; cases hlt
        · have := ho.lt_of_lt_of_not_lt hlt (s2 y hy)
          rw [e, ho.irrefl] at this; cases this
      · exact Or.inr ⟨q3, Or.inr ⟨y, by simp [hy], q4⟩⟩
    · have hlt' : lt key (kf a) = false := by simpa using hlt
      rw [if_neg hlt]
      by_cases he : key = kf a
      · rw [if_pos he]
        exact ⟨1, a, rfl, Or.inl ⟨by simp, he.symm⟩⟩
      rw [if_neg he]
      obtain ⟨n, x, q2, q3⟩ := ihr (h := h.tick 1) (p := a) (h4.congr fun _ _ => rfl) (fun y hy => hk y (by simp [hy])) s4
      refine ⟨1 + n, x, by rw [q2, tick_tick], ?_⟩
      rcases q3 with ⟨q3, q4⟩ | ⟨q3, q4 | ⟨y, hy, q4⟩⟩
      · exact Or.inl ⟨by simp [q3], q4⟩
      · refine Or.inr ⟨q3, ?_⟩
        cases hgt : lt (kf a) key with
        | false => exact Or.inr ⟨a, by simp, fun e => he e.symm, hlt', hgt⟩
        | true =>
          left
          intro y hy e
          simp only [inorder_node, List.mem_append, List.mem_cons] at hy
          rcases hy with hy | rfl | hy
          · have := s1 y hy
            rw [e, hgt] at this; cases this
          · exact he e.symm
          · exact q4 y hy e
      · exact Or.inr ⟨q3, Or.inr ⟨y, by simp [hy], q4⟩⟩

theorem find_weak (ho : StrictWeakOrder lt) {h : Heap V} {hd : Addr} {es : List (Addr × V)} (o : Owns h hd es)
    (ha : WeakAscending lt keyOf es) (key : K) :
    ∃ n, (∃ e ∈ es, keyOf e.2 = key ∧ find lt keyOf hd key h = .ok (e.1, h.tick n)) ∨
      (find lt keyOf hd key h = .ok (hd, h.tick n) ∧ ((∀ e ∈ es, keyOf e.2 ≠ key) ∨
        ∃ e ∈ es, keyOf e.2 ≠ key ∧ lt key (keyOf e.2) = false ∧ lt (keyOf e.2) key = false)) := by
  obtain ⟨t, r, b, i, d⟩ := o
  obtain ⟨n, x, e, hx⟩ := findLoop_weak ho key r.rep (by rw [i]; exact keys_of (keyOf := keyOf) (dflt := key) d)
    (by rw [i]; exact weakSortedBy_of d ha)
  have hf : find lt keyOf hd key h = .ok (if x ≠ 0 then x else hd, h.tick n) := by
    unfold find
    simp only [Prog.bind_app, root_of_zip r, Res.bind_ok, e, Prog.pure_app]
  refine ⟨n, ?_⟩
  rcases hx with ⟨h1, h2⟩ | ⟨rfl, h2⟩
  · left
    have hx0 : x ≠ 0 := fun e => r.rep.zero_not (e ▸ h1)
    rw [i, List.mem_map] at h1
    obtain ⟨y, hy, rfl⟩ := h1
    rw [kfOf_mem (d y hy)] at h2
    exact ⟨y, hy, h2, by rw [hf, if_pos hx0]⟩
  · right
    refine ⟨by rw [hf, if_neg (by simp)], ?_⟩
    rw [i] at h2
    rcases h2 with h2 | ⟨y, hy, h2⟩
    · left
      intro e he
      have := h2 e.1 (List.mem_map_of_mem he)
      rwa [kfOf_mem (d e he)] at this
    · right
      obtain ⟨z, hz, rfl⟩ := List.mem_map.1 hy
      rw [kfOf_mem (d z hz)] at h2
      exact ⟨z, hz, h2⟩

/-! ## The invariant -/

theorem call_ok (ho : StrictWeakOrder lt) {objs : List Addr} {h : Heap V} (I : Multi.Inv lt keyOf objs h) (c : Call K V)
    (hl : c.Legal objs) (hk : Keeps lt keyOf h c) : ∃ objs' h', call lt keyOf objs c h = .ok (objs', h') ∧ Multi.Inv lt keyOf objs' h' := by
  obtain ⟨ws, W, rfl, ha⟩ := I
  have one : ∀ hd, hd ∈ ws.map Prod.fst → ∀ p : Prog (Heap V) (List Addr),
      (∀ es, Owns h hd es → WeakAscending lt keyOf es → ∃ h' es', p h = .ok (ws.map Prod.fst, h') ∧ Owns h' hd es' ∧
        WeakAscending lt keyOf es' ∧ Effect (cells hd es) (cells hd es') h h') →
      ∃ objs' h', p h = .ok (objs', h') ∧ Multi.Inv lt keyOf objs' h' := by
    intro hd hm p hp
    obtain ⟨L, es, R, e⟩ := split_at hm
    have hw : (hd, es) ∈ ws := by rw [e]; simp
    obtain ⟨h', es', q, o', a', ef⟩ := hp es (W.owns _ hw) (ha _ hw)
    refine ⟨_, h', q, ⟨L ++ (hd, es') :: R, (e ▸ W).step ef o', by rw [e]; simp, ?_⟩⟩
    intro w hw
    simp only [List.mem_append, List.mem_cons] at hw
    rcases hw with hw | rfl | hw
    · exact ha w (by rw [e]; simp [hw])
    · exact a'
    · exact ha w (by rw [e]; simp [hw])
  -- the calls a multiset has too
  have same : ∀ mc : Multi.Call K V, mc.Legal (ws.map Prod.fst) → Multi.call lt keyOf (ws.map Prod.fst) mc h = call lt keyOf (ws.map Prod.fst) c h →
      ∃ objs' h', call lt keyOf (ws.map Prod.fst) c h = .ok (objs', h') ∧ Multi.Inv lt keyOf objs' h' := by
    intro mc hm e
    rw [← e]
    exact Multi.call_ok ho ⟨ws, W, rfl, ha⟩ mc hm
  obtain ⟨hargs, hns⟩ := hl
  cases c with
  | create => exact same .create ⟨by simp [Multi.Call.args], by simp⟩ rfl
  | copyOf s => exact same (.copyOf s) ⟨by simpa [Multi.Call.args, Call.args] using hargs, by simp⟩ rfl
  | assign d s =>
    refine same (.assign d s) ⟨by simpa [Multi.Call.args, Call.args] using hargs, ?_⟩ rfl
    intro a e
    simp only [Multi.Call.assign.injEq] at e
    exact hns a (by rw [e.1, e.2])
  | destroy c => exact same (.destroy c) ⟨by simpa [Multi.Call.args, Call.args] using hargs, by simp⟩ rfl
  | clear c => exact same (.clear c) ⟨by simpa [Multi.Call.args, Call.args] using hargs, by simp⟩ rfl
  | insert c v =>
    refine one c (hargs c (by simp [Call.args])) _ fun es o a => ?_
    obtain ⟨n, hn, hc⟩ := insertUnique_weak ho W.wf o a v
    rcases hc with ⟨e, he, hk, q⟩ | ⟨A, B, h', rfl, hA, hB, q, o', ef, _⟩
    · exact ⟨h.tick n, es, by simp only [call, Prog.bind_app, q, Res.bind_ok, Prog.pure_app], o.tick n, a, Effect.tick W.wf _ n⟩
    · exact ⟨h', _, by simp only [call, Prog.bind_app, q, Res.bind_ok, Prog.pure_app], o', Multi.weak_insert ho a hA hB, ef⟩
  | insertRange c vs =>
    refine one c (hargs c (by simp [Call.args])) _ fun es o a => ?_
    suffices hh : ∀ (vs : List V) (h : Heap V) (es : List (Addr × V)), Wf h → Owns h c es → WeakAscending lt keyOf es →
        ∃ h' es', insertRange lt keyOf c vs h = .ok ((), h') ∧ Owns h' c es' ∧ WeakAscending lt keyOf es' ∧
          Effect (cells c es) (cells c es') h h' by
      obtain ⟨h', es', q, o', a', ef⟩ := hh vs h es W.wf o a
      exact ⟨h', es', by simp only [call, Prog.bind_app, q, Res.bind_ok, Prog.pure_app], o', a', ef⟩
    intro vs
    induction vs with
    | nil => intro h es w o a; exact ⟨h, es, rfl, o, a, Effect.refl w _⟩
    | cons v vs ih =>
      intro h es w o a
      obtain ⟨n, hn, hc⟩ := insertUnique_weak ho w o a v
      rcases hc with ⟨e, he, hk, q⟩ | ⟨A, B, h', rfl, hA, hB, q, o', ef, _⟩
      · obtain ⟨h2, es2, q2, o2, a2, f2⟩ := ih (h.tick n) es (w.tick n) (o.tick n) a
        exact ⟨h2, es2, by simp only [insertRange, Prog.bind_app, q, q2, Res.bind_ok, Prog.pure_app], o2, a2, f2.of_tick⟩
      · obtain ⟨h2, es2, q2, o2, a2, f2⟩ := ih h' _ ef.wf o' (Multi.weak_insert ho a hA hB)
        exact ⟨h2, es2, by simp only [insertRange, Prog.bind_app, q, q2, Res.bind_ok, Prog.pure_app], o2, a2, ef.trans w f2⟩
  | erase c k =>
    refine one c (hargs c (by simp [Call.args])) _ fun es o a => ?_
    obtain ⟨h', _, _, hc⟩ := AnyOrder.erase_any W.wf o k (hk es o.entries)
    rcases hc with ⟨hno, q, o', ef⟩ | ⟨A, x, B, rfl, hk, q, o', ef⟩
    · exact ⟨h', es, by simp only [call, Prog.bind_app, q, Res.bind_ok, Prog.pure_app], o', a, ef⟩
    · exact ⟨h', _, by simp only [call, Prog.bind_app, q, Res.bind_ok, Prog.pure_app], o',
        a.sublist (List.Sublist.append (List.Sublist.refl A) (List.sublist_cons_self x B)), ef⟩
  | store c v =>
    refine one c (hargs c (by simp [Call.args])) _ fun es o a => ?_
    obtain ⟨n, hf⟩ := find_weak ho o a (keyOf v)
    rcases hf with ⟨e, he, hk, q⟩ | ⟨q, _⟩
    · obtain ⟨A, B, rfl⟩ := List.append_of_mem he
      have hne : e.1 ≠ c := by
        have := o.cells_nodup
        simp only [cells, List.nodup_cons] at this
        exact fun q => this.1 (q ▸ List.mem_map_of_mem he)
      obtain ⟨h', q', o', ef, _, _⟩ := storeData_owns (W.wf.tick n) (o.tick n) v
      refine ⟨h', _, by simp only [call, Prog.bind_app, q, q', Res.bind_ok, if_neg hne, Prog.ite_app, Prog.pure_app], o', ?_, ef.of_tick⟩
      simp only [WeakAscending, List.pairwise_append, List.pairwise_cons, List.mem_cons] at a ⊢
      grind
    · exact ⟨h.tick n, es, by simp only [call, Prog.bind_app, q, Res.bind_ok, if_true, Prog.pure_app], o.tick n, a, Effect.tick W.wf _ n⟩
  | find c k =>
    refine one c (hargs c (by simp [Call.args])) _ fun es o a => ?_
    obtain ⟨n, hf⟩ := find_weak ho o a k
    rcases hf with ⟨e, he, hk, q⟩ | ⟨q, _⟩
    · exact ⟨h.tick n, es, by simp only [call, Prog.bind_app, q, Res.bind_ok, Prog.pure_app], o.tick n, a, Effect.tick W.wf _ n⟩
    · exact ⟨h.tick n, es, by simp only [call, Prog.bind_app, q, Res.bind_ok, Prog.pure_app], o.tick n, a, Effect.tick W.wf _ n⟩
  | lower c k =>
    refine one c (hargs c (by simp [Call.args])) _ fun es o a => ?_
    obtain ⟨n, hn, q⟩ := lowerBound_owns ho o a k
    exact ⟨h.tick n, es, by simp only [call, Prog.bind_app, q, Res.bind_ok, Prog.pure_app], o.tick n, a, Effect.tick W.wf _ n⟩

theorem inv_of (ho : StrictWeakOrder lt) {objs : List Addr} {h : Heap V} (r : Grown lt keyOf objs h) :
    Multi.Inv lt keyOf objs h := by
  induction r with
  | start junk =>
    exact ⟨[], ⟨⟨Nat.zero_lt_one, fun _ _ => ⟨rfl, rfl⟩⟩, by simp, by simp, by simp [emptyMemory]⟩, rfl, by simp⟩
  | step c _ hl hk e ih =>
    obtain ⟨objs', h', e', I⟩ := call_ok ho ih c hl hk
    rw [e] at e'
    simp only [Res.ok.injEq, Prod.mk.injEq] at e'
    obtain ⟨rfl, rfl⟩ := e'
    exact I
  | env _ e ih =>
    obtain ⟨ws, W, q, a⟩ := ih
    exact ⟨ws, W.env e, q, a⟩

theorem owns_of (ho : StrictWeakOrder lt) {objs : List Addr} {h : Heap V} (r : Grown lt keyOf objs h) {c : Addr}
    (hc : c ∈ objs) : ∃ es, Owns h c es ∧ WeakAscending lt keyOf es ∧ Wf h := by
  obtain ⟨ws, W, rfl, ha⟩ := inv_of ho r
  obtain ⟨L, es, R, e⟩ := split_at hc
  have hw : (c, es) ∈ ws := by rw [e]; simp
  exact ⟨es, W.owns _ hw, ha _ hw, W.wf⟩

/-! ## C111: what holds -/

/-- With any strict weak ordering, every legal call returns without undefined behaviour, except perhaps an `erase(k)` of a container
in which an element with the key `k` is followed by an equivalent one. -/
theorem weak_calls_return_partial (ho : StrictWeakOrder lt) {objs : List Addr} {h : Heap V} (g : Grown lt keyOf objs h)
    (c : Call K V) (hl : c.Legal objs) (hk : Keeps lt keyOf h c) :
    ∃ objs' h', call lt keyOf objs c h = .ok (objs', h') ∧ Grown lt keyOf objs' h' := by
  obtain ⟨objs', h', e, _⟩ := call_ok ho (inv_of ho g) c hl hk
  exact ⟨objs', h', e, g.step c hl hk e⟩

/-- Iteration is weakly ascending in both directions. -/
theorem weak_iteration_partial (ho : StrictWeakOrder lt) {objs : List Addr} {h : Heap V} (g : Grown lt keyOf objs h) {c : Addr}
    (hc : c ∈ objs) : ∃ es, entries c h = .ok (es, h) ∧ entriesBackward c h = .ok (es.reverse, h) ∧
      es.Pairwise (fun a b => lt (keyOf b.2) (keyOf a.2) = false) ∧ (es.map Prod.fst).Nodup := by
  obtain ⟨es, o, a, w⟩ := owns_of ho g hc
  have hn := o.cells_nodup
  simp only [cells, List.nodup_cons] at hn
  exact ⟨es, o.entries, o.entriesBackward, a, hn.2⟩

/-- `insert(v)` either finds an element with an equal key and changes nothing, or adds `v` behind the elements not greater and
before the greater ones; with an equal key present it does the latter only if the container also holds a key equivalent to `v`'s and
different from it. -/
theorem weak_insert_partial (ho : StrictWeakOrder lt) {objs : List Addr} {h : Heap V} (g : Grown lt keyOf objs h) {c : Addr}
    (hc : c ∈ objs) (v : V) : ∃ es h', entries c h = .ok (es, h) ∧
      ((∃ e ∈ es, keyOf e.2 = keyOf v ∧ insertUnique lt keyOf c v h = .ok ((e.1, false), h') ∧ entries c h' = .ok (es, h')) ∨
       (∃ A B x, es = A ++ B ∧ insertUnique lt keyOf c v h = .ok ((x, true), h') ∧ entries c h' = .ok (A ++ (x, v) :: B, h') ∧
         (∀ e ∈ A, lt (keyOf v) (keyOf e.2) = false) ∧ (∀ e ∈ B, lt (keyOf v) (keyOf e.2) = true) ∧
         ((∃ e ∈ es, keyOf e.2 = keyOf v) →
           ∃ e ∈ es, keyOf e.2 ≠ keyOf v ∧ lt (keyOf v) (keyOf e.2) = false ∧ lt (keyOf e.2) (keyOf v) = false))) := by
  obtain ⟨es, o, a, w⟩ := owns_of ho g hc
  obtain ⟨n, hn, hcase⟩ := insertUnique_weak ho w o a v
  rcases hcase with ⟨e, he, hk, q⟩ | ⟨A, B, h', rfl, hA, hB, q, o', ef, hno⟩
  · exact ⟨es, h.tick n, o.entries, Or.inl ⟨e, he, hk, q, (o.tick n).entries⟩⟩
  · refine ⟨_, h', o.entries, Or.inr ⟨A, B, _, rfl, q, o'.entries, hA, hB, ?_⟩⟩
    rintro ⟨e, he, hk⟩
    rcases hno with hno | hno
    · exact absurd hk (hno e he)
    · exact hno

/-- `find(k)` answers an element with an equal key or `end()`; with an equal key present it answers `end()` only if the container
also holds a key equivalent to `k` and different from it. -/
theorem weak_find_partial (ho : StrictWeakOrder lt) {objs : List Addr} {h : Heap V} (g : Grown lt keyOf objs h) {c : Addr}
    (hc : c ∈ objs) (k : K) : ∃ es x h', entries c h = .ok (es, h) ∧ find lt keyOf c k h = .ok (x, h') ∧ entries c h' = .ok (es, h') ∧
      (x ≠ c → ∃ v, (x, v) ∈ es ∧ keyOf v = k) ∧
      (x = c → (∃ e ∈ es, keyOf e.2 = k) → ∃ e ∈ es, keyOf e.2 ≠ k ∧ lt k (keyOf e.2) = false ∧ lt (keyOf e.2) k = false) := by
  obtain ⟨es, o, a, w⟩ := owns_of ho g hc
  have hn := o.cells_nodup
  simp only [cells, List.nodup_cons] at hn
  obtain ⟨n, hf⟩ := find_weak ho o a k
  rcases hf with ⟨e, he, hk, q⟩ | ⟨q, hno⟩
  · refine ⟨es, e.1, h.tick n, o.entries, q, (o.tick n).entries, fun _ => ⟨e.2, he, hk⟩, fun ec => ?_⟩
    exact absurd (ec ▸ List.mem_map_of_mem (f := Prod.fst) he) hn.1
  · refine ⟨es, c, h.tick n, o.entries, q, (o.tick n).entries, fun e => absurd rfl e, fun _ => ?_⟩
    rintro ⟨e, he, hk⟩
    rcases hno with hno | hno
    · exact absurd hk (hno e he)
    · exact hno

/-- `lower_bound(k)` is the first element not less than `k`. -/
theorem weak_lower_bound_partial (ho : StrictWeakOrder lt) {objs : List Addr} {h : Heap V} (g : Grown lt keyOf objs h) {c : Addr}
    (hc : c ∈ objs) (k : K) : ∃ A B h', entries c h = .ok (A ++ B, h) ∧
      lowerBound lt keyOf c k h = .ok ((B.map Prod.fst).headD c, h') ∧
      (∀ e ∈ A, lt (keyOf e.2) k = true) ∧ (∀ e ∈ B, lt (keyOf e.2) k = false) := by
  obtain ⟨es, o, a, w⟩ := owns_of ho g hc
  obtain ⟨n, hn, q⟩ := lowerBound_owns ho o a k
  obtain ⟨A, R, rfl, hA, hR, hf⟩ := Container.split_find es fun e => !lt (keyOf e.2) k
  rw [hf, Container.head_getD] at q
  refine ⟨A, R, _, o.entries, q, fun e he => by simpa using hA e he, ?_⟩
  intro e he
  cases R with
  | nil => simp at he
  | cons b R =>
    have h1 : lt (keyOf b.2) k = false := by simpa using hR b rfl
    simp only [List.mem_cons] at he
    rcases he with rfl | he
    · exact h1
    · simp only [WeakAscending, List.pairwise_append, List.pairwise_cons] at a
      exact ho.negTrans _ _ _ (a.2.1.1 e he) h1

/-- `erase(k)`, if no element with the key `k` is followed by an equivalent one, removes nothing and answers 0 if no element has the
key `k`, and otherwise removes exactly one element, one with that key, and answers 1. -/
theorem weak_erase_partial (ho : StrictWeakOrder lt) {objs : List Addr} {h : Heap V} (g : Grown lt keyOf objs h) {c : Addr}
    (hc : c ∈ objs) (k : K) {es : List (Addr × V)} (he : entries c h = .ok (es, h))
    (hcl : ∀ A x B, es = A ++ x :: B → keyOf x.2 = k → ∀ y ∈ B, lt k (keyOf y.2) = true) :
    ∃ h', Grown lt keyOf objs h' ∧
      (((∀ e ∈ es, keyOf e.2 ≠ k) ∧ erase lt keyOf c k h = .ok (0, h') ∧ entries c h' = .ok (es, h')) ∨
       (∃ A x B, es = A ++ x :: B ∧ keyOf x.2 = k ∧ erase lt keyOf c k h = .ok (1, h') ∧ entries c h' = .ok (A ++ B, h'))) := by
  obtain ⟨es', o, a, w⟩ := owns_of ho g hc
  have q := he.symm.trans o.entries
  simp only [Res.ok.injEq, Prod.mk.injEq, and_true] at q
  subst q
  have hp : es.Pairwise fun x y => keyOf x.2 = k → lt k (keyOf y.2) = true := by
    rw [List.pairwise_iff_forall_sublist]
    intro x y hs hxk
    obtain ⟨a, b, rfl, ha, hb⟩ := List.cons_sublist_iff.1 hs
    obtain ⟨a1, a2, rfl⟩ := List.append_of_mem ha
    exact hcl a1 x (a2 ++ b) (by simp) hxk y (by simp [List.singleton_sublist.1 hb])
  obtain ⟨h', g', _, hcase⟩ := AnyOrder.any_erase_partial g hc k he hp
  refine ⟨h', g', ?_⟩
  rcases hcase with ⟨q, e, hno⟩ | hcase
  · refine Or.inl ⟨?_, q, e⟩
    intro x hx hxk
    rcases hno ⟨x, hx, hxk⟩ with hi | ⟨A, z, B, rfl, hz, y, hy, hlt⟩
    · rw [ho.irrefl] at hi; cases hi
    · have := (List.pairwise_append.1 a).2.2 y hy z (by simp)
      rw [hz, hlt] at this; cases this
  · exact Or.inr hcase

/-! ## C111: what fails -/

/-- The only balanced shape with two nodes. -/
theorem two_shape {t : Tree} {a b : Addr} (hb : Balanced t) (i : t.inorder = [a, b]) :
    ∃ k1 k2, t = .node b k1 (.node a k2 .leaf .leaf) .leaf := by
  obtain ⟨hr, n, hb⟩ := hb
  rcases t with _ | ⟨x, k, l, r⟩
  · simp at i
  · have hk : k = false := hr
    subst hk
    obtain ⟨m, rfl, hl, hrr, hred⟩ := hb
    have hlen := congrArg List.length i
    simp only [inorder_node, List.length_append, List.length_cons, List.length_nil] at hlen
    rcases l with _ | ⟨y, ky, ll, lr⟩
    · have hm : m = 0 := hl
      subst hm
      rcases r with _ | ⟨z, kz, rl, rr⟩
      · simp at hlen
      · have : kz = false := hred
        subst this
        obtain ⟨m', h0, _⟩ := hrr
        omega
    · simp only [inorder_node, List.length_append, List.length_cons] at hlen
      have e1 : ll = .leaf := by
        cases ll with
        | leaf => rfl
        | node => simp only [inorder_node, List.length_append, List.length_cons] at hlen; omega
      have e2 : lr = .leaf := by
        cases lr with
        | leaf => rfl
        | node => simp only [inorder_node, List.length_append, List.length_cons] at hlen; omega
      have e3 : r = .leaf := by
        cases r with
        | leaf => rfl
        | node => simp only [inorder_node, List.length_append, List.length_cons] at hlen; omega
      subst e1 e2 e3
      simp only [inorder_node, inorder_leaf, List.nil_append, List.cons_append, List.append_nil, List.cons.injEq, and_true] at i
      obtain ⟨rfl, rfl⟩ := i
      exact ⟨_, _, rfl⟩

theorem find_of_two {h : Heap V} {c : Addr} {e1 e2 : Addr × V} (o : Owns h c [e1, e2])
    (hne : keyOf e1.2 ≠ keyOf e2.2) (hnl : lt (keyOf e1.2) (keyOf e2.2) = false) :
    ∃ h', find lt keyOf c (keyOf e1.2) h = .ok (c, h') := by
  obtain ⟨t, rt, b, i, d⟩ := o
  obtain ⟨k1, k2, rfl⟩ := two_shape b i
  have hroot := root_of_zip rt
  obtain ⟨n2, z2, ⟨n1, z1, _, _⟩, _⟩ := rt.rep
  have d2 := d e2 (by simp)
  have f2 : (h.tick 1).node e2.1 = some ⟨c, e1.1, 0, k1⟩ := n2
  refine ⟨h.tick 1, ?_⟩
  unfold find
  simp only [Prog.bind_app, hroot, Res.bind_ok]
  rw [findLoop]
  rw [if_neg (show (Tree.node e2.1 k1 (.node e1.1 k2 .leaf .leaf) .leaf).addr ≠ 0 from z2)]
  simp only [addr_node]
  simp only [Prog.bind_app, dataOf_eq d2, Res.bind_ok, less_app, Prog.ite_app, nd_eq f2, hnl, hne, Bool.false_eq_true, if_false, if_true]
  rw [findLoop]
  simp

/-- Whenever a comparator makes the different keys of `a` and `b` equivalent: a set (or map) into which `a` and then `b` were
inserted contains both, yet `find` and `count` do not see `a`, and a second `insert(a)` succeeds, so that `a`'s key is there twice. -/
theorem find_misses_equivalent (ho : StrictWeakOrder lt) {a b : V} (hne : keyOf a ≠ keyOf b)
    (hab : lt (keyOf a) (keyOf b) = false) (hba : lt (keyOf b) (keyOf a) = false) :
    ∃ c h x y, Grown lt keyOf [c] h ∧ entries c h = .ok ([(x, a), (y, b)], h) ∧
      (∃ h', find lt keyOf c (keyOf a) h = .ok (c, h')) ∧ (∃ h', countKey lt keyOf c (keyOf a) h = .ok (0, h')) ∧
      ∃ z h', insertUnique lt keyOf c a h = .ok ((z, true), h') ∧ entries c h' = .ok ([(x, a), (y, b), (z, a)], h') := by
  let j : Addr → RbNode := fun _ => ⟨0, 0, 0, false⟩
  have g0 : Grown lt keyOf [] (emptyMemory j) := .start j
  obtain ⟨ws, W, hw, _⟩ := inv_of ho g0
  obtain ⟨h1, q1, o1, f1, _, _⟩ := newTree_owns W.wf
  have g1 : Grown lt keyOf [1] h1 := g0.step .create ⟨by simp [Call.args], by simp⟩ (by simp [Keeps]) (by
    simp only [call, Prog.bind_app, q1, Res.bind_ok, Prog.pure_app]; rfl)
  -- inserting a value whose key equals no key and is not less than any
  have step : ∀ (es : List (Addr × V)) (h : Heap V) (v : V), Grown lt keyOf [1] h → Owns h 1 es →
      (∀ e ∈ es, keyOf e.2 ≠ keyOf v ∧ lt (keyOf v) (keyOf e.2) = false) →
      ∃ x h', Grown lt keyOf [1] h' ∧ insertUnique lt keyOf 1 v h = .ok ((x, true), h') ∧ Owns h' 1 (es ++ [(x, v)]) := by
    intro es h v g o hv
    obtain ⟨es', o', a', w⟩ := owns_of ho g (c := 1) (by simp)
    have q := o.entries.symm.trans o'.entries
    simp only [Res.ok.injEq, Prod.mk.injEq, and_true] at q
    subst q
    obtain ⟨n, hn, hc⟩ := insertUnique_weak ho w o a' v
    rcases hc with ⟨e, he, hk, q⟩ | ⟨A, B, h', rfl, hA, hB, q, o2, ef, _⟩
    · exact absurd hk (hv e he).1
    · have hB0 : B = [] := by
        cases B with
        | nil => rfl
        | cons y B =>
          have h1 := hB y (by simp)
          rw [(hv y (by simp)).2] at h1; cases h1
      subst hB0
      refine ⟨_, h', g.step (.insert 1 v) ⟨by simp [Call.args], by simp⟩ (by simp [Keeps]) (by simp only [call, Prog.bind_app, q, Res.bind_ok, Prog.pure_app]), q, ?_⟩
      simpa using o2
  obtain ⟨x, h2, g2, _, o2⟩ := step [] h1 a g1 o1 (by simp)
  obtain ⟨y, h3, g3, _, o3⟩ := step _ h2 b g2 o2 (by simp [hne, hba])
  simp only [List.nil_append, List.cons_append] at o3
  obtain ⟨h4, q4⟩ := find_of_two (lt := lt) (keyOf := keyOf) o3 hne hab
  refine ⟨1, h3, x, y, g3, o3.entries, ⟨h4, q4⟩, ⟨h4, ?_⟩, ?_⟩
  · unfold countKey
    simp only [Prog.bind_app, q4, Res.bind_ok, Prog.pure_app]
    simp
  · obtain ⟨es', o', a', w⟩ := owns_of ho g3 (c := 1) (by simp)
    have q := o3.entries.symm.trans o'.entries
    simp only [Res.ok.injEq, Prod.mk.injEq, and_true] at q
    subst q
    obtain ⟨n, hn, hc⟩ := insertUnique_weak ho w o3 a' a
    rcases hc with ⟨e, he, hk, q⟩ | ⟨A, B, h', hs, hA, hB, q, o2, ef, _⟩
    · -- the loop cannot have found it: `find` did not
      exfalso
      obtain ⟨t, rt, bl, i, d⟩ := o3
      obtain ⟨k1, k2, rfl⟩ := two_shape bl i
      have hroot := root_of_zip rt
      obtain ⟨n2, z2, ⟨n1, z1, _, _⟩, _⟩ := rt.rep
      have d2 := d (y, b) (by simp)
      have f2 : (h3.tick 1).node y = some ⟨1, x, 0, k1⟩ := n2
      have hl : insUqLoop lt keyOf 1 (keyOf a) .root 1 h3 = .ok (.inr (.right y, y), h3.tick 1) := by
        rw [insUqLoop]
        have hh : rdE 1 .root h3 = .ok (y, h3) := hroot
        rw [Prog.bind_app, hh]
        simp only [Res.bind_ok, addr_node, if_neg z2, Prog.bind_app, dataOf_eq d2, less_app, Prog.ite_app, hab, hne, Bool.false_eq_true, if_false]
        rw [insUqLoop]
        simp only [rdE, Prog.bind_app, nd_eq f2, Res.bind_ok, Prog.pure_app, if_true, Prog.ite_app]
      unfold insertUnique at q
      simp only [Prog.bind_app, hl, Res.bind_ok] at q
      cases g : linkNew 1 a (.right y) y (h3.tick 1) with
      | ok z => rw [g] at q; simp [Res.bind_ok] at q
      | ub f => rw [g] at q; cases q
      | diverge => rw [g] at q; cases q
    · have hB0 : B = [] := by
        cases B with
        | nil => rfl
        | cons z B =>
          have h1 := hB z (by simp)
          have hz : z ∈ [(x, a), (y, b)] := by rw [hs]; simp
          simp only [List.mem_cons, List.not_mem_nil, or_false] at hz
          rcases hz with rfl | rfl
          · rw [ho.irrefl] at h1; cases h1
          · rw [hab] at h1; cases h1
      subst hB0
      rw [List.append_nil] at hs
      subst hs
      exact ⟨_, h', q, o2.entries⟩

/-- Example: keys compared by their last decimal digit. -/
theorem lastDigit : StrictWeakOrder (fun a b : Nat => decide (a % 10 < b % 10)) where
  irrefl := by simp
  trans := by simp only [decide_eq_true_eq]; omega
  negTrans := by simp only [decide_eq_false_iff_not]; omega

example : ∃ c h x y, Grown (fun a b : Nat => decide (a % 10 < b % 10)) id [c] h ∧ entries c h = .ok ([(x, 3), (y, 13)], h) ∧
    ∃ h', find (fun a b : Nat => decide (a % 10 < b % 10)) id c 3 h = .ok (c, h') := by
  obtain ⟨c, h, x, y, g, e, f, _⟩ := find_misses_equivalent (keyOf := id) lastDigit (a := 3) (b := 13) (by simp) (by simp) (by simp)
  exact ⟨c, h, x, y, g, e, f⟩

end Verif.Rb.Weak
