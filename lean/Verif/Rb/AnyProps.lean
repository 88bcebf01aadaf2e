import Verif.Rb.Any
/-!
# `ttl::map` and `ttl::set` with any comparator (C123)

No assumption about the comparator: it may be non-transitive, reflexive, constant. The containers stay balanced trees without
leaks, iteration stays consistent, and every operation but `erase(key)` returns; `erase(key)` does so if the elements behind an
element with that key are greater than the key.
-/
set_option linter.unusedSimpArgs false
set_option linter.unusedSectionVars false
set_option linter.unusedVariables false
namespace Verif.Rb.AnyOrder
open Verif Tree
variable {K V : Type} [DecidableEq K] {lt : K → K → Bool} {keyOf : V → K}

/-! ## The search loops -/

/-- The loop of `insert_unique` stops at an equal key or at an empty place. -/
theorem insUqLoop_any {kf : Addr → K} {key : K} {h : Heap V} {hd : Addr}
    {k : List Frame} {t : Tree} (hr : RepTree h hd (zip k t)) (hk : Keys keyOf h t.inorder kf) :
    ∃ n, n ≤ t.height ∧ ((∃ x ∈ t.inorder, kf x = key ∧
        insUqLoop lt keyOf hd key (ctxEdge k) (ctxParent hd k) h = .ok (.inl x, h.tick n)) ∨
      (∃ k', zip k' leaf = zip k t ∧
        insUqLoop lt keyOf hd key (ctxEdge k) (ctxParent hd k) h = .ok (.inr (ctxEdge k', ctxParent hd k'), h.tick n))) := by
  induction t generalizing k h with
  | leaf =>
    refine ⟨0, Nat.zero_le _, Or.inr ⟨k, rfl, ?_⟩⟩
    rw [insUqLoop]
    simp [(repTree_zip.1 hr).1.rd, tick_zero]
  | node a c l r ihl ihr =>
    obtain ⟨hc, htr, _, _⟩ := repTree_zip.1 hr
    obtain ⟨h1, h2, h3, h4⟩ := htr
    obtain ⟨v, hv, hkv⟩ := hk a (by simp)
    have hrd := hc.rd
    simp only [addr_node] at hrd
    rw [insUqLoop]
    simp only [hrd, if_neg h2, Prog.bind_app, dataOf_eq hv, Res.bind_ok, less_app, hkv, Prog.ite_app]
    by_cases hlt : lt key (kf a) = true
    · rw [if_pos hlt]
      obtain ⟨n, q1, q⟩ := ihl (h := h.tick 1) (k := .L a c r :: k) (hr.tick 1) (fun y hy => hk y (by simp [hy]))
      simp only [ctxEdge_L, ctxParent_L, tick_tick] at q
      refine ⟨1 + n, by simp only [Tree.height]; omega, ?_⟩
      rcases q with ⟨x, hx, e1, e2⟩ | ⟨k', e1, e4⟩
      · exact Or.inl ⟨x, by simp [hx], e1, e2⟩
      · exact Or.inr ⟨k', e1, e4⟩
    · rw [if_neg hlt]
      by_cases he : key = kf a
      · rw [if_pos he]
        exact ⟨1, by simp only [Tree.height]; omega, Or.inl ⟨a, by simp, he.symm, rfl⟩⟩
      rw [if_neg he]
      obtain ⟨n, q1, q⟩ := ihr (h := h.tick 1) (k := .R a c l :: k) (hr.tick 1) (fun y hy => hk y (by simp [hy]))
      simp only [ctxEdge_R, ctxParent_R, tick_tick] at q
      refine ⟨1 + n, by simp only [Tree.height]; omega, ?_⟩
      rcases q with ⟨x, hx, e1, e2⟩ | ⟨k', e1, e4⟩
      · exact Or.inl ⟨x, by simp [hx], e1, e2⟩
      · exact Or.inr ⟨k', e1, e4⟩

theorem insertUnique_any {h : Heap V} {hd : Addr} {es : List (Addr × V)} (w : Wf h)
    (o : Owns h hd es) (v : V) :
    ∃ n, n ≤ 2 * Nat.log2 (es.length + 1) ∧
    ((∃ e ∈ es, keyOf e.2 = keyOf v ∧ insertUnique lt keyOf hd v h = .ok ((e.1, false), h.tick n)) ∨
     (∃ A B h', es = A ++ B ∧ insertUnique lt keyOf hd v h = .ok ((h.next, true), h') ∧ Owns h' hd (A ++ (h.next, v) :: B) ∧
       Effect (cells hd es) (cells hd (A ++ (h.next, v) :: B)) h h' ∧ h'.cmps = h.cmps + n)) := by
  obtain ⟨t, r, b, i, d⟩ := o
  have hk : Keys keyOf h t.inorder (kfOf keyOf (keyOf v) h) := by rw [i]; exact keys_of d
  obtain ⟨n, hn, hcase⟩ := insUqLoop_any (lt := lt) (key := keyOf v) (k := []) (t := t) r hk
  refine ⟨n, by rw [← size_of i]; exact Nat.le_trans hn b.height, ?_⟩
  rcases hcase with ⟨x, hx, hkx, e⟩ | ⟨k, hz, e⟩
  · left
    rw [i, List.mem_map] at hx
    obtain ⟨y, hy, rfl⟩ := hx
    rw [kfOf_mem (d y hy)] at hkx
    refine ⟨y, hy, hkx, ?_⟩
    unfold insertUnique
    simp only [ctxEdge, ctxParent] at e
    simp only [Prog.bind_app, e, Res.bind_ok, Prog.pure_app]
  · right
    have hz' : zip k leaf = t := hz
    have hsplit : pre k ++ post k = es.map Prod.fst := by
      rw [← i, ← hz', inorder_zip]; simp
    obtain ⟨A, B, rfl, hA, hB⟩ := List.map_eq_append_iff.1 hsplit.symm
    obtain ⟨h', e', o', ef, hnx, hcm⟩ := linkNew_owns (h := h.tick n) v (w.tick n)
      (hr := by rw [hz']; exact r.tick n) (by rw [hz']; exact b) hA.symm hB.symm (fun e he => d e he)
    refine ⟨A, B, h', rfl, ?_, o', ef.of_tick, hcm⟩
    unfold insertUnique
    have e0 : insUqLoop lt keyOf hd (keyOf v) .root hd h = .ok (.inr (ctxEdge k, ctxParent hd k), h.tick n) := e
    simp only [Prog.bind_app, e0, Res.bind_ok, e', Prog.pure_app]
    rfl

/-- `find`'s loop answers an equal key or null. -/
theorem findLoop_any {kf : Addr → K} (key : K) {h : Heap V} {t : Tree} {p : Addr}
    (hr : Rep h t p) (hk : Keys keyOf h t.inorder kf) :
    ∃ n x, n ≤ t.height ∧ findLoop lt keyOf key t.addr h = .ok (x, h.tick n) ∧ ((x ∈ t.inorder ∧ kf x = key) ∨ x = 0) := by
  induction t generalizing p h with
  | leaf =>
    refine ⟨0, 0, Nat.le_refl _, ?_, Or.inr rfl⟩
    rw [findLoop]; simp [tick_zero]
  | node a c l r ihl ihr =>
    obtain ⟨h1, h2, h3, h4⟩ := hr
    obtain ⟨v, hv, hkv⟩ := hk a (by simp)
    have h1' : (h.tick 1).node a = some ⟨p, l.addr, r.addr, c⟩ := h1
    rw [findLoop]
    rw [if_neg (show (Tree.node a c l r).addr ≠ 0 from h2)]
    simp only [addr_node, Prog.bind_app, dataOf_eq hv, Res.bind_ok, less_app, hkv, Prog.ite_app, nd_eq h1']
    by_cases hlt : lt key (kf a) = true
    · rw [if_pos hlt]
      obtain ⟨n, x, q1, q2, q3⟩ := ihl (h := h.tick 1) (p := a) (h3.congr fun _ _ => rfl) (fun y hy => hk y (by simp [hy]))
      refine ⟨1 + n, x, by simp only [Tree.height]; omega, by rw [q2, tick_tick], q3.imp (fun q => ⟨by simp [q.1], q.2⟩) id⟩
    · rw [if_neg hlt]
      by_cases he : key = kf a
      · rw [if_pos he]
        exact ⟨1, a, by simp only [Tree.height]; omega, rfl, Or.inl ⟨by simp, he.symm⟩⟩
      rw [if_neg he]
      obtain ⟨n, x, q1, q2, q3⟩ := ihr (h := h.tick 1) (p := a) (h4.congr fun _ _ => rfl) (fun y hy => hk y (by simp [hy]))
      refine ⟨1 + n, x, by simp only [Tree.height]; omega, by rw [q2, tick_tick], q3.imp (fun q => ⟨by simp [q.1], q.2⟩) id⟩

theorem find_any {h : Heap V} {hd : Addr} {es : List (Addr × V)} (o : Owns h hd es) (key : K) :
    ∃ n, n ≤ 2 * Nat.log2 (es.length + 1) ∧ ((∃ e ∈ es, keyOf e.2 = key ∧ find lt keyOf hd key h = .ok (e.1, h.tick n)) ∨
      find lt keyOf hd key h = .ok (hd, h.tick n)) := by
  obtain ⟨t, r, b, i, d⟩ := o
  obtain ⟨n, x, hn, e, hx⟩ := findLoop_any (lt := lt) key r.rep (by rw [i]; exact keys_of (keyOf := keyOf) (dflt := key) d)
  have hf : find lt keyOf hd key h = .ok (if x ≠ 0 then x else hd, h.tick n) := by
    unfold find
    simp only [Prog.bind_app, root_of_zip r, Res.bind_ok, e, Prog.pure_app]
  refine ⟨n, by rw [← size_of i]; exact Nat.le_trans hn b.height, ?_⟩
  rcases hx with ⟨h1, h2⟩ | rfl
  · left
    have hx0 : x ≠ 0 := fun e => r.rep.zero_not (e ▸ h1)
    rw [i, List.mem_map] at h1
    obtain ⟨y, hy, rfl⟩ := h1
    rw [kfOf_mem (d y hy)] at h2
    exact ⟨y, hy, h2, by rw [hf, if_pos hx0]⟩
  · right
    rw [hf, if_neg (by simp)]

theorem lowerLoop_any {kf : Addr → K} (key : K) {h : Heap V} {t : Tree} {p : Addr}
    (hr : Rep h t p) (hk : Keys keyOf h t.inorder kf) (prev : Addr) :
    ∃ n x, n ≤ t.height ∧ lowerLoop lt keyOf key t.addr prev h = .ok (x, h.tick n) ∧
      ((x ∈ t.inorder ∧ lt (kf x) key = false) ∨ x = prev) := by
  induction t generalizing p h prev with
  | leaf =>
    refine ⟨0, prev, Nat.le_refl _, ?_, Or.inr rfl⟩
    rw [lowerLoop]; simp [tick_zero]
  | node a c l r ihl ihr =>
    obtain ⟨h1, h2, h3, h4⟩ := hr
    obtain ⟨v, hv, hkv⟩ := hk a (by simp)
    have h1' : (h.tick 1).node a = some ⟨p, l.addr, r.addr, c⟩ := h1
    rw [lowerLoop]
    rw [if_neg (show (Tree.node a c l r).addr ≠ 0 from h2)]
    simp only [addr_node, Prog.bind_app, dataOf_eq hv, Res.bind_ok, less_app, hkv, Prog.ite_app, nd_eq h1']
    by_cases hlt : lt (kf a) key = true
    · rw [if_pos hlt]
      obtain ⟨n, x, q1, q2, q3⟩ := ihr (h := h.tick 1) (p := a) (h4.congr fun _ _ => rfl) (fun y hy => hk y (by simp [hy])) prev
      exact ⟨1 + n, x, by simp only [Tree.height]; omega, by rw [q2, tick_tick], q3.imp (fun q => ⟨by simp [q.1], q.2⟩) id⟩
    · rw [if_neg hlt]
      obtain ⟨n, x, q1, q2, q3⟩ := ihl (h := h.tick 1) (p := a) (h3.congr fun _ _ => rfl) (fun y hy => hk y (by simp [hy])) a
      refine ⟨1 + n, x, by simp only [Tree.height]; omega, by rw [q2, tick_tick], Or.inl ?_⟩
      rcases q3 with q | rfl
      · exact ⟨by simp [q.1], q.2⟩
      · exact ⟨by simp, by simpa using hlt⟩

theorem lowerBound_any {h : Heap V} {hd : Addr} {es : List (Addr × V)} (o : Owns h hd es) (key : K) :
    ∃ n, n ≤ 2 * Nat.log2 (es.length + 1) ∧ ((∃ e ∈ es, lt (keyOf e.2) key = false ∧ lowerBound lt keyOf hd key h = .ok (e.1, h.tick n)) ∨
      lowerBound lt keyOf hd key h = .ok (hd, h.tick n)) := by
  obtain ⟨t, r, b, i, d⟩ := o
  obtain ⟨n, x, hn, e, hx⟩ := lowerLoop_any (lt := lt) key r.rep (by rw [i]; exact keys_of (keyOf := keyOf) (dflt := key) d) hd
  have hf : lowerBound lt keyOf hd key h = .ok (x, h.tick n) := by
    unfold lowerBound
    simp only [Prog.bind_app, root_of_zip r, Res.bind_ok, e, Prog.pure_app]
  refine ⟨n, by rw [← size_of i]; exact Nat.le_trans hn b.height, ?_⟩
  rcases hx with ⟨h1, h2⟩ | rfl
  · left
    rw [i, List.mem_map] at h1
    obtain ⟨y, hy, rfl⟩ := h1
    rw [kfOf_mem (d y hy)] at h2
    exact ⟨y, hy, h2, hf⟩
  · exact Or.inr hf

/-- `erase(key)`: at most one element leaves, one with the given key. -/
theorem erase_any {h : Heap V} {hd : Addr} {es : List (Addr × V)} (w : Wf h)
    (o : Owns h hd es) (key : K)
    (hcl : es.Pairwise fun x y => keyOf x.2 = key → lt key (keyOf y.2) = true) :
    ∃ h', h'.cmps ≤ h.cmps + 3 * (2 * Nat.log2 (es.length + 1)) ∧ h'.next = h.next ∧
    (((lt key key = false → (es.Pairwise fun y x => keyOf x.2 = key → lt key (keyOf y.2) = false) → ∀ e ∈ es, keyOf e.2 ≠ key) ∧
        erase lt keyOf hd key h = .ok (0, h') ∧ Owns h' hd es ∧
        Effect (cells hd es) (cells hd es) h h') ∨
     (∃ A e B, es = A ++ e :: B ∧ keyOf e.2 = key ∧ erase lt keyOf hd key h = .ok (1, h') ∧
        Owns h' hd (A ++ B) ∧ Effect (cells hd es) (cells hd (A ++ B)) h h')) := by
  have o0 := o
  obtain ⟨t, r, b, i, d⟩ := o
  have hk : Keys keyOf h t.inorder (kfOf keyOf key h) := by rw [i]; exact keys_of d
  have hs : Clear lt (kfOf keyOf key h) key t.inorder := by
    rw [i, Clear, List.pairwise_map]
    refine hcl.imp_of_mem ?_
    intro a b ha hb q
    rw [kfOf_mem (d a ha), kfOf_mem (d b hb)]; exact q
  obtain ⟨h1, t1, x, e1, r1, b1, u1, hcase⟩ := remove_any key r b hk hs
  rw [size_of i, i] at u1
  rcases hcase with ⟨hx, hno, hi⟩ | ⟨hkx, A, B, hi, hi'⟩
  · refine ⟨h1, u1.cmps, u1.next, Or.inl ⟨?_, ?_, ?_, ?_⟩⟩
    · intro hi0 hbf e he
      have := hno hi0 (by
        rw [i, Before, List.pairwise_map]
        refine hbf.imp_of_mem ?_
        intro a b ha hb q
        rw [kfOf_mem (d a ha), kfOf_mem (d b hb)]; exact q) e.1 (by rw [i]; exact List.mem_map_of_mem he)
      rwa [kfOf_mem (d e he)] at this
    · unfold erase
      simp [e1, hx, delNode]
    · exact ⟨t1, r1, b1, hi.trans i, fun e he => by rw [u1.data]; exact d e he⟩
    · exact ⟨fun x hx _ => ⟨u1.node x hx, by rw [u1.data]⟩, fun _ h1 h2 => absurd h1 h2,
        fun _ h1 h2 => absurd h1 h2, w.upd u1, Nat.le_of_eq u1.next.symm⟩
  · rw [i] at hi
    obtain ⟨A, C, rfl, rfl, hC⟩ := List.map_eq_append_iff.1 hi
    obtain ⟨e, B, rfl, rfl, rfl⟩ := List.map_eq_cons_iff.1 hC
    have hx0 : e.1 ≠ 0 := fun e0 => o0.zero_not (by rw [← e0]; simp [cells])
    have hlive : (h1.node e.1).isSome := by rw [u1.live]; exact o0.cells_live (by simp [cells])
    have hnd := o0.cells_nodup
    have hnm : e.1 ∉ cells hd (A ++ B) := by
      simp only [cells, List.map_append, List.map_cons, List.nodup_cons, List.mem_append, List.mem_cons, not_or,
        List.nodup_append] at hnd ⊢
      refine ⟨fun q => hnd.1.2.1 q.symm, fun q => hnd.2.2.2 e.1 q e.1 (Or.inl rfl) rfl, hnd.2.2.1.1⟩
    have hsub : ∀ x, x ∈ cells hd (A ++ B) → x ∈ cells hd (A ++ e :: B) := by
      intro x hx
      simp only [cells, List.map_append, List.map_cons, List.mem_append, List.mem_cons] at hx ⊢; grind
    have hsub' : ∀ x, x ∈ cells hd (A ++ e :: B) → x ≠ e.1 → x ∈ cells hd (A ++ B) := by
      intro x hx hne
      simp only [cells, List.map_append, List.map_cons, List.mem_append, List.mem_cons] at hx ⊢; grind
    rw [kfOf_mem (d e (by simp))] at hkx
    refine ⟨h1.free e.1, u1.cmps, u1.next, Or.inr ⟨A, e, B, rfl, hkx, ?_, ?_, ?_, ?_, ?_, ?_, ?_⟩⟩
    · unfold erase
      obtain ⟨m, hm⟩ := Option.isSome_iff_exists.1 hlive
      simp [e1, hx0, delNode, hm]
    · refine Owns.congr (h := h1) ⟨t1, r1, b1, by rw [hi', List.map_append], ?_⟩ ?_
      · intro y hy; rw [u1.data]; exact d y (by simp at hy ⊢; grind)
      · intro y hy
        have : y ≠ e.1 := fun q => hnm (q ▸ hy)
        simp [Heap.free, this]
    · intro x hx hx'
      have : x ≠ e.1 := by rintro rfl; exact hx (by simp [cells])
      simp only [Heap.free, if_neg this]
      exact ⟨u1.node x hx, by rw [u1.data]⟩
    · intro x hx hx'; exact absurd (hsub x hx) hx'
    · intro x hx hx'
      by_cases hxe : x = e.1
      · subst hxe; simp [Heap.free]
      · exact absurd (hsub' x hx hxe) hx'
    · have w1 := w.upd u1
      refine ⟨w1.pos, fun x hx => ?_⟩
      simp only [Heap.free]
      split
      · simp
      · exact w1.unused x hx
    · exact Nat.le_of_eq u1.next.symm


/-! ## Histories -/

/-- A call is harmless for any comparator unless it is an `erase(k)` of a container in which some element with the key `k` is
followed by one that is not greater than `k`. -/
def Keeps (lt : K → K → Bool) (keyOf : V → K) (h : Heap V) : Call K V → Prop
  | .erase c k => ∀ es, entries c h = .ok (es, h) → es.Pairwise fun x y => keyOf x.2 = k → lt k (keyOf y.2) = true
  | _ => True

/-- Memories a client can reach with legal harmless calls of map/set members. -/
inductive Grown [DecidableEq K] (lt : K → K → Bool) (keyOf : V → K) : List Addr → Heap V → Prop where
  | start (junk : Addr → RbNode) : Grown lt keyOf [] (emptyMemory junk)
  | step {objs h objs' h'} (c : Call K V) : Grown lt keyOf objs h → c.Legal objs → Keeps lt keyOf h c →
      call lt keyOf objs c h = .ok (objs', h') → Grown lt keyOf objs' h'
  | env {objs h h'} : Grown lt keyOf objs h → Env h h' → Grown lt keyOf objs h'

/-- These are reachable states in the sense of the other theorems. -/
theorem Grown.reach {objs : List Addr} {h : Heap V} (g : Grown lt keyOf objs h) : Reach lt keyOf objs h := by
  induction g with
  | start junk => exact .start junk
  | step c _ hl _ e ih => exact ih.step c hl e
  | env _ e ih => exact ih.env e

/-- Memory holds exactly the containers `objs`, each a balanced tree. -/
def Inv (objs : List Addr) (h : Heap V) : Prop := ∃ ws, World h ws ∧ ws.map Prod.fst = objs

/-- Every legal harmless call returns and affects only the containers it names as changed. -/
theorem call_ok {objs : List Addr} {h : Heap V} (I : Inv objs h) (c : Call K V)
    (hl : c.Legal objs) (hk : Keeps lt keyOf h c) : ∃ objs' h', call lt keyOf objs c h = .ok (objs', h') ∧ Inv objs' h' ∧
      ∀ hd es, hd ∈ objs → hd ∉ c.changes → Owns h hd es → hd ∈ objs' ∧ Owns h' hd es := by
  obtain ⟨ws, W, rfl⟩ := I
  have uniq : ∀ L hd es R, ws = L ++ (hd, es) :: R → ∀ w ∈ ws, w.1 ≠ hd → ∀ x ∈ cells w.1 w.2, x ∉ cells hd es := by
    intro L hd es R e w hw hne x hx hx'
    subst e
    have hd' := W.disj hx'
    simp only [List.mem_append, List.mem_cons] at hw
    rcases hw with hw | rfl | hw
    · exact hd'.1 (List.mem_flatMap.2 ⟨w, hw, hx⟩)
    · exact hne rfl
    · exact hd'.2 (List.mem_flatMap.2 ⟨w, hw, hx⟩)
  have own_eq : ∀ hd es, hd ∈ ws.map Prod.fst → Owns h hd es → (hd, es) ∈ ws := by
    intro hd es hm o
    obtain ⟨L, es', R, e⟩ := split_at hm
    have o' := W.owns (hd, es') (by rw [e]; simp)
    have q := o.entries.symm.trans o'.entries
    simp only [Res.ok.injEq, Prod.mk.injEq, and_true] at q
    rw [q, e]; simp
  have one : ∀ hd, hd ∈ ws.map Prod.fst → ∀ p : Prog (Heap V) (List Addr),
      (∀ es, Owns h hd es → ∃ h' es', p h = .ok (ws.map Prod.fst, h') ∧ Owns h' hd es' ∧ Effect (cells hd es) (cells hd es') h h') →
      ∃ objs' h', p h = .ok (objs', h') ∧ Inv objs' h' ∧
        ∀ hd' es, hd' ∈ ws.map Prod.fst → hd' ∉ [hd] → Owns h hd' es → hd' ∈ objs' ∧ Owns h' hd' es := by
    intro hd hm p hp
    obtain ⟨L, es, R, e⟩ := split_at hm
    have hw : (hd, es) ∈ ws := by rw [e]; simp
    obtain ⟨h', es', q, o', ef⟩ := hp es (W.owns _ hw)
    refine ⟨_, h', q, ⟨L ++ (hd, es') :: R, (e ▸ W).step ef o', by rw [e]; simp⟩, ?_⟩
    intro hd' es0 hm' hne o0
    have hw' := own_eq hd' es0 hm' o0
    exact ⟨hm', o0.frame W.wf ef (uniq L hd es R e _ hw' (by simpa using hne))⟩
  have tick : ∀ p : Prog (Heap V) (List Addr), (∃ n, p h = .ok (ws.map Prod.fst, h.tick n)) →
      ∃ objs' h', p h = .ok (objs', h') ∧ Inv objs' h' ∧
        ∀ hd' es, hd' ∈ ws.map Prod.fst → hd' ∉ ([] : List Addr) → Owns h hd' es → hd' ∈ objs' ∧ Owns h' hd' es := by
    intro p ⟨n, q⟩
    exact ⟨_, _, q, ⟨ws, W.tick n, rfl⟩, fun hd' es hm _ o => ⟨hm, o.tick n⟩⟩
  have plus : ∀ (p : Prog (Heap V) (List Addr)) (es' : List (Addr × V)) (h' : Heap V),
      p h = .ok (ws.map Prod.fst ++ [h.next], h') → Owns h' h.next es' →
      Effect [] (cells h.next es') h h' →
      ∃ objs' h', p h = .ok (objs', h') ∧ Inv objs' h' ∧
        ∀ hd' es, hd' ∈ ws.map Prod.fst → hd' ∉ ([] : List Addr) → Owns h hd' es → hd' ∈ objs' ∧ Owns h' hd' es := by
    intro p es' h' q o' ef
    refine ⟨_, h', q, ⟨ws ++ [(h.next, es')], W.add ef o', by simp⟩, ?_⟩
    intro hd' es hm _ o
    exact ⟨by simp only [List.mem_append]; exact Or.inl hm, o.frame W.wf ef (by simp)⟩
  have owned : ∀ hd, hd ∈ ws.map Prod.fst → ∃ es, Owns h hd es := by
    intro hd hm
    obtain ⟨L, es, R, e⟩ := split_at hm
    exact ⟨es, W.owns (hd, es) (by rw [e]; simp)⟩
  obtain ⟨hargs, hns⟩ := hl
  cases c with
  | create =>
    obtain ⟨h', e, o, ef, _, _⟩ := newTree_owns W.wf
    exact plus _ [] h' (by simp only [call, Prog.bind_app, e, Res.bind_ok, Prog.pure_app]) o ef
  | copyOf s =>
    obtain ⟨es, o⟩ := owned s (hargs s (by simp [Call.args]))
    obtain ⟨h', es', e, o', sv, ef⟩ := copyCtor_owns W.wf o
    exact plus _ es' h' (by simp only [call, Prog.bind_app, e, Res.bind_ok, Prog.pure_app]) o' ef
  | assign d s =>
    have hne : s ≠ d := fun e => hns d (by rw [e])
    have hs := hargs s (by simp [Call.args])
    obtain ⟨es, o⟩ := owned s hs
    refine one d (hargs d (by simp [Call.args])) _ fun es0 o0 => ?_
    obtain ⟨L, es1, R, e⟩ := split_at (hargs d (by simp [Call.args]))
    have hdis := uniq L d es1 R e (s, es) (own_eq s es hs o) hne
    have o1 := W.owns (d, es1) (by rw [e]; simp)
    have q := o0.entries.symm.trans o1.entries
    simp only [Res.ok.injEq, Prod.mk.injEq, and_true] at q
    obtain ⟨h', es', e', o', sv, ef⟩ := opAssign_owns W.wf o0 o (by rw [q]; exact hdis)
    exact ⟨h', es', by simp only [call, Prog.bind_app, e', Res.bind_ok, Prog.pure_app], o', ef⟩
  | destroy c =>
    obtain ⟨L, es, R, e⟩ := split_at (hargs c (by simp [Call.args]))
    obtain ⟨h', e', ef⟩ := destroy_owns W.wf (W.owns (c, es) (by rw [e]; simp))
    refine ⟨_, h', by simp only [call, Prog.bind_app, e', Res.bind_ok, Prog.pure_app]; rfl, ⟨L ++ R, (e ▸ W).drop ef, ?_⟩, ?_⟩
    · exact (erase_map_split W e).symm
    · intro hd' es' hm hne o
      have hne' : hd' ≠ c := by simpa [Call.changes] using hne
      refine ⟨(List.mem_erase_of_ne hne').2 hm, o.frame W.wf ef (uniq L c es R e _ (own_eq _ _ hm o) hne')⟩
  | insert c v =>
    refine one c (hargs c (by simp [Call.args])) _ fun es o => ?_
    obtain ⟨n, hn, hc⟩ := insertUnique_any (lt := lt) (keyOf := keyOf) W.wf o v
    rcases hc with ⟨e, he, hk, q⟩ | ⟨A, B, h', rfl, q, o', ef, _⟩
    · exact ⟨h.tick n, es, by simp only [call, Prog.bind_app, q, Res.bind_ok, Prog.pure_app], o.tick n, Effect.tick W.wf _ n⟩
    · exact ⟨h', _, by simp only [call, Prog.bind_app, q, Res.bind_ok, Prog.pure_app], o', ef⟩
  | insertRange c vs =>
    refine one c (hargs c (by simp [Call.args])) _ fun es o => ?_
    suffices hh : ∀ (vs : List V) (h : Heap V) (es : List (Addr × V)), Wf h → Owns h c es →
        ∃ h' es', insertRange lt keyOf c vs h = .ok ((), h') ∧ Owns h' c es' ∧ Effect (cells c es) (cells c es') h h' by
      obtain ⟨h', es', q, o', ef⟩ := hh vs h es W.wf o
      exact ⟨h', es', by simp only [call, Prog.bind_app, q, Res.bind_ok, Prog.pure_app], o', ef⟩
    intro vs
    induction vs with
    | nil => intro h es w o; exact ⟨h, es, rfl, o, Effect.refl w _⟩
    | cons v vs ih =>
      intro h es w o
      obtain ⟨n, hn, hc⟩ := insertUnique_any (lt := lt) (keyOf := keyOf) w o v
      rcases hc with ⟨e, he, hk, q⟩ | ⟨A, B, h', rfl, q, o', ef, _⟩
      · obtain ⟨h2, es2, q2, o2, f2⟩ := ih (h.tick n) es (w.tick n) (o.tick n)
        exact ⟨h2, es2, by simp only [insertRange, Prog.bind_app, q, q2, Res.bind_ok, Prog.pure_app], o2, f2.of_tick⟩
      · obtain ⟨h2, es2, q2, o2, f2⟩ := ih h' _ ef.wf o'
        exact ⟨h2, es2, by simp only [insertRange, Prog.bind_app, q, q2, Res.bind_ok, Prog.pure_app], o2, ef.trans w f2⟩
  | erase c k =>
    refine one c (hargs c (by simp [Call.args])) _ fun es o => ?_
    obtain ⟨h', _, _, hc⟩ := erase_any W.wf o k (hk es o.entries)
    rcases hc with ⟨hno, q, o', ef⟩ | ⟨A, x, B, rfl, hk, q, o', ef⟩
    · exact ⟨h', es, by simp only [call, Prog.bind_app, q, Res.bind_ok, Prog.pure_app], o', ef⟩
    · exact ⟨h', _, by simp only [call, Prog.bind_app, q, Res.bind_ok, Prog.pure_app], o', ef⟩
  | clear c =>
    refine one c (hargs c (by simp [Call.args])) _ fun es o => ?_
    obtain ⟨h', q, o', ef, _⟩ := clear_owns W.wf o
    exact ⟨h', [], by simp only [call, Prog.bind_app, q, Res.bind_ok, Prog.pure_app], o', ef⟩
  | store c v =>
    refine one c (hargs c (by simp [Call.args])) _ fun es o => ?_
    obtain ⟨n, hn, hf⟩ := find_any (lt := lt) (keyOf := keyOf) o (keyOf v)
    rcases hf with ⟨e, he, hk, q⟩ | q
    · obtain ⟨A, B, rfl⟩ := List.append_of_mem he
      have hne : e.1 ≠ c := by
        have := o.cells_nodup
        simp only [cells, List.nodup_cons] at this
        exact fun q => this.1 (q ▸ List.mem_map_of_mem he)
      obtain ⟨h', q', o', ef, _, _⟩ := storeData_owns (W.wf.tick n) (o.tick n) v
      exact ⟨h', _, by simp only [call, Prog.bind_app, q, q', Res.bind_ok, if_neg hne, Prog.ite_app, Prog.pure_app], o', ef.of_tick⟩
    · exact ⟨h.tick n, es, by simp only [call, Prog.bind_app, q, Res.bind_ok, if_true, Prog.pure_app], o.tick n, Effect.tick W.wf _ n⟩
  | find c k =>
    obtain ⟨es, o⟩ := owned c (hargs c (by simp [Call.args]))
    obtain ⟨n, hn, hf⟩ := find_any (lt := lt) (keyOf := keyOf) o k
    rcases hf with ⟨e, he, hk, q⟩ | q <;>
      exact tick _ ⟨n, by simp only [call, Prog.bind_app, q, Res.bind_ok, Prog.pure_app]⟩
  | lower c k =>
    obtain ⟨es, o⟩ := owned c (hargs c (by simp [Call.args]))
    obtain ⟨n, hn, hf⟩ := lowerBound_any (lt := lt) (keyOf := keyOf) o k
    rcases hf with ⟨e, he, hk, q⟩ | q <;>
      exact tick _ ⟨n, by simp only [call, Prog.bind_app, q, Res.bind_ok, Prog.pure_app]⟩

theorem Grown.inv {objs : List Addr} {h : Heap V} (r : Grown lt keyOf objs h) : Inv objs h := by
  induction r with
  | start junk => exact ⟨[], ⟨⟨Nat.zero_lt_one, fun _ _ => ⟨rfl, rfl⟩⟩, by simp, by simp, by simp [emptyMemory]⟩, rfl⟩
  | step c _ hl hk e ih =>
    obtain ⟨objs', h', e', I, _⟩ := call_ok ih c hl hk
    rw [e] at e'
    simp only [Res.ok.injEq, Prod.mk.injEq] at e'
    obtain ⟨rfl, rfl⟩ := e'
    exact I
  | env _ e ih =>
    obtain ⟨ws, W, q⟩ := ih
    exact ⟨ws, W.env e, q⟩

theorem Grown.owns {objs : List Addr} {h : Heap V} (r : Grown lt keyOf objs h) {c : Addr}
    (hc : c ∈ objs) : ∃ es, Owns h c es ∧ Wf h := by
  obtain ⟨ws, W, rfl⟩ := r.inv
  obtain ⟨L, es, R, e⟩ := split_at hc
  exact ⟨es, W.owns (c, es) (by rw [e]; simp), W.wf⟩

/-! ## C123 -/

/-- With any comparator whatever, every legal call returns without undefined behaviour, except perhaps an `erase(k)` of a container
in which an element with the key `k` is followed by one not greater than `k`; and it leaves the other containers alone. -/
theorem any_calls_return_partial {objs : List Addr} {h : Heap V} (g : Grown lt keyOf objs h)
    (c : Call K V) (hl : c.Legal objs) (hk : Keeps lt keyOf h c) :
    ∃ objs' h', call lt keyOf objs c h = .ok (objs', h') ∧ Grown lt keyOf objs' h' ∧
      ∀ d ∈ objs, d ∉ c.changes → ∀ es, entries d h = .ok (es, h) → d ∈ objs' ∧ entries d h' = .ok (es, h') := by
  obtain ⟨objs', h', e, _, keep⟩ := call_ok g.inv c hl hk
  refine ⟨objs', h', e, g.step c hl hk e, ?_⟩
  intro d hd hn es he
  obtain ⟨es', o, w⟩ := g.owns hd
  have q := he.symm.trans o.entries
  simp only [Res.ok.injEq, Prod.mk.injEq, and_true] at q
  subst q
  obtain ⟨k1, k2⟩ := keep d es hd hn o
  exact ⟨k1, k2.entries⟩

/-- With any comparator, iteration forwards visits a finite sequence of distinct elements, backwards the same in reverse. -/
theorem any_iteration_partial {objs : List Addr} {h : Heap V} (g : Grown lt keyOf objs h) {c : Addr}
    (hc : c ∈ objs) : ∃ es, entries c h = .ok (es, h) ∧ entriesBackward c h = .ok (es.reverse, h) ∧ (es.map Prod.fst).Nodup := by
  obtain ⟨es, o, w⟩ := g.owns hc
  have hn := o.cells_nodup
  simp only [cells, List.nodup_cons] at hn
  exact ⟨es, o.entries, o.entriesBackward, hn.2⟩

/-- With any comparator, `insert(v)` either answers an element with an equal key and changes nothing, or adds `v` in one place and
keeps all other elements, their nodes and their order; it makes at most `2·log2(size+1)` comparisons. -/
theorem any_insert_partial {objs : List Addr} {h : Heap V} (g : Grown lt keyOf objs h) {c : Addr}
    (hc : c ∈ objs) (v : V) : ∃ es h', entries c h = .ok (es, h) ∧ h'.cmps ≤ h.cmps + 2 * Nat.log2 (es.length + 1) ∧
      Grown lt keyOf objs h' ∧
      ((∃ e ∈ es, keyOf e.2 = keyOf v ∧ insertUnique lt keyOf c v h = .ok ((e.1, false), h') ∧ entries c h' = .ok (es, h')) ∨
       (∃ A B x, es = A ++ B ∧ insertUnique lt keyOf c v h = .ok ((x, true), h') ∧ entries c h' = .ok (A ++ (x, v) :: B, h'))) := by
  obtain ⟨es, o, w⟩ := g.owns hc
  have hl : (Call.insert c v : Call K V).Legal objs := ⟨by simpa [Call.args] using hc, by simp⟩
  obtain ⟨n, hn, hcase⟩ := insertUnique_any (lt := lt) (keyOf := keyOf) w o v
  rcases hcase with ⟨e, he, hk, q⟩ | ⟨A, B, h', rfl, q, o', ef, hcm⟩
  · refine ⟨es, h.tick n, o.entries, by simp only [Heap.tick]; omega, ?_, Or.inl ⟨e, he, hk, q, (o.tick n).entries⟩⟩
    exact g.step _ hl (by simp [Keeps]) (by simp only [call, Prog.bind_app, q, Res.bind_ok, Prog.pure_app])
  · refine ⟨_, h', o.entries, by omega, ?_, Or.inr ⟨A, B, _, rfl, q, o'.entries⟩⟩
    exact g.step _ hl (by simp [Keeps]) (by simp only [call, Prog.bind_app, q, Res.bind_ok, Prog.pure_app])

/-- With any comparator, `find(k)` answers `end()` or an element whose key equals `k`, and `lower_bound(k)` answers `end()` or an
element that is not less than `k`; both change nothing and make at most `2·log2(size+1)` comparisons. -/
theorem any_find_partial {objs : List Addr} {h : Heap V} (g : Grown lt keyOf objs h) {c : Addr}
    (hc : c ∈ objs) (k : K) : ∃ es, entries c h = .ok (es, h) ∧
      (∃ x h', find lt keyOf c k h = .ok (x, h') ∧ entries c h' = .ok (es, h') ∧ h'.cmps ≤ h.cmps + 2 * Nat.log2 (es.length + 1) ∧
        (x ≠ c → ∃ v, (x, v) ∈ es ∧ keyOf v = k)) ∧
      (∃ x h', lowerBound lt keyOf c k h = .ok (x, h') ∧ entries c h' = .ok (es, h') ∧ h'.cmps ≤ h.cmps + 2 * Nat.log2 (es.length + 1) ∧
        (x ≠ c → ∃ v, (x, v) ∈ es ∧ lt (keyOf v) k = false)) := by
  obtain ⟨es, o, w⟩ := g.owns hc
  refine ⟨es, o.entries, ?_, ?_⟩
  · obtain ⟨n, hn, hf⟩ := find_any (lt := lt) (keyOf := keyOf) o k
    rcases hf with ⟨e, he, hk, q⟩ | q
    · exact ⟨e.1, h.tick n, q, (o.tick n).entries, by simp only [Heap.tick]; omega, fun _ => ⟨e.2, he, hk⟩⟩
    · exact ⟨c, h.tick n, q, (o.tick n).entries, by simp only [Heap.tick]; omega, fun e => absurd rfl e⟩
  · obtain ⟨n, hn, hf⟩ := lowerBound_any (lt := lt) (keyOf := keyOf) o k
    rcases hf with ⟨e, he, hk, q⟩ | q
    · exact ⟨e.1, h.tick n, q, (o.tick n).entries, by simp only [Heap.tick]; omega, fun _ => ⟨e.2, he, hk⟩⟩
    · exact ⟨c, h.tick n, q, (o.tick n).entries, by simp only [Heap.tick]; omega, fun e => absurd rfl e⟩

/-- With any comparator, `erase(k)` of a container in which everything behind an element with the key `k` is greater than `k`
removes nothing and answers 0, or removes exactly one element, one with the key `k`, and answers 1. It answers 0 in spite of such an
element only if something before that element is greater than `k`, or `k` is less than itself. At most `6·log2(size+1)` comparisons
are made. -/
theorem any_erase_partial {objs : List Addr} {h : Heap V} (g : Grown lt keyOf objs h) {c : Addr} (hc : c ∈ objs) (k : K)
    {es : List (Addr × V)} (he : entries c h = .ok (es, h))
    (hcl : es.Pairwise fun x y => keyOf x.2 = k → lt k (keyOf y.2) = true) :
    ∃ h', Grown lt keyOf objs h' ∧ h'.cmps ≤ h.cmps + 6 * Nat.log2 (es.length + 1) ∧
      ((erase lt keyOf c k h = .ok (0, h') ∧ entries c h' = .ok (es, h') ∧
          ((∃ e ∈ es, keyOf e.2 = k) → lt k k = true ∨ ∃ A x B, es = A ++ x :: B ∧ keyOf x.2 = k ∧ ∃ y ∈ A, lt k (keyOf y.2) = true)) ∨
       (∃ A x B, es = A ++ x :: B ∧ keyOf x.2 = k ∧ erase lt keyOf c k h = .ok (1, h') ∧ entries c h' = .ok (A ++ B, h'))) := by
  obtain ⟨es', o, w⟩ := g.owns hc
  have q := he.symm.trans o.entries
  simp only [Res.ok.injEq, Prod.mk.injEq, and_true] at q
  subst q
  have hl : (Call.erase c k : Call K V).Legal objs := ⟨by simpa [Call.args] using hc, by simp⟩
  have hkp : Keeps lt keyOf h (.erase c k) := by
    intro es' he'
    rw [he] at he'
    simp only [Res.ok.injEq, Prod.mk.injEq, and_true] at he'
    exact he' ▸ hcl
  obtain ⟨h', hcm, _, hcase⟩ := erase_any w o k hcl
  rcases hcase with ⟨hno, q, o', ef⟩ | ⟨A, x, B, rfl, hk, q, o', ef⟩
  · refine ⟨h', g.step _ hl hkp (by simp only [call, Prog.bind_app, q, Res.bind_ok, Prog.pure_app]), by omega, Or.inl ⟨q, o'.entries, ?_⟩⟩
    intro hex
    cases hi : lt k k with
    | true => exact Or.inl rfl
    | false =>
      right
      apply Classical.byContradiction
      intro hn
      obtain ⟨e, he, hek⟩ := hex
      refine hno hi ?_ e he hek
      rw [List.pairwise_iff_forall_sublist]
      intro y x hs hxk
      cases hlt : lt k (keyOf y.2) with
      | false => rfl
      | true =>
        exfalso
        apply hn
        obtain ⟨a, b, rfl, ha, hb⟩ := List.cons_sublist_iff.1 hs
        obtain ⟨B1, B2, rfl⟩ := List.append_of_mem (List.singleton_sublist.1 hb)
        exact ⟨a ++ B1, x, B2, by simp, hxk, y, by simp [ha], hlt⟩
  · exact ⟨h', g.step _ hl hkp (by simp only [call, Prog.bind_app, q, Res.bind_ok, Prog.pure_app]), by omega,
      Or.inr ⟨A, x, B, rfl, hk, q, o'.entries⟩⟩

/-- With any comparator, nothing leaks: when all containers are gone no node is left. -/
theorem any_no_leak_partial {h : Heap V} (g : Grown lt keyOf [] h) (x : Addr) : h.node x = none := by
  obtain ⟨ws, W, e⟩ := g.inv
  have hw : ws = [] := by simpa using e
  subst hw
  cases hn : h.node x with
  | none => rfl
  | some n => exact absurd (W.tight x (by simp [hn])) (by simp)

/-- Any values with different keys can be inserted, whatever the comparator. -/
theorem exists_grown (lt : K → K → Bool) (keyOf : V → K) (vs : List V) (hv : (vs.map keyOf).Nodup) :
    ∃ c h es, Grown lt keyOf [c] h ∧ entries c h = .ok (es, h) ∧ (es.map Prod.snd).Perm vs := by
  let j : Addr → RbNode := fun _ => ⟨0, 0, 0, false⟩
  have g0 : Grown lt keyOf [] (emptyMemory j) := .start j
  obtain ⟨ws, W, hw⟩ := g0.inv
  obtain ⟨h1, q1, o1, f1, _, _⟩ := newTree_owns W.wf
  have g1 : Grown lt keyOf [1] h1 := g0.step .create ⟨by simp [Call.args], by simp⟩ (by simp [Keeps]) (by
    simp only [call, Prog.bind_app, q1, Res.bind_ok, Prog.pure_app]; rfl)
  suffices hh : ∀ vs : List V, (vs.map keyOf).Nodup → ∃ h es, Grown lt keyOf [1] h ∧ entries 1 h = .ok (es, h) ∧ (es.map Prod.snd).Perm vs by
    obtain ⟨h, es, q⟩ := hh vs hv
    exact ⟨1, h, es, q⟩
  intro vs
  induction vs with
  | nil => intro _; exact ⟨h1, [], g1, o1.entries, List.Perm.refl _⟩
  | cons v vs ih =>
    intro hn
    simp only [List.map_cons, List.nodup_cons] at hn
    obtain ⟨h, es, g, e, p⟩ := ih hn.2
    obtain ⟨es', h', e', _, g', hc⟩ := any_insert_partial g (c := 1) (by simp) v
    rw [e] at e'
    simp only [Res.ok.injEq, Prod.mk.injEq, and_true] at e'
    subst e'
    rcases hc with ⟨x, hx, hk, _⟩ | ⟨A, B, y, rfl, q, eq⟩
    · exfalso
      apply hn.1
      rw [← hk]
      exact List.mem_map_of_mem (p.subset (List.mem_map_of_mem hx))
    · refine ⟨h', _, g', eq, ?_⟩
      simp only [List.map_append, List.map_cons] at p ⊢
      exact List.perm_middle.trans (p.cons v)

/-- The comparator that always answers true meets the hypothesis of `any_erase_partial` for every key, and with three elements in the
container; the one that always answers false meets it for every absent key. -/
example : ∃ c h es, Grown (fun _ _ : Nat => true) id [c] h ∧ entries c h = .ok (es, h) ∧ (es.map Prod.snd).Perm [4, 2, 9] ∧
    ∃ h', erase (fun _ _ : Nat => true) id c 4 h = .ok (0, h') ∨ erase (fun _ _ : Nat => true) id c 4 h = .ok (1, h') := by
  obtain ⟨c, h, es, g, e, p⟩ := exists_grown (fun _ _ : Nat => true) id [4, 2, 9] (by simp)
  obtain ⟨h', _, _, hc⟩ := any_erase_partial g (c := c) (by simp) 4 e (List.pairwise_of_forall (fun _ _ _ => rfl))
  refine ⟨c, h, es, g, e, p, h', ?_⟩
  rcases hc with ⟨q, _⟩ | ⟨_, _, _, _, _, q, _⟩
  · exact Or.inl q
  · exact Or.inr q

example : ∃ c h es, Grown (fun _ _ : Nat => false) id [c] h ∧ entries c h = .ok (es, h) ∧ (es.map Prod.snd).Perm [4, 2, 9] ∧
    ∃ h', erase (fun _ _ : Nat => false) id c 5 h = .ok (0, h') ∧ entries c h' = .ok (es, h') := by
  obtain ⟨c, h, es, g, e, p⟩ := exists_grown (fun _ _ : Nat => false) id [4, 2, 9] (by simp)
  have hno : ∀ x ∈ es, x.2 ≠ 5 := by
    intro x hx e5
    have := p.subset (List.mem_map_of_mem (f := Prod.snd) hx)
    rw [e5] at this; simp at this
  obtain ⟨h', _, _, hc⟩ := any_erase_partial g (c := c) (by simp) 5 e (by
    refine List.Pairwise.imp_of_mem (R := fun _ _ => True) ?_ (List.pairwise_of_forall (fun _ _ => trivial))
    intro a b ha _ _ h5
    exact absurd h5 (hno a ha))
  refine ⟨c, h, es, g, e, p, h', ?_⟩
  rcases hc with ⟨q, e', _⟩ | ⟨A, x, B, rfl, hx, _⟩
  · exact ⟨q, e'⟩
  · exact absurd hx (hno x (by simp))

end Verif.Rb.AnyOrder
