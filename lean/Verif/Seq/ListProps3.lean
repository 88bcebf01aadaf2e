import Verif.Seq.ListProps2
/-!
# Properties of `ttl::list`, continued: splice, swap, resize, copies, comparison, memory
-/
set_option linter.unusedVariables false
set_option linter.unusedSimpArgs false
set_option linter.unusedSectionVars false
namespace Verif.Seq.ListProps
open Verif Verif.Seq Verif.Seq.DList
variable {T : Type} {h : Heap T} {S : State T} {c d : Addr}

/-! ## C26: splice -/

/-- Returns only in memories where nothing was allocated or released. -/
def Keeps {α : Type} (p : Prog (Heap T) α) : Prop := ∀ h a h', p h = .ok (a, h') → NoAlloc h h'

theorem Keeps.bind {α β : Type} {p : Prog (Heap T) α} {k : α → Prog (Heap T) β} (hp : Keeps p) (hk : ∀ a, Keeps (k a)) : Keeps (p >>= k) := by
  intro h b h' q
  rw [Prog.bind_app] at q
  cases e : p h with
  | ok r =>
    rw [e, Res.bind_ok] at q
    have n1 := hp h r.1 r.2 e
    have n2 := hk r.1 r.2 b h' q
    exact ⟨n2.live.trans n1.live, n2.fresh.trans n1.fresh, n2.val.trans n1.val⟩
  | ub f => rw [e] at q; cases q
  | diverge => rw [e] at q; cases q

theorem keeps_getPrev (x : Addr) : Keeps (getPrev x : Prog (Heap T) Addr) := by
  intro h a h' q
  by_cases l : h.live x = true
  · rw [getPrev_eq l] at q; cases q; exact ⟨rfl, rfl, rfl⟩
  · rw [getPrev_dead (by simpa using l)] at q; cases q
theorem keeps_setNext (x y : Addr) : Keeps (setNext x y : Prog (Heap T) Unit) := by
  intro h a h' q
  by_cases l : h.live x = true
  · rw [setNext_eq l] at q; cases q; exact ⟨rfl, rfl, rfl⟩
  · rw [setNext_dead (by simpa using l)] at q; cases q
theorem keeps_setPrev (x y : Addr) : Keeps (setPrev x y : Prog (Heap T) Unit) := by
  intro h a h' q
  by_cases l : h.live x = true
  · rw [setPrev_eq l] at q; cases q; exact ⟨rfl, rfl, rfl⟩
  · rw [setPrev_dead (by simpa using l)] at q; cases q

theorem keeps_nodeSplice (p f l : Addr) : Keeps (nodeSplice p f l : Prog (Heap T) Unit) := by
  unfold nodeSplice
  repeat' (first | apply Keeps.bind | apply keeps_getPrev | apply keeps_setNext | apply keeps_setPrev | intro _)

theorem Keeps.pure {α : Type} (a : α) : Keeps (pure a : Prog (Heap T) α) := by
  intro h b h' q; rw [Prog.pure_app] at q; cases q; exact ⟨rfl, rfl, rfl⟩
theorem Keeps.ite {α : Type} {b : Prop} [Decidable b] {p q : Prog (Heap T) α} (hp : Keeps p) (hq : Keeps q) : Keeps (if b then p else q) := by
  split
  · exact hp
  · exact hq
theorem keeps_getNext (x : Addr) : Keeps (getNext x : Prog (Heap T) Addr) := by
  intro h a h' q
  by_cases l : h.live x = true
  · rw [getNext_eq l] at q; cases q; exact ⟨rfl, rfl, rfl⟩
  · rw [getNext_dead (by simpa using l)] at q; cases q
theorem keeps_advance : ∀ (i : Nat) (x : Addr), Keeps (advance i x : Prog (Heap T) Addr)
  | 0, x => Keeps.pure x
  | i + 1, x => Keeps.bind (keeps_getNext x) (keeps_advance i)
theorem keeps_iterAt (c : Addr) (i : Nat) : Keeps (iterAt c i : Prog (Heap T) Addr) := Keeps.bind (keeps_getNext c) (keeps_advance i)

/-- Every call of `splice(pos, other, it)` and of `swap` that returns, whatever it did to the links, has neither allocated nor released
anything, and copied no element. -/
theorem keeps_spliceOne (c : Addr) (i : Nat) (d : Addr) (j : Nat) : Keeps (exec (.spliceOne c i d j) : Prog (Heap T) Unit) := by
  unfold exec spliceOne
  refine Keeps.bind (keeps_iterAt c i) fun a => Keeps.bind (keeps_iterAt d j) fun b => ?_
  exact Keeps.ite (Keeps.bind (keeps_getNext _) fun _ => keeps_nodeSplice _ _ _) (Keeps.pure ())
theorem keeps_halfSwap (a b : Addr) : Keeps (halfSwap a b : Prog (Heap T) Unit) := by
  unfold halfSwap
  repeat' (first | apply Keeps.bind | apply keeps_getPrev | apply keeps_getNext | apply keeps_setNext | apply keeps_setPrev | intro _)
theorem keeps_swap (c d : Addr) : Keeps (exec (.swap c d) : Prog (Heap T) Unit) := by
  unfold exec DList.swap nodeSwap
  repeat' (first | apply Keeps.ite | apply keeps_halfSwap | apply Keeps.bind | apply keeps_getPrev | apply keeps_getNext | apply keeps_setNext | apply keeps_setPrev | intro _)

/-- The memory after a call that moved nodes only. -/
theorem noAlloc_of {k : Call T} {h1 : Heap T} (q : exec k h = .ok ((), h1)) (nd : ∃ p f l, exec k h = nodeSplice p f l h) : NoAlloc h h1 := by
  obtain ⟨p, f, l, e⟩ := nd
  rw [e] at q
  exact keeps_nodeSplice p f l h _ _ q

theorem exec_splice (R : Reach S h) (hc : S.Intact c) (hd : S.Intact d) {es fs : List (Addr × T)}
    (hs : Shows h c es) (hf : Shows h d fs) {i j k : Nat} (hi : i ≤ es.length) (hj : j ≤ fs.length) (hk : k ≤ fs.length) :
    exec (.splice c i d j k) h =
      nodeSplice (posOf c ((es.drop i).map Prod.fst)) (posOf d ((fs.drop j).map Prod.fst)) (posOf d ((fs.drop k).map Prod.fst)) h := by
  obtain ⟨_, r⟩ := shown_ring R hc hs
  obtain ⟨_, r'⟩ := shown_ring R hd hf
  simp only [exec, spliceRange, Prog.bind_app, iterAt_ok r hi, iterAt_ok r' hj, iterAt_ok r' hk, Res.bind_ok]

/-- **C26, the part that holds (two lists).** `splice(pos, other, first, last)` of a non-empty range of another list moves exactly
the elements of the range, in their nodes and in order, before `pos`, and removes them from the other list; nothing is allocated,
released or copied. -/
theorem splice_moves_partial (R : Reach S h) (hc : S.Intact c) (hd : S.Intact d) (hcd : c ≠ d) {es fs : List (Addr × T)}
    (hs : Shows h c es) (hf : Shows h d fs) {i j k : Nat} (hi : i ≤ es.length) (hjk : j < k) (hk : k ≤ fs.length) :
    ∃ h', exec (.splice c i d j k) h = .ok ((), h') ∧ Shows h' c (es.take i ++ ((fs.drop j).take (k - j) ++ es.drop i)) ∧
      Shows h' d (fs.take j ++ fs.drop k) ∧ NoAlloc h h' ∧ OthersKept S h h' [c, d] := by
  obtain ⟨hc', _⟩ := shown_ring R hc hs
  obtain ⟨hd', _⟩ := shown_ring R hd hf
  obtain ⟨h1, q1, _, s1, s2, o1⟩ := two_lists R (.splice c i d j k)
    ⟨hc, hd, by rw [State.get_ring hc']; exact hi, hjk, by rw [State.get_ring hd']; exact hk, fun q => absurd q hcd⟩ hcd (if_neg hcd)
  rw [State.get_ring hc', State.get_ring hd'] at s1
  rw [State.get_ring hd'] at s2
  refine ⟨h1, q1, s1, s2, noAlloc_of q1 ⟨_, _, _, exec_splice R hc hd hs hf hi (by omega) hk⟩, o1⟩

/-- C26 within one list: moving the range `[j, k)` before an element in front of it or behind it (and not directly behind it). -/
theorem splice_within_partial (R : Reach S h) (hc : S.Intact c) {es : List (Addr × T)} (hs : Shows h c es) {i j k : Nat}
    (hi : i ≤ es.length) (hjk : j < k) (hk : k ≤ es.length) (hx : i < j ∨ k < i) :
    ∃ h', exec (.splice c i c j k) h = .ok ((), h') ∧
      Shows h' c (if i < j then es.take i ++ ((es.drop j).take (k - j) ++ ((es.take j).drop i ++ es.drop k))
        else es.take j ++ ((es.take i).drop k ++ ((es.drop j).take (k - j) ++ es.drop i))) ∧
      NoAlloc h h' ∧ OthersKept S h h' [c] := by
  obtain ⟨hc', _⟩ := shown_ring R hc hs
  obtain ⟨h1, q1, _, s1, o1⟩ := one_list R (.splice c i c j k)
    ⟨hc, hc, by rw [State.get_ring hc']; exact hi, hjk, by rw [State.get_ring hc']; exact hk, fun _ => hx⟩ (if_pos rfl)
  rw [State.get_ring hc'] at s1
  refine ⟨h1, q1, ?_, noAlloc_of q1 ⟨_, _, _, exec_splice R hc hc hs hs hi (by omega) hk⟩, o1⟩
  have hl : (es.take j).length = j := by simp; omega
  rcases hx with hx | hx
  · rw [if_pos hx]
    rw [if_pos (by omega)] at s1
    unfold insertAt cut slice at s1
    rwa [List.take_append_of_le_length (by omega), List.drop_append_of_le_length (by omega), List.take_take, Nat.min_eq_left (by omega)] at s1
  · rw [if_neg (by omega)]
    rw [if_neg (by omega)] at s1
    unfold insertAt cut slice at s1
    have t1 : (es.take j ++ es.drop k).take (i - (k - j)) = es.take j ++ (es.take i).drop k := by
      rw [List.take_append, List.take_of_length_le (l := es.take j) (by omega), hl, List.drop_take]
      congr 2; omega
    have t2 : (es.take j ++ es.drop k).drop (i - (k - j)) = es.drop i := by
      rw [List.drop_append, List.drop_eq_nil_of_le (as := es.take j) (by omega), hl, List.drop_drop, List.nil_append]
      congr 1; omega
    rw [t1, t2, List.append_assoc] at s1
    exact s1

/-- `splice(pos, other)` of a non-empty list moves all its elements. -/
theorem splice_all_moves_partial (R : Reach S h) (hc : S.Intact c) (hd : S.Intact d) (hcd : c ≠ d) {es fs : List (Addr × T)}
    (hs : Shows h c es) (hf : Shows h d fs) {i : Nat} (hi : i ≤ es.length) (hne : fs ≠ []) :
    ∃ h', exec (.spliceAll c i d) h = .ok ((), h') ∧ Shows h' c (es.take i ++ (fs ++ es.drop i)) ∧
      Shows h' d [] ∧ NoAlloc h h' ∧ OthersKept S h h' [c, d] := by
  obtain ⟨hc', r⟩ := shown_ring R hc hs
  obtain ⟨hd', r'⟩ := shown_ring R hd hf
  obtain ⟨h1, q1, _, s1, s2, o1⟩ := two_lists R (.spliceAll c i d)
    ⟨hc, hd, hcd, by rw [State.get_ring hc']; exact hi, by rw [State.get_ring hd']; exact hne⟩ hcd rfl
  rw [State.get_ring hc', State.get_ring hd'] at s1
  refine ⟨h1, q1, s1, s2, noAlloc_of q1 ⟨posOf c ((es.drop i).map Prod.fst), h.next d, d, ?_⟩, o1⟩
  simp only [exec, spliceAll, Prog.bind_app, iterAt_ok r hi, Res.bind_ok, getNext_eq r'.head]

/-- `splice(pos, other, it)` moves one element of another list. -/
theorem splice_one_moves (R : Reach S h) (hc : S.Intact c) (hd : S.Intact d) (hcd : c ≠ d) {es fs : List (Addr × T)}
    (hs : Shows h c es) (hf : Shows h d fs) {i j : Nat} (hi : i ≤ es.length) (hj : j < fs.length) :
    ∃ h', exec (.spliceOne c i d j) h = .ok ((), h') ∧ Shows h' c (es.take i ++ (fs[j] :: es.drop i)) ∧
      Shows h' d (fs.take j ++ fs.drop (j + 1)) ∧ NoAlloc h h' ∧ OthersKept S h h' [c, d] := by
  obtain ⟨hc', r⟩ := shown_ring R hc hs
  obtain ⟨hd', r'⟩ := shown_ring R hd hf
  obtain ⟨h1, q1, _, s1, s2, o1⟩ := two_lists R (.spliceOne c i d j)
    ⟨hc, hd, by rw [State.get_ring hc']; exact hi, by rw [State.get_ring hd']; exact hj, fun q => absurd q hcd⟩ hcd (if_neg hcd)
  rw [State.get_ring hc', State.get_ring hd'] at s1
  rw [State.get_ring hd'] at s2
  have e : slice j (j + 1) fs = [fs[j]] := by
    unfold slice
    rw [List.drop_eq_getElem_cons hj, Nat.add_sub_cancel_left]; rfl
  rw [e] at s1
  exact ⟨h1, q1, s1, s2, keeps_spliceOne c i d j h _ _ q1, o1⟩

/-- Iterating towards `z` runs into a header `y` on the way. -/
theorem entriesFrom_header {y z : Addr} (hy : y ≠ z) (ly : h.live y = true) (vy : h.val y = none) : ∀ {es : List (Addr × T)} {p : Addr},
    Laid h p es y → z ∉ es.map Prod.fst → entriesFrom z (posOf y (es.map Prod.fst)) h = .ub .lifetime
  | [], p, l, hz => by
    rw [entriesFrom]
    simp [hy, getVal, ly, vy]
  | e :: es, p, l, hz => by
    obtain ⟨l1, l2⟩ := l.data e (by simp)
    have hne : e.1 ≠ z := fun q => hz (by simp [q])
    rw [entriesFrom]
    simp only [List.map_cons, posOf_cons, Prog.ite_app, if_pos hne, Prog.bind_app, getVal_eq l1 l2, Res.bind_ok, getNext_eq l1,
      l.tail.next, entriesFrom_header hy ly vy l.tail (fun q => hz (by simp [q])), Res.bind_ub]

theorem Path.retarget {h h' : Heap T} {x a : Addr} (ha : h'.next a = x) : ∀ {ns : List Addr} {p z : Addr}, Path h p ns z → (p :: ns).Nodup →
    (p :: ns).getLast? = some a → (∀ y ∈ p :: ns, y ≠ a → h'.next y = h.next y) → Path h' p ns x
  | [], p, z, _, _, hl, _ => by simp at hl; subst hl; exact ha
  | n :: ns, p, z, pa, nd, hl, e => by
    have hl' : (n :: ns).getLast? = some a := by rw [List.getLast?_cons_cons] at hl; exact hl
    have hpa : p ≠ a := by
      intro q
      exact (List.nodup_cons.1 nd).1 (q ▸ List.mem_of_getLast? hl')
    exact ⟨(e p (by simp) hpa).trans pa.1, Path.retarget ha pa.2 (List.nodup_cons.1 nd).2 hl' fun y hy => e y (List.mem_cons_of_mem _ hy)⟩

/-- **C26 fails for every empty range:** `splice(pos, other, p, p)` with another list returns, but breaks the ring: iterating the
receiver then dereferences the other list's header. -/
theorem splice_empty_range_breaks (R : Reach S h) (hc : S.Intact c) (hd : S.Intact d) (hcd : c ≠ d) {es fs : List (Addr × T)}
    (hs : Shows h c es) (hf : Shows h d fs) {i j : Nat} (hi : i ≤ es.length) (hj : j ≤ fs.length) :
    ∃ h', exec (.splice c i d j j) h = .ok ((), h') ∧ entries c h' = .ub .lifetime := by
  obtain ⟨hc', r⟩ := shown_ring R hc hs
  obtain ⟨hd', r'⟩ := shown_ring R hd hf
  have dj : ∀ x ∈ cells c es, x ∉ cells d fs := R.world.disj c _ d _ hc' hd' hcd
  have sp : es = es.take i ++ es.drop i := split_at es i
  have sq : fs = fs.take j ++ fs.drop j := split_at fs j
  have ra : Ring h c (es.take i ++ es.drop i) := by rw [← sp]; exact r
  have rb : Ring h d (fs.take j ++ fs.drop j) := by rw [← sq]; exact r'
  obtain ⟨lp, lp'⟩ := ra.pos_live
  obtain ⟨lf, lf'⟩ := rb.pos_live
  obtain ⟨mp, mp'⟩ := ra.pos_cells
  obtain ⟨mf, mf'⟩ := rb.pos_cells
  rw [← sp] at mp mp'
  rw [← sq] at mf mf'
  generalize hp : posOf c ((es.drop i).map Prod.fst) = p at *
  generalize hx : posOf d ((fs.drop j).map Prod.fst) = x at *
  have hne : x ≠ p := fun q => dj p mp (by rw [← q]; exact mf)
  have ex := exec_splice R hc hd hs hf hi hj hj
  rw [hp, hx, nodeSplice_eq lp lf lf lp' lf' lf' hne] at ex
  refine ⟨_, ex, ?_⟩
  -- the new path: `c`, the first `i` elements of `c`, then the elements of `d` from `j` on, then the header of `d`
  have hl : Links h c ((es.take i).map Prod.fst ++ (es.drop i).map Prod.fst) := by have := ra.links; rwa [List.map_append] at this
  have hm : Links h d ((fs.take j).map Prod.fst ++ (fs.drop j).map Prod.fst) := by have := rb.links; rwa [List.map_append] at this
  obtain ⟨X, a, p', Y, k⟩ := exists_cut c ((es.take i).map Prod.fst) ((es.drop i).map Prod.fst)
  obtain ⟨X2, b, x', Y2, k2⟩ := exists_cut d ((fs.take j).map Prod.fst) ((fs.drop j).map Prod.fst)
  have e1 : p' = p := k.pos.trans hp
  have e2 : x' = x := k2.pos.trans hx
  subst e1; subst e2
  have g := k.links.1 hl
  have g2 := k2.links.1 hm
  have ha : h.prev p' = a := g.2.2.1
  have hb : h.prev x' = b := g2.2.2.1
  have hbx : h.next b = x' := g2.2.1
  have ma : a ∈ cells c es := by rw [← ha]; exact mp'
  have mb : b ∈ cells d fs := by rw [← hb]; exact mf'
  have nx : ∀ y, y ≠ a → (spl h p' x' x').next y = h.next y := by
    intro y hy
    by_cases hyb : y = b
    · subst hyb; simp [spl, ha, hb, upd_other _ _ hy, hbx]
    · simp [spl, ha, hb, upd_other _ _ hy, upd_other _ _ hyb]
  have na : (spl h p' x' x').next a = x' := by simp [spl, ha]
  -- path of `c` up to `a`, then `x'`
  have pc : Path h c ((es.take i).map Prod.fst) p' := by
    have := ra.laid.path
    rw [List.map_append] at this
    cases q : (es.drop i).map Prod.fst with
    | nil => rw [q, List.append_nil] at this; rw [q, posOf_nil] at hp; rw [← hp]; exact this
    | cons n ns => rw [q] at this hp; simp at hp; subst hp; exact (Path.append.1 this).1
  have nd : (c :: (es.take i).map Prod.fst).Nodup := by
    have := ra.nodup
    rw [List.map_append, ← List.cons_append] at this
    exact (List.nodup_append.1 this).1
  have pc' := Path.retarget na pc nd (by rw [k.left]; simp) (fun y _ hy => nx y hy)
  have l1 : Laid (spl h p' x' x') c (es.take i ++ fs.drop j) d := by
    refine ⟨?_, ?_, ?_⟩
    · rw [List.map_append]
      have pd := rb.laid.path
      rw [List.map_append] at pd
      cases q : (fs.drop j).map Prod.fst with
      | nil => rw [q] at hx; simp at hx; subst hx; simpa using pc'
      | cons n ns =>
        rw [q] at hx pd; simp at hx; subst hx
        refine Path.append.2 ⟨pc', (Path.append.1 pd).2.congr ?_⟩
        intro y hy
        refine nx y (fun w => dj a ma ?_)
        rw [← w]
        simp only [cells, List.mem_cons]
        right
        have : y ∈ (fs.drop j).map Prod.fst := by rw [q]; exact hy
        exact ((List.drop_sublist j fs).map Prod.fst).subset this
    · intro e he
      rcases List.mem_append.1 he with he | he
      · exact r.data e (List.mem_of_mem_take he)
      · exact r'.data e (List.mem_of_mem_drop he)
    · rw [List.map_append, List.mem_append]
      rintro (q | q)
      · exact dj d (by
          simp only [cells, List.mem_cons]; right
          exact ((List.take_sublist i es).map Prod.fst).subset q) (by simp [cells])
      · exact (List.nodup_cons.1 r'.nodup).1 (((List.drop_sublist j fs).map Prod.fst).subset q)
  have hz : c ∉ (es.take i ++ fs.drop j).map Prod.fst := by
    rw [List.map_append, List.mem_append]
    rintro (q | q)
    · exact (List.nodup_cons.1 r.nodup).1 (((List.take_sublist i es).map Prod.fst).subset q)
    · exact dj c (by simp [cells]) (by
        simp only [cells, List.mem_cons]; right
        exact ((List.drop_sublist j fs).map Prod.fst).subset q)
  have := entriesFrom_header hcd.symm (h := spl h p' x' x') r'.head r'.bare l1 hz
  rw [← l1.next] at this
  unfold entries
  rw [Prog.bind_app, getNext_eq (show (spl h p' x' x').live c = true from r.head), Res.bind_ok]
  exact this

end Verif.Seq.ListProps
