import Verif.Seq.ListStep
/-!
# Every legal call does what the specification says (continued): the step theorem
-/
set_option linter.unusedVariables false
set_option linter.unusedSimpArgs false
namespace Verif.Seq.DList
open Verif Verif.Seq
variable {T : Type}

/-- A call returns normally in a memory that holds the lists of `S'` and nothing else. -/
def Good (p : Prog (Heap T) Unit) (h : Heap T) (S' : State T) : Prop :=
  ∃ h', p h = .ok ((), h') ∧ World iface h' S' ∧ h.fresh ≤ h'.fresh

section
variable {h : Heap T} {S : State T}

theorem good_one {c : Addr} {es es' : List (Addr × T)} {p : Prog (Heap T) Unit} {h' : Heap T} (W : World iface h S)
    (hc : S c = some (.ring es)) (q : p h = .ok ((), h'))
    (ef : Effect (· ∈ cells c es) (· ∈ cells c es') h h') (r : Ring h' c es') : Good p h (S.put c es') :=
  ⟨h', q, World.one W hc ef r, ef.mono⟩

theorem good_relink {c : Addr} {es es' : List (Addr × T)} {p : Prog (Heap T) Unit} {h' : Heap T} (W : World iface h S)
    (hc : S c = some (.ring es)) (q : p h = .ok ((), h'))
    (k : Relink (· ∈ cells c es) h h') (pm : es'.Perm es) (r : Ring h' c es') : Good p h (S.put c es') :=
  good_one W hc q (k.effect W.wf fun x => by
    simp only [cells, List.mem_cons, (pm.map Prod.fst).mem_iff]) r

theorem good_two {c d : Addr} {s t : LState T} {es' fs' : List (Addr × T)} {p : Prog (Heap T) Unit} {h' : Heap T}
    (W : World iface h S) (hcd : c ≠ d) (hc : S c = some s) (hd : S d = some t) (q : p h = .ok ((), h'))
    (k : Relink (fun x => x ∈ cells c s.elems ∨ x ∈ cells d t.elems) h h') (r : Ring h' c es') (r' : Ring h' d fs')
    (pm : List.Perm (es' ++ fs') (s.elems ++ t.elems)) : Good p h ((S.put c es').put d fs') :=
  ⟨h', q, World.two W hcd hc hd k r r' pm, Nat.le_of_eq k.fresh.symm⟩

/-- What iterating a list in any state gives. -/
theorem World.laid (W : World iface h S) {d : Addr} {s : LState T} (hd : S d = some s) :
    Laid h d s.elems d ∧ h.live d = true ∧ h.val d = none ∧ (d :: s.elems.map Prod.fst).Nodup := by
  cases s with
  | ring es =>
    have r := World.ring W hd
    exact ⟨r.laid, r.head, r.bare, r.nodup⟩
  | cleared =>
    have r := World.cleared W hd
    exact ⟨⟨r.loop, by simp [LState.elems], by simp [LState.elems]⟩, r.head, r.bare, by simp [LState.elems]⟩

theorem get_some {d : Addr} {s : LState T} (hd : S d = some s) : S.get d = s.elems := by simp [State.get, hd]

theorem step_create (W : World iface h S) : Good (do let _ ← create) h (S.put h.fresh []) := by
  obtain ⟨h', q, r, ef, fr⟩ := create_ok (T := T) W.wf
  exact ⟨h', by simp only [Prog.bind_app, q, Res.bind_ok, Prog.pure_app], World.new W ef r, ef.mono⟩

theorem new_and_fill {p : Addr → Prog (Heap T) Unit} {es : List (Addr × T)} (W : World iface h S)
    (hp : ∀ h1, create h = .ok (h.fresh, h1) → Ring h1 h.fresh [] →
      Effect (fun _ => False) (· ∈ cells h.fresh ([] : List (Addr × T))) h h1 → h1.fresh = h.fresh + 1 →
      ∃ h', p h.fresh h1 = .ok ((), h') ∧ Ring h' h.fresh es ∧ Effect (· ∈ cells h.fresh ([] : List (Addr × T))) (· ∈ cells h.fresh es) h1 h') :
    ∃ h', (do let c ← create; p c; pure c : Prog (Heap T) Addr) h = .ok (h.fresh, h') ∧
      World iface h' (S.put h.fresh es) ∧ h.fresh ≤ h'.fresh := by
  obtain ⟨h1, q, r, ef, fr⟩ := create_ok (T := T) W.wf
  obtain ⟨h', q', r', ef'⟩ := hp h1 q r ef fr
  refine ⟨h', ?_, World.new W (ef.trans ef') r', (ef.trans ef').mono⟩
  simp only [Prog.bind_app, q, Res.bind_ok, q', Prog.pure_app]

theorem ctorVals_good (W : World iface h S) (vs : List T) :
    ∃ h', ctorVals vs h = .ok (h.fresh, h') ∧ World iface h' (S.put h.fresh (fresh (h.fresh + 1) vs)) ∧ h.fresh ≤ h'.fresh := by
  refine new_and_fill W fun h1 q r ef fr => ?_
  obtain ⟨h', q', r', ef', _⟩ := insertVals_ok vs (A := []) (B := []) ef.wf r
  rw [fr] at r' ef'
  exact ⟨h', q', by simpa using r', by simpa using ef'⟩

theorem ctorN_good (W : World iface h S) (n : Nat) (v : T) :
    ∃ h', ctorN n v h = .ok (h.fresh, h') ∧ World iface h' (S.put h.fresh (fresh (h.fresh + 1) (List.replicate n v))) ∧
      h.fresh ≤ h'.fresh := by
  have := ctorVals_good W (List.replicate n v)
  unfold ctorVals at this
  unfold ctorN
  simpa only [insertN_eq] using this

theorem copyCtor_good (W : World iface h S) {s : Addr} {t : LState T} (hs : S s = some t) :
    ∃ h', copyCtor s h = .ok (h.fresh, h') ∧
      World iface h' (S.put h.fresh (fresh (h.fresh + 1) (t.elems.map Prod.snd))) ∧ h.fresh ≤ h'.fresh := by
  obtain ⟨ls, lv, _, _⟩ := World.laid W hs
  have ln : ∀ x ∈ s :: t.elems.map Prod.fst, x ≠ h.fresh := by
    intro x hx
    exact W.wf.ne_fresh (iface.live (W.own _ _ hs) x hx)
  obtain ⟨h', q', W', m'⟩ := new_and_fill (p := fun c => do insertNodes (← getNext c) (← getNext s) s)
    (es := fresh (h.fresh + 1) (t.elems.map Prod.snd)) W (fun h1 q r ef fr => by
      have l1 : Laid h1 s t.elems s := Effect.laid ef ls lv (by simp)
      have lv1 : h1.live s = true := by
        rw [(ef.frame s (by simp) (by simp [cells]; exact ln s (by simp)) lv).live]; exact lv
      obtain ⟨h', q', r', ef', _⟩ := insertNodes_ok t.elems (A := []) (B := []) ef.wf r l1 lv1 (by
        intro x hx; simp [cells]; exact ln x hx)
      rw [fr] at r' ef'
      refine ⟨h', ?_, by simpa using r', by simpa using ef'⟩
      simp only [Prog.bind_app, getNext_eq r.head, Res.bind_ok, getNext_eq lv1, r.next_head, l1.next]
      exact q')
  refine ⟨h', ?_, W', m'⟩
  rw [← q']; simp only [copyCtor, bind_assoc]

theorem clear_good (W : World iface h S) {c : Addr} {s : LState T} (hc : S c = some s) :
    ∃ h', clear c h = .ok ((), h') ∧ World iface h' (if s.elems.isEmpty then S else upd S c (some .cleared)) ∧
      h.fresh ≤ h'.fresh ∧ Effect (· ∈ cells c s.elems) (· ∈ cells c ([] : List (Addr × T))) h h' ∧ h'.prev = h.prev ∧ Cleared h' c := by
  obtain ⟨l, lv, vv, nd⟩ := World.laid W hc
  cases q0 : s.elems with
  | nil =>
    have hn : h.next c = c := by have := l.next; simpa [q0] using this
    exact ⟨h, clear_nil lv hn, by simpa using W, Nat.le_refl _, Effect.refl W.wf, rfl, lv, vv, hn⟩
  | cons e es =>
    obtain ⟨h', q, cl, pv, ef, fr⟩ := clear_path _ W.wf l lv vv nd
    refine ⟨h', q, ?_, ef.mono, by rw [← q0]; exact ef, pv, cl⟩
    simp only [List.isEmpty_cons, Bool.false_eq_true, if_false]
    refine World.step1 W c (some .cleared) (ef.congr ?_ ?_) ?_
    · intro x; rw [hc]; constructor
      · intro hx; exact ⟨_, rfl, hx⟩
      · rintro ⟨s, q, hx⟩; cases q; exact hx
    · intro x; constructor
      · intro hx; exact ⟨_, rfl, hx⟩
      · rintro ⟨s, q, hx⟩; cases q; exact hx
    · intro s q; cases q; exact cl

theorem destroy_good (W : World iface h S) {c : Addr} {s : LState T} (hc : S c = some s) : Good (destroy c) h (upd S c none) := by
  obtain ⟨h1, q1, _, _, ef1, _, cl⟩ := clear_good W hc
  obtain ⟨h2, q2, ef2, _⟩ := freeRaw_ok (T := T) ef1.wf cl.head
  refine ⟨h2, by simp only [destroy, Prog.bind_app, q1, Res.bind_ok, q2], ?_, (ef1.trans ef2).mono⟩
  refine World.step1 W c none ((ef1.trans ef2).congr ?_ ?_) (by intro s q; cases q)
  · intro x; rw [hc]; constructor
    · intro hx; exact ⟨_, rfl, hx⟩
    · rintro ⟨s, q, hx⟩; cases q; exact hx
  · intro x; simp

theorem insertVals_good (W : World iface h S) {c : Addr} {es : List (Addr × T)} (hc : S c = some (.ring es)) {i : Nat}
    (hi : i ≤ es.length) (vs : List T) :
    Good (do insertVals (← iterAt c i) vs) h (S.put c (insertAt i (fresh h.fresh vs) es)) := by
  have r := World.ring W hc
  obtain ⟨h', q, r', ef, _⟩ := insertVals_ok vs (A := es.take i) (B := es.drop i) W.wf (by simpa using r)
  refine good_one W hc ?_ (by simpa [insertAt] using ef) (by simpa [insertAt] using r')
  simp only [Prog.bind_app, iterAt_ok r hi, Res.bind_ok, q]

theorem insert_good (W : World iface h S) {c : Addr} {es : List (Addr × T)} (hc : S c = some (.ring es)) {i : Nat}
    (hi : i ≤ es.length) (v : T) :
    ∃ h', (do insert (← iterAt c i) v : Prog (Heap T) Addr) h = .ok (h.fresh, h') ∧
      World iface h' (S.put c (insertAt i [(h.fresh, v)] es)) ∧ h.fresh ≤ h'.fresh := by
  have r := World.ring W hc
  obtain ⟨h', q, r', ef, _⟩ := insert_ok (A := es.take i) (B := es.drop i) W.wf (by simpa using r) v
  refine ⟨h', ?_, World.one W hc (by simpa [insertAt] using ef) (by simpa [insertAt] using r'), ef.mono⟩
  simp only [Prog.bind_app, iterAt_ok r hi, Res.bind_ok, q]

theorem insertNodes_good (W : World iface h S) {c d : Addr} {es : List (Addr × T)} {t : LState T} (hc : S c = some (.ring es))
    (hd : S d = some t) (hcd : c ≠ d) {i : Nat} (hi : i ≤ es.length) :
    Good (do insertNodes (← iterAt c i) (← begin d) d) h (S.put c (insertAt i (fresh h.fresh (t.elems.map Prod.snd)) es)) := by
  have r := World.ring W hc
  obtain ⟨l, lv, _, _⟩ := World.laid W hd
  obtain ⟨h', q, r', ef, _⟩ := insertNodes_ok t.elems (A := es.take i) (B := es.drop i) W.wf (by simpa using r) l lv (by
    intro x hx
    have := W.disj d _ c _ hd hc (fun q => hcd q.symm) x hx
    simpa [iface, elems_ring] using this)
  refine good_one W hc ?_ (by simpa [insertAt] using ef) (by simpa [insertAt] using r')
  simp only [Prog.bind_app, iterAt_ok r hi, Res.bind_ok, begin, getNext_eq lv, l.next, q]

theorem erase_good (W : World iface h S) {c : Addr} {es : List (Addr × T)} (hc : S c = some (.ring es)) {i : Nat}
    (hi : i < es.length) : ∃ h', (do erase (← iterAt c i) : Prog (Heap T) Addr) h = .ok (posOf c ((es.drop (i + 1)).map Prod.fst), h') ∧
      World iface h' (S.put c (es.eraseIdx i)) ∧ h.fresh ≤ h'.fresh := by
  have r := World.ring W hc
  have sp := split_elem hi
  obtain ⟨h', q, r', ef, _⟩ := erase_ok (A := es.take i) (B := es.drop (i + 1)) (e := es[i]) W.wf (by rw [← sp]; exact r)
  rw [← sp] at ef
  rw [← List.eraseIdx_eq_take_drop_succ] at ef r'
  refine ⟨h', ?_, World.one W hc ef r', ef.mono⟩
  simp only [Prog.bind_app, iterAt_ok r (Nat.le_of_lt hi), Res.bind_ok]
  rw [List.drop_eq_getElem_cons hi, List.map_cons, posOf_cons, q]

theorem eraseRange_good (W : World iface h S) {c : Addr} {es : List (Addr × T)} (hc : S c = some (.ring es)) {i j : Nat}
    (hij : i < j) (hj : j ≤ es.length) : ∃ h', (do eraseRange (← iterAt c i) (← iterAt c j) : Prog (Heap T) Addr) h =
        .ok (posOf c ((es.drop j).map Prod.fst), h') ∧
      World iface h' (S.put c (cut i (j - 1) es)) ∧ h.fresh ≤ h'.fresh := by
  have r := World.ring W hc
  obtain ⟨k, rfl⟩ : ∃ k, j = k + 1 := ⟨j - 1, by omega⟩
  have hk : k < es.length := by omega
  have e1 : es.drop i = (es.drop i).take (k - i) ++ es[k] :: es.drop (k + 1) := by
    have : (es.drop i).drop (k - i) = es.drop k := by rw [List.drop_drop]; congr 1; omega
    rw [← List.drop_eq_getElem_cons hk, ← this, List.take_append_drop]
  have e2 : es = es.take i ++ ((es.drop i).take (k - i) ++ es[k] :: es.drop (k + 1)) := by
    rw [← e1, List.take_append_drop]
  have e3 : cut i (k + 1 - 1) es = es.take i ++ es[k] :: es.drop (k + 1) := by
    rw [← List.drop_eq_getElem_cons hk]; rfl
  obtain ⟨h', q, r', ef, _⟩ := eraseRange_ok ((es.drop i).take (k - i)) (A := es.take i) (B := es.drop (k + 1)) (m := es[k]) W.wf
    (by rw [← e2]; exact r)
  rw [← e2, ← e3] at ef
  rw [← e3] at r'
  refine ⟨h', ?_, World.one W hc ef r', ef.mono⟩
  simp only [Prog.bind_app, iterAt_ok r (i := i) (by omega), iterAt_ok r hj, Res.bind_ok]
  have : posOf c ((es.drop i).map Prod.fst) = posOf es[k].1 (((es.drop i).take (k - i)).map Prod.fst) := by
    clear q ef r' e2 e3
    generalize (es.drop i).take (k - i) = M at e1 ⊢
    rw [e1]
    cases M with
    | nil => rfl
    | cons m M => rfl
  rw [this, q]

theorem resize_good (W : World iface h S) {c : Addr} {es : List (Addr × T)} (hc : S c = some (.ring es)) (n : Nat) (v : T)
    (hn : n ≠ 0 ∨ es = []) :
    Good (resize c n v) h (S.put c (es.take n ++ fresh h.fresh (List.replicate (n - es.length) v))) := by
  have r := World.ring W hc
  obtain ⟨h', q, r', ef, _⟩ := resizeLoop_ok es (A := []) n v W.wf (by simpa using r) (by simp; omega)
  have e : (if n = 0 then [] ++ es else ([] ++ es).take n ++ fresh h.fresh (List.replicate (n - ([] ++ es).length) v)) =
      es.take n ++ fresh h.fresh (List.replicate (n - es.length) v) := by
    split
    · rename_i h0; subst h0
      rcases hn with hn | hn
      · exact absurd rfl hn
      · subst hn; simp [fresh]
    · simp
  rw [e] at r' ef
  refine good_one W hc ?_ (by simpa using ef) r'
  simp only [resize, Prog.bind_app, getNext_eq r.head, Res.bind_ok, r.next_head]
  exact q

theorem merge_good (W : World iface h S) {c d : Addr} {es fs : List (Addr × T)} (hc : S c = some (.ring es))
    (hd : S d = some (.ring fs)) (hcd : c ≠ d) {lt : T → T → Bool} (hs : SortedBy lt fs) :
    Good (merge c d lt) h ((S.put c (List.merge es fs fun x y => !lt y.2 x.2)).put d []) := by
  obtain ⟨h', q, r, r', k⟩ := merge_ok (lt := lt) (World.ring W hc) (World.ring W hd) (W.disj c _ d _ hc hd hcd)
  rw [mergeSeq_eq_merge _ rfl hs] at r
  refine good_two W hcd hc hd q k r r' ?_
  simp only [List.append_nil, elems_ring]
  exact List.merge_perm_append _

theorem perm_move {α : Type} (A B P Q X : List α) : List.Perm ((A ++ (X ++ B)) ++ (P ++ Q)) ((A ++ B) ++ (P ++ (X ++ Q))) := by
  simp only [List.append_assoc]
  refine List.Perm.append_left A ?_
  refine List.Perm.trans (List.perm_append_comm_assoc X B _) ?_
  exact List.Perm.append_left B (List.perm_append_comm_assoc X P Q)

theorem split_three {es : List (Addr × T)} {j k : Nat} {X : List (Addr × T)} (e : es.drop j = X ++ es.drop k) :
    es = es.take j ++ (X ++ es.drop k) := by rw [← e, List.take_append_drop]

/-- Moving the elements `j .. k-1` of `d` in front of element `i` of another list `c`. -/
theorem splice_two_good (W : World iface h S) {c d : Addr} {es fs : List (Addr × T)} (hc : S c = some (.ring es))
    (hd : S d = some (.ring fs)) (hcd : c ≠ d) {i j k : Nat} (hi : i ≤ es.length) (hjk : j < k) (hk : k ≤ fs.length) :
    Good (nodeSplice (posOf c ((es.drop i).map Prod.fst)) (posOf d ((fs.drop j).map Prod.fst)) (posOf d ((fs.drop k).map Prod.fst)))
      h ((S.put c (insertAt i (slice j k fs) es)).put d (cut j k fs)) := by
  obtain ⟨f, M, e1, e2⟩ := split_range hjk hk
  have e3 := split_three e2
  have e4 := split_at es i
  obtain ⟨h', q, r, r', kk⟩ := splice_two (A := es.take i) (B := es.drop i) (P := fs.take j) (Q := fs.drop k) (f := f) (M := M)
    (by rw [← e4]; exact World.ring W hc) (by rw [← e3]; exact World.ring W hd)
    (by rw [← e4, ← e3]; exact W.disj c _ d _ hc hd hcd)
  rw [← e4, ← e3] at kk
  rw [e1]
  refine good_two W hcd hc hd ?_ kk r r' ?_
  · rw [e2]; exact q
  · simp only [elems_ring]
    have := perm_move (es.take i) (es.drop i) (fs.take j) (fs.drop k) (f :: M)
    rwa [← e4, ← e3] at this

theorem perm_self {α : Type} (A B X Y : List α) : List.Perm (A ++ (X ++ (Y ++ B))) (A ++ (Y ++ (X ++ B))) :=
  List.Perm.append_left A (List.perm_append_comm_assoc X Y B)

/-- Moving the elements `j .. k-1` of `c` in front of its element `i`, which comes before them. -/
theorem splice_left_good (W : World iface h S) {c : Addr} {es : List (Addr × T)} (hc : S c = some (.ring es))
    {i j k : Nat} (hij : i < j) (hjk : j < k) (hk : k ≤ es.length) :
    Good (nodeSplice (posOf c ((es.drop i).map Prod.fst)) (posOf c ((es.drop j).map Prod.fst)) (posOf c ((es.drop k).map Prod.fst)))
      h (S.put c (insertAt i (slice j k es) (cut j k es))) := by
  obtain ⟨f, M, e1, e2⟩ := split_range hjk hk
  obtain ⟨g, N, e3, e4⟩ := split_range hij (show j ≤ es.length by omega)
  have e5 : es = es.take i ++ ((g :: N) ++ ((f :: M) ++ es.drop k)) := by rw [← e2, ← e4, List.take_append_drop]
  have e6 : insertAt i (slice j k es) (cut j k es) = es.take i ++ ((f :: M) ++ ((g :: N) ++ es.drop k)) := by
    unfold insertAt cut
    have hl : (es.take j).length = j := by simp; omega
    rw [e1, List.take_append_of_le_length (by omega), List.drop_append_of_le_length (by omega), List.take_take, Nat.min_eq_left (by omega)]
    have : (es.take j).drop i = g :: N := by rw [← e3, slice, List.drop_take]
    rw [this]
  have r := World.ring W hc
  obtain ⟨h', q, r', kk⟩ := splice_left (A := es.take i) (B := es.drop k) (f := f) (M := M) (g := g) (N := N) (by rw [← e5]; exact r)
  rw [← e5] at kk
  rw [e6]
  refine good_relink W hc ?_ kk ?_ r'
  · have q1 : posOf c ((es.drop i).map Prod.fst) = g.1 := by rw [e4]; rfl
    have q2 : posOf c ((es.drop j).map Prod.fst) = f.1 := by rw [e2]; rfl
    rw [q1, q2]; exact q
  · have := perm_self (es.take i) (es.drop k) (f :: M) (g :: N)
    rwa [← e5] at this

/-- Moving the elements `j .. k-1` of `c` in front of its element `i`, which comes after them. -/
theorem splice_right_good (W : World iface h S) {c : Addr} {es : List (Addr × T)} (hc : S c = some (.ring es))
    {i j k : Nat} (hjk : j < k) (hki : k < i) (hi : i ≤ es.length) :
    Good (nodeSplice (posOf c ((es.drop i).map Prod.fst)) (posOf c ((es.drop j).map Prod.fst)) (posOf c ((es.drop k).map Prod.fst)))
      h (S.put c (insertAt (i - (k - j)) (slice j k es) (cut j k es))) := by
  obtain ⟨f, M, e1, e2⟩ := split_range hjk (show k ≤ es.length by omega)
  obtain ⟨g, N, e3, e4⟩ := split_range hki hi
  have e5 : es = es.take j ++ ((f :: M) ++ ((g :: N) ++ es.drop i)) := by rw [← e4, ← e2, List.take_append_drop]
  have e6 : insertAt (i - (k - j)) (slice j k es) (cut j k es) = es.take j ++ ((g :: N) ++ ((f :: M) ++ es.drop i)) := by
    unfold insertAt cut
    have hl : (es.take j).length = j := by simp; omega
    have hg : (g :: N).length = i - k := by rw [← e3]; simp [slice]; omega
    have hx : i - (k - j) = (es.take j).length + (g :: N).length := by omega
    have e7 : es.take j ++ es.drop k = (es.take j ++ (g :: N)) ++ es.drop i := by rw [e4, List.append_assoc]
    rw [e1, e7, hx, ← List.length_append, List.take_left, List.drop_left, List.append_assoc]
  have r := World.ring W hc
  obtain ⟨h', q, r', kk⟩ := splice_right (A := es.take j) (B := es.drop i) (f := f) (M := M) (g := g) (N := N) (by rw [← e5]; exact r)
  rw [← e5] at kk
  rw [e6]
  refine good_relink W hc ?_ kk ?_ r'
  · have q1 : posOf c ((es.drop j).map Prod.fst) = f.1 := by rw [e2]; rfl
    have q2 : posOf c ((es.drop k).map Prod.fst) = g.1 := by rw [e4]; rfl
    rw [q1, q2]; exact q
  · have := perm_self (es.take j) (es.drop i) (g :: N) (f :: M)
    rwa [← e5] at this

theorem swap_good (W : World iface h S) {c d : Addr} {s t : LState T} (hc : S c = some s)
    (hd : S d = some t) (hcd : c ≠ d) (hne : s.elems ≠ [] ∨ t.elems ≠ []) :
    Good (swap c d) h ((S.put c t.elems).put d s.elems) := by
  have dj := W.disj c _ d _ hc hd hcd
  have dj' : ∀ x ∈ cells c s.elems, x ∉ cells d t.elems := dj
  have ring : ∀ {c : Addr} {s : LState T}, S c = some s → s.elems ≠ [] → Ring h c s.elems := by
    intro c s hc hs
    cases s with
    | ring es => exact World.ring W hc
    | cleared => exact absurd rfl hs
  by_cases h1 : s.elems = []
  · have h2 : t.elems ≠ [] := by rcases hne with q | q; exact absurd h1 q; exact q
    obtain ⟨l, lv, vv, _⟩ := World.laid W hc
    have ln : h.next c = c := by have := l.next; simpa [h1] using this
    obtain ⟨h', q, r, r', k⟩ := swap_left_empty lv vv ln (ring hd h2) (dj' c (by simp [cells])) h2
    refine good_two W hcd hc hd q (k.mono ?_) r (by rw [h1]; exact r') List.perm_append_comm
    intro x hx; rcases hx with rfl | hx
    · left; simp [cells]
    · right; exact hx
  · by_cases h2 : t.elems = []
    · obtain ⟨l, lv, vv, _⟩ := World.laid W hd
      have ln : h.next d = d := by have := l.next; simpa [h2] using this
      obtain ⟨h', q, r, r', k⟩ := swap_right_empty lv vv ln (ring hc h1) (fun q => dj' d q (by simp [cells])) h1
      refine good_two W hcd hc hd q (k.mono ?_) (by rw [h2]; exact r') r List.perm_append_comm
      intro x hx; rcases hx with rfl | hx
      · right; simp [cells]
      · left; exact hx
    · obtain ⟨h', q, r, r', k⟩ := swap_ok (ring hc h1) (ring hd h2) dj' h1 h2
      exact good_two W hcd hc hd q k r r' List.perm_append_comm

theorem store_good (W : World iface h S) {c : Addr} {es : List (Addr × T)} (hc : S c = some (.ring es)) {i : Nat}
    (hi : i < es.length) (v : T) : Good (do setVal (← iterAt c i) v) h (S.put c (es.modify i fun e => (e.1, v))) := by
  have r := World.ring W hc
  have he := r.data es[i] (List.getElem_mem hi)
  have hf : (es.modify i fun e => (e.1, v)).map Prod.fst = es.map Prod.fst := by
    apply List.ext_getElem
    · simp
    · intro n h1 h2
      simp only [List.getElem_map, List.getElem_modify]
      split <;> rfl
  have inj : ∀ {m : Nat} (hm : m < es.length), es[m].1 = es[i].1 → m = i := by
    intro m hm q
    have nd := (List.nodup_cons.1 r.nodup).2
    exact (List.getElem_inj (h₀ := by simpa using hm) (h₁ := by simpa using hi) nd).1 (by simpa using q)
  have hcv : c ≠ es[i].1 := fun q => r.laid.stop (by rw [q]; exact List.mem_map_of_mem (List.getElem_mem hi))
  refine good_one W hc (h' := { h with val := upd h.val es[i].1 (some v) }) ?_ ?_ ?_
  · simp only [Prog.bind_app, iterAt_ok r (Nat.le_of_lt hi), Res.bind_ok]
    rw [List.drop_eq_getElem_cons hi, List.map_cons, posOf_cons]
    exact setVal_eq he.1 he.2 v
  · have : ∀ x, (x ∈ cells c (es.modify i fun e => (e.1, v))) ↔ x ∈ cells c es := by intro x; simp only [cells, hf]
    refine Effect.congr (C := (· ∈ cells c es)) (C' := (· ∈ cells c es)) ?_ (fun _ => Iff.rfl) (fun x => (this x).symm)
    refine ⟨?_, fun _ _ _ l => l, fun _ a b => absurd b a, fun _ a b => absurd a b, ⟨W.wf.pos, W.wf.null, W.wf.used⟩, Nat.le_refl _⟩
    intro x hx _ _
    refine ⟨rfl, rfl, rfl, ?_, rfl⟩
    refine upd_other _ _ (fun q => hx ?_)
    rw [q]; simp only [cells, List.mem_cons]; exact .inr (List.mem_map_of_mem (List.getElem_mem hi))
  · refine ⟨r.head, ?_, ?_, by rw [hf]; exact r.nodup, ?_⟩
    · show upd h.val es[i].1 (some v) c = none
      rw [upd_other _ _ hcv]; exact r.bare
    · rw [hf]; exact r.links.congr (fun _ _ => rfl) (fun _ _ => rfl)
    · intro e hm
      obtain ⟨n, hn, rfl⟩ := List.getElem_of_mem hm
      have hn' : n < es.length := by simpa using hn
      simp only [List.getElem_modify]
      by_cases q : i = n
      · subst q; simp; exact he.1
      · simp only [q, if_false]
        refine ⟨(r.data _ (List.getElem_mem hn')).1, ?_⟩
        show upd h.val es[i].1 (some v) es[n].1 = _
        rw [upd_other _ _ (fun w => q (inj hn' w).symm)]
        exact (r.data _ (List.getElem_mem hn')).2

/-- **Every legal call returns normally and does what the specification says.** -/
theorem step_ok (W : World iface h S) (c : Call T) (lg : Legal S c) : Good (exec c) h (spec S h.fresh c) := by
  have drop : ∀ {α : Type} {p : Prog (Heap T) α} {a : α} {h' : Heap T} {S' : State T}, p h = .ok (a, h') → World iface h' S' →
      h.fresh ≤ h'.fresh → Good (do let _ ← p) h S' := by
    intro α p a h' S' q W' m
    exact ⟨h', by simp only [Prog.bind_app, q, Res.bind_ok, Prog.pure_app], W', m⟩
  cases c with
  | create => exact step_create W
  | copyOf s =>
    obtain ⟨t, ht⟩ := lg
    obtain ⟨h', q, W', m⟩ := copyCtor_good W ht
    simp only [spec, get_some ht]
    exact drop q W' m
  | ctorN n v => obtain ⟨h', q, W', m⟩ := ctorN_good W n v; exact drop q W' m
  | ctorVals vs => obtain ⟨h', q, W', m⟩ := ctorVals_good W vs; exact drop q W' m
  | destroy c => obtain ⟨t, ht⟩ := lg; exact destroy_good W ht
  | pushFront c v =>
    obtain ⟨es, hc⟩ := lg
    obtain ⟨h', q, r, ef, _⟩ := pushFront_ok W.wf (World.ring W hc) v
    simp only [spec, State.get_ring hc]
    exact good_one W hc q ef r
  | pushBack c v =>
    obtain ⟨es, hc⟩ := lg
    obtain ⟨h', q, r, ef, _⟩ := pushBack_ok W.wf (World.ring W hc) v
    simp only [spec, State.get_ring hc]
    exact good_one W hc q ef r
  | popFront c =>
    obtain ⟨⟨es, hc⟩, hne⟩ := lg
    rw [State.get_ring hc] at hne
    simp only [spec, State.get_ring hc]
    cases es with
    | nil => exact absurd rfl hne
    | cons e es =>
      obtain ⟨h', q, r, ef, _⟩ := popFront_ok W.wf (World.ring W hc)
      exact good_one W hc q ef r
  | popBack c =>
    obtain ⟨⟨es, hc⟩, hne⟩ := lg
    rw [State.get_ring hc] at hne
    simp only [spec, State.get_ring hc]
    rcases List.eq_nil_or_concat es with q | ⟨A, e, q⟩
    · exact absurd q hne
    · rw [List.concat_eq_append] at q; subst q
      obtain ⟨h', q, r, ef, _⟩ := popBack_ok W.wf (World.ring W hc)
      rw [List.dropLast_concat]
      exact good_one W hc q ef r
  | insert c i v =>
    obtain ⟨⟨es, hc⟩, hi⟩ := lg
    rw [State.get_ring hc] at hi
    simp only [spec, State.get_ring hc]
    obtain ⟨h', q, W', m⟩ := insert_good W hc hi v
    have := drop q W' m
    simpa only [exec, bind_assoc] using this
  | insertN c i n v =>
    obtain ⟨⟨es, hc⟩, hi⟩ := lg
    rw [State.get_ring hc] at hi
    simp only [spec, State.get_ring hc, exec, insertN_eq]
    exact insertVals_good W hc hi _
  | insertVals c i vs =>
    obtain ⟨⟨es, hc⟩, hi⟩ := lg
    rw [State.get_ring hc] at hi
    simp only [spec, State.get_ring hc, exec]
    exact insertVals_good W hc hi _
  | insertList c i d =>
    obtain ⟨⟨es, hc⟩, hi, ⟨t, hd⟩, hcd⟩ := lg
    rw [State.get_ring hc] at hi
    simp only [spec, State.get_ring hc, get_some hd, exec]
    exact insertNodes_good W hc hd hcd hi
  | erase c i =>
    obtain ⟨⟨es, hc⟩, hi⟩ := lg
    rw [State.get_ring hc] at hi
    simp only [spec, State.get_ring hc]
    obtain ⟨h', q, W', m⟩ := erase_good W hc hi
    have := drop q W' m
    simpa only [exec, bind_assoc] using this
  | eraseRange c i j =>
    obtain ⟨⟨es, hc⟩, hi, hj⟩ := lg
    rw [State.get_ring hc] at hj
    simp only [spec, State.get_ring hc]
    obtain ⟨h', q, W', m⟩ := eraseRange_good W hc hi hj
    refine ⟨h', ?_, W', m⟩
    simp only [exec, Prog.bind_app] at q ⊢
    revert q
    cases iterAt c i h with
    | ok r1 =>
      simp only [Res.bind_ok]
      cases iterAt c j r1.2 with
      | ok r2 => simp only [Res.bind_ok]; intro q; rw [q]; rfl
      | _ => simp
    | _ => simp
  | clear c =>
    obtain ⟨s, hc⟩ := lg
    obtain ⟨h', q, W', m, _⟩ := clear_good W hc
    simp only [spec, get_some hc]
    exact ⟨h', q, W', m⟩
  | assign c d =>
    obtain ⟨⟨es, hc⟩, he, ⟨t, hd⟩, hcd⟩ := lg
    rw [State.get_ring hc] at he
    subst he
    have r := World.ring W hc
    obtain ⟨h', q, W', m⟩ := insertNodes_good W hc hd hcd (i := 0) (by simp)
    simp only [spec, get_some hd]
    refine ⟨h', ?_, by simpa [insertAt] using W', m⟩
    rw [← q]
    simp only [exec, opAssign, Prog.bind_app, clear_nil r.head r.next_head, Res.bind_ok, iterAt, advance, begin, bind_assoc, Prog.pure_app,
      getNext_eq r.head]
  | assignN c n v =>
    obtain ⟨⟨es, hc⟩, he⟩ := lg
    rw [State.get_ring hc] at he
    subst he
    have r := World.ring W hc
    obtain ⟨h', q, W', m⟩ := insertVals_good W hc (i := 0) (by simp) (List.replicate n v)
    refine ⟨h', ?_, by simpa [insertAt, spec] using W', m⟩
    rw [← q]
    simp only [exec, assignN, Prog.bind_app, clear_nil r.head r.next_head, Res.bind_ok, iterAt, advance, Prog.pure_app,
      getNext_eq r.head, insertN_eq, r.next_head, List.map_nil, posOf_nil]
  | assignVals c vs =>
    obtain ⟨⟨es, hc⟩, he⟩ := lg
    rw [State.get_ring hc] at he
    subst he
    have r := World.ring W hc
    obtain ⟨h', q, W', m⟩ := insertVals_good W hc (i := 0) (by simp) vs
    refine ⟨h', ?_, by simpa [insertAt, spec] using W', m⟩
    rw [← q]
    simp only [exec, assignVals, Prog.bind_app, clear_nil r.head r.next_head, Res.bind_ok, iterAt, advance, Prog.pure_app,
      getNext_eq r.head, r.next_head, List.map_nil, posOf_nil]
  | resize c n v =>
    obtain ⟨⟨es, hc⟩, hn⟩ := lg
    rw [State.get_ring hc] at hn
    simp only [spec, State.get_ring hc]
    exact resize_good W hc n v hn
  | removeIf c p =>
    obtain ⟨es, hc⟩ := lg
    obtain ⟨h', q, r, ef, _⟩ := removeIf_ok W.wf (World.ring W hc) p
    simp only [spec, State.get_ring hc]
    exact good_one W hc q ef r
  | remove c eqv v =>
    obtain ⟨es, hc⟩ := lg
    obtain ⟨h', q, r, ef, _⟩ := remove_ok W.wf (World.ring W hc) eqv v
    simp only [spec, State.get_ring hc]
    exact good_one W hc q ef r
  | unique c pred =>
    obtain ⟨es, hc⟩ := lg
    obtain ⟨h', q, r, ef, _⟩ := unique_ok W.wf (World.ring W hc) pred
    simp only [spec, State.get_ring hc]
    exact good_one W hc q ef r
  | merge c d lt =>
    obtain ⟨⟨es, hc⟩, ⟨fs, hd⟩, hcd, hs⟩ := lg
    rw [State.get_ring hd] at hs
    simp only [spec, State.get_ring hc, State.get_ring hd]
    exact merge_good W hc hd hcd hs
  | reverse c =>
    obtain ⟨es, hc⟩ := lg
    obtain ⟨h', q, r, k⟩ := reverse_ok (World.ring W hc)
    simp only [spec, State.get_ring hc]
    exact good_relink W hc q k (List.reverse_perm es) r
  | spliceAll c i d =>
    obtain ⟨⟨es, hc⟩, ⟨fs, hd⟩, hcd, hi, hne⟩ := lg
    rw [State.get_ring hc] at hi
    rw [State.get_ring hd] at hne
    simp only [spec, State.get_ring hc, State.get_ring hd]
    obtain ⟨h', q, W', m⟩ := splice_two_good W hc hd hcd hi (j := 0) (k := fs.length) (List.length_pos_iff.2 hne) (Nat.le_refl _)
    refine ⟨h', ?_, by simpa [slice, cut] using W', m⟩
    have r := World.ring W hc
    have r' := World.ring W hd
    simp only [exec, spliceAll, Prog.bind_app, iterAt_ok r hi, Res.bind_ok, getNext_eq r'.head, r'.next_head]
    simpa using q
  | spliceOne c i d j =>
    obtain ⟨⟨es, hc⟩, ⟨fs, hd⟩, hi, hj, hx⟩ := lg
    rw [State.get_ring hc] at hi
    rw [State.get_ring hd] at hj
    simp only [spec, State.get_ring hc, State.get_ring hd]
    have r := World.ring W hc
    have r' := World.ring W hd
    have hl := (r'.data fs[j] (List.getElem_mem hj)).1
    have hp : posOf d ((fs.drop j).map Prod.fst) = fs[j].1 := by rw [List.drop_eq_getElem_cons hj]; rfl
    have hn : h.next fs[j].1 = posOf d ((fs.drop (j + 1)).map Prod.fst) := by
      have e := split_elem hj
      have hl : Links h d ((fs.take j).map Prod.fst ++ fs[j].1 :: (fs.drop (j + 1)).map Prod.fst) := by
        have := r'.links; rw [e] at this; simpa only [List.map_append, List.map_cons] using this
      exact hl.at_node.1
    have run : exec (.spliceOne c i d j) h = (if fs[j].1 ≠ posOf c ((es.drop i).map Prod.fst) then
        nodeSplice (posOf c ((es.drop i).map Prod.fst)) (posOf d ((fs.drop j).map Prod.fst)) (posOf d ((fs.drop (j + 1)).map Prod.fst)) h
        else .ok ((), h)) := by
      simp only [exec, spliceOne, Prog.bind_app, iterAt_ok r hi, iterAt_ok r' (Nat.le_of_lt hj), Res.bind_ok, Prog.ite_app, Prog.pure_app]
      rw [hp]
      simp only [getNext_eq hl, Res.bind_ok, hn]
    have ne2 : c ≠ d → fs[j].1 ≠ posOf c ((es.drop i).map Prod.fst) := by
      intro hcd q
      have m1 : posOf c ((es.drop i).map Prod.fst) ∈ cells c es := by
        have := (Ring.pos_cells (A := es.take i) (B := es.drop i) (by rw [List.take_append_drop]; exact r)).1
        rwa [List.take_append_drop] at this
      refine W.disj c _ d _ hc hd hcd _ m1 ?_
      rw [← q]; simp only [iface, cells, elems_ring, List.mem_cons]
      exact .inr (List.mem_map_of_mem (List.getElem_mem hj))
    by_cases hcd : c = d
    · subst hcd
      rw [hc] at hd; cases hd
      rw [if_pos rfl]
      have ne1 : i ≠ j → es[j].1 ≠ posOf c ((es.drop i).map Prod.fst) := by
        intro hij q
        by_cases hl : i < es.length
        · rw [List.drop_eq_getElem_cons hl, List.map_cons, posOf_cons] at q
          have nd := (List.nodup_cons.1 r.nodup).2
          exact hij ((List.getElem_inj (h₀ := by simpa using hj) (h₁ := by simpa using hl) nd).1 (by simpa using q)).symm
        · rw [List.drop_eq_nil_of_le (by omega), List.map_nil, posOf_nil] at q
          exact r.laid.stop (by rw [← q]; exact List.mem_map_of_mem (List.getElem_mem hj))
      by_cases hij : i = j
      · subst hij
        refine ⟨h, by rw [run, if_neg (fun q => q hp.symm)], ?_, Nat.le_refl _⟩
        rw [if_pos (Nat.le_refl _)]
        have : insertAt i (slice i (i + 1) es) (cut i (i + 1) es) = es := by
          have e1 : slice i (i + 1) es = [es[i]] := by
            unfold slice
            rw [Nat.add_sub_cancel_left, List.drop_eq_getElem_cons hj]; rfl
          have hl : (es.take i).length = i := by simp; omega
          unfold insertAt cut
          rw [e1, List.take_append_of_le_length (by omega), List.drop_append_of_le_length (by omega), List.take_take, Nat.min_self]
          simp
        rw [this]
        have e2 : S.put c es = S := by
          funext x; unfold State.put upd; split
          · rename_i hx; rw [hx, hc]
          · rfl
        rw [e2]; exact W
      · by_cases hlt : i < j
        · obtain ⟨h', q, W', m⟩ := splice_left_good W hc hlt (Nat.lt_succ_self j) (by omega)
          rw [if_pos (by omega)]
          exact ⟨h', by rw [run, if_pos (ne1 hij)]; exact q, W', m⟩
        · obtain ⟨h', q, W', m⟩ := splice_right_good W hc (Nat.lt_succ_self j) (show j + 1 < i by have := hx rfl; omega) hi
          rw [if_neg (by omega)]
          refine ⟨h', by rw [run, if_pos (ne1 hij)]; exact q, ?_, m⟩
          rw [show j.succ - j = 1 by omega] at W'
          exact W'
    · rw [if_neg hcd]
      obtain ⟨h', q, W', m⟩ := splice_two_good W hc hd hcd hi (Nat.lt_succ_self j) (by omega)
      exact ⟨h', by rw [run, if_pos (ne2 hcd)]; exact q, W', m⟩
  | splice c i d j k =>
    obtain ⟨⟨es, hc⟩, ⟨fs, hd⟩, hi, hjk, hk, hx⟩ := lg
    rw [State.get_ring hc] at hi
    rw [State.get_ring hd] at hk
    simp only [spec, State.get_ring hc, State.get_ring hd]
    have r := World.ring W hc
    have r' := World.ring W hd
    have run : exec (.splice c i d j k) h = 
        nodeSplice (posOf c ((es.drop i).map Prod.fst)) (posOf d ((fs.drop j).map Prod.fst)) (posOf d ((fs.drop k).map Prod.fst)) h := by
      simp only [exec, spliceRange, Prog.bind_app, iterAt_ok r hi, iterAt_ok r' (i := j) (by omega), iterAt_ok r' hk, Res.bind_ok]
    by_cases hcd : c = d
    · subst hcd
      rw [hc] at hd; cases hd
      rw [if_pos rfl]
      rcases hx rfl with hx | hx
      · obtain ⟨h', q, W', m⟩ := splice_left_good W hc hx hjk hk
        rw [if_pos (by omega)]
        exact ⟨h', by rw [run]; exact q, W', m⟩
      · obtain ⟨h', q, W', m⟩ := splice_right_good W hc hjk hx hi
        rw [if_neg (by omega)]
        exact ⟨h', by rw [run]; exact q, W', m⟩
    · rw [if_neg hcd]
      obtain ⟨h', q, W', m⟩ := splice_two_good W hc hd hcd hi hjk hk
      exact ⟨h', by rw [run]; exact q, W', m⟩
  | swap c d =>
    obtain ⟨⟨s, hc⟩, ⟨t, hd⟩, hcd, hne⟩ := lg
    rw [get_some hc, get_some hd] at hne
    simp only [spec, get_some hc, get_some hd]
    exact swap_good W hc hd hcd hne
  | store c i v =>
    obtain ⟨⟨es, hc⟩, hi⟩ := lg
    rw [State.get_ring hc] at hi
    simp only [spec, State.get_ring hc]
    exact store_good W hc hi v

/-- Memory with no list. -/
theorem Blank.world (b : Blank h) : World (iface : Iface T (LState T)) h (fun _ => none) :=
  ⟨⟨b.fresh, b.nothing 0, fun x l => absurd l (by rw [b.nothing x]; simp)⟩, fun c s q => absurd q (by simp),
    fun c s c' s' q => absurd q (by simp), fun x l => absurd l (by rw [b.nothing x]; simp)⟩

/-- After any client program memory holds exactly the lists the specification says, and nothing else. -/
theorem Reach.world (R : Reach S h) : World iface h S := by
  induction R with
  | start b => exact b.world
  | step c _ lg q ih =>
    obtain ⟨h', q', W', _⟩ := step_ok ih c lg
    rw [q] at q'; cases q'; exact W'
  | env _ e ih => exact ih.env e

end
end Verif.Seq.DList
