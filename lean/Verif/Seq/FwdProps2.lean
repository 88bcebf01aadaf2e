import Verif.Seq.FwdProps
import Verif.Limit
/-!
# Properties of `ttl::forward_list`, continued: splice_after, reverse, swap
-/
set_option linter.unusedVariables false
set_option linter.unusedSimpArgs false
set_option linter.unusedSectionVars false
namespace Verif.Seq.FwdProps
open Verif Verif.Seq.FList
open Verif.Seq.DList (Arg fresh insertAt slice cut Blank Relink split_at split_elem posOf posOf_cons posOf_nil)
variable {T : Type} {h : Heap T} {S : State T} {c d : Addr} {es fs : List (Addr × T)}

/-! ## Calls that only relink -/

/-- Returns only in memories where nothing was allocated or released. -/
def Keeps {α : Type} (p : Prog (Heap T) α) : Prop := ∀ h a h', p h = .ok (a, h') → NoAlloc h h'

theorem Keeps.bind {α β : Type} {p : Prog (Heap T) α} {k : α → Prog (Heap T) β} (hp : Keeps p) (hk : ∀ a, Keeps (k a)) : Keeps (p >>= k) := by
  intro h b h' q
  rw [Prog.bind_app] at q
  cases e : p h with
  | ok r =>
    rw [e, Res.bind_ok] at q
    have n1 := hp h r.1 r.2 e
    have n2 := hk r.1 r.2 b h' q
    exact ⟨n2.live.trans n1.live, n2.fresh.trans n1.fresh, n2.val.trans n1.val⟩
  | ub f => rw [e] at q; cases q
  | diverge => rw [e] at q; cases q

theorem Keeps.pure {α : Type} (a : α) : Keeps (pure a : Prog (Heap T) α) := by
  intro h b h' q; rw [Prog.pure_app] at q; cases q; exact ⟨rfl, rfl, rfl⟩
theorem Keeps.ite {α : Type} {b : Prop} [Decidable b] {p q : Prog (Heap T) α} (hp : Keeps p) (hq : Keeps q) : Keeps (if b then p else q) := by
  split
  · exact hp
  · exact hq
theorem keeps_getNext (x : Addr) : Keeps (getNext x : Prog (Heap T) Addr) := by
  intro h a h' q
  by_cases l : h.live x = true
  · rw [getNext_eq l] at q; cases q; exact ⟨rfl, rfl, rfl⟩
  · rw [getNext_dead (by simpa using l)] at q; cases q
theorem keeps_setNext (x y : Addr) : Keeps (setNext x y : Prog (Heap T) Unit) := by
  intro h a h' q
  by_cases l : h.live x = true
  · rw [setNext_eq l] at q; cases q; exact ⟨rfl, rfl, rfl⟩
  · rw [setNext_dead (by simpa using l)] at q; cases q

theorem keeps_posAt (i : Nat) : ∀ (x : Addr), Keeps (SList.posAt x i : Prog (Heap T) Addr) := by
  induction i with
  | zero => intro x; exact Keeps.pure x
  | succ i ih => intro x; exact Keeps.bind (keeps_getNext x) ih

/-- The calls that move elements (`reverse`, `splice_after`, `swap`) neither allocate, release nor write values: whatever the code
does with the links, no element is copied or destroyed. -/
theorem spliceNext_keeps (p o : Addr) : Keeps (SNode.spliceNext p o : Prog (Heap T) Unit) := by
  unfold SNode.spliceNext
  repeat' (first | apply Keeps.bind | apply keeps_getNext | apply keeps_setNext | intro _)

theorem spliceLoop_keeps (o l : Addr) : Keeps (SNode.spliceLoop o l : Prog (Heap T) Addr) := by
  refine SNode.spliceLoop.fixpoint_induct (T := T) l (motive := fun f => ∀ o, Keeps (f o)) ?_ ?_ o
  · intro c hc ih o h a h' e
    obtain ⟨f, hf, e'⟩ := Verif.Exc.XVec.sup_ok1 hc e
    exact ih f hf o h a h' e'
  · intro f ih o
    exact Keeps.bind (keeps_getNext o) fun n => Keeps.ite (ih n) (Keeps.pure o)
theorem spliceRange_keeps (p f l : Addr) : Keeps (SNode.spliceRange p f l : Prog (Heap T) Unit) := by
  unfold SNode.spliceRange
  repeat' (first | apply Keeps.bind | apply keeps_getNext | apply keeps_setNext | apply spliceLoop_keeps | intro _)
theorem keeps_splice (c : Addr) (i : Nat) (d : Addr) (j k : Nat) : Keeps (exec (.splice c i d j k) : Prog (Heap T) Unit) := by
  unfold exec FList.spliceRange
  repeat' (first | apply Keeps.ite | apply Keeps.pure | apply spliceRange_keeps | apply Keeps.bind | apply keeps_posAt | intro _)
theorem keeps_spliceAll (c : Addr) (i : Nat) (d : Addr) : Keeps (exec (.spliceAll c i d) : Prog (Heap T) Unit) := by
  unfold exec FList.spliceAll
  repeat' (first | apply spliceRange_keeps | apply Keeps.bind | apply keeps_posAt | intro _)
theorem keeps_spliceOne (c : Addr) (i : Nat) (d : Addr) (j : Nat) : Keeps (exec (.spliceOne c i d j) : Prog (Heap T) Unit) := by
  unfold exec spliceOne
  refine Keeps.bind (keeps_posAt i c) fun a => Keeps.bind (keeps_posAt j d) fun b => ?_
  exact Keeps.ite (Keeps.pure ()) (spliceNext_keeps a b)

/-! ## C30: splice_after -/

/-- **C30, the part that holds (two lists).** `splice_after(pos, other, first, last)` with at least one element strictly between
`first` and `last` moves exactly those elements, in their nodes and in order, behind `pos`, and removes them from the other list;
nothing is allocated, released or copied. (Elements strictly between the positions `j` and `k` are the elements `j … k - 2`.) -/
theorem splice_moves_partial (R : Reach S h) (hc : S.Exists c) (hd : S.Exists d) (hcd : c ≠ d)
    (hs : Shows h c es) (hf : Shows h d fs) {i j k : Nat} (hi : i ≤ es.length) (hjk : j + 1 < k) (hk : k ≤ fs.length + 1) :
    ∃ h', exec (.splice c i d j k) h = .ok ((), h') ∧ Shows h' c (es.take i ++ ((fs.drop j).take (k - 1 - j) ++ es.drop i)) ∧
      Shows h' d (fs.take j ++ fs.drop (k - 1)) ∧ NoAlloc h h' ∧ OthersKept S h h' [c, d] := by
  obtain ⟨hc', r⟩ := shown R hc hs
  obtain ⟨hd', s⟩ := shown R hd hf
  obtain ⟨h1, q1, _, s1, s2, o1⟩ := two_lists R (.splice c i d j k)
    ⟨hc, hd, by rw [get_some hc']; exact hi, hjk, by rw [get_some hd']; exact hk, fun q => absurd q hcd⟩ hcd (if_neg hcd)
  rw [get_some hc', get_some hd'] at s1
  rw [get_some hd'] at s2
  refine ⟨h1, q1, s1, s2, ?_, o1⟩
  obtain ⟨k, rfl⟩ : ∃ k', k = k' + 1 := ⟨k - 1, by omega⟩
  obtain ⟨h2, q2, _, _, rl⟩ := splice_two_at (i := i) R.world.wf r s (R.world.disj c _ d _ hc' hd' hcd) (show j < k by omega) (by omega)
  have l0 : lastOf d ((fs.take j).map Prod.fst) ≠ 0 :=
    R.world.wf.ne_zero (Slist.last_live (B := fs.drop j) (by rw [List.take_append_drop]; exact s))
  have : exec (.splice c i d j (k + 1)) h = .ok ((), h2) := by
    simp only [exec, spliceRange, Prog.bind_app, r.posAt hi, s.posAt (i := j) (by omega), s.posAt_elem (i := k) (by omega), Res.bind_ok, Prog.ite_app]
    rw [if_neg l0]; exact q2
  rw [q1] at this; cases this
  exact Relink.noAlloc rl

/-- C30 within one list, for a position in front of the range. -/
theorem splice_within_before_partial (R : Reach S h) (hc : S.Exists c) (hs : Shows h c es) {i j k : Nat}
    (hij : i < j) (hjk : j + 1 < k) (hk : k ≤ es.length + 1) :
    ∃ h', exec (.splice c i c j k) h = .ok ((), h') ∧
      Shows h' c (es.take i ++ ((es.drop j).take (k - 1 - j) ++ ((es.take j).drop i ++ es.drop (k - 1)))) ∧ NoAlloc h h' ∧ OthersKept S h h' [c] := by
  obtain ⟨hc', r⟩ := shown R hc hs
  obtain ⟨h1, q1, _, s1, o1⟩ := one_list R (.splice c i c j k)
    ⟨hc, hc, by rw [get_some hc']; omega, hjk, by rw [get_some hc']; exact hk, fun _ => .inl hij⟩ (if_pos rfl)
  refine ⟨h1, q1, ?_, keeps_splice _ _ _ _ _ h _ _ q1, o1⟩
  rw [get_some hc', if_pos (by omega)] at s1
  have hl : (es.take j).length = j := by simp; omega
  unfold insertAt cut slice at s1
  rwa [List.take_append_of_le_length (by omega), List.drop_append_of_le_length (by omega), List.take_take, Nat.min_eq_left (by omega)] at s1

/-- C30 within one list, for a position behind the range. -/
theorem splice_within_behind_partial (R : Reach S h) (hc : S.Exists c) (hs : Shows h c es) {i j k : Nat}
    (hjk : j + 1 < k) (hki : k ≤ i) (hi : i ≤ es.length) :
    ∃ h', exec (.splice c i c j k) h = .ok ((), h') ∧
      Shows h' c (es.take j ++ ((es.take i).drop (k - 1) ++ ((es.drop j).take (k - 1 - j) ++ es.drop i))) ∧ NoAlloc h h' ∧ OthersKept S h h' [c] := by
  obtain ⟨hc', r⟩ := shown R hc hs
  obtain ⟨h1, q1, _, s1, o1⟩ := one_list R (.splice c i c j k)
    ⟨hc, hc, by rw [get_some hc']; exact hi, hjk, by rw [get_some hc']; omega, fun _ => .inr hki⟩ (if_pos rfl)
  refine ⟨h1, q1, ?_, keeps_splice _ _ _ _ _ h _ _ q1, o1⟩
  rw [get_some hc', if_neg (by omega)] at s1
  have hl : (es.take j).length = j := by simp; omega
  unfold insertAt cut slice at s1
  have t1 : (es.take j ++ es.drop (k - 1)).take (i - (k - 1 - j)) = es.take j ++ (es.take i).drop (k - 1) := by
    rw [List.take_append, List.take_of_length_le (l := es.take j) (by omega), hl, List.drop_take]
    congr 2; omega
  have t2 : (es.take j ++ es.drop (k - 1)).drop (i - (k - 1 - j)) = es.drop i := by
    rw [List.drop_append, List.drop_eq_nil_of_le (as := es.take j) (by omega), hl, List.drop_drop, List.nil_append]
    congr 1; omega
  rw [t1, t2, List.append_assoc] at s1
  exact s1

/-- `splice_after(pos, other)` of a non-empty list moves all its elements. -/
theorem splice_all_moves_partial (R : Reach S h) (hc : S.Exists c) (hd : S.Exists d) (hcd : c ≠ d)
    (hs : Shows h c es) (hf : Shows h d fs) {i : Nat} (hi : i ≤ es.length) (hne : fs ≠ []) :
    ∃ h', exec (.spliceAll c i d) h = .ok ((), h') ∧ Shows h' c (es.take i ++ (fs ++ es.drop i)) ∧
      Shows h' d [] ∧ NoAlloc h h' ∧ OthersKept S h h' [c, d] := by
  obtain ⟨hc', r⟩ := shown R hc hs
  obtain ⟨hd', s⟩ := shown R hd hf
  obtain ⟨h1, q1, _, s1, s2, o1⟩ := two_lists R (.spliceAll c i d)
    ⟨hc, hd, hcd, by rw [get_some hc']; exact hi, by rw [get_some hd']; exact hne⟩ hcd rfl
  rw [get_some hc', get_some hd'] at s1
  exact ⟨h1, q1, s1, s2, keeps_spliceAll _ _ _ h _ _ q1, o1⟩

/-- `splice_after(pos, other, it)` moves the element after `it` of another list. -/
theorem splice_one_moves (R : Reach S h) (hc : S.Exists c) (hd : S.Exists d) (hcd : c ≠ d)
    (hs : Shows h c es) (hf : Shows h d fs) {i j : Nat} (hi : i ≤ es.length) (hj : j < fs.length) :
    ∃ h', exec (.spliceOne c i d j) h = .ok ((), h') ∧ Shows h' c (es.take i ++ (fs[j] :: es.drop i)) ∧
      Shows h' d (fs.take j ++ fs.drop (j + 1)) ∧ NoAlloc h h' ∧ OthersKept S h h' [c, d] := by
  obtain ⟨hc', r⟩ := shown R hc hs
  obtain ⟨hd', s⟩ := shown R hd hf
  obtain ⟨h1, q1, _, s1, s2, o1⟩ := two_lists R (.spliceOne c i d j)
    ⟨hc, hd, by rw [get_some hc']; exact hi, by rw [get_some hd']; exact hj, fun q => absurd q hcd⟩ hcd (if_neg hcd)
  rw [get_some hc', get_some hd'] at s1
  rw [get_some hd'] at s2
  have e : slice j (j + 1) fs = [fs[j]] := by
    unfold slice
    rw [List.drop_eq_getElem_cons hj, Nat.add_sub_cancel_left]; rfl
  rw [e] at s1
  refine ⟨h1, q1, s1, s2, ?_, o1⟩
  have kp : Keeps (exec (.spliceOne c i d j) : Prog (Heap T) Unit) := by
    unfold exec spliceOne
    refine Keeps.bind (keeps_posAt i c) fun a => Keeps.bind (keeps_posAt j d) fun b => ?_
    exact Keeps.ite (Keeps.pure ()) (spliceNext_keeps a b)
  exact kp h _ _ q1

/-- Within one list, `splice_after(pos, *this, it)` moves the element after `it` behind `pos` unless `pos` is that element. -/
theorem splice_one_within_partial (R : Reach S h) (hc : S.Exists c) (hs : Shows h c es) {i j : Nat} (hi : i ≤ es.length)
    (hj : j < es.length) (hx : i ≠ j + 1) :
    ∃ h', exec (.spliceOne c i c j) h = .ok ((), h') ∧
      Shows h' c (if i ≤ j then es.take i ++ (es[j] :: ((es.take j).drop i ++ es.drop (j + 1)))
        else es.take j ++ ((es.take i).drop (j + 1) ++ (es[j] :: es.drop i))) ∧ NoAlloc h h' ∧ OthersKept S h h' [c] := by
  obtain ⟨hc', r⟩ := shown R hc hs
  obtain ⟨h1, q1, _, s1, o1⟩ := one_list R (.spliceOne c i c j)
    ⟨hc, hc, by rw [get_some hc']; exact hi, by rw [get_some hc']; exact hj, fun _ => hx⟩ (if_pos rfl)
  refine ⟨h1, q1, ?_, keeps_spliceOne _ _ _ _ h _ _ q1, o1⟩
  rw [get_some hc'] at s1
  have hl : (es.take j).length = j := by simp; omega
  have e : slice j (j + 1) es = [es[j]] := by
    unfold slice
    rw [List.drop_eq_getElem_cons hj, Nat.add_sub_cancel_left]; rfl
  by_cases hij : i ≤ j
  · rw [if_pos hij, e] at s1
    rw [if_pos hij]
    unfold insertAt cut at s1
    rwa [List.take_append_of_le_length (by omega), List.drop_append_of_le_length (by omega), List.take_take, Nat.min_eq_left (by omega)] at s1
  · rw [if_neg hij, e] at s1
    rw [if_neg hij]
    unfold insertAt cut at s1
    have t1 : (es.take j ++ es.drop (j + 1)).take (i - 1) = es.take j ++ (es.take i).drop (j + 1) := by
      rw [List.take_append, List.take_of_length_le (l := es.take j) (by omega), hl, List.drop_take]
      congr 2; omega
    have t2 : (es.take j ++ es.drop (j + 1)).drop (i - 1) = es.drop i := by
      rw [List.drop_append, List.drop_eq_nil_of_le (as := es.take j) (by omega), hl, List.drop_drop, List.nil_append]
      congr 1; omega
    rw [t1, t2, List.append_assoc] at s1
    exact s1

/-! ### The defects of `splice_after` -/

/-- The nodes `M` are bypassed. -/
theorem Slist.bypass {h' : Heap T} {A M B : List (Addr × T)} (r : Slist h c (A ++ (M ++ B))) (na : NoAlloc h h')
    (e : ∀ x ∈ scells c (A ++ B), x ≠ lastOf c (A.map Prod.fst) → h'.next x = h.next x)
    (l : h'.next (lastOf c (A.map Prod.fst)) = posOf 0 (B.map Prod.fst)) : Slist h' c (A ++ B) := by
  have p := r.path
  have nd := r.nodup
  simp only [List.map_append] at p nd
  obtain ⟨p1, p2⟩ := Path.split.1 p
  obtain ⟨p3, p4⟩ := Path.split.1 p2
  have ndA : (c :: A.map Prod.fst).Nodup := nd.sublist (by simp)
  have mB : ∀ x ∈ B.map Prod.fst, x ≠ lastOf c (A.map Prod.fst) := by
    intro x hx q
    have := lastOf_mem (A.map Prod.fst) c
    rw [← q] at this
    simp only [List.nodup_cons, List.mem_cons, List.mem_append, List.nodup_append] at nd this
    grind
  refine ⟨by rw [na.live]; exact r.head, by rw [na.val]; exact r.bare, ?_, ?_, ?_⟩
  · rw [List.map_append]
    refine Path.split.2 ⟨?_, ?_⟩
    · refine p1.retarget ndA ?_ l
      intro x hx hne
      exact e x (by simp only [scells, List.map_append, List.mem_cons, List.mem_append] at hx ⊢; grind) hne
    · cases q : B.map Prod.fst with
      | nil => rw [q] at l; exact l
      | cons b bs =>
        rw [q] at l p4 mB
        refine ⟨l, p4.2.congr ?_⟩
        intro x hx
        refine e x ?_ (mB x hx)
        simp only [scells, List.map_append, q, List.mem_cons, List.mem_append]
        exact .inr (.inr (by simpa using hx))
  · rw [List.map_append]
    exact nd.sublist (by simp)
  · intro x hx
    rw [na.live, na.val]
    refine r.data x ?_
    rcases List.mem_append.1 hx with q | q
    · exact List.mem_append_left _ q
    · exact List.mem_append_right _ (List.mem_append_right _ q)

/-- `p->splice_after(f, l)` when nothing is between `f` and `l`. -/
theorem spliceRange_none {p f l : Addr} (lp : h.live p = true) (lf : h.live f = true) (hpf : p ≠ f) (hl : h.next f = l) :
    SNode.spliceRange p f l h = .ok ((), { h with next := upd h.next p l }) := by
  rw [SNode.spliceRange]
  simp only [Prog.bind_app, getNext_eq lp, getNext_eq lf, Res.bind_ok, setNext, lp, if_true, hl]
  rw [SNode.spliceLoop]
  have e1 : upd h.next p l f = l := by rw [upd_other _ _ (Ne.symm hpf)]; exact hl
  have e2 : upd (upd (upd h.next p l) f (h.next p)) f l = upd h.next p l := by
    funext x
    by_cases q : x = f
    · subst q; rw [upd_same, e1]
    · rw [upd_other _ _ q, upd_other _ _ q]
  rw [Prog.bind_app, getNext_eq (h := { h with next := upd h.next p l }) lf, Res.bind_ok]
  simp only [e1, ne_eq, not_true_eq_false, if_false, Prog.pure_app, Res.bind_ok, lf, if_true, Prog.ite_app, e2]

/-- **C30 fails for every empty other list:** `splice_after(pos, other)` drops all elements after `pos` from the list (and leaks
them: their nodes stay allocated). -/
theorem splice_all_empty_loses (R : Reach S h) (hc : S.Exists c) (hd : S.Exists d) (hcd : c ≠ d)
    (hs : Shows h c es) (hf : Shows h d ([] : List (Addr × T))) {i : Nat} (hi : i ≤ es.length) :
    ∃ h', exec (.spliceAll c i d) h = .ok ((), h') ∧ Shows h' c (es.take i) ∧ Shows h' d [] ∧ NoAlloc h h' := by
  obtain ⟨hc', r⟩ := shown R hc hs
  obtain ⟨hd', s⟩ := shown R hd hf
  have dj := R.world.disj c _ d _ hc' hd' hcd
  have ra : Slist h c (es.take i ++ (es.drop i ++ [])) := by simpa using r
  have mp : lastOf c ((es.take i).map Prod.fst) ∈ scells c es := by
    have := Slist.last_mem (c := c) (A := es.take i) (B := es.drop i)
    rwa [List.take_append_drop] at this
  have hpd : lastOf c ((es.take i).map Prod.fst) ≠ d := fun q => dj _ mp (by rw [q]; simp [iface, scells])
  have q := spliceRange_none (l := 0) (r.live _ mp) s.head hpd s.next_head
  have na : NoAlloc h { h with next := upd h.next (lastOf c ((es.take i).map Prod.fst)) 0 } := ⟨rfl, rfl, rfl⟩
  refine ⟨_, ?_, ?_, ?_, na⟩
  · simp only [exec, spliceAll, Prog.bind_app, r.posAt hi, Res.bind_ok, q]
  · have := Slist.bypass (M := es.drop i) (B := []) ra na (fun x _ hx => upd_other _ _ hx) (upd_same _ _ _)
    rw [List.append_nil] at this
    exact this.entries ⟨R.world.wf.pos, R.world.wf.null, R.world.wf.used⟩
  · have : Slist { h with next := upd h.next (lastOf c ((es.take i).map Prod.fst)) 0 } d ([] : List (Addr × T)) :=
      ⟨s.head, s.bare, (upd_other _ _ (Ne.symm hpd)).trans s.next_head, s.nodup, s.data⟩
    exact this.entries ⟨R.world.wf.pos, R.world.wf.null, R.world.wf.used⟩

/-- **C30 fails for every empty range of another list:** `splice_after(pos, other, first, next(first))` replaces the elements after
`pos` by the other list's elements after `first`, which from then on belong to both lists. -/
theorem splice_empty_range_shares (R : Reach S h) (hc : S.Exists c) (hd : S.Exists d) (hcd : c ≠ d)
    (hs : Shows h c es) (hf : Shows h d fs) {i j : Nat} (hi : i ≤ es.length) (hj : j ≤ fs.length) :
    ∃ h', exec (.splice c i d j (j + 1)) h = .ok ((), h') ∧ Shows h' c (es.take i ++ fs.drop j) ∧ Shows h' d fs ∧ NoAlloc h h' := by
  obtain ⟨hc', r⟩ := shown R hc hs
  obtain ⟨hd', s⟩ := shown R hd hf
  have w := R.world.wf
  have dj := R.world.disj c _ d _ hc' hd' hcd
  have ra : Slist h c (es.take i ++ es.drop i) := by simpa using r
  have sa : Slist h d (fs.take j ++ fs.drop j) := by simpa using s
  have mp : lastOf c ((es.take i).map Prod.fst) ∈ scells c es := by
    have := Slist.last_mem (c := c) (A := es.take i) (B := es.drop i)
    rwa [List.take_append_drop] at this
  have mf : lastOf d ((fs.take j).map Prod.fst) ∈ scells d fs := by
    have := Slist.last_mem (c := d) (A := fs.take j) (B := fs.drop j)
    rwa [List.take_append_drop] at this
  have hpd : ∀ x ∈ scells d fs, x ≠ lastOf c ((es.take i).map Prod.fst) := fun x hx q => dj _ mp (by rw [← q]; exact hx)
  have q := spliceRange_none (r.live _ mp) (s.live _ mf) (hpd _ mf).symm sa.next_at
  have l0 := w.ne_zero (s.live _ mf)
  have w' : Wf { h with next := upd h.next (lastOf c ((es.take i).map Prod.fst)) (posOf 0 ((fs.drop j).map Prod.fst)) } := ⟨w.pos, w.null, w.used⟩
  refine ⟨{ h with next := upd h.next (lastOf c ((es.take i).map Prod.fst)) (posOf 0 ((fs.drop j).map Prod.fst)) }, ?_, ?_, ?_, ⟨rfl, rfl, rfl⟩⟩
  · simp only [exec, spliceRange, Prog.bind_app, r.posAt hi, s.posAt hj, s.posAt_elem hj, Res.bind_ok, Prog.ite_app]
    rw [if_neg l0]; exact q
  · refine Slist.entries w' ⟨r.head, r.bare, ?_, ?_, ?_⟩
    · have p := r.path
      have pd := s.path
      have nd := r.nodup
      rw [← List.take_append_drop i es] at p nd
      rw [← List.take_append_drop j fs] at pd
      simp only [List.map_append] at p pd nd ⊢
      refine Path.split.2 ⟨(Path.split.1 p).1.retarget (nd.sublist ((List.sublist_append_left _ _).cons_cons c)) (fun x _ hx => upd_other _ _ hx) (upd_same _ _ _), ?_⟩
      have p2 := (Path.split.1 pd).2
      cases e : (fs.drop j).map Prod.fst with
      | nil => exact (upd_same _ _ _).trans (by rw [posOf_nil])
      | cons b bs =>
        rw [e] at p2
        refine ⟨(upd_same _ _ _).trans (by rw [posOf_cons]), p2.2.congr ?_⟩
        intro x hx
        refine upd_other _ _ (hpd x ?_)
        simp only [scells, List.mem_cons]
        right
        have : x ∈ (fs.drop j).map Prod.fst := by rw [e]; exact hx
        exact ((List.drop_sublist j fs).map Prod.fst).subset this
    · rw [List.map_append]
      have h1 : (c :: (es.take i).map Prod.fst).Nodup := r.nodup.sublist (((List.take_sublist i es).map Prod.fst).cons_cons c)
      have h2 : ((fs.drop j).map Prod.fst).Nodup := (List.nodup_cons.1 s.nodup).2.sublist ((List.drop_sublist j fs).map Prod.fst)
      rw [← List.cons_append, List.nodup_append]
      refine ⟨h1, h2, ?_⟩
      intro a ha b hb q
      subst q
      refine dj a ?_ ?_
      · simp only [iface, scells, List.mem_cons] at ha ⊢
        exact ha.imp id fun q => ((List.take_sublist i es).map Prod.fst).subset q
      · simp only [iface, scells, List.mem_cons]
        exact .inr (((List.drop_sublist j fs).map Prod.fst).subset hb)
    · intro e he
      rcases List.mem_append.1 he with he | he
      · exact r.data e (List.mem_of_mem_take he)
      · exact s.data e (List.mem_of_mem_drop he)
  · refine Slist.entries w' ⟨s.head, s.bare, s.path.congr ?_, s.nodup, s.data⟩
    intro x hx; exact upd_other _ _ (hpd x hx)

/-- **C30 fails when the element is already in place:** `splice_after(pos, *this, it)` with `pos` the element after `it` should change
nothing, but it removes the element from the list and links its node to itself (the node leaks). -/
theorem splice_one_behind_itself_loses (R : Reach S h) (hc : S.Exists c) (hs : Shows h c es) {j : Nat} (hj : j < es.length) :
    ∃ h', exec (.spliceOne c (j + 1) c j) h = .ok ((), h') ∧ Shows h' c (es.take j ++ es.drop (j + 1)) ∧ NoAlloc h h' ∧
      h'.next es[j].1 = es[j].1 := by
  obtain ⟨hc', r⟩ := shown R hc hs
  have w := R.world.wf
  have sp := split_elem hj
  have r1 : Slist h c (es.take j ++ ([es[j]] ++ es.drop (j + 1))) := by rw [List.singleton_append, ← sp]; exact r
  have r2 : Slist h c ((es.take j ++ [es[j]]) ++ es.drop (j + 1)) := by simpa using r1
  have le := (r.data es[j] (List.getElem_mem hj)).1
  have n1 := r1.next_at
  have n2 := r2.next_at
  have lo := r1.last_live
  simp only [List.map_append, List.map_cons, List.map_nil, lastOf_concat, List.singleton_append, posOf_cons] at n1 n2
  have hpe : es.take (j + 1) = es.take j ++ [es[j]] := List.take_succ_eq_append_getElem hj
  have pe : lastOf c ((es.take (j + 1)).map Prod.fst) = es[j].1 := by
    rw [hpe, List.map_append, List.map_cons, List.map_nil, lastOf_concat]
  have hoe : lastOf c ((es.take j).map Prod.fst) ≠ es[j].1 := by
    intro q
    have := pos_inj r (i := j) (j := j + 1) (by omega) hj (by rw [pe]; exact q)
    omega
  have q : exec (.spliceOne c (j + 1) c j) h = .ok ((), { h with next := upd (upd (upd h.next (lastOf c ((es.take j).map Prod.fst)) (posOf 0 ((es.drop (j + 1)).map Prod.fst))) es[j].1 (posOf 0 ((es.drop (j + 1)).map Prod.fst))) es[j].1 es[j].1 }) := by
    simp only [exec, spliceOne, Prog.bind_app, r.posAt hj, r.posAt (Nat.le_of_lt hj), Res.bind_ok, pe, Prog.ite_app]
    rw [if_neg hoe]
    simp only [SNode.spliceNext, Prog.bind_app, getNext_eq lo, n1, getNext_eq le, n2, Res.bind_ok, setNext, lo, le, if_true]
    rw [getNext_eq (h := { h with next := upd h.next (lastOf c ((es.take j).map Prod.fst)) (posOf 0 ((es.drop (j + 1)).map Prod.fst)) }) le]
    simp only [Res.bind_ok, le, if_true, upd_other _ _ hoe.symm, n2]
  refine ⟨_, q, ?_, ⟨rfl, rfl, rfl⟩, upd_same _ _ _⟩
  refine Slist.entries ⟨w.pos, w.null, w.used⟩ (Slist.bypass r1 ⟨rfl, rfl, rfl⟩ ?_ ?_)
  · intro x hx hne
    have hxe : x ≠ es[j].1 := by
      intro q; subst q
      have nd := r1.nodup
      simp only [scells, List.map_append, List.map_cons, List.map_nil, List.nodup_cons, List.nodup_append, List.mem_cons, List.mem_append,
        List.not_mem_nil, or_false] at nd hx
      grind
    simp only [upd_other _ _ hxe, upd_other _ _ hne]
  · simp only [upd_other _ _ hoe, upd_same]

/-- **C30 fails for `pos == first`:** moving the elements between `first` and `last` to where they already are should change nothing,
but they disappear from the list (their nodes stay allocated and form a cycle of their own). -/
theorem splice_to_own_start_loses (R : Reach S h) (hc : S.Exists c) (hs : Shows h c es) {j k : Nat} (hjk : j + 1 < k)
    (hk : k ≤ es.length + 1) :
    ∃ h', exec (.splice c j c j k) h = .ok ((), h') ∧ Shows h' c (es.take j ++ es.drop (k - 1)) ∧ NoAlloc h h' := by
  obtain ⟨hc', r⟩ := shown R hc hs
  have w := R.world.wf
  obtain ⟨k, rfl⟩ : ∃ k', k = k' + 1 := ⟨k - 1, by omega⟩
  rw [Nat.add_sub_cancel]
  have hk' : k ≤ es.length := by omega
  have hjk' : j < k := by omega
  have hne := slice_ne_nil hjk' hk'
  have sp := slice_split es (Nat.le_of_lt hjk')
  have r1 : Slist h c (es.take j ++ (slice j k es ++ es.drop k)) := by rw [← sp]; exact r
  have p := r1.path
  have nd := r1.nodup
  simp only [List.map_append] at p nd
  obtain ⟨p1, p2⟩ := Path.split.1 p
  obtain ⟨p3, p4⟩ := Path.split.1 p2
  have lo := r1.last_live
  generalize hM : (slice j k es).map Prod.fst = M at *
  generalize hf : lastOf c ((es.take j).map Prod.fst) = f at *
  have hM' : M ≠ [] := by rw [← hM]; simpa using hne
  have lM : ∀ x ∈ M, h.live x = true := by
    intro x hx
    refine r1.live x ?_
    simp only [scells, List.map_append, hM, List.mem_cons, List.mem_append]
    exact .inr (.inr (.inl hx))
  have f0 : f ≠ 0 := w.ne_zero lo
  have mf : f ∈ c :: (es.take j).map Prod.fst := by rw [← hf]; exact lastOf_mem _ _
  have ml : lastOf f M ∈ M := lastOf_mem' f hM'
  have hfm : f ≠ lastOf f M := by
    intro q; rw [← q] at ml
    simp only [List.nodup_cons, List.nodup_append, List.mem_cons, List.mem_append] at nd mf
    grind
  have hl : posOf 0 ((es.drop k).map Prod.fst) ∉ M := by
    intro q
    cases e : (es.drop k).map Prod.fst with
    | nil => rw [e] at q; exact w.ne_zero (lM 0 q) rfl
    | cons b bs =>
      rw [e] at q nd; simp only [posOf_cons] at q
      simp only [List.nodup_cons, List.nodup_append, List.mem_cons, List.mem_append] at nd
      grind
  have e0 : upd h.next f (h.next f) = h.next := by
    funext x; unfold upd; split
    · rename_i hx; rw [hx]
    · rfl
  have q : exec (.splice c j c j (k + 1)) h = .ok ((), { h with next := upd (upd h.next (lastOf f M) (h.next f)) f (posOf 0 ((es.drop k).map Prod.fst)) }) := by
    simp only [exec, spliceRange, Prog.bind_app, r.posAt (i := j) (by omega), r.posAt_elem hk', Res.bind_ok, hf, Prog.ite_app]
    rw [if_neg f0]
    simp only [SNode.spliceRange, Prog.bind_app, getNext_eq lo, Res.bind_ok, setNext, lo, if_true, e0]
    rw [spliceLoop_ok p3 hl (by intro x hx; rcases List.mem_cons.1 hx with e | hx; exact e ▸ lo; exact lM x hx)]
    simp only [Res.bind_ok, lM _ ml, if_true, lo]
  refine ⟨_, q, ?_, ⟨rfl, rfl, rfl⟩⟩
  refine Slist.entries ⟨w.pos, w.null, w.used⟩ (Slist.bypass r1 ⟨rfl, rfl, rfl⟩ ?_ ?_)
  · intro x hx hne
    rw [hf] at hne
    have hxe : x ≠ lastOf f M := by
      intro q; rw [← q] at ml
      simp only [scells, List.map_append, List.mem_cons, List.mem_append] at hx
      simp only [List.nodup_cons, List.nodup_append, List.mem_cons, List.mem_append] at nd
      grind
    simp only [upd_other _ _ hne, upd_other _ _ hxe]
  · rw [hf]; exact upd_same _ _ _

/-! ## C31: reverse -/

/-- **C31.** `reverse()` leaves the same nodes with the same values in opposite order; nothing is allocated, released or copied. -/
theorem reverse_reverses (R : Reach S h) (hc : S.Exists c) (hs : Shows h c es) :
    ∃ h', exec (.reverse c) h = .ok ((), h') ∧ Observes h' c es.reverse ∧ NoAlloc h h' ∧ OthersKept S h h' [c] := by
  obtain ⟨hc', r⟩ := shown R hc hs
  obtain ⟨h1, q1, R1, s1, o1⟩ := one_list R (.reverse c) hc rfl
  rw [get_some hc'] at s1
  obtain ⟨h2, q2, _, k⟩ := reverse_ok R.world.wf r
  have e : exec (.reverse c) h = .ok ((), h2) := q2
  rw [q1] at e; cases e
  exact ⟨h1, q1, observes_shown R1 (put_exists _ _ _) s1, Relink.noAlloc k, o1⟩

end Verif.Seq.FwdProps
