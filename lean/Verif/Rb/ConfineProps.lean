import Verif.Rb.Confine
import Verif.Rb.ContainerProps2
/-!
# C157: calls on different maps and sets touch different memory

Every access of the model to a node that does not exist is undefined behaviour. So that a call returns in a memory from which everything but the nodes of the
containers it names has been removed means that it accesses nothing else, apart from the nodes it allocates.
-/
set_option linter.unusedVariables false
set_option linter.unusedSectionVars false
namespace Verif.Rb
open Verif
variable {K V : Type}

open Classical in
/-- The memory `h` with everything outside `S` removed. -/
noncomputable def Heap.only (h : Heap V) (S : Addr → Prop) : Heap V :=
  { h with node := fun x => if S x then h.node x else none, data := fun x => if S x then h.data x else none }

/-- `x` is part of the container `c`: the container object itself (with its header), or one of the positions met in iterating over it. -/
def Belongs (h : Heap V) (c x : Addr) : Prop := x = c ∨ ∃ es, entries c h = .ok (es, h) ∧ x ∈ es.map Prod.fst

/-- `x` is part of a container that the call `q` names. -/
def Call.Mine (q : Call K V) (h : Heap V) (x : Addr) : Prop := ∃ c ∈ q.args, Belongs h c x

namespace Container

theorem only_plus (h : Heap V) (S : Addr → Prop) : (h.only S).plus (h.only fun x => ¬ S x) = h := by
  cases h
  simp only [Heap.only, Heap.plus, Heap.mk.injEq, and_true]
  constructor <;> funext x <;> by_cases q : S x <;> simp [q]

theorem only_apart {h : Heap V} (w : Wf h) (S : Addr → Prop) : (h.only S).Apart (h.only fun x => ¬ S x) := by
  intro x hx
  have ns : ¬ S x := by
    intro s
    rcases hx with hx | hx <;> simp [Heap.only, s] at hx
  refine ⟨by simp [Heap.only, ns], by simp [Heap.only, ns], Classical.byContradiction fun no => ?_⟩
  have u := w.unused x (Nat.not_lt.1 no)
  rcases hx with hx | hx
  · simp [Heap.only, u.1] at hx
  · simp [Heap.only, u.2] at hx

section
variable [DecidableEq K] {lt : K → K → Bool} {keyOf : V → K} {objs : List Addr} {h : Heap V}

theorem belongs_iff {c : Addr} {es : List (Addr × V)} (o : Owns h c es) (x : Addr) : Belongs h c x ↔ x ∈ cells c es := by
  simp only [Belongs, o.entries, cells, List.mem_cons, Res.ok.injEq, Prod.mk.injEq, and_true, exists_eq_left']

/-- The list of containers alive is only handed on by `call`. -/
theorem call_objs (q : Call K V) {o1 o2 r : List Addr} {h h' : Heap V} (e : call lt keyOf o1 q h = .ok (r, h')) : ∃ r', call lt keyOf o2 q h = .ok (r', h') := by
  have one : ∀ {α : Type} (p : Prog (Heap V) α) (f g : α → List Addr), (do let a ← p; pure (f a)) h = .ok (r, h') →
      ∃ r', (do let a ← p; pure (g a)) h = .ok (r', h') := by
    intro α p f g e
    simp only [Prog.bind_app] at e ⊢
    cases y : p h with
    | diverge => rw [y] at e; cases e
    | ub f => rw [y] at e; cases e
    | ok z => rw [y] at e; cases e; exact ⟨_, rfl⟩
  cases q with
  | create => exact one _ _ _ e
  | copyOf s => exact one _ _ _ e
  | assign d s => exact one _ _ _ e
  | destroy c => exact one _ _ _ e
  | insert c v => exact one _ _ _ e
  | insertRange c vs => exact one _ _ _ e
  | erase c k => exact one _ _ _ e
  | clear c => exact one _ _ _ e
  | find c k => exact one _ _ _ e
  | lower c k => exact one _ _ _ e
  | store c v =>
    simp only [call, Prog.bind_app] at e ⊢
    cases y : find lt keyOf c (keyOf v) h with
    | diverge => rw [y] at e; cases e
    | ub f => rw [y] at e; cases e
    | ok z =>
      rw [y] at e
      simp only [Res.bind_ok] at e ⊢
      by_cases q : z.1 = c
      · simp only [q, if_true] at e ⊢
        cases e; exact ⟨_, rfl⟩
      · simp only [q, if_false, Prog.bind_app] at e ⊢
        cases y2 : storeData z.1 v z.2 with
        | diverge => rw [y2] at e; cases e
        | ub f => rw [y2] at e; cases e
        | ok z2 => rw [y2] at e; cases e; exact ⟨_, rfl⟩

theorem filter_flatMap {α β : Type} (p : α → Bool) (f : α → List β) : ∀ l : List α, ((l.filter p).flatMap f).Sublist (l.flatMap f)
  | [] => List.Sublist.slnil
  | a :: l => by
    have ih := filter_flatMap p f l
    by_cases q : p a = true
    · rw [List.filter_cons_of_pos q]
      exact List.Sublist.append (List.Sublist.refl _) ih
    · rw [List.filter_cons_of_neg q]
      exact ih.trans (List.sublist_append_right _ _)

/-- What is left of a memory that holds containers when only the nodes of some of them are kept holds those. -/
theorem inv_only (I : Inv lt keyOf objs h) (as : List Addr) (ha : ∀ a ∈ as, a ∈ objs) :
    Inv lt keyOf (objs.filter fun c => decide (c ∈ as)) (h.only fun x => ∃ c ∈ as, Belongs h c x) := by
  obtain ⟨ws, W, rfl, asc⟩ := I
  have mem : ∀ w ∈ ws, w.1 ∈ as → ∀ x ∈ cells w.1 w.2, ∃ c ∈ as, Belongs h c x := fun w hw hc x hx =>
    ⟨w.1, hc, (belongs_iff (W.owns w hw) x).2 hx⟩
  refine ⟨ws.filter fun w => decide (w.1 ∈ as), ⟨⟨W.wf.pos, ?_⟩, ?_, ?_, ?_⟩, ?_, ?_⟩
  · intro x hx
    have := W.wf.unused x hx
    simp [Heap.only, this.1, this.2]
  · intro w hw
    simp only [List.mem_filter, decide_eq_true_eq] at hw
    refine (W.owns w hw.1).congr fun x hx => ?_
    have := mem w hw.1 hw.2 x hx
    simp [Heap.only, this]
  · exact W.nodup.sublist (filter_flatMap _ _ ws)
  · intro x hx
    have : ∃ c ∈ as, Belongs h c x := by
      refine Classical.byContradiction fun no => ?_
      simp only [Heap.only, if_neg no] at hx
      cases hx
    obtain ⟨c, hc, b⟩ := this
    obtain ⟨w, hw, rfl⟩ := List.mem_map.1 (ha c hc)
    exact List.mem_flatMap.2 ⟨w, by simp [hw, hc], (belongs_iff (W.owns w hw) x).1 b⟩
  · rw [List.filter_map]; rfl
  · intro w hw
    exact asc w (List.mem_filter.1 hw).1

/-- **C157, one call.** A legal call on reachable containers returns also in a memory that holds nothing but the containers it names, with the same result, and
in the whole memory it does exactly the same, the rest of memory staying as it is: it reads, writes and frees nothing else. -/
theorem call_confined (ho : StrictTotalOrder lt) (r : Reach lt keyOf objs h) (q : Call K V) (hl : q.Legal objs) :
    ∃ objs' h1, call lt keyOf objs q (h.only (q.Mine h)) = .ok (objs', h1) ∧
      call lt keyOf objs q h = .ok (objs', h1.plus (h.only fun x => ¬ q.Mine h x)) ∧
      ∀ x, ¬ q.Mine h x → (h.node x).isSome → h1.node x = none ∧ h1.data x = none := by
  have I := r.inv ho
  obtain ⟨w, _⟩ : Wf h ∧ True := by obtain ⟨ws, W, _⟩ := I; exact ⟨W.wf, trivial⟩
  have I1 := inv_only I q.args hl.1
  obtain ⟨_, h1, e, _⟩ := call_ok ho I1 q ⟨fun a ha => by simpa using ⟨hl.1 a ha, ha⟩, hl.2⟩
  obtain ⟨r', e'⟩ := call_objs (o2 := objs) q e
  have d := only_apart w (q.Mine h)
  obtain ⟨e2, d2⟩ := (confined_call lt keyOf objs q).out _ _ _ _ d e'
  rw [only_plus] at e2
  refine ⟨r', h1, e', e2, fun x nx ax => ?_⟩
  have := d2 x (Or.inl (by
    simp only [Heap.only, nx, not_false_eq_true, if_true]
    intro z; rw [z] at ax; cases ax))
  exact ⟨this.1, this.2.1⟩

/-- The nodes of a container of a reachable memory exist, and belong to no other container. -/
theorem belongs_one (ho : StrictTotalOrder lt) (r : Reach lt keyOf objs h) {c d x : Addr} (hc : c ∈ objs) (hd : d ∈ objs) (bc : Belongs h c x)
    (bd : Belongs h d x) : c = d ∧ (h.node x).isSome := by
  obtain ⟨ws, W, rfl, _⟩ := r.inv ho
  obtain ⟨L, es, R, e⟩ := split_at hc
  have o := W.owns (c, es) (by rw [e]; simp)
  have m := (belongs_iff o x).1 bc
  refine ⟨Classical.byContradiction fun ne => ?_, o.cells_live m⟩
  obtain ⟨w, hw, rfl⟩ := List.mem_map.1 hd
  have m' := (belongs_iff (W.owns w hw) x).1 bd
  rw [e] at hw W
  have dj := W.disj m
  simp only [List.mem_append, List.mem_cons] at hw
  rcases hw with hw | rfl | hw
  · exact dj.1 (List.mem_flatMap.2 ⟨w, hw, m'⟩)
  · exact ne rfl
  · exact dj.2 (List.mem_flatMap.2 ⟨w, hw, m'⟩)

/-- **C157, two calls.** Calls that name different containers have no memory in common; and when one of them has been made, the other one finds its memory
as it would have without. -/
theorem calls_apart (ho : StrictTotalOrder lt) (r : Reach lt keyOf objs h) (q1 q2 : Call K V) (hl1 : q1.Legal objs) (hl2 : q2.Legal objs)
    (dis : ∀ c ∈ q1.args, c ∉ q2.args) :
    (∀ x, q1.Mine h x → ¬ q2.Mine h x) ∧
    ∀ objs' h', call lt keyOf objs q1 h = .ok (objs', h') → (∀ x, q2.Mine h' x ↔ q2.Mine h x) ∧
      ∀ x, (h'.only (q2.Mine h')).node x = (h.only (q2.Mine h)).node x ∧ (h'.only (q2.Mine h')).data x = (h.only (q2.Mine h)).data x := by
  have ap : ∀ x, q1.Mine h x → ¬ q2.Mine h x := by
    rintro x ⟨c, hc, bc⟩ ⟨d, hd, bd⟩
    have := (belongs_one ho r (hl1.1 c hc) (hl2.1 d hd) bc bd).1
    exact dis c hc (this ▸ hd)
  refine ⟨ap, fun objs' h' e => ?_⟩
  obtain ⟨o2, h1, e1, e2, ff⟩ := call_confined ho r q1 hl1
  rw [e] at e2
  simp only [Res.ok.injEq, Prod.mk.injEq] at e2
  have eh := e2.2
  have same : ∀ x, q2.Mine h x → h'.node x = h.node x ∧ h'.data x = h.data x := by
    intro x m
    have nm : ¬ q1.Mine h x := fun y => ap x y m
    obtain ⟨c, hc, b⟩ := m
    have lv := (belongs_one ho r (hl2.1 c hc) (hl2.1 c hc) b b).2
    have z := ff x nm lv
    rw [eh]
    simp [Heap.plus, Heap.only, z.1, z.2, nm]
  have mine : ∀ x, q2.Mine h' x ↔ q2.Mine h x := by
    intro x
    refine exists_congr fun c => and_congr_right fun hc => ?_
    obtain ⟨es, o, _, _⟩ := r.owns ho (hl2.1 c hc)
    have o' : Owns h' c es := o.congr fun y hy => same y ⟨c, hc, (belongs_iff o y).2 hy⟩
    rw [belongs_iff o, belongs_iff o']
  refine ⟨mine, fun x => ?_⟩
  by_cases m : q2.Mine h x
  · have m' := (mine x).2 m
    simp only [Heap.only, m, m', if_true]
    exact same x m
  · have m' : ¬ q2.Mine h' x := fun y => m ((mine x).1 y)
    simp [Heap.only, m, m']

/-- **C157, reading.** Lookups and iteration write nothing at all, and run in the memory of the container alone: any number of them, on the same containers, can
run at the same time. -/
theorem reads_confined (ho : StrictTotalOrder lt) (r : Reach lt keyOf objs h) {c d : Addr} (hc : c ∈ objs) (hd : d ∈ objs) (k : K) (eqv : V → V → Bool) :
    (∃ x n, find lt keyOf c k h = .ok (x, h.tick n) ∧ find lt keyOf c k (h.only (Belongs h c)) = .ok (x, (h.only (Belongs h c)).tick n)) ∧
    (∃ x n, lowerBound lt keyOf c k h = .ok (x, h.tick n) ∧ lowerBound lt keyOf c k (h.only (Belongs h c)) = .ok (x, (h.only (Belongs h c)).tick n)) ∧
    (∃ es, entries c h = .ok (es, h) ∧ entries c (h.only (Belongs h c)) = .ok (es, h.only (Belongs h c))) ∧
    (∃ es, entriesBackward c h = .ok (es, h) ∧ entriesBackward c (h.only (Belongs h c)) = .ok (es, h.only (Belongs h c))) ∧
    (∃ b, opEq eqv c d h = .ok (b, h) ∧
      opEq eqv c d (h.only fun x => Belongs h c x ∨ Belongs h d x) = .ok (b, h.only fun x => Belongs h c x ∨ Belongs h d x)) := by
  obtain ⟨es, o, a, w⟩ := r.owns ho hc
  obtain ⟨ed, od, ad, _⟩ := r.owns ho hd
  have keep : ∀ (S : Addr → Prop) {c : Addr} {es : List (Addr × V)}, Owns h c es → (∀ x, Belongs h c x → S x) → Owns (h.only S) c es := by
    intro S c es o hs
    refine o.congr fun x hx => ?_
    have := hs x ((belongs_iff o x).2 hx)
    simp [Heap.only, this]
  have o' := keep (Belongs h c) o fun _ y => y
  have o1 := keep (fun x => Belongs h c x ∨ Belongs h d x) o fun _ y => Or.inl y
  have o2 := keep (fun x => Belongs h c x ∨ Belongs h d x) od fun _ y => Or.inr y
  have ap := only_apart w (Belongs h c)
  refine ⟨?_, ?_, ?_, ?_, ?_⟩
  · obtain ⟨n, _, q⟩ := find_owns ho o' a k
    have t := ((confined_find lt keyOf c k).out _ _ _ _ ap q).1
    rw [only_plus] at t
    refine ⟨_, n, t.trans ?_, q⟩
    rw [show ((h.only (Belongs h c)).tick n).plus (h.only fun x => ¬ Belongs h c x) = ((h.only (Belongs h c)).plus (h.only fun x => ¬ Belongs h c x)).tick n from rfl, only_plus]
  · obtain ⟨n, _, q⟩ := lowerBound_owns ho.toStrictWeak o' (a.weak ho) k
    have t := ((confined_lowerBound lt keyOf c k).out _ _ _ _ ap q).1
    rw [only_plus] at t
    refine ⟨_, n, t.trans ?_, q⟩
    rw [show ((h.only (Belongs h c)).tick n).plus (h.only fun x => ¬ Belongs h c x) = ((h.only (Belongs h c)).plus (h.only fun x => ¬ Belongs h c x)).tick n from rfl, only_plus]
  · exact ⟨es, o.entries, o'.entries⟩
  · exact ⟨_, o.entriesBackward, o'.entriesBackward⟩
  · exact ⟨_, opEq_owns eqv o od, opEq_owns eqv o1 o2⟩

end

/-- The hypotheses are met: there are memories with two different containers, one holding 2, 5 and 7, and calls that name one of them each. -/
example : ∃ c d h es, Reach (fun a b : Nat => decide (a < b)) id [c, d] h ∧ c ≠ d ∧ entries c h = .ok (es, h) ∧ es.map Prod.snd = [2, 5, 7] ∧
    (Call.erase c 5 : Call Nat Nat).Legal [c, d] ∧ (Call.insert d 9 : Call Nat Nat).Legal [c, d] ∧
    (∀ x ∈ (Call.erase c 5 : Call Nat Nat).args, x ∉ (Call.insert d 9 : Call Nat Nat).args) := by
  obtain ⟨c, h, es, r, he, hv⟩ := exists_reach_257
  obtain ⟨o, a, w⟩ := owns_of_entries natOrder r (by simp) he
  obtain ⟨h', e', o', ef, _, _⟩ := newTree_owns w
  have oc : Owns h' c es := o.frame w ef (by simp)
  have ne : c ≠ h.next := Nat.ne_of_lt (w.lt (o.cells_live (by simp [cells])))
  refine ⟨c, h.next, h', es, r.step .create ⟨by simp [Call.args], by simp⟩ ?_, ne, oc.entries, hv, ?_, ?_, ?_⟩
  · simp only [call, Prog.bind_app, e', Res.bind_ok, Prog.pure_app]; rfl
  · exact ⟨by simp [Call.args], by simp⟩
  · exact ⟨by simp [Call.args], by simp⟩
  · simpa [Call.args] using ne

end Container
end Verif.Rb
