import Verif.Rb.World
import Verif.Rb.MapModel
import Verif.Order
/-!
# States reachable by client programs over `ttl::map` / `ttl::set`

One client language covers both containers: `V`/`keyOf` is `K × T`/`Prod.fst` for `ttl::map<K, T>` and `K`/`id`
for `ttl::set<K>`. A client holds any number of containers in one memory and calls their members in any
order; `Reach objs h` says that `h` is a memory such a client can end up with, `objs` being the containers
then alive.
-/
set_option linter.unusedSimpArgs false
set_option linter.unusedSectionVars false
namespace Verif.Rb
open Verif Tree
variable {K V : Type}

/-- Memory before any container exists; `junk` is the garbage that uninitialised node fields will contain. -/
def emptyMemory (junk : Addr → RbNode) : Heap V :=
  { node := fun _ => none, data := fun _ => none, junk := junk, next := 1, cmps := 0 }

/-- `*it = v` through an iterator or reference. -/
def storeData (n : Addr) (v : V) : Prog (Heap V) Unit := fun h =>
  match h.data n with
  | some _ => .ok ((), { h with data := fun x => if x = n then some v else h.data x })
  | none => .ub .access

/-- Calls that can change memory (lookups are included because they advance the comparison counter). -/
inductive Call (K V : Type) where
  /-- `C c;` -/
  | create
  /-- `C c(src);` -/
  | copyOf (src : Addr)
  /-- `dst = src;` -/
  | assign (dst src : Addr)
  /-- end of the life of `c` -/
  | destroy (c : Addr)
  /-- `c.insert(v)` -/
  | insert (c : Addr) (v : V)
  /-- `c.insert(first, last)` -/
  | insertRange (c : Addr) (vs : List V)
  /-- `c.erase(k)` -/
  | erase (c : Addr) (k : K)
  /-- `c.clear()` -/
  | clear (c : Addr)
  /-- `it = c.find(key of v); if (it != c.end()) *it = v;` (for a map: assignment to `it->second`) -/
  | store (c : Addr) (v : V)
  /-- `c.find(k)`, `c.count(k)` -/
  | find (c : Addr) (k : K)
  /-- `c.lower_bound(k)` -/
  | lower (c : Addr) (k : K)

/-- The containers a call mentions. -/
def Call.args : Call K V → List Addr
  | .create => []
  | .copyOf s => [s]
  | .assign d s => [d, s]
  | .destroy c => [c]
  | .insert c _ => [c]
  | .insertRange c _ => [c]
  | .erase c _ => [c]
  | .clear c => [c]
  | .store c _ => [c]
  | .find c _ => [c]
  | .lower c _ => [c]

/-- The containers a call may change. -/
def Call.changes : Call K V → List Addr
  | .create => []
  | .copyOf _ => []
  | .assign d _ => [d]
  | .destroy c => [c]
  | .insert c _ => [c]
  | .insertRange c _ => [c]
  | .erase c _ => [c]
  | .clear c => [c]
  | .store c _ => [c]
  | .find _ _ => []
  | .lower _ _ => []

/-- The call is legal: its containers are alive, and it is not a self-assignment (see C11). -/
def Call.Legal (objs : List Addr) (c : Call K V) : Prop :=
  (∀ a ∈ c.args, a ∈ objs) ∧ ∀ a, c ≠ .assign a a

/-- Execute a call; the containers alive afterwards. -/
def call [DecidableEq K] (lt : K → K → Bool) (keyOf : V → K) (objs : List Addr) :
    Call K V → Prog (Heap V) (List Addr)
  | .create => do pure (objs ++ [← newTree])
  | .copyOf s => do pure (objs ++ [← copyCtor s])
  | .assign d s => do opAssign d s; pure objs
  | .destroy c => do destroy c; pure (objs.erase c)
  | .insert c v => do let _ ← insertUnique lt keyOf c v; pure objs
  | .insertRange c vs => do insertRange lt keyOf c vs; pure objs
  | .erase c k => do let _ ← erase lt keyOf c k; pure objs
  | .clear c => do clear c; pure objs
  | .store c v => do
      let n ← find lt keyOf c (keyOf v)
      if n = c then pure objs else do storeData n v; pure objs
  | .find c k => do let _ ← find lt keyOf c k; pure objs
  | .lower c k => do let _ ← lowerBound lt keyOf c k; pure objs

/-- Reachable states. Between the calls the rest of the program does what `Env` allows. -/
inductive Reach [DecidableEq K] (lt : K → K → Bool) (keyOf : V → K) : List Addr → Heap V → Prop where
  | start (junk : Addr → RbNode) : Reach lt keyOf [] (emptyMemory junk)
  | step {objs h objs' h'} (c : Call K V) : Reach lt keyOf objs h → c.Legal objs →
      call lt keyOf objs c h = .ok (objs', h') → Reach lt keyOf objs' h'
  | env {objs h h'} : Reach lt keyOf objs h → Env h h' → Reach lt keyOf objs h'

/-! ## The invariant -/

section
variable [DecidableEq K] {lt : K → K → Bool} {keyOf : V → K}

/-- Memory holds exactly the containers `objs`, each a sorted balanced tree. -/
def Inv (lt : K → K → Bool) (keyOf : V → K) (objs : List Addr) (h : Heap V) : Prop :=
  ∃ ws, World h ws ∧ ws.map Prod.fst = objs ∧ ∀ w ∈ ws, Ascending lt keyOf w.2

theorem Inv.start (junk : Addr → RbNode) : Inv lt keyOf [] (emptyMemory junk : Heap V) :=
  ⟨[], ⟨⟨Nat.zero_lt_one, fun _ _ => ⟨rfl, rfl⟩⟩, by simp, by simp, by simp [emptyMemory]⟩, rfl, by simp⟩

theorem storeData_owns {h : Heap V} {hd : Addr} {A B : List (Addr × V)} {e : Addr × V}
    (w : Wf h) (o : Owns h hd (A ++ e :: B)) (v : V) :
    ∃ h', storeData e.1 v h = .ok ((), h') ∧ Owns h' hd (A ++ (e.1, v) :: B) ∧
      Effect (cells hd (A ++ e :: B)) (cells hd (A ++ (e.1, v) :: B)) h h' ∧ h'.next = h.next ∧
      h'.cmps = h.cmps := by
  have hcells : ∀ x, x ∈ cells hd (A ++ (e.1, v) :: B) ↔ x ∈ cells hd (A ++ e :: B) := by
    intro x; simp [cells]
  have hnd := o.cells_nodup
  have hl := o.lt w (x := e.1) (by simp [cells])
  obtain ⟨tr, r, b, i, d⟩ := o
  have he := d e (by simp)
  refine ⟨{ h with data := fun x => if x = e.1 then some v else h.data x }, ?_, ⟨tr, ?_, b, ?_, ?_⟩,
    ⟨?_, ?_, ?_, ⟨w.pos, ?_⟩, Nat.le_refl _⟩, rfl, rfl⟩
  · unfold storeData; rw [he]
  · exact r.congr (fun x _ => rfl)
  · rw [i]; simp
  · intro x hx
    simp only [cells, List.map_append, List.map_cons, List.nodup_cons, List.nodup_append, List.mem_cons, List.mem_map] at hnd
    simp only [List.mem_append, List.mem_cons] at hx
    rcases hx with hx | rfl | hx
    · have hne : x.1 ≠ e.1 := fun q => hnd.2.2.2 x.1 ⟨x, hx, rfl⟩ e.1 (Or.inl rfl) q
      simp only [if_neg hne]; exact d x (by simp [hx])
    · simp
    · have hne : x.1 ≠ e.1 := fun q => hnd.2.2.1.1 ⟨x, hx, q⟩
      simp only [if_neg hne]; exact d x (by simp [hx])
  · intro x hx _
    have hne : x ≠ e.1 := fun q => hx (by simp [cells, q])
    simp [hne]
  · intro x hx hx'; exact absurd ((hcells x).1 hx) hx'
  · intro x hx hx'; exact absurd ((hcells x).2 hx) hx'
  · intro x hx
    have hne : x ≠ e.1 := fun q => Nat.lt_irrefl _ (Nat.lt_of_lt_of_le (q ▸ hl) hx)
    simp only [if_neg hne]
    exact w.unused x hx

theorem split_at {ws : List (Addr × List (Addr × V))} {hd : Addr} (hm : hd ∈ ws.map Prod.fst) :
    ∃ L es R, ws = L ++ (hd, es) :: R := by
  simp only [List.mem_map] at hm
  obtain ⟨⟨a, es⟩, hw, rfl⟩ := hm
  obtain ⟨L, R, e⟩ := List.append_of_mem hw
  exact ⟨L, es, R, e⟩

theorem erase_map_split {ws L R : List (Addr × List (Addr × V))} {hd : Addr} {es} {h : Heap V} (W : World h ws)
    (e : ws = L ++ (hd, es) :: R) : (ws.map Prod.fst).erase hd = (L ++ R).map Prod.fst := by
  subst e
  have := (W.disj (x := hd) (by simp [cells])).1
  have hn : hd ∉ L.map Prod.fst := by
    intro hm
    obtain ⟨w, hw, q⟩ := List.mem_map.1 hm
    exact this (List.mem_flatMap.2 ⟨w, hw, by simp [cells, q]⟩)
  simp only [List.map_append, List.map_cons]
  rw [List.erase_append_right _ hn]
  simp

/-- Invariant preservation plus progress: every legal call returns, and affects only the containers it
names as changed. -/
theorem call_ok (ho : StrictTotalOrder lt) {objs : List Addr} {h : Heap V} (I : Inv lt keyOf objs h) (c : Call K V)
    (hl : c.Legal objs) : ∃ objs' h', call lt keyOf objs c h = .ok (objs', h') ∧ Inv lt keyOf objs' h' ∧
      ∀ hd es, hd ∈ objs → hd ∉ c.changes → Owns h hd es → hd ∈ objs' ∧ Owns h' hd es := by
  obtain ⟨ws, W, rfl, ha⟩ := I
  have uniq : ∀ L hd es R, ws = L ++ (hd, es) :: R → ∀ w ∈ ws, w.1 ≠ hd → ∀ x ∈ cells w.1 w.2, x ∉ cells hd es := by
    intro L hd es R e w hw hne x hx hx'
    subst e
    have hd' := W.disj hx'
    simp only [List.mem_append, List.mem_cons] at hw
    rcases hw with hw | rfl | hw
    · exact hd'.1 (List.mem_flatMap.2 ⟨w, hw, hx⟩)
    · exact hne rfl
    · exact hd'.2 (List.mem_flatMap.2 ⟨w, hw, hx⟩)
  have own_eq : ∀ hd es, hd ∈ ws.map Prod.fst → Owns h hd es → (hd, es) ∈ ws := by
    intro hd es hm o
    obtain ⟨L, es', R, e⟩ := split_at hm
    have o' := W.owns (hd, es') (by rw [e]; simp)
    have q := o.entries.symm.trans o'.entries
    simp only [Res.ok.injEq, Prod.mk.injEq, and_true] at q
    rw [q, e]; simp
  -- one container changed
  have one : ∀ hd, hd ∈ ws.map Prod.fst → ∀ p : Prog (Heap V) (List Addr),
      (∀ es, Owns h hd es → Ascending lt keyOf es → ∃ h' es', p h = .ok (ws.map Prod.fst, h') ∧ Owns h' hd es' ∧
        Ascending lt keyOf es' ∧ Effect (cells hd es) (cells hd es') h h') →
      ∃ objs' h', p h = .ok (objs', h') ∧ Inv lt keyOf objs' h' ∧
        ∀ hd' es, hd' ∈ ws.map Prod.fst → hd' ∉ [hd] → Owns h hd' es → hd' ∈ objs' ∧ Owns h' hd' es := by
    intro hd hm p hp
    obtain ⟨L, es, R, e⟩ := split_at hm
    have hw : (hd, es) ∈ ws := by rw [e]; simp
    obtain ⟨h', es', q, o', a', ef⟩ := hp es (W.owns _ hw) (ha _ hw)
    refine ⟨_, h', q, ⟨L ++ (hd, es') :: R, (e ▸ W).step ef o', by rw [e]; simp, ?_⟩, ?_⟩
    · intro w hw
      simp only [List.mem_append, List.mem_cons] at hw
      rcases hw with hw | rfl | hw
      · exact ha w (by rw [e]; simp [hw])
      · exact a'
      · exact ha w (by rw [e]; simp [hw])
    · intro hd' es0 hm' hne o0
      have hw' := own_eq hd' es0 hm' o0
      exact ⟨hm', o0.frame W.wf ef (uniq L hd es R e _ hw' (by simpa using hne))⟩
  -- nothing but the counter changed
  have tick : ∀ p : Prog (Heap V) (List Addr), (∃ n, p h = .ok (ws.map Prod.fst, h.tick n)) →
      ∃ objs' h', p h = .ok (objs', h') ∧ Inv lt keyOf objs' h' ∧
        ∀ hd' es, hd' ∈ ws.map Prod.fst → hd' ∉ ([] : List Addr) → Owns h hd' es → hd' ∈ objs' ∧ Owns h' hd' es := by
    intro p ⟨n, q⟩
    exact ⟨_, _, q, ⟨ws, W.tick n, rfl, ha⟩, fun hd' es hm _ o => ⟨hm, o.tick n⟩⟩
  -- a container was added
  have plus : ∀ (p : Prog (Heap V) (List Addr)) (es' : List (Addr × V)) (h' : Heap V),
      p h = .ok (ws.map Prod.fst ++ [h.next], h') → Owns h' h.next es' → Ascending lt keyOf es' →
      Effect [] (cells h.next es') h h' →
      ∃ objs' h', p h = .ok (objs', h') ∧ Inv lt keyOf objs' h' ∧
        ∀ hd' es, hd' ∈ ws.map Prod.fst → hd' ∉ ([] : List Addr) → Owns h hd' es → hd' ∈ objs' ∧ Owns h' hd' es := by
    intro p es' h' q o' a' ef
    refine ⟨_, h', q, ⟨ws ++ [(h.next, es')], W.add ef o', by simp, ?_⟩, ?_⟩
    · intro w hw
      simp only [List.mem_append, List.mem_cons, List.not_mem_nil, or_false] at hw
      rcases hw with hw | rfl
      · exact ha w hw
      · exact a'
    · intro hd' es hm _ o
      exact ⟨by simp only [List.mem_append]; exact Or.inl hm, o.frame W.wf ef (by simp)⟩
  have owned : ∀ hd, hd ∈ ws.map Prod.fst → ∃ es, Owns h hd es ∧ Ascending lt keyOf es := by
    intro hd hm
    obtain ⟨L, es, R, e⟩ := split_at hm
    have hw : (hd, es) ∈ ws := by rw [e]; simp
    exact ⟨es, W.owns _ hw, ha _ hw⟩
  obtain ⟨hargs, hns⟩ := hl
  cases c with
  | create =>
    obtain ⟨h', e, o, ef, _, _⟩ := newTree_owns W.wf
    exact plus _ [] h' (by simp only [call, Prog.bind_app, e, Res.bind_ok, Prog.pure_app]) o List.Pairwise.nil ef
  | copyOf s =>
    obtain ⟨es, o, a⟩ := owned s (hargs s (by simp [Call.args]))
    obtain ⟨h', es', e, o', sv, ef⟩ := copyCtor_owns W.wf o
    refine plus _ es' h' (by simp only [call, Prog.bind_app, e, Res.bind_ok, Prog.pure_app]) o' ?_ ef
    have h1 : (es.map Prod.snd).Pairwise fun a b => lt (keyOf a) (keyOf b) = true := by
      rw [List.pairwise_map]; exact a
    rw [← sv, List.pairwise_map] at h1
    exact h1
  | assign d s =>
    have hne : s ≠ d := fun e => hns d (by rw [e])
    have hs := hargs s (by simp [Call.args])
    obtain ⟨es, o, a⟩ := owned s hs
    refine one d (hargs d (by simp [Call.args])) _ fun es0 o0 _ => ?_
    obtain ⟨L, es1, R, e⟩ := split_at (hargs d (by simp [Call.args]))
    have hdis := uniq L d es1 R e (s, es) (own_eq s es hs o) hne
    have o1 := W.owns (d, es1) (by rw [e]; simp)
    have q := o0.entries.symm.trans o1.entries
    simp only [Res.ok.injEq, Prod.mk.injEq, and_true] at q
    obtain ⟨h', es', e', o', sv, ef⟩ := opAssign_owns W.wf o0 o (by rw [q]; exact hdis)
    refine ⟨h', es', by simp only [call, Prog.bind_app, e', Res.bind_ok, Prog.pure_app], o', ?_, ef⟩
    have h1 : (es.map Prod.snd).Pairwise fun a b => lt (keyOf a) (keyOf b) = true := by
      rw [List.pairwise_map]; exact a
    rw [← sv, List.pairwise_map] at h1
    exact h1
  | destroy c =>
    obtain ⟨L, es, R, e⟩ := split_at (hargs c (by simp [Call.args]))
    obtain ⟨h', e', ef⟩ := destroy_owns W.wf (W.owns (c, es) (by rw [e]; simp))
    refine ⟨_, h', by simp only [call, Prog.bind_app, e', Res.bind_ok, Prog.pure_app]; rfl, ⟨L ++ R, (e ▸ W).drop ef, ?_, ?_⟩, ?_⟩
    · exact (erase_map_split W e).symm
    · intro w hw
      refine ha w ?_
      rw [e]
      simp only [List.mem_append, List.mem_cons] at hw ⊢
      grind
    · intro hd' es' hm hne o
      have hne' : hd' ≠ c := by simpa [Call.changes] using hne
      refine ⟨(List.mem_erase_of_ne hne').2 hm, o.frame W.wf ef (uniq L c es R e _ (own_eq _ _ hm o) hne')⟩
  | insert c v =>
    refine one c (hargs c (by simp [Call.args])) _ fun es o a => ?_
    obtain ⟨n, hn, hc⟩ := insertUnique_owns ho W.wf o a v
    rcases hc with ⟨e, he, hk, q⟩ | ⟨A, B, h', rfl, hA, hB, q, o', ef, _, _⟩
    · exact ⟨h.tick n, es, by simp only [call, Prog.bind_app, q, Res.bind_ok, Prog.pure_app], o.tick n, a, Effect.tick W.wf _ n⟩
    · refine ⟨h', _, by simp only [call, Prog.bind_app, q, Res.bind_ok, Prog.pure_app], o', ?_, ef⟩
      simp only [Ascending, List.pairwise_append, List.pairwise_cons, List.mem_cons] at a ⊢
      grind
  | insertRange c vs =>
    refine one c (hargs c (by simp [Call.args])) _ fun es o a => ?_
    suffices hh : ∀ (vs : List V) (h : Heap V) (es : List (Addr × V)), Wf h → Owns h c es → Ascending lt keyOf es →
        ∃ h' es', insertRange lt keyOf c vs h = .ok ((), h') ∧ Owns h' c es' ∧ Ascending lt keyOf es' ∧
          Effect (cells c es) (cells c es') h h' by
      obtain ⟨h', es', q, o', a', ef⟩ := hh vs h es W.wf o a
      exact ⟨h', es', by simp only [call, Prog.bind_app, q, Res.bind_ok, Prog.pure_app], o', a', ef⟩
    intro vs
    induction vs with
    | nil => intro h es w o a; exact ⟨h, es, rfl, o, a, Effect.refl w _⟩
    | cons v vs ih =>
      intro h es w o a
      obtain ⟨n, hn, hc⟩ := insertUnique_owns ho w o a v
      rcases hc with ⟨e, he, hk, q⟩ | ⟨A, B, h', rfl, hA, hB, q, o', ef, _, _⟩
      · obtain ⟨h2, es2, q2, o2, a2, f2⟩ := ih (h.tick n) es (w.tick n) (o.tick n) a
        exact ⟨h2, es2, by simp only [insertRange, Prog.bind_app, q, q2, Res.bind_ok, Prog.pure_app], o2, a2, f2.of_tick⟩
      · have a' : Ascending lt keyOf (A ++ (h.next, v) :: B) := by
          simp only [Ascending, List.pairwise_append, List.pairwise_cons, List.mem_cons] at a ⊢
          grind
        obtain ⟨h2, es2, q2, o2, a2, f2⟩ := ih h' _ ef.wf o' a'
        exact ⟨h2, es2, by simp only [insertRange, Prog.bind_app, q, q2, Res.bind_ok, Prog.pure_app], o2, a2, ef.trans w f2⟩
  | erase c k =>
    refine one c (hargs c (by simp [Call.args])) _ fun es o a => ?_
    obtain ⟨h', _, _, hc⟩ := erase_owns ho W.wf o a k
    rcases hc with ⟨hno, q, o', ef⟩ | ⟨A, x, B, rfl, hk, q, o', ef⟩
    · exact ⟨h', es, by simp only [call, Prog.bind_app, q, Res.bind_ok, Prog.pure_app], o', a, ef⟩
    · exact ⟨h', _, by simp only [call, Prog.bind_app, q, Res.bind_ok, Prog.pure_app], o',
        a.sublist (List.Sublist.append (List.Sublist.refl A) (List.sublist_cons_self x B)), ef⟩
  | clear c =>
    refine one c (hargs c (by simp [Call.args])) _ fun es o a => ?_
    obtain ⟨h', q, o', ef, _⟩ := clear_owns W.wf o
    exact ⟨h', [], by simp only [call, Prog.bind_app, q, Res.bind_ok, Prog.pure_app], o', List.Pairwise.nil, ef⟩
  | store c v =>
    refine one c (hargs c (by simp [Call.args])) _ fun es o a => ?_
    obtain ⟨n, hn, q⟩ := find_owns ho o a (keyOf v)
    cases hf : es.find? (fun e => decide (keyOf e.2 = keyOf v)) with
    | none =>
      rw [hf] at q
      simp only [Option.map_none, Option.getD_none] at q
      exact ⟨h.tick n, es, by simp only [call, Prog.bind_app, q, Res.bind_ok, if_true, Prog.pure_app], o.tick n, a, Effect.tick W.wf _ n⟩
    | some e =>
      rw [hf] at q
      simp only [Option.map_some, Option.getD_some] at q
      have he := List.mem_of_find?_eq_some hf
      have hk := List.find?_some hf
      simp only [decide_eq_true_eq] at hk
      obtain ⟨A, B, rfl⟩ := List.append_of_mem he
      have hne : e.1 ≠ c := by
        have := o.cells_nodup
        simp only [cells, List.nodup_cons] at this
        exact fun q => this.1 (q ▸ List.mem_map_of_mem he)
      obtain ⟨h', q', o', ef, _, _⟩ := storeData_owns (W.wf.tick n) (o.tick n) v
      refine ⟨h', _, by simp only [call, Prog.bind_app, q, q', Res.bind_ok, if_neg hne, Prog.ite_app, Prog.pure_app], o', ?_, ef.of_tick⟩
      simp only [Ascending, List.pairwise_append, List.pairwise_cons, List.mem_cons] at a ⊢
      grind
  | find c k =>
    obtain ⟨es, o, a⟩ := owned c (hargs c (by simp [Call.args]))
    obtain ⟨n, hn, q⟩ := find_owns ho o a k
    exact tick _ ⟨n, by simp only [call, Prog.bind_app, q, Res.bind_ok, Prog.pure_app]⟩
  | lower c k =>
    obtain ⟨es, o, a⟩ := owned c (hargs c (by simp [Call.args]))
    obtain ⟨n, hn, q⟩ := lowerBound_owns ho.toStrictWeak o (a.weak ho) k
    exact tick _ ⟨n, by simp only [call, Prog.bind_app, q, Res.bind_ok, Prog.pure_app]⟩

theorem Reach.inv (ho : StrictTotalOrder lt) {objs : List Addr} {h : Heap V} (r : Reach lt keyOf objs h) :
    Inv lt keyOf objs h := by
  induction r with
  | start junk => exact Inv.start junk
  | step c _ hl e ih =>
    obtain ⟨objs', h', e', I, _⟩ := call_ok ho ih c hl
    rw [e] at e'
    simp only [Res.ok.injEq, Prod.mk.injEq] at e'
    obtain ⟨rfl, rfl⟩ := e'
    exact I
  | env _ e ih =>
    obtain ⟨ws, W, q, a⟩ := ih
    exact ⟨ws, W.env e, q, a⟩

end
end Verif.Rb
