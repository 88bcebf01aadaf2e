import Verif.Map.SProps
/-!
# Properties of `ttl::sorted_vector_map`, continued: storage, references, copies, and the defects of the code
-/
set_option linter.unusedVariables false
set_option linter.unusedSimpArgs false
set_option linter.unusedSectionVars false
namespace Verif.SVMap.SMProps
open Verif Verif.Vec Verif.SVMap
variable {K V : Type} [DecidableEq K] {h h' : Mem K V} {S : State K V} {c d i : Nat} {s : SS K V} {lt : K → K → Bool} {dv : V} {vs ws : List (K × V)}

/-! ## C44: storage -/

/-- **C44.** There is nothing else in memory: every allocated block is the pointer array at the `begin()` of a map that exists, or the pair of an element
of one, and every pair object is an element of a map that exists. -/
theorem nothing_else (O : StrictTotalOrder lt) (R : Reach lt dv S h) :
    (∀ b n, h.size b = some n → ∃ c, S.Exists c ∧ (begin_ c h = .ok (⟨b, 0⟩, h) ∨
      n = 1 ∧ ∃ vs i, Observes lt h c vs ∧ i < vs.length ∧ (do rdPtr ((← begin_ c) + i) : Prog (Mem K V) Ptr) h = .ok (⟨b, 0⟩, h))) ∧
    ∀ b j k v, h.slot b j = some (.pair k v) → j = 0 ∧ ∃ c vs, ∃ i : Nat, S.Exists c ∧ Observes lt h c vs ∧ vs[i]? = some (k, v) ∧
      (do rdPtr ((← begin_ c) + i) : Prog (Mem K V) Ptr) h = .ok (⟨b, 0⟩, h) := by
  have I := R.inv O
  have W := I.world
  have find : ∀ b, (∃ c, b ∈ S.own c) ∨ (∀ c, b ∉ S.own c) := fun b => by
    by_cases q : ∃ c, b ∈ S.own c
    · exact .inl q
    · exact .inr fun c k => q ⟨c, k⟩
  have cls : ∀ c b, b ∈ S.own c → ∃ s, S c = some s ∧ (b = s.blk ∧ s.blk ≠ 0 ∨ ∃ x ∈ s.nodes, x.1 = b) := by
    intro c b q
    cases g : S c with
    | none => rw [own_none g] at q; cases q
    | some s =>
      rw [own_some g] at q
      simp only [SS.blocks, List.mem_append, SS.ids, List.mem_map] at q
      refine ⟨s, rfl, ?_⟩
      rcases q with q | q
      · left
        by_cases z : s.blk = 0
        · simp [z] at q
        · simp [z] at q; exact ⟨q, z⟩
      · exact .inr q
  have node : ∀ c s x, S c = some s → x ∈ s.nodes → ∃ i : Nat, s.vals[i]? = some x.2 ∧ (do rdPtr ((← begin_ c) + i) : Prog (Mem K V) Ptr) h = .ok (⟨x.1, 0⟩, h) := by
    intro c s x hs hx
    obtain ⟨i, hi⟩ := List.mem_iff_getElem?.1 hx
    have v := W.sm c s hs
    exact ⟨i, by rw [SS.vals, List.getElem?_map, hi]; rfl, by simp only [Prog.bind_app, begin_ok v, Res.bind_ok, ptr_add, Nat.zero_add, (v.rd hi).1]⟩
  constructor
  · intro b n e
    rcases find b with ⟨c, q⟩ | q
    · obtain ⟨s, hs, q⟩ := cls c b q
      have v := W.sm c s hs
      refine ⟨c, ⟨s, hs⟩, ?_⟩
      rcases q with ⟨rfl, z⟩ | ⟨x, hx, rfl⟩
      · exact .inl (begin_ok v)
      · right
        have := (v.node x hx).1
        rw [this] at e; cases e
        obtain ⟨i, hi, r⟩ := node c s x hs hx
        exact ⟨rfl, s.vals, i, isSM_observes O v (I.sorted c s hs), (List.getElem?_eq_some_iff.1 hi).1, r⟩
    · rw [(W.own b q).1] at e; cases e
  · intro b j k w e
    rcases find b with ⟨c, q⟩ | q
    · obtain ⟨s, hs, q⟩ := cls c b q
      have v := W.sm c s hs
      rcases q with ⟨rfl, z⟩ | ⟨x, hx, rfl⟩
      · exfalso
        by_cases l : j < s.nodes.length
        · rw [v.slots j _ (List.getElem?_eq_getElem l)] at e; cases e
        · obtain ⟨q, e', _⟩ := v.tail j _ (Nat.not_lt.1 l) e; cases e'
      · rw [(v.node x hx).2.1, one] at e
        split at e
        · rename_i z
          obtain ⟨x1, x2, x3⟩ := x
          cases e
          obtain ⟨i, hi, r⟩ := node c s _ hs hx
          exact ⟨z, c, s.vals, i, ⟨s, hs⟩, isSM_observes O v (I.sorted c s hs), hi, r⟩
        · cases e
    · rw [(W.own b q).2 j] at e; cases e

/-- **C44.** When all maps are destroyed, nothing is left. -/
theorem destroyed_all (O : StrictTotalOrder lt) (R : Reach lt dv S h) (none : ∀ c, ¬ S.Exists c) (b : Nat) : h.size b = .none ∧ (∀ i, h.slot b i = .none) ∧ h.obj b = .none := by
  have W := (R.inv O).world
  have n : ∀ c, S c = .none := fun c => by
    cases e : S c with
    | none => rfl
    | some s => exact absurd ⟨s, e⟩ (none c)
  have := W.own b fun c q => by rw [own_none (n c)] at q; cases q
  exact ⟨this.1, this.2, W.obj b (n b)⟩

theorem destroy_exec (q : exec lt dv (.destroy c) h = .ok (r, h')) : destroy c h = .ok ((), h') := by
  simp only [exec, Prog.bind_app] at q
  cases g : destroy c h with
  | ok x => obtain ⟨⟨⟩, x⟩ := x; rw [g] at q; simp only [Res.bind_ok, Prog.pure_app] at q; cases q; rfl
  | ub f => rw [g] at q; cases q
  | diverge => rw [g] at q; cases q

/-- **C44.** The destructor deletes the pairs and the array: afterwards nothing can be read there, and the other maps are as before. -/
theorem destroy_releases (O : StrictTotalOrder lt) (R : Reach lt dv S h) (hc : S.Exists c) (o : Observes lt h c vs) :
    ∃ h' S', destroy c h = .ok ((), h') ∧ Reach lt dv S' h' ∧ ¬ S'.Exists c ∧ (∀ d, d ≠ c → S.Exists d → S'.Exists d) ∧ OthersKept lt S h h' [c] ∧
      ∀ (i : Nat) p, i < vs.length → (do rdPtr ((← begin_ c) + i) : Prog (Mem K V) Ptr) h = .ok (p, h) → rdPair p h' = .ub .access := by
  obtain ⟨s, hs, v, rfl, so, _⟩ := observed O R hc o
  obtain ⟨r, h', q, R'⟩ := call_returns O R (.destroy c) hc
  have W' := (R'.inv O).world
  refine ⟨h', _, destroy_exec q, R', ?_, ?_, kept_of O R W' fun d hd _ => set_other _ (by simpa using hd) _, ?_⟩
  · rintro ⟨t, ht⟩; simp only [spec] at ht; rw [set_same] at ht; cases ht
  · rintro d ne ⟨t, ht⟩; exact ⟨t, by simp only [spec]; rw [set_other _ ne]; exact ht⟩
  · intro i p l e
    rw [vals_length] at l
    have hi : s.nodes[i]? = some s.nodes[i] := List.getElem?_eq_getElem l
    simp only [Prog.bind_app, begin_ok v, Res.bind_ok, ptr_add, Nat.zero_add, (v.rd hi).1] at e
    cases e
    have mem : s.nodes[i].1 ∈ S.own c := by rw [own_some hs]; exact node_mem (List.mem_of_getElem? hi)
    have gone := W'.own s.nodes[i].1 ?_
    · simp only [rdPair, Prog.bind_app]
      rw [read_out (by intro n q; simp only at q; rw [gone.1] at q; cases q)]; rfl
    · intro d q
      by_cases e : d = c
      · subst e; simp only [spec] at q; rw [own_none (set_same ..)] at q; cases q
      · have : (spec lt dv S h.fresh (.destroy c)).own d = S.own d := by simp only [spec, State.own, set_other S e]
        rw [this] at q
        exact e ((R.inv O).world.disj d c _ q mem)

/-- No maps. -/
def noMaps : State K V := fun _ => none
theorem reach_start : Reach lt dv noMaps (empty₀ : Mem K V) := Reach.start

/-- **C44** for a whole life: a map is created with room for `n ≠ 1` elements, goes through any history, and is destroyed. Nothing undefined happens, and
nothing is left. Partial: `n = 1` is excluded, see `capacity_one_overflows`, and so are histories beyond 2^32 elements. -/
theorem map_life_partial (O : StrictTotalOrder lt) (n : Nat) (n1 : n ≠ 1) (os : List (Op K V)) (ok : OpsOk dv os fun _ => none) (l : os.length ≤ 4294967296) :
    ∃ h', (do let c ← ctor n; runOps lt dv c os; destroy c : Prog (Mem K V) Unit) empty₀ = .ok ((), h') ∧
      ∀ b, h'.size b = none ∧ (∀ i, h'.slot b i = none) ∧ h'.obj b = none := by
  have R0 : Reach lt dv noMaps (empty₀ : Mem K V) := reach_start
  obtain ⟨h1, q1, W1, _⟩ := ctor_ok (R0.inv O).world n
  have ex : exec lt dv (.ctor n) (empty₀ : Mem K V) = .ok (.obj 1, h1) := by simp only [exec, Prog.bind_app, q1, Res.bind_ok]; rfl
  have R1 := Reach.step (dv := dv) (.ctor n) R0 n1 ex
  rw [show spec lt dv (noMaps : State K V) (empty₀ : Mem K V).fresh (.ctor n) = noMaps.set 1 (some ⟨2, n, []⟩) from rfl] at R1
  obtain ⟨h2, t, q2, R2, _⟩ := history (c := 1) O os R1 (set_same ..) (D := fun _ => none) (fun k v => by simp [SS.vals]) ok (by simpa [SS.vals] using l)
  obtain ⟨r, h3, q3, R3⟩ := call_returns O R2 (.destroy 1) ⟨t, set_same ..⟩
  refine ⟨h3, ?_, destroyed_all O R3 ?_⟩
  · simp only [Prog.bind_app, q1, Res.bind_ok]
    show (runOps lt dv 1 os h1).bind _ = _
    rw [q2, Res.bind_ok]; exact destroy_exec q3
  · rintro d ⟨t, ht⟩
    simp only [spec] at ht
    by_cases e : d = 1
    · subst e; rw [set_same] at ht; cases ht
    · rw [set_other _ e, set_other _ e, set_other _ e] at ht; cases ht

/-- **C44 is false.** A map constructed with room for one element has the same capacity after growing, `1 + 1/2 = 1`: the second insertion
writes behind the end of the array. From every reachable memory, for all keys and values. -/
theorem capacity_one_overflows (O : StrictTotalOrder lt) (R : Reach lt dv S h) {k1 k2 : K} (ne : k1 ≠ k2) (v1 v2 : V) :
    (do let c ← ctor 1; let _ ← insert lt c (k1, v1); let _ ← insert lt c (k2, v2); pure c : Prog (Mem K V) Nat) h = .ub .access := by
  obtain ⟨h1, q1, W1, _⟩ := ctor_ok (R.inv O).world 1
  have hu : ∀ n, n < 2 → n < 4294967296 := fun n q => by omega
  obtain ⟨h2, q2, W2⟩ := insert_ok (lt := lt) O W1 (set_same ..) List.Pairwise.nil (hu 0 (by omega)) k1 v1 (.inr (by simp))
  rw [set_set] at W2
  have st : SS.insert lt h1.fresh k1 v1 ⟨h.fresh + 1, 1, []⟩ = ⟨h.fresh + 1, 1, [(h1.fresh, k1, v1)]⟩ := by
    simp [SS.insert, SS.vals, has, insState, insNodes, lb]
  rw [st] at W2
  have w2 := W2.sm h.fresh _ (set_same ..)
  have so : Sorted lt (SS.vals (⟨h.fresh + 1, 1, [(h1.fresh, k1, v1)]⟩ : SS K V)) := List.pairwise_singleton _ _
  have hle := lb_le (lt := lt) (k := k2) (SS.vals (⟨h.fresh + 1, 1, [(h1.fresh, k1, v1)]⟩ : SS K V))
  rw [vals_length] at hle
  have ub := insert_full_one W2 (set_same ..) hle (k2, v2) rfl rfl
  have u2 : insert lt h.fresh (k2, v2) h2 = .ub .access := by
    simp only [insert, Prog.bind_app, findInsertPos_ok O w2 so (hu 1 (by omega)), Res.bind_ok, end_ok w2, Prog.ite_app]
    by_cases q : lb lt k2 (SS.vals (⟨h.fresh + 1, 1, [(h1.fresh, k1, v1)]⟩ : SS K V)) = 1
    · rw [if_neg (by simp only [q]; simp)]
      simp only [Prog.bind_app, ub]; rfl
    · have q0 : lb lt k2 (SS.vals (⟨h.fresh + 1, 1, [(h1.fresh, k1, v1)]⟩ : SS K V)) = 0 := by simp at hle; omega
      rw [if_pos (by simp only [q0]; simp)]
      have hd := w2.deref (i := lb lt k2 (SS.vals (⟨h.fresh + 1, 1, [(h1.fresh, k1, v1)]⟩ : SS K V))) (e := (k1, v1)) (by rw [q0]; rfl)
      simp only [Prog.bind_app, hd, Res.bind_ok, Prog.ite_app, if_neg ne, ub]; rfl
  simp only [Prog.bind_app, q1, Res.bind_ok, q2, u2]; rfl

/-! ## C45: `count` -/

/-- **C45 is false.** `count(k)` is 0 for a present key and 1 for an absent one. -/
theorem count_inverted (O : StrictTotalOrder lt) (R : Reach lt dv S h) (hc : S.Exists c) (o : Observes lt h c vs) (l : vs.length < 4294967296) (k : K) :
    (Present k vs → count lt c k h = .ok (0, h)) ∧ (¬ Present k vs → count lt c k h = .ok (1, h)) := by
  obtain ⟨s, hs, v, rfl, so, _⟩ := observed O R hc o
  rw [count_ok O v so (by rwa [← vals_length])]
  refine ⟨fun q => ?_, fun q => ?_⟩
  · rw [if_pos (has_present.2 q)]
  · rw [has_absent.2 q]; rfl

/-! ## `at` of a missing key -/

/-- `at(k)` of an absent key reads past the last element and is undefined behaviour. -/
theorem at_absent_ub (O : StrictTotalOrder lt) (R : Reach lt dv S h) (hc : S.Exists c) (o : Observes lt h c vs) (l : vs.length < 4294967296) {k : K} (n : ¬ Present k vs) :
    ∃ f, (do rdPair (← at_ lt c k) : Prog (Mem K V) (K × V)) h = .ub f := by
  obtain ⟨s, hs, v, rfl, so, _⟩ := observed O R hc o
  have e : find lt c k h = .ok (⟨s.blk, s.nodes.length⟩, h) := by rw [find_ok O v so (by rwa [← vals_length]), has_absent.2 n]; rfl
  simp only [at_, Prog.bind_app, e, Res.bind_ok, rdPtr]
  cases g : h.size s.blk with
  | none => rw [read_out (by intro n q; simp only at q; rw [g] at q; cases q)]; exact ⟨_, rfl⟩
  | some m =>
    by_cases lm : s.nodes.length < m
    · cases g' : h.slot s.blk s.nodes.length with
      | none => rw [read_raw (p := ⟨s.blk, s.nodes.length⟩) g lm g']; exact ⟨_, rfl⟩
      | some x =>
        obtain ⟨q, rfl, q1, _⟩ := v.tail _ x (Nat.le_refl _) g'
        rw [read_eq (p := ⟨s.blk, s.nodes.length⟩) g lm g']
        simp only [Res.bind_ok, Prog.pure_app, rdPair, Prog.bind_app]
        rw [read_out (by intro n q; rw [q1] at q; cases q)]; exact ⟨_, rfl⟩
    · rw [read_out (by intro n q; simp only at q; rw [g] at q; cases q; exact Nat.not_lt.1 lm)]; exact ⟨_, rfl⟩

/-! ## References stay valid -/

theorem at_mem (O : StrictTotalOrder lt) (v : IsSM h c s) (so : Sorted lt s.vals) (l : s.vals.length < 4294967296) {x : Nat × K × V} (hx : x ∈ s.nodes) : at_ lt c x.2.1 h = .ok (⟨x.1, 0⟩, h) := by
  obtain ⟨i, hi⟩ := List.mem_iff_getElem?.1 hx
  have hv : s.vals[i]? = some (x.2.1, x.2.2) := by rw [SS.vals, List.getElem?_map, hi]; rfl
  obtain ⟨a, b⟩ := lb_pos O so hv
  exact at_ok O v so (by rwa [← vals_length]) a (by rw [b]; exact hi)

/-- The calls that end the life of the elements of `c`. -/
def Ends (c : Nat) : Call K V → Prop
  | .destroy d => d = c
  | .clear d => d = c
  | _ => False

theorem insert_keeps (f : Nat) (k : K) (v : V) {x : Nat × K × V} (hx : x ∈ s.nodes) : x ∈ (s.insert lt f k v).nodes := by
  simp only [SS.insert]; split
  · exact hx
  · simp only [insState]; split <;> exact insNodes_mem.2 (.inr hx)

theorem setVal_keeps (i : Nat) (w : V) {x : Nat × K × V} (hx : x ∈ s.nodes) : ∃ u, (x.1, x.2.1, u) ∈ (s.setVal i w).nodes := by
  obtain ⟨j, hj⟩ := List.mem_iff_getElem?.1 hx
  by_cases q : i = j
  · exact ⟨w, List.mem_iff_getElem?.2 ⟨j, by simp only [SS.setVal]; rw [List.getElem?_modify, hj]; simp [q]⟩⟩
  · exact ⟨x.2.2, List.mem_iff_getElem?.2 ⟨j, by simp only [SS.setVal]; rw [List.getElem?_modify, hj]; simp [q]⟩⟩

theorem spec_keeps (hc : S c = some s) (hf : c < f) (k : Call K V) (ne : ¬ Ends c k) :
    ∃ s', spec lt dv S f k c = some s' ∧ s'.vals.length ≤ s.vals.length + 1 ∧ ∀ x ∈ s.nodes, ∃ u, (x.1, x.2.1, u) ∈ s'.nodes := by
  have same : ∃ s', S c = some s' ∧ s'.vals.length ≤ s.vals.length + 1 ∧ ∀ x ∈ s.nodes, ∃ u, (x.1, x.2.1, u) ∈ s'.nodes :=
    ⟨s, hc, by omega, fun x hx => ⟨x.2.2, hx⟩⟩
  have oth : ∀ d o, d ≠ c → ∃ s', S.set d o c = some s' ∧ s'.vals.length ≤ s.vals.length + 1 ∧ ∀ x ∈ s.nodes, ∃ u, (x.1, x.2.1, u) ∈ s'.nodes := by
    intro d o q; rw [set_other _ (Ne.symm q)]; exact same
  cases k with
  | create => exact oth _ _ (by omega)
  | ctor n => exact oth _ _ (by omega)
  | copyOf d => exact oth _ _ (by omega)
  | destroy d => exact oth _ _ ne
  | clear d => exact oth _ _ ne
  | insert d k v =>
    by_cases q : d = c
    · subst q; simp only [spec, set_same, get_some hc]
      exact ⟨_, rfl, insert_length .., fun x hx => ⟨x.2.2, insert_keeps f k v hx⟩⟩
    · exact oth _ _ q
  | index d k =>
    by_cases q : d = c
    · subst q; simp only [spec, set_same, get_some hc]
      exact ⟨_, rfl, insert_length .., fun x hx => ⟨x.2.2, insert_keeps f k dv hx⟩⟩
    · exact oth _ _ q
  | put d k v =>
    by_cases q : d = c
    · subst q; simp only [spec, set_same, get_some hc, vals_some hc]
      refine ⟨_, rfl, by rw [setVal_length]; exact insert_length .., fun x hx => setVal_keeps _ v (insert_keeps f k dv hx)⟩
    · exact oth _ _ q
  | setAt d k v =>
    by_cases q : d = c
    · subst q; simp only [spec, set_same, get_some hc, vals_some hc]
      refine ⟨_, rfl, by rw [setVal_length]; omega, fun x hx => setVal_keeps _ v hx⟩
    · exact oth _ _ q
  | store d n v =>
    by_cases q : d = c
    · subst q; simp only [spec, set_same, get_some hc, vals_some hc]
      refine ⟨_, rfl, by rw [setVal_length]; omega, fun x hx => setVal_keeps _ v hx⟩
    · exact oth _ _ q

/-- A reference to the value of a key stays a reference to the value of that key through every call, on any map, except the destructor and `clear()` of its map.
So growing the map does not invalidate references. -/
theorem references_stable (O : StrictTotalOrder lt) (R : Reach lt dv S h) (hc : S.Exists c) (o : Observes lt h c vs) (l : vs.length + 1 < 4294967296) {k : K} (pr : Present k vs) {p : Ptr}
    (hp : at_ lt c k h = .ok (p, h)) (κ : Call K V) (lg : Legal S κ) (ne : ¬ Ends c κ) :
    ∃ r h' S' ws, exec lt dv κ h = .ok (r, h') ∧ Reach lt dv S' h' ∧ S'.Exists c ∧ Observes lt h' c ws ∧ Present k ws ∧ at_ lt c k h' = .ok (p, h') := by
  obtain ⟨s, hs, v, rfl, so, _⟩ := observed O R hc o
  obtain ⟨u, hu⟩ := pr
  obtain ⟨x, hx, ex⟩ := List.mem_map.1 hu
  have kx : x.2.1 = k := by rw [ex]
  have e := at_mem O v so (by omega) hx
  rw [kx] at e
  rw [e] at hp; cases hp
  obtain ⟨r, h', q, R'⟩ := call_returns O R κ lg
  obtain ⟨s', hs', l', keep⟩ := spec_keeps (lt := lt) (dv := dv) hs ((R.inv O).world.lt c s hs) κ ne
  have I' := R'.inv O
  have v' := I'.world.sm c s' hs'
  have so' := I'.sorted c s' hs'
  obtain ⟨w, hw⟩ := keep x hx
  have e' := at_mem O v' so' (by omega) hw
  simp only [kx] at e'
  exact ⟨r, h', _, _, q, R', ⟨s', hs'⟩, isSM_observes O v' so', ⟨w, List.mem_map.2 ⟨_, hw, by rw [kx]⟩⟩, e'⟩

/-! ## Copies, independence -/

/-- The copy constructor makes a new map with the same entries; the others, among them the one copied from, are as before. No entry is shared. -/
theorem copy_copies (O : StrictTotalOrder lt) (R : Reach lt dv S h) (hd : S.Exists d) (o : Observes lt h d vs) :
    ∃ c h' S', copyOf d h = .ok (c, h') ∧ ¬ S.Exists c ∧ Reach lt dv S' h' ∧ S'.Exists c ∧ Observes lt h' c vs ∧ OthersKept lt S h h' [] ∧ (∀ d, S.Exists d → S'.Exists d) ∧
      (vs.length < 4294967296 → ∀ k, Present k vs → ∃ p q, at_ lt c k h' = .ok (p, h') ∧ at_ lt d k h' = .ok (q, h') ∧ p ≠ q) := by
  obtain ⟨s, hs, v, rfl, so, _⟩ := observed O R hd o
  have I := R.inv O
  have nf : ¬ S.Exists h.fresh := by
    rintro ⟨s, hs⟩; have := I.world.lt _ s hs; omega
  obtain ⟨h', q, W'⟩ := copyOf_ok I.world hs
  have ex : exec lt dv (.copyOf d) h = .ok (.obj h.fresh, h') := by simp only [exec, Prog.bind_app, q, Res.bind_ok]; rfl
  have R' := Reach.step (dv := dv) (.copyOf d) R hd ex
  simp only [spec, get_some hs] at R'
  have v' := W'.sm h.fresh _ (set_same ..)
  have so' := (R'.inv O).sorted h.fresh _ (set_same ..)
  have ev : SS.vals (⟨h.fresh + 1, s.cap, renum (h.fresh + 2) s.nodes⟩ : SS K V) = s.vals := renum_vals ..
  have ob := isSM_observes O v' so'
  rw [ev] at ob
  have ned : d ≠ h.fresh := by rintro rfl; exact nf hd
  refine ⟨h.fresh, h', _, q, nf, R', set_exists .., ob, ?_, fun d hd => set_exists_other _ _ hd, ?_⟩
  · refine kept_of O R W' fun x _ hx => set_other _ ?_ _
    rintro rfl; exact nf hx
  · rintro l k ⟨u, hu⟩
    have vd := W'.sm d s (by rw [set_other _ ned]; exact hs)
    obtain ⟨y, hy, ey⟩ := List.mem_map.1 hu
    have hu' := hu
    rw [← ev] at hu'
    obtain ⟨x, hx, ex⟩ := List.mem_map.1 hu'
    have e1 := at_mem O v' so' (by rw [ev]; exact l) hx
    have e2 := at_mem O vd so l hy
    rw [ex] at e1
    rw [ey] at e2
    refine ⟨_, _, e1, e2, ?_⟩
    intro e
    simp only [Ptr.mk.injEq, and_true] at e
    have m1 : x.1 ∈ (S.set h.fresh (some ⟨h.fresh + 1, s.cap, renum (h.fresh + 2) s.nodes⟩)).own h.fresh := by rw [own_some (set_same ..)]; exact node_mem hx
    have m2 : x.1 ∈ (S.set h.fresh (some ⟨h.fresh + 1, s.cap, renum (h.fresh + 2) s.nodes⟩)).own d := by
      rw [own_some (by rw [set_other _ ned]; exact hs), e]; exact node_mem hy
    exact ned (W'.disj _ _ _ m1 m2).symm

/-- The maps a call may change. -/
def touched : Call K V → List Nat
  | .create | .ctor _ | .copyOf _ => []
  | .destroy c | .clear c | .insert c _ _ | .index c _ | .put c _ _ | .setAt c _ _ | .store c _ _ => [c]

/-- **Maps are independent.** No call on one map changes another one. -/
theorem independent (O : StrictTotalOrder lt) (R : Reach lt dv S h) (k : Call K V) (lg : Legal S k) :
    ∃ r h' S', exec lt dv k h = .ok (r, h') ∧ Reach lt dv S' h' ∧ OthersKept lt S h h' (touched k) ∧ ∀ d, d ∉ touched k → S.Exists d → S'.Exists d := by
  obtain ⟨r, h', q, R'⟩ := call_returns O R k lg
  have nf : ∀ d, S.Exists d → d ≠ h.fresh := by
    rintro d ⟨s, hs⟩ rfl; have := (R.inv O).world.lt _ s hs; omega
  have same : ∀ d, d ∉ touched k → S.Exists d → spec lt dv S h.fresh k d = S d := by
    intro d hd hx
    have := nf d hx
    cases k <;> simp only [touched, List.mem_cons, List.not_mem_nil, or_false, not_false_eq_true, not_or] at hd
    all_goals first | exact set_other _ hd _ | exact set_other _ this _
  refine ⟨r, h', _, q, R', kept_of O R (R'.inv O).world same, ?_⟩
  intro d hd hx
  obtain ⟨s, hs⟩ := hx
  exact ⟨s, (same d hd ⟨s, hs⟩).trans hs⟩

/-! ## 2^32 elements

`bsearch` keeps the size in an `unsigned`. A map with 2^32 elements looks empty to it. -/

/-- With 2^32 elements, `find` finds nothing, and `insert` of a key that is present, but not the first one, adds it a second time, in front. -/
theorem search_wraps (O : StrictTotalOrder lt) (R : Reach lt dv S h) (hc : S.Exists c) (o : Observes lt h c vs) (l : vs.length = 4294967296) (k : K) :
    find lt c k h = end_ c h ∧ ∀ v, (∀ u, vs[0]? ≠ some (k, u)) → ∃ p h', insert lt c (k, v) h = .ok ((p, true), h') ∧ toList c h' = .ok ((k, v) :: vs, h') := by
  obtain ⟨s, hs, w, rfl, so, cp⟩ := observed O R hc o
  have ln : s.nodes.length = 4294967296 := by rw [← vals_length]; exact l
  have bw := bsearch_wraps (lt := lt) w (by rw [ln]; exact Nat.mod_self _) k
  refine ⟨by simp only [find, Prog.bind_app, bw, Res.bind_ok, Bool.false_eq_true, if_false], fun v n => ?_⟩
  obtain ⟨h', e, W'⟩ := insertBefore_ok (R.inv O).world hs (Nat.zero_le _) (k, v) (fun q => cp q.2)
  refine ⟨⟨(insState h.fresh 0 (k, v) s).blk, 0⟩, h', ?_, ?_⟩
  · have fp : findInsertPos lt c k h = .ok (⟨s.blk, 0⟩, h) := by
      simp only [findInsertPos, Prog.bind_app, bw, Res.bind_ok, getObj_eq w.obj, Prog.pure_app, ptr_add, Nat.zero_add]
    have h0 : 0 < s.vals.length := by rw [l]; simp
    have hx : s.vals[0]? = some s.vals[0] := List.getElem?_eq_getElem h0
    have ne : (⟨s.blk, 0⟩ : Ptr) ≠ ⟨s.blk, s.nodes.length⟩ := by
      rw [vals_length] at h0; simp; omega
    have nk : ¬ s.vals[0].1 = k := by intro q; exact n s.vals[0].2 (by rw [hx, ← q])
    simp only [insert, Prog.bind_app, fp, Res.bind_ok, end_ok w, Prog.ite_app, if_pos ne, w.deref hx, if_neg nk, e, Prog.pure_app]
  · have := toList_ok (W'.sm c _ (set_same ..))
    rw [insState_vals] at this; exact this

/-- There are maps of every size up to 2^32: client programs reach them. -/
theorem every_size (n : Nat) (l : n ≤ 4294967296) : ∃ (c : Nat) (S : State Nat Nat) (h : Mem Nat Nat) (vs : List (Nat × Nat)),
    Reach (fun a b => decide (a < b)) 0 S h ∧ S.Exists c ∧ Observes (fun a b => decide (a < b)) h c vs ∧ vs.length = n ∧ ∀ k, Present k vs ↔ k < n := by
  have O : StrictTotalOrder fun a b : Nat => decide (a < b) := ⟨by simp, by simp; omega, by intro a b; simp; omega⟩
  induction n with
  | zero =>
    obtain ⟨r, h1, q1, R1, o1, _⟩ := one_map (dv := 0) (c := 1) O (reach_start (lt := fun a b : Nat => decide (a < b))) .create trivial rfl
    exact ⟨1, _, h1, _, R1, set_exists .., o1, rfl, fun k => by simp [Present, SS.vals]⟩
  | succ n ih =>
    obtain ⟨c, S, h, vs, R, hc, o, hl, pr⟩ := ih (by omega)
    obtain ⟨p, h', S', ws, _, R', hc', o', pm, _⟩ := insert_new O R hc o (by omega) (k := n) (by rw [pr]; omega) 0
    refine ⟨c, S', h', ws, R', hc', o', by rw [pm.length_eq, List.length_cons, hl], fun k => ?_⟩
    have : Present k ws ↔ k = n ∨ Present k vs := by
      simp only [Present, pm.mem_iff, List.mem_cons, Prod.mk.injEq]
      constructor
      · rintro ⟨v, q | q⟩
        · exact .inl q.1
        · exact .inr ⟨v, q⟩
      · rintro (q | ⟨v, q⟩)
        · exact ⟨0, .inl ⟨q, rfl⟩⟩
        · exact ⟨v, .inr q⟩
    rw [this, pr]; omega

/-- **C43 is false** without the bound: some reachable map has a key, and `find` of that key is `end()`. -/
theorem find_misses_present : ∃ (c : Nat) (S : State Nat Nat) (h : Mem Nat Nat) (vs : List (Nat × Nat)),
    Reach (fun a b => decide (a < b)) 0 S h ∧ S.Exists c ∧ Observes (fun a b => decide (a < b)) h c vs ∧
      ∀ k, k < 4294967296 → Present k vs ∧ find (fun a b => decide (a < b)) c k h = end_ c h := by
  have O : StrictTotalOrder fun a b : Nat => decide (a < b) := ⟨by simp, by simp; omega, by intro a b; simp; omega⟩
  obtain ⟨c, S, h, vs, R, hc, o, hl, pr⟩ := every_size 4294967296 (Nat.le_refl _)
  exact ⟨c, S, h, vs, R, hc, o, fun k lk => ⟨(pr k).2 lk, (search_wraps O R hc o hl k).1⟩⟩

/-! ## Concrete cases -/

/-- A new map with `m[5] = 50; m.insert(3, 30); m[9]; m.insert(3, 31); m.at(9) = 90` has the entries 3, 5, 9. -/
theorem demo : ∃ (c : Nat) (S : State Nat Nat) (h : Mem Nat Nat), Reach (fun a b => decide (a < b)) 0 S h ∧ S.Exists c ∧
    Observes (fun a b => decide (a < b)) h c [(3, 30), (5, 50), (9, 90)] := by
  have O : StrictTotalOrder fun a b : Nat => decide (a < b) := ⟨by simp, by simp; omega, by intro a b; simp; omega⟩
  obtain ⟨r, h1, q1, R1, o1, _⟩ := one_map (dv := 0) (c := 1) O (reach_start (lt := fun a b : Nat => decide (a < b))) .create trivial rfl
  have big : ∀ n, n < 10 → n < 4294967296 := fun n q => by omega
  have st : ∀ {h : Mem Nat Nat} {S : State Nat Nat} {s : SS Nat Nat}, Reach (fun a b => decide (a < b)) 0 S h → S 1 = some s → s.vals.length < 10 →
      ∀ o : Op Nat Nat, (∀ k v, o = .setAt k v → has k s.vals = true) → ∃ h' f, Reach (fun a b => decide (a < b)) 0 (S.set 1 (some (o.state (fun a b => decide (a < b)) 0 f s))) h' := by
    intro h S s R hs l o p
    have lg : Legal S (o.call 1) := by
      have hx : S.Exists 1 := ⟨s, hs⟩
      cases o <;> simp only [Op.call, Legal, vals_some hs]
      case setAt k v => exact ⟨hx, big _ l, p k v rfl⟩
      all_goals first | exact ⟨hx, big _ l⟩ | exact hx
    obtain ⟨r, h', q, R', _⟩ := one_map O R _ lg (op_spec hs h.fresh o)
    exact ⟨h', _, R'⟩
  obtain ⟨h2, f2, R2⟩ := st R1 (set_same ..) (by simp [SS.vals]) (.put 5 50) (by simp)
  rw [set_set] at R2
  obtain ⟨h3, f3, R3⟩ := st R2 (set_same ..) (by simp [SS.vals, Op.state, SS.setVal, SS.insert, has, insState, insNodes, lb]) (.insert 3 30) (by simp)
  rw [set_set] at R3
  obtain ⟨h4, f4, R4⟩ := st R3 (set_same ..) (by simp [SS.vals, Op.state, SS.setVal, SS.insert, has, insState, insNodes, lb]) (.index 9) (by simp)
  rw [set_set] at R4
  obtain ⟨h5, f5, R5⟩ := st R4 (set_same ..) (by simp [SS.vals, Op.state, SS.setVal, SS.insert, has, insState, insNodes, lb]) (.insert 3 31) (by simp)
  rw [set_set] at R5
  obtain ⟨h6, f6, R6⟩ := st R5 (set_same ..) (by simp [SS.vals, Op.state, SS.setVal, SS.insert, has, insState, insNodes, lb]) (.setAt 9 90)
    (by rintro k v ⟨⟩; simp [SS.vals, Op.state, SS.setVal, SS.insert, has, insState, insNodes, lb])
  rw [set_set] at R6
  refine ⟨1, _, h6, R6, set_exists .., ?_⟩
  have I := R6.inv O
  have := isSM_observes O (I.world.sm 1 _ (set_same ..)) (I.sorted 1 _ (set_same ..))
  simpa [SS.vals, Op.state, SS.setVal, SS.insert, has, insState, insNodes, lb] using this

example : ∃ (c : Nat) (h : Mem Nat Nat), Observes (fun a b => decide (a < b)) h c [(3, 30), (5, 50), (9, 90)] ∧
    count (fun a b => decide (a < b)) c 5 h = .ok (0, h) ∧ count (fun a b => decide (a < b)) c 4 h = .ok (1, h) ∧
    (∃ f, (do rdPair (← at_ (fun a b => decide (a < b)) c 4) : Prog (Mem Nat Nat) (Nat × Nat)) h = .ub f) ∧
    (∃ p h', insert (fun a b => decide (a < b)) c (4, 40) h = .ok ((p, true), h') ∧ deref p h' = .ok ((4, 40), h')) ∧
    (∃ p, insert (fun a b => decide (a < b)) c (5, 40) h = .ok ((p, false), h) ∧ deref p h = .ok ((5, 50), h)) := by
  have O : StrictTotalOrder fun a b : Nat => decide (a < b) := ⟨by simp, by simp; omega, by intro a b; simp; omega⟩
  obtain ⟨c, S, h, R, hc, o⟩ := demo
  have big : 3 < 4294967296 := by omega
  refine ⟨c, h, o, (count_inverted O R hc o big 5).1 ⟨50, by simp⟩, (count_inverted O R hc o big 4).2 (by simp [Present]), at_absent_ub O R hc o big (by simp [Present]), ?_, ?_⟩
  · obtain ⟨p, h', _, _, e, _, _, _, _, e', _⟩ := insert_new O R hc o big (k := 4) (by simp [Present]) 40
    exact ⟨p, h', e, e'⟩
  · exact insert_present O R hc o big (by simp) 40

example : (do let c ← ctor 1; let _ ← insert (fun a b => decide (a < b)) c (7, 70); let _ ← insert (fun a b => decide (a < b)) c (8, 80); pure c : Prog (Mem Nat Nat) Nat) empty₀ = .ub .access :=
  capacity_one_overflows (dv := 0) ⟨by simp, by simp; omega, by intro a b; simp; omega⟩ Reach.start (by decide) 70 80

end Verif.SVMap.SMProps
