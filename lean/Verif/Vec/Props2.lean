import Verif.Vec.Props
import Verif.Vec.Alias
/-!
# Properties of `ttl::vector`, continued: lifetimes, erase, aliasing, copies, swap, comparison

Memory is observed with `read`: reading where no object is alive is undefined behaviour (`.lifetime` inside an allocated block, `.access`
outside of every block).
-/
set_option linter.unusedVariables false
set_option linter.unusedSimpArgs false
namespace Verif.Vec.VecProps
open Verif Verif.Vec
variable {T : Type} {h h' : Mem T} {S : State T} {c d n i j k a : Nat} {s t : VS T} {vs ws us : List T} {dv : T} {p q : Ptr} {cap cap' : Nat}

/-- `begin()` is the start of a block. -/
theorem shown' (R : Reach dv S h) (hc : S.Exists c) (o : Shows h c vs cap p) : ∃ b, p = ⟨b, 0⟩ ∧ S c = some ⟨vs, cap, b⟩ ∧ IsVec h c ⟨vs, cap, b⟩ := by
  obtain ⟨hs, ho⟩ := shown R hc o
  obtain ⟨b, f⟩ := p
  simp only at ho; subst ho
  exact ⟨b, rfl, hs, R.world.vec _ _ hs⟩

/-! ## C36: lifetimes -/

/-- **C36.** In every reachable memory, exactly the slots `[0, size())` of a vector hold objects, `size() ≤ capacity()`, and the block holds
exactly `capacity()` slots. -/
theorem slots_exactly (R : Reach dv S h) (hc : S.Exists c) (o : Shows h c vs cap p) :
    vs.length ≤ cap ∧ ∀ i : Nat, read (p + i) h = match vs[i]? with | some v => .ok (v, h) | none => .ub (if i < cap then .lifetime else .access) := by
  obtain ⟨b, rfl, hs, v⟩ := shown' R hc o
  refine ⟨v.le, fun i => ?_⟩
  have le := v.le
  simp only [ptr_add, Nat.zero_add]
  cases e : vs[i]? with
  | some a => exact (v.holds e).read
  | none =>
    by_cases l : i < cap
    · simp only [if_pos l]
      refine read_raw (v.size (by show 0 < cap; omega)) l ?_
      show h.slot b i = none
      rw [v.slot, lay_nil]; exact e
    · simp only [if_neg l]
      refine read_out ?_
      intro n q
      by_cases z : b = 0
      · subst z; rw [R.world.base.null] at q; cases q
      · have := v.blk z; simp only at this q; rw [this] at q; cases q; show cap ≤ i; omega

/-- **C36.** There is nothing else in memory: every block is the block of a vector that exists, with that vector's capacity, and every live object is
an element of a vector that exists. -/
theorem nothing_else (R : Reach dv S h) :
    (∀ b n, h.size b = some n → ∃ c vs, S.Exists c ∧ Shows h c vs n ⟨b, 0⟩) ∧
      ∀ b i v, h.slot b i = some v → ∃ c vs cap, S.Exists c ∧ Shows h c vs cap ⟨b, 0⟩ ∧ vs[i]? = some v := by
  have W := R.world
  constructor
  · intro b n e
    obtain ⟨c, s, hs, rfl⟩ := W.tight b n e
    have v := W.vec c s hs
    refine ⟨c, s.vals, ⟨s, hs⟩, ?_⟩
    have := v.blk (by intro z; rw [z, W.base.null] at e; cases e)
    rw [this] at e; cases e
    exact isVec_shows v
  · intro b i a e
    obtain ⟨c, s, hs, rfl⟩ := W.slots b i a e
    have v := W.vec c s hs
    refine ⟨c, s.vals, s.cap, ⟨s, hs⟩, isVec_shows v, ?_⟩
    rw [v.slot, lay_nil] at e; exact e

/-- **C36.** Two vectors never share a block. -/
theorem blocks_disjoint (R : Reach dv S h) (hc : S.Exists c) (hd : S.Exists d) (ne : c ≠ d) (oc : Shows h c vs cap p) (od : Shows h d ws cap' q) :
    p.blk = q.blk → cap = 0 ∧ cap' = 0 := by
  obtain ⟨b, rfl, hs, v⟩ := shown' R hc oc
  obtain ⟨b', rfl, hs', v'⟩ := shown' R hd od
  intro e
  have z := R.world.disj c d _ _ hs hs' ne e
  simp only at e z
  exact ⟨v.zero z, v'.zero (by show b' = 0; omega)⟩

/-- **C36.** The destructor destroys every element and releases the block: afterwards nothing can be read there, and the other vectors are as before. -/
theorem destroy_releases (R : Reach dv S h) (hc : S.Exists c) (o : Shows h c vs cap p) :
    ∃ h' S', destroy c h = .ok ((), h') ∧ Reach dv S' h' ∧ ¬ S'.Exists c ∧ (∀ d, d ≠ c → S.Exists d → S'.Exists d) ∧ OthersKept S h h' [c] ∧
      (∀ i : Nat, read (p + i) h' = .ub .access) ∧ ∀ i, h'.slot p.blk i = none := by
  obtain ⟨b, rfl, hs, v⟩ := shown' R hc o
  obtain ⟨h', q, R'⟩ := call_returns R (.destroy c) hc
  have e : destroy c h = .ok ((), h') := by
    simp only [exec, Prog.bind_app] at q
    cases g : destroy c h with
    | ok x => obtain ⟨⟨⟩, x⟩ := x; rw [g] at q; simp only [Res.bind_ok, Prog.pure_app] at q; cases q; rfl
    | ub f => rw [g] at q; cases q
    | diverge => rw [g] at q; cases q
  have W' := R'.world
  have nc : (S.del c) c = none := by simp [State.del]
  have oth : ∀ d, d ≠ c → (S.del c) d = S d := by intro d q; simp [State.del, q]
  have own : ∀ d t, (S.del c) d = some t → t.blk = b → t.blk = 0 := by
    intro d t e1 e2
    have ne : d ≠ c := by rintro rfl; rw [nc] at e1; cases e1
    rw [oth d ne] at e1
    exact R.world.disj d c _ _ e1 hs ne e2
  refine ⟨h', _, e, R', ?_, ?_, kept_of R W' ?_, ?_, ?_⟩
  · rintro ⟨s, hs'⟩; rw [show spec dv S h.fresh (.destroy c) = S.del c from rfl, nc] at hs'; cases hs'
  · intro d ne ⟨s, hs'⟩; exact ⟨s, (oth d ne).trans hs'⟩
  · intro d hd _; exact oth d (by simpa using hd)
  · intro i
    refine read_out ?_
    intro n q
    simp only [ptr_add] at q
    obtain ⟨d, t, e1, e2⟩ := W'.tight b n q
    have := own d t e1 e2
    rw [← e2, this, W'.base.null] at q; cases q
  · intro i
    show h'.slot b i = none
    cases g : h'.slot b i with
    | none => rfl
    | some a =>
      obtain ⟨d, t, e1, e2⟩ := W'.slots b i a g
      have := own d t e1 e2
      rw [← e2, this, W'.base.nullSlot, lay_nil_none] at g; cases g

/-- **C36.** When every vector has been destroyed, no block is allocated and no object is alive. -/
theorem destroyed_all (R : Reach dv S h) (none : ∀ c, ¬ S.Exists c) (b : Nat) : h.size b = .none ∧ (∀ i, h.slot b i = .none) ∧ h.obj b = .none := by
  have W := R.world
  refine ⟨?_, fun i => ?_, ?_⟩
  · cases e : h.size b with
    | none => rfl
    | some n => obtain ⟨c, s, hs, _⟩ := W.tight b n e; exact absurd ⟨s, hs⟩ (none c)
  · cases e : h.slot b i with
    | none => rfl
    | some a => obtain ⟨c, s, hs, _⟩ := W.slots b i a e; exact absurd ⟨s, hs⟩ (none c)
  · refine W.only b ?_
    cases e : S b with
    | none => rfl
    | some s => exact absurd ⟨s, e⟩ (none b)

/-- **C36** for a whole life: a vector is created, goes through any history, and is destroyed. Nothing undefined happens, and nothing is left. -/
theorem vector_life (os : List (Op T)) (ok : OpsOk dv os []) :
    ∃ h', (do let c ← create; runOps dv c os; destroy c : Prog (Mem T) Unit) empty₀ = .ok ((), h') ∧
      ∀ b, h'.size b = none ∧ (∀ i, h'.slot b i = none) ∧ h'.obj b = none := by
  obtain ⟨h1, q1, R1, o1, _⟩ := one_vector (dv := dv) (c := 1) (t := ⟨[], 0, 0⟩) (Reach.start (T := T)) .create trivial rfl
  obtain ⟨h2, t, q2, R2, e2, _⟩ := history os R1 (put_same ..) ok
  obtain ⟨h3, q3, R3⟩ := call_returns R2 (.destroy 1) (put_exists ..)
  refine ⟨h3, ?_, destroyed_all R3 ?_⟩
  · have q1' : create (empty₀ : Mem T) = .ok (1, h1) := by
      simp only [exec, create_ok, Prog.bind_app, Res.bind_ok, Prog.pure_app] at q1; cases q1; rfl
    simp only [Prog.bind_app, q1', Res.bind_ok, q2]
    simp only [exec, Prog.bind_app] at q3
    cases g : destroy 1 h2 with
    | ok x => obtain ⟨⟨⟩, x⟩ := x; rw [g] at q3; simp only [Res.bind_ok, Prog.pure_app] at q3; cases q3; rfl
    | ub f => rw [g] at q3; cases q3
    | diverge => rw [g] at q3; cases q3
  · rintro c ⟨s, hs⟩
    simp only [spec, State.del] at hs
    split at hs
    · cases hs
    · rename_i ne; simp [State.put, ne] at hs

/-! ## C37: erase of an empty range -/

/-- **C37 is false.** `erase(p, p)` is undefined behaviour for every vector and every position that designates an element: the element is
constructed again on top of itself and then destroyed. -/
theorem erase_empty_range_ub (R : Reach dv S h) (hc : S.Exists c) (o : Observes h c vs) (hi : i < vs.length) :
    exec dv (.eraseRange c i i) h = .ub .lifetime := by
  obtain ⟨s, hs, rfl, v⟩ := observed R hc o
  simp only [exec, Prog.bind_app, Vec.begin_ok v, Res.bind_ok, ptr_add, Nat.zero_add, erase_empty_ub v hi]; rfl

/-- C37 at the end: `erase(end(), end())` returns `end()` and changes nothing at all. -/
theorem erase_empty_range_partial (R : Reach dv S h) (hc : S.Exists c) (o : Shows h c vs cap p) :
    exec dv (.eraseRange c vs.length vs.length) h = .ok (.it (p + vs.length), h) := by
  obtain ⟨b, rfl, hs, v⟩ := shown' R hc o
  have := eraseRange_end v
  simp only [exec, Prog.bind_app, Vec.begin_ok v, Res.bind_ok, ptr_add, Nat.zero_add]
  simp only at this
  rw [this]; rfl

/-! ## C38: own elements as arguments -/

/-- **C38** for `push_back`: any element of any vector can be the argument, also an own one, with and without reallocation. -/
theorem push_back_element (R : Reach dv S h) (hc : S.Exists c) (hd : S.Exists d) (o : Observes h c vs) (od : Observes h d ws) {v : T} (hv : ws[a]? = some v) :
    ∃ h' S', exec dv (.pushBack c (.elem d a)) h = .ok (.none, h') ∧ Reach dv S' h' ∧ S'.Exists c ∧ Observes h' c (vs ++ [v]) ∧ OthersKept S h h' [c] := by
  obtain ⟨s, hs, rfl, vc⟩ := observed R hc o
  obtain ⟨t, ht, rfl, vd⟩ := observed R hd od
  have hl := (List.getElem?_eq_some_iff.1 hv).1
  obtain ⟨h', q, R', o', k⟩ := one_vector (c := c) R (.pushBack c (.elem d a)) ⟨hc, hd, by rw [vals_some ht]; exact hl⟩ rfl
  refine ⟨h', _, q, R', put_exists .., ?_, k⟩
  have := o'.toObserves
  rw [ins_vals] at this
  simp only [get_some hs, vals_some hs, State.copies, CArg.val, vals_some ht, hv, List.replicate_one, List.take_length, List.drop_length, List.append_nil] at this
  exact this

/-- **C38** for `insert(pos, n, v[a])`, in the cases where the code is right: the element lies before the insertion point, or the insertion
reallocates, or it is an insertion at the end, or the element belongs to another vector. -/
theorem insert_element_partial (R : Reach dv S h) (hc : S.Exists c) (hd : S.Exists d) (o : Shows h c vs cap p) (od : Observes h d ws) {v : T} (hv : ws[a]? = some v)
    (hi : i ≤ vs.length) (safe : d ≠ c ∨ a < i ∨ cap < vs.length + n ∨ i = vs.length) :
    ∃ h' S' p', exec dv (.insertN c i n (.elem d a)) h = .ok (.it (p' + i), h') ∧ Reach dv S' h' ∧ S'.Exists c ∧ OthersKept S h h' [c] ∧
      Shows h' c (vs.take i ++ (List.replicate n v ++ vs.drop i)) (max cap (vs.length + n)) p' := by
  obtain ⟨b, rfl, hs, vc⟩ := shown' R hc o
  obtain ⟨t, ht, rfl, vd⟩ := observed R hd od
  have le := vc.le
  have hl := (List.getElem?_eq_some_iff.1 hv).1
  have hg := get_some hs
  obtain ⟨h', q, R', o', k⟩ := one_vector (c := c) R (.insertN c i n (.elem d a))
    ⟨hc, by rw [vals_some hs]; exact hi, ⟨hd, by rw [vals_some ht]; exact hl⟩, by
      simp only [CArg.Before, State.Moves, vals_some hs, hg]
      rcases safe with q | q | q | q
      · exact .inl fun e => absurd e q
      · exact .inl fun _ => q
      · exact .inr (.inl q)
      · exact .inr (.inr q)⟩ rfl
  have ec : S.copies n (.elem d a) = List.replicate n v := by simp only [State.copies, CArg.val, vals_some ht, hv]
  rw [hg, ec, ins_vals] at o'
  have e2 : retOf dv S h.fresh (.insertN c i n (.elem d a)) = .it (Ptr.mk (VS.ins ⟨vs, cap, b⟩ h.fresh i (List.replicate n v)).blk 0 + i) := by
    simp only [retOf, spec, put_get, hg, ec, ptr_add, Nat.zero_add]
  rw [e2] at q
  have e3 : (VS.ins (⟨vs, cap, b⟩ : VS T) h.fresh i (List.replicate n v)).cap = max cap (vs.length + n) := by
    simp only [VS.ins, List.length_replicate]
    split
    · rename_i z
      have : n = 0 := by simpa using z
      simp only [VS.cap] at le ⊢; subst this; show cap = _; have le : vs.length ≤ cap := le; omega
    · split
      · show vs.length + n = _; omega
      · show cap = _; omega
  rw [e3, List.append_assoc] at o'
  exact ⟨h', _, _, q, R', put_exists .., k, o'⟩

/-- **C38 is false** for an insertion within the capacity before or at the argument: if the argument is one of the `n` elements at and behind the
insertion point, it is read after it was destroyed. -/
theorem insert_own_element_ub (R : Reach dv S h) (hc : S.Exists c) (o : Shows h c vs cap p) (hi : i ≤ a) (ha : a < vs.length) (hn : a < i + n) (room : vs.length + n ≤ cap) :
    exec dv (.insertN c i n (.elem c a)) h = .ub .lifetime := by
  obtain ⟨b, rfl, hs, v⟩ := shown' R hc o
  have := insert_gap_ub v hi ha hn room
  simp only at this
  simp only [exec, CArg.expr, Prog.bind_app, at_ok v, Vec.begin_ok v, Res.bind_ok, Prog.pure_app, ptr_add, Nat.zero_add, this]; rfl

/-- **C38 is false** for an element further behind: another element, `v[a - n]`, is inserted instead. -/
theorem insert_own_element_wrong (R : Reach dv S h) (hc : S.Exists c) (o : Shows h c vs cap p) (hi : i + n ≤ a) (ha : a < vs.length) (hn : 0 < n) (room : vs.length + n ≤ cap)
    {w : T} (hw : vs[a - n]? = some w) :
    ∃ h', exec dv (.insertN c i n (.elem c a)) h = .ok (.it (p + i), h') ∧ Shows h' c (vs.take i ++ (List.replicate n w ++ vs.drop i)) cap p := by
  obtain ⟨b, rfl, hs, v⟩ := shown' R hc o
  have := insert_shifted_ok v hi ha hn room hw
  simp only at this
  refine ⟨h.vec c ⟨vs.take i ++ List.replicate n w ++ vs.drop i, cap, b⟩, ?_, ?_⟩
  · simp only [exec, CArg.expr, Prog.bind_app, at_ok v, Vec.begin_ok v, Res.bind_ok, Prog.pure_app, ptr_add, Nat.zero_add, this]
  · rw [← List.append_assoc]
    exact isVec_shows (isVec_vec v _ (by simp; omega))

/-- The same defect for a range of the vector itself that starts among the `n` elements at and behind the insertion point. -/
theorem insert_own_range_ub (R : Reach dv S h) (hc : S.Exists c) (o : Shows h c vs cap p) (hi : i ≤ a) (ha : a < j) (hj : j ≤ vs.length) (hn : a < i + (j - a)) (room : vs.length + (j - a) ≤ cap) :
    exec dv (.insertRange c i (.range c a j)) h = .ub .lifetime := by
  obtain ⟨b, rfl, hs, v⟩ := shown' R hc o
  have := insert_gap_range_ub v hi (show a < vs.length by omega) hn room
  simp only at this
  simp only [exec, CSrc.expr, Prog.bind_app, Vec.begin_ok v, Res.bind_ok, Prog.pure_app, ptr_add, Nat.zero_add, this]; rfl

/-! ## Copies and assignment -/

/-- A client call that constructs a vector. -/
theorem constructs (R : Reach dv S h) (k : Call T) (lg : Legal S k) {t : VS T} (hk : spec dv S h.fresh k = S.put h.fresh t) (hr : retOf dv S h.fresh k = .obj h.fresh) :
    ∃ c h' S', exec dv k h = .ok (.obj c, h') ∧ ¬ S.Exists c ∧ Reach dv S' h' ∧ S'.Exists c ∧ Shows h' c t.vals t.cap ⟨t.blk, 0⟩ ∧ OthersKept S h h' [] ∧
      ∀ d, S.Exists d → S'.Exists d := by
  obtain ⟨h', q, R', o', k'⟩ := one_vector (c := h.fresh) R k lg hk
  have nf : ¬ S.Exists h.fresh := by
    rintro ⟨s, hs⟩; have := (R.world.vec _ s hs).obj_lt R.world.base; omega
  refine ⟨h.fresh, h', _, by rw [q, hr], nf, R', put_exists .., o', ?_, fun d hd => put_exists_other _ _ hd⟩
  intro d _ hd
  exact k' d (by simp; rintro rfl; exact nf hd) hd

/-- The copy constructor makes a new vector with the same elements and no spare capacity; the other vectors, among them the one copied from, are as
before. -/
theorem copy_copies (R : Reach dv S h) (hd : S.Exists d) (od : Observes h d ws) :
    ∃ c h' S' p, exec dv (.copyOf d) h = .ok (.obj c, h') ∧ ¬ S.Exists c ∧ Reach dv S' h' ∧ S'.Exists c ∧ Shows h' c ws ws.length p ∧ OthersKept S h h' [] ∧
      ∀ d, S.Exists d → S'.Exists d := by
  obtain ⟨t, ht, rfl, v⟩ := observed R hd od
  obtain ⟨c, h', S', q⟩ := constructs (dv := dv) R (.copyOf d) hd rfl rfl
  simp only [vals_some ht] at q
  exact ⟨c, h', S', _, q⟩

/-- `vector(n)` holds `n` value-initialised elements. -/
theorem construct_default (R : Reach dv S h) (n : Nat) :
    ∃ c h' S' p, exec dv (.ctor n) h = .ok (.obj c, h') ∧ ¬ S.Exists c ∧ Reach dv S' h' ∧ S'.Exists c ∧ Shows h' c (List.replicate n dv) n p ∧ OthersKept S h h' [] ∧
      ∀ d, S.Exists d → S'.Exists d := by
  obtain ⟨c, h', S', q⟩ := constructs (dv := dv) R (.ctor n) trivial rfl rfl
  exact ⟨c, h', S', _, q⟩

/-- `vector(n, v)` holds `n` copies of `v`. -/
theorem construct_n (R : Reach dv S h) (n : Nat) (v : T) :
    ∃ c h' S' p, exec dv (.ctorN n (.ext v)) h = .ok (.obj c, h') ∧ ¬ S.Exists c ∧ Reach dv S' h' ∧ S'.Exists c ∧ Shows h' c (List.replicate n v) n p ∧ OthersKept S h h' [] ∧
      ∀ d, S.Exists d → S'.Exists d := by
  obtain ⟨c, h', S', q⟩ := constructs (dv := dv) R (.ctorN n (.ext v)) trivial rfl rfl
  exact ⟨c, h', S', _, q⟩

/-- `vector(first, last)` over values outside every vector holds these values. -/
theorem construct_from_values (R : Reach dv S h) (ws : List T) :
    ∃ c h' S' p, exec dv (.ctorRange (.vals ws)) h = .ok (.obj c, h') ∧ ¬ S.Exists c ∧ Reach dv S' h' ∧ S'.Exists c ∧ Shows h' c ws ws.length p ∧ OthersKept S h h' [] ∧
      ∀ d, S.Exists d → S'.Exists d := by
  obtain ⟨c, h', S', q⟩ := constructs (dv := dv) R (.ctorRange (.vals ws)) trivial rfl rfl
  exact ⟨c, h', S', _, q⟩

/-- `vector(first, last)` over a range of another vector holds copies of these elements. -/
theorem construct_from_range (R : Reach dv S h) (hd : S.Exists d) (od : Observes h d ws) (hij : i ≤ j) (hj : j ≤ ws.length) :
    ∃ c h' S' p, exec dv (.ctorRange (.range d i j)) h = .ok (.obj c, h') ∧ ¬ S.Exists c ∧ Reach dv S' h' ∧ S'.Exists c ∧ Shows h' c ((ws.drop i).take (j - i)) (j - i) p ∧
      OthersKept S h h' [] ∧ ∀ d, S.Exists d → S'.Exists d := by
  obtain ⟨t, ht, rfl, v⟩ := observed R hd od
  obtain ⟨c, h', S', q⟩ := constructs (dv := dv) R (.ctorRange (.range d i j)) ⟨hd, hij, by rw [vals_some ht]; exact hj⟩ rfl rfl
  simp only [vals_some ht, CSrc.vals', show ((t.vals.drop i).take (j - i)).length = j - i by simp; omega] at q
  exact ⟨c, h', S', _, q⟩

/-- `a = b` for two vectors: `a` gets the elements of `b`, every other vector, among them `b`, is as before. -/
theorem assign_copies_partial (R : Reach dv S h) (hc : S.Exists c) (hd : S.Exists d) (ne : c ≠ d) (oc : Shows h c vs cap p) (od : Shows h d ws cap' q) :
    ∃ h' S' p', exec dv (.assign c d) h = .ok (.none, h') ∧ Reach dv S' h' ∧ S'.Exists c ∧ Shows h' c ws (max cap cap') p' ∧ OthersKept S h h' [c] := by
  obtain ⟨b, rfl, hs, v⟩ := shown' R hc oc
  obtain ⟨b', rfl, hs', v'⟩ := shown' R hd od
  obtain ⟨h', q, R', o', k⟩ := one_vector (c := c) R (.assign c d) ⟨hc, hd⟩ rfl
  simp only [get_some hs, get_some hs', vals_some hs', if_neg (Ne.symm ne)] at o'
  have e : ((VS.become ((VS.become (⟨vs, cap, b⟩ : VS T) []).reserve h.fresh cap') ws)).cap = max cap cap' := by
    show (VS.reserve _ _ _).cap = _; rw [reserve_cap]; rfl
  rw [e] at o'
  exact ⟨h', _, _, q, R', put_exists .., o', k⟩

/-- `a = a` empties `a`. -/
theorem self_assign_empties (R : Reach dv S h) (hc : S.Exists c) :
    ∃ h' S', exec dv (.assign c c) h = .ok (.none, h') ∧ Reach dv S' h' ∧ S'.Exists c ∧ Observes h' c [] ∧ OthersKept S h h' [c] := by
  obtain ⟨h', q, R', o', k⟩ := one_vector (c := c) R (.assign c c) ⟨hc, hc⟩ rfl
  refine ⟨h', _, q, R', put_exists .., ?_, k⟩
  have := o'.toObserves
  simp only [if_true] at this
  exact this

/-- `assign(n, v)` with a value outside the vector or an element of another vector. -/
theorem assign_n_partial (R : Reach dv S h) (hc : S.Exists c) (hd : S.Exists d) (ne : c ≠ d) (od : Observes h d ws) {v : T} (hv : ws[a]? = some v) (n : Nat) :
    ∃ h' S', exec dv (.assignN c n (.elem d a)) h = .ok (.none, h') ∧ Reach dv S' h' ∧ S'.Exists c ∧ Observes h' c (List.replicate n v) ∧ OthersKept S h h' [c] := by
  obtain ⟨t, ht, rfl, vd⟩ := observed R hd od
  have hl := (List.getElem?_eq_some_iff.1 hv).1
  obtain ⟨h', q, R', o', k⟩ := one_vector (c := c) R (.assignN c n (.elem d a)) ⟨hc, ⟨hd, by rw [vals_some ht]; exact hl⟩, Ne.symm ne⟩ rfl
  refine ⟨h', _, q, R', put_exists .., ?_, k⟩
  have := o'.toObserves
  simp only [State.copies, CArg.val, vals_some ht, hv] at this
  exact this

/-- `assign(n, v[i])` with an own element destroys it before copying it. -/
theorem assign_n_own_element_ub (R : Reach dv S h) (hc : S.Exists c) (o : Observes h c vs) (ha : a < vs.length) (hn : 0 < n) : ∃ f, exec dv (.assignN c n (.elem c a)) h = .ub f := by
  obtain ⟨s, hs, rfl, v⟩ := observed R hc o
  obtain ⟨f, q⟩ := assignN_own_ub (a := a) (n := n) R.world.base v hn
  refine ⟨f, ?_⟩
  simp only [exec, CArg.expr, Prog.bind_app, at_ok v, Res.bind_ok, Prog.pure_app, q]; rfl

/-- `assign(first, last)` with a range of another vector. -/
theorem assign_range_partial (R : Reach dv S h) (hc : S.Exists c) (hd : S.Exists d) (ne : c ≠ d) (od : Observes h d ws) (hij : i ≤ j) (hj : j ≤ ws.length) :
    ∃ h' S', exec dv (.assignRange c (.range d i j)) h = .ok (.none, h') ∧ Reach dv S' h' ∧ S'.Exists c ∧ Observes h' c ((ws.drop i).take (j - i)) ∧ OthersKept S h h' [c] := by
  obtain ⟨t, ht, rfl, vd⟩ := observed R hd od
  obtain ⟨h', q, R', o', k⟩ := one_vector (c := c) R (.assignRange c (.range d i j)) ⟨hc, ⟨hd, hij, by rw [vals_some ht]; exact hj⟩, Ne.symm ne⟩ rfl
  refine ⟨h', _, q, R', put_exists .., ?_, k⟩
  have := o'.toObserves
  rw [pushes_vals] at this
  simp only [CSrc.vals', vals_some ht, VS.become, List.nil_append] at this
  exact this

/-- `assign(first, last)` with a non-empty range of the vector itself destroys it before copying it. -/
theorem assign_own_range_ub (R : Reach dv S h) (hc : S.Exists c) (o : Observes h c vs) (hij : i < j) (hj : j ≤ vs.length) : ∃ f, exec dv (.assignRange c (.range c i j)) h = .ub f := by
  obtain ⟨s, hs, rfl, v⟩ := observed R hc o
  obtain ⟨f, q⟩ := assignRange_own_ub (a := i) (n := j - i) v (by omega) (by omega)
  refine ⟨f, ?_⟩
  simp only [exec, CSrc.expr, Prog.bind_app, Vec.begin_ok v, Res.bind_ok, Prog.pure_app, ptr_add, Nat.zero_add, q]; rfl

/-! ## swap and comparison -/

/-- `swap` exchanges the contents, capacities and blocks of two vectors (also of a vector with itself): iterators stay valid and now belong to the
other vector. No other vector is touched. -/
theorem swap_swaps (R : Reach dv S h) (hc : S.Exists c) (hd : S.Exists d) (oc : Shows h c vs cap p) (od : Shows h d ws cap' q) :
    ∃ h' S', exec dv (.swap c d) h = .ok (.none, h') ∧ Reach dv S' h' ∧ S'.Exists c ∧ S'.Exists d ∧ Shows h' c ws cap' q ∧ Shows h' d vs cap p ∧ OthersKept S h h' [c, d] := by
  obtain ⟨b, rfl, hs, v⟩ := shown' R hc oc
  obtain ⟨b', rfl, hs', v'⟩ := shown' R hd od
  obtain ⟨h', q, R'⟩ := call_returns R (.swap c d) ⟨hc, hd⟩
  have es : spec dv S h.fresh (.swap c d) = (S.put c ⟨ws, cap', b'⟩).put d ⟨vs, cap, b⟩ := by simp only [spec, get_some hs, get_some hs']
  rw [es] at R'
  have hd' : ((S.put c ⟨ws, cap', b'⟩).put d ⟨vs, cap, b⟩) d = some ⟨vs, cap, b⟩ := put_same ..
  have hc' : ((S.put c ⟨ws, cap', b'⟩).put d ⟨vs, cap, b⟩) c = some ⟨ws, cap', b'⟩ := by
    by_cases e : c = d
    · subst e; rw [hs] at hs'; cases hs'; exact put_same ..
    · rw [put_other _ e]; exact put_same ..
  refine ⟨h', _, q, R', ⟨_, hc'⟩, ⟨_, hd'⟩, isVec_shows (R'.world.vec _ _ hc'), isVec_shows (R'.world.vec _ _ hd'), kept_of R R'.world ?_⟩
  intro e he _
  simp only [List.mem_cons, List.not_mem_nil, or_false, not_or] at he
  rw [put_other _ he.2, put_other _ he.1]

/-- `==` compares the contents element by element, and changes nothing; `!=` is its negation. -/
theorem equal_compares (eq : T → T → Bool) (R : Reach dv S h) (hc : S.Exists c) (hd : S.Exists d) (oc : Observes h c vs) (od : Observes h d ws) :
    ∃ r, equal eq c d h = .ok (r, h) ∧ notEqual eq c d h = .ok (!r, h) ∧
      (r = true ↔ vs.length = ws.length ∧ ∀ (i : Nat) a b, vs[i]? = some a → ws[i]? = some b → eq a b = true) := by
  obtain ⟨s, hs, rfl, v⟩ := observed R hc oc
  obtain ⟨t, ht, rfl, v'⟩ := observed R hd od
  have := equalPtr_ok (b := s.blk) (b' := t.blk) eq s.vals t.vals 0 0 h (fun k a e => by rw [Nat.zero_add]; exact v.holds e) (fun k a e => by rw [Nat.zero_add]; exact v'.holds e)
  simp only [Nat.zero_add] at this
  have e1 : equal eq c d h = .ok (decide (s.vals.length = t.vals.length) && (s.vals.zip t.vals).all fun p => eq p.1 p.2, h) := by
    simp only [equal, Prog.bind_app, Vec.begin_ok v, end_ok v, Vec.begin_ok v', end_ok v', Res.bind_ok]; exact this
  refine ⟨_, e1, by simp only [notEqual, Prog.bind_app, e1, Res.bind_ok, Prog.pure_app], ?_⟩
  simp only [Bool.and_eq_true, decide_eq_true_eq, List.all_eq_true]
  refine and_congr_right fun hl => ?_
  constructor
  · intro q i a b ha hb
    refine q (a, b) (List.mem_iff_getElem?.2 ⟨i, ?_⟩)
    rw [List.getElem?_zip_eq_some]; exact ⟨ha, hb⟩
  · intro q x hx
    obtain ⟨i, e⟩ := List.mem_iff_getElem?.1 hx
    rw [List.getElem?_zip_eq_some] at e
    exact q i _ _ e.1 e.2

/-- For a type whose `==` is equality, `a == b` is true exactly if both vectors hold the same sequence. -/
theorem equal_iff_same (eq : T → T → Bool) (he : ∀ a b, eq a b = true ↔ a = b) (R : Reach dv S h) (hc : S.Exists c) (hd : S.Exists d) (oc : Observes h c vs) (od : Observes h d ws) :
    ∃ r, equal eq c d h = .ok (r, h) ∧ (r = true ↔ vs = ws) := by
  obtain ⟨r, q, _, e⟩ := equal_compares eq R hc hd oc od
  refine ⟨r, q, e.trans ?_⟩
  constructor
  · rintro ⟨hl, k⟩
    refine List.ext_getElem? fun i => ?_
    by_cases l : i < vs.length
    · have e1 := List.getElem?_eq_getElem l
      have e2 := List.getElem?_eq_getElem (l := ws) (i := i) (by omega)
      rw [e1, e2, (he _ _).1 (k i _ _ e1 e2)]
    · rw [List.getElem?_eq_none (by omega), List.getElem?_eq_none (by omega)]
  · rintro rfl
    exact ⟨rfl, fun i a b ha hb => (he _ _).2 (by rw [ha] at hb; cases hb; rfl)⟩

/-! ## Returned iterators, independence -/

/-- `insert(pos, n, v)` returns an iterator to the first inserted element (to `pos` if `n = 0`), as an offset from the new `begin()`. -/
theorem insert_returns_new (R : Reach dv S h) (hc : S.Exists c) (o : Observes h c vs) (hi : i ≤ vs.length) (n : Nat) (v : T) :
    ∃ h' S' cap' p', exec dv (.insertN c i n (.ext v)) h = .ok (.it (p' + i), h') ∧ Reach dv S' h' ∧ S'.Exists c ∧
      Shows h' c (vs.take i ++ (List.replicate n v ++ vs.drop i)) cap' p' ∧ OthersKept S h h' [c] := by
  obtain ⟨s, hs, rfl, vc⟩ := observed R hc o
  obtain ⟨h', q, R', o', k⟩ := one_vector (c := c) R (.insertN c i n (.ext v)) ⟨hc, by rw [vals_some hs]; exact hi, trivial, .inl trivial⟩ rfl
  rw [ins_vals, List.append_assoc, get_some hs] at o'
  refine ⟨h', _, _, _, ?_, R', put_exists .., o', k⟩
  rw [q]; simp only [retOf, spec, put_get, get_some hs, ptr_add, Nat.zero_add]

/-- `insert(pos, v)` returns an iterator to the new element. -/
theorem insert_one_returns_new (R : Reach dv S h) (hc : S.Exists c) (o : Observes h c vs) (hi : i ≤ vs.length) (v : T) :
    ∃ h' S' cap' p', exec dv (.insert c i (.ext v)) h = .ok (.it (p' + i), h') ∧ Reach dv S' h' ∧ S'.Exists c ∧
      Shows h' c (vs.take i ++ (v :: vs.drop i)) cap' p' ∧ OthersKept S h h' [c] := by
  obtain ⟨s, hs, rfl, vc⟩ := observed R hc o
  obtain ⟨h', q, R', o', k⟩ := one_vector (c := c) R (.insert c i (.ext v)) ⟨hc, by rw [vals_some hs]; exact hi, trivial, .inl trivial⟩ rfl
  rw [ins_vals, List.append_assoc, get_some hs] at o'
  refine ⟨h', _, _, _, ?_, R', put_exists .., o', k⟩
  rw [q]; simp only [retOf, spec, put_get, get_some hs, ptr_add, Nat.zero_add]

/-- `insert(pos, first, last)` of values outside the vectors returns an iterator to the first inserted element (to `pos` if there is
none). -/
theorem insert_values_returns_new (R : Reach dv S h) (hc : S.Exists c) (o : Observes h c vs) (hi : i ≤ vs.length) (us : List T) :
    ∃ h' S' cap' p', exec dv (.insertRange c i (.vals us)) h = .ok (.it (p' + i), h') ∧ Reach dv S' h' ∧ S'.Exists c ∧
      Shows h' c (vs.take i ++ (us ++ vs.drop i)) cap' p' ∧ OthersKept S h h' [c] := by
  obtain ⟨s, hs, rfl, vc⟩ := observed R hc o
  obtain ⟨h', q, R', o', k⟩ := one_vector (c := c) R (.insertRange c i (.vals us)) ⟨hc, by rw [vals_some hs]; exact hi, trivial, .inl trivial⟩ rfl
  rw [ins_vals, List.append_assoc, get_some hs] at o'
  refine ⟨h', _, _, _, ?_, R', put_exists .., o', k⟩
  rw [q]; simp only [retOf, spec, put_get, get_some hs, ptr_add, Nat.zero_add]

/-- `insert(pos, first, last)` of a range of another vector. -/
theorem insert_range_returns_new (R : Reach dv S h) (hc : S.Exists c) (hd : S.Exists d) (ne : c ≠ d) (o : Observes h c vs) (od : Observes h d ws)
    (hi : i ≤ vs.length) {a b : Nat} (hab : a ≤ b) (hb : b ≤ ws.length) :
    ∃ h' S' cap' p', exec dv (.insertRange c i (.range d a b)) h = .ok (.it (p' + i), h') ∧ Reach dv S' h' ∧ S'.Exists c ∧
      Shows h' c (vs.take i ++ ((ws.drop a).take (b - a) ++ vs.drop i)) cap' p' ∧ OthersKept S h h' [c] := by
  obtain ⟨s, hs, rfl, vc⟩ := observed R hc o
  obtain ⟨t, ht, rfl, vd⟩ := observed R hd od
  obtain ⟨h', q, R', o', k⟩ := one_vector (c := c) R (.insertRange c i (.range d a b))
    ⟨hc, by rw [vals_some hs]; exact hi, ⟨hd, hab, by rw [vals_some ht]; exact hb⟩, .inl fun e => absurd e.symm ne⟩ rfl
  rw [ins_vals, List.append_assoc, get_some hs] at o'
  simp only [CSrc.vals', vals_some ht] at o'
  refine ⟨h', _, _, _, ?_, R', put_exists .., o', k⟩
  rw [q]; simp only [retOf, spec, put_get, get_some hs, ptr_add, Nat.zero_add, CSrc.vals', vals_some ht]

/-- `erase(pos)` returns the position of the element that followed, and moves nothing before it. -/
theorem erase_one_returns_next (R : Reach dv S h) (hc : S.Exists c) (o : Shows h c vs cap p) (hi : i < vs.length) :
    ∃ h' S', exec dv (.erase c i) h = .ok (.it (p + i), h') ∧ Reach dv S' h' ∧ S'.Exists c ∧ Shows h' c (vs.take i ++ vs.drop (i + 1)) cap p ∧
      (∀ v, vs[i + 1]? = some v → read (p + i) h' = .ok (v, h')) ∧ OthersKept S h h' [c] := by
  obtain ⟨b, rfl, hs, vc⟩ := shown' R hc o
  obtain ⟨h', q, R', o', k⟩ := one_vector (c := c) R (.erase c i) ⟨hc, by rw [vals_some hs]; exact hi⟩ rfl
  simp only [get_some hs, vals_some hs, VS.become] at o' R'
  refine ⟨h', _, ?_, R', put_exists .., o', ?_, k⟩
  · rw [q]; simp only [retOf, get_some hs, ptr_add, Nat.zero_add]
  · intro v e
    have v' := R'.world.vec c _ (put_same ..)
    have := v'.holds (k := i) (a := v) (by
      show (vs.take i ++ vs.drop (i + 1))[i]? = some v
      rw [List.getElem?_append_right (by simp; omega), List.getElem?_drop]
      simp only [List.length_take, show min i vs.length = i by omega, Nat.sub_self, Nat.add_zero]; exact e)
    simp only [ptr_add, Nat.zero_add]; exact this.read

/-- `erase(first, last)` of a non-empty range returns the position of the element that followed the range, and moves nothing before it. -/
theorem erase_returns_next (R : Reach dv S h) (hc : S.Exists c) (o : Shows h c vs cap p) (hij : i < j) (hj : j ≤ vs.length) :
    ∃ h' S', exec dv (.eraseRange c i j) h = .ok (.it (p + i), h') ∧ Reach dv S' h' ∧ S'.Exists c ∧ Shows h' c (vs.take i ++ vs.drop j) cap p ∧
      (∀ v, vs[j]? = some v → read (p + i) h' = .ok (v, h')) ∧ OthersKept S h h' [c] := by
  obtain ⟨b, rfl, hs, vc⟩ := shown' R hc o
  obtain ⟨h', q, R', o', k⟩ := one_vector (c := c) R (.eraseRange c i j) ⟨hc, by omega, by rw [vals_some hs]; exact hj, by omega⟩ rfl
  simp only [get_some hs, vals_some hs, VS.become] at o' R'
  refine ⟨h', _, ?_, R', put_exists .., o', ?_, k⟩
  · rw [q]; simp only [retOf, get_some hs, ptr_add, Nat.zero_add]
  · intro v e
    have v' := R'.world.vec c _ (put_same ..)
    have := v'.holds (k := i) (a := v) (by
      show (vs.take i ++ vs.drop j)[i]? = some v
      rw [List.getElem?_append_right (by simp; omega), List.getElem?_drop]
      simp only [List.length_take, show min i vs.length = i by omega, Nat.sub_self, Nat.add_zero]; exact e)
    simp only [ptr_add, Nat.zero_add]; exact this.read

/-- The vectors a call may change. -/
def touched : Call T → List Nat
  | .create | .ctor _ | .ctorN _ _ | .copyOf _ | .ctorRange _ => []
  | .destroy c | .assign c _ | .assignN c _ _ | .assignRange c _ | .resize c _ | .resizeX c _ _ | .reserve c _ | .insert c _ _ | .insertN c _ _ _
  | .insertRange c _ _ | .pushBack c _ | .popBack c | .erase c _ | .eraseRange c _ _ | .clear c | .store c _ _ => [c]
  | .swap c d => [c, d]

/-- **Vectors are independent.** No call on one vector changes, moves or destroys another one, even if elements of that other one are the arguments. -/
theorem independent (R : Reach dv S h) (k : Call T) (lg : Legal S k) :
    ∃ r h' S', exec dv k h = .ok (r, h') ∧ Reach dv S' h' ∧ OthersKept S h h' (touched k) ∧ ∀ d, d ∉ touched k → S.Exists d → S'.Exists d := by
  obtain ⟨h', q, R'⟩ := call_returns R k lg
  have nf : ∀ d, S.Exists d → d ≠ h.fresh := by
    rintro d ⟨s, hs⟩ rfl; have := (R.world.vec _ s hs).obj_lt R.world.base; omega
  have same : ∀ d, d ∉ touched k → S.Exists d → spec dv S h.fresh k d = S d := by
    intro d hd hx
    have := nf d hx
    have dl : ∀ c, d ≠ c → S.del c d = S d := by intro c q; simp [State.del, q]
    have im : ∀ (P : Prop) [Decidable P] (A B : State T), A d = S d → B d = S d → (if P then A else B) d = S d := by
      intro P _ A B ha hb; by_cases q : P
      · rw [if_pos q]; exact ha
      · rw [if_neg q]; exact hb
    cases k <;> simp only [touched, List.mem_cons, List.not_mem_nil, or_false, not_false_eq_true, not_or] at hd
    case resize c n => exact im _ _ _ (put_other _ hd _) (put_other _ hd _)
    case resizeX c n a => exact im _ _ _ (put_other _ hd _) (put_other _ hd _)
    case store c i a =>
      show (match a.val S with | some v => S.put c ((S.get c).become ((S.vals c).set i v)) | none => S) d = S d
      cases a.val S with
      | none => rfl
      | some v => exact put_other _ hd _
    case swap c d' => exact (put_other _ hd.2 _).trans (put_other _ hd.1 _)
    case destroy c => exact dl c hd
    all_goals first | exact put_other _ hd _ | exact put_other _ this _
  refine ⟨_, h', _, q, R', kept_of R R'.world same, ?_⟩
  intro d hd hx
  obtain ⟨s, hs⟩ := hx
  exact ⟨s, (same d hd ⟨s, hs⟩).trans hs⟩

/-! ## Concrete cases

Two vectors: one with the elements 5, 6, 7, 8 and room for ten, and a full one with the elements 1, 2. -/

theorem demo : ∃ (c d : Nat) (S : State Nat) (h : Mem Nat) (p q : Ptr), Reach 0 S h ∧ S.Exists c ∧ S.Exists d ∧ c ≠ d ∧ Shows h c [5, 6, 7, 8] 10 p ∧ Shows h d [1, 2] 2 q := by
  obtain ⟨c, h1, S1, p1, _, _, R1, x1, o1, _⟩ := construct_from_values (dv := 0) Reach.start [5, 6, 7, 8]
  obtain ⟨d, h2, S2, p2, _, nd, R2, x2, o2, k2, y2⟩ := construct_from_values (dv := 0) R1 [1, 2]
  have ne : c ≠ d := by rintro rfl; exact nd x1
  obtain ⟨h3, S3, p3, _, R3, x3, o3, k3, _⟩ := reserve_contract R2 (y2 c x1) (k2 c (by simp) x1 _ _ _ o1) 10
  have o3' : Shows h3 c [5, 6, 7, 8] 10 p3 := by simpa using o3
  have o4 : Shows h3 d [1, 2] 2 p2 := k3 d (by simpa using Ne.symm ne) x2 _ _ _ o2
  have hd : S3.Exists d := by
    cases g : S3 d with
    | some s => exact ⟨s, g⟩
    | none =>
      have := R3.world.only d g
      have t := o4.capacity
      simp [capacity, getObj, this] at t
  exact ⟨c, d, S3, h3, p3, p2, R3, x3, hd, ne, o3', o4⟩

/-- `v.erase(v.begin() + 2, v.begin() + 2)` -/
example : ∃ (c : Nat) (h : Mem Nat), Observes h c [5, 6, 7, 8] ∧ exec 0 (.eraseRange c 2 2) h = .ub .lifetime := by
  obtain ⟨c, d, S, h, p, q, R, hc, hd, ne, oc, od⟩ := demo
  exact ⟨c, h, oc.toObserves, erase_empty_range_ub R hc oc.toObserves (by decide)⟩
/-- `v.insert(v.begin(), v[0])` with room -/
example : ∃ (c : Nat) (h : Mem Nat), Observes h c [5, 6, 7, 8] ∧ exec 0 (.insertN c 0 1 (.elem c 0)) h = .ub .lifetime := by
  obtain ⟨c, d, S, h, p, q, R, hc, hd, ne, oc, od⟩ := demo
  exact ⟨c, h, oc.toObserves, insert_own_element_ub R hc oc (by decide) (by decide) (by decide) (by decide)⟩
/-- `v.insert(v.begin(), v[3])` with room inserts `v[2]` -/
example : ∃ (c : Nat) (h h' : Mem Nat) (r : Ret), Observes h c [5, 6, 7, 8] ∧ exec 0 (.insertN c 0 1 (.elem c 3)) h = .ok (r, h') ∧ Observes h' c [7, 5, 6, 7, 8] := by
  obtain ⟨c, d, S, h, p, q, R, hc, hd, ne, oc, od⟩ := demo
  obtain ⟨h', e, o⟩ := insert_own_element_wrong (n := 1) (i := 0) (a := 3) (w := 7) R hc oc (by decide) (by decide) (by decide) (by decide) rfl
  exact ⟨c, h, h', _, oc.toObserves, e, o.toObserves⟩
/-- `v.insert(v.begin() + 3, 2, v[1])` with room, `w.insert(w.begin(), w[1])` without room, `w.push_back(w[0])`, `w.assign(3, v[2])`, `w = v` are right. -/
example : ∃ (c d : Nat) (h : Mem Nat), Observes h c [5, 6, 7, 8] ∧ Observes h d [1, 2] ∧ 
    (∃ r h', exec 0 (.insertN c 3 2 (.elem c 1)) h = .ok (r, h') ∧ Observes h' c [5, 6, 7, 6, 6, 8]) ∧
    (∃ r h', exec 0 (.insertN d 0 1 (.elem d 1)) h = .ok (r, h') ∧ Observes h' d [2, 1, 2]) ∧
    (∃ r h', exec 0 (.pushBack d (.elem d 0)) h = .ok (r, h') ∧ Observes h' d [1, 2, 1]) ∧
    (∃ r h', exec 0 (.assignN d 3 (.elem c 2)) h = .ok (r, h') ∧ Observes h' d [7, 7, 7]) ∧
    (∃ r h', exec 0 (.assign d c) h = .ok (r, h') ∧ Observes h' d [5, 6, 7, 8]) ∧
    (∃ f, exec 0 (.assignN c 3 (.elem c 2)) h = .ub f) ∧ (∃ f, exec 0 (.assignRange c (.range c 0 4)) h = .ub f) ∧
    exec 0 (.insertRange c 0 (.range c 1 3)) h = .ub .lifetime := by
  obtain ⟨c, d, S, h, p, q, R, hc, hd, ne, oc, od⟩ := demo
  refine ⟨c, d, h, oc.toObserves, od.toObserves, ?_, ?_, ?_, ?_, ?_, ?_, ?_, ?_⟩
  · obtain ⟨h', S', p', e, _, _, _, o⟩ := insert_element_partial (a := 1) (v := 6) (i := 3) (n := 2) R hc hc oc oc.toObserves rfl (by decide) (.inr (.inl (by decide)))
    exact ⟨_, h', e, o.toObserves⟩
  · obtain ⟨h', S', p', e, _, _, _, o⟩ := insert_element_partial (a := 1) (v := 2) (i := 0) (n := 1) R hd hd od od.toObserves rfl (by decide) (.inr (.inr (.inl (by decide))))
    exact ⟨_, h', e, o.toObserves⟩
  · obtain ⟨h', S', e, _, _, o, _⟩ := push_back_element (a := 0) (v := 1) R hd hd od.toObserves od.toObserves rfl
    exact ⟨_, h', e, o⟩
  · obtain ⟨h', S', e, _, _, o, _⟩ := assign_n_partial (a := 2) (v := 7) R hd hc (Ne.symm ne) oc.toObserves rfl 3
    exact ⟨_, h', e, o⟩
  · obtain ⟨h', S', p', e, _, _, o, _⟩ := assign_copies_partial R hd hc (Ne.symm ne) od oc
    exact ⟨_, h', e, o.toObserves⟩
  · exact assign_n_own_element_ub R hc oc.toObserves (by decide) (by decide)
  · exact assign_own_range_ub R hc oc.toObserves (by decide) (by decide)
  · exact insert_own_range_ub R hc oc (by decide) (by decide) (by decide) (by decide) (by decide)

end Verif.Vec.VecProps
