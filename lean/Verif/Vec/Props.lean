import Verif.Vec.Step
/-!
# Properties of `ttl::vector`

`Reach dv S h`: memory `h` is the result of some client program over any number of vectors (`Verif.Vec.Api`), and `S` says which vectors exist.
What the theorems say about contents is said with client-side observations of `h`: `Observes h c vs` means that iterating from `begin()` to
`end()`, `size()`, `empty()`, `operator[]`, `front()` and `back()` of `c` all answer according to the sequence `vs`; `Shows h c vs cap p` adds
`capacity()` and the address `begin()`.
-/
set_option linter.unusedVariables false
set_option linter.unusedSimpArgs false
namespace Verif.Vec.VecProps
open Verif Verif.Vec
variable {T : Type} {h h' : Mem T} {S : State T} {c d n i j k : Nat} {s t : VS T} {vs ws us : List T} {dv : T} {p q : Ptr} {cap cap' : Nat}

/-- Every observer of the contents of `c` answers according to `vs`. -/
structure Observes (h : Mem T) (c : Nat) (vs : List T) : Prop where
  forward : toList c h = .ok (vs, h)
  size : size c h = .ok (vs.length, h)
  empty : empty c h = .ok (vs.isEmpty, h)
  index : ∀ i v, vs[i]? = some v → (do read (← at_ c i) : Prog (Mem T) T) h = .ok (v, h)
  front : ∀ v, vs.head? = some v → (do read (← front c) : Prog (Mem T) T) h = .ok (v, h)
  back : ∀ v, vs.getLast? = some v → (do read (← back c) : Prog (Mem T) T) h = .ok (v, h)

/-- The same, with `capacity()` and the address of the first element. -/
structure Shows (h : Mem T) (c : Nat) (vs : List T) (cap : Nat) (p : Ptr) : Prop extends Observes h c vs where
  capacity : capacity c h = .ok (cap, h)
  begin_ : begin_ c h = .ok (p, h)

/-- Every vector other than those in `L` answers all observers as before, and its elements have not moved. -/
def OthersKept (S : State T) (h h' : Mem T) (L : List Nat) : Prop :=
  ∀ d, d ∉ L → S.Exists d → ∀ vs cap p, Shows h d vs cap p → Shows h' d vs cap p

theorem isVec_observes (v : IsVec h c s) : Observes h c s.vals := by
  refine ⟨?_, size_ok v, empty_ok v, ?_, ?_, ?_⟩
  · have := walk_ok (b := s.blk) (i := 0) s.vals 0 h (fun k a e => by rw [Nat.zero_add]; exact v.holds e)
    rw [Nat.zero_add] at this
    simp only [toList, Prog.bind_app, Vec.begin_ok v, end_ok v, Res.bind_ok, this]
  · intro i a e
    simp only [Prog.bind_app, at_ok v, Res.bind_ok, (v.holds e).read]
  · intro a e
    have : s.vals[0]? = some a := by rwa [List.head?_eq_getElem?] at e
    simp only [Vec.front, Prog.bind_app, Vec.begin_ok v, Res.bind_ok, (v.holds this).read]
  · intro a e
    have : s.vals[s.vals.length - 1]? = some a := by rwa [List.getLast?_eq_getElem?] at e
    have ne : s.vals ≠ [] := by intro q; rw [q] at e; cases e
    simp only [Prog.bind_app, back_ok v ne, Res.bind_ok, (v.holds this).read]

theorem isVec_shows (v : IsVec h c s) : Shows h c s.vals s.cap ⟨s.blk, 0⟩ :=
  ⟨isVec_observes v, capacity_ok v, Vec.begin_ok v⟩

theorem Observes.inj (a : Observes h c vs) (b : Observes h c ws) : vs = ws := by
  have := a.forward.symm.trans b.forward; cases this; rfl

/-- Every vector that exists answers all observers according to one sequence of elements. -/
theorem reach_observes (R : Reach dv S h) (hc : S.Exists c) : Observes h c (S.vals c) := by
  obtain ⟨s, hs⟩ := hc
  rw [vals_some hs]; exact isVec_observes (R.world.vec c s hs)

theorem reach_shows (R : Reach dv S h) (hc : S.Exists c) : Shows h c (S.vals c) (S.get c).cap ⟨(S.get c).blk, 0⟩ := by
  obtain ⟨s, hs⟩ := hc
  rw [vals_some hs, get_some hs]; exact isVec_shows (R.world.vec c s hs)

theorem observed (R : Reach dv S h) (hc : S.Exists c) (o : Observes h c vs) : ∃ s, S c = some s ∧ s.vals = vs ∧ IsVec h c s := by
  obtain ⟨s, hs⟩ := hc
  have v := R.world.vec c s hs
  exact ⟨s, hs, (isVec_observes v).inj o, v⟩

theorem shown (R : Reach dv S h) (hc : S.Exists c) (o : Shows h c vs cap p) : S c = some ⟨vs, cap, p.blk⟩ ∧ p.off = 0 := by
  obtain ⟨s, hs, e, v⟩ := observed R hc o.toObserves
  have e1 := (capacity_ok v).symm.trans o.capacity
  have e2 := (Vec.begin_ok v).symm.trans o.begin_
  cases e1; cases e2; subst e
  exact ⟨hs, rfl⟩

theorem kept_of {S' : State T} {L : List Nat} (R : Reach dv S h) (W' : World h' S') (e : ∀ d, d ∉ L → S.Exists d → S' d = S d) : OthersKept S h h' L := by
  intro d hd hx vs cap p o
  obtain ⟨q, hp⟩ := shown R hx o
  have := isVec_shows (W'.vec d _ ((e d hd hx).trans q))
  obtain ⟨b, f⟩ := p
  simp only at hp; subst hp; exact this

theorem OthersKept.trans {S' : State T} {h'' : Mem T} {L : List Nat} (a : OthersKept S h h' L) (b : OthersKept S' h' h'' L) (e : ∀ d, d ∉ L → S.Exists d → S'.Exists d) :
    OthersKept S h h'' L := fun d hd hx vs cap p o => b d hd (e d hd hx) vs cap p (a d hd hx vs cap p o)

theorem put_exists_other (S : State T) {c d : Nat} (s : VS T) (hd : S.Exists d) : (S.put c s).Exists d := by
  by_cases q : d = c
  · subst q; exact put_exists _ _ _
  · obtain ⟨t, e⟩ := hd; exact ⟨t, by rw [put_other S q]; exact e⟩

/-- Every legal call returns normally, in a reachable memory again. -/
theorem call_returns (R : Reach dv S h) (k : Call T) (lg : Legal S k) :
    ∃ h', exec dv k h = .ok (retOf dv S h.fresh k, h') ∧ Reach dv (spec dv S h.fresh k) h' := by
  obtain ⟨h', q, _, _⟩ := step_ok (dv := dv) R.world k lg
  exact ⟨h', q, .step k R lg q⟩

/-- A call that only changes the vector `c`. -/
theorem one_vector (R : Reach dv S h) (k : Call T) (lg : Legal S k) (hk : spec dv S h.fresh k = S.put c t) :
    ∃ h', exec dv k h = .ok (retOf dv S h.fresh k, h') ∧ Reach dv (S.put c t) h' ∧ Shows h' c t.vals t.cap ⟨t.blk, 0⟩ ∧ OthersKept S h h' [c] := by
  obtain ⟨h', q, R'⟩ := call_returns R k lg
  rw [hk] at R'
  refine ⟨h', q, R', isVec_shows (R'.world.vec c t (put_same ..)), kept_of R R'.world ?_⟩
  intro d hd _; exact put_other _ (by simpa using hd) _

/-! ## C35: histories of one vector -/

/-- The operations of a history; positions are indices, arguments do not belong to a vector. -/
inductive Op (T : Type) where
  | pushBack (v : T)
  | popBack
  | insert (i : Nat) (v : T)
  | insertN (i n : Nat) (v : T)
  | insertRange (i : Nat) (vs : List T)
  | erase (i : Nat)
  | eraseRange (i j : Nat)
  | resize (n : Nat)
  | resizeX (n : Nat) (v : T)
  | assignN (n : Nat) (v : T)
  | assignRange (vs : List T)
  | clear
  | reserve (n : Nat)
  | store (i : Nat) (v : T)

/-- The same operation on a mathematical sequence. -/
def Op.apply (dv : T) : Op T → List T → List T
  | .pushBack v, vs => vs ++ [v]
  | .popBack, vs => vs.dropLast
  | .insert i v, vs => vs.take i ++ v :: vs.drop i
  | .insertN i n v, vs => vs.take i ++ (List.replicate n v ++ vs.drop i)
  | .insertRange i ws, vs => vs.take i ++ (ws ++ vs.drop i)
  | .erase i, vs => vs.take i ++ vs.drop (i + 1)
  | .eraseRange i j, vs => vs.take i ++ vs.drop j
  | .resize n, vs => vs.take n ++ List.replicate (n - vs.length) dv
  | .resizeX n v, vs => vs.take n ++ List.replicate (n - vs.length) v
  | .assignN n v, _ => List.replicate n v
  | .assignRange ws, _ => ws
  | .clear, _ => []
  | .reserve _, vs => vs
  | .store i v, vs => vs.set i v

/-- Its precondition: positions lie in the vector, erased ranges are not empty. -/
def Op.Pre : Op T → List T → Prop
  | .popBack, vs => vs ≠ []
  | .insert i _, vs => i ≤ vs.length
  | .insertN i _ _, vs => i ≤ vs.length
  | .insertRange i _, vs => i ≤ vs.length
  | .erase i, vs => i < vs.length
  | .eraseRange i j, vs => i < j ∧ j ≤ vs.length
  | .store i _, vs => i < vs.length
  | _, _ => True

/-- The operation on the vector `c`. -/
def Op.call (c : Nat) : Op T → Call T
  | .pushBack v => .pushBack c (.ext v)
  | .popBack => .popBack c
  | .insert i v => .insert c i (.ext v)
  | .insertN i n v => .insertN c i n (.ext v)
  | .insertRange i vs => .insertRange c i (.vals vs)
  | .erase i => .erase c i
  | .eraseRange i j => .eraseRange c i j
  | .resize n => .resize c n
  | .resizeX n v => .resizeX c n (.ext v)
  | .assignN n v => .assignN c n (.ext v)
  | .assignRange vs => .assignRange c (.vals vs)
  | .clear => .clear c
  | .reserve n => .reserve c n
  | .store i v => .store c i (.ext v)

/-- Every operation of the history meets its precondition. -/
def OpsOk (dv : T) : List (Op T) → List T → Prop
  | [], _ => True
  | o :: os, vs => o.Pre vs ∧ OpsOk dv os (o.apply dv vs)

/-- The history applied to a mathematical sequence. -/
def applyOps (dv : T) (os : List (Op T)) (vs : List T) : List T := os.foldl (fun vs o => o.apply dv vs) vs

/-- The history on the vector `c`. -/
def runOps (dv : T) (c : Nat) : List (Op T) → Prog (Mem T) Unit
  | [] => pure ()
  | o :: os => do let _ ← exec dv (o.call c); runOps dv c os

/-- The operation may move the elements although they would fit: `reserve(n)` and `assign(n, v)` for `n ≥ capacity()`. -/
def Op.Reserves : Op T → Prop
  | .reserve _ | .assignN _ _ => True
  | _ => False

theorem ins_vals (s : VS T) (f i : Nat) (ws : List T) : (s.ins f i ws).vals = s.vals.take i ++ ws ++ s.vals.drop i := by
  simp only [VS.ins]; split
  · rename_i e; subst e; simp
  · split <;> rfl
theorem ins_cap_le (s : VS T) (f i : Nat) (ws : List T) (q : s.vals.length + ws.length ≤ s.cap) : (s.ins f i ws).cap = s.cap ∧ (s.ins f i ws).blk = s.blk := by
  simp only [VS.ins, show ¬ s.cap < s.vals.length + ws.length by omega, if_false]; split <;> exact ⟨rfl, rfl⟩
theorem ins_cap_ge (s : VS T) (f i : Nat) (ws : List T) : s.cap ≤ (s.ins f i ws).cap := by
  simp only [VS.ins]; split
  · exact Nat.le_refl _
  · split
    · simp only; omega
    · exact Nat.le_refl _
theorem pushes_vals (s : VS T) (f : Nat) (ws : List T) : (s.pushes f ws).vals = s.vals ++ ws := by
  simp only [VS.pushes]; split <;> rfl
theorem pushes_cap_le (s : VS T) (f : Nat) (ws : List T) (q : s.vals.length + ws.length ≤ s.cap) : (s.pushes f ws).cap = s.cap ∧ (s.pushes f ws).blk = s.blk := by
  unfold VS.pushes; rw [if_neg (show ¬ s.cap < s.vals.length + ws.length by omega)]; exact ⟨rfl, rfl⟩
theorem pushes_cap_ge (s : VS T) (f : Nat) (ws : List T) : s.cap ≤ (s.pushes f ws).cap := by
  simp only [VS.pushes]; split
  · simp only; omega
  · exact Nat.le_refl _
theorem reserve_vals (s : VS T) (f n : Nat) : (s.reserve f n).vals = s.vals := by simp only [VS.reserve]; split <;> rfl
theorem reserve_cap (s : VS T) (f n : Nat) : (s.reserve f n).cap = max s.cap n := by
  simp only [VS.reserve]; split
  · omega
  · show n = max s.cap n; omega

theorem spec_op (hc : S c = some s) (f : Nat) (o : Op T) :
    ∃ t, spec dv S f (o.call c) = S.put c t ∧ t.vals = o.apply dv s.vals ∧ s.cap ≤ t.cap ∧
      (¬ o.Reserves → (o.apply dv s.vals).length ≤ s.cap → t.cap = s.cap ∧ t.blk = s.blk) := by
  have hg := get_some hc
  have hv := vals_some hc
  have cp : ∀ n (v : T), S.copies n (.ext v) = List.replicate n v := fun _ _ => rfl
  cases o with
  | pushBack v =>
    refine ⟨_, rfl, ?_, ?_, ?_⟩ <;> rw [hg, hv, cp]
    · rw [ins_vals]; simp [Op.apply]
    · exact ins_cap_ge _ _ _ _
    · intro _ q; exact ins_cap_le _ _ _ _ (by simpa [Op.apply] using q)
  | popBack => exact ⟨_, rfl, by rw [hg, hv]; rfl, by rw [hg]; exact Nat.le_refl _, fun _ _ => by rw [hg]; exact ⟨rfl, rfl⟩⟩
  | insert i v =>
    refine ⟨_, rfl, ?_, ?_, ?_⟩ <;> rw [hg, cp]
    · rw [ins_vals]; simp [Op.apply]
    · exact ins_cap_ge _ _ _ _
    · intro _ q; exact ins_cap_le _ _ _ _ (by simp [Op.apply] at q ⊢; omega)
  | insertN i n v =>
    refine ⟨_, rfl, ?_, ?_, ?_⟩ <;> rw [hg, cp]
    · rw [ins_vals]; simp [Op.apply]
    · exact ins_cap_ge _ _ _ _
    · intro _ q; exact ins_cap_le _ _ _ _ (by simp [Op.apply] at q ⊢; omega)
  | insertRange i ws =>
    refine ⟨_, rfl, ?_, ?_, ?_⟩ <;> rw [hg]
    · rw [ins_vals]; simp [Op.apply, CSrc.vals']
    · exact ins_cap_ge _ _ _ _
    · intro _ q; exact ins_cap_le _ _ _ _ (by simp [Op.apply, CSrc.vals'] at q ⊢; omega)
  | erase i => exact ⟨_, rfl, by rw [hg, hv]; rfl, by rw [hg]; exact Nat.le_refl _, fun _ _ => by rw [hg]; exact ⟨rfl, rfl⟩⟩
  | eraseRange i j => exact ⟨_, rfl, by rw [hg, hv]; rfl, by rw [hg]; exact Nat.le_refl _, fun _ _ => by rw [hg]; exact ⟨rfl, rfl⟩⟩
  | resize n =>
    simp only [Op.call, spec, hg, hv]
    split
    · rename_i q
      exact ⟨_, rfl, by simp [VS.become, Op.apply, Nat.sub_eq_zero_of_le (Nat.le_of_lt q)], Nat.le_refl _, fun _ _ => ⟨rfl, rfl⟩⟩
    · rename_i q
      refine ⟨_, rfl, ?_, ins_cap_ge _ _ _ _, ?_⟩
      · rw [ins_vals]; simp [Op.apply, List.take_of_length_le (Nat.not_lt.1 q)]
      · intro _ k; exact ins_cap_le _ _ _ _ (by simp [Op.apply] at k ⊢; omega)
  | resizeX n v =>
    simp only [Op.call, spec, hg, hv, cp]
    split
    · rename_i q
      exact ⟨_, rfl, by simp [VS.become, Op.apply, Nat.sub_eq_zero_of_le (Nat.le_of_lt q)], Nat.le_refl _, fun _ _ => ⟨rfl, rfl⟩⟩
    · rename_i q
      refine ⟨_, rfl, ?_, ins_cap_ge _ _ _ _, ?_⟩
      · rw [ins_vals]; simp [Op.apply, List.take_of_length_le (Nat.not_lt.1 q)]
      · intro _ k; exact ins_cap_le _ _ _ _ (by simp [Op.apply] at k ⊢; omega)
  | assignN n v =>
    refine ⟨_, rfl, by rw [cp]; rfl, ?_, fun k => absurd trivial k⟩
    rw [hg]; show s.cap ≤ (VS.reserve _ _ _).cap; rw [reserve_cap]; exact Nat.le_max_left _ _
  | assignRange ws =>
    refine ⟨_, rfl, ?_, ?_, ?_⟩ <;> rw [hg]
    · rw [pushes_vals]; rfl
    · exact pushes_cap_ge (s.become []) _ _
    · intro _ q; exact pushes_cap_le (s.become []) _ _ (by simpa [VS.become, Op.apply, CSrc.vals'] using q)
  | clear => exact ⟨_, rfl, rfl, by rw [hg]; exact Nat.le_refl _, fun _ _ => by rw [hg]; exact ⟨rfl, rfl⟩⟩
  | reserve n =>
    refine ⟨_, rfl, by rw [hg, reserve_vals]; rfl, ?_, fun k => absurd trivial k⟩
    rw [hg, reserve_cap]; exact Nat.le_max_left _ _
  | store i v => exact ⟨_, rfl, by rw [hg, hv]; rfl, by rw [hg]; exact Nat.le_refl _, fun _ _ => by rw [hg]; exact ⟨rfl, rfl⟩⟩

theorem op_legal (hc : S c = some s) (o : Op T) (ok : o.Pre s.vals) : Legal S (o.call c) := by
  have hx : S.Exists c := ⟨_, hc⟩
  have hv := vals_some hc
  cases o <;> simp only [Op.call, Legal, hv, CArg.Valid, CArg.Before, CArg.Outside, CSrc.Valid, CSrc.Before, CSrc.Outside] <;> simp only [Op.Pre] at ok
  case eraseRange i j => exact ⟨hx, by omega, ok.2, by omega⟩
  all_goals simp_all

/-- Capacity is enough for the whole history, and the history contains no `reserve` and no `assign(n, v)`. -/
def Fits (dv : T) (cap : Nat) : List (Op T) → List T → Prop
  | [], _ => True
  | o :: os, vs => ¬ o.Reserves ∧ (o.apply dv vs).length ≤ cap ∧ Fits dv cap os (o.apply dv vs)

theorem history : ∀ (os : List (Op T)) {h : Mem T} {S : State T} {s : VS T}, Reach dv S h → S c = some s → OpsOk dv os s.vals →
    ∃ h' t, runOps dv c os h = .ok ((), h') ∧ Reach dv (S.put c t) h' ∧ t.vals = applyOps dv os s.vals ∧ OthersKept S h h' [c] ∧ s.cap ≤ t.cap ∧
      (Fits dv s.cap os s.vals → t.cap = s.cap ∧ t.blk = s.blk)
  | [], h, S, s, R, hc, ok => ⟨h, s, rfl, by rw [put_self hc]; exact R, rfl, fun _ _ _ _ _ _ o => o, Nat.le_refl _, fun _ => ⟨rfl, rfl⟩⟩
  | o :: os, h, S, s, R, hc, ok => by
    obtain ⟨t1, e1, v1, l1, f1⟩ := spec_op (dv := dv) hc h.fresh o
    obtain ⟨h1, q1, R1, _, k1⟩ := one_vector R _ (op_legal hc o ok.1) e1
    obtain ⟨h', t, q, R', e, k, l, f⟩ := history os R1 (put_same S c t1) (by rw [v1]; exact ok.2)
    rw [put_put] at R'
    refine ⟨h', t, ?_, R', ?_, k1.trans k fun d _ hx => put_exists_other _ _ hx, by omega, ?_⟩
    · simp only [runOps, Prog.bind_app, q1, Res.bind_ok, q]
    · rw [e, v1]; rfl
    · intro ⟨a1, a2, a3⟩
      obtain ⟨b1, b2⟩ := f1 a1 a2
      obtain ⟨b3, b4⟩ := f (by rw [b1, v1]; exact a3)
      exact ⟨b3.trans b1, b4.trans b2⟩

/-- **C35.** Any history of operations on a vector, in any reachable memory, that meets the preconditions returns normally, and afterwards all
observers agree with the same history on a mathematical sequence; no other vector has changed or moved. -/
theorem vector_history (os : List (Op T)) (R : Reach dv S h) (hc : S.Exists c) (ob : Observes h c vs) (ok : OpsOk dv os vs) :
    ∃ h' S', runOps dv c os h = .ok ((), h') ∧ Reach dv S' h' ∧ S'.Exists c ∧ Observes h' c (applyOps dv os vs) ∧ OthersKept S h h' [c] ∧
      ∀ d, S.Exists d → S'.Exists d := by
  obtain ⟨s, hs, e, v⟩ := observed R hc ob
  subst e
  obtain ⟨h', t, q, R', e, k, _⟩ := history os R hs ok
  refine ⟨h', _, q, R', put_exists _ _ _, ?_, k, fun d hd => put_exists_other _ _ hd⟩
  rw [← e]; exact isVec_observes (R'.world.vec c t (put_same ..))

/-- C35 from scratch: a new vector with any such history behaves as the mathematical sequence that starts empty. -/
theorem new_vector_history (os : List (Op T)) (ok : OpsOk dv os []) :
    ∃ h', (do let c ← create; runOps dv c os; pure c : Prog (Mem T) Nat) empty₀ = .ok (1, h') ∧ Observes h' 1 (applyOps dv os []) := by
  obtain ⟨h1, q1, R1, o1, _⟩ := one_vector (dv := dv) (c := 1) (t := ⟨[], 0, 0⟩) (Reach.start (T := T)) .create trivial rfl
  obtain ⟨h', S', q, _, _, ob, _⟩ := vector_history os R1 (put_exists ..) o1.toObserves ok
  refine ⟨h', ?_, ob⟩
  have q1' : create (empty₀ : Mem T) = .ok (1, h1) := by
    simp only [exec, create_ok, Prog.bind_app, Res.bind_ok, Prog.pure_app] at q1; cases q1; rfl
  simp only [Prog.bind_app, q1', Res.bind_ok, q, Prog.pure_app]

/-- A history that grows the vector, with and without a move, in the middle and at the ends, and shrinks it again. -/
example : ∃ h', (do let c ← create; runOps 0 c [.pushBack 1, .insertRange 0 [2, 3], .reserve 10, .insertN 1 2 9, .insert 5 7, .erase 0, .eraseRange 1 3, .resize 5, .store 1 4, .popBack]; pure c : Prog (Mem Nat) Nat) empty₀ = .ok (1, h') ∧ Observes h' 1 [9, 4, 7, 0] :=
  new_vector_history (dv := 0) _ (by simp [OpsOk, Op.Pre, Op.apply])

/-! ## C39: reserve and capacity -/

/-- **C39.** `reserve(n)` never changes the contents, and leaves `capacity()` at least `n` (exactly `max(n, capacity())`). -/
theorem reserve_contract (R : Reach dv S h) (hc : S.Exists c) (ob : Shows h c vs cap p) (n : Nat) :
    ∃ h' S' p', reserve c n h = .ok ((), h') ∧ Reach dv S' h' ∧ S'.Exists c ∧ Shows h' c vs (max cap n) p' ∧ OthersKept S h h' [c] ∧ (n < cap → p' = p) := by
  obtain ⟨hs, hp⟩ := shown R hc ob
  have hg := get_some hs
  obtain ⟨h', q, R', o', k⟩ := one_vector (c := c) (t := (S.get c).reserve h.fresh n) R (.reserve c n) hc rfl
  have q' : reserve c n h = .ok ((), h') := by
    simp only [exec, Prog.bind_app] at q
    cases g : reserve c n h with
    | ok x => obtain ⟨⟨⟩, x⟩ := x; rw [g] at q; simp only [Res.bind_ok, Prog.pure_app] at q; cases q; rfl
    | ub f => rw [g] at q; cases q
    | diverge => rw [g] at q; cases q
  rw [hg, reserve_vals, reserve_cap] at o'
  refine ⟨h', _, _, q', R', put_exists .., o', k, ?_⟩
  intro lt
  obtain ⟨b, f⟩ := p
  simp only at hp; subst hp
  simp [VS.reserve, lt]

/-- **C39.** Any history whose sizes stay within the capacity (and that calls neither `reserve` nor `assign(n, v)`) keeps the capacity and the
address of the first element: nothing is reallocated. -/
theorem fits_no_reallocation (os : List (Op T)) (R : Reach dv S h) (hc : S.Exists c) (ob : Shows h c vs cap p) (ok : OpsOk dv os vs) (fit : Fits dv cap os vs) :
    ∃ h' S', runOps dv c os h = .ok ((), h') ∧ Reach dv S' h' ∧ S'.Exists c ∧ Shows h' c (applyOps dv os vs) cap p := by
  obtain ⟨hs, hp⟩ := shown R hc ob
  obtain ⟨h', t, q, R', e, k, _, f⟩ := history os R hs ok
  refine ⟨h', _, q, R', put_exists _ _ _, ?_⟩
  have := isVec_shows (R'.world.vec c t (put_same ..))
  obtain ⟨f1, f2⟩ := f fit
  obtain ⟨b, o⟩ := p
  simp only at hp; subst hp
  rw [e, f1, f2] at this; exact this

/-- **C39.** After `reserve(n)`, any history with sizes up to `n` reallocates nothing: the address of the first element stays what it is right
after `reserve(n)`. -/
theorem reserve_then (os : List (Op T)) (R : Reach dv S h) (hc : S.Exists c) (ob : Observes h c vs) (ok : OpsOk dv os vs) (fit : Fits dv n os vs) :
    ∃ h1 h' cap' p', reserve c n h = .ok ((), h1) ∧ n ≤ cap' ∧ Shows h1 c vs cap' p' ∧ runOps dv c os h1 = .ok ((), h') ∧ Shows h' c (applyOps dv os vs) cap' p' := by
  have sh := reach_shows R hc
  have e := sh.toObserves.inj ob
  rw [e] at sh
  obtain ⟨h1, S1, p', q1, R1, x1, o1, k1, _⟩ := reserve_contract R hc sh n
  have mono : ∀ (os : List (Op T)) (vs : List T) (m m' : Nat), m ≤ m' → Fits dv m os vs → Fits dv m' os vs := by
    intro os
    induction os with
    | nil => intro _ _ _ _ _; trivial
    | cons o os ih => intro vs m m' l ⟨a, b, c⟩; exact ⟨a, by omega, ih _ _ _ l c⟩
  obtain ⟨h', S', q, _, _, o'⟩ := fits_no_reallocation os R1 x1 o1 ok (mono _ _ _ _ (Nat.le_max_right _ _) fit)
  exact ⟨h1, h', _, p', q1, Nat.le_max_right _ _, o1, q, o'⟩

/-- **C39.** No insertion within the capacity moves the elements before the insertion point: the element at `i < pos` is at the same address,
with the same value. (Addresses are `begin() + i`.) -/
theorem insert_keeps_before (R : Reach dv S h) (hc : S.Exists c) (ob : Shows h c vs cap p) (hp : n ≤ vs.length) (fit : vs.length + ws.length ≤ cap) :
    ∃ h', exec dv (.insertRange c n (.vals ws)) h = .ok (.it (p + n), h') ∧ ∀ i v, i < n → vs[i]? = some v → at_ c i h' = .ok (p + i, h') ∧ read (p + i) h = .ok (v, h) ∧ read (p + i) h' = .ok (v, h') := by
  obtain ⟨hs, ho⟩ := shown R hc ob
  obtain ⟨b, f⟩ := p
  simp only at ho; subst ho
  have hg := get_some hs
  have hv := vals_some hs
  obtain ⟨h', q, R', o', k⟩ := one_vector (c := c) R (.insertRange c n (.vals ws)) ⟨hc, by rw [hv]; exact hp, trivial, .inl trivial⟩ rfl
  have v := R.world.vec c _ hs
  have v' := R'.world.vec c _ (put_same ..)
  have il := ins_cap_le (S.get c) h.fresh n ws (by rw [hg]; exact fit)
  have iv := ins_vals (S.get c) h.fresh n ws
  simp only [CSrc.vals'] at v' il iv
  rw [hg] at il iv v'
  refine ⟨h', ?_, ?_⟩
  · rw [q]; simp only [retOf, spec, CSrc.vals', put_get, hg, il.2, ptr_add, Nat.zero_add]
  · intro i a hi e
    have hl := (List.getElem?_eq_some_iff.1 e).1
    have e' : (VS.ins (⟨vs, cap, b⟩ : VS T) h.fresh n ws).vals[i]? = some a := by
      rw [iv]
      simp only [List.append_assoc]
      rw [List.getElem?_append_left (by simp; omega), List.getElem?_take_of_lt hi]; exact e
    have r1 := (v.holds e).read
    have r2 := (v'.holds e').read
    have r3 := at_ok v' i
    rw [il.2] at r2 r3
    simp only [ptr_add, Nat.zero_add]
    exact ⟨r3, r1, r2⟩

/-- `reserve(capacity())` is not a no-op: it moves all elements to a new block, so that pointers into the vector become dangling. -/
theorem reserve_capacity_moves (R : Reach dv S h) (hc : S.Exists c) (ob : Shows h c vs cap p) :
    ∃ h' p', reserve c cap h = .ok ((), h') ∧ Shows h' c vs cap p' ∧ p' ≠ p ∧ ∀ i : Nat, read (p + i) h' = .ub .access := by
  obtain ⟨hs, ho⟩ := shown R hc ob
  have v := R.world.vec c _ hs
  have hb := v.lt_fresh R.world.base
  obtain ⟨b, f⟩ := p
  simp only at ho hb; subst ho
  have k := moved_change (n := cap) R.world.base v vs v.le
  refine ⟨_, ⟨h.fresh, 0⟩, ?_, isVec_shows k.vec, ?_, ?_⟩
  · rw [reserve_ok R.world.base v cap, if_neg (by simp)]
  · intro e; cases e; omega
  · intro i
    refine read_out ?_
    intro m e
    rcases k.moved with ⟨a, _⟩ | ⟨_, _, a, _⟩
    · simp only at a; omega
    · simp only [ptr_add] at e a; rw [a] at e; cases e

end Verif.Vec.VecProps
