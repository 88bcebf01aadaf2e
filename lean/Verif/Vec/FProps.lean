import Verif.Vec.FApi
/-!
# Properties of `ttl::fixed_vector`

`Reach N dv S h`: memory `h` is the result of some client program over any number of `fixed_vector<T, N>` objects (`Verif.Vec.FApi`), and `S` says
which ones exist. What the theorems say about contents is said with client-side observations of `h`: `Observes N h c vs` means that iterating from
`begin()` to `end()`, `size()`, `empty()`, `full()`, `capacity()`, `operator[]`, `front()` and `back()` of `c` all answer according to the
sequence `vs`, and that the elements are at the address of the storage of `c`.
-/
set_option linter.unusedVariables false
set_option linter.unusedSimpArgs false
namespace Verif.Vec.FV.FVProps
open Verif Verif.Vec Verif.Vec.FV
variable {T : Type} {h h' : Mem T} {S : State T} {N c d n i j k a : Nat} {s t vs ws us : List T} {dv : T}

/-- Every observer of `c` answers according to `vs`. -/
structure Observes (N : Nat) (h : Mem T) (c : Nat) (vs : List T) : Prop where
  forward : toList c h = .ok (vs, h)
  size : size c h = .ok (vs.length, h)
  empty : empty c h = .ok (vs.isEmpty, h)
  full : full N c h = .ok (decide (vs.length = N), h)
  capacity : capacity N c h = .ok (N, h)
  begin_ : begin_ c h = .ok (⟨c, 0⟩, h)
  index : ∀ i v, vs[i]? = some v → (do read (← at_ c i) : Prog (Mem T) T) h = .ok (v, h)
  front : ∀ v, vs.head? = some v → (do read (← front c) : Prog (Mem T) T) h = .ok (v, h)
  back : ∀ v, vs.getLast? = some v → (do read (← back c) : Prog (Mem T) T) h = .ok (v, h)

/-- Every fixed vector other than those in `L` answers all observers as before. -/
def OthersKept (N : Nat) (S : State T) (h h' : Mem T) (L : List Nat) : Prop :=
  ∀ d, d ∉ L → S.Exists d → ∀ vs, Observes N h d vs → Observes N h' d vs

theorem isFV_observes (v : IsFV N h c s) : Observes N h c s := by
  refine ⟨?_, size_ok v, empty_ok v, full_ok v, capacity_ok v, FV.begin_ok v, ?_, ?_, ?_⟩
  · have := walk_ok (b := c) (i := 0) s 0 h (fun k a e => by rw [Nat.zero_add]; exact v.holds e)
    rw [Nat.zero_add] at this
    simp only [toList, Prog.bind_app, FV.begin_ok v, end_ok v, Res.bind_ok, this]
  · intro i a e
    simp only [Prog.bind_app, at_ok v, Res.bind_ok, (v.holds e).read]
  · intro a e
    have : s[0]? = some a := by rwa [List.head?_eq_getElem?] at e
    simp only [FV.front, Prog.bind_app, FV.begin_ok v, Res.bind_ok, (v.holds this).read]
  · intro a e
    have : s[s.length - 1]? = some a := by rwa [List.getLast?_eq_getElem?] at e
    have ne : s ≠ [] := by intro q; rw [q] at e; cases e
    simp only [Prog.bind_app, back_ok v ne, Res.bind_ok, (v.holds this).read]

theorem Observes.inj (a : Observes N h c vs) (b : Observes N h c ws) : vs = ws := by
  have := a.forward.symm.trans b.forward; cases this; rfl

/-- Every fixed vector that exists answers all observers according to one sequence of elements. -/
theorem reach_observes (R : Reach N dv S h) (hc : S.Exists c) : Observes N h c (S.vals c) := by
  obtain ⟨s, hs⟩ := hc
  rw [vals_some hs]; exact isFV_observes (R.world.fv c s hs)

theorem observed (R : Reach N dv S h) (hc : S.Exists c) (o : Observes N h c vs) : S c = some vs ∧ IsFV N h c vs := by
  obtain ⟨s, hs⟩ := hc
  have v := R.world.fv c s hs
  have := (isFV_observes v).inj o
  subst this; exact ⟨hs, v⟩

theorem kept_of {S' : State T} {L : List Nat} (R : Reach N dv S h) (W' : World N h' S') (e : ∀ d, d ∉ L → S.Exists d → S' d = S d) : OthersKept N S h h' L := by
  intro d hd hx vs o
  obtain ⟨q, _⟩ := observed R hx o
  exact isFV_observes (W'.fv d _ ((e d hd hx).trans q))

theorem OthersKept.trans {S' : State T} {h'' : Mem T} {L : List Nat} (a : OthersKept N S h h' L) (b : OthersKept N S' h' h'' L) (e : ∀ d, d ∉ L → S.Exists d → S'.Exists d) :
    OthersKept N S h h'' L := fun d hd hx vs o => b d hd (e d hd hx) vs (a d hd hx vs o)

theorem put_exists_other (S : State T) {c d : Nat} (s : List T) (hd : S.Exists d) : (S.put c s).Exists d := by
  by_cases q : d = c
  · subst q; exact put_exists _ _ _
  · obtain ⟨t, e⟩ := hd; exact ⟨t, by rw [put_other S q]; exact e⟩

/-- Every legal call returns normally, in a reachable memory again. -/
theorem call_returns (R : Reach N dv S h) (k : Call T) (lg : Legal S k) :
    ∃ h', exec N dv k h = .ok (retOf h.fresh k, h') ∧ Reach N dv (spec N dv S h.fresh k) h' := by
  obtain ⟨h', q, _⟩ := step_ok (dv := dv) R.world k lg
  exact ⟨h', q, .step k R lg q⟩

/-- A call that only changes the fixed vector `c`. -/
theorem one_vector (R : Reach N dv S h) (k : Call T) (lg : Legal S k) (hk : spec N dv S h.fresh k = S.put c t) :
    ∃ h', exec N dv k h = .ok (retOf h.fresh k, h') ∧ Reach N dv (S.put c t) h' ∧ Observes N h' c t ∧ OthersKept N S h h' [c] := by
  obtain ⟨h', q, R'⟩ := call_returns R k lg
  rw [hk] at R'
  refine ⟨h', q, R', isFV_observes (R'.world.fv c t (put_same ..)), kept_of R R'.world ?_⟩
  intro d hd _; exact put_other _ (by simpa using hd) _

/-! ## C41: histories of one fixed vector -/

/-- The operations of a history; positions are indices, arguments do not belong to a fixed vector. -/
inductive Op (T : Type) where
  | pushBack (v : T)
  | popBack
  | insert (i : Nat) (v : T)
  | insertN (i n : Nat) (v : T)
  | insertRange (i : Nat) (vs : List T)
  | erase (i : Nat)
  | eraseRange (i j : Nat)
  | resize (n : Nat)
  | resizeX (n : Nat) (v : T)
  | assignN (n : Nat) (v : T)
  | assignRange (vs : List T)
  | clear
  | store (i : Nat) (v : T)

/-- The same operation on a mathematical sequence of any length. -/
def Op.apply (dv : T) : Op T → List T → List T
  | .pushBack v, vs => vs ++ [v]
  | .popBack, vs => vs.dropLast
  | .insert i v, vs => vs.take i ++ v :: vs.drop i
  | .insertN i n v, vs => vs.take i ++ (List.replicate n v ++ vs.drop i)
  | .insertRange i ws, vs => vs.take i ++ (ws ++ vs.drop i)
  | .erase i, vs => vs.take i ++ vs.drop (i + 1)
  | .eraseRange i j, vs => vs.take i ++ vs.drop j
  | .resize n, vs => vs.take n ++ List.replicate (n - vs.length) dv
  | .resizeX n v, vs => vs.take n ++ List.replicate (n - vs.length) v
  | .assignN n v, _ => List.replicate n v
  | .assignRange ws, _ => ws
  | .clear, _ => []
  | .store i v, vs => vs.set i v

/-- Its precondition: positions lie in the vector, erased ranges are not empty. -/
def Op.Pre : Op T → List T → Prop
  | .popBack, vs => vs ≠ []
  | .insert i _, vs => i ≤ vs.length
  | .insertN i _ _, vs => i ≤ vs.length
  | .insertRange i _, vs => i ≤ vs.length
  | .erase i, vs => i < vs.length
  | .eraseRange i j, vs => i < j ∧ j ≤ vs.length
  | .store i _, vs => i < vs.length
  | _, _ => True

/-- The operation on the fixed vector `c`. -/
def Op.call (c : Nat) : Op T → Call T
  | .pushBack v => .pushBack c (.ext v)
  | .popBack => .popBack c
  | .insert i v => .insert c i (.ext v)
  | .insertN i n v => .insertN c i n (.ext v)
  | .insertRange i vs => .insertRange c i (.vals vs)
  | .erase i => .erase c i
  | .eraseRange i j => .eraseRange c i j
  | .resize n => .resize c n
  | .resizeX n v => .resizeX c n (.ext v)
  | .assignN n v => .assignN c n (.ext v)
  | .assignRange vs => .assignRange c (.vals vs)
  | .clear => .clear c
  | .store i v => .store c i (.ext v)

/-- The operation on a sequence of at most `N` elements: the result is cut after `N` elements. -/
def Op.cut (N : Nat) (dv : T) (o : Op T) (vs : List T) : List T := (o.apply dv vs).take N

/-- Every operation of the history meets its precondition. -/
def OpsOk (N : Nat) (dv : T) : List (Op T) → List T → Prop
  | [], _ => True
  | o :: os, vs => o.Pre vs ∧ OpsOk N dv os (o.cut N dv vs)

/-- The history applied to a mathematical sequence, cut after `N` elements at every step. -/
def applyOps (N : Nat) (dv : T) (os : List (Op T)) (vs : List T) : List T := os.foldl (fun vs o => o.cut N dv vs) vs

/-- The history on the fixed vector `c`. -/
def runOps (N : Nat) (dv : T) (c : Nat) : List (Op T) → Prog (Mem T) Unit
  | [] => pure ()
  | o :: os => do let _ ← exec N dv (o.call c); runOps N dv c os

theorem spec_op (hc : S c = some s) (hs : s.length ≤ N) (f : Nat) (o : Op T) (ok : o.Pre s) : spec N dv S f (o.call c) = S.put c (o.cut N dv s) := by
  have hv := vals_some hc
  have cp : ∀ n (v : T), S.copies n (.ext v) = List.replicate n v := fun _ _ => rfl
  cases o <;> simp only [Op.call, spec, hv, cp, Op.cut, Op.apply, CSrc.vals', List.append_assoc, List.replicate_one, List.singleton_append, List.take_nil]
  case popBack => rw [List.take_of_length_le (by simp; omega)]
  case erase i => rw [List.take_of_length_le (i := N) (by simp only [Op.Pre] at ok; simp; omega)]
  case eraseRange i j => rw [List.take_of_length_le (i := N) (by simp only [Op.Pre] at ok; simp; omega)]
  case resize n =>
    congr 1
    split
    · rename_i q
      rw [Nat.sub_eq_zero_of_le (Nat.le_of_lt q), List.replicate_zero, List.append_nil, List.take_take, Nat.min_eq_right (by omega)]
    · rename_i q; rw [List.take_of_length_le (l := s) (i := n) (by omega)]
  case resizeX n v =>
    congr 1
    split
    · rename_i q
      rw [Nat.sub_eq_zero_of_le (Nat.le_of_lt q), List.replicate_zero, List.append_nil, List.take_take, Nat.min_eq_right (by omega)]
    · rename_i q; rw [List.take_of_length_le (l := s) (i := n) (by omega)]
  case store i v => 
    show S.put c (s.set i v) = _
    rw [List.take_of_length_le (by simp; omega)]

theorem op_legal (hc : S c = some s) (o : Op T) (ok : o.Pre s) : Legal S (o.call c) := by
  have hx : S.Exists c := ⟨_, hc⟩
  have hv := vals_some hc
  cases o <;> simp only [Op.call, Legal, hv, CArg.Valid, CArg.Before, CSrc.Valid, CSrc.Before] <;> simp only [Op.Pre] at ok
  case eraseRange i j => exact ⟨hx, by omega, ok.2, by omega⟩
  all_goals simp_all

theorem history : ∀ (os : List (Op T)) {h : Mem T} {S : State T} {s : List T}, Reach N dv S h → S c = some s → OpsOk N dv os s →
    ∃ h', runOps N dv c os h = .ok ((), h') ∧ Reach N dv (S.put c (applyOps N dv os s)) h' ∧ OthersKept N S h h' [c]
  | [], h, S, s, R, hc, ok => ⟨h, rfl, by simp only [applyOps, List.foldl_nil]; rw [put_self hc]; exact R, fun _ _ _ _ o => o⟩
  | o :: os, h, S, s, R, hc, ok => by
    have e1 := spec_op (dv := dv) hc (R.world.fv c s hc).le h.fresh o ok.1
    obtain ⟨h1, q1, R1, _, k1⟩ := one_vector R _ (op_legal hc o ok.1) e1
    obtain ⟨h', q, R', k⟩ := history os R1 (put_same S c _) ok.2
    rw [put_put] at R'
    refine ⟨h', ?_, R', k1.trans k fun d _ hx => put_exists_other _ _ hx⟩
    simp only [runOps, Prog.bind_app, q1, Res.bind_ok, q]

/-- **C41.** Any history of operations on a fixed vector, in any reachable memory, that meets the preconditions returns normally, and afterwards all
observers agree with the same history on a mathematical sequence that is cut after `N` elements at every step; no other fixed vector has changed. -/
theorem fixed_vector_history (os : List (Op T)) (R : Reach N dv S h) (hc : S.Exists c) (ob : Observes N h c vs) (ok : OpsOk N dv os vs) :
    ∃ h' S', runOps N dv c os h = .ok ((), h') ∧ Reach N dv S' h' ∧ S'.Exists c ∧ Observes N h' c (applyOps N dv os vs) ∧ OthersKept N S h h' [c] ∧
      ∀ d, S.Exists d → S'.Exists d := by
  obtain ⟨hs, v⟩ := observed R hc ob
  obtain ⟨h', q, R', k⟩ := history os R hs ok
  exact ⟨h', _, q, R', put_exists _ _ _, isFV_observes (R'.world.fv c _ (put_same ..)), k, fun d hd => put_exists_other _ _ hd⟩

/-- C41 from scratch: a new fixed vector with any such history behaves as the mathematical sequence that starts empty. -/
theorem new_fixed_vector_history (N : Nat) (os : List (Op T)) (ok : OpsOk N dv os []) :
    ∃ h', (do let c ← create N; runOps N dv c os; pure c : Prog (Mem T) Nat) empty₀ = .ok (1, h') ∧ Observes N h' 1 (applyOps N dv os []) := by
  obtain ⟨h1, q1, R1, o1, _⟩ := one_vector (N := N) (dv := dv) (c := 1) (t := []) (Reach.start (T := T)) .create trivial rfl
  obtain ⟨h', S', q, _, _, ob, _⟩ := fixed_vector_history os R1 (put_exists ..) o1 ok
  refine ⟨h', ?_, ob⟩
  have q1' : create N (empty₀ : Mem T) = .ok (1, h1) := by
    simp only [exec, create, newStore_ok, Prog.bind_app, Res.bind_ok, Prog.pure_app] at q1; cases q1; rfl
  simp only [Prog.bind_app, q1', Res.bind_ok, q, Prog.pure_app]

/-- A history that runs against the capacity 4 at the end, in the middle and with a whole range. -/
example : ∃ h', (do let c ← create 4; runOps 4 0 c [.pushBack 1, .insertRange 0 [2, 3], .insertN 1 2 9, .pushBack 8, .erase 0, .resize 7, .store 1 4, .insertRange 2 [5, 6, 7], .popBack]; pure c : Prog (Mem Nat) Nat) empty₀ = .ok (1, h') ∧ Observes 4 h' 1 [9, 4, 5] :=
  new_fixed_vector_history (dv := 0) 4 _ (by simp [OpsOk, Op.Pre, Op.cut, Op.apply])

/-- **C41.** `push_back` on a full fixed vector changes nothing, on any other it appends. -/
theorem push_back_truncates (R : Reach N dv S h) (hc : S.Exists c) (o : Observes N h c vs) (v : T) :
    ∃ h' S', exec N dv (.pushBack c (.ext v)) h = .ok (.none, h') ∧ Reach N dv S' h' ∧ S'.Exists c ∧
      Observes N h' c (if vs.length = N then vs else vs ++ [v]) ∧ OthersKept N S h h' [c] := by
  obtain ⟨hs, w⟩ := observed R hc o
  have le := w.le
  obtain ⟨h', q, R', o', k⟩ := one_vector (c := c) R (.pushBack c (.ext v)) ⟨hc, trivial⟩ rfl
  refine ⟨h', _, q, R', put_exists .., ?_, k⟩
  rw [vals_some hs] at o'
  have e : (vs ++ S.copies 1 (.ext v)).take N = if vs.length = N then vs else vs ++ [v] := by
    show (vs ++ [v]).take N = _
    split
    · rename_i e; rw [List.take_append_of_le_length (by omega), List.take_of_length_le (by omega)]
    · rename_i e; rw [List.take_of_length_le (by simp; omega)]
  rw [e] at o'; exact o'

/-- **C41.** `insert(pos, n, v)`: the result is the first `N` elements of the sequence with `n` copies of `v` before position `i`; the returned
iterator is `begin() + i`. -/
theorem insert_truncates (R : Reach N dv S h) (hc : S.Exists c) (o : Observes N h c vs) (hi : i ≤ vs.length) (n : Nat) (v : T) :
    ∃ h' S', exec N dv (.insertN c i n (.ext v)) h = .ok (.it ⟨c, i⟩, h') ∧ Reach N dv S' h' ∧ S'.Exists c ∧
      Observes N h' c ((vs.take i ++ (List.replicate n v ++ vs.drop i)).take N) ∧ OthersKept N S h h' [c] := by
  obtain ⟨hs, w⟩ := observed R hc o
  obtain ⟨h', q, R', o', k⟩ := one_vector (c := c) R (.insertN c i n (.ext v)) ⟨hc, by rw [vals_some hs]; exact hi, trivial, .inl trivial⟩ rfl
  rw [vals_some hs, List.append_assoc] at o'
  exact ⟨h', _, q, R', put_exists .., o', k⟩

/-- **C41.** `insert(pos, first, last)` for a range of values or of another fixed vector, and for a range of the fixed vector itself that lies
before `pos`. -/
theorem insert_range_truncates (R : Reach N dv S h) (hc : S.Exists c) (hd : S.Exists d) (o : Observes N h c vs) (od : Observes N h d ws) (hi : i ≤ vs.length)
    (hij : j ≤ k) (hk : k ≤ ws.length) (safe : d ≠ c ∨ k ≤ i ∨ i = vs.length) :
    ∃ h' S', exec N dv (.insertRange c i (.range d j k)) h = .ok (.it ⟨c, i⟩, h') ∧ Reach N dv S' h' ∧ S'.Exists c ∧
      Observes N h' c ((vs.take i ++ ((ws.drop j).take (k - j) ++ vs.drop i)).take N) ∧ OthersKept N S h h' [c] := by
  obtain ⟨hs, w⟩ := observed R hc o
  obtain ⟨hs', w'⟩ := observed R hd od
  obtain ⟨h', q, R', o', kk⟩ := one_vector (c := c) R (.insertRange c i (.range d j k)) ⟨hc, by rw [vals_some hs]; exact hi, ⟨hd, hij, by rw [vals_some hs']; exact hk⟩, by
      simp only [CSrc.Before, vals_some hs]
      rcases safe with q | q | q
      · exact .inl fun e => absurd e q
      · exact .inl fun _ => q
      · exact .inr q⟩ rfl
  rw [vals_some hs, CSrc.vals', vals_some hs', List.append_assoc] at o'
  exact ⟨h', _, q, R', put_exists .., o', kk⟩

/-! ## C40: storage and lifetimes -/

/-- **C40.** In every reachable memory, `size() ≤ N` and exactly the slots `[0, size())` of the `N` slots of the storage hold objects. -/
theorem slots_exactly (R : Reach N dv S h) (hc : S.Exists c) (o : Observes N h c vs) :
    vs.length ≤ N ∧ ∀ i : Nat, read ⟨c, i⟩ h = match vs[i]? with | some v => .ok (v, h) | none => .ub (if i < N then .lifetime else .access) := by
  obtain ⟨hs, v⟩ := observed R hc o
  refine ⟨v.le, fun i => ?_⟩
  have le := v.le
  cases e : vs[i]? with
  | some a => exact (v.holds e).read
  | none =>
    by_cases l : i < N
    · simp only [if_pos l]
      refine read_raw v.size l ?_
      show h.slot c i = none
      rw [v.slot, lay_nil]; exact e
    · simp only [if_neg l]
      refine read_out ?_
      intro n q
      have := v.size
      simp only at q
      rw [this] at q; cases q; show N ≤ i; omega

/-- **C40.** There is nothing else in memory: all storage is the storage of a fixed vector that exists, of exactly `N` slots, and every live object is
an element of a fixed vector that exists. -/
theorem nothing_else (R : Reach N dv S h) :
    (∀ b n, h.size b = some n → n = N ∧ ∃ vs, S.Exists b ∧ Observes N h b vs) ∧
      ∀ b i v, h.slot b i = some v → ∃ vs, S.Exists b ∧ Observes N h b vs ∧ vs[i]? = some v := by
  have W := R.world
  constructor
  · intro b n e
    cases g : S b with
    | none => rw [(W.only b g id).2.1] at e; cases e
    | some s =>
      have v := W.fv b s g
      rw [v.size] at e; cases e
      exact ⟨rfl, s, ⟨s, g⟩, isFV_observes v⟩
  · intro b i a e
    cases g : S b with
    | none => rw [(W.only b g id).2.2 i] at e; cases e
    | some s =>
      have v := W.fv b s g
      rw [v.slot, lay_nil] at e
      exact ⟨s, ⟨s, g⟩, isFV_observes v, e⟩

/-- **C40.** The destructor destroys every element, exactly once; the other fixed vectors are as before. -/
theorem destroy_releases (R : Reach N dv S h) (hc : S.Exists c) :
    ∃ h' S', destroy c h = .ok ((), h') ∧ Reach N dv S' h' ∧ ¬ S'.Exists c ∧ (∀ d, d ≠ c → S.Exists d → S'.Exists d) ∧ OthersKept N S h h' [c] ∧
      (∀ i : Nat, read ⟨c, i⟩ h' = .ub .access) ∧ ∀ i, h'.slot c i = none := by
  obtain ⟨h', q, R'⟩ := call_returns R (.destroy c) hc
  have e : destroy c h = .ok ((), h') := by
    simp only [exec, Prog.bind_app] at q
    cases g : destroy c h with
    | ok x => obtain ⟨⟨⟩, x⟩ := x; rw [g] at q; simp only [Res.bind_ok, Prog.pure_app] at q; cases q; rfl
    | ub f => rw [g] at q; cases q
    | diverge => rw [g] at q; cases q
  have W' := R'.world
  have nc : (S.del c) c = none := by simp [State.del]
  have oth : ∀ d, d ≠ c → (S.del c) d = S d := by intro d q; simp [State.del, q]
  have gone := W'.only c nc id
  refine ⟨h', _, e, R', ?_, ?_, kept_of R W' ?_, ?_, gone.2.2⟩
  · rintro ⟨s, hs'⟩; rw [show spec N dv S h.fresh (.destroy c) = S.del c from rfl, nc] at hs'; cases hs'
  · intro d ne ⟨s, hs'⟩; exact ⟨s, (oth d ne).trans hs'⟩
  · intro d hd _; exact oth d (by simpa using hd)
  · intro i
    refine read_out ?_
    intro n q
    rw [gone.2.1] at q; cases q

/-- **C40.** When every fixed vector has been destroyed, no storage is left and no object is alive. -/
theorem destroyed_all (R : Reach N dv S h) (none : ∀ c, ¬ S.Exists c) (b : Nat) : h.size b = .none ∧ (∀ i, h.slot b i = .none) ∧ h.obj b = .none := by
  have : S b = .none := by
    cases e : S b with
    | none => rfl
    | some s => exact absurd ⟨s, e⟩ (none b)
  have := R.world.only b this id
  exact ⟨this.2.1, this.2.2, this.1⟩

/-- **C40** for a whole life: a fixed vector is created, goes through any history, and is destroyed. Nothing undefined happens, and nothing is left. -/
theorem fixed_vector_life (N : Nat) (os : List (Op T)) (ok : OpsOk N dv os []) :
    ∃ h', (do let c ← create N; runOps N dv c os; destroy c : Prog (Mem T) Unit) empty₀ = .ok ((), h') ∧
      ∀ b, h'.size b = none ∧ (∀ i, h'.slot b i = none) ∧ h'.obj b = none := by
  obtain ⟨h1, q1, R1, o1, _⟩ := one_vector (N := N) (dv := dv) (c := 1) (t := []) (Reach.start (T := T)) .create trivial rfl
  obtain ⟨h2, q2, R2, _⟩ := history os R1 (put_same ..) ok
  obtain ⟨h3, S3, q3, R3, x3, y3, _⟩ := destroy_releases R2 (put_exists ..)
  refine ⟨h3, ?_, destroyed_all R3 ?_⟩
  · have q1' : create N (empty₀ : Mem T) = .ok (1, h1) := by
      simp only [exec, create, newStore_ok, Prog.bind_app, Res.bind_ok, Prog.pure_app] at q1; cases q1; rfl
    simp only [Prog.bind_app, q1', Res.bind_ok, q2, q3]
  · intro c hc
    obtain ⟨s, hs⟩ := hc
    have v := R3.world.fv c s hs
    have ne : c ≠ 1 := by rintro rfl; exact x3 ⟨s, hs⟩
    obtain ⟨h4, q4, R4⟩ := call_returns R2 (.destroy 1) (put_exists ..)
    have e4 : h4 = h3 := by
      simp only [exec, Prog.bind_app, q3, Res.bind_ok, Prog.pure_app] at q4; cases q4; rfl
    subst e4
    have := R4.world.only c (by simp [spec, State.del, State.put, ne]) id
    have w := v.obj; rw [this.1] at w; cases w

/-! ## C42: swap -/

/-- **C42**, where the code is right: `a.swap(b)` exchanges the contents if `a` is not longer than `b`; `a.swap(a)` changes nothing. -/
theorem swap_exchanges_partial (R : Reach N dv S h) (hc : S.Exists c) (hd : S.Exists d) (oc : Observes N h c vs) (od : Observes N h d ws) (le : vs.length ≤ ws.length) :
    ∃ h' S', exec N dv (.swap c d) h = .ok (.none, h') ∧ Reach N dv S' h' ∧ S'.Exists c ∧ S'.Exists d ∧ Observes N h' c ws ∧ Observes N h' d vs ∧ OthersKept N S h h' [c, d] := by
  obtain ⟨hs, v⟩ := observed R hc oc
  obtain ⟨hs', v'⟩ := observed R hd od
  obtain ⟨h', q, R'⟩ := call_returns R (.swap c d) ⟨hc, hd, by rw [vals_some hs, vals_some hs']; exact le⟩
  have es : spec N dv S h.fresh (.swap c d) = (S.put c ws).put d vs := by simp only [spec, vals_some hs, vals_some hs']
  rw [es] at R'
  have hd' : ((S.put c ws).put d vs) d = some vs := put_same ..
  have hc' : ((S.put c ws).put d vs) c = some ws := by
    by_cases e : c = d
    · subst e; rw [hs] at hs'; cases hs'; exact put_same ..
    · rw [put_other _ e]; exact put_same ..
  refine ⟨h', _, q, R', ⟨_, hc'⟩, ⟨_, hd'⟩, isFV_observes (R'.world.fv _ _ hc'), isFV_observes (R'.world.fv _ _ hd'), kept_of R R'.world ?_⟩
  intro e he _
  simp only [List.mem_cons, List.not_mem_nil, or_false, not_or] at he
  rw [put_other _ he.2, put_other _ he.1]

/-- **C42 is false.** `a.swap(b)` is undefined behaviour whenever `a` is longer than `b`: elements behind the end of `b` are read. -/
theorem swap_longer_ub (R : Reach N dv S h) (hc : S.Exists c) (hd : S.Exists d) (oc : Observes N h c vs) (od : Observes N h d ws) (lt : ws.length < vs.length) :
    exec N dv (.swap c d) h = .ub .lifetime := by
  obtain ⟨hs, v⟩ := observed R hc oc
  obtain ⟨hs', v'⟩ := observed R hd od
  simp only [exec, Prog.bind_app, FV.swap_longer_ub v v' lt]; rfl

/-! ## Erase of an empty range, own elements as arguments -/

/-- `erase(p, p)` is undefined behaviour for every position that designates an element. -/
theorem erase_empty_range_ub (R : Reach N dv S h) (hc : S.Exists c) (o : Observes N h c vs) (hi : i < vs.length) : exec N dv (.eraseRange c i i) h = .ub .lifetime := by
  obtain ⟨hs, v⟩ := observed R hc o
  simp only [exec, Prog.bind_app, FV.begin_ok v, Res.bind_ok, ptr_add, Nat.zero_add, FV.erase_empty_ub v hi]; rfl

/-- `erase(end(), end())` returns `end()` and changes nothing at all. -/
theorem erase_empty_range_partial (R : Reach N dv S h) (hc : S.Exists c) (o : Observes N h c vs) :
    exec N dv (.eraseRange c vs.length vs.length) h = .ok (.it ⟨c, vs.length⟩, h) := by
  obtain ⟨hs, v⟩ := observed R hc o
  simp only [exec, Prog.bind_app, FV.begin_ok v, Res.bind_ok, ptr_add, Nat.zero_add, eraseRange_end v]; rfl

/-- `erase(first, last)` of a non-empty range returns the position of the element that followed the range. -/
theorem erase_returns_next (R : Reach N dv S h) (hc : S.Exists c) (o : Observes N h c vs) (hij : i < j) (hj : j ≤ vs.length) :
    ∃ h' S', exec N dv (.eraseRange c i j) h = .ok (.it ⟨c, i⟩, h') ∧ Reach N dv S' h' ∧ S'.Exists c ∧ Observes N h' c (vs.take i ++ vs.drop j) ∧
      (∀ v, vs[j]? = some v → read ⟨c, i⟩ h' = .ok (v, h')) ∧ OthersKept N S h h' [c] := by
  obtain ⟨hs, v⟩ := observed R hc o
  obtain ⟨h', q, R', o', k⟩ := one_vector (c := c) R (.eraseRange c i j) ⟨hc, by omega, by rw [vals_some hs]; exact hj, by omega⟩ rfl
  rw [vals_some hs] at o' R'
  refine ⟨h', _, q, R', put_exists .., o', ?_, k⟩
  intro a e
  refine ((R'.world.fv c _ (put_same ..)).holds (k := i) (a := a) ?_).read
  rw [List.getElem?_append_right (by simp; omega), List.getElem?_drop]
  simp only [List.length_take, show min i vs.length = i by omega, Nat.sub_self, Nat.add_zero]; exact e

/-- `push_back(d[a])`: any element of any fixed vector can be the argument, also an own one. -/
theorem push_back_element (R : Reach N dv S h) (hc : S.Exists c) (hd : S.Exists d) (o : Observes N h c vs) (od : Observes N h d ws) {v : T} (hv : ws[a]? = some v) :
    ∃ h' S', exec N dv (.pushBack c (.elem d a)) h = .ok (.none, h') ∧ Reach N dv S' h' ∧ S'.Exists c ∧ Observes N h' c ((vs ++ [v]).take N) ∧ OthersKept N S h h' [c] := by
  obtain ⟨hs, _⟩ := observed R hc o
  obtain ⟨ht, _⟩ := observed R hd od
  have hl := (List.getElem?_eq_some_iff.1 hv).1
  obtain ⟨h', q, R', o', k⟩ := one_vector (c := c) R (.pushBack c (.elem d a)) ⟨hc, hd, by rw [vals_some ht]; exact hl⟩ rfl
  refine ⟨h', _, q, R', put_exists .., ?_, k⟩
  simp only [vals_some hs, State.copies, CArg.val, vals_some ht, hv, List.replicate_one] at o'
  exact o'

/-- `insert(pos, n, d[a])`, where the code is right: the element lies before the insertion point, or it is an insertion at the end, or the element
belongs to another fixed vector. -/
theorem insert_element_partial (R : Reach N dv S h) (hc : S.Exists c) (hd : S.Exists d) (o : Observes N h c vs) (od : Observes N h d ws) {v : T} (hv : ws[a]? = some v)
    (hi : i ≤ vs.length) (safe : d ≠ c ∨ a < i ∨ i = vs.length) :
    ∃ h' S', exec N dv (.insertN c i n (.elem d a)) h = .ok (.it ⟨c, i⟩, h') ∧ Reach N dv S' h' ∧ S'.Exists c ∧ OthersKept N S h h' [c] ∧
      Observes N h' c ((vs.take i ++ (List.replicate n v ++ vs.drop i)).take N) := by
  obtain ⟨hs, _⟩ := observed R hc o
  obtain ⟨ht, _⟩ := observed R hd od
  have hl := (List.getElem?_eq_some_iff.1 hv).1
  obtain ⟨h', q, R', o', k⟩ := one_vector (c := c) R (.insertN c i n (.elem d a))
    ⟨hc, by rw [vals_some hs]; exact hi, ⟨hd, by rw [vals_some ht]; exact hl⟩, by
      simp only [CArg.Before, vals_some hs]
      rcases safe with q | q | q
      · exact .inl fun e => absurd e q
      · exact .inl fun _ => q
      · exact .inr q⟩ rfl
  refine ⟨h', _, q, R', put_exists .., k, ?_⟩
  simp only [vals_some hs, State.copies, CArg.val, vals_some ht, hv, List.append_assoc] at o'
  exact o'

/-- `insert(pos, n, v[a])` with one of the `n` elements at and behind the insertion point: it is read after it was destroyed. -/
theorem insert_own_element_ub (R : Reach N dv S h) (hc : S.Exists c) (o : Observes N h c vs) (hi : i ≤ a) (ha : a < vs.length) (hn : a < i + n) :
    exec N dv (.insertN c i n (.elem c a)) h = .ub .lifetime := by
  obtain ⟨hs, v⟩ := observed R hc o
  simp only [exec, CArg.expr, Prog.bind_app, at_ok v, FV.begin_ok v, Res.bind_ok, Prog.pure_app, ptr_add, Nat.zero_add, FV.insert_gap_ub v hi ha hn]; rfl

/-- `insert(pos, n, v[a])` with an element further behind: another element, `v[a - n]`, is inserted instead. -/
theorem insert_own_element_wrong (R : Reach N dv S h) (hc : S.Exists c) (o : Observes N h c vs) (hi : i + n ≤ a) (ha : a < vs.length) (hn : 0 < n) {w : T} (hw : vs[a - n]? = some w) :
    ∃ h', exec N dv (.insertN c i n (.elem c a)) h = .ok (.it ⟨c, i⟩, h') ∧ Observes N h' c ((vs.take i ++ (List.replicate n w ++ vs.drop i)).take N) := by
  obtain ⟨hs, v⟩ := observed R hc o
  have := FV.insert_shifted_ok v hi ha hn hw
  refine ⟨FV.fv h c ((vs.take i ++ List.replicate n w ++ vs.drop i).take N), ?_, ?_⟩
  · simp only [exec, CArg.expr, Prog.bind_app, at_ok v, FV.begin_ok v, Res.bind_ok, Prog.pure_app, ptr_add, Nat.zero_add, this]
  · rw [← List.append_assoc]
    exact isFV_observes (isFV_fv v (take_le _))

/-! ## Copies and assignment -/

/-- A client call that constructs a fixed vector. -/
theorem constructs (R : Reach N dv S h) (k : Call T) (lg : Legal S k) {t : List T} (hk : spec N dv S h.fresh k = S.put h.fresh t) (hr : retOf h.fresh k = .obj h.fresh) :
    ∃ c h' S', exec N dv k h = .ok (.obj c, h') ∧ ¬ S.Exists c ∧ Reach N dv S' h' ∧ S'.Exists c ∧ Observes N h' c t ∧ OthersKept N S h h' [] ∧
      ∀ d, S.Exists d → S'.Exists d := by
  obtain ⟨h', q, R', o', k'⟩ := one_vector (c := h.fresh) R k lg hk
  have nf : ¬ S.Exists h.fresh := by
    rintro ⟨s, hs⟩; have := R.world.lt hs; omega
  refine ⟨h.fresh, h', _, by rw [q, hr], nf, R', put_exists .., o', ?_, fun d hd => put_exists_other _ _ hd⟩
  intro d _ hd
  exact k' d (by simp; rintro rfl; exact nf hd) hd

/-- The copy constructor makes a new fixed vector with the same elements; the others, among them the one copied from, are as before. -/
theorem copy_copies (R : Reach N dv S h) (hd : S.Exists d) (od : Observes N h d ws) :
    ∃ c h' S', exec N dv (.copyOf d) h = .ok (.obj c, h') ∧ ¬ S.Exists c ∧ Reach N dv S' h' ∧ S'.Exists c ∧ Observes N h' c ws ∧ OthersKept N S h h' [] ∧
      ∀ d, S.Exists d → S'.Exists d := by
  obtain ⟨ht, v⟩ := observed R hd od
  have := constructs (dv := dv) R (.copyOf d) hd rfl rfl
  rwa [vals_some ht] at this

/-- `fixed_vector(n)` holds `min(n, N)` value-initialised elements. -/
theorem construct_default (R : Reach N dv S h) (n : Nat) :
    ∃ c h' S', exec N dv (.ctor n) h = .ok (.obj c, h') ∧ ¬ S.Exists c ∧ Reach N dv S' h' ∧ S'.Exists c ∧ Observes N h' c (List.replicate (min N n) dv) ∧ OthersKept N S h h' [] ∧
      ∀ d, S.Exists d → S'.Exists d := by
  have := constructs (dv := dv) R (.ctor n) trivial rfl rfl
  rwa [List.take_replicate] at this

/-- `fixed_vector(n, v)` holds `min(n, N)` copies of `v`. -/
theorem construct_n (R : Reach N dv S h) (n : Nat) (v : T) :
    ∃ c h' S', exec N dv (.ctorN n (.ext v)) h = .ok (.obj c, h') ∧ ¬ S.Exists c ∧ Reach N dv S' h' ∧ S'.Exists c ∧ Observes N h' c (List.replicate (min N n) v) ∧ OthersKept N S h h' [] ∧
      ∀ d, S.Exists d → S'.Exists d := by
  have := constructs (dv := dv) R (.ctorN n (.ext v)) trivial rfl rfl
  rwa [show (S.copies n (.ext v)).take N = _ from List.take_replicate ..] at this

/-- `fixed_vector(first, last)` holds the first `N` values of the range. -/
theorem construct_from_values (R : Reach N dv S h) (ws : List T) :
    ∃ c h' S', exec N dv (.ctorRange (.vals ws)) h = .ok (.obj c, h') ∧ ¬ S.Exists c ∧ Reach N dv S' h' ∧ S'.Exists c ∧ Observes N h' c (ws.take N) ∧ OthersKept N S h h' [] ∧
      ∀ d, S.Exists d → S'.Exists d := constructs (dv := dv) R (.ctorRange (.vals ws)) trivial rfl rfl

/-- `fixed_vector(first, last)` over a range of another fixed vector holds copies of these elements. -/
theorem construct_from_range (R : Reach N dv S h) (hd : S.Exists d) (od : Observes N h d ws) (hij : i ≤ j) (hj : j ≤ ws.length) :
    ∃ c h' S', exec N dv (.ctorRange (.range d i j)) h = .ok (.obj c, h') ∧ ¬ S.Exists c ∧ Reach N dv S' h' ∧ S'.Exists c ∧ Observes N h' c ((ws.drop i).take (j - i)) ∧
      OthersKept N S h h' [] ∧ ∀ d, S.Exists d → S'.Exists d := by
  obtain ⟨ht, v⟩ := observed R hd od
  have := constructs (dv := dv) R (.ctorRange (.range d i j)) ⟨hd, hij, by rw [vals_some ht]; exact hj⟩ rfl rfl
  have le := v.le
  rwa [CSrc.vals', vals_some ht, List.take_of_length_le (i := N) (by simp; omega)] at this

/-- `a = b` for two fixed vectors: `a` gets the elements of `b`, every other one, among them `b`, is as before. -/
theorem assign_copies_partial (R : Reach N dv S h) (hc : S.Exists c) (hd : S.Exists d) (ne : c ≠ d) (od : Observes N h d ws) :
    ∃ h' S', exec N dv (.assign c d) h = .ok (.none, h') ∧ Reach N dv S' h' ∧ S'.Exists c ∧ Observes N h' c ws ∧ OthersKept N S h h' [c] := by
  obtain ⟨ht, v⟩ := observed R hd od
  obtain ⟨h', q, R', o', k⟩ := one_vector (c := c) R (.assign c d) ⟨hc, hd⟩ rfl
  rw [vals_some ht, if_neg (Ne.symm ne)] at o'
  exact ⟨h', _, q, R', put_exists .., o', k⟩

/-- `a = a` empties `a`. -/
theorem self_assign_empties (R : Reach N dv S h) (hc : S.Exists c) :
    ∃ h' S', exec N dv (.assign c c) h = .ok (.none, h') ∧ Reach N dv S' h' ∧ S'.Exists c ∧ Observes N h' c [] ∧ OthersKept N S h h' [c] := by
  obtain ⟨h', q, R', o', k⟩ := one_vector (c := c) R (.assign c c) ⟨hc, hc⟩ rfl
  rw [if_pos rfl] at o'
  exact ⟨h', _, q, R', put_exists .., o', k⟩

/-- `assign(n, v)` with an element of another fixed vector. -/
theorem assign_n_partial (R : Reach N dv S h) (hc : S.Exists c) (hd : S.Exists d) (ne : c ≠ d) (od : Observes N h d ws) {v : T} (hv : ws[a]? = some v) (n : Nat) :
    ∃ h' S', exec N dv (.assignN c n (.elem d a)) h = .ok (.none, h') ∧ Reach N dv S' h' ∧ S'.Exists c ∧ Observes N h' c (List.replicate (min N n) v) ∧ OthersKept N S h h' [c] := by
  obtain ⟨ht, vd⟩ := observed R hd od
  have hl := (List.getElem?_eq_some_iff.1 hv).1
  obtain ⟨h', q, R', o', k⟩ := one_vector (c := c) R (.assignN c n (.elem d a)) ⟨hc, ⟨hd, by rw [vals_some ht]; exact hl⟩, fun e => absurd e.symm ne⟩ rfl
  simp only [State.copies, CArg.val, vals_some ht, hv, List.take_replicate] at o'
  exact ⟨h', _, q, R', put_exists .., o', k⟩

/-- `assign(n, v[i])` with an own element destroys it before copying it. -/
theorem assign_n_own_element_ub (R : Reach N dv S h) (hc : S.Exists c) (o : Observes N h c vs) (ha : a < vs.length) (hn : 0 < n) : exec N dv (.assignN c n (.elem c a)) h = .ub .lifetime := by
  obtain ⟨hs, v⟩ := observed R hc o
  have q : assignN N c n (.slot ⟨c, a⟩) h = .ub .lifetime := FV.assign_own_ub v ha hn (s := .counter (.slot ⟨c, a⟩)) (fun _ => rfl)
  simp only [exec, CArg.expr, Prog.bind_app, at_ok v, Res.bind_ok, Prog.pure_app, q]; rfl

/-- `assign(first, last)` with a range of another fixed vector. -/
theorem assign_range_partial (R : Reach N dv S h) (hc : S.Exists c) (hd : S.Exists d) (ne : c ≠ d) (od : Observes N h d ws) (hij : i ≤ j) (hj : j ≤ ws.length) :
    ∃ h' S', exec N dv (.assignRange c (.range d i j)) h = .ok (.none, h') ∧ Reach N dv S' h' ∧ S'.Exists c ∧ Observes N h' c ((ws.drop i).take (j - i)) ∧ OthersKept N S h h' [c] := by
  obtain ⟨ht, vd⟩ := observed R hd od
  have le := vd.le
  obtain ⟨h', q, R', o', k⟩ := one_vector (c := c) R (.assignRange c (.range d i j)) ⟨hc, ⟨hd, hij, by rw [vals_some ht]; exact hj⟩, fun e => absurd e.symm ne⟩ rfl
  rw [CSrc.vals', vals_some ht, List.take_of_length_le (i := N) (by simp; omega)] at o'
  exact ⟨h', _, q, R', put_exists .., o', k⟩

/-- `assign(first, last)` with a non-empty range of the fixed vector itself destroys it before copying it. -/
theorem assign_own_range_ub (R : Reach N dv S h) (hc : S.Exists c) (o : Observes N h c vs) (hij : i < j) (hj : j ≤ vs.length) : exec N dv (.assignRange c (.range c i j)) h = .ub .lifetime := by
  obtain ⟨hs, v⟩ := observed R hc o
  have q := FV.assign_own_ub v (show i < vs.length by omega) (show 0 < j - i by omega) (s := .range ⟨c, i⟩) (fun _ => rfl)
  simp only [exec, CSrc.expr, Prog.bind_app, FV.begin_ok v, Res.bind_ok, Prog.pure_app, ptr_add, Nat.zero_add, q]; rfl

/-! ## Comparison, independence -/

/-- `==` compares the contents element by element, and changes nothing; `!=` is its negation. -/
theorem equal_compares (eq : T → T → Bool) (R : Reach N dv S h) (hc : S.Exists c) (hd : S.Exists d) (oc : Observes N h c vs) (od : Observes N h d ws) :
    ∃ r, equal eq c d h = .ok (r, h) ∧ notEqual eq c d h = .ok (!r, h) ∧
      (r = true ↔ vs.length = ws.length ∧ ∀ (i : Nat) a b, vs[i]? = some a → ws[i]? = some b → eq a b = true) := by
  obtain ⟨hs, v⟩ := observed R hc oc
  obtain ⟨ht, v'⟩ := observed R hd od
  have := equalPtr_ok (b := c) (b' := d) eq vs ws 0 0 h (fun k a e => by rw [Nat.zero_add]; exact v.holds e) (fun k a e => by rw [Nat.zero_add]; exact v'.holds e)
  simp only [Nat.zero_add] at this
  have e1 : equal eq c d h = .ok (decide (vs.length = ws.length) && (vs.zip ws).all fun p => eq p.1 p.2, h) := by
    simp only [equal, Prog.bind_app, FV.begin_ok v, end_ok v, FV.begin_ok v', end_ok v', Res.bind_ok]; exact this
  refine ⟨_, e1, by simp only [notEqual, Prog.bind_app, e1, Res.bind_ok, Prog.pure_app], ?_⟩
  simp only [Bool.and_eq_true, decide_eq_true_eq, List.all_eq_true]
  refine and_congr_right fun hl => ?_
  constructor
  · intro q i a b ha hb
    refine q (a, b) (List.mem_iff_getElem?.2 ⟨i, ?_⟩)
    rw [List.getElem?_zip_eq_some]; exact ⟨ha, hb⟩
  · intro q x hx
    obtain ⟨i, e⟩ := List.mem_iff_getElem?.1 hx
    rw [List.getElem?_zip_eq_some] at e
    exact q i _ _ e.1 e.2

/-- The fixed vectors a call may change. -/
def touched : Call T → List Nat
  | .create | .ctor _ | .ctorN _ _ | .copyOf _ | .ctorRange _ => []
  | .destroy c | .assign c _ | .assignN c _ _ | .assignRange c _ | .resize c _ | .resizeX c _ _ | .insert c _ _ | .insertN c _ _ _
  | .insertRange c _ _ | .pushBack c _ | .popBack c | .erase c _ | .eraseRange c _ _ | .clear c | .store c _ _ => [c]
  | .swap c d => [c, d]

/-- **Fixed vectors are independent.** No call on one changes another one, even if elements of that other one are the arguments. -/
theorem independent (R : Reach N dv S h) (k : Call T) (lg : Legal S k) :
    ∃ r h' S', exec N dv k h = .ok (r, h') ∧ Reach N dv S' h' ∧ OthersKept N S h h' (touched k) ∧ ∀ d, d ∉ touched k → S.Exists d → S'.Exists d := by
  obtain ⟨h', q, R'⟩ := call_returns R k lg
  have nf : ∀ d, S.Exists d → d ≠ h.fresh := by
    rintro d ⟨s, hs⟩ rfl; have := R.world.lt hs; omega
  have same : ∀ d, d ∉ touched k → S.Exists d → spec N dv S h.fresh k d = S d := by
    intro d hd hx
    have := nf d hx
    have dl : ∀ c, d ≠ c → S.del c d = S d := by intro c q; simp [State.del, q]
    cases k <;> simp only [touched, List.mem_cons, List.not_mem_nil, or_false, not_false_eq_true, not_or] at hd
    case store c i a =>
      show (match a.val S with | some v => S.put c ((S.vals c).set i v) | none => S) d = S d
      cases a.val S with
      | none => rfl
      | some v => exact put_other _ hd _
    case swap c d' => exact (put_other _ hd.2 _).trans (put_other _ hd.1 _)
    case destroy c => exact dl c hd
    all_goals first | exact put_other _ hd _ | exact put_other _ this _
  refine ⟨_, h', _, q, R', kept_of R R'.world same, ?_⟩
  intro d hd hx
  obtain ⟨s, hs⟩ := hx
  exact ⟨s, (same d hd ⟨s, hs⟩).trans hs⟩

/-! ## Concrete cases

Two fixed vectors of capacity 6: one with the elements 5, 6, 7, 8, and one with the elements 1, 2. -/

theorem demo : ∃ (c d : Nat) (S : State Nat) (h : Mem Nat), Reach 6 0 S h ∧ S.Exists c ∧ S.Exists d ∧ c ≠ d ∧ Observes 6 h c [5, 6, 7, 8] ∧ Observes 6 h d [1, 2] := by
  obtain ⟨c, h1, S1, _, _, R1, x1, o1, _⟩ := construct_from_values (N := 6) (dv := 0) Reach.start [5, 6, 7, 8]
  obtain ⟨d, h2, S2, _, nd, R2, x2, o2, k2, y2⟩ := construct_from_values (dv := 0) R1 [1, 2]
  exact ⟨c, d, S2, h2, R2, y2 c x1, x2, by rintro rfl; exact nd x1, k2 c (by simp) x1 _ o1, o2⟩

example : ∃ (c d : Nat) (h : Mem Nat), Observes 6 h c [5, 6, 7, 8] ∧ Observes 6 h d [1, 2] ∧
    exec 6 0 (.swap c d) h = .ub .lifetime ∧
    (∃ r h', exec 6 0 (.swap d c) h = .ok (r, h') ∧ Observes 6 h' c [1, 2] ∧ Observes 6 h' d [5, 6, 7, 8]) ∧
    exec 6 0 (.eraseRange c 2 2) h = .ub .lifetime ∧
    exec 6 0 (.insertN c 0 1 (.elem c 0)) h = .ub .lifetime ∧
    (∃ r h', exec 6 0 (.insertN c 0 1 (.elem c 3)) h = .ok (r, h') ∧ Observes 6 h' c [7, 5, 6, 7, 8]) ∧
    (∃ r h', exec 6 0 (.insertN c 3 4 (.elem c 1)) h = .ok (r, h') ∧ Observes 6 h' c [5, 6, 7, 6, 6, 6]) ∧
    (∃ r h', exec 6 0 (.insertRange c 1 (.range d 0 2)) h = .ok (r, h') ∧ Observes 6 h' c [5, 1, 2, 6, 7, 8]) ∧
    exec 6 0 (.assignN c 3 (.elem c 2)) h = .ub .lifetime ∧
    (∃ r h', exec 6 0 (.assignN d 9 (.elem c 2)) h = .ok (r, h') ∧ Observes 6 h' d [7, 7, 7, 7, 7, 7]) := by
  obtain ⟨c, d, S, h, R, hc, hd, ne, oc, od⟩ := demo
  refine ⟨c, d, h, oc, od, swap_longer_ub R hc hd oc od (by decide), ?_, erase_empty_range_ub R hc oc (by decide),
    insert_own_element_ub R hc oc (by decide) (by decide) (by decide), ?_, ?_, ?_, assign_n_own_element_ub R hc oc (by decide) (by decide), ?_⟩
  · obtain ⟨h', S', e, _, _, _, o1, o2, _⟩ := swap_exchanges_partial R hd hc od oc (by decide)
    exact ⟨_, h', e, o2, o1⟩
  · obtain ⟨h', e, o⟩ := insert_own_element_wrong (n := 1) (i := 0) (a := 3) (w := 7) R hc oc (by decide) (by decide) (by decide) rfl
    exact ⟨_, h', e, o⟩
  · obtain ⟨h', S', e, _, _, _, o⟩ := insert_element_partial (a := 1) (v := 6) (i := 3) (n := 4) R hc hc oc oc rfl (by decide) (.inr (.inl (by decide)))
    exact ⟨_, h', e, o⟩
  · obtain ⟨h', S', e, _, _, o, _⟩ := insert_range_truncates (i := 1) (j := 0) (k := 2) R hc hd oc od (by decide) (by decide) (by decide) (.inl (Ne.symm ne))
    exact ⟨_, h', e, o⟩
  · obtain ⟨h', S', e, _, _, o, _⟩ := assign_n_partial (a := 2) (v := 7) R hd hc (Ne.symm ne) oc rfl 9
    exact ⟨_, h', e, o⟩

end Verif.Vec.FV.FVProps
