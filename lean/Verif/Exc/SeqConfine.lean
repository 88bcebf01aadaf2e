import Verif.Exc.SlistFrame
import Verif.Seq.LazyProps2
import Verif.Seq.ListProps5
import Verif.Seq.FwdProps3
import Verif.Seq.BwdProps3
/-!
# C158: calls on different linked containers touch different memory

Every access of the model to a cell that is not allocated is undefined behaviour. So that a call returns in a memory in which only the cells of the containers
it names are allocated means that it accesses nothing else, apart from the cells it allocates itself.
-/
set_option linter.unusedVariables false
set_option linter.unusedSimpArgs false
namespace Verif.Seq
open Verif Verif.Exc.XSeq
open Verif.Seq.DList (Arg)
variable {T σ α : Type}

open Classical in
/-- The memory `h` in which only the cells of `M` are allocated. -/
noncomputable def Heap.part (h : Heap T) (M : Addr → Prop) : Heap T := { h with live := fun x => h.live x && decide (M x) }

/-- `p` needs no cell of `h` but those of `M`: it returns also in the memory that consists only of these, with the same result; what it makes of them (and the
cells it allocates) in the whole memory is what it makes of them there, and all other cells of `h` stay as they are. -/
def Confined (p : Prog (Heap T) α) (h : Heap T) (M : Addr → Prop) : Prop :=
  ∃ r m h', p (h.part M) = .ok (r, m) ∧ p h = .ok (r, h') ∧ m = h'.part (fun x => M x ∨ h.fresh ≤ x) ∧
    ∀ x, x < h.fresh → ¬ M x → Same h h' x

theorem Confined.of_framed {p : Prog (Heap T) α} (fr : Framed p) {h : Heap T} (w : Wf h) {M : Addr → Prop} {r : α} {m : Heap T}
    (e : p (h.part M) = .ok (r, m)) : Confined p h M := by
  classical
  let L : Addr → Bool := fun x => !decide (M x) && decide (x < h.fresh)
  have eq : without h L = h.part M := by
    unfold without Heap.part
    congr 1
    funext x
    cases l : h.live x with
    | false => simp
    | true => simp [L, w.used x l]
  rw [← eq] at e
  obtain ⟨h', e1, e2, e3, e4⟩ := fr.out L h (fun x l => by simp [L] at l; exact l.2) r m e
  rw [eq] at e
  refine ⟨r, m, h', e, e1, ?_, fun x lx nx => e4 x (by simp [L, lx, nx])⟩
  rw [← e2]
  unfold without Heap.part
  congr 1
  funext x
  by_cases a : M x <;> by_cases b : x < h.fresh <;> simp [L, a, b]
  · exact fun _ => Nat.le_of_not_lt b

open Classical in
/-- The state in which only the containers of `N` exist. -/
noncomputable def onlyState (S : Addr → Option σ) (N : Addr → Prop) : Addr → Option σ := fun c => if N c then S c else none

theorem onlyState_of {S : Addr → Option σ} {N : Addr → Prop} {c : Addr} (hc : N c) : onlyState S N c = S c := by simp [onlyState, hc]
theorem onlyState_some {S : Addr → Option σ} {N : Addr → Prop} {c : Addr} {s : σ} (q : onlyState S N c = some s) : N c ∧ S c = some s := by
  unfold onlyState at q
  split at q
  · exact ⟨by assumption, q⟩
  · cases q

theorem World.part {I : Iface T σ} {h : Heap T} {S : Addr → Option σ} (W : World I h S) (N : Addr → Prop) :
    World I (h.part (CellsOf I S N)) (onlyState S N) := by
  refine ⟨⟨W.wf.pos, by simp [Heap.part, W.wf.null], fun x l => W.wf.used x ?_⟩, fun c s q => ?_, fun c s c' s' q q' => ?_, fun x l => ?_⟩
  · simp only [Heap.part, Bool.and_eq_true] at l; exact l.1
  · obtain ⟨n, q⟩ := onlyState_some q
    refine I.frame (W.own c s q) fun x hx => ⟨rfl, rfl, rfl, rfl, ?_⟩
    have : CellsOf I S N x := ⟨c, s, n, q, hx⟩
    simp [Heap.part, this]
  · exact W.disj c s c' s' (onlyState_some q).2 (onlyState_some q').2
  · simp only [Heap.part, Bool.and_eq_true, decide_eq_true_eq] at l
    obtain ⟨c, s, n, q, hx⟩ := l.2
    exact ⟨c, s, by rw [onlyState_of n]; exact q, hx⟩

theorem part_wf {h : Heap T} (w : Wf h) (M : Addr → Prop) : Wf (h.part M) := by
  refine ⟨w.pos, by simp [Heap.part, w.null], fun x l => w.used x ?_⟩
  simp only [Heap.part, Bool.and_eq_true] at l; exact l.1

theorem part_same {h : Heap T} {M : Addr → Prop} {x : Addr} (m : M x) : Same h (h.part M) x := ⟨rfl, rfl, rfl, rfl, by simp [Heap.part, m]⟩

/-- Cells of different containers are different, and allocated. -/
theorem World.apart {I : Iface T σ} {h : Heap T} {S : Addr → Option σ} (W : World I h S) {N N' : Addr → Prop} (d : ∀ c, N c → ¬ N' c) {x : Addr}
    (a : CellsOf I S N x) : ¬ CellsOf I S N' x ∧ x < h.fresh := by
  obtain ⟨c, s, n, q, hx⟩ := a
  refine ⟨?_, W.wf.used x (I.live (W.own c s q) x hx)⟩
  rintro ⟨c', s', n', q', hx'⟩
  exact W.disj c s c' s' q q' (fun e => d c n (e ▸ n')) x hx hx'

/-- The list a reference argument points into. -/
def Owner (elems : σ → List (Addr × T)) (S : Addr → Option σ) : Arg T → Addr → Prop
  | .ext _, _ => False
  | .elem a, c => ∃ s, S c = some s ∧ a ∈ (elems s).map Prod.fst

/-! ## `ttl::list` -/
namespace DList
/-- The lists a call names. -/
def Call.args : Call T → List Addr
  | .create => [] | .copyOf s => [s] | .ctorN _ _ => [] | .ctorVals _ => [] | .destroy c => [c] | .pushFront c _ => [c] | .pushBack c _ => [c]
  | .popFront c => [c] | .popBack c => [c] | .insert c _ _ => [c] | .insertN c _ _ _ => [c] | .insertVals c _ _ => [c] | .insertList c _ d => [c, d]
  | .erase c _ => [c] | .eraseRange c _ _ => [c] | .clear c => [c] | .assign c d => [c, d] | .assignN c _ _ => [c] | .assignVals c _ => [c]
  | .resize c _ _ => [c] | .removeIf c _ => [c] | .remove c _ _ => [c] | .unique c _ => [c] | .merge c d _ => [c, d] | .reverse c => [c]
  | .spliceAll c _ d => [c, d] | .spliceOne c _ d _ => [c, d] | .splice c _ d _ _ => [c, d] | .swap c d => [c, d] | .store c _ _ => [c]

/-- The cells of the lists a call names: the list objects and their elements. -/
def Call.Mine (q : Call T) (S : State T) (x : Addr) : Prop := ∃ c ∈ q.args, S.Exists c ∧ (x = c ∨ x ∈ (S.get c).map Prod.fst)

theorem legal_congr {S S' : State T} {q : Call T} (h : ∀ c ∈ q.args, S' c = S c) (lg : Legal S q) : Legal S' q := by
  cases q <;> simp [Call.args] at h <;> simp only [Legal, State.Exists, State.Intact, State.get, h] at lg ⊢ <;> exact lg

theorem mine_iff (q : Call T) (S : State T) : q.Mine S = CellsOf iface S (· ∈ q.args) := by
  funext x
  apply propext
  constructor
  · rintro ⟨c, hc, ⟨s, hs⟩, hx⟩
    refine ⟨c, s, hc, hs, ?_⟩
    simp only [State.get, hs] at hx
    simpa [iface, cells] using hx
  · rintro ⟨c, s, hc, hs, hx⟩
    refine ⟨c, hc, ⟨s, hs⟩, ?_⟩
    simp only [State.get, hs]
    simpa [iface, cells] using hx

/-- **C158, `ttl::list`.** -/
theorem call_confined {S : State T} {h : Heap T} (R : Reach S h) (q : Call T) (lg : Legal S q) : Confined (exec q) h (q.Mine S) := by
  have W := R.world
  rw [mine_iff]
  obtain ⟨m, e, _⟩ := step_ok (World.part W (· ∈ q.args)) q (legal_congr (fun c hc => onlyState_of hc) lg)
  exact Confined.of_framed (DL.framed_exec q) W.wf e

/-- **C158, `ttl::list`, two calls.** -/
theorem calls_apart {S : State T} {h : Heap T} (R : Reach S h) (q1 q2 : Call T) (l1 : Legal S q1) (d : ∀ c ∈ q1.args, c ∉ q2.args) :
    (∀ x, q1.Mine S x → ¬ q2.Mine S x) ∧ ∀ h', exec q1 h = .ok ((), h') → ∀ x, q2.Mine S x → Same h h' x := by
  have W := R.world
  refine ⟨fun x a => ?_, fun h' e x b => ?_⟩
  · rw [mine_iff] at a ⊢
    exact (World.apart W d a).1
  · obtain ⟨r, m, h2, e1, e2, _, ff⟩ := call_confined R q1 l1
    rw [e] at e2; cases e2
    rw [mine_iff] at b
    have z := World.apart W (fun c n1 n2 => d c n2 n1) b
    refine ff x z.2 ?_
    rw [mine_iff]
    exact z.1

/-- **C158, `ttl::list`, reading.** Iteration writes nothing and needs no cell but those of the list. -/
theorem reads_confined {S : State T} {h : Heap T} (R : Reach S h) {c : Addr} (hc : S.Exists c) :
    entries c h = .ok (S.get c, h) ∧ entries c (h.part fun x => x = c ∨ x ∈ (S.get c).map Prod.fst) =
      .ok (S.get c, h.part fun x => x = c ∨ x ∈ (S.get c).map Prod.fst) := by
  have W := R.world
  refine ⟨ListProps.reach_shows R hc, ?_⟩
  obtain ⟨s, hs⟩ := hc
  have o' : iface.own (h.part fun x => x = c ∨ x ∈ (S.get c).map Prod.fst) c s := iface.frame (W.own c s hs) fun x hx => part_same (by
    simp only [State.get, hs]
    simpa [iface, cells] using hx)
  have W' : World iface (h.part fun x => x = c ∨ x ∈ (S.get c).map Prod.fst) (fun y => if y = c then some s else none) := by
    refine ⟨part_wf W.wf _, fun y t q => ?_, fun y t y' t' q q' ne => ?_, fun x l => ⟨c, s, by simp, ?_⟩⟩
    · split at q
      · rename_i z; cases q; rw [z]; exact o'
      · cases q
    · split at q
      · split at q'
        · rename_i z z'; exact absurd (z.trans z'.symm) ne
        · cases q'
      · cases q
    · simp only [Heap.part, Bool.and_eq_true, decide_eq_true_eq, State.get, hs] at l
      simpa [iface, cells] using l.2
  have := ListProps.World.shows W' (c := c) ⟨s, by simp⟩
  have g : State.get (fun y => if y = c then some s else none) c = S.get c := by simp [State.get, hs]
  rw [g] at this
  exact this

/-- The hypotheses are met: two lists, `c` holding 1 and 2 and `d` holding 3, and the calls `c.erase(begin)` and `d.push_back(4)`. -/
example : ∃ (S : State Nat) (h : Heap Nat) (c d : Addr), Reach S h ∧ Legal S (.erase c 0) ∧ Legal S (.pushBack d 4) ∧
    (∀ x ∈ (Call.erase c 0 : Call Nat).args, x ∉ (Call.pushBack d 4 : Call Nat).args) := by
  obtain ⟨S, h, c, d, es, fs, R, hc, hd, ne, s1, s2, e1, e2⟩ := ListProps.exists_lists [1, 2] [3]
  have g := ListProps.Shows.inj (ListProps.reach_shows R (by obtain ⟨x, y⟩ := hc; exact ⟨_, y⟩)) s1
  refine ⟨S, h, c, d, R, ⟨hc, ?_⟩, hd, by simpa [Call.args] using ne⟩
  rw [g, ← List.length_map (f := Prod.snd), e1]; decide
end DList

/-! ## `ttl::forward_list` -/
namespace FList
/-- The lists a call names. -/
def Call.args : Call T → List Addr
  | .create => [] | .copyOf s => [s] | .ctorN _ _ => [] | .ctorVals _ => [] | .destroy c => [c] | .pushFront c _ => [c] | .popFront c => [c]
  | .insert c _ _ => [c] | .insertN c _ _ _ => [c] | .insertVals c _ _ => [c] | .insertList c _ d => [c, d] | .erase c _ => [c] | .eraseRange c _ _ => [c]
  | .clear c => [c] | .assign c d => [c, d] | .assignN c _ _ => [c] | .assignVals c _ => [c] | .reverse c => [c] | .spliceAll c _ d => [c, d]
  | .spliceOne c _ d _ => [c, d] | .splice c _ d _ _ => [c, d] | .swap c d => [c, d] | .store c _ _ => [c]

/-- The reference a call is given. -/
def Call.ref : Call T → Option (Arg T)
  | .ctorN _ v => some v | .insertN _ _ _ v => some v | .assignN _ _ v => some v | _ => none

/-- The lists a call names, and the list that owns the element it is given by reference. -/
def Call.Names (q : Call T) (S : State T) (c : Addr) : Prop := c ∈ q.args ∨ ∃ v, q.ref = some v ∧ Owner id S v c

/-- Their cells: the list objects and their elements. -/
def Call.Mine (q : Call T) (S : State T) (x : Addr) : Prop := ∃ c, q.Names S c ∧ S.Exists c ∧ (x = c ∨ x ∈ (S.get c).map Prod.fst)

theorem legal_congr {S S' : State T} {q : Call T} (h : ∀ c ∈ q.args, S' c = S c)
    (hr : ∀ a, q.ref = some a → ∀ v, S.Refers v a → S'.Refers v a) (lg : Legal S q) : Legal S' q := by
  have rf : ∀ a, q.ref = some a → (∃ v, S.Refers v a) → ∃ v, S'.Refers v a := fun a e ⟨v, x⟩ => ⟨v, hr a e v x⟩
  cases q with
  | ctorN n v => exact rf v rfl lg
  | insertN c i n v =>
    simp [Call.args] at h
    simp only [Legal, State.Exists, State.get, h] at lg ⊢
    exact ⟨lg.1, lg.2.1, rf v rfl lg.2.2⟩
  | assignN c n v =>
    simp [Call.args] at h
    simp only [Legal, State.Exists, State.get, h] at lg ⊢
    exact ⟨lg.1, rf v rfl lg.2.1, lg.2.2⟩
  | _ => simp [Call.args] at h <;> simp only [Legal, State.Exists, State.get, h] at lg ⊢ <;> exact lg

theorem mine_iff (q : Call T) (S : State T) : q.Mine S = CellsOf iface S (q.Names S) := by
  funext x
  apply propext
  constructor
  · rintro ⟨c, hc, ⟨s, hs⟩, hx⟩
    refine ⟨c, s, hc, hs, ?_⟩
    simp only [State.get, hs] at hx
    simpa [iface, scells] using hx
  · rintro ⟨c, s, hc, hs, hx⟩
    refine ⟨c, hc, ⟨s, hs⟩, ?_⟩
    simp only [State.get, hs]
    simpa [iface, scells] using hx

/-- **C158, `ttl::forward_list`.** -/
theorem call_confined {S : State T} {h : Heap T} (R : Reach S h) (q : Call T) (lg : Legal S q) : Confined (exec q) h (q.Mine S) := by
  have W := R.world
  rw [mine_iff]
  obtain ⟨m, e, _⟩ := step_ok (World.part W (q.Names S)) q (legal_congr (fun c hc => onlyState_of (.inl hc)) (fun a e v rv => by
    cases a with
    | ext w => exact rv
    | elem a =>
      obtain ⟨c, es, q1, q2⟩ := rv
      exact ⟨c, es, (onlyState_of (.inr ⟨_, e, es, q1, List.mem_map_of_mem (f := Prod.fst) q2⟩)).trans q1, q2⟩) lg)
  exact Confined.of_framed (FL.framed_exec q) W.wf e

/-- **C158, `ttl::forward_list`, two calls.** -/
theorem calls_apart {S : State T} {h : Heap T} (R : Reach S h) (q1 q2 : Call T) (l1 : Legal S q1) (d : ∀ c, q1.Names S c → ¬ q2.Names S c) :
    (∀ x, q1.Mine S x → ¬ q2.Mine S x) ∧ ∀ h', exec q1 h = .ok ((), h') → ∀ x, q2.Mine S x → Same h h' x := by
  have W := R.world
  refine ⟨fun x a => ?_, fun h' e x b => ?_⟩
  · rw [mine_iff] at a ⊢
    exact (World.apart W d a).1
  · obtain ⟨r, m, h2, e1, e2, _, ff⟩ := call_confined R q1 l1
    rw [e] at e2; cases e2
    rw [mine_iff] at b
    have z := World.apart W (fun c n1 n2 => d c n2 n1) b
    refine ff x z.2 ?_
    rw [mine_iff]
    exact z.1

/-- **C158, `ttl::forward_list`, reading.** Iteration writes nothing and needs no cell but those of the container. -/
theorem reads_confined {S : State T} {h : Heap T} (R : Reach S h) {c : Addr} (hc : S.Exists c) :
    SList.entries c h = .ok (S.get c, h) ∧ SList.entries c (h.part fun x => x = c ∨ x ∈ (S.get c).map Prod.fst) =
      .ok (S.get c, h.part fun x => x = c ∨ x ∈ (S.get c).map Prod.fst) := by
  have W := R.world
  obtain ⟨s, hs⟩ := hc
  have o := W.own c s hs
  have g : S.get c = s := by simp [State.get, hs]
  rw [g]
  have o' : Slist (h.part fun x => x = c ∨ x ∈ (s).map Prod.fst) c s := o.frame fun x hx => part_same (by simpa [scells] using hx)
  exact ⟨o.entries W.wf, o'.entries (part_wf W.wf _)⟩

/-- The hypotheses are met: two lists, `c` holding 1 and 2 and `d` holding 3, and the calls `c.erase_after(before_begin)` and `d.push_front(4)`. -/
example : ∃ (S : State Nat) (h : Heap Nat) (c d : Addr), Reach S h ∧ Legal S (.erase c 0) ∧ Legal S (.pushFront d 4) ∧
    (∀ x, (Call.erase c 0 : Call Nat).Names S x → ¬ (Call.pushFront d 4 : Call Nat).Names S x) := by
  obtain ⟨S, h, c, d, es, fs, R, hc, hd, ne, s1, s2, e1, e2⟩ := FwdProps.exists_lists [1, 2] [3]
  have g := FwdProps.Shows.inj (FwdProps.reach_shows R hc) s1
  refine ⟨S, h, c, d, R, ⟨hc, ?_⟩, hd, by simpa [Call.Names, Call.args, Call.ref] using ne⟩
  rw [g, ← List.length_map (f := Prod.snd), e1]; decide
end FList

/-! ## `ttl::backward_list` -/
namespace BList
/-- The lists a call names. -/
def Call.args : Call T → List Addr
  | .create => [] | .copyOf s => [s] | .ctorN _ _ => [] | .ctorVals _ => [] | .destroy c => [c] | .pushFront c _ => [c] | .pushBack c _ => [c]
  | .popFront c => [c] | .insert c _ _ => [c] | .insertN c _ _ _ => [c] | .insertVals c _ _ => [c] | .insertList c _ d => [c, d] | .erase c _ => [c]
  | .eraseRange c _ _ => [c] | .clear c => [c] | .assign c d => [c, d] | .assignN c _ _ => [c] | .assignVals c _ => [c] | .reverse c => [c]
  | .swap c d => [c, d] | .store c _ _ => [c]

/-- The reference a call is given. -/
def Call.ref : Call T → Option (Arg T)
  | .ctorN _ v => some v | .insertN _ _ _ v => some v | .assignN _ _ v => some v | _ => none

/-- The lists a call names, and the list that owns the element it is given by reference. -/
def Call.Names (q : Call T) (S : State T) (c : Addr) : Prop := c ∈ q.args ∨ ∃ v, q.ref = some v ∧ Owner BState.elems S v c

/-- Their cells: the list objects and their elements. -/
def Call.Mine (q : Call T) (S : State T) (x : Addr) : Prop := ∃ c, q.Names S c ∧ S.Exists c ∧ (x = c ∨ x ∈ (S.get c).map Prod.fst)

theorem legal_congr {S S' : State T} {q : Call T} (h : ∀ c ∈ q.args, S' c = S c)
    (hr : ∀ a, q.ref = some a → ∀ v, S.Refers v a → S'.Refers v a) (lg : Legal S q) : Legal S' q := by
  have rf : ∀ a, q.ref = some a → (∃ v, S.Refers v a) → ∃ v, S'.Refers v a := fun a e ⟨v, x⟩ => ⟨v, hr a e v x⟩
  cases q with
  | ctorN n v => exact rf v rfl lg
  | insertN c i n v =>
    simp [Call.args] at h
    simp only [Legal, State.Exists, State.get, h] at lg ⊢
    exact ⟨lg.1, lg.2.1, rf v rfl lg.2.2⟩
  | assignN c n v =>
    simp [Call.args] at h
    simp only [Legal, State.Exists, State.get, h] at lg ⊢
    exact ⟨lg.1, rf v rfl lg.2.1, lg.2.2⟩
  | _ => simp [Call.args] at h <;> simp only [Legal, State.Exists, State.get, State.endOf, h] at lg ⊢ <;> exact lg

theorem mine_iff (q : Call T) (S : State T) : q.Mine S = CellsOf iface S (q.Names S) := by
  funext x
  apply propext
  constructor
  · rintro ⟨c, hc, ⟨s, hs⟩, hx⟩
    refine ⟨c, s, hc, hs, ?_⟩
    simp only [State.get, hs] at hx
    simpa [iface, scells] using hx
  · rintro ⟨c, s, hc, hs, hx⟩
    refine ⟨c, hc, ⟨s, hs⟩, ?_⟩
    simp only [State.get, hs]
    simpa [iface, scells] using hx

/-- **C158, `ttl::backward_list`.** -/
theorem call_confined {S : State T} {h : Heap T} (R : Reach S h) (q : Call T) (lg : Legal S q) : Confined (exec q) h (q.Mine S) := by
  have W := R.world
  rw [mine_iff]
  obtain ⟨m, e, _⟩ := step_ok (World.part W (q.Names S)) q (legal_congr (fun c hc => onlyState_of (.inl hc)) (fun a e v rv => by
    cases a with
    | ext w => exact rv
    | elem a =>
      obtain ⟨c, es, q1, q2⟩ := rv
      exact ⟨c, es, (onlyState_of (.inr ⟨_, e, es, q1, List.mem_map_of_mem (f := Prod.fst) q2⟩)).trans q1, q2⟩) lg)
  exact Confined.of_framed (BL.framed_exec q) W.wf e

/-- **C158, `ttl::backward_list`, two calls.** -/
theorem calls_apart {S : State T} {h : Heap T} (R : Reach S h) (q1 q2 : Call T) (l1 : Legal S q1) (d : ∀ c, q1.Names S c → ¬ q2.Names S c) :
    (∀ x, q1.Mine S x → ¬ q2.Mine S x) ∧ ∀ h', exec q1 h = .ok ((), h') → ∀ x, q2.Mine S x → Same h h' x := by
  have W := R.world
  refine ⟨fun x a => ?_, fun h' e x b => ?_⟩
  · rw [mine_iff] at a ⊢
    exact (World.apart W d a).1
  · obtain ⟨r, m, h2, e1, e2, _, ff⟩ := call_confined R q1 l1
    rw [e] at e2; cases e2
    rw [mine_iff] at b
    have z := World.apart W (fun c n1 n2 => d c n2 n1) b
    refine ff x z.2 ?_
    rw [mine_iff]
    exact z.1

/-- **C158, `ttl::backward_list`, reading.** Iteration writes nothing and needs no cell but those of the container. -/
theorem reads_confined {S : State T} {h : Heap T} (R : Reach S h) {c : Addr} (hc : S.Exists c) :
    SList.entries c h = .ok (S.get c, h) ∧ SList.entries c (h.part fun x => x = c ∨ x ∈ (S.get c).map Prod.fst) =
      .ok (S.get c, h.part fun x => x = c ∨ x ∈ (S.get c).map Prod.fst) := by
  have W := R.world
  obtain ⟨s, hs⟩ := hc
  have o := W.own c s hs
  have g : S.get c = s.elems := by simp [State.get, hs]
  rw [g]
  have o' : Slist (h.part fun x => x = c ∨ x ∈ (s.elems).map Prod.fst) c s.elems := o.1.frame fun x hx => part_same (by simpa [scells] using hx)
  exact ⟨o.1.entries W.wf, o'.entries (part_wf W.wf _)⟩

/-- The hypotheses are met: two lists and the calls `c.reverse()` and `d.push_front(4)`. -/
example : ∃ (S : State Nat) (h : Heap Nat) (c d : Addr), Reach S h ∧ Legal S (.reverse c) ∧ Legal S (.pushFront d 4) ∧
    (∀ x, (Call.reverse c : Call Nat).Names S x → ¬ (Call.pushFront d 4 : Call Nat).Names S x) := by
  obtain ⟨S, h, c, d, es, fs, R, hc, hd, ne, s1, s2, e1, e2⟩ := BwdProps.exists_lists [1, 2] [3]
  exact ⟨S, h, c, d, R, hc, hd, by simpa [Call.Names, Call.args, Call.ref] using ne⟩
end BList

/-! ## `ttl::lazy_queue` -/
namespace LQueue
/-- The queues a call names. -/
def Call.args : Call T → List Addr
  | .create => [] | .copyOf s => [s] | .ctorN _ _ => [] | .destroy c => [c] | .cleanup c => [c] | .pushFront c _ => [c] | .pushBack c _ => [c]
  | .popFront c => [c] | .insert c _ _ => [c] | .insertN c _ _ _ => [c] | .insertVals c _ _ => [c] | .insertQueue c _ d => [c, d] | .erase c _ => [c]
  | .eraseRange c _ _ => [c] | .clear c => [c] | .assign c d => [c, d] | .swap c d => [c, d] | .rollHead c => [c] | .store c _ _ => [c]

/-- The reference a call is given. -/
def Call.ref : Call T → Option (Arg T)
  | .ctorN _ v => some v | .insertN _ _ _ v => some v | _ => none

/-- The queues a call names, and the queue that owns the element it is given by reference. -/
def Call.Names (q : Call T) (S : State T) (c : Addr) : Prop := c ∈ q.args ∨ ∃ v, q.ref = some v ∧ Owner QState.elems S v c

/-- Their cells: the queue objects (with the heads of both chains), their elements and the nodes they keep for reuse. -/
def Call.Mine (q : Call T) (S : State T) (x : Addr) : Prop :=
  ∃ c, q.Names S c ∧ S.Exists c ∧ (x = c ∨ x = c + 1 ∨ x ∈ (S.get c).map Prod.fst ∨ x ∈ S.pool c)

theorem legal_congr {triv : Bool} {S S' : State T} {q : Call T} (h : ∀ c ∈ q.args, S' c = S c)
    (hr : ∀ a, q.ref = some a → ∀ v, S.Refers v a → S'.Refers v a) (lg : Legal triv S q) : Legal triv S' q := by
  have rf : ∀ a, q.ref = some a → (∃ v, S.Refers v a) → ∃ v, S'.Refers v a := fun a e ⟨v, x⟩ => ⟨v, hr a e v x⟩
  cases q with
  | ctorN n v => exact rf v rfl lg
  | insertN c i n v =>
    simp [Call.args] at h
    simp only [Legal, State.Exists, State.get, h] at lg ⊢
    exact ⟨lg.1, lg.2.1, rf v rfl lg.2.2⟩
  | _ => simp [Call.args] at h <;> simp only [Legal, State.Exists, State.get, State.pool, h] at lg ⊢ <;> exact lg

theorem mine_iff (q : Call T) (S : State T) : q.Mine S = CellsOf iface S (q.Names S) := by
  have m : ∀ (c x : Addr) (s : QState T), x ∈ iface.cells c s ↔ (x = c ∨ x = c + 1 ∨ x ∈ s.elems.map Prod.fst ∨ x ∈ s.pool) := by
    intro c x s
    simp only [iface, qcells, scells, List.mem_append, List.mem_cons]
    constructor
    · rintro ((a | a) | a | a)
      · exact .inl a
      · exact .inr (.inr (.inl a))
      · exact .inr (.inl a)
      · exact .inr (.inr (.inr a))
    · rintro (a | a | a | a)
      · exact .inl (.inl a)
      · exact .inr (.inl a)
      · exact .inl (.inr a)
      · exact .inr (.inr a)
  funext x
  apply propext
  constructor
  · rintro ⟨c, hc, ⟨s, hs⟩, hx⟩
    refine ⟨c, s, hc, hs, (m c x s).2 ?_⟩
    simpa only [State.get, State.pool, hs, Option.map_some, Option.getD_some] using hx
  · rintro ⟨c, s, hc, hs, hx⟩
    refine ⟨c, hc, ⟨s, hs⟩, ?_⟩
    simpa only [State.get, State.pool, hs, Option.map_some, Option.getD_some] using (m c x s).1 hx

/-- **C158, `ttl::lazy_queue`.** -/
theorem call_confined {triv : Bool} {S : State T} {h : Heap T} (R : Reach triv S h) (q : Call T) (lg : Legal triv S q) :
    Confined (exec triv q) h (q.Mine S) := by
  have W := R.world
  rw [mine_iff]
  obtain ⟨m, e, _⟩ := step_ok (World.part W (q.Names S)) q (legal_congr (fun c hc => onlyState_of (.inl hc)) (fun a e v rv => by
    cases a with
    | ext w => exact rv
    | elem a =>
      obtain ⟨c, es, q1, q2⟩ := rv
      exact ⟨c, es, (onlyState_of (.inr ⟨_, e, es, q1, List.mem_map_of_mem (f := Prod.fst) q2⟩)).trans q1, q2⟩) lg)
  exact Confined.of_framed (LQ.framed_exec triv q) W.wf e

/-- **C158, `ttl::lazy_queue`, two calls.** -/
theorem calls_apart {triv : Bool} {S : State T} {h : Heap T} (R : Reach triv S h) (q1 q2 : Call T) (l1 : Legal triv S q1)
    (d : ∀ c, q1.Names S c → ¬ q2.Names S c) :
    (∀ x, q1.Mine S x → ¬ q2.Mine S x) ∧ ∀ h', exec triv q1 h = .ok ((), h') → ∀ x, q2.Mine S x → Same h h' x := by
  have W := R.world
  refine ⟨fun x a => ?_, fun h' e x b => ?_⟩
  · rw [mine_iff] at a ⊢
    exact (World.apart W d a).1
  · obtain ⟨r, m, h2, e1, e2, _, ff⟩ := call_confined R q1 l1
    rw [e] at e2; cases e2
    rw [mine_iff] at b
    have z := World.apart W (fun c n1 n2 => d c n2 n1) b
    refine ff x z.2 ?_
    rw [mine_iff]
    exact z.1

/-- **C158, `ttl::lazy_queue`, reading.** Iteration writes nothing and needs no cell but those of the container. -/
theorem reads_confined {triv : Bool} {S : State T} {h : Heap T} (R : Reach triv S h) {c : Addr} (hc : S.Exists c) :
    SList.entries c h = .ok (S.get c, h) ∧ SList.entries c (h.part fun x => x = c ∨ x ∈ (S.get c).map Prod.fst) =
      .ok (S.get c, h.part fun x => x = c ∨ x ∈ (S.get c).map Prod.fst) := by
  have W := R.world
  obtain ⟨s, hs⟩ := hc
  have o := W.own c s hs
  have g : S.get c = s.elems := by simp [State.get, hs]
  rw [g]
  have o' : Slist (h.part fun x => x = c ∨ x ∈ (s.elems).map Prod.fst) c s.elems := o.1.main.frame fun x hx => part_same (by simpa [scells] using hx)
  exact ⟨o.1.main.entries W.wf, o'.entries (part_wf W.wf _)⟩

/-- The hypotheses are met: two queues and the calls `c.clear()` and `d.push_back(4)`. -/
example : ∃ (S : State Nat) (h : Heap Nat) (c d : Addr), Reach true S h ∧ Legal true S (.clear c) ∧ Legal true S (.pushBack d 4) ∧
    (∀ x, (Call.clear c : Call Nat).Names S x → ¬ (Call.pushBack d 4 : Call Nat).Names S x) := by
  obtain ⟨S, h, c, d, es, fs, R, hc, hd, ne, s1, s2, e1, e2⟩ := LazyProps.exists_queues (triv := true) [1, 2] [3]
  exact ⟨S, h, c, d, R, hc, hd, by simpa [Call.Names, Call.args, Call.ref] using ne⟩
end LQueue
end Verif.Seq
