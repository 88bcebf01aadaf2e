import Verif.Exc.VecFrame
import Verif.Vec.Props2
/-!
# C159: calls on different vectors touch different memory

Every access of the model to a vector object, block or element that does not exist is undefined behaviour. So that a call returns in a memory in which only
the vectors it names and their blocks exist means that it accesses nothing else, apart from what it allocates itself.
-/
set_option linter.unusedVariables false
set_option linter.unusedSimpArgs false
namespace Verif.Vec
open Verif Verif.Exc.XVec
variable {T ρ α : Type}

open Classical in
/-- The memory that has only the objects of `O` and the blocks of `B`. -/
noncomputable def Heap.part (h : Heap ρ T) (O B : Nat → Prop) : Heap ρ T :=
  { h with obj := fun c => if O c then h.obj c else none, size := fun b => if B b then h.size b else none,
           slot := fun b => if B b then h.slot b else fun _ => none }

/-- `p` needs of `h` only the objects of `O` and the blocks of `B`: it returns also in the memory that consists only of these, with the same result; what it
makes of them (and of what it allocates) in the whole memory is what it makes of them there, and all other objects and blocks of `h` stay as they are. -/
def Confined (p : Prog (Heap ρ T) α) (h : Heap ρ T) (O B : Nat → Prop) : Prop :=
  ∃ r m h', p (h.part O B) = .ok (r, m) ∧ p h = .ok (r, h') ∧ m = h'.part (fun c => O c ∨ h.fresh ≤ c) (fun b => B b ∨ h.fresh ≤ b) ∧
    (∀ c, c < h.fresh → ¬ O c → h'.obj c = h.obj c) ∧ ∀ b, b < h.fresh → ¬ B b → h'.size b = h.size b ∧ h'.slot b = h.slot b

theorem lay_none : lay ([] : List T) 0 [] = fun _ => none := by funext i; rw [lay_nil]; simp

/-- It is enough that `p` does in `h` what it does in `h` without the rest. -/
theorem Confined.of_without {p : Prog (Heap ρ T) α} {h : Heap ρ T} {O B : Nat → Prop} {r : α} {m : Heap ρ T}
    (fr : ∀ L : Lost, L.Below h.fresh → (O = B → L.blk = L.obj) → ∀ r m, p (without h L) = .ok (r, m) →
      ∃ h', p h = .ok (r, h') ∧ without h' L = m ∧ h.fresh ≤ h'.fresh ∧ SameIn L h h') (gone : ∀ b, h.fresh ≤ b → h.size b = none ∧ h.slot b = lay [] 0 [])
    (objs : ∀ c, h.fresh ≤ c → h.obj c = none) (e : p (h.part O B) = .ok (r, m)) : Confined p h O B := by
  classical
  let L : Lost := ⟨fun b => !decide (B b) && decide (b < h.fresh), fun c => !decide (O c) && decide (c < h.fresh)⟩
  have eq : without h L = h.part O B := by
    unfold without Heap.part
    congr 1
    · funext c
      by_cases q : O c
      · simp [L, q]
      · rcases Nat.lt_or_ge c h.fresh with l | l
        · simp [L, q, l]
        · simp [L, q, objs c l]
    · funext b
      by_cases q : B b
      · simp [L, q]
      · rcases Nat.lt_or_ge b h.fresh with l | l
        · simp [L, q, l]
        · simp [L, q, (gone b l).1]
    · funext b
      by_cases q : B b
      · simp [L, q]
      · rcases Nat.lt_or_ge b h.fresh with l | l
        · simp [L, q, l, lay_none]
        · simp [L, q, (gone b l).2, lay_none]
  rw [← eq] at e
  obtain ⟨h', e1, e2, e3, e4⟩ := fr L ⟨fun x l => by simp [L] at l; exact l.2, fun x l => by simp [L] at l; exact l.2⟩ (by rintro rfl; rfl) r m e
  rw [eq] at e
  refine ⟨r, m, h', e, e1, ?_, fun x lx nx => e4.obj x (by simp [L, lx, nx]), fun x lx nx => e4.blk x (by simp [L, lx, nx])⟩
  rw [← e2]
  unfold without Heap.part
  congr 1
  · funext x
    by_cases a : O x <;> by_cases b : x < h.fresh <;> simp [L, a, b]
    exact fun q => absurd q (by omega)
  · funext x
    by_cases a : B x <;> by_cases b : x < h.fresh <;> simp [L, a, b]
    exact fun q => absurd q (by omega)
  · funext x
    by_cases a : B x <;> by_cases b : x < h.fresh <;> simp [L, a, b, lay_none]
    exact fun q => absurd q (by omega)

theorem Confined.of_framed {p : Prog (Heap ρ T) α} (fr : Framed p) {h : Heap ρ T} (gone : ∀ b, h.fresh ≤ b → h.size b = none ∧ h.slot b = lay [] 0 [])
    (objs : ∀ c, h.fresh ≤ c → h.obj c = none) {O B : Nat → Prop} {r : α} {m : Heap ρ T} (e : p (h.part O B) = .ok (r, m)) : Confined p h O B :=
  .of_without (fun L b _ => fr.out L h b) gone objs e

open Classical in
/-- The state in which only the vectors of `N` exist. -/
noncomputable def onlyState (S : State T) (N : Nat → Prop) : State T := fun c => if N c then S c else none

theorem onlyState_of {S : State T} {N : Nat → Prop} {c : Nat} (hc : N c) : onlyState S N c = S c := by simp [onlyState, hc]
theorem onlyState_some {S : State T} {N : Nat → Prop} {c : Nat} {s : VS T} (q : onlyState S N c = some s) : N c ∧ S c = some s := by
  unfold onlyState at q
  split at q
  · exact ⟨by assumption, q⟩
  · cases q

/-- The blocks of the vectors of `N`. -/
def BlocksOf (S : State T) (N : Nat → Prop) (b : Nat) : Prop := b ≠ 0 ∧ ∃ c, N c ∧ S.Exists c ∧ (S.get c).blk = b

theorem IsVec.part {h : Mem T} {c : Nat} {s : VS T} (v : IsVec h c s) {O B : Nat → Prop} (o : O c) (b : s.blk ≠ 0 → B s.blk) (B0 : ¬ B 0) :
    IsVec (h.part O B) c s := by
  refine ⟨by simp [Heap.part, o, v.obj], ?_, fun z => by simp [Heap.part, b z, v.blk z], v.zero, v.le⟩
  by_cases z : s.blk = 0
  · have : s.vals = [] := List.eq_nil_of_length_eq_zero (by have := v.le; have := v.zero z; omega)
    rw [z, this, lay_none]; simp [Heap.part, B0]
  · simp [Heap.part, b z, v.slot]

theorem World.part {h : Mem T} {S : State T} (W : World h S) (N : Nat → Prop) : World (h.part N (BlocksOf S N)) (onlyState S N) := by
  have B := W.base
  have B0 : ¬ BlocksOf S N 0 := fun q => q.1 rfl
  have own : ∀ b, BlocksOf S N b → ∃ c s, onlyState S N c = some s ∧ s.blk = b := by
    rintro b ⟨_, c, n, ⟨s, hs⟩, e⟩
    exact ⟨c, s, (onlyState_of n).trans hs, by rw [get_some hs] at e; exact e⟩
  refine ⟨⟨B.pos, by simp [Heap.part, B0], by simp [Heap.part, B0, lay_none], fun b l => ?_, fun c l => ?_⟩, fun c s q => ?_, fun c q => ?_, fun c d s s' q q' => ?_, fun b n q => ?_, fun b i v q => ?_⟩
  · have l : h.fresh ≤ b := l
    have g := B.gone b l
    constructor
    · simp [Heap.part, g.1]
    · simp only [Heap.part, g.2, lay_none]; split <;> rfl
  · have l : h.fresh ≤ c := l
    simp [Heap.part, B.objs c l]
  · obtain ⟨n, q⟩ := onlyState_some q
    exact (W.vec c s q).part n (fun z => ⟨z, c, n, ⟨s, q⟩, by rw [get_some q]⟩) B0
  · by_cases n : N c
    · rw [onlyState_of n] at q; simp [Heap.part, W.only c q]
    · simp [Heap.part, n]
  · exact W.disj c d s s' (onlyState_some q).2 (onlyState_some q').2
  · simp only [Heap.part] at q
    split at q
    · exact own b (by assumption)
    · cases q
  · simp only [Heap.part] at q
    split at q
    · exact own b (by assumption)
    · cases q

/-- The vector a reference argument is an element of. -/
def CArg.owner : CArg T → List Nat
  | .ext _ => [] | .elem d _ => [d]
/-- The vector an iterator range belongs to. -/
def CSrc.owner : CSrc T → List Nat
  | .vals _ => [] | .range d _ _ => [d]

/-- The vectors a call names: those it is called on or given, and those that own what it is given by reference or as a range. -/
def Call.args : Call T → List Nat
  | .create => [] | .ctor _ => [] | .ctorN _ a => a.owner | .copyOf d => [d] | .ctorRange r => r.owner | .destroy c => [c] | .assign c d => [c, d]
  | .assignN c _ a => c :: a.owner | .assignRange c r => c :: r.owner | .resize c _ => [c] | .resizeX c _ a => c :: a.owner | .reserve c _ => [c]
  | .insert c _ a => c :: a.owner | .insertN c _ _ a => c :: a.owner | .insertRange c _ r => c :: r.owner | .pushBack c a => c :: a.owner
  | .popBack c => [c] | .erase c _ => [c] | .eraseRange c _ _ => [c] | .swap c d => [c, d] | .clear c => [c] | .store c _ a => c :: a.owner

theorem legal_congr {S S' : State T} {q : Call T} (h : ∀ c ∈ q.args, S' c = S c) (lg : Legal S q) : Legal S' q := by
  have a1 : ∀ a : CArg T, (∀ c ∈ a.owner, S' c = S c) → a.Valid S → a.Valid S' := by
    intro a e v
    cases a with
    | ext v => trivial
    | elem d i =>
      have e := e d (by simp [CArg.owner])
      simp only [CArg.Valid, State.Exists, State.vals, State.get, e] at v ⊢; exact v
  have r1 : ∀ r : CSrc T, (∀ c ∈ r.owner, S' c = S c) → r.Valid S → r.Valid S' := by
    intro a e v
    cases a with
    | vals v => trivial
    | range d i j =>
      have e := e d (by simp [CSrc.owner])
      simp only [CSrc.Valid, State.Exists, State.vals, State.get, e] at v ⊢; exact v
  have r2 : ∀ r : CSrc T, (∀ c ∈ r.owner, S' c = S c) → r.vals' S' = r.vals' S := by
    intro a e
    cases a with
    | vals v => rfl
    | range d i j =>
      have e := e d (by simp [CSrc.owner])
      simp only [CSrc.vals', State.vals, State.get, e]
  cases q with
  | create => trivial
  | ctor n => trivial
  | ctorN n a => exact a1 a h lg
  | ctorRange r => exact r1 r h lg
  | assignN c n a =>
    have hc := h c (by simp [Call.args]); have ha := a1 a (fun d m => h d (by simp [Call.args, m]))
    simp only [Legal, State.Exists, State.Moves, State.vals, State.get, hc] at lg ⊢; exact ⟨lg.1, ha lg.2.1, lg.2.2⟩
  | assignRange c a =>
    have hc := h c (by simp [Call.args]); have ha := r1 a (fun d m => h d (by simp [Call.args, m]))
    simp only [Legal, State.Exists, State.Moves, State.vals, State.get, hc] at lg ⊢; exact ⟨lg.1, ha lg.2.1, lg.2.2⟩
  | resizeX c n a =>
    have hc := h c (by simp [Call.args]); have ha := a1 a (fun d m => h d (by simp [Call.args, m]))
    simp only [Legal, State.Exists, State.Moves, State.vals, State.get, hc] at lg ⊢; exact ⟨lg.1, ha lg.2⟩
  | pushBack c a =>
    have hc := h c (by simp [Call.args]); have ha := a1 a (fun d m => h d (by simp [Call.args, m]))
    simp only [Legal, State.Exists, State.Moves, State.vals, State.get, hc] at lg ⊢; exact ⟨lg.1, ha lg.2⟩
  | insert c i a =>
    have hc := h c (by simp [Call.args]); have ha := a1 a (fun d m => h d (by simp [Call.args, m]))
    simp only [Legal, State.Exists, State.Moves, State.vals, State.get, hc] at lg ⊢; exact ⟨lg.1, lg.2.1, ha lg.2.2.1, lg.2.2.2⟩
  | insertN c i n a =>
    have hc := h c (by simp [Call.args]); have ha := a1 a (fun d m => h d (by simp [Call.args, m]))
    simp only [Legal, State.Exists, State.Moves, State.vals, State.get, hc] at lg ⊢; exact ⟨lg.1, lg.2.1, ha lg.2.2.1, lg.2.2.2⟩
  | insertRange c i a =>
    have hc := h c (by simp [Call.args]); have ha := r1 a (fun d m => h d (by simp [Call.args, m])); have hv := r2 a (fun d m => h d (by simp [Call.args, m]))
    simp only [Legal, State.Exists, State.Moves, hv] at lg ⊢
    simp only [State.vals, State.get, hc] at lg ⊢; exact ⟨lg.1, lg.2.1, ha lg.2.2.1, lg.2.2.2⟩
  | store c i a =>
    have hc := h c (by simp [Call.args]); have ha := a1 a (fun d m => h d (by simp [Call.args, m]))
    simp only [Legal, State.Exists, State.Moves, State.vals, State.get, hc] at lg ⊢; exact ⟨lg.1, lg.2.1, ha lg.2.2⟩
  | _ => simp [Call.args] at h <;> simp only [Legal, State.Exists, State.Moves, State.vals, State.get, h] at lg ⊢ <;> exact lg

variable {S : State T} {h : Mem T} {dv : T}

/-- **C159.** A call accesses only the objects and the blocks of the vectors it names. -/
theorem call_confined (R : Reach dv S h) (q : Call T) (lg : Legal S q) : Confined (exec dv q) h (· ∈ q.args) (BlocksOf S (· ∈ q.args)) := by
  have W := R.world
  obtain ⟨m, e, _⟩ := step_ok (dv := dv) (World.part W (· ∈ q.args)) q (legal_congr (fun c hc => onlyState_of hc) lg)
  exact Confined.of_framed (framed_exec dv q) W.base.gone W.base.objs e

/-- Blocks of different vectors are different. -/
theorem World.apart (W : World h S) {N N' : Nat → Prop} (d : ∀ c, N c → ¬ N' c) {b : Nat} (a : BlocksOf S N b) : ¬ BlocksOf S N' b ∧ b < h.fresh := by
  obtain ⟨z, c, n, ⟨s, hs⟩, e⟩ := a
  rw [get_some hs] at e; subst e
  refine ⟨?_, (W.vec c s hs).lt_fresh W.base⟩
  rintro ⟨_, c', n', ⟨s', hs'⟩, e'⟩
  rw [get_some hs'] at e'
  exact z (W.disj c c' s s' hs hs' (fun q => d c n (q ▸ n')) e'.symm)

/-- **C159, two calls.** If they name different vectors, what one of them accesses the other does not, and it finds its memory as if the other one had not run. -/
theorem calls_apart (R : Reach dv S h) (q1 q2 : Call T) (l1 : Legal S q1) (l2 : Legal S q2) (d : ∀ c ∈ q1.args, c ∉ q2.args) :
    (∀ b, BlocksOf S (· ∈ q1.args) b → ¬ BlocksOf S (· ∈ q2.args) b) ∧ ∀ r h', exec dv q1 h = .ok (r, h') →
      (∀ c ∈ q2.args, h'.obj c = h.obj c) ∧ ∀ b, BlocksOf S (· ∈ q2.args) b → h'.size b = h.size b ∧ h'.slot b = h.slot b := by
  have W := R.world
  refine ⟨fun b a => (W.apart d a).1, fun r h' e => ?_⟩
  obtain ⟨r', m, h2, _, e2, _, f1, f2⟩ := call_confined R q1 l1
  rw [e] at e2; cases e2
  refine ⟨fun c hc => ?_, fun b a => ?_⟩
  · have ex : ∃ s, S c = some s := by
      have va : ∀ a : CArg T, a.Valid S → c ∈ a.owner → S.Exists c := by
        intro a v m
        cases a with
        | ext v => simp [CArg.owner] at m
        | elem d i => simp [CArg.owner] at m; subst m; exact v.1
      have vr : ∀ a : CSrc T, a.Valid S → c ∈ a.owner → S.Exists c := by
        intro a v m
        cases a with
        | vals v => simp [CSrc.owner] at m
        | range d i j => simp [CSrc.owner] at m; subst m; exact v.1
      cases q2 with
      | create => simp [Call.args] at hc
      | ctor n => simp [Call.args] at hc
      | ctorN n a => exact va a l2 hc
      | ctorRange r => exact vr r l2 hc
      | copyOf d => simp [Call.args] at hc; subst hc; exact l2
      | assign c' d =>
        simp [Call.args] at hc; rcases hc with rfl | rfl
        · exact l2.1
        · exact l2.2
      | swap c' d =>
        simp [Call.args] at hc; rcases hc with rfl | rfl
        · exact l2.1
        · exact l2.2
      | assignN c' n a =>
        rcases List.mem_cons.1 hc with rfl | hc
        · exact l2.1
        · exact va a l2.2.1 hc
      | assignRange c' a =>
        rcases List.mem_cons.1 hc with rfl | hc
        · exact l2.1
        · exact vr a l2.2.1 hc
      | resizeX c' n a =>
        rcases List.mem_cons.1 hc with rfl | hc
        · exact l2.1
        · exact va a l2.2 hc
      | pushBack c' a =>
        rcases List.mem_cons.1 hc with rfl | hc
        · exact l2.1
        · exact va a l2.2 hc
      | insert c' i a =>
        rcases List.mem_cons.1 hc with rfl | hc
        · exact l2.1
        · exact va a l2.2.2.1 hc
      | insertN c' i n a =>
        rcases List.mem_cons.1 hc with rfl | hc
        · exact l2.1
        · exact va a l2.2.2.1 hc
      | insertRange c' i a =>
        rcases List.mem_cons.1 hc with rfl | hc
        · exact l2.1
        · exact vr a l2.2.2.1 hc
      | store c' i a =>
        rcases List.mem_cons.1 hc with rfl | hc
        · exact l2.1
        · exact va a l2.2.2 hc
      | destroy c' => simp [Call.args] at hc; subst hc; exact l2
      | resize c' n => simp [Call.args] at hc; subst hc; exact l2
      | reserve c' n => simp [Call.args] at hc; subst hc; exact l2
      | clear c' => simp [Call.args] at hc; subst hc; exact l2
      | popBack c' => simp [Call.args] at hc; subst hc; exact l2.1
      | erase c' i => simp [Call.args] at hc; subst hc; exact l2.1
      | eraseRange c' i j => simp [Call.args] at hc; subst hc; exact l2.1
    obtain ⟨s, hs⟩ := ex
    have lt : c < h.fresh := by
      rcases Nat.lt_or_ge c h.fresh with l | l
      · exact l
      · have := (W.vec c s hs).obj; rw [W.base.objs c l] at this; cases this
    exact f1 c lt fun m => d c m hc
  · have z := W.apart (fun c n1 n2 => d c n2 n1) a
    exact f2 b z.2 z.1

/-- **C159, reading.** All observers of a vector answer the same in the memory that has only this vector and its block, and write nothing. -/
theorem reads_confined (R : Reach dv S h) {c : Nat} (hc : S.Exists c) :
    VecProps.Shows h c (S.vals c) (S.get c).cap ⟨(S.get c).blk, 0⟩ ∧
      VecProps.Shows (h.part (· = c) (fun b => b ≠ 0 ∧ b = (S.get c).blk)) c (S.vals c) (S.get c).cap ⟨(S.get c).blk, 0⟩ := by
  refine ⟨VecProps.reach_shows R hc, ?_⟩
  obtain ⟨s, hs⟩ := hc
  rw [vals_some hs, get_some hs]
  exact VecProps.isVec_shows ((R.world.vec c s hs).part rfl (fun z => ⟨z, rfl⟩) fun q => q.1 rfl)

/-- The hypotheses are met: two vectors, `c` holding 5, 6, 7 and 8 and `d` holding 1 and 2, and the calls `c.erase(begin + 1)` and `d.push_back(d[0])`. -/
example : ∃ (S : State Nat) (h : Mem Nat) (c d : Nat), Reach 0 S h ∧ Legal S (.erase c 1) ∧ Legal S (.pushBack d (.elem d 0)) ∧
    (∀ x ∈ (Call.erase c 1 : Call Nat).args, x ∉ (Call.pushBack d (.elem d 0) : Call Nat).args) := by
  obtain ⟨c, d, S, h, p, q, R, xc, xd, ne, o1, o2⟩ := VecProps.demo
  have g1 := (VecProps.reach_observes R xc).inj o1.toObserves
  have g2 := (VecProps.reach_observes R xd).inj o2.toObserves
  refine ⟨S, h, c, d, R, ⟨xc, by rw [g1]; decide⟩, ⟨xd, xd, by rw [g2]; decide⟩, by simpa [Call.args, CArg.owner] using ne⟩

end Verif.Vec
