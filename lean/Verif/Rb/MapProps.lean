import Verif.Rb.MapStep
import Verif.Rb.Reach
/-!
# C01: `ttl::map` is a finite dictionary, over every history
-/
set_option linter.unusedSectionVars false
namespace Verif.Rb.MapApi
open Verif Tree
variable {K T : Type} [DecidableEq K] [DecidableEq T] {lt : K → K → Bool}

theorem run_ok (ho : StrictTotalOrder lt) (dflt : T) (ops : List (Op K T)) (hns : NoSelfAssign ops) :
    ∀ {h : Heap (K × T)} {ws : List (Addr × List (Addr × (K × T)))} {ms : List (K → Option T)}
    (_W : World h ws) (_S : Sim (Rel lt) ws ms),
    ∃ outs h' ws' ms', run lt dflt (ws.map Prod.fst) ops h = .ok ((outs, ws'.map Prod.fst), h') ∧ World h' ws' ∧
      SpecRun lt dflt ms ops outs ms' ∧ Sim (Rel lt) ws' ms' := by
  induction ops with
  | nil => intro h ws ms W S; exact ⟨[], h, ws, ms, rfl, W, .nil, S⟩
  | cons op ops ih =>
    intro h ws ms W S
    obtain ⟨out, h1, ws1, ms1, e1, W1, s1, S1⟩ := step_ok ho dflt W S op (fun i q => hns i (by simp [q]))
    obtain ⟨outs, h2, ws2, ms2, e2, W2, s2, S2⟩ := ih (fun i q => hns i (by simp [q])) W1 S1
    refine ⟨out :: outs, h2, ws2, ms2, ?_, W2, .cons s1 s2, S2⟩
    unfold run
    simp only [Prog.bind_app, e1, Res.bind_ok, e2, Prog.pure_app]

/-- **C01.** Every client program over `ttl::map` objects that assigns no object to itself runs to completion without
undefined behaviour, whatever garbage uninitialised memory contains, and everything it observes is what mathematical
finite maps give. -/
theorem map_history (ho : StrictTotalOrder lt) (dflt : T) (junk : Addr → RbNode) (ops : List (Op K T))
    (hns : NoSelfAssign ops) : ∃ outs objs h' ms, run lt dflt [] ops (emptyMemory junk) = .ok ((outs, objs), h') ∧
      SpecRun lt dflt [] ops outs ms ∧ objs.length = ms.length := by
  obtain ⟨ws, W, hw, _⟩ := Inv.start (lt := lt) (keyOf := (Prod.fst : K × T → K)) junk
  have : ws = [] := by simpa using hw
  subst this
  obtain ⟨outs, h', ws', ms', e, _, s, S⟩ := run_ok ho dflt ops hns W Sim.nil
  exact ⟨outs, _, h', ms', e, s, by rw [List.length_map]; exact S.len⟩

/-- The specification leaves no freedom: it determines every output and every final map. -/
theorem Lists.unique (ho : StrictTotalOrder lt) {l1 l2 : List (K × T)} {m : K → Option T} (h1 : Lists lt l1 m)
    (h2 : Lists lt l2 m) : l1 = l2 := by
  obtain ⟨p1, q1⟩ := h1
  obtain ⟨p2, q2⟩ := h2
  have hm : ∀ x, x ∈ l1 ↔ x ∈ l2 := fun x => (q1 x.1 x.2).trans (q2 x.1 x.2).symm
  clear q1 q2
  induction l1 generalizing l2 with
  | nil => cases l2 with
    | nil => rfl
    | cons y l2 => exact absurd ((hm y).2 (by simp)) (by simp)
  | cons x l1 ih =>
    cases l2 with
    | nil => exact absurd ((hm x).1 (by simp)) (by simp)
    | cons y l2 =>
      rw [List.pairwise_cons] at p1 p2
      have hxy : x = y := by
        have h1 := (hm x).1 (by simp)
        have h2 := (hm y).2 (by simp)
        simp only [List.mem_cons] at h1 h2
        rcases h1 with h1 | h1
        · exact h1
        · rcases h2 with h2 | h2
          · exact h2.symm
          · have := ho.trans _ _ _ (p2.1 x h1) (p1.1 y h2)
            rw [ho.irrefl] at this; cases this
      subst hxy
      congr 1
      refine ih p1.2 p2.2 fun z => ?_
      have := hm z
      simp only [List.mem_cons] at this
      constructor
      · intro hz
        rcases this.1 (Or.inr hz) with e | e
        · subst e; have := p1.1 z hz; rw [ho.irrefl] at this; cases this
        · exact e
      · intro hz
        rcases this.2 (Or.inr hz) with e | e
        · subst e; have := p2.1 z hz; rw [ho.irrefl] at this; cases this
        · exact e

theorem SpecStep.unique (ho : StrictTotalOrder lt) {dflt : T} {ms : List (K → Option T)} {op : Op K T} {o1 o2 ms1 ms2}
    (h1 : SpecStep lt dflt ms op o1 ms1) (h2 : SpecStep lt dflt ms op o2 ms2) : o1 = o2 ∧ ms1 = ms2 := by
  have boolEq : ∀ {b1 b2 : Bool} {P : Prop}, (b1 = true ↔ P) → (b2 = true ↔ P) → b1 = b2 := by
    intro b1 b2 P q1 q2
    cases b1 <;> cases b2 <;> simp_all
  have at1 : ∀ {i : Nat} {P : (K → Option T) → Out K T → (K → Option T) → Prop},
      (∀ m o o' m1 m2, P m o m1 → P m o' m2 → o = o' ∧ m1 = m2) → At ms i o1 ms1 P → At ms i o2 ms2 P → o1 = o2 ∧ ms1 = ms2 := by
    intro i P hP q1 q2
    unfold At at q1 q2
    cases hi : ms[i]? with
    | none => rw [hi] at q1 q2; simp only at q1 q2; exact ⟨q1.1.trans q2.1.symm, q1.2.trans q2.2.symm⟩
    | some m =>
      rw [hi] at q1 q2
      obtain ⟨m1, p1, rfl⟩ := q1
      obtain ⟨m2, p2, rfl⟩ := q2
      obtain ⟨rfl, rfl⟩ := hP m _ _ _ _ p1 p2
      exact ⟨rfl, rfl⟩
  cases op with
  | create => exact ⟨h1.1.trans h2.1.symm, h1.2.trans h2.2.symm⟩
  | ofRange kvs => exact ⟨h1.1.trans h2.1.symm, h1.2.trans h2.2.symm⟩
  | copyOf i =>
    simp only [SpecStep] at h1 h2
    split at h1 <;> simp_all
  | assign i j =>
    simp only [SpecStep] at h1 h2
    split at h1 <;> simp_all
  | destroy i =>
    simp only [SpecStep] at h1 h2
    split at h1 <;> simp_all
  | insert i k t => unfold SpecStep at h1 h2; exact at1 (by rintro m _ _ _ _ ⟨rfl, rfl⟩ ⟨rfl, rfl⟩; exact ⟨rfl, rfl⟩) h1 h2
  | insertRange i kvs => unfold SpecStep at h1 h2; exact at1 (by rintro m _ _ _ _ ⟨rfl, rfl⟩ ⟨rfl, rfl⟩; exact ⟨rfl, rfl⟩) h1 h2
  | put i k t => unfold SpecStep at h1 h2; exact at1 (by rintro m _ _ _ _ ⟨rfl, rfl⟩ ⟨rfl, rfl⟩; exact ⟨rfl, rfl⟩) h1 h2
  | get i k => unfold SpecStep at h1 h2; exact at1 (by rintro m _ _ _ _ ⟨rfl, rfl⟩ ⟨rfl, rfl⟩; exact ⟨rfl, rfl⟩) h1 h2
  | erase i k => unfold SpecStep at h1 h2; exact at1 (by rintro m _ _ _ _ ⟨rfl, rfl⟩ ⟨rfl, rfl⟩; exact ⟨rfl, rfl⟩) h1 h2
  | find i k => unfold SpecStep at h1 h2; exact at1 (by rintro m _ _ _ _ ⟨rfl, rfl⟩ ⟨rfl, rfl⟩; exact ⟨rfl, rfl⟩) h1 h2
  | count i k => unfold SpecStep at h1 h2; exact at1 (by rintro m _ _ _ _ ⟨rfl, rfl⟩ ⟨rfl, rfl⟩; exact ⟨rfl, rfl⟩) h1 h2
  | empty i =>
    unfold SpecStep at h1 h2
    refine at1 ?_ h1 h2
    rintro m _ _ _ _ ⟨b1, rfl, q1, rfl⟩ ⟨b2, rfl, q2, rfl⟩
    exact ⟨by rw [boolEq q1 q2], rfl⟩
  | clear i => unfold SpecStep at h1 h2; exact at1 (by rintro m _ _ _ _ ⟨rfl, rfl⟩ ⟨rfl, rfl⟩; exact ⟨rfl, rfl⟩) h1 h2
  | iterate i =>
    unfold SpecStep at h1 h2
    refine at1 ?_ h1 h2
    rintro m _ _ _ _ ⟨l1, rfl, q1, rfl⟩ ⟨l2, rfl, q2, rfl⟩
    exact ⟨by rw [Lists.unique ho q1 q2], rfl⟩
  | iterateBack i =>
    unfold SpecStep at h1 h2
    refine at1 ?_ h1 h2
    rintro m _ _ _ _ ⟨l1, rfl, q1, rfl⟩ ⟨l2, rfl, q2, rfl⟩
    have := congrArg List.reverse (Lists.unique ho q1 q2)
    simp only [List.reverse_reverse] at this
    exact ⟨by rw [this], rfl⟩
  | equal i j =>
    simp only [SpecStep] at h1 h2
    split at h1
    · next a b e1 e2 =>
      rw [e1, e2] at h2
      obtain ⟨b1, rfl, q1, rfl⟩ := h1
      obtain ⟨b2, rfl, q2, rfl⟩ := h2
      exact ⟨by rw [boolEq q1 q2], rfl⟩
    · simp_all
  | lower i k =>
    unfold SpecStep at h1 h2
    refine at1 ?_ h1 h2
    rintro m o o' m1 m2 ⟨rfl, q1⟩ ⟨rfl, q2⟩
    refine ⟨?_, rfl⟩
    rcases q1 with ⟨rfl, q1⟩ | ⟨k1, t1, rfl, a1, b1, c1⟩ <;> rcases q2 with ⟨rfl, q2⟩ | ⟨k2, t2, rfl, a2, b2, c2⟩
    · rfl
    · rw [q1 k2 t2 a2] at b2; cases b2
    · rw [q2 k1 t1 a1] at b1; cases b1
    · have e : k1 = k2 := by
        rcases ho.trichotomy k1 k2 with h | h | h
        · rw [c2 k1 t1 a1 b1] at h; cases h
        · exact h
        · rw [c1 k2 t2 a2 b2] at h; cases h
      subst e
      rw [a1] at a2
      simp only [Option.some.injEq] at a2
      rw [a2]

theorem spec_deterministic (ho : StrictTotalOrder lt) {dflt : T} {ms : List (K → Option T)} {ops : List (Op K T)} {o1 o2 ms1 ms2}
    (h1 : SpecRun lt dflt ms ops o1 ms1) (h2 : SpecRun lt dflt ms ops o2 ms2) : o1 = o2 ∧ ms1 = ms2 := by
  induction h1 generalizing o2 ms2 with
  | nil => cases h2; exact ⟨rfl, rfl⟩
  | cons s1 _ ih =>
    cases h2 with
    | cons s2 r2 =>
      obtain ⟨rfl, rfl⟩ := SpecStep.unique ho s1 s2
      obtain ⟨rfl, rfl⟩ := ih r2
      exact ⟨rfl, rfl⟩

/-- A concrete program meeting the hypotheses, with the outputs the theorem forces: insertion, duplicate insertion,
subscript, erasure, look-ups, copy and iteration. -/
example (junk : Addr → RbNode) : ∃ objs h', run (fun a b : Nat => decide (a < b)) "" []
      [.create, .insert 0 5 "five", .insert 0 3 "three", .insert 0 5 "FIVE", .put 0 7 "seven", .copyOf 0, .erase 0 5,
        .find 0 5, .find 1 5, .count 0 3] (emptyMemory junk) =
    .ok (([.unit, .bool true, .bool true, .bool false, .unit, .unit, .nat 1, .value none, .value (some "five"), .nat 1],
      objs), h') := by
  obtain ⟨outs, objs, h', ms, e, s, _⟩ := map_history (T := String) natOrder "" junk
    [.create, .insert 0 5 "five", .insert 0 3 "three", .insert 0 5 "FIVE", .put 0 7 "seven", .copyOf 0, .erase 0 5,
        .find 0 5, .find 1 5, .count 0 3] (by intro i; simp)
  refine ⟨objs, h', ?_⟩
  rw [e]
  congr 3
  obtain ⟨ms2, s2⟩ : ∃ ms2, SpecRun (fun a b : Nat => decide (a < b)) "" []
      [.create, .insert 0 5 "five", .insert 0 3 "three", .insert 0 5 "FIVE", .put 0 7 "seven", .copyOf 0, .erase 0 5,
        .find 0 5, .find 1 5, .count 0 3]
      [.unit, .bool true, .bool true, .bool false, .unit, .unit, .nat 1, .value none, .value (some "five"), .nat 1] ms2 :=
    ⟨_, .cons ⟨rfl, rfl⟩ (.cons ⟨_, ⟨rfl, rfl⟩, rfl⟩ (.cons ⟨_, ⟨rfl, rfl⟩, rfl⟩ (.cons ⟨_, ⟨rfl, rfl⟩, rfl⟩ (.cons ⟨_, ⟨rfl, rfl⟩, rfl⟩
      (.cons ⟨rfl, rfl⟩ (.cons ⟨_, ⟨rfl, rfl⟩, rfl⟩ (.cons ⟨_, ⟨rfl, rfl⟩, rfl⟩ (.cons ⟨_, ⟨rfl, rfl⟩, rfl⟩
      (.cons ⟨_, ⟨rfl, rfl⟩, rfl⟩ .nil)))))))))⟩
  exact (spec_deterministic natOrder s s2).1

end Verif.Rb.MapApi
