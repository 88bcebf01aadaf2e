import Verif.Exc.LazyLoops
import Verif.Exc.Bwd
/-!
# `ttl::lazy_queue`: what an exception leaves behind

`XInv h S Q L`: memory `h` contains the queues of `S`, which are in order; the queues of `Q`, whose chains of nodes are in order but whose `tail_` may
not be at the last element (an interrupted insertion at the end leaves such a queue); the leaked cells `L`; and nothing else.
-/
set_option linter.unusedVariables false
set_option linter.unusedSimpArgs false
namespace Verif.Exc.XLq
open Verif Verif.Seq Verif.Seq.SNode Verif.Seq.LQueue Verif.Exc Verif.Exc.XSeq
open Verif.Seq.DList (Arg readArg posOf posOf_nil posOf_cons Laid insertAt fresh)
open Verif.Seq.BwdProps (last_insert)
open Verif.Exc.XBwd (split_result then_tail_points call_tail_points)

/-- A queue whose `tail_` is not at its last element but at position `stop` (0 is `before_begin()`). -/
structure StaleQ (T : Type) where
  elems : List (Addr × T)
  pool : List Addr
  stop : Nat

/-- The queues whose `tail_` is not at the last element. -/
def Stales (T : Type) := Addr → Option (StaleQ T)

variable {T : Type} {h h' t : Heap T} {S : State T} {Q : Stales T} {L : Addr → Prop} {c d : Addr} {es fs : List (Addr × T)} {ns : List Addr} {triv : Bool}

/-- The cells of the queues in `Q`. -/
def Cells (Q : Stales T) (x : Addr) : Prop := ∃ c s, Q c = some s ∧ x ∈ qcells c s.elems s.pool

/-- No queue. -/
def noQueue : Stales T := fun _ => none

/-- Only the queue `c`. -/
def oneQueue (c : Addr) (s : StaleQ T) : Stales T := fun d => if d = c then some s else none

/-- The leaked cells and the cells of the queues in `Q`, as a set. -/
noncomputable def mask (Q : Stales T) (L : Addr → Prop) (x : Addr) : Bool := by
  classical exact decide (L x ∨ Cells Q x)

theorem mask_true {x : Addr} : mask Q L x = true ↔ L x ∨ Cells Q x := by simp [mask]
theorem mask_false {x : Addr} : mask Q L x = false ↔ ¬ (L x ∨ Cells Q x) := by simp [mask]

structure XInv (h : Heap T) (S : State T) (Q : Stales T) (L : Addr → Prop) : Prop where
  wf : Wf h
  world : World iface (without h (mask Q L)) S
  stale : ∀ c s, Q c = some s → Queue h c s.elems s.pool
  ends : ∀ c s, Q c = some s → h.tail c = lastOf c ((s.elems.take s.stop).map Prod.fst) ∧ s.stop < s.elems.length
  apart : ∀ c s, Q c = some s → ∀ x ∈ qcells c s.elems s.pool, ¬ L x
  apart2 : ∀ c s c' s', Q c = some s → Q c' = some s' → c ≠ c' → ∀ x ∈ qcells c s.elems s.pool, x ∉ qcells c' s'.elems s'.pool
  leaked : ∀ x, L x → h.live x = true

/-- The same without the queues in order. -/
structure Masked (h : Heap T) (Q : Stales T) (L : Addr → Prop) : Prop where
  wf : Wf h
  stale : ∀ c s, Q c = some s → Queue h c s.elems s.pool
  ends : ∀ c s, Q c = some s → h.tail c = lastOf c ((s.elems.take s.stop).map Prod.fst) ∧ s.stop < s.elems.length
  apart : ∀ c s, Q c = some s → ∀ x ∈ qcells c s.elems s.pool, ¬ L x
  apart2 : ∀ c s c' s', Q c = some s → Q c' = some s' → c ≠ c' → ∀ x ∈ qcells c s.elems s.pool, x ∉ qcells c' s'.elems s'.pool
  leaked : ∀ x, L x → h.live x = true

theorem XInv.masked (X : XInv h S Q L) : Masked h Q L := ⟨X.wf, X.stale, X.ends, X.apart, X.apart2, X.leaked⟩

theorem Masked.live (X : Masked h Q L) {x : Addr} (m : mask Q L x = true) : h.live x = true := by
  rcases mask_true.1 m with l | ⟨c, s, q, hx⟩
  · exact X.leaked x l
  · exact (X.stale c s q).live x hx

theorem Masked.used (X : Masked h Q L) (x : Addr) (m : mask Q L x = true) : x < h.fresh := X.wf.used x (X.live m)

theorem no_cells {x : Addr} : ¬ Cells (noQueue : Stales T) x := by rintro ⟨c, s, q, _⟩; cases q

theorem mask_empty : mask (noQueue : Stales T) (fun _ => False) = fun _ => false := by
  funext x; rw [mask_false]; rintro (q | q)
  · exact q
  · exact no_cells q

theorem without_none (h : Heap T) : without h (fun _ => false) = h := by simp [without]

theorem XInv.clean (W : World iface h S) : XInv h S noQueue fun _ => False := by
  refine ⟨W.wf, ?_, ?_, ?_, ?_, ?_, ?_⟩
  · rw [mask_empty, without_none]; exact W
  · intro c s q; cases q
  · intro c s q; cases q
  · intro c s q; cases q
  · intro c s c' s' q; cases q
  · intro x q; exact q.elim

/-- Both. -/
def join (Q Q' : Stales T) : Stales T := fun c => match Q' c with | some s => some s | none => Q c

theorem join_none (Q : Stales T) : join Q noQueue = Q := rfl

theorem join_cells {Q' : Stales T} (dj : ∀ c s, Q' c = some s → Q c = none) {x : Addr} : Cells (join Q Q') x ↔ Cells Q x ∨ Cells Q' x := by
  constructor
  · rintro ⟨c, s, q, hx⟩
    simp only [join] at q
    cases e : Q' c with
    | some s' => rw [e] at q; cases q; exact .inr ⟨c, s, e, hx⟩
    | none => rw [e] at q; exact .inl ⟨c, s, q, hx⟩
  · rintro (⟨c, s, q, hx⟩ | ⟨c, s, q, hx⟩)
    · refine ⟨c, s, ?_, hx⟩
      simp only [join]
      cases e : Q' c with
      | some s' => have := dj c s' e; rw [q] at this; cases this
      | none => exact q
    · exact ⟨c, s, by simp only [join, q], hx⟩

/-- What happens in the memory without the leaked cells and the queues out of order, happens in the memory. -/
theorem Masked.lift (X : Masked h Q L) {S' : State T} {Q' : Stales T} {L' : Addr → Prop} (f : h.fresh ≤ t.fresh) (s : ∀ x, mask Q L x = true → Same h t x)
    (X' : XInv (without t (mask Q L)) S' Q' L') : XInv t S' (join Q Q') (fun x => L x ∨ L' x) := by
  have out : ∀ {x}, (without t (mask Q L)).live x = true → mask Q L x = false := fun l => (without_live.1 l).1
  have dj : ∀ c s, Q' c = some s → Q c = none := by
    intro c s q
    cases e : Q c with
    | none => rfl
    | some s' =>
      have := out ((X'.stale c s q).live c self_mem)
      rw [mask_false] at this
      exact absurd (.inr ⟨c, s', e, self_mem⟩) this
  have one : ∀ {c s}, join Q Q' c = some s → (Q' c = some s) ∨ (Q c = some s) := by
    intro c s q
    simp only [join] at q
    cases e : Q' c with
    | some s' => rw [e] at q; cases q; exact .inl rfl
    | none => rw [e] at q; exact .inr q
  have mk : mask (join Q Q') (fun x => L x ∨ L' x) = fun x => mask Q L x || mask Q' L' x := by
    funext x
    rw [Bool.eq_iff_iff, Bool.or_eq_true, mask_true, mask_true, mask_true, join_cells dj]
    constructor
    · rintro ((q | q) | (q | q))
      · exact .inl (.inl q)
      · exact .inr (.inl q)
      · exact .inl (.inr q)
      · exact .inr (.inr q)
    · rintro ((q | q) | (q | q))
      · exact .inl (.inl q)
      · exact .inr (.inl q)
      · exact .inl (.inr q)
      · exact .inr (.inr q)
  refine ⟨⟨X'.wf.pos, ?_, ?_⟩, ?_, ?_, ?_, ?_, ?_, ?_⟩
  · cases m : mask Q L 0 with
    | true => have := X.live m; rw [X.wf.null] at this; cases this
    | false => have := X'.wf.null; simp only [without, m, Bool.not_false, Bool.true_and] at this; exact this
  · intro x l
    cases m : mask Q L x with
    | true => exact Nat.lt_of_lt_of_le (X.used x m) f
    | false => exact X'.wf.used x (without_live.2 ⟨m, l⟩)
  · rw [mk, ← without_twice]; exact X'.world
  · intro c s' q
    rcases one q with q | q
    · have r := X'.stale c s' q
      exact r.frame fun x hx => ⟨rfl, rfl, rfl, rfl, by rw [r.live x hx]; exact (without_live.1 (r.live x hx)).2⟩
    · exact (X.stale c s' q).frame fun x hx => s x (mask_true.2 (.inr ⟨c, s', q, hx⟩))
  · intro c s' q
    rcases one q with q | q
    · exact X'.ends c s' q
    · have := X.ends c s' q
      exact ⟨(s c (mask_true.2 (.inr ⟨c, s', q, self_mem⟩))).tail.trans this.1, this.2⟩
  · intro c s' q x hx
    rintro (l | l)
    · rcases one q with q | q
      · have := out ((X'.stale c s' q).live x hx)
        rw [mask_false] at this; exact this (.inl l)
      · exact X.apart c s' q x hx l
    · rcases one q with q | q
      · exact X'.apart c s' q x hx l
      · have := out (X'.leaked x l)
        rw [mask_false] at this; exact this (.inr ⟨c, s', q, hx⟩)
  · intro c s1 c' s2 q q' hne x hx hx'
    rcases one q with q | q <;> rcases one q' with q' | q'
    · exact X'.apart2 c s1 c' s2 q q' hne x hx hx'
    · have := out ((X'.stale c s1 q).live x hx)
      rw [mask_false] at this; exact this (.inr ⟨c', s2, q', hx'⟩)
    · have := out ((X'.stale c' s2 q').live x hx')
      rw [mask_false] at this; exact this (.inr ⟨c, s1, q, hx⟩)
    · exact X.apart2 c s1 c' s2 q q' hne x hx hx'
  · rintro x (l | l)
    · have m : mask Q L x = true := mask_true.2 (.inl l)
      exact (s x m).live.trans (X.leaked x l)
    · exact (without_live.1 (X'.leaked x l)).2

/-! ## An interrupted insertion -/

/-- Hiding cells a computation owns at its end. -/
theorem Effect.hide {C C' : Addr → Prop} {M : Addr → Bool} (ef : Effect C C' h h') (hm : ∀ x, M x = true ↔ C' x) :
    Effect C (fun _ => False) h (without h' M) := by
  have mf : ∀ {x}, ¬ C' x → M x = false := by
    intro x hx
    cases q : M x with
    | false => rfl
    | true => exact absurd ((hm x).1 q) hx
  refine ⟨?_, ?_, fun x _ q => q.elim, ?_, ⟨ef.wf.pos, ?_, ?_⟩, ef.mono⟩
  · intro x h1 _ l
    have h2 : ¬ C' x := fun q => by have := ef.grown x h1 q; rw [l] at this; cases this
    have s := ef.frame x h1 h2 l
    exact ⟨s.next, s.prev, s.tail, s.val, by rw [live_without (mf h2)]; exact s.live⟩
  · intro x h1 _ l
    by_cases h2 : C' x
    · simp [without, (hm x).2 h2]
    · rw [live_without (mf h2)]; exact ef.dead x h1 h2 l
  · intro x h1 _
    by_cases h2 : C' x
    · simp [without, (hm x).2 h2]
    · rw [live_without (mf h2)]; exact ef.shrunk x h1 h2
  · have := ef.wf.null; simp [without, this]
  · intro x l; exact ef.wf.used x (without_live.1 l).2

/-- The lost node, if any. -/
def lostSet (leak : Bool) (n : Addr) (x : Addr) : Bool := leak && only n x

/-- What an interrupted insertion loop leaves: a queue with the first `j` values and, possibly, a node that belongs to nothing. -/
theorem partly_inv (w : Wf h) (r : Queue h c es ns) {i : Nat} {vs : List T} {k : Nat}
    (p : Partly h c (lastOf c ((es.take i).map Prod.fst)) ns vs k t) :
    ∃ j leak, At ns.length k j leak ∧ j < vs.length ∧ Wf t ∧ t.tail = h.tail ∧ h.fresh ≤ t.fresh ∧
      (leak = true → t.live (nodeOf (h.fresh + (j - ns.length)) (ns.drop j)) = true) ∧
      (leak = true → nodeOf (h.fresh + (j - ns.length)) (ns.drop j) ∉
        qcells c (insertAt i (alloc h.fresh ns (vs.take j)) es) (ns.drop (if leak = true then j + 1 else j))) ∧
      Queue (without t (lostSet leak (nodeOf (h.fresh + (j - ns.length)) (ns.drop j)))) c (insertAt i (alloc h.fresh ns (vs.take j)) es)
        (ns.drop (if leak = true then j + 1 else j)) ∧
      Effect (· ∈ qcells c es ns) (· ∈ qcells c (insertAt i (alloc h.fresh ns (vs.take j)) es) (ns.drop (if leak = true then j + 1 else j)))
        h (without t (lostSet leak (nodeOf (h.fresh + (j - ns.length)) (ns.drop j)))) := by
  obtain ⟨j, leak, b, h1, a, hj, q, e⟩ := p
  have sp : es = es.take i ++ es.drop i := (List.take_append_drop i es).symm
  obtain ⟨h1', q1, r1, ef, fr, tl⟩ := insertLoopVals_ok (vs.take j) (A := es.take i) (B := es.drop i) w (by rw [← sp]; exact r)
  rw [q] at q1; cases q1
  rw [← sp] at ef
  have hl : (vs.take j).length = j := by rw [List.length_take]; omega
  rw [hl] at r1 ef fr
  cases leak with
  | false =>
    have e : t = h1 := e
    subst e
    have e0 : lostSet false (nodeOf (h.fresh + (j - ns.length)) (ns.drop j)) = fun _ => false := rfl
    refine ⟨j, false, a, hj, ef.wf, tl, ef.mono, (fun q => nomatch q), (fun q => nomatch q), ?_, ?_⟩
    · rw [e0, without_none]; exact r1
    · rw [e0, without_none]; exact ef
  | true =>
    have e : t = lost h1 c (ns.drop j) := e
    subst e
    obtain ⟨w2, l2, n2, r2, ef2, tl2, fr2⟩ := lost_ok ef.wf r1
    rw [fr] at l2 n2 r2 ef2
    have e1 : (ns.drop j).tail = ns.drop (j + 1) := by simp
    have e0 : lostSet true (nodeOf (h.fresh + (j - ns.length)) (ns.drop j)) = only (nodeOf (h.fresh + (j - ns.length)) (ns.drop j)) := by
      funext x; simp [lostSet]
    rw [e1] at n2 r2 ef2
    refine ⟨j, true, a, hj, w2, tl2.trans tl, Nat.le_trans ef.mono (by rw [fr2]; exact Nat.le_add_right _ _), fun _ => l2, fun _ => n2, ?_, ?_⟩
    · rw [e0]; exact r2
    · rw [e0]; exact ef.trans ef2

/-- An interrupted insertion of `vs` behind position `i` of `c`: it inserted the first `j` values. If the exception came from copying a value, the
node for it is lost (`L'`): it was taken from the pool or allocated. If elements were inserted at the end the queue is out of order now: it is in `Q'` and not
in `S'`. -/
def Ins (S : State T) (a : Addr) (k : Nat) (c : Addr) (i : Nat) (vs : List T) (S' : State T) (Q' : Stales T) (L' : Addr → Prop) : Prop :=
  ∃ j leak, At (S.pool c).length k j leak ∧ j < vs.length ∧
    (∀ x, L' x ↔ leak = true ∧ x = nodeOf (a + (j - (S.pool c).length)) ((S.pool c).drop j)) ∧
    ((i = (S.get c).length ∧ 0 < j ∧ S' = upd S c none ∧
        Q' = oneQueue c (⟨insertAt i (alloc a (S.pool c) (vs.take j)) (S.get c), (S.pool c).drop (if leak = true then j + 1 else j), i⟩)) ∨
     (¬ (i = (S.get c).length ∧ 0 < j) ∧ Q' = noQueue ∧
        S' = S.put c (insertAt i (alloc a (S.pool c) (vs.take j)) (S.get c)) ((S.pool c).drop (if leak = true then j + 1 else j))))

theorem one_cells {s : StaleQ T} {x : Addr} : Cells (oneQueue c s) x ↔ x ∈ qcells c s.elems s.pool := by
  constructor
  · rintro ⟨d, s', q, hx⟩
    by_cases e : d = c
    · subst e; simp only [oneQueue, if_true, Option.some.injEq] at q; subst q; exact hx
    · simp only [oneQueue, if_neg e] at q; cases q
  · intro hx; exact ⟨c, s, by simp [oneQueue], hx⟩

theorem one_some {s s' : StaleQ T} {d : Addr} (q : oneQueue c s d = some s') : d = c ∧ s' = s := by
  by_cases e : d = c
  · subst e; simp only [oneQueue, if_true, Option.some.injEq] at q; exact ⟨rfl, q.symm⟩
  · simp only [oneQueue, if_neg e] at q; cases q

theorem insert_interrupted (W : World iface h S) (hc : S.Exists c) {i : Nat} (hi : i ≤ (S.get c).length) {vs : List T} {k : Nat}
    (p : Partly h c (lastOf c (((S.get c).take i).map Prod.fst)) (S.pool c) vs k t) :
    ∃ S' Q' L', Ins S h.fresh k c i vs S' Q' L' ∧ XInv t S' Q' L' := by
  obtain ⟨⟨es, ns⟩, hc⟩ := hc
  have hg := get_some hc
  have hp := pool_some hc
  rw [hg] at hi p
  rw [hp] at p
  have r := World.qu W hc
  obtain ⟨j, leak, a, hj, wt, tl, fr, ll, ln, rt, ef⟩ := partly_inv W.wf r p
  have hmem : ∀ x, lostSet leak (nodeOf (h.fresh + (j - ns.length)) (ns.drop j)) x = true ↔
      (leak = true ∧ x = nodeOf (h.fresh + (j - ns.length)) (ns.drop j)) := by
    intro x; simp [lostSet, only]
  by_cases st : i = es.length ∧ 0 < j
  · refine ⟨_, _, _, ⟨j, leak, by rw [hp]; exact a, hj, fun x => Iff.rfl, .inl ⟨by rw [hg]; exact st.1, st.2, rfl, rfl⟩⟩, ?_⟩
    rw [hg, hp]
    have mk : mask (oneQueue c (⟨insertAt i (alloc h.fresh ns (vs.take j)) es, ns.drop (if leak = true then j + 1 else j), i⟩))
        (fun x => leak = true ∧ x = nodeOf (h.fresh + (j - ns.length)) (ns.drop j)) =
        fun x => lostSet leak (nodeOf (h.fresh + (j - ns.length)) (ns.drop j)) x ||
          decide (x ∈ qcells c (insertAt i (alloc h.fresh ns (vs.take j)) es) (ns.drop (if leak = true then j + 1 else j))) := by
      funext x
      rw [Bool.eq_iff_iff, Bool.or_eq_true, mask_true, hmem, one_cells, decide_eq_true_iff]
    refine ⟨wt, ?_, ?_, ?_, ?_, ?_, ?_⟩
    · rw [mk, ← without_twice]
      exact World.gone W hc (Effect.hide ef fun x => by rw [decide_eq_true_iff])
    · intro d s q
      obtain ⟨rfl, rfl⟩ := one_some q
      exact rt.frame fun x hx => ⟨rfl, rfl, rfl, rfl, by rw [rt.live x hx]; exact (without_live.1 (rt.live x hx)).2⟩
    · intro d s q
      obtain ⟨rfl, rfl⟩ := one_some q
      obtain ⟨st1, st2⟩ := st
      subst st1
      refine ⟨?_, ?_⟩
      · show t.tail d = _
        rw [tl, World.tl W hc]
        simp only [insertAt, List.take_length, List.take_left]
      · show es.length < _
        have := alloc_length (vs.take j) h.fresh ns
        simp only [insertAt, List.length_append, this, List.length_take]
        omega
    · intro d s q x hx l
      obtain ⟨rfl, rfl⟩ := one_some q
      rw [l.2] at hx
      exact ln l.1 hx
    · intro d s d' s' q q' hne
      exact absurd ((one_some q).1.trans (one_some q').1.symm) hne
    · intro x l; rw [l.2]; exact ll l.1
  · refine ⟨_, _, _, ⟨j, leak, by rw [hp]; exact a, hj, fun x => Iff.rfl, .inr ⟨by rw [hg]; exact st, rfl, rfl⟩⟩, ?_⟩
    rw [hg, hp]
    have mk : mask (noQueue : Stales T) (fun x => leak = true ∧ x = nodeOf (h.fresh + (j - ns.length)) (ns.drop j)) =
        lostSet leak (nodeOf (h.fresh + (j - ns.length)) (ns.drop j)) := by
      funext x
      rw [Bool.eq_iff_iff, mask_true, hmem]
      constructor
      · rintro (q | q)
        · exact q
        · exact absurd q no_cells
      · exact .inl
    refine ⟨wt, ?_, ?_, ?_, ?_, ?_, ?_⟩
    · rw [mk]
      refine World.chg W hc (s' := ⟨_, _⟩) ef ⟨rt, ?_⟩
      show t.tail c = _
      rw [tl, World.tl W hc]
      by_cases ji : i = es.length
      · have : j = 0 := by
          apply Decidable.byContradiction; intro g; exact st ⟨ji, by omega⟩
        subst this
        simp [alloc, insertAt]
      · exact (last_insert (by omega) _).symm
    · intro d s q; cases q
    · intro d s q; cases q
    · intro d s q; cases q
    · intro d s d' s' q; cases q
    · intro x l; rw [l.2]; exact ll l.1

end Verif.Exc.XLq
