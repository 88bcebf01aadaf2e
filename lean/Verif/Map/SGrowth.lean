import Verif.Map.SWeak
/-!
# How often `ttl::sorted_vector_map` reallocates (C142)

When the array of pointers is full, `insert` allocates one that is half as large again (ttl/sorted_vector_map.hpp:291-296). The client sees that in
`begin()`, which then is another iterator. The theorems are about any comparator and any number of elements.
-/
set_option linter.unusedVariables false
set_option linter.unusedSimpArgs false
set_option linter.unusedSectionVars false
namespace Verif.SVMap.AnyProps
open Verif Verif.Vec Verif.SVMap
variable {K V : Type} [DecidableEq K] {h h' : Mem K V} {S : State K V} {c : Nat} {s : SS K V} {lt : K → K → Bool} {dv : V} {vs ws : List (K × V)} {L : List Nat}

/-- A client that inserts entries one after another, counts how often `begin()` is another iterator after the insertion and adds up how many elements the map
had then: these are the reallocations and the pointers that are copied for them. -/
def insertsCounting (lt : K → K → Bool) (c : Nat) : List (K × V) → Nat → Nat → Prog (Mem K V) (Nat × Nat)
  | [], reallocations, copied => pure (reallocations, copied)
  | e :: es, reallocations, copied => do
    let before ← begin_ c
    let n ← size c
    let _ ← insert lt c e
    if (← begin_ c) = before then insertsCounting lt c es reallocations copied
    else insertsCounting lt c es (reallocations + 1) (copied + n)

/-- What is known of a map after `r` reallocations in which `m` pointers were copied. -/
structure Grew (r m n cap : Nat) : Prop where
  odd : ∀ q, r = 2 * q + 1 → 2 * 2 ^ q ≤ cap
  even : ∀ q, r = 2 * q + 2 → 3 * 2 ^ q ≤ cap
  cap1 : cap ≠ 1
  copies : m ≤ 2 * cap + r
  total : m ≤ 3 * n + r
  many : r ≤ n
  log : 0 < r → 2 ^ (r / 2) ≤ n

theorem Grew.start (n cap : Nat) (c1 : cap ≠ 1) : Grew 0 0 n cap :=
  ⟨fun q e => by omega, fun q e => by omega, c1, by omega, by omega, by omega, fun q => absurd q (Nat.lt_irrefl _)⟩

theorem Grew.more {r m n cap : Nat} (g : Grew r m n cap) : Grew r m (n + 1) cap :=
  { g with total := by have := g.total; omega, many := by have := g.many; omega, log := fun q => Nat.le_succ_of_le (g.log q) }

theorem Grew.grow {r m n cap : Nat} (g : Grew r m n cap) (full : n = cap) : Grew (r + 1) (m + n) (n + 1) (if cap = 0 then 2 else cap + cap / 2) := by
  have c1 := g.cap1
  have cp := g.copies
  subst full
  refine ⟨fun q e => ?_, fun q e => ?_, ?_, ?_, by omega, by have := g.many; omega, fun _ => ?_⟩
  · cases q with
    | zero => split <;> omega
    | succ q =>
      have := g.even q (by omega)
      have p : 0 < 2 ^ q := Nat.two_pow_pos q
      rw [Nat.pow_succ]
      rw [if_neg (by omega)]
      omega
  · have := g.odd q (by omega)
    have p : 0 < 2 ^ q := Nat.two_pow_pos q
    rw [if_neg (by omega)]
    omega
  · split <;> omega
  · split <;> omega
  · rcases Nat.mod_two_eq_zero_or_one r with z | z
    · by_cases r0 : r = 0
      · subst r0; simp
      · have := g.even (r / 2 - 1) (by omega)
        rw [show (r + 1) / 2 = (r / 2 - 1) + 1 by omega, Nat.pow_succ]
        omega
    · have := g.odd (r / 2) (by omega)
      rw [show (r + 1) / 2 = r / 2 + 1 by omega, Nat.pow_succ]
      omega

theorem counting (es : List (K × V)) {r m : Nat} (W : World h S) (hc : S c = some s) (g : Grew r m s.vals.length s.cap) :
    ∃ r' m' h' s' S', insertsCounting lt c es r m h = .ok ((r', m'), h') ∧ World h' S' ∧ S' c = some s' ∧ Grew r' m' s'.vals.length s'.cap ∧
      s'.vals.length ≤ s.vals.length + es.length := by
  induction es generalizing h S s r m with
  | nil => exact ⟨r, m, h, s, S, rfl, W, hc, g, Nat.le_refl _⟩
  | cons e es ih =>
    obtain ⟨k, v⟩ := e
    have w := W.sm c s hc
    obtain ⟨h1, e1, W1, keep⟩ := insert_any (lt := lt) W hc k v g.cap1
    have w1 := W1.sm c _ (set_same ..)
    simp only [insertsCounting, Prog.bind_app, begin_ok w, size_ok w, e1, begin_ok w1, Res.bind_ok, Prog.ite_app]
    cases q : hit k s.vals (search lt k s.vals).1 with
    | true =>
      have es1 : s.put1 lt h.fresh k v = s := by simp only [SS.put1, q, if_true]
      rw [es1] at W1 ⊢
      rw [if_pos rfl]
      obtain ⟨r', m', h', s', S', a1, a2, a3, a4, a5⟩ := ih W1 (set_same ..) g
      exact ⟨r', m', h', s', S', a1, a2, a3, a4, by simp only [List.length_cons]; omega⟩
    | false =>
      have es1 : s.put1 lt h.fresh k v = insState h.fresh (search lt k s.vals).1 (k, v) s := by simp only [SS.put1, q, Bool.false_eq_true, if_false]
      have ln : (s.put1 lt h.fresh k v).vals.length = s.vals.length + 1 := by
        rw [put1_vals, q]
        simp only [Bool.false_eq_true, if_false, insVals, List.length_append, List.length_take, List.length_cons, List.length_drop]
        have := (search_in (lt := lt) k s.vals).1
        omega
      by_cases room : s.nodes.length < s.cap
      · have e2 : (s.put1 lt h.fresh k v).blk = s.blk ∧ (s.put1 lt h.fresh k v).cap = s.cap := by
          rw [es1, insState, if_pos room]; exact ⟨rfl, rfl⟩
        rw [if_pos (by rw [e2.1])]
        obtain ⟨r', m', h', s', S', a1, a2, a3, a4, a5⟩ := ih W1 (set_same ..) (by rw [ln, e2.2]; exact g.more)
        exact ⟨r', m', h', s', S', a1, a2, a3, a4, by simp only [List.length_cons]; omega⟩
      · have e2 : (s.put1 lt h.fresh k v).blk = h.fresh ∧ (s.put1 lt h.fresh k v).cap = if s.cap = 0 then 2 else s.cap + s.cap / 2 := by
          rw [es1, insState, if_neg room]; exact ⟨rfl, rfl⟩
        have full : s.vals.length = s.cap := by rw [vals_length]; have := w.le; omega
        have ne : s.blk ≠ h.fresh := by
          by_cases z : s.blk = 0
          · rw [z]; have := W.pos; omega
          · have := (W.bound c s.blk (by simp only [State.own, hc, SS.blocks, if_neg z]; exact List.mem_append_left _ (List.mem_singleton.2 rfl))).1
            omega
        rw [if_neg (by rw [e2.1]; simp only [Ptr.mk.injEq, and_true]; exact fun q => ne q.symm)]
        obtain ⟨r', m', h', s', S', a1, a2, a3, a4, a5⟩ := ih W1 (set_same ..) (by rw [ln, e2.2]; exact g.grow full)
        rw [← vals_length]
        exact ⟨r', m', h', s', S', a1, a2, a3, a4, by simp only [List.length_cons]; omega⟩

/-- **C142.** Inserting any entries one by one reallocates at most 2 log₂ n + 1 times and copies at most 4 n pointers for it, where n is the number of elements
at the end. -/
theorem reallocations_logarithmic {ok : Nat → Prop} (R : Runs ok lt dv L h) (hc : c ∈ L) (es : List (K × V)) :
    ∃ reallocations copied h' ws, insertsCounting lt c es 0 0 h = .ok ((reallocations, copied), h') ∧ Lists h' c ws ∧
      reallocations ≤ 2 * Nat.log2 ws.length + 1 ∧ copied ≤ 4 * ws.length := by
  obtain ⟨S, I⟩ := R.inv stable_true
  obtain ⟨s, hs⟩ := (I.live c).1 hc
  obtain ⟨r, m, h', s', S', e, W', hs', g, l⟩ := counting (lt := lt) es I.world hs (Grew.start _ _ (I.cap c s hs))
  refine ⟨r, m, h', _, e, isSM_lists (W'.sm c s' hs'), ?_, by have := g.total; have := g.many; omega⟩
  by_cases z : r = 0
  · omega
  · have l1 := g.log (by omega)
    have p : 0 < 2 ^ (r / 2) := Nat.two_pow_pos _
    have := (Nat.le_log2 (by omega)).2 l1
    omega

/-- A new map and insertions with repeated keys. -/
example : ∃ (h h' : Mem Nat Nat) (r m : Nat) (ws : List (Nat × Nat)), Lists h 1 [] ∧
    insertsCounting (fun a b => decide (a < b)) 1 [(5, 1), (3, 1), (8, 1), (5, 2), (9, 1), (3, 7)] 0 0 h = .ok ((r, m), h') ∧ Lists h' 1 ws ∧
    r ≤ 2 * Nat.log2 ws.length + 1 ∧ m ≤ 4 * ws.length := by
  obtain ⟨h, R, o⟩ := exists_new (fun _ => True) (fun a b : Nat => decide (a < b)) (0 : Nat)
  obtain ⟨r, m, h', ws, q⟩ := reallocations_logarithmic (c := 1) R (by simp) [(5, 1), (3, 1), (8, 1), (5, 2), (9, 1), (3, 7)]
  exact ⟨h, h', r, m, ws, o, q⟩

end Verif.SVMap.AnyProps
