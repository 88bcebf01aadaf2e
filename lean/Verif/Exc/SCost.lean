import Verif.Exc.Cost
import Verif.Exc.SBad
/-!
# The cost of the members of `ttl::sorted_vector_map`

`Within b x p`: where the member `p` of the model without exceptions returns, the throwing member `x` makes at most `b` operations that may throw:
allocations of arrays, copies of pairs with their allocation, calls of the comparator, `==` of keys.
-/
set_option linter.unusedVariables false
set_option linter.unusedSectionVars false
set_option linter.constructorNameAsVariable false
namespace Verif.Exc
open Verif Lean.Order
variable {σ α β : Type}

structure Within (b : Nat) (x : Thr σ α) (p : Prog σ α) : Prop where
  out : ∀ s a s', p s = .ok (a, s') → ∃ n, Points x s n a s' (fun _ _ => True) ∧ n ≤ b

variable {b c : Nat}

theorem within_pure (a : α) : Within 0 (pure a : Thr σ α) (pure a) := ⟨fun s r s' e => by cases e; exact ⟨0, Points.pure_, Nat.le_refl _⟩⟩
theorem within_call (p : Prog σ α) : Within 0 (Thr.call p) p := ⟨fun s a s' e => ⟨0, Points.call_ e, Nat.le_refl _⟩⟩
theorem Within.imp {x : Thr σ α} {p : Prog σ α} (X : Within b x p) (l : b ≤ c) : Within c x p := ⟨fun s a s' e => by
  obtain ⟨n, P, q⟩ := X.out s a s' e
  exact ⟨n, P, Nat.le_trans q l⟩⟩
theorem Within.bind {x : Thr σ α} {p : Prog σ α} {f : α → Thr σ β} {g : α → Prog σ β} (X : Within b x p) (Y : ∀ a, Within c (f a) (g a)) :
    Within (b + c) (x >>= f) (p >>= g) := by
  refine ⟨fun s r s' e => ?_⟩
  simp only [Prog.bind_app] at e
  cases q : p s with
  | diverge => rw [q] at e; cases e
  | ub f => rw [q] at e; cases e
  | ok y =>
    rw [q] at e
    obtain ⟨n, P, l1⟩ := X.out _ _ _ q
    obtain ⟨m, Q, l2⟩ := (Y y.1).out _ _ _ e
    exact ⟨n + m, Points.seq P Q, Nat.add_le_add l1 l2⟩
theorem within_call_bind {p : Prog σ α} {f : α → Thr σ β} {g : α → Prog σ β} (Y : ∀ a, Within c (f a) (g a)) : Within c (Thr.call p >>= f) (p >>= g) :=
  ((within_call p).bind Y).imp (by omega)
theorem Within.point {x : Thr σ α} {p : Prog σ α} (X : Within b x p) : Within (b + 1) (do Thr.point; x) p := ⟨fun s a s' e => by
  obtain ⟨n, P, q⟩ := X.out s a s' e
  exact ⟨1 + n, Points.seq (Points.point_ trivial) P, by omega⟩⟩
theorem within_ite {d : Prop} [Decidable d] {x y : Thr σ α} {p q : Prog σ α} (X : Within b x p) (Y : Within b y q) :
    Within b (if d then x else y) (if d then p else q) := by split <;> assumption
theorem within_adm2 {A B : Type} (w : A → B → Nat) (x : A → B → Thr σ α) : admissible (fun p : A → B → Prog σ α => ∀ a d, Within (w a d) (x a d) (p a d)) := by
  intro c hc ih a b
  refine ⟨fun s y s' e => ?_⟩
  obtain ⟨f, hf, e'⟩ := XVec.sup_ok2 hc e
  exact (ih f hf a b).out s _ s' e'

namespace XSM
open Verif.Vec Verif.SVMap Verif.Exc
variable {K V : Type} [DecidableEq K] (lt : K → K → Bool)

theorem within_same_ite (a d : K) {x y : Thr (Mem K V) α} {p q : Prog (Mem K V) α} (hx : Within b x p) (hy : Within b y q) :
    Within (b + 1) (do let t ← same a d; if t then x else y) (if a = d then p else q) := by
  by_cases g : a = d
  · rw [if_pos g]; simp only [same, bind_assoc, pure_bind, g, decide_true, if_true]; exact hx.point
  · rw [if_neg g]; simp only [same, bind_assoc, pure_bind, g, decide_false, Bool.false_eq_true, if_false]; exact hy.point
theorem within_less_ite (a d : K) {x y : Thr (Mem K V) α} {p q : Prog (Mem K V) α} (hx : Within b x p) (hy : Within b y q) :
    Within (b + 1) (do let t ← less lt a d; if t then x else y) (if lt a d then p else q) := by
  simp only [less, bind_assoc, pure_bind]
  exact (within_ite hx hy).point

/-- The least `d` with `n < 2 ^ d`. -/
def bits (n : Nat) : Nat := if n = 0 then 0 else Nat.log2 n + 1

theorem bits_le {n d : Nat} (l : n < 2 ^ d) : bits n ≤ d := by
  unfold bits
  split
  · omega
  · rename_i z
    exact (Nat.log2_lt z).2 l

theorem bits_lt (n : Nat) : n < 2 ^ bits n := by
  unfold bits
  split
  · subst_vars; decide
  · exact Nat.lt_log2_self

theorem bits_half {n m : Nat} (h : n ≠ 0) (l : m ≤ n / 2) : bits m + 1 ≤ bits n := by
  have q : n < 2 ^ bits n := bits_lt n
  obtain ⟨d, e⟩ : ∃ d, bits n = d + 1 := ⟨Nat.log2 n, by unfold bits; rw [if_neg h]⟩
  rw [e, Nat.pow_succ] at q
  have := bits_le (n := m) (d := d) (by omega)
  omega

theorem within_bsearchLoop (elements : Ptr) (key : K) (L H : Nat) :
    Within (2 * bits (H - L)) (bsearchLoop lt elements key L H : Thr (Mem K V) _) (SVMap.bsearchLoop lt elements key L H) := by
  refine SVMap.bsearchLoop.fixpoint_induct lt elements key (motive := fun f => ∀ L H, Within (2 * bits (H - L)) (bsearchLoop lt elements key L H) (f L H))
    (within_adm2 _ _) (fun f ih L H => ?_) L H
  rw [bsearchLoop]
  by_cases l : L < H
  · simp only [if_pos l]
    refine within_call_bind fun q => within_call_bind fun e => ?_
    have h1 := bits_half (n := H - L) (m := H - (L + (H - L) / 2 + 1)) (by omega) (by omega)
    have h2 := bits_half (n := H - L) (m := L + (H - L) / 2 - L) (by omega) (by omega)
    refine (within_same_ite (b := 2 * (bits (H - L) - 1) + 1) _ _ ((within_pure _).imp (Nat.zero_le _)) (within_call_bind fun q => within_call_bind fun e =>
      within_less_ite lt _ _ ((ih _ _).imp (by omega)) ((ih _ _).imp (by omega)))).imp (by omega)
  · simp only [if_neg l]
    exact (within_pure _).imp (Nat.zero_le _)

variable {lt} {ok : Nat → Prop} {dv : V} {L : List Nat} {N : Nat → Prop} {h : Mem K V} {vs : List (K × V)}


theorem within_newArray (n : Nat) : Within 1 (newArray n : Thr (Mem K V) Ptr) (SVMap.newArray n) := (within_call _).point
theorem within_newPair (e : K × V) : Within 1 (newPair e) (SVMap.newPair e) := (within_call _).point

theorem within_insertBefore (c : Nat) (pos : Ptr) (e : K × V) : Within 2 (insertBefore c pos e) (SVMap.insertBefore c pos e) :=
  within_call_bind fun r => within_call_bind fun room => within_ite
    (within_call_bind fun n => ((within_newArray _).bind (c := 1) fun a => within_call_bind fun o => ((within_newPair e).bind (c := 0) fun p =>
      within_call_bind fun _ => within_call_bind fun _ => within_call_bind fun _ => within_call_bind fun _ => within_call_bind fun _ => within_pure _)))
    (within_call_bind fun _ => within_call_bind fun i => ((within_newPair e).bind (c := 1) fun p => within_call_bind fun _ => (within_pure _).imp (by omega)))

/-! ## In a given memory, with a bound that depends on the result -/

structure At (s : σ) (b : α → Nat) (x : Thr σ α) (p : Prog σ α) : Prop where
  out : ∀ a s', p s = .ok (a, s') → ∃ n, Points x s n a s' (fun _ _ => True) ∧ n ≤ b a

theorem _root_.Verif.Exc.Within.at_ {x : Thr σ α} {p : Prog σ α} (X : Within b x p) (s : σ) : At s (fun _ => b) x p := ⟨X.out s⟩
theorem At.imp {s : σ} {x : Thr σ α} {p : Prog σ α} {b c : α → Nat} (X : At s b x p) (l : ∀ a, b a ≤ c a) : At s c x p := ⟨fun a s' e => by
  obtain ⟨n, P, q⟩ := X.out a s' e
  exact ⟨n, P, Nat.le_trans q (l a)⟩⟩
theorem At.bind {s : σ} {x : Thr σ α} {p : Prog σ α} {f : α → Thr σ β} {g : α → Prog σ β} {c : β → Nat} (X : At s (fun _ => b) x p)
    (Y : ∀ a s', p s = .ok (a, s') → At s' c (f a) (g a)) : At s (fun r => b + c r) (x >>= f) (p >>= g) := by
  refine ⟨fun r s' e => ?_⟩
  simp only [Prog.bind_app] at e
  cases q : p s with
  | diverge => rw [q] at e; cases e
  | ub f => rw [q] at e; cases e
  | ok y =>
    rw [q] at e
    obtain ⟨n, P, l1⟩ := X.out _ _ q
    obtain ⟨m, Q, l2⟩ := (Y y.1 y.2 q).out _ _ e
    exact ⟨n + m, Points.seq P Q, Nat.add_le_add l1 l2⟩
theorem at_call_bind {s s' : σ} {p : Prog σ α} {a : α} {f : α → Thr σ β} {g : α → Prog σ β} {c : β → Nat} (e : p s = .ok (a, s')) (Y : At s' c (f a) (g a)) :
    At s c (Thr.call p >>= f) (p >>= g) :=
  (((within_call p).at_ s).bind fun a' t e' => by rw [e] at e'; cases e'; exact Y).imp fun _ => by omega
theorem at_pure {s : σ} (a : α) {c : α → Nat} : At s c (pure a : Thr σ α) (pure a) := ((within_pure a).at_ s).imp fun _ => Nat.zero_le _
theorem at_ite {s : σ} {d : Prop} [Decidable d] {x y : Thr σ α} {p q : Prog σ α} {c : α → Nat} (X : d → At s c x p) (Y : ¬ d → At s c y q) :
    At s c (if d then x else y) (if d then p else q) := by
  by_cases g : d
  · rw [if_pos g, if_pos g]; exact X g
  · rw [if_neg g, if_neg g]; exact Y g
theorem At.point {s : σ} {x : Thr σ α} {p : Prog σ α} {c : α → Nat} (X : At s c x p) : At s (fun r => c r + 1) (do Thr.point; x) p := ⟨fun a s' e => by
  obtain ⟨n, P, q⟩ := X.out a s' e
  exact ⟨1 + n, Points.seq (Points.point_ trivial) P, by omega⟩⟩
theorem at_same_ite (a d : K) {s : Mem K V} {x y : Thr (Mem K V) α} {p q : Prog (Mem K V) α} {c : α → Nat} (hx : a = d → At s c x p) (hy : a ≠ d → At s c y q) :
    At s (fun r => c r + 1) (do let t ← same a d; if t then x else y) (if a = d then p else q) := by
  by_cases g : a = d
  · rw [if_pos g]; simp only [same, bind_assoc, pure_bind, g, decide_true, if_true]; exact (hx g).point
  · rw [if_neg g]; simp only [same, bind_assoc, pure_bind, g, decide_false, Bool.false_eq_true, if_false]; exact (hy g).point

section
variable {G : Gone} {S : State K V} {s : SS K V} {c d : Nat} {i n : Nat}

theorem at_bsearch (v : IsSM h c s) (l : s.vals.length < 2 ^ n) (key : K) : At h (fun _ => 2 * n) (bsearch lt c key) (SVMap.bsearch lt c key) := by
  refine at_call_bind (size_ok v) (at_call_bind (getObj_eq v.obj) ?_)
  refine ((within_bsearchLoop lt _ key 0 _).at_ h).imp fun _ => ?_
  have := Nat.mod_le s.nodes.length uintMod
  rw [vals_length] at l
  have := bits_le (n := s.nodes.length % uintMod - 0) (d := n) (by omega)
  omega

theorem at_find (v : IsSM h c s) (l : s.vals.length < 2 ^ n) (key : K) : At h (fun _ => 2 * n) (find lt c key) (SVMap.find lt c key) :=
  ((at_bsearch v l key).bind (c := fun _ => 0) fun re t _ => at_ite (fun _ => ((within_call _).at_ _).bind (b := 0) (c := fun _ => 0) fun _ _ _ => at_pure _) fun _ => (within_call _).at_ _)

theorem at_findInsertPos (v : IsSM h c s) (l : s.vals.length < 2 ^ n) (key : K) : At h (fun _ => 2 * n) (findInsertPos lt c key) (SVMap.findInsertPos lt c key) :=
  (at_bsearch v l key).bind (c := fun _ => 0) fun re t _ => ((within_call _).at_ _).bind (b := 0) (c := fun _ => 0) fun _ _ _ => at_pure _

theorem at_insertBefore (v : IsSM h c s) (room : s.nodes.length < s.cap) (pos : Ptr) (e : K × V) : At h (fun _ => 1) (insertBefore c pos e) (SVMap.insertBefore c pos e) := by
  refine at_call_bind (getObj_eq v.obj) (at_call_bind (diff_eq s.blk v.le) ?_)
  refine at_ite (fun q => absurd q (by omega)) fun _ => ?_
  exact Within.at_ (b := 1) (within_call_bind fun _ => within_call_bind fun i => ((within_newPair e).bind (c := 0) fun p => within_call_bind fun _ => within_pure _)) h

/-- What an insertion adds to the search. -/
def putCost (s : SS K V) : Nat := if s.nodes.length < s.cap then 1 else 2

theorem at_put (v : IsSM h c s) (pos : Ptr) (e : K × V) : At h (fun _ => putCost s) (insertBefore c pos e) (SVMap.insertBefore c pos e) := by
  unfold putCost
  split
  · rename_i q; exact at_insertBefore v q pos e
  · exact (within_insertBefore c pos e).at_ h

theorem at_insert (v : IsSM h c s) (l : s.vals.length < 2 ^ n) (e : K × V) :
    At h (fun r => 2 * n + 1 + (if r.2 then putCost s else 0)) (insert lt c e) (SVMap.insert lt c e) := by
  refine ((at_findInsertPos v l e.1).bind (c := fun r => (if r.2 then putCost s else 0) + 1) fun p t q => ?_).imp fun _ => by omega
  rw [findInsertPos_any v] at q; cases q
  refine at_call_bind (end_ok v) (at_ite (fun ne => ?_) fun _ => ?_)
  · have le := (search_in (lt := lt) e.1 s.vals).1
    have l : (search lt e.1 s.vals).1 < s.vals.length := by
      rw [vals_length] at le ⊢
      refine Nat.lt_of_le_of_ne le fun q => ne (by rw [q])
    refine at_call_bind (v.deref (List.getElem?_eq_getElem l)) (at_same_ite _ _ (fun _ => at_pure _) fun _ => ?_)
    refine ⟨fun r h' eq => ?_⟩
    obtain ⟨p, h1, e1, e2⟩ := prog_ok_bind eq
    cases e2
    obtain ⟨m, P, lm⟩ := (at_put v _ e).out _ _ e1
    exact ⟨m, Points.seq (n := m) (m := 0) P Points.pure_, lm⟩
  · refine ⟨fun r h' eq => ?_⟩
    obtain ⟨p, h1, e1, e2⟩ := prog_ok_bind eq
    cases e2
    obtain ⟨m, P, lm⟩ := (at_put v _ e).out _ _ e1
    exact ⟨m, Points.seq (n := m) (m := 0) P Points.pure_, Nat.le_succ_of_le lm⟩

theorem at_made (v : IsSM h c s) (pos : Ptr) (e : K × V) : At h (fun _ => 6 + putCost s) (insertMade c pos e) (SVMap.insertBefore c pos e) := by
  refine ⟨fun r h' eq => ?_⟩
  obtain ⟨m, P, l⟩ := (at_put v pos e).out _ _ eq
  refine ⟨1 + (1 + (1 + (1 + (1 + (1 + m))))), ?_, by omega⟩
  exact (Points.point_ trivial).seq ((Points.point_ trivial).seq ((Points.point_ trivial).seq ((Points.point_ trivial).seq ((Points.point_ trivial).seq
    ((Points.point_ trivial).seq P)))))

theorem at_index (v : IsSM h c s) (l : s.vals.length < 2 ^ n) (dv : V) (key : K) :
    At h (fun _ => 2 * n + 1 + (if (search lt key s.vals).2 then 0 else 6 + putCost s)) (index lt dv c key) (SVMap.index lt dv c key) := by
  refine ((at_findInsertPos v l key).bind (c := fun _ => (if (search lt key s.vals).2 then 0 else 6 + putCost s) + 1) fun p t q => ?_).imp fun _ => by omega
  rw [findInsertPos_any v] at q; cases q
  have put : (search lt key s.vals).2 = false → At h (fun _ => if (search lt key s.vals).2 then 0 else 6 + putCost s)
      (do let p ← insertMade c ⟨s.blk, (search lt key s.vals).1⟩ (key, dv); Thr.call (rdPtr p))
      (do let p ← SVMap.insertBefore c ⟨s.blk, (search lt key s.vals).1⟩ (key, dv); rdPtr p) := fun f => by
    simp only [f, Bool.false_eq_true, if_false]
    exact (at_made v _ _).bind (c := fun _ => 0) fun p t _ => (within_call _).at_ t
  have found : (search lt key s.vals).2 = true → ∃ w, s.vals[(search lt key s.vals).1]? = some (key, w) := (search_in (lt := lt) key s.vals).2
  refine at_call_bind (end_ok v) (at_ite (fun ne => ?_) fun eq => ?_)
  · have le := (search_in (lt := lt) key s.vals).1
    have l : (search lt key s.vals).1 < s.vals.length := by
      rw [vals_length] at le ⊢
      refine Nat.lt_of_le_of_ne le fun q => ne (by rw [q])
    refine at_call_bind (v.deref (List.getElem?_eq_getElem l)) (at_same_ite _ _ (fun _ => ((within_call _).at_ h).imp fun _ => Nat.zero_le _) fun nk => put ?_)
    cases z : (search lt key s.vals).2 with
    | false => rfl
    | true =>
      obtain ⟨w, q⟩ := found z
      rw [List.getElem?_eq_getElem l] at q
      exact absurd (by rw [Option.some.inj q]) nk
  · refine (put ?_).imp fun _ => Nat.le_succ _
    cases z : (search lt key s.vals).2 with
    | false => rfl
    | true =>
      obtain ⟨w, q⟩ := found z
      have q2 : (search lt key s.vals).1 = s.nodes.length := Classical.byContradiction fun no => eq fun e => no (Ptr.mk.inj e).2
      rw [q2, ← vals_length, List.getElem?_eq_none (Nat.le_refl _)] at q
      cases q

theorem at_upperLoop (v : IsSM h c s) (key : K) (di : s.vals.Pairwise fun a b => a.1 ≠ b.1) (le : i ≤ s.vals.length) :
    At h (fun _ => 2) (upperLoop c key ⟨s.blk, i⟩) (SVMap.upperLoop c key ⟨s.blk, i⟩) := by
  have one : ∀ j, j ≤ s.vals.length → (∀ e, s.vals[j]? = some e → e.1 ≠ key) → At h (fun _ => 1) (upperLoop c key ⟨s.blk, j⟩) (SVMap.upperLoop c key ⟨s.blk, j⟩) := fun j lj no => by
    rw [upperLoop, SVMap.upperLoop]
    refine at_call_bind (end_ok v) (at_ite (fun ne => ?_) fun _ => at_pure _)
    have l : j < s.vals.length := by
      rw [vals_length] at lj ⊢
      exact Nat.lt_of_le_of_ne lj fun q => ne (by rw [q])
    refine at_call_bind (v.deref (List.getElem?_eq_getElem l)) (at_same_ite _ _ (c := fun _ => 0) (fun e => absurd e (no _ (List.getElem?_eq_getElem l))) fun _ => at_pure _)
  rw [upperLoop, SVMap.upperLoop]
  refine at_call_bind (end_ok v) (at_ite (fun ne => ?_) fun _ => at_pure _)
  have l : i < s.vals.length := by
    rw [vals_length] at le ⊢
    exact Nat.lt_of_le_of_ne le fun q => ne (by rw [q])
  refine at_call_bind (v.deref (List.getElem?_eq_getElem l)) (at_same_ite _ _ (c := fun _ => 1) (fun e => one (i + 1) l fun e' he' k => ?_) fun _ => at_pure _)
  obtain ⟨l2, q⟩ := List.getElem?_eq_some_iff.1 he'
  exact List.pairwise_iff_getElem.1 di i (i + 1) l l2 (Nat.lt_succ_self _) (by rw [e, q, k])

/-- The loop of the copy constructor makes one pair for each element. -/
theorem points_copyLoop (W : WorldG G h S) (hd : S d = some s) : ∀ (k i : Nat) (u : Mem K V), i + k = s.nodes.length → Copied h u s.cap i →
    ∃ w, Points (copyLoop h.fresh ⟨s.blk, i⟩ ⟨s.blk, s.nodes.length⟩) u k () w fun _ _ => True := by
  intro k
  induction k with
  | zero =>
    intro i u q C
    rw [copyLoop, if_neg (by simp; omega)]; exact ⟨u, Points.pure_⟩
  | succ k ih =>
    intro i u q C
    have il : i < s.nodes.length := by omega
    obtain ⟨r1, r2⟩ := (C.map W hd).rd (List.getElem?_eq_getElem il)
    obtain ⟨w, X, _, C'⟩ := C.step (by have := (W.sm d s hd).le; omega) s.nodes[i].2
    obtain ⟨w', P⟩ := ih (i + 1) w (by omega) C'
    refine ⟨w', ?_⟩
    rw [copyLoop, if_pos (by simp; omega)]
    refine Points.call_seq (a := _) (s' := u) r1 (Points.call_seq (a := _) (s' := u) r2 (Points.cast (Nat.add_comm 1 k) ?_))
    refine Points.seq (n := 1) (m := k) (a := ⟨u.fresh, 0⟩) (s' := mk1 u s.nodes[i].2) (Points.seq (n := 1) (m := 0) (a := ()) (s' := u) (Points.point_ trivial) (Points.call_ (newPair_ok ..))) ?_
    have X' := X (copyLoop h.fresh ⟨s.blk, i + 1⟩ ⟨s.blk, s.nodes.length⟩)
    exact ⟨fun j => by rw [← P.returns j]; exact X' (k + j), fun j l => by obtain ⟨t, e, _⟩ := P.throws j l; exact ⟨t, by rw [← e]; exact X' j, trivial⟩⟩

end

/-! ## The properties -/
open Verif.SVMap.AnyProps

variable {c d n : Nat}

theorem quiet_costs {x : Thr (Mem K V) α} {p : Prog (Mem K V) α} {b : α → Nat} {a : α} {h h' : Mem K V} (X : At h b x p) (qu : Quiet x) (e : p h = .ok (a, h')) :
    ∃ m, Costs x h m h ∧ m ≤ b a := by
  obtain ⟨m, P, l⟩ := X.out a h' e
  have := qu.out _ _ _ _ (P.returns 0); subst this
  exact ⟨m, P.costs, l⟩

/-- **C149, lookups.** In a map of fewer than `2 ^ d` elements, `find`, `at`, `lower_bound`, `equal_range` and `count` make at most `2 * d` comparisons: one `==` and one call
of the comparator for each halving. They allocate nothing. -/
theorem lookup_cost (X : XRuns ok lt dv L N h) (hc : c ∈ L) (o : Lists h c vs) (l : vs.length < 2 ^ d) (key : K) :
    (∃ n, Costs (find lt c key) h n h ∧ n ≤ 2 * d) ∧ (∃ n, Costs (lowerBound lt c key) h n h ∧ n ≤ 2 * d) ∧
    (∃ n, Costs (equalRange lt c key) h n h ∧ n ≤ 2 * d) ∧ (∃ n, Costs (count lt c key) h n h ∧ n ≤ 2 * d) ∧
    (SVMap.find lt c key h ≠ SVMap.end_ c h → ∃ n, Costs (at_ lt c key) h n h ∧ n ≤ 2 * d) := by
  obtain ⟨G, S, I, g⟩ := X.inv stable_true
  obtain ⟨s, hs⟩ := (I.live c).1 hc
  have v := I.world.sm c s hs
  have := (isSM_lists v).inj o; subst this
  have f := find_any (lt := lt) v key
  have af := at_find (lt := lt) v l key
  have er : ∃ p, SVMap.equalRange lt c key h = .ok (p, h) := by
    simp only [SVMap.equalRange, Prog.bind_app, f, Res.bind_ok, end_ok v, Prog.ite_app, Prog.pure_app]
    by_cases z : (⟨s.blk, if (search lt key s.vals).2 then (search lt key s.vals).1 else s.vals.length⟩ : Ptr) ≠ ⟨s.blk, s.nodes.length⟩
    · rw [if_pos z]; exact ⟨_, rfl⟩
    · rw [if_neg z]; exact ⟨_, rfl⟩
  have ec : ∃ p, SVMap.count lt c key h = .ok (p, h) := by
    simp only [SVMap.count, Prog.bind_app, f, Res.bind_ok, end_ok v, Prog.pure_app]; exact ⟨_, rfl⟩
  obtain ⟨p, er⟩ := er
  obtain ⟨m, ec⟩ := ec
  refine ⟨quiet_costs af (quiet_find lt c key) f, quiet_costs (at_findInsertPos v l key) (quiet_findInsertPos lt c key) (findInsertPos_any v key), ?_, ?_, fun ne => ?_⟩
  · exact quiet_costs (af.bind (c := fun _ => 0) fun i t _ => ((within_call _).at_ t).bind (b := 0) (c := fun _ => 0) fun e t' _ => at_ite (fun _ => at_pure _) fun _ => at_pure _)
      (quiet_equalRange lt c key) er
  · exact quiet_costs (b := fun _ => 2 * d) (af.bind (c := fun _ => 0) fun i t _ => ((within_call _).at_ t).bind (b := 0) (c := fun _ => 0) fun e t' _ => at_pure _) (quiet_count lt c key) ec
  · rw [f, end_ok v] at ne
    have fnd : (search lt key s.vals).2 = true := by
      cases z : (search lt key s.vals).2 with
      | true => rfl
      | false => rw [z] at ne; exact absurd (by simp [vals_length]) ne
    obtain ⟨w, q⟩ := (search_in (lt := lt) key s.vals).2 fnd
    have at' : ∃ p, SVMap.at_ lt c key h = .ok (p, h) := by
      simp only [SVMap.at_, Prog.bind_app, f, fnd, if_true, Res.bind_ok]
      obtain ⟨x, hx, ex⟩ : ∃ x, s.nodes[(search lt key s.vals).1]? = some x ∧ x.2 = (key, w) := by
        simpa [SS.vals] using q
      exact ⟨_, (v.rd hx).1⟩
    obtain ⟨p, e⟩ := at'
    exact quiet_costs (af.bind (c := fun _ => 0) fun i t _ => (within_call _).at_ t) (quiet_at lt c key) e

/-- **C149, upper_bound.** `upper_bound` makes at most two more. -/
theorem upper_cost (O : StrictTotalOrder lt) (X : XRuns (· < 4294967296) lt dv L N h) (hc : c ∈ L) (o : Lists h c vs) (l : vs.length < 2 ^ d) (key : K) :
    ∃ n, Costs (upperBound lt c key) h n h ∧ n ≤ 2 * d + 2 := by
  obtain ⟨G, S, I, g⟩ := X.inv (stable_sorted O)
  obtain ⟨s, hs⟩ := (I.live c).1 hc
  have v := I.world.sm c s hs
  have := (isSM_lists v).inj o; subst this
  obtain ⟨j, _, _, u, _⟩ := upperLoop_any v key _ (search lt key s.vals).1 (Nat.le_refl _) (search_in key s.vals).1
  have eu : SVMap.upperBound lt c key h = .ok (⟨s.blk, j⟩, h) := by
    simp only [SVMap.upperBound, Prog.bind_app, findInsertPos_any v, Res.bind_ok, u]
  refine quiet_costs ((at_findInsertPos (lt := lt) v l key).bind (c := fun _ => 2) fun p t q => ?_) (quiet_upperBound lt c key) eu
  rw [findInsertPos_any v] at q; cases q
  exact at_upperLoop v key ((I.prop c s hs).imp fun {a b} q e => by rw [e, O.irrefl] at q; cases q) (search_in key s.vals).1

/-- **C149, insert.** `insert` in a map of fewer than `2 ^ d` elements makes at most `2 * d + 1` comparisons, and beyond them, only if it inserts, the pair and, only if the
array is full, a new array. -/
theorem insert_cost (X : XRuns ok lt dv L N h) (hc : c ∈ L) (o : Lists h c vs) (f : ok vs.length) (l : vs.length < 2 ^ d) {r : Rec} (hr : getObj c h = .ok (r, h)) (key : K) (w : V) :
    ∃ n p new h', SVMap.exec lt dv (.insert c key w) h = .ok (.ins p new, h') ∧ Costs (exec lt dv (.insert c key w)) h n h' ∧
      n ≤ 2 * d + 1 + (if new then if r.last = r.eoe then 2 else 1 else 0) := by
  obtain ⟨G, S, I, g⟩ := X.inv stable_true
  obtain ⟨s, hs⟩ := (I.live c).1 hc
  have v := I.world.sm c s hs
  have := (isSM_lists v).inj o; subst this
  rw [getObj_eq v.obj] at hr; cases hr
  obtain ⟨m, r, h2, S', Y, e, I'⟩ := call_points (dv := dv) stable_true I (.insert c key w) ⟨hc, _, o.size, f⟩
  obtain ⟨a, h1, e1, e2⟩ := prog_ok_bind e
  cases e2
  obtain ⟨n, P, q⟩ := (at_insert v l (key, w)).out _ _ e1
  refine ⟨n, a.1, a.2, h2, e, Points.costs (P := fun _ _ => True) (Points.seq (n := n) (m := 0) P Points.pure_), Nat.le_trans q (Nat.add_le_add_left ?_ _)⟩
  have le := v.le
  cases a.2 with
  | false => simp
  | true =>
    simp only [if_true, putCost, Ptr.mk.injEq, true_and]
    by_cases z : s.nodes.length = s.cap
    · rw [if_neg (by omega), if_pos z]; exact Nat.le_refl _
    · rw [if_pos (by omega), if_neg z]; exact Nat.le_refl _

/-- **C149, operator[].** The same for `operator[]`, which inserts nothing if `find` finds the key, and otherwise makes the pair `make_pair(key, T())` with
six operations more. -/
theorem index_cost (X : XRuns ok lt dv L N h) (hc : c ∈ L) (o : Lists h c vs) (f : ok vs.length) (l : vs.length < 2 ^ d) {r : Rec} (hr : getObj c h = .ok (r, h)) (key : K) :
    ∃ n h', Costs (exec lt dv (.index c key)) h n h' ∧
      n ≤ 2 * d + 7 + (if r.last = r.eoe then 2 else 1) ∧ (SVMap.find lt c key h ≠ SVMap.end_ c h → n ≤ 2 * d + 1) := by
  obtain ⟨G, S, I, g⟩ := X.inv stable_true
  obtain ⟨s, hs⟩ := (I.live c).1 hc
  have v := I.world.sm c s hs
  have := (isSM_lists v).inj o; subst this
  rw [getObj_eq v.obj] at hr; cases hr
  obtain ⟨m, r, h2, S', Y, e, I'⟩ := call_points (dv := dv) stable_true I (.index c key) ⟨hc, _, o.size, f⟩
  obtain ⟨a, h1, e1, e2⟩ := prog_ok_bind e
  cases e2
  obtain ⟨n, P, q⟩ := (at_index v l dv key).out _ _ e1
  refine ⟨n, h2, Points.costs (P := fun _ _ => True) (Points.seq (n := n) (m := 0) P Points.pure_), Nat.le_trans q (show _ ≤ 2 * d + 7 + _ from ?_), fun ne => ?_⟩
  · have le := v.le
    simp only [putCost, Ptr.mk.injEq, true_and]
    split
    · omega
    · by_cases z : s.nodes.length = s.cap
      · rw [if_neg (by omega), if_pos z]; omega
      · rw [if_pos (by omega), if_neg z]; omega
  · rw [find_any v, end_ok v] at ne
    cases z : (search lt key s.vals).2 with
    | true => rw [z] at q; exact q
    | false => rw [z] at ne; exact absurd (by simp [vals_length]) ne

/-- **C149, copy.** A copy makes one array and as many pairs as there are elements. -/
theorem copy_cost (X : XRuns ok lt dv L N h) (hd : d ∈ L) (o : Lists h d vs) : ∃ h', Costs (exec lt dv (.copyOf d)) h (vs.length + 1) h' := by
  obtain ⟨G, S, I, g⟩ := X.inv stable_true
  obtain ⟨s, hs⟩ := (I.live d).1 hd
  have v := I.world.sm d s hs
  have W := I.world
  have := (isSM_lists v).inj o; subst this
  obtain ⟨m, r, h2, S', Y, e, I'⟩ := call_points (dv := dv) (ok := ok) stable_true I (.copyOf d) hd
  suffices m = s.vals.length + 1 by rw [← this]; exact ⟨h2, Y.costs⟩
  refine Nat.le_antisymm ?_ ?_
  · refine Classical.byContradiction fun no => ?_
    obtain ⟨t, q, _⟩ := Y.throws (s.vals.length + 1) (by omega)
    have ld := W.lt d s hs
    have ob : (started h).obj d = some ⟨⟨s.blk, 0⟩, ⟨s.blk, s.nodes.length⟩, ⟨s.blk, s.cap⟩⟩ := by
      show upd h.obj h.fresh _ d = _; rw [upd_other _ _ (by omega)]; exact v.obj
    have d0 : diff (⟨s.blk, s.cap⟩ : Ptr) ⟨s.blk, 0⟩ (started h) = .ok (s.cap, started h) := by rw [diff_eq s.blk (Nat.zero_le _)]; rfl
    have no : (newObj ⟨Ptr.null, Ptr.null, Ptr.null⟩ : Prog (Mem K V) Nat) h = .ok (h.fresh, started h) := rfl
    have na : newArray s.cap (s.vals.length + 1) (started h) = .ok (.ret ⟨h.fresh + 1, 0⟩ s.vals.length, withArray (started h) s.cap) := rfl
    have o1 : (withArray (started h) s.cap).obj h.fresh = some ⟨Ptr.null, Ptr.null, Ptr.null⟩ := upd_same ..
    have C : Copied h ((withArray (started h) s.cap).setObj h.fresh ⟨⟨h.fresh + 1, 0⟩, ⟨h.fresh + 1, 0⟩, ⟨h.fresh + 1, s.cap⟩⟩) s.cap 0 := by
      refine ⟨?_, rfl, fun b q => ?_, upd_same .., fun b q q' => by omega⟩
      · show upd (upd h.obj h.fresh _) h.fresh _ = _
        rw [upd_upd]
      · have : b ≠ h.fresh + 1 := by omega
        exact ⟨upd_other _ _ this, upd_other _ _ this⟩
    obtain ⟨w, Z⟩ := points_copyLoop W hs s.nodes.length 0 _ (Nat.zero_add _) C
    have z := Z.returns 0
    rw [Nat.add_zero, ← vals_length] at z
    rw [exec] at q
    simp only [copyOf, copyBody, Thr.unwinding, Thr.bind_app, Thr.call_app, getObj_eq ob, no, Res.bind_ok, Thr.after_ret, d0, na, setObj_eq o1, ptr_add, Nat.zero_add, ← vals_length, z] at q
    cases q
  · refine Classical.byContradiction fun no => ?_
    obtain ⟨t, q, _⟩ := copyOf_thrown W hs (k := m) (by rw [← vals_length]; omega)
    have y := Y.returns 0
    rw [Nat.add_zero, exec, Thr.bind_app, q] at y
    cases y

/-- **C149, the rest.** A constructor makes one allocation; destroying a map, `clear` and an assignment through an iterator make none and compare nothing. -/
theorem other_cost (X : XRuns ok lt dv L N h) :
    (∀ m, m ≠ 1 → ∃ h', Costs (exec lt dv (.ctor m)) h 1 h') ∧ (∀ c ∈ L, (∃ h', Costs (exec lt dv (.destroy c)) h 0 h') ∧ ∃ h', Costs (exec lt dv (.clear c)) h 0 h') := by
  obtain ⟨G, S, I, g⟩ := X.inv stable_true
  refine ⟨fun m ne => ?_, fun c hc => ⟨?_, ?_⟩⟩
  · obtain ⟨r, h', S', e, I'⟩ := step_any (dv := dv) (ok := ok) (lt := lt) stable_true I (.ctor m) ne
    obtain ⟨a, h1, e1, e2⟩ := prog_ok_bind e
    cases e2
    exact ⟨h', Points.costs (Points.seq (n := 1) (m := 0) (a := a) (s' := h') (ctor_points I.world m e1) Points.pure_)⟩
  · obtain ⟨r, h', S', e, I'⟩ := step_any (dv := dv) (ok := ok) (lt := lt) stable_true I (.destroy c) hc
    exact ⟨h', Points.costs (P := fun _ _ => True) (Points.call_ (p := SVMap.exec lt dv (.destroy c)) e)⟩
  · obtain ⟨r, h', S', e, I'⟩ := step_any (dv := dv) (ok := ok) (lt := lt) stable_true I (.clear c) hc
    exact ⟨h', Points.costs (P := fun _ _ => True) (Points.call_ (p := SVMap.exec lt dv (.clear c)) e)⟩

/-- The hypotheses are met: in a map of one element, `find` makes at most two comparisons and `insert` of another key at most four operations. -/
example : ∃ (h : Mem Nat Nat), XRuns (fun _ => True) ltN 0 [1] (fun _ => False) h ∧ Lists h 1 [(5, 50)] ∧ (∃ n, Costs (find ltN 1 5) h n h ∧ n ≤ 2) ∧
    (∃ n h', Costs (exec ltN 0 (.insert 1 3 30)) h n h' ∧ n ≤ 4) ∧ ∃ h', Costs (exec ltN 0 (.copyOf 1)) h 2 h' := by
  obtain ⟨h, r, R, o, hr, q⟩ := one_of_two (ok := fun _ => True) (lt := ltN) (dv := 0) trivial 5 50
  have X := of_runs R
  obtain ⟨n, p, new, h', e, C, l⟩ := insert_cost (d := 1) X (by simp) o trivial (by decide) hr 3 30
  rw [if_neg q] at l
  exact ⟨h, X, o, (lookup_cost (d := 1) X (by simp) o (by decide) 5).1, ⟨n, h', C, by split at l <;> omega⟩, copy_cost X (by simp) o⟩

end XSM
end Verif.Exc
