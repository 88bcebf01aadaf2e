import Verif.Map.SAny
/-!
# Properties of `ttl::sorted_vector_map` with any comparator (C120, C121, C122)

`Runs ok lt dv L h`: memory `h` is the result of some client program over any number of maps, and `L` are the maps that exist. Nothing is assumed
about `lt`, the functor `Compare`: it may be inconsistent. `ok n` says whether an insertion into a map with `n` elements is allowed (it is used to
state what holds below 2^32 elements). What the theorems say about contents is said with client-side observations: `Lists h c vs` means that iterating
from `begin()` to `end()` and back, `size()` and `empty()` answer according to the sequence `vs`.
-/
set_option linter.unusedVariables false
set_option linter.unusedSimpArgs false
set_option linter.unusedSectionVars false
namespace Verif.SVMap.AnyProps
open Verif Verif.Vec Verif.SVMap
variable {K V : Type} [DecidableEq K] {h h' : Mem K V} {S : State K V} {c d i : Nat} {s : SS K V} {lt lt' : K → K → Bool} {dv : V} {vs ws : List (K × V)}
variable {ok : Nat → Prop} {L : List Nat}

/-- The precondition of a call, in terms of what the client can observe: the map exists, `sorted_vector_map(1)` is not used, the entry that is
assigned to exists. -/
def Fits (ok : Nat → Prop) (lt : K → K → Bool) (L : List Nat) (h : Mem K V) : Call K V → Prop
  | .create => True
  | .ctor n => n ≠ 1
  | .copyOf d => d ∈ L
  | .destroy c => c ∈ L
  | .clear c => c ∈ L
  | .insert c _ _ => c ∈ L ∧ ∃ n, size c h = .ok (n, h) ∧ ok n
  | .index c _ => c ∈ L ∧ ∃ n, size c h = .ok (n, h) ∧ ok n
  | .put c _ _ => c ∈ L ∧ ∃ n, size c h = .ok (n, h) ∧ ok n
  | .setAt c k _ => c ∈ L ∧ ∃ p e, find lt c k h = .ok (p, h) ∧ end_ c h = .ok (e, h) ∧ p ≠ e
  | .store c n _ => c ∈ L ∧ ∃ m, size c h = .ok (m, h) ∧ n < m

/-- The maps that exist after a call with result `r`. -/
def after (L : List Nat) (r : Ret) : Call K V → List Nat
  | .destroy c => L.erase c
  | _ => match r with | .obj c => c :: L | _ => L

/-- Memory `h` is the result of a client program that started without maps; `L` are the maps that exist. -/
inductive Runs (ok : Nat → Prop) (lt : K → K → Bool) (dv : V) : List Nat → Mem K V → Prop where
  | start : Runs ok lt dv [] ⟨fun _ => none, fun _ => none, fun _ _ => none, 1⟩
  | step {L : List Nat} {h h' : Mem K V} {r : Ret} (k : Call K V) : Runs ok lt dv L h → Fits ok lt L h k → exec lt dv k h = .ok (r, h') → Runs ok lt dv (after L r k) h'

/-- Iteration, `size()` and `empty()` of `c` answer according to `vs`. -/
structure Lists (h : Mem K V) (c : Nat) (vs : List (K × V)) : Prop where
  forward : toList c h = .ok (vs, h)
  backward : toListBack c h = .ok (vs.reverse, h)
  size : size c h = .ok (vs.length, h)
  empty : empty c h = .ok (vs.isEmpty, h)
  bounds : ∃ p, begin_ c h = .ok (p, h) ∧ end_ c h = .ok (p + vs.length, h) ∧ ∀ (i : Nat) e, vs[i]? = some e → deref (p + i) h = .ok (e, h)

/-- Every existing map other than `c` answers as before. -/
def OthersKept (L : List Nat) (h h' : Mem K V) (c : Nat) : Prop := ∀ d ∈ L, d ≠ c → ∀ vs, Lists h d vs → Lists h' d vs

theorem Lists.inj (a : Lists h c vs) (b : Lists h c ws) : vs = ws := by
  have := a.forward.symm.trans b.forward; cases this; rfl

theorem isSM_lists (v : IsSM h c s) : Lists h c s.vals := by
  refine ⟨toList_ok v, toListBack_ok v, by rw [vals_length]; exact size_ok v, ?_, ⟨s.blk, 0⟩, begin_ok v, ?_, ?_⟩
  · rw [empty_ok v, ← vals_length]; cases s.vals <;> simp
  · rw [end_ok v, vals_length, ptr_add, Nat.zero_add]
  · intro i e he; rw [ptr_add, Nat.zero_add]; exact v.deref he

/-- The invariant: `P` holds of the entries of every map. For `G` see `WorldG`. -/
structure InvG (G : Gone) (P : List (K × V) → Prop) (h : Mem K V) (S : State K V) (L : List Nat) : Prop where
  world : WorldG G h S
  live : ∀ c, c ∈ L ↔ S.Exists c
  nodup : L.Nodup
  cap : ∀ c s, S c = some s → s.cap ≠ 1
  prop : ∀ c s, S c = some s → P s.vals

abbrev Inv (P : List (K × V) → Prop) (h : Mem K V) (S : State K V) (L : List Nat) : Prop := InvG Nowhere P h S L

variable {G : Gone} {P : List (K × V) → Prop}

theorem InvG.change (I : InvG G P h S L) {t : SS K V} (hc : S c = some s) (W : WorldG G h' (S.set c (some t))) (cp : t.cap ≠ 1) (pr : P t.vals) : InvG G P h' (S.set c (some t)) L := by
  refine ⟨W, fun d => ?_, I.nodup, set_mem I.cap (by rintro _ ⟨⟩; exact cp), set_mem I.prop (by rintro _ ⟨⟩; exact pr)⟩
  by_cases e : d = c
  · subst e; exact ⟨fun _ => set_exists .., fun _ => (I.live d).2 ⟨s, hc⟩⟩
  · rw [I.live d]; simp only [State.Exists, set_other S e]

theorem InvG.add (I : InvG G P h S L) {t : SS K V} (W : WorldG G h' (S.set h.fresh (some t))) (cp : t.cap ≠ 1) (pr : P t.vals) : InvG G P h' (S.set h.fresh (some t)) (h.fresh :: L) := by
  have n : S h.fresh = none := (I.world.fresh_none (Nat.le_refl _)).1
  refine ⟨W, fun d => ?_, List.nodup_cons.2 ⟨fun q => ?_, I.nodup⟩, set_mem I.cap (by rintro _ ⟨⟩; exact cp), set_mem I.prop (by rintro _ ⟨⟩; exact pr)⟩
  · by_cases e : d = h.fresh
    · subst e; exact ⟨fun _ => set_exists .., fun _ => List.mem_cons_self ..⟩
    · rw [List.mem_cons, I.live d]; simp only [State.Exists, set_other S e, e, false_or]
  · obtain ⟨s, hs⟩ := (I.live _).1 q; rw [n] at hs; cases hs

theorem InvG.remove {G' : Gone} (I : InvG G P h S L) (hc : S c = some s) (W : WorldG G' h' (S.set c none)) : InvG G' P h' (S.set c none) (L.erase c) := by
  refine ⟨W, fun d => ?_, I.nodup.erase _, set_mem I.cap (fun _ q => by cases q), set_mem I.prop (fun _ q => by cases q)⟩
  rw [I.nodup.mem_erase_iff, I.live d]
  by_cases e : d = c
  · subst e; simp only [State.Exists, set_same]; simp
  · simp only [State.Exists, set_other S e]; simp [e]

/-- What the invariant property `P` must survive. -/
structure Stable (ok : Nat → Prop) (lt : K → K → Bool) (P : List (K × V) → Prop) : Prop where
  nil : P []
  ins : ∀ vs k v, P vs → ok vs.length → hit k vs (search lt k vs).1 = false → P (insVals (search lt k vs).1 (k, v) vs)
  set : ∀ vs i w, P vs → P (vs.modify i fun e => (e.1, w))

theorem Stable.put1 (T : Stable ok lt P) (p : P s.vals) (l : ok s.vals.length) (f : Nat) (k : K) (v : V) : P (s.put1 lt f k v).vals := by
  rw [put1_vals]
  cases g : hit k s.vals (search lt k s.vals).1 with
  | true => exact p
  | false => exact T.ins _ k v p l g

theorem step_any (T : Stable ok lt P) (I : InvG G P h S L) (k : Call K V) (ft : Fits ok lt L h k) :
    ∃ r h' S', exec lt dv k h = .ok (r, h') ∧ InvG G P h' S' (after L r k) := by
  have W := I.world
  have ofSize : ∀ {c : Nat} {s : SS K V} {n : Nat}, S c = some s → size c h = .ok (n, h) → n = s.vals.length := by
    intro c s n hs q
    have := (isSM_lists (W.sm c s hs)).size.symm.trans q; cases this; rfl
  cases k with
  | create =>
    obtain ⟨h', e, W', _⟩ := create_ok W
    exact ⟨.obj h.fresh, h', _, by simp only [exec, Prog.bind_app, e, Res.bind_ok]; rfl, I.add W' (by show 0 ≠ 1; omega) T.nil⟩
  | ctor n =>
    obtain ⟨h', e, W', _⟩ := ctor_ok W n
    exact ⟨.obj h.fresh, h', _, by simp only [exec, Prog.bind_app, e, Res.bind_ok]; rfl, I.add W' ft T.nil⟩
  | copyOf d =>
    obtain ⟨t, hd⟩ := (I.live d).1 ft
    obtain ⟨h', e, W'⟩ := copyOf_ok W hd
    refine ⟨.obj h.fresh, h', _, by simp only [exec, Prog.bind_app, e, Res.bind_ok]; rfl, I.add W' (I.cap d t hd) ?_⟩
    simp only [SS.vals, renum_vals]; exact I.prop d t hd
  | destroy c =>
    obtain ⟨s, hc⟩ := (I.live c).1 ft
    obtain ⟨h', e, W', _⟩ := destroy_ok W hc
    exact ⟨.none, h', _, by simp only [exec, Prog.bind_app, e, Res.bind_ok]; rfl, I.remove hc W'⟩
  | clear c =>
    obtain ⟨⟨blk, cap, ns⟩, hc⟩ := (I.live c).1 ft
    obtain ⟨h', e, W'⟩ := clear_ok ns h S blk cap W hc
    exact ⟨.none, h', _, by simp only [exec, Prog.bind_app, e, Res.bind_ok]; rfl, I.change hc W' (I.cap c ⟨blk, cap, ns⟩ hc : cap ≠ 1) T.nil⟩
  | insert c k v =>
    obtain ⟨hl, n, q, o⟩ := ft
    obtain ⟨s, hc⟩ := (I.live c).1 hl
    have := ofSize hc q; subst this
    obtain ⟨h', e, W', _⟩ := insert_any (lt := lt) W hc k v (I.cap c s hc)
    exact ⟨.ins _ _, h', _, by simp only [exec, Prog.bind_app, e, Res.bind_ok]; rfl, I.change hc W' (put1_cap _ _ _ (I.cap c s hc)) (T.put1 (I.prop c s hc) o _ _ _)⟩
  | index c k =>
    obtain ⟨hl, n, q, o⟩ := ft
    obtain ⟨s, hc⟩ := (I.live c).1 hl
    have := ofSize hc q; subst this
    obtain ⟨h', x, e, W', _⟩ := index_any (lt := lt) (dv := dv) W hc k (I.cap c s hc)
    exact ⟨.ref _, h', _, by simp only [exec, Prog.bind_app, e, Res.bind_ok]; rfl, I.change hc W' (put1_cap _ _ _ (I.cap c s hc)) (T.put1 (I.prop c s hc) o _ _ _)⟩
  | put c k v =>
    obtain ⟨hl, n, q, o⟩ := ft
    obtain ⟨s, hc⟩ := (I.live c).1 hl
    have := ofSize hc q; subst this
    obtain ⟨h1, x, e1, W1, hx, _⟩ := index_any (lt := lt) (dv := dv) W hc k (I.cap c s hc)
    obtain ⟨h2, e2, W2, _⟩ := store_ok W1 (set_same ..) hx v
    rw [set_set, ← setVal_eq hx] at W2
    refine ⟨.none, h2, _, by simp only [exec, Prog.bind_app, e1, Res.bind_ok, e2]; rfl, I.change hc W2 (put1_cap (lt := lt) h.fresh k dv (I.cap c s hc)) ?_⟩
    rw [setVal_vals]; exact T.set _ _ _ (T.put1 (I.prop c s hc) o _ _ _)
  | setAt c k v =>
    obtain ⟨hl, p, e, q1, q2, ne⟩ := ft
    obtain ⟨s, hc⟩ := (I.live c).1 hl
    have w := W.sm c s hc
    rw [find_any w] at q1; cases q1
    rw [end_ok w] at q2; cases q2
    have g : (search lt k s.vals).2 = true := by
      cases g : (search lt k s.vals).2 with
      | true => rfl
      | false => rw [g] at ne; simp [vals_length] at ne
    obtain ⟨u, hu⟩ := (search_in k s.vals).2 g
    rw [SS.vals, List.getElem?_map, Option.map_eq_some_iff] at hu
    obtain ⟨x, hx, _⟩ := hu
    obtain ⟨h', e, W', _⟩ := store_ok W hc hx v
    rw [← setVal_eq hx] at W'
    refine ⟨.none, h', _, by simp only [exec, Prog.bind_app, at_any w g hx, Res.bind_ok, e]; rfl, I.change hc W' (I.cap c s hc) ?_⟩
    rw [setVal_vals]; exact T.set _ _ _ (I.prop c s hc)
  | store c n v =>
    obtain ⟨hl, m, q, l⟩ := ft
    obtain ⟨s, hc⟩ := (I.live c).1 hl
    have := ofSize hc q; subst this
    rw [vals_length] at l
    have hx : s.nodes[n]? = some s.nodes[n] := List.getElem?_eq_getElem l
    obtain ⟨h', e, W', _⟩ := store_ok W hc hx v
    have w := W.sm c s hc
    rw [← setVal_eq hx] at W'
    refine ⟨.none, h', _, by simp only [exec, Prog.bind_app, begin_ok w, Res.bind_ok, ptr_add, Nat.zero_add, (w.rd hx).1, e]; rfl, I.change hc W' (I.cap c s hc) ?_⟩
    rw [setVal_vals]; exact T.set _ _ _ (I.prop c s hc)

theorem Runs.inv (T : Stable ok lt P) (R : Runs ok lt dv L h) : ∃ S, Inv P h S L := by
  induction R with
  | start =>
    have W := inv_start (K := K) (V := V) (lt := lt)
    exact ⟨_, W.world, fun c => ⟨fun q => (by cases q), fun ⟨_, q⟩ => (by cases q)⟩, List.nodup_nil, fun _ _ q => (by cases q), fun _ _ q => (by cases q)⟩
  | step k R ft e ih =>
    obtain ⟨S, I⟩ := ih
    obtain ⟨r, h2, S', e2, I'⟩ := step_any (dv := dv) T I k ft
    rw [e] at e2; cases e2; exact ⟨S', I'⟩

theorem stable_true : Stable (V := V) ok lt fun _ => True := ⟨trivial, fun _ _ _ _ _ _ => trivial, fun _ _ _ _ => trivial⟩

theorem observed (R : Runs ok lt dv L h) (hc : c ∈ L) (o : Lists h c vs) : ∃ S s, Inv (fun _ => True) h S L ∧ S c = some s ∧ IsSM h c s ∧ s.vals = vs ∧ s.cap ≠ 1 := by
  obtain ⟨S, I⟩ := R.inv stable_true
  obtain ⟨s, hs⟩ := (I.live c).1 hc
  have v := I.world.sm c s hs
  exact ⟨S, s, I, hs, v, (isSM_lists v).inj o, I.cap c s hs⟩

theorem kept_of (I : Inv P h S L) {o : Option (SS K V)} (W : World h' (S.set c o)) : OthersKept L h h' c := by
  intro d hd ne vs lv
  obtain ⟨s, hs⟩ := (I.live d).1 hd
  have := (isSM_lists (I.world.sm d s hs)).inj lv; subst this
  exact isSM_lists (W.sm d s (by rw [set_other S ne]; exact hs))

/-! ## C120: any comparator -/

/-- **C120.** Whatever the comparator and however many elements there are, every call returns normally, in a memory that is again the result of a client program. -/
theorem any_call_returns_partial (R : Runs ok lt dv L h) (k : Call K V) (ft : Fits ok lt L h k) :
    ∃ r h', exec lt dv k h = .ok (r, h') ∧ Runs ok lt dv (after L r k) h' := by
  obtain ⟨S, I⟩ := R.inv stable_true
  obtain ⟨r, h', _, e, _⟩ := step_any (dv := dv) stable_true I k ft
  exact ⟨r, h', e, R.step k ft e⟩

/-- **C120.** Every map that exists answers `size()`, `empty()` and iteration in both directions according to one sequence. -/
theorem any_lists_partial (R : Runs ok lt dv L h) (hc : c ∈ L) : ∃ vs, Lists h c vs := by
  obtain ⟨S, I⟩ := R.inv stable_true
  obtain ⟨s, hs⟩ := (I.live c).1 hc
  exact ⟨_, isSM_lists (I.world.sm c s hs)⟩

/-- **C120.** `insert(k, v)` either finds an entry with a key equal to `k`, changes nothing and returns an iterator to it and `false`, or puts `(k, v)` at one
place of the sequence, keeps everything else, and returns an iterator to it and `true`. -/
theorem any_insert_partial (R : Runs ok lt dv L h) (hc : c ∈ L) (o : Lists h c vs) (l : ok vs.length) (k : K) (v : V) :
    ∃ b q i h' ws, insert lt c (k, v) h = .ok ((q + i, b), h') ∧ Runs ok lt dv L h' ∧ Lists h' c ws ∧ begin_ c h' = .ok (q, h') ∧ OthersKept L h h' c ∧
      (b = true → i ≤ vs.length ∧ ws = vs.take i ++ (k, v) :: vs.drop i) ∧ (b = false → h' = h ∧ ws = vs ∧ ∃ u, vs[i]? = some (k, u)) := by
  obtain ⟨S, s, I, hs, w, rfl, cp⟩ := observed R hc o
  obtain ⟨h', e, W', keep⟩ := insert_any (lt := lt) I.world hs k v cp
  have v' := W'.sm c _ (set_same ..)
  have ex : exec lt dv (.insert c k v) h = .ok (.ins ⟨(s.put1 lt h.fresh k v).blk, (search lt k s.vals).1⟩ (!hit k s.vals (search lt k s.vals).1), h') := by
    simp only [exec, Prog.bind_app, e, Res.bind_ok]; rfl
  have R' := R.step (.insert c k v) ⟨hc, _, o.size, l⟩ ex
  refine ⟨_, ⟨(s.put1 lt h.fresh k v).blk, 0⟩, (search lt k s.vals).1, h', _, by rw [e, ptr_add, Nat.zero_add], R', isSM_lists v', begin_ok v', kept_of I W', ?_, ?_⟩
  · intro g
    have g : hit k s.vals (search lt k s.vals).1 = false := by simpa using g
    refine ⟨(search_in k s.vals).1, ?_⟩
    rw [put1_vals, g]; rfl
  · intro g
    have g : hit k s.vals (search lt k s.vals).1 = true := by simpa using g
    refine ⟨keep g, ?_, hit_iff.1 g⟩
    rw [put1_vals, g]; rfl

/-- **C120.** `m[k]` refers to an entry with key `k`; it either was there, and nothing changes, or is put with value `T()` at one place of the sequence. -/
theorem any_index_partial (R : Runs ok lt dv L h) (hc : c ∈ L) (o : Lists h c vs) (l : ok vs.length) (k : K) :
    ∃ p h' ws i u, index lt dv c k h = .ok (p, h') ∧ Runs ok lt dv L h' ∧ Lists h' c ws ∧ ws[i]? = some (k, u) ∧ rdPair p h' = .ok ((k, u), h') ∧ OthersKept L h h' c ∧
      ((h' = h ∧ ws = vs) ∨ (u = dv ∧ i ≤ vs.length ∧ ws = vs.take i ++ (k, dv) :: vs.drop i)) := by
  obtain ⟨S, s, I, hs, w, rfl, cp⟩ := observed R hc o
  obtain ⟨h', x, e, W', hx, kx, keep⟩ := index_any (lt := lt) (dv := dv) I.world hs k cp
  have v' := W'.sm c _ (set_same ..)
  have ex : exec lt dv (.index c k) h = .ok (.ref ⟨x.1, 0⟩, h') := by
    simp only [exec, Prog.bind_app, e, Res.bind_ok]; rfl
  have R' := R.step (.index c k) ⟨hc, _, o.size, l⟩ ex
  have ee : x.2 = (k, x.2.2) := by rw [← kx]
  have gx : (s.put1 lt h.fresh k dv).vals[(search lt k s.vals).1]? = some (k, x.2.2) := by rw [SS.vals, List.getElem?_map, hx, ← ee]; rfl
  refine ⟨_, h', _, (search lt k s.vals).1, x.2.2, e, R', isSM_lists v', gx, by rw [← ee]; exact (v'.rd hx).2, kept_of I W', ?_⟩
  cases g : hit k s.vals (search lt k s.vals).1 with
  | true => exact .inl ⟨keep g, by rw [put1_vals, g]; rfl⟩
  | false =>
    obtain ⟨u, hu, e'⟩ := put1_get (lt := lt) h.fresh k dv s
    rw [gx] at hu; cases hu
    exact .inr ⟨e' g, (search_in k s.vals).1, by rw [put1_vals, g]; rfl⟩

/-- **C120.** `find(k)` changes nothing and returns `end()` or an iterator to an entry with a key equal to `k`; so does `equal_range(k)`, with the next
position; `lower_bound` and `upper_bound` return iterators of the map. -/
theorem any_find_sound_partial (R : Runs ok lt dv L h) (hc : c ∈ L) (o : Lists h c vs) (k : K) :
    ∃ p, begin_ c h = .ok (p, h) ∧
      (find lt c k h = .ok (p + vs.length, h) ∧ equalRange lt c k h = .ok ((p + vs.length, p + vs.length), h) ∧ count lt c k h = .ok (1, h) ∨
        ∃ i u, vs[i]? = some (k, u) ∧ find lt c k h = .ok (p + i, h) ∧ equalRange lt c k h = .ok ((p + i, p + (i + 1)), h) ∧ count lt c k h = .ok (0, h) ∧
          (do rdPair (← at_ lt c k) : Prog (Mem K V) (K × V)) h = .ok ((k, u), h)) ∧
      ∃ i j, i ≤ j ∧ j ≤ vs.length ∧ lowerBound lt c k h = .ok (p + i, h) ∧ upperBound lt c k h = .ok (p + j, h) := by
  obtain ⟨S, s, I, hs, w, rfl, cp⟩ := observed R hc o
  refine ⟨⟨s.blk, 0⟩, begin_ok w, ?_, ?_⟩
  · cases g : (search lt k s.vals).2 with
    | false =>
      refine .inl ?_
      have f : find lt c k h = .ok (⟨s.blk, s.vals.length⟩, h) := by rw [find_any w, g]; rfl
      refine ⟨by rw [f, ptr_add, Nat.zero_add], ?_, ?_⟩
      · simp only [equalRange, Prog.bind_app, f, Res.bind_ok, end_ok w, Prog.ite_app, vals_length, ptr_add, Nat.zero_add, ne_eq, not_true_eq_false, if_false, Prog.pure_app]
      · simp only [count, Prog.bind_app, f, Res.bind_ok, end_ok w, vals_length, if_true, Prog.pure_app]
    | true =>
      refine .inr ?_
      obtain ⟨u, hu⟩ := (search_in k s.vals).2 g
      have f : find lt c k h = .ok (⟨s.blk, (search lt k s.vals).1⟩, h) := by rw [find_any w, g]; rfl
      have hl := (List.getElem?_eq_some_iff.1 hu).1
      have ne : (⟨s.blk, (search lt k s.vals).1⟩ : Ptr) ≠ ⟨s.blk, s.nodes.length⟩ := by rw [vals_length] at hl; simp; omega
      refine ⟨(search lt k s.vals).1, u, hu, by rw [f, ptr_add, Nat.zero_add], ?_, ?_, ?_⟩
      · simp only [equalRange, Prog.bind_app, f, Res.bind_ok, end_ok w, Prog.ite_app, if_pos ne, next, ptr_add, Nat.zero_add, Prog.pure_app]
      · simp only [count, Prog.bind_app, f, Res.bind_ok, end_ok w, if_neg ne, Prog.pure_app]
      · rw [SS.vals, List.getElem?_map, Option.map_eq_some_iff] at hu
        obtain ⟨x, hx, e⟩ := hu
        simp only [Prog.bind_app, at_any w g hx, Res.bind_ok, (w.rd hx).2, e]
  · obtain ⟨j, a, b, r, _⟩ := upperLoop_any w k _ (search lt k s.vals).1 (Nat.le_refl _) (search_in k s.vals).1
    refine ⟨(search lt k s.vals).1, j, a, b, by rw [lowerBound, findInsertPos_any w, ptr_add, Nat.zero_add], ?_⟩
    simp only [upperBound, Prog.bind_app, findInsertPos_any w, Res.bind_ok, r, ptr_add, Nat.zero_add]

/-- **C120.** When no map exists any more, nothing is allocated. -/
theorem any_no_leak_partial (R : Runs ok lt dv [] h) : (∀ b, h.size b = none ∧ ∀ i, h.slot b i = none) ∧ ∀ c, h.obj c = none := by
  obtain ⟨S, I⟩ := R.inv stable_true
  have none : ∀ c, S c = none := fun c => by
    cases g : S c with
    | none => rfl
    | some s => have := (I.live c).2 ⟨s, g⟩; cases this
  refine ⟨fun b => I.world.own b fun c q => ?_, fun c => I.world.obj c (none c)⟩
  rw [own_none (none c)] at q; cases q

end Verif.SVMap.AnyProps
