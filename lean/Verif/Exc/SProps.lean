import Verif.Exc.SThrows
import Verif.Map.SWeak
/-!
# Programs over `ttl::sorted_vector_map` in which calls throw (C130)

`XRuns ok lt dv L N h`: memory `h` is the result of a client program over any number of maps in which any calls may have been left by exceptions at any
points; `L` are the maps that exist and may be used, `N` the memory blocks that have been lost. After an exception the client compares `size()` of its
maps with what it was: a map whose size has changed is not used any more (see `ruined_duplicates`, `ruined_destroy_ub`), and what it holds is lost.
Nothing is assumed about the comparator `lt` unless a theorem says so.
-/
set_option linter.unusedVariables false
set_option linter.unusedSimpArgs false
set_option linter.unusedSectionVars false
namespace Verif.Exc.XSM
open Verif Verif.Vec Verif.SVMap Verif.SVMap.AnyProps Verif.Exc
variable {K V : Type} [DecidableEq K] {h h' t : Mem K V} {S : State K V} {c d i n : Nat} {s : SS K V} {lt : K → K → Bool} {dv : V} {vs ws : List (K × V)}
variable {ok : Nat → Prop} {L : List Nat} {N : Nat → Prop} {G : Gone} {P : List (K × V) → Prop} {k : SVMap.Call K V}

/-- The memory block `b` belongs to the map `c`: it is its array or one of its pairs. -/
def Holds (h : Mem K V) (c b : Nat) : Prop :=
  ∃ (p : Ptr) (n : Nat), begin_ c h = .ok (p, h) ∧ size c h = .ok (n, h) ∧
    (p ≠ Ptr.null ∧ b = p.blk ∨ ∃ (i : Nat) (q : Ptr), i < n ∧ rdPtr (p + i) h = .ok (q, h) ∧ b = q.blk)

/-- `size()` of `c` answers the same in `h` and `t`. -/
def SameSize (h t : Mem K V) (c : Nat) : Prop := ∀ n, size c h = .ok (n, h) → size c t = .ok (n, t)

/-- Memory `h` is the result of a client program; `L` are its maps, `N` the lost blocks. -/
inductive XRuns (ok : Nat → Prop) (lt : K → K → Bool) (dv : V) : List Nat → (Nat → Prop) → Mem K V → Prop where
  | start : XRuns ok lt dv [] (fun _ => False) ⟨fun _ => none, fun _ => none, fun _ _ => none, 1⟩
  | returned {L : List Nat} {N : Nat → Prop} {h h' : Mem K V} {r : SVMap.Ret} (k : SVMap.Call K V) (n j : Nat) :
      XRuns ok lt dv L N h → Fits ok lt L h k → exec lt dv k n h = .ok (.ret r j, h') → XRuns ok lt dv (after L r k) N h'
  | thrown {L : List Nat} {N : Nat → Prop} {h t : Mem K V} (k : SVMap.Call K V) (n : Nat) :
      XRuns ok lt dv L N h → Fits ok lt L h k → exec lt dv k n h = .ok (.thrown, t) → (∀ c ∈ L, SameSize h t c) →
      XRuns ok lt dv L (fun b => N b ∨ h.size b = none ∧ t.size b ≠ none) t
  | ruined {L : List Nat} {N : Nat → Prop} {h t : Mem K V} (k : SVMap.Call K V) (n c : Nat) :
      XRuns ok lt dv L N h → Fits ok lt L h k → exec lt dv k n h = .ok (.thrown, t) → c ∈ L → ¬ SameSize h t c →
      XRuns ok lt dv (L.erase c) (fun b => N b ∨ Holds h c b) t

theorem holds_iff (v : IsSM h c s) {b : Nat} : Holds h c b ↔ b ∈ s.blocks := by
  constructor
  · rintro ⟨p, n, e1, e2, q⟩
    rw [begin_ok v] at e1; cases e1
    rw [size_ok v] at e2; cases e2
    rcases q with ⟨ne, rfl⟩ | ⟨i, q, l, e, rfl⟩
    · exact blk_mem (s := s) fun z => ne (by simp only [z]; rfl)
    · have hz : s.nodes[i]? = some s.nodes[i] := List.getElem?_eq_getElem l
      rw [ptr_add, Nat.zero_add, (v.rd hz).1] at e; cases e
      exact node_mem (List.mem_of_getElem? hz)
  · intro q
    refine ⟨⟨s.blk, 0⟩, s.nodes.length, begin_ok v, size_ok v, ?_⟩
    simp only [SS.blocks, List.mem_append] at q
    rcases q with q | q
    · split at q
      · cases q
      · rename_i z
        refine .inl ⟨fun e => z (Ptr.mk.inj e).1, by simpa using q⟩
    · simp only [SS.ids, List.mem_map] at q
      obtain ⟨x, hx, rfl⟩ := q
      obtain ⟨i, hi⟩ := List.mem_iff_getElem?.1 hx
      exact .inr ⟨i, ⟨x.1, 0⟩, (List.getElem?_eq_some_iff.1 hi).1, by rw [ptr_add, Nat.zero_add]; exact (v.rd hi).1, rfl⟩

theorem Ruined.size_ok {i : Nat} (r : Ruined h t c s i) : SVMap.size c t = .ok (s.nodes.length + 1, t) := by
  have o : t.obj c = some ⟨⟨s.blk, 0⟩, ⟨s.blk, s.nodes.length + 1⟩, ⟨s.blk, s.cap⟩⟩ := by rw [r.obj, upd_same]
  simp only [SVMap.size, Prog.bind_app, getObj_eq o, Res.bind_ok]
  rw [diff_eq s.blk (Nat.zero_le _)]; rfl

/-! ## Every call -/

/-- What an exception in a call leaves. -/
def Left (lt : K → K → Bool) (S : State K V) (h t : Mem K V) : SVMap.Call K V → Prop
  | .ctor _ => Plus h t []
  | .copyOf d => ∃ s j, S d = some s ∧ j ≤ s.nodes.length ∧ Plus h t (List.range' (h.fresh + 1) j)
  | .insert c k _ => ∃ s, S c = some s ∧ InsLeft lt h t c s k
  | .index c k => ∃ s, S c = some s ∧ InsLeft lt h t c s k
  | .put c k _ => ∃ s, S c = some s ∧ InsLeft lt h t c s k
  | .setAt .. => t = h
  | _ => False

theorem call_points (T : Stable ok lt P) (I : InvG G P h S L) (k : SVMap.Call K V) (ft : Fits ok lt L h k) :
    ∃ n r h' S', Points (exec lt dv k) h n r h' (fun _ t => Left lt S h t k) ∧ SVMap.exec lt dv k h = .ok (r, h') ∧ InvG G P h' S' (after L r k) := by
  obtain ⟨r, h', S', e, I'⟩ := step_any (dv := dv) T I k ft
  suffices ∃ n, Points (exec lt dv k) h n r h' (fun _ t => Left lt S h t k) by
    obtain ⟨n, X⟩ := this; exact ⟨n, r, h', S', X, e, I'⟩
  have W := I.world
  cases k with
  | create => exact ⟨0, Points.call_ (p := SVMap.exec lt dv .create) e⟩
  | destroy c => exact ⟨0, Points.call_ (p := SVMap.exec lt dv (.destroy c)) e⟩
  | clear c => exact ⟨0, Points.call_ (p := SVMap.exec lt dv (.clear c)) e⟩
  | store c n v => exact ⟨0, Points.call_ (p := SVMap.exec lt dv (.store c n v)) e⟩
  | ctor m =>
    obtain ⟨a, h1, e1, e2⟩ := prog_ok_bind e
    cases e2
    exact ⟨1, Points.seq (n := 1) (m := 0) (a := a) (s' := h') (ctor_points W m e1) Points.pure_⟩
  | copyOf d =>
    obtain ⟨s, hd⟩ := (I.live d).1 ft
    obtain ⟨a, h1, e1, e2⟩ := prog_ok_bind e
    cases e2
    obtain ⟨n, X⟩ := copyOf_points W hd e1
    refine ⟨n, Points.seq (n := n) (m := 0) (a := a) (s' := h') (X.imp fun k t _ q => ?_) Points.pure_⟩
    rcases q with q | ⟨j, l, q⟩
    · exact ⟨s, 0, hd, Nat.zero_le _, q⟩
    · exact ⟨s, j + 1, hd, l, q⟩
  | insert c k v =>
    obtain ⟨s, hc⟩ := (I.live c).1 ft.1
    exact Covers.points ((covers_insert lt c (k, v)).bind fun r => covers_pure _) e
      (throws_bind ((throws_insert W hc (I.cap c s hc) (k, v)).imp fun t q => ⟨s, hc, q⟩) fun _ _ _ _ _ => throws_pure)
  | index c k =>
    obtain ⟨s, hc⟩ := (I.live c).1 ft.1
    exact Covers.points ((covers_index lt dv c k).bind fun r => covers_pure _) e
      (throws_bind ((throws_index W hc (I.cap c s hc) dv k).imp fun t q => ⟨s, hc, q⟩) fun _ _ _ _ _ => throws_pure)
  | put c k v =>
    obtain ⟨s, hc⟩ := (I.live c).1 ft.1
    exact Covers.points ((covers_index lt dv c k).bind fun p => (covers_call _).bind fun _ => covers_pure _) e
      (throws_bind ((throws_index W hc (I.cap c s hc) dv k).imp fun t q => ⟨s, hc, q⟩) fun _ _ _ _ _ => throws_call_any fun _ _ _ => throws_pure)
  | setAt c k v =>
    exact Covers.points ((covers_at lt c k).bind fun p => (covers_call _).bind fun _ => covers_pure _) e
      (throws_bind ((quiet_at lt c k).throws rfl) fun _ _ _ _ _ => throws_call_any fun _ _ _ => throws_pure)

/-- The map a call inserts into, and the key. -/
def target : SVMap.Call K V → Option (Nat × K)
  | .insert c k _ => some (c, k)
  | .index c k => some (c, k)
  | .put c k _ => some (c, k)
  | _ => none

/-- How many blocks a call may lose when it throws. -/
def mayLose (S : State K V) : SVMap.Call K V → Nat
  | .copyOf d => (S.vals d).length
  | k => if (target k).isSome then 1 else 0

theorem InsLeft.cases {key : K} (q : InsLeft lt h t c s key) : (∃ bs, bs.length ≤ 1 ∧ bs.Nodup ∧ Plus h t bs) ∨ Ruined h t c s (search lt key s.vals).1 := by
  rcases q with rfl | ⟨_, ⟨_, q⟩ | q⟩
  · exact .inl ⟨[], by simp, List.nodup_nil, Plus.refl _⟩
  · exact .inl ⟨_, by simp, by simp, q⟩
  · exact .inr q

theorem Left.cases (q : Left lt S h t k) :
    (∃ bs, bs.length ≤ mayLose S k ∧ bs.Nodup ∧ Plus h t bs) ∨ ∃ c key s, target k = some (c, key) ∧ S c = some s ∧ Ruined h t c s (search lt key s.vals).1 := by
  cases k with
  | create => exact q.elim
  | destroy c => exact q.elim
  | clear c => exact q.elim
  | store c n v => exact q.elim
  | ctor m => exact .inl ⟨[], by simp, List.nodup_nil, q⟩
  | setAt c k v => cases q; exact .inl ⟨[], by simp, List.nodup_nil, Plus.refl _⟩
  | copyOf d =>
    obtain ⟨s, j, hd, l, p⟩ := q
    exact .inl ⟨_, by simp [mayLose, vals_some hd, vals_length, l], List.nodup_range', p⟩
  | insert c k v =>
    obtain ⟨s, hc, q⟩ := q
    exact q.cases.imp id fun r => ⟨c, k, s, rfl, hc, r⟩
  | index c k =>
    obtain ⟨s, hc, q⟩ := q
    exact q.cases.imp id fun r => ⟨c, k, s, rfl, hc, r⟩
  | put c k v =>
    obtain ⟨s, hc, q⟩ := q
    exact q.cases.imp id fun r => ⟨c, k, s, rfl, hc, r⟩

theorem plus_inv (I : InvG G P h S L) {bs : List Nat} (p : Plus h t bs) : InvG (Gone.add G bs) P t S L :=
  ⟨I.world.plus p, I.live, I.nodup, I.cap, I.prop⟩

theorem plus_same (I : InvG G P h S L) {bs : List Nat} (p : Plus h t bs) (hc : c ∈ L) : SameSize h t c := by
  obtain ⟨s, hs⟩ := (I.live c).1 hc
  intro n e
  rw [size_ok (I.world.sm c s hs)] at e; cases e
  exact size_ok ((I.world.plus p).sm c s hs)

theorem ruined_same (I : InvG G P h S L) (hc : S c = some s) (r : Ruined h t c s i) (hd : d ∈ L) (ne : d ≠ c) : SameSize h t d := by
  obtain ⟨u, hu⟩ := (I.live d).1 hd
  intro n e
  rw [size_ok (I.world.sm d u hu)] at e; cases e
  exact size_ok ((I.world.ruined hc r).sm d u (by rw [set_other S ne]; exact hu))

theorem ruined_not_same (I : InvG G P h S L) (hc : S c = some s) (r : Ruined h t c s i) : ¬ SameSize h t c := by
  intro q
  have := q _ (size_ok (I.world.sm c s hc))
  rw [r.size_ok] at this
  have := (Prod.mk.inj (Res.ok.inj this)).1
  omega

theorem plus_new (I : InvG G P h S L) {bs : List Nat} (p : Plus h t bs) (b : Nat) : b ∈ bs ↔ h.size b = none ∧ t.size b ≠ none := by
  constructor
  · intro q
    obtain ⟨a, _, e⟩ := p.new b q
    exact ⟨(I.world.free a).1, e⟩
  · rintro ⟨a, e⟩
    by_cases q : b ∈ bs
    · exact q
    · rw [(p.kept b q).1] at e; exact absurd a e

/-- The invariant of programs with exceptions. -/
def XInv (P : List (K × V) → Prop) (L : List Nat) (N : Nat → Prop) (h : Mem K V) : Prop := ∃ G S, InvG G P h S L ∧ ∀ b, G.blk b → N b

theorem XRuns.inv (T : Stable ok lt P) (X : XRuns ok lt dv L N h) : XInv P L N h := by
  induction X with
  | start =>
    have W := inv_start (K := K) (V := V) (lt := lt)
    exact ⟨Nowhere, _, ⟨W.world, fun c => ⟨fun q => (by cases q), fun ⟨_, q⟩ => (by cases q)⟩, List.nodup_nil, fun _ _ q => (by cases q), fun _ _ q => (by cases q)⟩,
      fun b q => q⟩
  | returned k n j _ ft e ih =>
    obtain ⟨G, S, I, g⟩ := ih
    obtain ⟨m, r, h2, S', X, _, I'⟩ := call_points (dv := dv) T I k ft
    rcases X.cases n with ⟨_, q⟩ | ⟨_, u, q, _⟩
    · rw [e] at q; cases q; exact ⟨G, S', I', g⟩
    · rw [e] at q; cases q
  | @thrown L N h t k n _ ft e sz ih =>
    obtain ⟨G, S, I, g⟩ := ih
    obtain ⟨m, r, h2, S', X, _, I'⟩ := call_points (dv := dv) T I k ft
    rcases X.cases n with ⟨_, q⟩ | ⟨_, u, q, l⟩
    · rw [e] at q; cases q
    · rw [e] at q; cases q
      rcases l.cases with ⟨bs, _, _, p⟩ | ⟨c, key, s, _, hc, r⟩
      · exact ⟨_, S, plus_inv I p, fun b q => q.imp (g b) (plus_new I p b).1⟩
      · exact absurd (sz c ((I.live c).2 ⟨s, hc⟩)) (ruined_not_same I hc r)
  | @ruined L N h t k n c _ ft e hl sz ih =>
    obtain ⟨G, S, I, g⟩ := ih
    obtain ⟨m, r, h2, S', X, _, I'⟩ := call_points (dv := dv) T I k ft
    rcases X.cases n with ⟨_, q⟩ | ⟨_, u, q, l⟩
    · rw [e] at q; cases q
    · rw [e] at q; cases q
      rcases l.cases with ⟨bs, _, _, p⟩ | ⟨d, key, s, _, hd, r⟩
      · exact absurd (plus_same I p hl) sz
      · have : c = d := by
          by_cases ne : c = d
          · exact ne
          · exact absurd (ruined_same I hd r hl ne) sz
        subst this
        exact ⟨_, _, I.remove hd (I.world.ruined hd r), fun b q => q.imp (g b) (holds_iff (I.world.sm c s hd)).2⟩

/-! ## What a client sees -/

/-- **C130, progress.** Whatever exceptions a program has met, with whatever comparator, every legal call returns what the model without exceptions returns, or
throws; there is no undefined behaviour and no endless loop, and the program goes on: with all its maps, or with all but one. -/
theorem XRuns.goes_on (X : XRuns ok lt dv L N h) (k : SVMap.Call K V) (ft : Fits ok lt L h k) (n : Nat) :
    (∃ r j h', exec lt dv k n h = .ok (.ret r j, h') ∧ SVMap.exec lt dv k h = .ok (r, h') ∧ XRuns ok lt dv (after L r k) N h') ∨
    ∃ t, exec lt dv k n h = .ok (.thrown, t) ∧
      ((∀ c ∈ L, SameSize h t c) ∧ XRuns ok lt dv L (fun b => N b ∨ h.size b = none ∧ t.size b ≠ none) t ∨
       ∃ c ∈ L, (∃ key, target k = some (c, key)) ∧ ¬ SameSize h t c ∧ XRuns ok lt dv (L.erase c) (fun b => N b ∨ Holds h c b) t) := by
  obtain ⟨G, S, I, g⟩ := X.inv stable_true
  obtain ⟨m, r, h2, S', Y, e, I'⟩ := call_points (dv := dv) stable_true I k ft
  rcases Y.cases n with ⟨_, q⟩ | ⟨_, t, q, l⟩
  · exact .inl ⟨r, _, h2, q, e, .returned k n _ X ft q⟩
  · refine .inr ⟨t, q, ?_⟩
    rcases l.cases with ⟨bs, _, _, p⟩ | ⟨d, key, s, tg, hd, ru⟩
    · have sz : ∀ c ∈ L, SameSize h t c := fun c hc => plus_same I p hc
      exact .inl ⟨sz, .thrown k n X ft q sz⟩
    · have hl : d ∈ L := (I.live d).2 ⟨s, hd⟩
      have ns := ruined_not_same I hd ru
      exact .inr ⟨d, hl, ⟨key, tg⟩, ns, .ruined k n d X ft q hl ns⟩

/-- **C130, iteration.** Every map that may be used answers `size()`, `empty()` and iteration in both directions according to one sequence. -/
theorem lists (X : XRuns ok lt dv L N h) (hc : c ∈ L) : ∃ vs, Lists h c vs := by
  obtain ⟨G, S, I, g⟩ := X.inv stable_true
  obtain ⟨s, hs⟩ := (I.live c).1 hc
  exact ⟨_, isSM_lists (I.world.sm c s hs)⟩

theorem stable_sorted (O : StrictTotalOrder lt) : Stable (V := V) (· < 4294967296) lt (Sorted lt) := by
  refine ⟨List.Pairwise.nil, fun vs k v so l g => ?_, fun vs i w so => ?_⟩
  · have asc : Ascending lt vs := so.imp fun {a b} q => O.asymm q
    obtain ⟨a, b⟩ := search_weak O.toStrictWeak k asc l
    rw [search_hit k l] at g
    have pl : Plain lt k vs := fun e he q q' => by
      rcases O.trichotomy e.1 k with z | z | z
      · rw [z] at q; cases q
      · exact z
      · rw [z] at q'; cases q'
    have so' : Sorted lt (vs.take (search lt k vs).1 ++ vs.drop (search lt k vs).1) := by rw [List.take_append_drop]; exact so
    rw [Sorted, List.pairwise_append] at so'
    rw [Sorted, insVals, List.pairwise_append, List.pairwise_cons]
    refine ⟨so'.1, ⟨?_, so'.2.1⟩, ?_⟩
    · intro e he
      obtain ⟨j, hj⟩ := List.mem_iff_getElem?.1 he
      rw [List.getElem?_drop] at hj
      exact (b _ e (by omega) hj).2 g pl
    · intro x hx y hy
      rcases List.mem_cons.1 hy with rfl | hy
      · obtain ⟨j, hj⟩ := List.mem_iff_getElem?.1 hx
        have := (List.getElem?_eq_some_iff.1 hj).1
        rw [List.length_take] at this
        rw [List.getElem?_take_of_lt (by omega)] at hj
        exact (a j x (by omega) hj).2 g
      · exact so'.2.2 x hx y hy
  · rw [sorted_keys, keys_setVal, ← sorted_keys]; exact so

/-- **C130, ordering and lookups.** With a strict total order and below 2^32 elements, every map that may be used is sorted, and all its observers answer
according to one sequence, whatever was thrown before. -/
theorem observes (O : StrictTotalOrder lt) (X : XRuns (· < 4294967296) lt dv L N h) (hc : c ∈ L) : ∃ vs, SMProps.Observes lt h c vs := by
  obtain ⟨G, S, I, g⟩ := X.inv (stable_sorted O)
  obtain ⟨s, hs⟩ := (I.live c).1 hc
  exact ⟨_, SMProps.isSM_observes O (I.world.sm c s hs) (I.prop c s hs)⟩

/-- **C130, strong guarantee by size.** After a call that throws, a map whose size has not changed has not changed. -/
theorem unchanged (X : XRuns ok lt dv L N h) (ft : Fits ok lt L h k) (e : exec lt dv k n h = .ok (.thrown, t)) (hc : c ∈ L) (sz : SameSize h t c) (o : Lists h c vs) :
    Lists t c vs := by
  obtain ⟨G, S, I, g⟩ := X.inv stable_true
  obtain ⟨m, r, h2, S', Y, _, I'⟩ := call_points (dv := dv) stable_true I k ft
  obtain ⟨s, hs⟩ := (I.live c).1 hc
  have := (isSM_lists (I.world.sm c s hs)).inj o
  subst this
  rcases Y.cases n with ⟨_, q⟩ | ⟨_, u, q, l⟩
  · rw [e] at q; cases q
  · rw [e] at q; cases q
    rcases l.cases with ⟨bs, _, _, p⟩ | ⟨d, key, u, _, hd, r⟩
    · exact isSM_lists ((I.world.plus p).sm c s hs)
    · have ne : c ≠ d := by rintro rfl; exact ruined_not_same I hd r sz
      exact isSM_lists ((I.world.ruined hd r).sm c s (by rw [set_other S ne]; exact hs))

/-- **C130, strong guarantee, except for insertions.** A call that throws changes no map but the one it inserts into. -/
theorem others_unchanged (X : XRuns ok lt dv L N h) (ft : Fits ok lt L h k) (e : exec lt dv k n h = .ok (.thrown, t)) (hc : c ∈ L) (nt : ∀ key, target k ≠ some (c, key)) (o : Lists h c vs) :
    Lists t c vs := by
  rcases X.goes_on k ft n with ⟨r, j, h', q, _⟩ | ⟨u, q, ⟨sz, _⟩ | ⟨d, hd, ⟨key, tg⟩, ns, _⟩⟩
  · rw [e] at q; cases q
  · rw [e] at q; cases q
    exact unchanged X ft e hc (sz c hc) o
  · rw [e] at q; cases q
    have ne : c ≠ d := by rintro rfl; exact nt key tg
    refine unchanged X ft e hc ?_ o
    obtain ⟨G, S, I, g⟩ := X.inv stable_true
    obtain ⟨m, r, h2, S', Y, _, I'⟩ := call_points (dv := dv) stable_true I k ft
    rcases Y.cases n with ⟨_, q⟩ | ⟨_, u, q, l⟩
    · rw [e] at q; cases q
    · rw [e] at q; cases q
      rcases l.cases with ⟨bs, _, _, p⟩ | ⟨d', key', u, tg', hd', r⟩
      · exact plus_same I p hc
      · rw [tg] at tg'; cases tg'
        exact ruined_same I hd' r hc ne

/-- **C130, what is lost at once.** A call that throws and leaves all sizes as they were has left at most: as many blocks as the map has elements, for
the copy constructor; one block, for an insertion; nothing, for anything else. -/
theorem lost (X : XRuns ok lt dv L N h) (ft : Fits ok lt L h k) (e : exec lt dv k n h = .ok (.thrown, t)) (sz : ∀ c ∈ L, SameSize h t c) :
    t.obj = h.obj ∧ (∀ b, h.size b ≠ none → t.size b = h.size b) ∧
    ∃ bs : List Nat, bs.Nodup ∧ (∀ b, b ∈ bs ↔ h.size b = none ∧ t.size b ≠ none) ∧
      ((∃ d vs, k = .copyOf d ∧ Lists h d vs ∧ bs.length ≤ vs.length) ∨ (target k ≠ none ∧ bs.length ≤ 1) ∨ bs = []) := by
  obtain ⟨G, S, I, g⟩ := X.inv stable_true
  obtain ⟨m, r, h2, S', Y, _, I'⟩ := call_points (dv := dv) stable_true I k ft
  rcases Y.cases n with ⟨_, q⟩ | ⟨_, u, q, l⟩
  · rw [e] at q; cases q
  · rw [e] at q; cases q
    rcases l.cases with ⟨bs, ll, nd, p⟩ | ⟨d, key, u, _, hd, r⟩
    · have kp : ∀ b, h.size b ≠ none → t.size b = h.size b := fun b q => by
        by_cases z : b ∈ bs
        · exact absurd ((plus_new I p b).1 z).1 q
        · exact (p.kept b z).1
      refine ⟨p.obj, kp, bs, nd, plus_new I p, ?_⟩
      cases k with
      | copyOf d =>
        obtain ⟨s, hd⟩ := (I.live d).1 ft
        exact .inl ⟨d, s.vals, rfl, isSM_lists (I.world.sm d s hd), by rw [← vals_some hd]; exact ll⟩
      | insert c k v => exact .inr (.inl ⟨by simp [target], ll⟩)
      | index c k => exact .inr (.inl ⟨by simp [target], ll⟩)
      | put c k v => exact .inr (.inl ⟨by simp [target], ll⟩)
      | _ => exact .inr (.inr (List.length_eq_zero_iff.1 (Nat.le_zero.1 ll)))
    · exact absurd (sz d ((I.live d).2 ⟨u, hd⟩)) (ruined_not_same I hd r)

/-- **C130, memory.** Every live memory block is held by one of the maps or has been lost at an exception. -/
theorem memory (X : XRuns ok lt dv L N h) (b : Nat) (q : h.size b ≠ none) : N b ∨ ∃ c ∈ L, Holds h c b := by
  obtain ⟨G, S, I, g⟩ := X.inv stable_true
  by_cases z : ∃ c, b ∈ S.own c
  · obtain ⟨c, z⟩ := z
    cases hs : S c with
    | none => rw [own_none hs] at z; cases z
    | some s =>
      rw [own_some hs] at z
      exact .inr ⟨c, (I.live c).2 ⟨s, hs⟩, (holds_iff (I.world.sm c s hs)).2 z⟩
  · by_cases y : G.blk b
    · exact .inl (g b y)
    · exact absurd (I.world.ownG b (fun c w => z ⟨c, w⟩) y).1 q

/-- **C130, no leak.** When no map exists any more, what is allocated has been lost at an exception. -/
theorem no_leak (X : XRuns ok lt dv [] N h) (b : Nat) (q : h.size b ≠ none) : N b := by
  rcases memory X b q with z | ⟨c, hc, _⟩
  · exact z
  · cases hc

/-- **C130, separation.** Maps share no memory, and what has been lost belongs to no map. -/
theorem separate (X : XRuns ok lt dv L N h) (hc : c ∈ L) (hd : d ∈ L) (b : Nat) (q : Holds h c b) (q' : Holds h d b) : c = d := by
  obtain ⟨G, S, I, g⟩ := X.inv stable_true
  obtain ⟨s, hs⟩ := (I.live c).1 hc
  obtain ⟨u, hu⟩ := (I.live d).1 hd
  refine I.world.disj c d b ?_ ?_
  · rw [own_some hs]; exact (holds_iff (I.world.sm c s hs)).1 q
  · rw [own_some hu]; exact (holds_iff (I.world.sm d u hu)).1 q'

/-! ## Lookups -/

theorem lookup {α : Type} {x : Thr (Mem K V) α} {p : Prog (Mem K V) α} {a : α} (cv : Covers x p) (qu : Quiet x) (e : p h = .ok (a, h')) (n : Nat) :
    x n h = .ok (.thrown, h) ∨ ∃ j, x n h = .ok (.ret a j, h) ∧ p h = .ok (a, h) := by
  obtain ⟨m, X⟩ := cv.out h a h' e
  rcases X.cases n with ⟨_, q⟩ | ⟨_, t, q, _⟩
  · have := qu.out n h _ _ q; subst this; exact .inr ⟨_, q, e⟩
  · have := qu.out n h _ _ q; subst this; exact .inl q

/-- **C130, lookups.** `find`, `lower_bound`, `upper_bound`, `equal_range` and `count` change nothing: they throw, or return what they return without
exceptions. -/
theorem lookups (X : XRuns ok lt dv L N h) (hc : c ∈ L) (key : K) (n : Nat) :
    (find lt c key n h = .ok (.thrown, h) ∨ ∃ j p, find lt c key n h = .ok (.ret p j, h) ∧ SVMap.find lt c key h = .ok (p, h)) ∧
    (lowerBound lt c key n h = .ok (.thrown, h) ∨ ∃ j p, lowerBound lt c key n h = .ok (.ret p j, h) ∧ SVMap.lowerBound lt c key h = .ok (p, h)) ∧
    (upperBound lt c key n h = .ok (.thrown, h) ∨ ∃ j p, upperBound lt c key n h = .ok (.ret p j, h) ∧ SVMap.upperBound lt c key h = .ok (p, h)) ∧
    (equalRange lt c key n h = .ok (.thrown, h) ∨ ∃ j p, equalRange lt c key n h = .ok (.ret p j, h) ∧ SVMap.equalRange lt c key h = .ok (p, h)) ∧
    (count lt c key n h = .ok (.thrown, h) ∨ ∃ j p, count lt c key n h = .ok (.ret p j, h) ∧ SVMap.count lt c key h = .ok (p, h)) := by
  obtain ⟨G, S, I, g⟩ := X.inv stable_true
  obtain ⟨s, hs⟩ := (I.live c).1 hc
  have v := I.world.sm c s hs
  have f := find_any (lt := lt) v key
  obtain ⟨j, _, _, u, _⟩ := upperLoop_any v key _ (search lt key s.vals).1 (Nat.le_refl _) (search_in key s.vals).1
  have eu : SVMap.upperBound lt c key h = .ok (⟨s.blk, j⟩, h) := by
    simp only [SVMap.upperBound, Prog.bind_app, findInsertPos_any v, Res.bind_ok, u]
  have er : ∃ p, SVMap.equalRange lt c key h = .ok (p, h) := by
    simp only [SVMap.equalRange, Prog.bind_app, f, Res.bind_ok, end_ok v, Prog.ite_app, Prog.pure_app]
    by_cases z : (⟨s.blk, if (search lt key s.vals).2 then (search lt key s.vals).1 else s.vals.length⟩ : Ptr) ≠ ⟨s.blk, s.nodes.length⟩
    · rw [if_pos z]; exact ⟨_, rfl⟩
    · rw [if_neg z]; exact ⟨_, rfl⟩
  have ec : ∃ p, SVMap.count lt c key h = .ok (p, h) := by
    simp only [SVMap.count, Prog.bind_app, f, Res.bind_ok, end_ok v, Prog.pure_app]; exact ⟨_, rfl⟩
  obtain ⟨p, er⟩ := er
  obtain ⟨m, ec⟩ := ec
  refine ⟨?_, ?_, ?_, ?_, ?_⟩
  · exact (lookup (covers_find lt c key) (quiet_find lt c key) f n).imp id fun ⟨j, a, b⟩ => ⟨j, _, a, b⟩
  · exact (lookup (covers_findInsertPos lt c key) (quiet_findInsertPos lt c key) (findInsertPos_any v key) n).imp id fun ⟨j, a, b⟩ => ⟨j, _, a, b⟩
  · exact (lookup (covers_upperBound lt c key) (quiet_upperBound lt c key) eu n).imp id fun ⟨j, a, b⟩ => ⟨j, _, a, b⟩
  · exact (lookup (covers_equalRange lt c key) (quiet_equalRange lt c key) er n).imp id fun ⟨j, a, b⟩ => ⟨j, _, a, b⟩
  · exact (lookup (covers_count lt c key) (quiet_count lt c key) ec n).imp id fun ⟨j, a, b⟩ => ⟨j, _, a, b⟩

end Verif.Exc.XSM
