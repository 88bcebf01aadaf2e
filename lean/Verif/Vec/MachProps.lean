import Verif.Vec.Mach
/-!
# Requests a machine cannot satisfy, and requests it can: theorems about `ttl::vector` (C140)

`max_size()` is the largest number of elements whose bytes a `size_type` can count (`le_maxSize`). `M.exec` runs a call with machine numbers
(`Verif.Vec.MachModel`), `exec` runs it with natural numbers.
-/
set_option linter.unusedVariables false
set_option linter.unusedSimpArgs false
set_option linter.unusedSectionVars false
namespace Verif.Vec.MachProps
open Verif Verif.Vec Verif.Vec.VecProps
variable {T : Type} {M : Machine} {dv : T} {h h' : Mem T} {S : State T} {b c d n m i j a : Nat} {s s' : VS T} {vs ws xs ys : List T} {cap : Nat} {p : Ptr}

/-! ## Requests that fit -/

/-- What the machine does while requests fit is what the model with natural numbers does: every theorem about `Reach` holds on the machine. -/
theorem machine_reach (R : MReach M dv S h) : Reach dv S h := by
  induction R with
  | start => exact .start
  | step k R lg ft e ih => exact .step k ih lg (by rw [← Machine.exec_eq ih.world k lg ft]; exact e)

/-- Where the capacity of a vector comes from. -/
theorem cap_after (W : World h S) (k : Call T) (lg : Legal S k) {f : Nat} (e : spec dv S f k c = some s') :
    s'.cap ≤ asks S k ∨ ∃ d s, S d = some s ∧ s'.cap = s.cap := by
  have one : ∀ {x : Nat} {t : VS T}, (S.put x t) c = some s' → (t.cap ≤ asks S k ∨ ∃ d s, S d = some s ∧ t.cap = s.cap) → s'.cap ≤ asks S k ∨ ∃ d s, S d = some s ∧ s'.cap = s.cap := by
    intro x t e q
    by_cases z : c = x
    · subst z; rw [put_same] at e; cases e; exact q
    · rw [put_other _ z] at e; exact .inr ⟨c, s', e, rfl⟩
  have ins : ∀ {x : Nat} {t : VS T} (g i : Nat) (us : List T), S x = some t → t.vals.length + us.length ≤ asks S k → (t.ins g i us).cap ≤ asks S k ∨ ∃ d s, S d = some s ∧ (t.ins g i us).cap = s.cap := by
    intro x t g i us hx le
    simp only [VS.ins]
    split
    · exact .inr ⟨x, t, hx, rfl⟩
    · split
      · exact .inl le
      · exact .inr ⟨x, t, hx, rfl⟩
  have res : ∀ {x : Nat} {t : VS T} (g m : Nat), (∃ r, S x = some r ∧ t.cap = r.cap) → m ≤ asks S k → (t.reserve g m).cap ≤ asks S k ∨ ∃ d s, S d = some s ∧ (t.reserve g m).cap = s.cap := by
    intro x t g m hx le
    obtain ⟨r, hr, er⟩ := hx
    simp only [VS.reserve]
    split
    · exact .inr ⟨x, r, hr, er⟩
    · exact .inl le
  have cop : ∀ n a, (S.copies n a).length ≤ n := by
    intro n a; unfold State.copies; split <;> simp
  cases k with
  | create => exact one e (.inl (Nat.zero_le _))
  | ctor n => exact one e (.inl (Nat.le_refl _))
  | ctorN n a => exact one e (.inl (Nat.le_refl _))
  | copyOf d => exact one e (.inl (Nat.le_refl _))
  | ctorRange r => exact one e (.inl (Nat.le_refl _))
  | destroy x =>
    simp only [spec, State.del] at e
    split at e
    · cases e
    · exact .inr ⟨c, s', e, rfl⟩
  | assign x y =>
    obtain ⟨⟨t, hx⟩, _⟩ := lg
    refine one e ?_
    rw [get_some hx]
    exact res (x := x) (t := t.become []) f (S.get y).cap ⟨t, hx, rfl⟩ (Nat.le_refl _)
  | assignN x n a =>
    obtain ⟨⟨t, hx⟩, _⟩ := lg
    refine one e ?_
    rw [get_some hx]
    exact res (x := x) (t := t.become []) f n ⟨t, hx, rfl⟩ (Nat.le_refl _)
  | assignRange x r =>
    obtain ⟨⟨t, hx⟩, _⟩ := lg
    refine one e ?_
    rw [get_some hx]
    simp only [VS.pushes, VS.become, List.length_nil, Nat.zero_add]
    split
    · exact .inl (Nat.le_refl _)
    · exact .inr ⟨x, t, hx, rfl⟩
  | resize x n =>
    obtain ⟨t, hx⟩ := lg
    simp only [spec, vals_some hx, get_some hx] at e
    split at e
    · exact one e (.inr ⟨x, t, hx, rfl⟩)
    · refine one e (ins _ _ _ hx ?_)
      rw [List.length_replicate]; show _ ≤ n; omega
  | resizeX x n a =>
    obtain ⟨⟨t, hx⟩, _⟩ := lg
    simp only [spec, vals_some hx, get_some hx] at e
    split at e
    · exact one e (.inr ⟨x, t, hx, rfl⟩)
    · refine one e (ins _ _ _ hx ?_)
      have := cop (n - t.vals.length) a; show _ ≤ n; omega
  | reserve x n =>
    obtain ⟨t, hx⟩ := lg
    simp only [spec, get_some hx] at e
    exact one e (res _ _ ⟨t, hx, rfl⟩ (Nat.le_refl _))
  | insert x i a =>
    obtain ⟨⟨t, hx⟩, _⟩ := lg
    simp only [spec, get_some hx] at e
    refine one e (ins _ _ _ hx ?_)
    have := cop 1 a; simp only [asks, vals_some hx]; omega
  | insertN x i n a =>
    obtain ⟨⟨t, hx⟩, _⟩ := lg
    simp only [spec, get_some hx] at e
    refine one e (ins _ _ _ hx ?_)
    have := cop n a; simp only [asks, vals_some hx]; omega
  | insertRange x i r =>
    obtain ⟨⟨t, hx⟩, _⟩ := lg
    simp only [spec, get_some hx] at e
    refine one e (ins _ _ _ hx ?_)
    simp only [asks, vals_some hx]; omega
  | pushBack x a =>
    obtain ⟨⟨t, hx⟩, _⟩ := lg
    simp only [spec, get_some hx] at e
    refine one e (ins _ _ _ hx ?_)
    have := cop 1 a; simp only [asks, vals_some hx]; omega
  | popBack x => obtain ⟨⟨t, hx⟩, _⟩ := lg; simp only [spec, get_some hx] at e; exact one e (.inr ⟨x, t, hx, rfl⟩)
  | erase x i => obtain ⟨⟨t, hx⟩, _⟩ := lg; simp only [spec, get_some hx] at e; exact one e (.inr ⟨x, t, hx, rfl⟩)
  | eraseRange x i j => obtain ⟨⟨t, hx⟩, _⟩ := lg; simp only [spec, get_some hx] at e; exact one e (.inr ⟨x, t, hx, rfl⟩)
  | clear x => obtain ⟨t, hx⟩ := lg; simp only [spec, get_some hx] at e; exact one e (.inr ⟨x, t, hx, rfl⟩)
  | store x i a =>
    obtain ⟨⟨t, hx⟩, _⟩ := lg
    cases q : a.val S with
    | some w => simp only [spec, get_some hx, q] at e; exact one e (.inr ⟨x, t, hx, rfl⟩)
    | none => simp only [spec, q] at e; exact .inr ⟨c, s', e, rfl⟩
  | swap x y =>
    obtain ⟨⟨t, hx⟩, ⟨u, hy⟩⟩ := lg
    simp only [spec, get_some hx, get_some hy] at e
    by_cases z : c = y
    · subst z; rw [put_same] at e; cases e; exact .inr ⟨x, _, hx, rfl⟩
    · rw [put_other _ z] at e; exact one e (.inr ⟨y, u, hy, rfl⟩)

/-- In a history whose requests fit, the capacity of every vector is one there can be room for. -/
theorem caps_half (R : MReach M dv S h) : ∀ c s, S c = some s → M.Room s.cap := by
  induction R with
  | start => intro c s e; cases e
  | step k R lg ft e ih =>
    intro c s' e'
    rcases cap_after (machine_reach R).world k lg e' with q | ⟨d, s, q1, q2⟩
    · exact Machine.half_mono ft.room q
    · rw [q2]; exact ih d s q1

/-- All storage begins at addresses up to `B`. -/
def _root_.Verif.Vec.Machine.Below (M : Machine) (B : Nat) : Prop := ∀ b, M.addr b ≤ B

/-- Then it is enough that the capacities and the request fit between `B` and the last address. -/
theorem fits_of_below {B : Nat} (low : M.Below B) (caps : ∀ d s, S d = some s → B + s.cap * M.sz < M.W) (k : Call T) (lg : Legal S k)
    (count : 2 * asks S k < M.W) (bytes : B + asks S k * M.sz < M.W) : M.Fits S k := by
  refine ⟨⟨by omega, count⟩, fun c q => ?_⟩
  have l := low (S.get c).blk
  have ex : S.Exists c := by
    cases k <;> simp only [reserves, Option.some.injEq, reduceCtorEq] at q
    · subst q; exact lg.1
    · subst q; exact lg.1
    · subst q; exact lg
  obtain ⟨s, hs⟩ := ex
  have := caps c s hs
  rw [get_some hs] at l ⊢
  rcases Nat.le_total (asks S k) s.cap with z | z
  · rw [Nat.max_eq_right z]; omega
  · rw [Nat.max_eq_left z]; omega

/-- **C140.** A call whose request fits does on the machine exactly what it does with natural numbers: it returns, with the result and the memory
`spec` and `retOf` describe. -/
theorem request_fits_partial (R : MReach M dv S h) (k : Call T) (lg : Legal S k) (ft : M.Fits S k) :
    ∃ h', M.exec dv k h = .ok (retOf dv S h.fresh k, h') ∧ exec dv k h = .ok (retOf dv S h.fresh k, h') ∧ MReach M dv (spec dv S h.fresh k) h' := by
  have W := (machine_reach R).world
  obtain ⟨h', e, _, _⟩ := step_ok (dv := dv) W k lg
  have e' : M.exec dv k h = .ok (retOf dv S h.fresh k, h') := by rw [Machine.exec_eq W k lg ft]; exact e
  exact ⟨h', e', e, .step k R lg ft e'⟩

/-- **C140.** If an element takes two bytes or more, all requests for up to `max_size()` elements do on the machine what they do with natural numbers,
except that `reserve`, `assign(n, x)` and `operator=` need the addresses they compare to exist. -/
theorem request_up_to_max_size_partial (two : 2 ≤ M.sz) (R : MReach M dv S h) (k : Call T) (lg : Legal S k) (le : asks S k ≤ M.maxSize)
    (ad : ∀ c, reserves k = some c → M.addr (S.get c).blk + max (asks S k) (S.get c).cap * M.sz < M.W) :
    ∃ h', M.exec dv k h = .ok (retOf dv S h.fresh k, h') ∧ exec dv k h = .ok (retOf dv S h.fresh k, h') ∧ MReach M dv (spec dv S h.fresh k) h' :=
  request_fits_partial R k lg ⟨Machine.room_of_maxSize two (Machine.le_maxSize.1 le), ad⟩

/-- **C140.** While requests fit, the storage of every vector has exactly `capacity()` slots, no less than its `size()`, and `capacity()` is at
most `max_size()`. -/
theorem storage_enough (R : MReach M dv S h) (hc : S.Exists c) (o : Shows h c vs cap p) :
    vs.length ≤ cap ∧ (0 < cap → h.size p.blk = some cap) ∧ cap ≤ M.maxSize := by
  obtain ⟨b, rfl, e, v⟩ := shown' (machine_reach R) hc o
  have := caps_half R c _ e
  exact ⟨v.le, fun q => v.size q, Machine.le_maxSize.2 (Machine.small_of_half this)⟩

/-- The number of elements an operation of a history of one vector wants room for. -/
def opAsks : Op T → List T → Nat
  | .pushBack _, vs | .insert _ _, vs => vs.length + 1
  | .insertN _ n _, vs => vs.length + n
  | .insertRange _ ws, vs => vs.length + ws.length
  | .resize n, _ | .resizeX n _, _ | .assignN n _, _ | .reserve n, _ => n
  | .assignRange ws, _ => ws.length
  | _, _ => 0

/-- Every operation of the history asks for a number of elements that a `difference_type` can count and that fit between the address `B` and the last
address. -/
def OpsFit (M : Machine) (B : Nat) (dv : T) : List (Op T) → List T → Prop
  | [], _ => True
  | o :: os, vs => 2 * opAsks o vs < M.W ∧ B + opAsks o vs * M.sz < M.W ∧ OpsFit M B dv os (o.apply dv vs)

/-- The history on the vector `c`, on the machine. -/
def mrunOps (M : Machine) (dv : T) (c : Nat) : List (Op T) → Prog (Mem T) Unit
  | [] => pure ()
  | o :: os => do let _ ← M.exec dv (o.call c); mrunOps M dv c os

theorem asks_op (hc : S c = some s) (o : Op T) : asks S (o.call c) = opAsks o s.vals := by
  cases o <;> simp [Op.call, asks, opAsks, vals_some hc, CSrc.vals']

theorem mhistory {B : Nat} (low : M.Below B) : ∀ (os : List (Op T)) {h : Mem T} {S : State T} {s : VS T}, MReach M dv S h →
    (∀ d s, S d = some s → B + s.cap * M.sz < M.W) → S c = some s → OpsOk dv os s.vals → OpsFit M B dv os s.vals →
    ∃ h' t, mrunOps M dv c os h = .ok ((), h') ∧ MReach M dv (S.put c t) h' ∧ t.vals = applyOps dv os s.vals ∧ OthersKept S h h' [c]
  | [], h, S, s, R, caps, hc, ok, ft => ⟨h, s, rfl, by rw [put_self hc]; exact R, rfl, fun _ _ _ _ _ _ o => o⟩
  | o :: os, h, S, s, R, caps, hc, ok, ft => by
    obtain ⟨t1, e1, v1, l1, f1⟩ := spec_op (dv := dv) hc h.fresh o
    have lg := op_legal hc o ok.1
    have as := asks_op hc o
    obtain ⟨h1, q1, q2, R1⟩ := request_fits_partial R _ lg (fits_of_below low caps _ lg (by rw [as]; exact ft.1) (by rw [as]; exact ft.2.1))
    obtain ⟨h1', q1', _, _, k1⟩ := one_vector (machine_reach R) _ lg e1
    rw [q2] at q1'; cases q1'
    have caps1 : ∀ d s, spec dv S h.fresh (o.call c) d = some s → B + s.cap * M.sz < M.W := fun d s' e => by
      rcases cap_after (machine_reach R).world _ lg e with q | ⟨d', s2, q1, q2⟩
      · rw [as] at q
        have := Nat.mul_le_mul_right M.sz q
        have := ft.2.1
        omega
      · rw [q2]; exact caps d' s2 q1
    rw [e1] at R1 caps1
    obtain ⟨h', t, q, R', e, k⟩ := mhistory low os R1 caps1 (put_same S c t1) (by rw [v1]; exact ok.2) (by rw [v1]; exact ft.2.2)
    rw [put_put] at R'
    refine ⟨h', t, ?_, R', by rw [e, v1]; rfl, k1.trans k fun d _ hx => put_exists_other _ _ hx⟩
    simp only [mrunOps, Prog.bind_app, q1, Res.bind_ok, q]

/-- **C140.** On a machine whose storage begins at addresses up to `B`, every history of operations that ask for numbers of elements that fit between
`B` and the last address (and that a `difference_type` can count) returns and leaves the vector as the same history leaves a mathematical sequence; other
vectors are untouched. -/
theorem machine_history_partial {B : Nat} (low : M.Below B) (os : List (Op T)) (R : MReach M dv S h)
    (caps : ∀ d, S.Exists d → ∀ us cap p, Shows h d us cap p → B + cap * M.sz < M.W) (hc : S.Exists c) (ob : Observes h c vs) (ok : OpsOk dv os vs)
    (ft : OpsFit M B dv os vs) :
    ∃ h' S', mrunOps M dv c os h = .ok ((), h') ∧ MReach M dv S' h' ∧ S'.Exists c ∧ Observes h' c (applyOps dv os vs) ∧ OthersKept S h h' [c] := by
  obtain ⟨s, hs, e, v⟩ := observed (machine_reach R) hc ob
  subst e
  have caps' : ∀ d s, S d = some s → B + s.cap * M.sz < M.W := fun d t hd =>
    caps d ⟨t, hd⟩ _ _ _ (isVec_shows ((machine_reach R).world.vec d t hd))
  obtain ⟨h', t, q, R', e, k⟩ := mhistory low os R caps' hs ok ft
  refine ⟨h', _, q, R', put_exists _ _ _, ?_, k⟩
  rw [← e]; exact isVec_observes ((machine_reach R').world.vec c t (put_same ..))

/-! ## Requests that do not fit -/

theorem construct_out {v : T} (hs : h.size b = some m) (q : m ≤ i) : construct ⟨b, i⟩ v h = .ub .access := by
  simp [construct, inBlock, hs, Nat.not_lt.2 q]

/-- Appending more elements than the block has room for. -/
theorem fillBack_over {e eo : Ptr} : ∀ (ws xs : List T) (s : Src T) (h g : Mem T), h.obj c = some ⟨e, ⟨b, xs.length⟩, eo⟩ → h.size b = some m →
    xs.length ≤ m → m < xs.length + ws.length → h.slot b = lay xs 0 [] → Gives g s ws → g.Sub h → fillBack c ws.length s h = .ub .access
  | [], xs, s, h, g, ho, hs, le, lt, hl, hg, hsub => by simp at lt; omega
  | w :: ws, xs, s, h, g, ho, hs, le, lt, hl, hg, hsub => by
    simp only [List.length_cons] at lt ⊢
    simp only [fillBack, Prog.bind_app, hg.next hsub, Res.bind_ok, appendOne, getObj_eq ho, setObj_eq ho, ptr_add]
    by_cases z : xs.length = m
    · rw [construct_out (h := h.setObj c _) hs (by omega)]; rfl
    · rw [construct_end (h := h.setObj c _) (v := w) hs (by omega) hl]
      simp only [Res.bind_ok, set_lay]
      exact fillBack_over (e := e) (eo := eo) ws (xs ++ [w]) s.succ _ g (by simp) (by simpa using hs) (by simp; omega) (by simp; omega) (by simp) hg.2
        (hsub.trans (sub_set _ _ (sub_append [w] hl)))

theorem copyTo_over {b' : Nat} (ne : b ≠ b') : ∀ (ws xs : List T) (i : Nat) (h : Mem T), (∀ k v, ws[k]? = some v → h.Holds b (i + k) v) →
    h.size b' = some m → xs.length ≤ m → m < xs.length + ws.length → h.slot b' = lay xs 0 [] →
    copyTo ⟨b, i⟩ ⟨b, i + ws.length⟩ ⟨b', xs.length⟩ h = .ub .access
  | [], xs, i, h, hr, hs, le, lt, hl => by simp at lt; omega
  | w :: ws, xs, i, h, hr, hs, le, lt, hl => by
    simp only [List.length_cons] at lt ⊢
    have hne : ¬ (Ptr.mk b i = ⟨b, i + (ws.length + 1)⟩) := by simp
    have h0 := hr 0 w rfl
    rw [copyTo]
    simp only [Prog.ite_app, if_neg hne, Prog.bind_app, (show Heap.Holds h b i w from h0).read, Res.bind_ok]
    by_cases z : xs.length = m
    · rw [construct_out hs (by omega)]; rfl
    · rw [construct_end (v := w) hs (by omega) hl]
      simp only [Res.bind_ok, ptr_add]
      have := copyTo_over ne ws (xs ++ [w]) (i + 1) (h.lay b' (xs ++ [w]) 0 []) (by
        intro k v q
        obtain ⟨⟨m, h1, h2⟩, h3⟩ := hr (k + 1) v (by simpa using q)
        rw [show i + 1 + k = i + (k + 1) by omega]
        exact ⟨⟨m, h1, h2⟩, by rw [lay_slot_other _ _ _ _ _ ne]; exact h3⟩) (by simpa using hs) (by simp; omega) (by simp; omega) (by simp)
      simp only [List.length_append, List.length_singleton] at this
      rw [show i + (ws.length + 1) = i + 1 + ws.length by omega, this]

theorem fillAt_over : ∀ (ws xs : List T) (s : Src T) (h g : Mem T), h.size b = some m → xs.length ≤ m → m < xs.length + ws.length → h.slot b = lay xs 0 [] →
    Gives g s ws → (∀ zs m', g.Sub (h.lay b (xs ++ zs) m' [])) → fillAt ws.length s ⟨b, xs.length⟩ h = .ub .access
  | [], xs, s, h, g, hs, le, lt, hl, hg, hk => by simp at lt; omega
  | w :: ws, xs, s, h, g, hs, le, lt, hl, hg, hk => by
    simp only [List.length_cons] at lt ⊢
    have hsub : g.Sub h := by have := hk [] 0; rwa [List.append_nil, lay_self _ _ _ _ _ hl] at this
    simp only [fillAt, Prog.bind_app, hg.next hsub, Res.bind_ok]
    by_cases z : xs.length = m
    · rw [construct_out hs (by omega)]; rfl
    · rw [construct_end (v := w) hs (by omega) hl]
      simp only [Res.bind_ok, ptr_add]
      have := fillAt_over ws (xs ++ [w]) s.succ (h.lay b (xs ++ [w]) 0 []) g (by simpa using hs) (by simp; omega) (by simp; omega) (by simp) hg.2
        (by intro zs m'; rw [lay_lay, List.append_assoc]; exact hk _ _)
      simpa using this

/-- What a request above `max_size()` gets is less than it asked for. -/
theorem got_less (big : M.maxSize < n) : n * M.sz % M.W / M.sz < n := by
  have q : M.W ≤ n * M.sz := by
    have := mt (Machine.le_maxSize (M := M) (n := n)).2 (by omega); omega
  have l := Nat.mod_lt (n * M.sz) M.pos
  rw [Nat.div_lt_iff_lt_mul M.one]; omega

/-- The memory after the storage of a new vector was allocated. -/
theorem create_over (W : World h S) {x : Arg T} {v : T} (g1 : ∀ k : Mem T, h.Sub k → x.get k = .ok (v, k)) (big : M.maxSize < n) :
    ((do let c ← M.createN n; fillBack c n (.counter x); return c : Prog (Mem T) Nat) h) = .ub .access := by
  have B := W.base
  let h1 : Mem T := { obj := upd h.obj h.fresh (some ⟨⟨h.fresh + 1, 0⟩, ⟨h.fresh + 1, 0⟩, ⟨h.fresh + 1, n⟩⟩), size := upd h.size (h.fresh + 1) (some (n * M.sz % M.W / M.sz)), slot := upd h.slot (h.fresh + 1) (fun _ => none), fresh := h.fresh + 1 + 1 }
  have e : M.createN n h = .ok (h.fresh, h1) := by
    simp only [Machine.createN, Machine.alloc, newObj, Vec.alloc, Prog.bind_app, Res.bind_ok, setObj, upd_same, Prog.pure_app, upd_upd, ptr_add, Nat.zero_add, h1]
  have sub : h.Sub h1 := by
    intro b i a ⟨⟨k, q1, q2⟩, q3⟩
    have ne : b ≠ h.fresh + 1 := by intro e; subst e; rw [(B.gone _ (Nat.le_succ _)).1] at q1; cases q1
    exact ⟨⟨k, by show upd _ _ _ _ = _; rw [upd_other _ _ ne]; exact q1, q2⟩, by show upd h.slot (h.fresh + 1) _ b i = _; rw [upd_other _ _ ne]; exact q3⟩
  have := fillBack_over (c := h.fresh) (b := h.fresh + 1) (m := n * M.sz % M.W / M.sz) (e := ⟨h.fresh + 1, 0⟩) (eo := ⟨h.fresh + 1, n⟩) (List.replicate n v) [] (.counter x) h1 h
    (upd_same ..) (upd_same ..) (Nat.zero_le _) (by simpa using got_less big) (by show upd _ _ _ _ = _; rw [upd_same]; funext i; exact (lay_nil_none i).symm) (gives_counter g1 n) sub
  rw [List.length_replicate] at this
  simp only [Prog.bind_app, e, Res.bind_ok, this]; rfl

/-- **C140.** `vector(n)` for more than `max_size()` elements writes outside its storage. -/
theorem construct_too_many_ub (R : MReach M dv S h) (big : M.maxSize < n) : M.exec dv (.ctor n) h = .ub .access := by
  have := create_over (machine_reach R).world (x := .ext dv) (v := dv) (fun _ _ => rfl) big
  simp only [Machine.exec, Machine.ctor, Prog.bind_app] at this ⊢
  rw [this]; rfl

/-- **C140.** So does `vector(n, value)`. -/
theorem construct_n_too_many_ub (R : MReach M dv S h) {x : CArg T} (va : x.Valid S) (big : M.maxSize < n) : M.exec dv (.ctorN n x) h = .ub .access := by
  obtain ⟨y, v, e0, ev, g1, g2⟩ := arg_ok (machine_reach R).world va
  have := create_over (machine_reach R).world g1 big
  simp only [Machine.exec, Machine.ctorN, Prog.bind_app, e0, Res.bind_ok] at this ⊢
  rw [this]; rfl

/-- **C140.** `insert(pos, n, x)` with `n` in the upper half of `size_type` inserts nothing: it returns, and memory is as before. -/
theorem insert_huge_ignored (R : MReach M dv S h) (hc : S.Exists c) (o : Shows h c vs cap p) (hi : i ≤ vs.length) {x : CArg T} (va : x.Valid S) (huge : M.W ≤ 2 * n) :
    M.exec dv (.insertN c i n x) h = .ok (.it (p + i), h) := by
  obtain ⟨b, rfl, e, v⟩ := shown' (machine_reach R) hc o
  obtain ⟨y, w, e0, ev, g1, g2⟩ := arg_ok (machine_reach R).world va
  have z : M.insertValues c ⟨b, i⟩ 0 (.counter y) h = .ok (⟨b, i⟩, h) := by
    simp [Machine.insertValues, getObj_eq v.obj, VS.rep, diff_eq, begin_]
  have t : M.toDifference n = 0 := if_neg (by omega)
  simp only [Machine.exec, Prog.bind_app, e0, Res.bind_ok, begin_ok v, ptr_add, Nat.zero_add, Machine.insertN, t, z, Prog.pure_app]

/-- **C140.** `resize(n)` that would have to add so many elements returns and leaves the vector, and all memory, as it was. -/
theorem resize_huge_ignored (R : MReach M dv S h) (hc : S.Exists c) (o : Observes h c vs) (huge : M.W ≤ 2 * (n - vs.length)) :
    M.exec dv (.resize c n) h = .ok (.none, h) := by
  obtain ⟨s, hs, e, v⟩ := observed (machine_reach R) hc o
  subst e
  have z : M.insertValues c ⟨s.blk, s.vals.length⟩ 0 (.counter (.ext dv)) h = .ok (⟨s.blk, s.vals.length⟩, h) := by
    simp [Machine.insertValues, getObj_eq v.obj, VS.rep, diff_eq, begin_]
  have t : M.toDifference (n - s.vals.length) = 0 := if_neg (by omega)
  have := M.pos
  simp only [Machine.exec, Machine.resize, Prog.bind_app, size_ok v, Res.bind_ok, Prog.ite_app, if_neg (show ¬ n < s.vals.length by omega), end_ok v, Machine.insertN, t, z, Prog.pure_app]

/-- **C140.** `resize(n, x)` likewise. -/
theorem resize_x_huge_ignored (R : MReach M dv S h) (hc : S.Exists c) (o : Observes h c vs) {x : CArg T} (va : x.Valid S) (huge : M.W ≤ 2 * (n - vs.length)) :
    M.exec dv (.resizeX c n x) h = .ok (.none, h) := by
  obtain ⟨s, hs, e, v⟩ := observed (machine_reach R) hc o
  subst e
  obtain ⟨y, w, e0, ev, g1, g2⟩ := arg_ok (machine_reach R).world va
  have z : M.insertValues c ⟨s.blk, s.vals.length⟩ 0 (.counter y) h = .ok (⟨s.blk, s.vals.length⟩, h) := by
    simp [Machine.insertValues, getObj_eq v.obj, VS.rep, diff_eq, begin_]
  have t : M.toDifference (n - s.vals.length) = 0 := if_neg (by omega)
  have := M.pos
  simp only [Machine.exec, Machine.resizeX, Prog.bind_app, e0, size_ok v, Res.bind_ok, Prog.ite_app, if_neg (show ¬ n < s.vals.length by omega), end_ok v, Machine.insertN, t, z, Prog.pure_app]

/-- An insertion that makes the vector move to a block that is too small. -/
theorem insertValues_over (B : Base h) (v : IsVec h c s) (hi : i ≤ s.vals.length) (src : Src T) (hg : Gives h src ws) (hw : ws ≠ []) (room : s.cap < s.vals.length + ws.length)
    (big : M.maxSize < s.vals.length + ws.length) : M.insertValues c ⟨s.blk, i⟩ ws.length src h = .ub .access := by
  have hb := v.lt_fresh B
  have le := v.le
  have hpos : 0 < ws.length := List.length_pos_iff.2 hw
  have room' : s.cap - s.vals.length < ws.length := by omega
  have got : (s.vals.length + ws.length) % M.W * M.sz % M.W / M.sz = (s.vals.length + ws.length) * M.sz % M.W / M.sz := by rw [Nat.mod_mul_mod]
  simp only [Machine.insertValues, Prog.bind_app, getObj_eq v.obj, Res.bind_ok, VS.rep, diff_eq _ (Nat.zero_le _), Nat.sub_zero, hpos, if_true,
    diff_eq _ le, room', if_true, size_ok v, Machine.alloc, Vec.alloc, bind_assoc, got]
  have gl := got_less big
  generalize hN : (s.vals.length + ws.length) * M.sz % M.W / M.sz = N at gl
  let h1 : Mem T := { h with size := upd h.size h.fresh (some N), slot := upd h.slot h.fresh (fun _ => none), fresh := h.fresh + 1 }
  have h1s : h1.size h.fresh = some N := upd_same ..
  have h1l : h1.slot h.fresh = lay [] 0 [] := by rw [lay_nil]; funext i; simp [h1]
  have ht : (s.vals.take i).length = i := by simp [hi]
  have hd : (s.vals.drop i).length = s.vals.length - i := by simp
  have old : ∀ (zs : List T), ∀ k a, s.vals[k]? = some a → (h1.lay h.fresh zs 0 []).Holds s.blk k a := by
    intro zs k a hk
    obtain ⟨⟨m, e1, e2⟩, e3⟩ := v.holds hk
    exact ⟨⟨m, by show upd _ _ _ _ = _; rw [upd_other _ _ (by omega)]; exact e1, e2⟩,
      by rw [lay_slot_other _ _ _ _ _ (by omega)]; show upd h.slot h.fresh _ s.blk k = _; rw [upd_other _ _ (by omega)]; exact e3⟩
  have r1 : ∀ k a, (s.vals.take i)[k]? = some a → h1.Holds s.blk (0 + k) a := by
    intro k a hk
    rw [← lay_self h1 _ _ _ _ h1l, Nat.zero_add]
    refine old _ k a ?_
    have : k < i := by have := (List.getElem?_eq_some_iff.1 hk).1; omega
    rw [List.getElem?_take_of_lt this] at hk; exact hk
  by_cases q1 : N < i
  · have c1 := copyTo_over (m := N) (b := s.blk) (b' := h.fresh) (by omega) (s.vals.take i) [] 0 h1 r1 h1s (Nat.zero_le _) (by rw [ht]; simpa using q1) h1l
    simp only [List.length_nil, Nat.zero_add, ht] at c1
    rw [show copyTo _ _ _ _ = _ from c1]; rfl
  have c1 := copyTo_ok (n := N) (b := s.blk) (b' := h.fresh) (by omega) (s.vals.take i) [] 0 h1 r1 (fun _ => h1s) (by rw [ht, List.length_nil]; omega) h1l
  simp only [List.length_nil, Nat.zero_add, List.nil_append, ht] at c1
  rw [show copyTo _ _ _ _ = _ from c1]
  simp only [Res.bind_ok]
  by_cases q2 : N < i + ws.length
  · have c2 := fillAt_over (m := N) (b := h.fresh) ws (s.vals.take i) src (h1.lay h.fresh (s.vals.take i) 0 []) h h1s (by rw [ht]; omega) (by rw [ht]; exact q2)
      (lay_slot_same ..) hg (by intro zs m'; rw [lay_lay]; exact sub_alloc B _ _ _ _)
    rw [ht] at c2
    rw [c2]; rfl
  have c2 := fillAt_ok (n := N) (b := h.fresh) (ys := []) ws (s.vals.take i) src (h1.lay h.fresh (s.vals.take i) 0 []) h 0 (fun _ => h1s) (by rw [ht]; omega)
    (by rw [lay_slot_same, lay_gap]) hg (sub_alloc B _ _ _ _) (by intro zs m'; rw [lay_lay]; exact sub_alloc B _ _ _ _)
  rw [ht] at c2
  rw [c2]
  simp only [Res.bind_ok, lay_lay]
  have c3 := copyTo_over (m := N) (b := s.blk) (b' := h.fresh) (by omega) (s.vals.drop i) (s.vals.take i ++ ws) i (h1.lay h.fresh (s.vals.take i ++ ws) 0 []) (by
    intro k a hk
    rw [List.getElem?_drop] at hk; exact old _ _ a hk) h1s (by rw [List.length_append, ht]; omega) (by rw [List.length_append, ht, hd]; omega) (lay_slot_same ..)
  rw [List.length_append, ht, hd, show i + (s.vals.length - i) = s.vals.length by omega] at c3
  rw [c3]; rfl

/-- **C140.** `insert(pos, n, x)` that would make the vector larger than `max_size()`, with `n` in the lower half of `size_type`, writes outside its
storage. -/
theorem insert_too_many_ub (R : MReach M dv S h) (hc : S.Exists c) (o : Observes h c vs) (hi : i ≤ vs.length) {x : CArg T} (va : x.Valid S) (low : 2 * n < M.W)
    (big : M.maxSize < vs.length + n) : M.exec dv (.insertN c i n x) h = .ub .access := by
  obtain ⟨s, hs, e, v⟩ := observed (machine_reach R) hc o
  subst e
  have W := (machine_reach R).world
  obtain ⟨y, w, e0, ev, g1, g2⟩ := arg_ok W va
  have ch := Machine.le_maxSize.2 (Machine.small_of_half (caps_half R c s hs))
  have le := v.le
  have z := insertValues_over (M := M) (ws := List.replicate n w) W.base v hi (.counter y) (gives_counter g1 n) (by intro q; have := congrArg List.length q; simp at this; omega)
    (by rw [List.length_replicate]; omega) (by rw [List.length_replicate]; exact big)
  rw [List.length_replicate] at z
  have t : M.toDifference n = n := if_pos low
  simp only [Machine.exec, Prog.bind_app, e0, Res.bind_ok, begin_ok v, ptr_add, Nat.zero_add, Machine.insertN, t, z, Res.bind_ub]

/-- **C140.** `resize(n)` to more than `max_size()` elements, adding fewer than half of what a `size_type` can count, writes outside the storage. -/
theorem resize_too_many_ub (R : MReach M dv S h) (hc : S.Exists c) (o : Observes h c vs) (low : 2 * (n - vs.length) < M.W) (big : M.maxSize < n) :
    M.exec dv (.resize c n) h = .ub .access := by
  obtain ⟨s, hs, e, v⟩ := observed (machine_reach R) hc o
  subst e
  have W := (machine_reach R).world
  have ch := Machine.le_maxSize.2 (Machine.small_of_half (caps_half R c s hs))
  have le := v.le
  have z := insertValues_over (M := M) (ws := List.replicate (n - s.vals.length) dv) W.base v (Nat.le_refl _) (.counter (.ext dv)) (gives_counter (fun _ _ => rfl) _)
    (by intro q; have := congrArg List.length q; simp at this; omega) (by rw [List.length_replicate]; omega) (by rw [List.length_replicate]; omega)
  rw [List.length_replicate] at z
  have t : M.toDifference (n - s.vals.length) = n - s.vals.length := if_pos low
  simp only [Machine.exec, Machine.resize, Prog.bind_app, size_ok v, Res.bind_ok, Prog.ite_app, if_neg (show ¬ n < s.vals.length by omega), end_ok v, Machine.insertN, t, z, Res.bind_ub]

/-- **C140.** `reserve(n)` for which `elements_ + n` is beyond the last address does nothing, although `n` may be more than `capacity()` and at most
`max_size()`. -/
theorem reserve_wraps_ignored (R : MReach M dv S h) (hc : S.Exists c) (o : Shows h c vs cap p) (small : n ≤ M.maxSize) (inside : M.addr p.blk + cap * M.sz < M.W)
    (wrap : M.W ≤ M.addr p.blk + n * M.sz) : M.exec dv (.reserve c n) h = .ok (.none, h) := by
  obtain ⟨b, rfl, e, v⟩ := shown' (machine_reach R) hc o
  have sm := Machine.le_maxSize.1 small
  have t : (M.addr b + n * M.sz) % M.W < (M.addr b + cap * M.sz) % M.W := by
    simp only at inside wrap
    rw [Nat.mod_eq_of_lt inside, Nat.mod_eq_sub_mod wrap, Nat.mod_eq_of_lt (by omega)]; omega
  simp only [Machine.exec, Machine.reserve, Prog.bind_app, getObj_eq v.obj, Res.bind_ok, VS.rep, ptr_add, Nat.zero_add, Machine.less, if_true, t, decide_true, Prog.ite_app, Prog.pure_app]

/-- A vector after a successful or useless `reserve` of too many elements. -/
theorem reserve_over (B : Base h) (v : IsVec h c s) (capn : s.cap < n) (big : M.maxSize < n) :
    (s.blk ≠ 0 ∧ M.reserve c n h = .ok ((), h)) ∨ M.reserve c n h = .ub .access ∨
      ∃ h' b' m, M.reserve c n h = .ok ((), h') ∧ h'.obj c = some ⟨⟨b', 0⟩, ⟨b', s.vals.length⟩, ⟨b', n⟩⟩ ∧ h'.size b' = some m ∧ s.vals.length ≤ m ∧ m < n ∧ h'.slot b' = lay s.vals 0 [] ∧
        (h.lay s.blk [] 0 []).Sub h' := by
  have hb := v.lt_fresh B
  have le := v.le
  simp only [Machine.reserve, Prog.bind_app, getObj_eq v.obj, Res.bind_ok, VS.rep, ptr_add, Nat.zero_add, Machine.less, if_true, decide_eq_true_eq, Prog.ite_app, Machine.alloc]
  split
  · rename_i q
    refine .inl ⟨fun z => ?_, rfl⟩
    rw [z, v.zero z, M.null, Nat.zero_mul, Nat.zero_mod] at q
    exact Nat.not_lt_zero _ q
  refine .inr ?_
  have gl := got_less big
  generalize n * M.sz % M.W / M.sz = N at gl
  simp only [Vec.alloc, Res.bind_ok]
  let h1 : Mem T := { h with size := upd h.size h.fresh (some N), slot := upd h.slot h.fresh (fun _ => none), fresh := h.fresh + 1 }
  have h1s : h1.size h.fresh = some N := upd_same ..
  have h1l : h1.slot h.fresh = lay [] 0 [] := by rw [lay_nil]; funext i; simp [h1]
  have r1 : ∀ k a, s.vals[k]? = some a → h1.Holds s.blk (0 + k) a := by
    intro k a hk
    obtain ⟨⟨m, e1, e2⟩, e3⟩ := v.holds hk
    rw [Nat.zero_add]
    exact ⟨⟨m, by show upd _ _ _ _ = _; rw [upd_other _ _ (by omega)]; exact e1, e2⟩, by show upd h.slot h.fresh _ s.blk k = _; rw [upd_other _ _ (by omega)]; exact e3⟩
  by_cases q : N < s.vals.length
  · have c1 := copyTo_over (m := N) (b := s.blk) (b' := h.fresh) (by omega) s.vals [] 0 h1 r1 h1s (Nat.zero_le _) (by simpa using q) h1l
    simp only [List.length_nil, Nat.zero_add] at c1
    refine .inl ?_
    rw [show copyTo _ _ _ _ = _ from c1]; rfl
  refine .inr ?_
  have c1 := copyTo_ok (n := N) (b := s.blk) (b' := h.fresh) (by omega) s.vals [] 0 h1 r1 (fun _ => h1s) (by simp; omega) h1l
  simp only [List.length_nil, Nat.zero_add, List.nil_append] at c1
  have c2 := destroyDown_ok (n := s.cap) (b := s.blk) (xs := []) s.vals (h1.lay h.fresh s.vals 0 []) (by
    intro k; show upd _ _ _ _ = _; rw [upd_other _ _ (by omega)]; exact v.size k) (by simp; exact le)
    (by rw [lay_slot_other _ _ _ _ _ (by omega)]; show upd _ _ _ _ = _; rw [upd_other _ _ (by omega)]; exact v.slot)
  simp only [List.length_nil, Nat.zero_add] at c2
  have c3 := free_moved B hb (fun q => by rw [v.blk q]; simp) (vs := s.vals) (cap := N) ((h1.lay h.fresh s.vals 0 []).lay s.blk [] 0 []) rfl
  refine ⟨Heap.setObj ({ (h1.lay h.fresh s.vals 0 []).lay s.blk [] 0 [] with size := upd (upd h.size h.fresh (some N)) s.blk none } : Mem T) c ⟨⟨h.fresh, 0⟩, ⟨h.fresh, s.vals.length⟩, ⟨h.fresh, n⟩⟩,
    h.fresh, N, ?_, ?_, ?_, by omega, gl, ?_, ?_⟩
  · rw [show copyTo _ _ _ _ = _ from c1]
    simp only [Res.bind_ok]
    rw [c2]
    simp only [Res.bind_ok]
    rw [c3]
    simp only [Res.bind_ok]
    rw [setObj_eq (r := s.rep) (by exact v.obj), ptr_add, Nat.zero_add]
  · exact set_obj_same ..
  · show upd (upd h.size h.fresh (some N)) s.blk none h.fresh = _
    rw [upd_other _ _ (by omega), upd_same]
  · show upd (upd (upd h.slot h.fresh _) h.fresh _) s.blk _ h.fresh = _
    rw [upd_other _ _ (by omega), upd_same]
  · intro b i a ⟨⟨k, q1, q2⟩, q3⟩
    have e1 : b ≠ s.blk := by intro e; subst e; rw [lay_slot_same, lay_nil] at q3; simp at q3
    have e2 : b ≠ h.fresh := by intro e; subst e; simp only [lay_size] at q1; rw [(B.gone _ (Nat.le_refl _)).1] at q1; cases q1
    rw [lay_slot_other _ _ _ _ _ e1] at q3
    refine ⟨⟨k, ?_, q2⟩, ?_⟩
    · show upd (upd h.size h.fresh (some N)) s.blk none b = _
      rw [upd_other _ _ e1, upd_other _ _ e2]; exact q1
    · show upd (upd (upd h.slot h.fresh _) h.fresh _) s.blk _ b i = _
      rw [upd_other _ _ e1, upd_other _ _ e2, upd_other _ _ e2]; exact q3

/-- **C140.** `reserve(n)` for more than `max_size()` elements may return, but then the vector has no storage for `n` elements: whatever block it
uses has fewer slots. -/
theorem reserve_too_many (R : MReach M dv S h) (hc : S.Exists c) (big : M.maxSize < n) {r : Ret} (e : M.exec dv (.reserve c n) h = .ok (r, h')) :
    ∃ q, begin_ c h' = .ok (q, h') ∧ ∀ m, h'.size q.blk = some m → m < n := by
  obtain ⟨s, hs⟩ := hc
  have W := (machine_reach R).world
  have v := W.vec c s hs
  have ch := Machine.le_maxSize.2 (Machine.small_of_half (caps_half R c s hs))
  simp only [Machine.exec, Prog.bind_app] at e
  rcases reserve_over (M := M) W.base v (n := n) (by omega) big with ⟨nz, z⟩ | z | ⟨h1, b', m, z, z1, z2, z3, z4, z5, z6⟩
  · rw [z] at e; cases e
    refine ⟨_, begin_ok v, fun m q => ?_⟩
    have := v.blk nz
    simp only at q
    rw [this] at q; cases q; omega
  · rw [z] at e; cases e
  · rw [z] at e; cases e
    refine ⟨⟨b', 0⟩, by simp [begin_, getObj_eq z1], fun m' q => ?_⟩
    have q : _ = some m' := q; rw [z2] at q; cases q; exact z4

/-- **C140.** `assign(n, value)` for more than `max_size()` elements writes outside the storage. -/
theorem assign_too_many_ub (R : MReach M dv S h) (hc : S.Exists c) (v0 : T) (big : M.maxSize < n) : ∃ f, M.exec dv (.assignN c n (.ext v0)) h = .ub f := by
  obtain ⟨s, hs⟩ := hc
  have W := (machine_reach R).world
  have B := W.base
  have v := W.vec c s hs
  have ch := Machine.le_maxSize.2 (Machine.small_of_half (caps_half R c s hs))
  have k0 := become_change v [] (Nat.zero_le _)
  have B0 := k0.base B v
  have e1 : Vec.clear c h = .ok ((), h.vec c (s.become [])) := clear_ok v
  have over : ∀ (g : Mem T) (b m : Nat) (eo : Ptr), g.obj c = some ⟨⟨b, 0⟩, ⟨b, 0⟩, eo⟩ → g.size b = some m → m < n → g.slot b = lay [] 0 [] → fillBack c n (.counter (.ext v0)) g = .ub .access := by
    intro g b m eo q1 q2 q3 q4
    have := fillBack_over (c := c) (b := b) (m := m) (e := ⟨b, 0⟩) (eo := eo) (List.replicate n v0) [] (.counter (.ext v0)) g g q1 q2 (Nat.zero_le _) (by simpa using q3) q4
      (gives_counter (fun _ _ => rfl) n) (Heap.Sub.refl _)
    rw [List.length_replicate] at this; exact this
  simp only [Machine.exec, Machine.assignN, CArg.expr, Prog.bind_app, Prog.pure_app, e1, Res.bind_ok]
  rcases reserve_over (M := M) B0 k0.vec (n := n) (show s.cap < n by omega) big with ⟨nz, z⟩ | z | ⟨h1, b', m, z, z1, z2, z3, z4, z5, z6⟩
  · rw [z]
    have ho := k0.vec.obj
    refine ⟨.access, ?_⟩
    simp only [Res.bind_ok]
    rw [over _ s.blk s.cap _ ho (k0.vec.blk nz) (by omega) k0.vec.slot]; rfl
  · exact ⟨.access, by rw [z]; rfl⟩
  · refine ⟨.access, ?_⟩
    rw [z]
    simp only [Res.bind_ok]
    rw [over _ b' m _ z1 z2 z4 z5]; rfl

/-! ## Examples: 16-bit sizes, 4-byte elements -/

/-- A machine with 16-bit `size_t`; blocks begin at the address 4096. -/
def mach16 : Machine where
  W := 65536
  sz := 4
  addr := fun b => if b = 0 then 0 else 4096
  pos := by decide
  one := by decide
  null := rfl

theorem mach16_below : mach16.Below 4096 := by
  intro b; show (if b = 0 then 0 else 4096) ≤ 4096; split <;> omega

/-- A vector with the elements 5, 6, 7 on that machine. -/
theorem mdemo : ∃ (c : Nat) (S : State Nat) (h : Mem Nat) (p : Ptr), MReach mach16 0 S h ∧ S.Exists c ∧ Shows h c [5, 6, 7] 3 p ∧ mach16.addr p.blk = 4096 ∧
    ∀ d, S.Exists d → ∀ us cap q, Shows h d us cap q → 4096 + cap * mach16.sz < mach16.W := by
  obtain ⟨h1, e1, e2, R1⟩ := request_fits_partial (MReach.start (M := mach16) (dv := 0)) (.ctorRange (.vals [5, 6, 7])) trivial
    ⟨⟨by show 3 * 4 < 65536; omega, by show 2 * 3 < 65536; omega⟩, fun c q => by cases q⟩
  have R1 : MReach mach16 0 (State.put (fun _ => none) 1 ⟨[5, 6, 7], 3, 2⟩) h1 := R1
  refine ⟨1, _, h1, ⟨2, 0⟩, R1, put_exists .., ?_, rfl, fun d hd us cap q o => ?_⟩
  · exact isVec_shows ((machine_reach R1).world.vec 1 _ (put_same ..))
  · obtain ⟨b, rfl, e, v⟩ := shown' (machine_reach R1) hd o
    by_cases z : d = 1
    · subst z
      have e := (put_same ..).symm.trans e
      cases e
      show 4096 + 3 * 4 < 65536
      omega
    · have e := (put_other _ z _).symm.trans e
      cases e

/-- `vector(16383)` has as many elements as `max_size()`, and takes almost all of the memory. -/
example : ∃ h', mach16.exec 0 (.ctor 16383) empty₀ = .ok (.obj 1, h') ∧ MReach mach16 0 (State.put (fun _ => none) 1 ⟨List.replicate 16383 0, 16383, 2⟩) h' := by
  obtain ⟨h', e, _, R⟩ := request_up_to_max_size_partial (by show 2 ≤ 4; omega) (MReach.start (M := mach16) (dv := 0)) (.ctor 16383) trivial
    (by show 16383 ≤ 65535 / 4; omega) (fun c q => by cases q)
  exact ⟨h', e, R⟩

/-- `max_size()` is 16383. A history with room for 15000 elements works, which is more than half of the memory; `vector(16384)` writes outside its storage, `resize(40003)` does nothing,
`resize(20000)` writes outside the storage, `reserve(16000)` does nothing, `assign(20000, 1)` writes outside the storage. -/
example : mach16.maxSize = 16383 ∧ ∃ (c : Nat) (h : Mem Nat), Observes h c [5, 6, 7] ∧
    (∃ h', mrunOps mach16 0 c [.reserve 15000, .resize 5, .insertN 2 3 9, .assignN 4 3, .resize 2, .pushBack 4] h = .ok ((), h') ∧ Observes h' c [3, 3, 4]) ∧
    mach16.exec 0 (.ctor 16384) h = .ub .access ∧ mach16.exec 0 (.resize c 40003) h = .ok (.none, h) ∧ mach16.exec 0 (.resize c 20000) h = .ub .access ∧
    mach16.exec 0 (.insertN c 1 20000 (.elem c 0)) h = .ub .access ∧ mach16.exec 0 (.reserve c 16000) h = .ok (.none, h) ∧ (∃ f, mach16.exec 0 (.assignN c 20000 (.ext 1)) h = .ub f) := by
  obtain ⟨c, S, h, p, R, hc, o, ad, caps⟩ := mdemo
  have ms : mach16.maxSize = 16383 := rfl
  have va : (CArg.elem c 0).Valid S := ⟨hc, by obtain ⟨s, hs, e, v⟩ := observed (machine_reach R) hc o.toObserves; rw [vals_some hs, e]; decide⟩
  refine ⟨ms, c, h, o.toObserves, ?_, construct_too_many_ub R (by rw [ms]; decide), ?_, ?_, ?_, ?_, ?_⟩
  · obtain ⟨h', S', e, R', _, o', _⟩ := machine_history_partial (dv := 0) mach16_below [.reserve 15000, .resize 5, .insertN 2 3 9, .assignN 4 3, .resize 2, .pushBack 4] R caps hc o.toObserves
      (by simp [OpsOk, Op.Pre, Op.apply]) (by refine ⟨?_, ?_, ?_, ?_, ?_, ?_, ?_, ?_, ?_, ?_, ?_, ?_, trivial⟩ <;> simp [opAsks, mach16, Op.apply])
    exact ⟨h', e, by simpa [applyOps, Op.apply] using o'⟩
  · exact resize_huge_ignored R hc o.toObserves (by show 65536 ≤ 2 * (40003 - 3); omega)
  · exact resize_too_many_ub R hc o.toObserves (by show 2 * (20000 - 3) < 65536; omega) (by rw [ms]; decide)
  · exact insert_too_many_ub R hc o.toObserves (by decide) va (by show 2 * 20000 < 65536; omega) (by rw [ms]; show 16383 < 3 + 20000; omega)
  · exact reserve_wraps_ignored R hc o (by rw [ms]; decide) (by rw [ad]; show 4096 + 3 * 4 < 65536; omega) (by rw [ad]; show 65536 ≤ 4096 + 16000 * 4; omega)
  · exact assign_too_many_ub R hc 1 (by rw [ms]; decide)

end Verif.Vec.MachProps
