import Verif.Exc.FvSwap
/-!
# Histories with exceptions over fixed vectors
-/
set_option linter.unusedVariables false
set_option linter.unusedSimpArgs false
namespace Verif.Exc.XFv
open Verif Verif.Vec.FV Verif.Exc
open Verif.Vec hiding CArg CSrc Call Legal Mem Reach Ret State World appendOne arg_ok assign assignN assignRange at_ at_ok back back_ok begin_ begin_ok capacity capacity_ok clear clear_ok copies_val copyAll copyAll_ok copyOf create ctor ctorN ctorRange destroy empty empty_ok empty₀ end_ end_ok equal erase eraseRange eraseRange_end exec front insert insertN insertRange insertValues notEqual popBack popBack_ok pushAll pushBack put_exists put_other put_put put_same put_self resize resizeX retOf shrinkTo shrinkTo_ok size size_ok spec src_ok step_ok store sub_made swap swap_ok toList vals_some world_start
variable {T : Type} {N n c d x i j a k : Nat} {xs ys zs vs ws us s s' : List T} {h h' t : Mem T} {dv : T} {S : State T} {L : Nat → Prop}

/-- The number of operations in a call that may throw. -/
def points (N : Nat) (S : State T) : Call T → Nat
  | .ctor n => min n N
  | .ctorN n _ => min n N
  | .copyOf d => (S.vals d).length
  | .ctorRange r => min (r.vals' S).length N
  | .assign c d => if d = c then 0 else (S.vals d).length
  | .assignN _ n _ => min n N
  | .assignRange _ r => min (r.vals' S).length N
  | .resize c n => if n < (S.vals c).length then 0 else 1 + insPts N (S.vals c).length (S.vals c).length ((if N < n then N else n) - (S.vals c).length)
  | .resizeX c n _ => if n < (S.vals c).length then 0 else insPts N (S.vals c).length (S.vals c).length (n - (S.vals c).length)
  | .insert c i _ => insPts N (S.vals c).length i 1
  | .insertN c i n _ => insPts N (S.vals c).length i n
  | .insertRange c i r => insPts N (S.vals c).length i (r.vals' S).length
  | .pushBack c _ => min 1 (N - (S.vals c).length)
  | .erase c i => (S.vals c).length - (i + 1)
  | .eraseRange c _ j => (S.vals c).length - j
  | .swap c d => 3 * (S.vals c).length + ((S.vals d).length - (S.vals c).length)
  | .store _ _ _ => 1
  | _ => 0

/-- The sequences after the operation `k` (from 0) of the call has thrown; a fixed vector that the exception has left with a hole is not among them. -/
def leftS (S : State T) (k : Nat) : Call T → State T
  | .assign c _ | .assignN c _ _ | .assignRange c _ | .resizeX c _ _ | .insert c _ _ | .insertN c _ _ _ | .insertRange c _ _ | .pushBack c _ | .erase c _ | .eraseRange c _ _ => S.del c
  | .resize c _ => if k = 0 then S else S.del c
  | .swap c d =>
    if c = d then S
    else if (S.vals c).length = (S.vals d).length then (S.put c (mixed (S.vals c) (S.vals d) (k / 3))).put d (mixed (S.vals d) (S.vals c) ((k + 1) / 3))
    else if k < 3 * (S.vals c).length then
      (S.put c (mixed (S.vals c) ((S.vals d).take (S.vals c).length) ((k + 1) / 3))).put d (mixed (S.vals d) (S.vals c) (k / 3))
    else (S.put d (S.vals c ++ (S.vals d).drop (S.vals c).length)).del c
  | _ => S

/-- The fixed vectors that the throwing operation `k` of the call has left with a hole. -/
def holed (S : State T) (k : Nat) : Call T → Nat → Prop
  | .assign c _ | .assignN c _ _ | .assignRange c _ | .resizeX c _ _ | .insert c _ _ | .insertN c _ _ _ | .insertRange c _ _ | .pushBack c _ | .erase c _ | .eraseRange c _ _ => (· = c)
  | .resize c _ => fun x => x = c ∧ k ≠ 0
  | .swap c d => fun x => x = c ∧ c ≠ d ∧ (S.vals c).length ≠ (S.vals d).length ∧ 3 * (S.vals c).length ≤ k
  | _ => fun _ => False

/-- The elements a constructor makes. -/
def ctorVals (dv : T) (S : State T) : Call T → Option (List T)
  | .ctor n => some (List.replicate n dv)
  | .ctorN n a => some (S.copies n a)
  | .copyOf d => some (S.vals d)
  | .ctorRange r => some (r.vals' S)
  | _ => none

/-- The object the constructor has begun: its lifetime never started. -/
def unborn (f : Nat) : Call T → Nat → Prop
  | .ctor _ | .ctorN _ _ | .copyOf _ | .ctorRange _ => (· = f)
  | _ => fun _ => False

/-- The elements that a constructor has made when the exception leaves it are still there: nothing destroys them. -/
def Leaked (t : Mem T) (f : Nat) (vs : List T) : Prop := t.obj f = none ∧ t.size f = none ∧ ∀ i, t.slot f i = vs[i]?

/-- What the exception at operation `k` of a call leaves. -/
structure Left (N : Nat) (dv : T) (L : Nat → Prop) (S : State T) (h t : Mem T) (q : Call T) (k : Nat) : Prop where
  world : WorldL N (fun x => L x ∨ holed S k q x ∨ unborn h.fresh q x) t (leftS S k q)
  hole : ∀ x, holed S k q x → Hole N t x
  leak : ∀ vs, ctorVals dv S q = some vs → Leaked t h.fresh (vs.take k)
  others : ∀ x, L x → t.obj x = h.obj x ∧ t.size x = h.size x ∧ t.slot x = h.slot x

theorem WorldL.weaken {L L' : Nat → Prop} (W : WorldL N L h S) (e : ∀ x, L' x ↔ L x) : WorldL N L' h S := by
  have : L' = L := funext fun x => propext (e x)
  rw [this]; exact W

theorem WorldL.ruin (W : WorldL N L h S) (hc : S c = some s) (r : Ruined N h t c) : WorldL N (fun x => L x ∨ x = c) t (S.del c) := by
  have keep : ∀ {d}, d ≠ c → S.del c d = S d := fun q => by simp [FV.State.del, q]
  refine ⟨?_, ?_, ?_, ?_⟩
  · intro d s e
    have q : d ≠ c := by rintro rfl; simp [FV.State.del] at e
    rw [keep q] at e
    have v := W.fv d s e
    exact ⟨by rw [(r.others d q).1]; exact v.obj, by rw [(r.others d q).2]; exact v.slot, by rw [r.size]; exact v.size, v.le⟩
  · intro d e nl
    have q : d ≠ c := fun q => nl (.inr q)
    rw [keep q] at e
    rw [(r.others d q).1, (r.others d q).2, r.size]
    exact W.only d e fun l => nl (.inl l)
  · intro d q
    rw [r.fresh] at q
    have ne : d ≠ c := by have := W.lt hc; omega
    rw [keep ne]
    exact ⟨(W.fresh d q).1, fun l => l.elim (W.fresh d q).2 ne⟩
  · intro d l
    by_cases q : d = c
    · subst q; simp [FV.State.del]
    · rw [keep q]; exact W.apart d (l.resolve_right q)

theorem WorldL.lost_ne (W : WorldL N L h S) (hc : S c = some s) (l : L x) : x ≠ c := by
  rintro rfl; rw [W.apart _ l] at hc; cases hc

theorem Ruined.keeps (W : WorldL N L h S) (hc : S c = some s) (r : Ruined N h t c) (x : Nat) (l : L x) : t.obj x = h.obj x ∧ t.size x = h.size x ∧ t.slot x = h.slot x := by
  have q := WorldL.lost_ne W hc l
  exact ⟨(r.others x q).1, by rw [r.size], (r.others x q).2⟩

/-- The calls that leave their fixed vector with a hole. -/
theorem left_ruined (W : WorldL N L h S) (hc : S c = some s) (r : Ruined N h t c) {q : Call T} (e1 : ∀ x, holed S k q x ↔ x = c) (e2 : ∀ x, ¬ unborn h.fresh q x)
    (e3 : leftS S k q = S.del c) (e4 : ctorVals dv S q = none) : Left N dv L S h t q k where
  world := by
    rw [e3]
    exact WorldL.weaken (WorldL.ruin W hc r) fun x => by rw [e1]; simp [e2 x]
  hole x l := by rw [e1] at l; subst l; exact r.hole
  leak vs e := by rw [e4] at e; cases e
  others := Ruined.keeps W hc r

/-- The calls that have done nothing. -/
theorem left_same (W : WorldL N L h S) {q : Call T} (e1 : ∀ x, ¬ holed S k q x) (e2 : ∀ x, ¬ unborn h.fresh q x)
    (e3 : leftS S k q = S) (e4 : ctorVals dv S q = none) : Left N dv L S h h q k where
  world := by
    rw [e3]
    exact WorldL.weaken W fun x => by simp [e2 x, e1 x]
  hole x l := absurd l (e1 x)
  leak vs e := by rw [e4] at e; cases e
  others x l := ⟨rfl, rfl, rfl⟩

/-! ## Constructors -/

/-- Memory after an exception has left a constructor that has made `zs`. -/
def aborted (N : Nat) (h : Mem T) (zs : List T) : Mem T :=
  { torn (made N h) h.fresh zs with obj := upd (torn (made N h) h.fresh zs).obj h.fresh none, size := upd (made N h).size h.fresh none }

theorem drop_torn (zs : List T) : dropStore h.fresh (torn (made N h) h.fresh zs) = .ok ((), aborted N h zs) := by
  have : (torn (made N h) h.fresh zs).obj h.fresh = some ⟨h.fresh, zs.length + 1⟩ := set_obj_same ..
  simp only [dropStore, this]; rfl

theorem aborted_other (q : d ≠ h.fresh) (zs : List T) : (aborted N h zs).obj d = h.obj d ∧ (aborted N h zs).size d = h.size d ∧ (aborted N h zs).slot d = h.slot d := by
  refine ⟨?_, ?_, ?_⟩
  · show upd (upd (upd h.obj h.fresh _) h.fresh _) h.fresh none d = _
    simp [upd_other _ _ q]
  · show upd (upd h.size h.fresh _) h.fresh none d = _
    simp [upd_other _ _ q]
  · show upd (upd h.slot h.fresh _) h.fresh _ d = _
    simp [upd_other _ _ q]

theorem left_aborted (W : WorldL N L h S) (zs : List T) {q : Call T} (e1 : ∀ x, ¬ holed S k q x) (e2 : ∀ x, unborn h.fresh q x ↔ x = h.fresh)
    (e3 : leftS S k q = S) (e4 : ctorVals dv S q = some vs) (ez : zs = vs.take k) : Left N dv L S h (aborted N h zs) q k where
  world := by
    rw [e3]
    refine WorldL.weaken (L := fun x => L x ∨ x = h.fresh) ?_ fun x => by simp [e1 x, e2 x]
    refine ⟨?_, ?_, ?_, ?_⟩
    · intro d s e
      have q : d ≠ h.fresh := by have := W.lt e; omega
      obtain ⟨o1, o2, o3⟩ := aborted_other (N := N) q zs
      have v := W.fv d s e
      exact ⟨by rw [o1]; exact v.obj, by rw [o3]; exact v.slot, by rw [o2]; exact v.size, v.le⟩
    · intro d e nl
      have q : d ≠ h.fresh := fun q => nl (.inr q)
      obtain ⟨o1, o2, o3⟩ := aborted_other (N := N) q zs
      rw [o1, o2, o3]
      exact W.only d e fun l => nl (.inl l)
    · intro d q
      have q : h.fresh + 1 ≤ d := q
      have := W.fresh d (by omega)
      exact ⟨this.1, fun l => l.elim this.2 (by omega)⟩
    · intro d l
      rcases l with l | rfl
      · exact W.apart d l
      · exact (W.fresh _ (Nat.le_refl _)).1
  hole x l := absurd l (e1 x)
  leak us e := by
    rw [e4] at e; cases e
    refine ⟨upd_same .., upd_same .., fun i => ?_⟩
    show upd (upd h.slot h.fresh _) h.fresh _ h.fresh i = _
    rw [upd_same, lay_nil, ez]
  others x l := by
    have q : x ≠ h.fresh := by rintro rfl; exact (W.fresh _ (Nat.le_refl _)).2 l
    exact aborted_other q zs

/-! ## Every call -/

theorem seq_ret {α : Type} {x : Thr (Mem T) α} {f : α → Ret} {a : α} {P : Nat → Mem T → Prop} (X : Points x h n a h' P) : Points (do let a ← x; return f a) h n (f a) h' P :=
  Points.seq_pure (g := f) X

theorem call_points (W : WorldL N L h S) (q : Call T) (lg : Legal S q) :
    ∃ h', FV.exec N dv q h = .ok (retOf h.fresh q, h') ∧ WorldL N L h' (spec N dv S h.fresh q) ∧
      Points (exec N dv q) h (points N S q) (retOf h.fresh q) h' fun k t => Left N dv L S h t q k := by
  obtain ⟨h1, e1, W1⟩ := step_ok (dv := dv) W q lg
  refine ⟨h1, e1, W1, ?_⟩
  suffices X : ∃ h2, Points (exec N dv q) h (points N S q) (retOf h.fresh q) h2 (fun k t => Left N dv L S h t q k) ∧ FV.exec N dv q h = .ok (retOf h.fresh q, h2) by
    obtain ⟨h2, X, e2⟩ := X
    rw [e1] at e2; cases e2; exact X
  have v0 : IsFV N (made N h) h.fresh [] := W.made.fv _ _ (put_same ..)
  cases q with
  | create => exact ⟨h1, Points.call_ e1, e1⟩
  | destroy c => exact ⟨h1, Points.call_ e1, e1⟩
  | popBack c => exact ⟨h1, Points.call_ e1, e1⟩
  | clear c => exact ⟨h1, Points.call_ e1, e1⟩
  | ctor n =>
    have t := fill_ok (List.replicate n dv) [] (.counter (.ext dv)) _ _ v0 (gives_counter (fun _ _ => rfl) n) (Heap.Sub.refl _)
    have tp := fill_points (List.replicate n dv) [] (.counter (.ext dv)) _ _ v0 (gives_counter (fun _ _ => rfl) n) (Heap.Sub.refl _)
    simp only [List.length_replicate, List.nil_append, List.length_nil, Nat.sub_zero] at t tp
    refine ⟨fv (made N h) h.fresh ((List.replicate n dv).take N), ?_, ?_⟩
    · refine seq_ret (f := Ret.obj) (Points.call_seq newStore_ok (Points.seq_pure (g := fun _ => h.fresh) (unwinding_points tp ?_)))
      intro k t hk e
      exact ⟨_, by rw [e]; exact drop_torn _, left_aborted W _ (fun _ => id) (fun _ => Iff.rfl) rfl rfl rfl⟩
    · simp only [FV.exec, FV.ctor, Prog.bind_app, newStore_ok, Res.bind_ok, t, Prog.pure_app, retOf]
  | ctorN n a =>
    obtain ⟨x, v, e0, ev, g1, g2⟩ := arg_ok W lg
    have t := fill_ok (List.replicate n v) [] (.counter x) _ h v0 (gives_counter g1 n) (sub_made W)
    have tp := fill_points (List.replicate n v) [] (.counter x) _ h v0 (gives_counter g1 n) (sub_made W)
    simp only [List.length_replicate, List.nil_append, List.length_nil, Nat.sub_zero] at t tp
    refine ⟨fv (made N h) h.fresh ((List.replicate n v).take N), ?_, ?_⟩
    · refine Points.call_seq e0 (seq_ret (f := Ret.obj) (Points.call_seq newStore_ok (Points.seq_pure (g := fun _ => h.fresh) (unwinding_points tp ?_))))
      intro k t hk e
      exact ⟨_, by rw [e]; exact drop_torn _, left_aborted W _ (fun _ => id) (fun _ => Iff.rfl) rfl (vs := List.replicate n v) (by simp only [ctorVals, copies_val ev]) rfl⟩
    · simp only [FV.exec, FV.ctorN, Prog.bind_app, e0, newStore_ok, Res.bind_ok, t, Prog.pure_app, retOf]
  | copyOf d =>
    obtain ⟨s, ht⟩ := lg
    have ne : d ≠ h.fresh := by have := W.lt ht; omega
    have vd := W.made.fv d s (by rw [put_other _ ne]; exact ht)
    have t := copyFull_ok ne s [] 0 _ v0 vd (Nat.zero_le _) rfl
    have tp := copyFull_points ne s [] 0 _ v0 vd (Nat.zero_le _) rfl
    have le := vd.le
    simp only [List.nil_append, List.length_nil, Nat.sub_zero, Nat.min_eq_left le] at t tp
    refine ⟨fv (made N h) h.fresh (s.take N), ?_, ?_⟩
    · simp only [points, vals_some ht]
      refine seq_ret (f := Ret.obj) (Points.call_seq newStore_ok (Points.seq_pure (g := fun _ => h.fresh) (unwinding_points (Points.call_seq (begin_ok vd) tp) ?_)))
      intro k t hk e
      exact ⟨_, by rw [e]; exact drop_torn _, left_aborted W _ (fun _ => id) (fun _ => Iff.rfl) rfl (vs := s) (by simp only [ctorVals, vals_some ht]) rfl⟩
    · simp only [FV.exec, FV.copyOf, Prog.bind_app, newStore_ok, Res.bind_ok, begin_ok vd, t, Prog.pure_app, retOf]
  | ctorRange r =>
    obtain ⟨x, e0, g1, g2⟩ := src_ok W lg
    have t := pushAll_ok (r.vals' S) [] x _ h v0 g1 (sub_made W)
    have tp := pushAll_points (r.vals' S) [] x _ h v0 g1 (sub_made W)
    simp only [List.nil_append, List.length_nil, Nat.sub_zero] at t tp
    refine ⟨fv (made N h) h.fresh ((r.vals' S).take N), ?_, ?_⟩
    · refine Points.call_seq e0 (seq_ret (f := Ret.obj) (Points.call_seq newStore_ok (Points.seq_pure (g := fun _ => h.fresh) (unwinding_points tp ?_))))
      intro k t hk e
      exact ⟨_, by rw [e]; exact drop_torn _, left_aborted W _ (fun _ => id) (fun _ => Iff.rfl) rfl rfl rfl⟩
    · simp only [FV.exec, FV.ctorRange, Prog.bind_app, e0, newStore_ok, Res.bind_ok, t, Prog.pure_app, retOf]
  | assign c d =>
    obtain ⟨⟨s, hc⟩, ⟨t, hd⟩⟩ := lg
    have v := W.fv c s hc
    have vd := W.fv d t hd
    refine ⟨fv h c (if d = c then [] else t), ?_, ?_⟩
    · simp only [points, vals_some hd]
      refine seq_ret (f := fun _ => Ret.none) ((assign_points v vd).imp fun k t _ r => left_ruined W hc r (fun _ => Iff.rfl) (fun _ => id) rfl rfl)
    · simp only [FV.exec, Prog.bind_app, assign_ok v vd, Res.bind_ok]; rfl
  | assignN c n a =>
    obtain ⟨⟨s, hc⟩, va, ho⟩ := lg
    have v := W.fv c s hc
    obtain ⟨x, w, e0, ev, g1, g2⟩ := arg_ok W va
    have g3 := g2 c s 0 hc ho
    rw [List.take_zero] at g3
    have t := assignN_ok v (gives_counter g3 n)
    have tp := assignValues_points v (gives_counter g3 n)
    rw [List.length_replicate] at t tp
    refine ⟨fv h c ((List.replicate n w).take N), ?_, ?_⟩
    · exact Points.call_seq e0 (seq_ret (f := fun _ => Ret.none) (tp.imp fun k t _ r => left_ruined W hc r (fun _ => Iff.rfl) (fun _ => id) rfl rfl))
    · simp only [FV.exec, Prog.bind_app, e0, Res.bind_ok]
      rw [show FV.assignN N c n x h = _ from t]; rfl
  | assignRange c r =>
    obtain ⟨⟨s, hc⟩, vr, ho⟩ := lg
    have v := W.fv c s hc
    obtain ⟨x, e0, g1, g2⟩ := src_ok W vr
    have g3 := g2 c s 0 hc ho
    rw [List.take_zero] at g3
    refine ⟨fv h c ((r.vals' S).take N), ?_, ?_⟩
    · exact Points.call_seq e0 (seq_ret (f := fun _ => Ret.none) ((assignValues_points v g3).imp fun k t _ r => left_ruined W hc r (fun _ => Iff.rfl) (fun _ => id) rfl rfl))
    · simp only [FV.exec, Prog.bind_app, e0, Res.bind_ok, assignN_ok v g3]; rfl
  | resize c n =>
    obtain ⟨s, hc⟩ := lg
    have v := W.fv c s hc
    refine ⟨fv h c (if n < s.length then s.take n else (s ++ List.replicate (n - s.length) dv).take N), ?_, ?_⟩
    · simp only [points, vals_some hc]
      refine seq_ret (f := fun _ => Ret.none) ((resize_points v dv n).imp ?_)
      rintro k t _ (⟨rfl, rfl⟩ | ⟨hk, r⟩)
      · exact left_same W (fun x l => l.2 rfl) (fun _ => id) (by simp [leftS]) rfl
      · have : k ≠ 0 := by omega
        exact left_ruined W hc r (fun x => by simp [holed, this]) (fun _ => id) (by simp [leftS, this]) rfl
    · simp only [FV.exec, Prog.bind_app, resize_ok v, Res.bind_ok]; rfl
  | resizeX c n a =>
    obtain ⟨⟨s, hc⟩, va⟩ := lg
    have v := W.fv c s hc
    obtain ⟨x, w, e0, ev, g1, g2⟩ := arg_ok W va
    refine ⟨fv h c (if n < s.length then s.take n else (s ++ List.replicate (n - s.length) w).take N), ?_, ?_⟩
    · simp only [points, vals_some hc]
      exact Points.call_seq e0 (seq_ret (f := fun _ => Ret.none) ((resizeX_points v dv n g1).imp fun k t _ r => left_ruined W hc r (fun _ => Iff.rfl) (fun _ => id) rfl rfl))
    · simp only [FV.exec, Prog.bind_app, e0, resizeX_ok v dv n g1, Res.bind_ok]; rfl
  | insert c i a =>
    obtain ⟨⟨s, hc⟩, hi, va, hs⟩ := lg
    have v := W.fv c s hc
    rw [vals_some hc] at hi hs
    obtain ⟨x, w, e0, ev, g1, g2⟩ := arg_ok W va
    have g : Gives (h.lay c (s.take i) 0 []) (.counter x) (List.replicate 1 w) := by
      rcases hs with q | q
      · exact gives_counter (g2 c s i hc q) 1
      · subst q; rw [List.take_length, lay_self _ _ _ _ _ v.slot]; exact gives_counter g1 1
    have t := insert_ok v hi _ g
    have tp := insertValues_points v hi _ g
    rw [List.length_replicate] at t tp
    refine ⟨fv h c ((s.take i ++ List.replicate 1 w ++ s.drop i).take N), ?_, ?_⟩
    · simp only [points, vals_some hc]
      refine Points.call_seq e0 (Points.call_seq (begin_ok v) (seq_ret (f := Ret.it) ?_))
      rw [ptr_add, Nat.zero_add]
      exact tp.imp fun k t _ r => left_ruined W hc r (fun _ => Iff.rfl) (fun _ => id) rfl rfl
    · simp only [FV.exec, FV.insert, FV.insertN, Prog.bind_app, e0, Res.bind_ok, begin_ok v, ptr_add, Nat.zero_add, t]; rfl
  | insertN c i n a =>
    obtain ⟨⟨s, hc⟩, hi, va, hs⟩ := lg
    have v := W.fv c s hc
    rw [vals_some hc] at hi hs
    obtain ⟨x, w, e0, ev, g1, g2⟩ := arg_ok W va
    have g : Gives (h.lay c (s.take i) 0 []) (.counter x) (List.replicate n w) := by
      rcases hs with q | q
      · exact gives_counter (g2 c s i hc q) n
      · subst q; rw [List.take_length, lay_self _ _ _ _ _ v.slot]; exact gives_counter g1 n
    have t := insert_ok v hi _ g
    have tp := insertValues_points v hi _ g
    rw [List.length_replicate] at t tp
    refine ⟨fv h c ((s.take i ++ List.replicate n w ++ s.drop i).take N), ?_, ?_⟩
    · simp only [points, vals_some hc]
      refine Points.call_seq e0 (Points.call_seq (begin_ok v) (seq_ret (f := Ret.it) ?_))
      rw [ptr_add, Nat.zero_add]
      exact tp.imp fun k t _ r => left_ruined W hc r (fun _ => Iff.rfl) (fun _ => id) rfl rfl
    · simp only [FV.exec, FV.insertN, Prog.bind_app, e0, Res.bind_ok, begin_ok v, ptr_add, Nat.zero_add, t]; rfl
  | insertRange c i r =>
    obtain ⟨⟨s, hc⟩, hi, vr, hs⟩ := lg
    have v := W.fv c s hc
    rw [vals_some hc] at hi hs
    obtain ⟨x, e0, g1, g2⟩ := src_ok W vr
    have g : Gives (h.lay c (s.take i) 0 []) x (r.vals' S) := by
      rcases hs with q | q
      · exact g2 c s i hc q
      · subst q; rw [List.take_length, lay_self _ _ _ _ _ v.slot]; exact g1
    have t := insert_ok v hi _ g
    have tp := insertValues_points v hi _ g
    refine ⟨fv h c ((s.take i ++ r.vals' S ++ s.drop i).take N), ?_, ?_⟩
    · simp only [points, vals_some hc]
      refine Points.call_seq e0 (Points.call_seq (begin_ok v) (seq_ret (f := Ret.it) ?_))
      rw [ptr_add, Nat.zero_add]
      exact tp.imp fun k t _ r => left_ruined W hc r (fun _ => Iff.rfl) (fun _ => id) rfl rfl
    · simp only [FV.exec, FV.insertRange, Prog.bind_app, e0, Res.bind_ok, begin_ok v, ptr_add, Nat.zero_add, t]; rfl
  | pushBack c a =>
    obtain ⟨⟨s, hc⟩, va⟩ := lg
    have v := W.fv c s hc
    obtain ⟨x, w, e0, ev, g1, g2⟩ := arg_ok W va
    refine ⟨fv h c ((s ++ [w]).take N), ?_, ?_⟩
    · simp only [points, vals_some hc]
      refine Points.call_seq e0 (seq_ret (f := fun _ => Ret.none) ((pushBack_points v (g1 h (Heap.Sub.refl _))).imp ?_))
      intro k t hk e
      have r : Ruined N h t c := by rw [e]; exact torn_ruined v.size (by omega)
      exact left_ruined W hc r (fun _ => Iff.rfl) (fun _ => id) rfl rfl
    · simp only [FV.exec, Prog.bind_app, e0, Res.bind_ok, pushBack_ok v (g1 h (Heap.Sub.refl _))]; rfl
  | erase c i =>
    obtain ⟨⟨s, hc⟩, hi⟩ := lg
    rw [vals_some hc] at hi
    have v := W.fv c s hc
    refine ⟨fv h c (s.take i ++ s.drop (i + 1)), ?_, ?_⟩
    · simp only [points, vals_some hc]
      refine Points.call_seq (begin_ok v) (seq_ret (f := Ret.it) ?_)
      rw [ptr_add, ptr_add, Nat.zero_add]
      exact (eraseRange_points v (Nat.lt_succ_self i) hi).imp fun k t _ r => left_ruined W hc r (fun _ => Iff.rfl) (fun _ => id) rfl rfl
    · simp only [FV.exec, FV.erase, Prog.bind_app, Res.bind_ok, begin_ok v, ptr_add, Nat.zero_add]
      rw [eraseRange_ok v (Nat.lt_succ_self i) hi]; rfl
  | eraseRange c i j =>
    obtain ⟨⟨s, hc⟩, hij, hj, he⟩ := lg
    rw [vals_some hc] at hj he
    have v := W.fv c s hc
    by_cases q : i < j
    · refine ⟨fv h c (s.take i ++ s.drop j), ?_, ?_⟩
      · simp only [points, vals_some hc]
        refine Points.call_seq (begin_ok v) (Points.call_seq (begin_ok v) (seq_ret (f := Ret.it) ?_))
        rw [ptr_add, ptr_add, Nat.zero_add, Nat.zero_add]
        exact (eraseRange_points v q hj).imp fun k t _ r => left_ruined W hc r (fun _ => Iff.rfl) (fun _ => id) rfl rfl
      · simp only [FV.exec, Prog.bind_app, Res.bind_ok, begin_ok v, ptr_add, Nat.zero_add, eraseRange_ok v q hj]; rfl
    · have : i = j := by omega
      subst this
      have := he rfl
      subst this
      refine ⟨h, ?_, ?_⟩
      · simp only [points, vals_some hc, Nat.sub_self]
        refine Points.call_seq (begin_ok v) (Points.call_seq (begin_ok v) (seq_ret (f := Ret.it) ?_))
        rw [ptr_add, Nat.zero_add]
        exact eraseRange_end_points v
      · simp only [FV.exec, Prog.bind_app, Res.bind_ok, begin_ok v, ptr_add, Nat.zero_add, eraseRange_end v]; rfl
  | swap c d =>
    obtain ⟨⟨s, hc⟩, ⟨t, hd⟩, le⟩ := lg
    rw [vals_some hc, vals_some hd] at le
    have v := W.fv c s hc
    have vd := W.fv d t hd
    have l1 := v.le
    have l2 := vd.le
    by_cases q : c = d
    · subst q
      rw [hc] at hd; cases hd
      refine ⟨h, ?_, ?_⟩
      · simp only [points, vals_some hc, Nat.sub_self, Nat.add_zero]
        refine seq_ret (f := fun _ => Ret.none) ((swap_self_points v).imp ?_)
        rintro k t _ rfl
        exact left_same W (fun x l => l.2.1 rfl) (fun _ => id) (by simp [leftS]) rfl
      · simp only [FV.exec, Prog.bind_app, swap_self v, Res.bind_ok]; rfl
    · refine ⟨fv (fv h c t) d s, ?_, ?_⟩
      · simp only [points, vals_some hc, vals_some hd]
        refine seq_ret (f := fun _ => Ret.none) ((swap_points v vd q le).imp ?_)
        intro k t' hk e
        have two : ∀ {xs ys : List T}, xs.length ≤ N → ys.length ≤ N → WorldL N L (fv (fv h c xs) d ys) ((S.put c xs).put d ys) := fun lx ly =>
          (W.chg hc lx).chg (s := t) (by rw [put_other _ (Ne.symm q)]; exact hd) ly
        have keep : ∀ {xs ys : List T} x, L x → (fv (fv h c xs) d ys).obj x = h.obj x ∧ (fv (fv h c xs) d ys).size x = h.size x ∧ (fv (fv h c xs) d ys).slot x = h.slot x := by
          intro xs ys x l
          have n1 := WorldL.lost_ne W hc l
          have n2 := WorldL.lost_ne W hd l
          exact ⟨by rw [fv_obj_other n2, fv_obj_other n1], rfl, by rw [fv_slot_other n2, fv_slot_other n1]⟩
        by_cases e1 : s.length = t.length
        · have nh : ∀ x, ¬ holed S k (.swap c d) x := by
            rintro x ⟨_, _, l, _⟩; rw [vals_some hc, vals_some hd] at l; exact l e1
          rw [e, swapLeft, if_pos e1]
          refine ⟨?_, fun x l => absurd l (nh x), fun _ e => (by cases e), keep⟩
          have : leftS S k (.swap c d) = (S.put c (mixed s t (k / 3))).put d (mixed t s ((k + 1) / 3)) := by
            simp only [leftS, if_neg q, vals_some hc, vals_some hd, if_pos e1]
          rw [this]
          exact WorldL.weaken (two (by rw [mixed_length e1]; exact l1) (by rw [mixed_length e1.symm]; exact l2)) fun x => by simp [nh x, unborn]
        · by_cases e2 : k < 3 * s.length
          · have nh : ∀ x, ¬ holed S k (.swap c d) x := by
              rintro x ⟨_, _, _, l⟩; rw [vals_some hc] at l; omega
            rw [e, swapLeft, if_neg e1, if_pos e2]
            refine ⟨?_, fun x l => absurd l (nh x), fun _ e => (by cases e), keep⟩
            have : leftS S k (.swap c d) = (S.put c (mixed s (t.take s.length) ((k + 1) / 3))).put d (mixed t s (k / 3)) := by
              simp only [leftS, if_neg q, vals_some hc, vals_some hd, if_neg e1, if_pos e2]
            rw [this]
            exact WorldL.weaken (two (by rw [mixed_length (by simp; omega)]; exact l1) (by simp [mixed]; omega)) fun x => by simp [nh x, unborn]
          · have W2 := W.chg hd (ws := s ++ t.drop s.length) (by simp; omega)
            have hc2 : (S.put d (s ++ t.drop s.length)) c = some s := by rw [put_other _ q]; exact hc
            have r : Ruined N (fv h d (s ++ t.drop s.length)) t' c := by
              rw [e, swapLeft, if_neg e1, if_neg e2]
              exact torn_ruined v.size (by simp; omega)
            have W3 := WorldL.ruin W2 hc2 r
            have hh : ∀ x, holed S k (.swap c d) x ↔ x = c := by
              intro x
              simp only [holed, vals_some hc, vals_some hd]
              exact ⟨fun l => l.1, fun l => ⟨l, q, e1, by omega⟩⟩
            refine ⟨?_, ?_, fun _ e => (by cases e), ?_⟩
            · have : leftS S k (.swap c d) = (S.put d (s ++ t.drop s.length)).del c := by
                simp only [leftS, if_neg q, vals_some hc, vals_some hd, if_neg e1, if_neg e2]
              rw [this]
              exact WorldL.weaken W3 fun x => by simp [hh x, unborn]
            · intro x l; rw [hh] at l; subst l; exact r.hole
            · intro x l
              have n2 := WorldL.lost_ne W hd l
              obtain ⟨a1, a2, a3⟩ := Ruined.keeps W2 hc2 r x l
              exact ⟨by rw [a1, fv_obj_other n2], a2, by rw [a3, fv_slot_other n2]⟩
      · simp only [FV.exec, Prog.bind_app, swap_ok v vd q le, Res.bind_ok]; rfl
  | store c i a =>
    obtain ⟨⟨s, hc⟩, hi, va⟩ := lg
    rw [vals_some hc] at hi
    have v := W.fv c s hc
    obtain ⟨x, w, e0, ev, g1, g2⟩ := arg_ok W va
    refine ⟨fv h c (s.set i w), ?_, ?_⟩
    · refine Points.call_seq e0 (seq_ret (f := fun _ => Ret.none) ((store_points v hi (g1 h (Heap.Sub.refl _))).imp ?_))
      rintro k t _ rfl
      exact left_same W (fun _ => id) (fun _ => id) rfl rfl
    · simp only [FV.exec, Prog.bind_app, e0, Res.bind_ok, store_ok v hi (g1 h (Heap.Sub.refl _))]; rfl

/-! ## Histories -/

/-- `XReach N dv S L h`: some client program, with exceptions at any points in any of its calls, ends in memory `h`; its fixed vectors hold the sequences `S`, except
those in `L`, which an exception has left with a hole, and the ones whose constructor an exception has left (also in `L`). The client does not use these any more. -/
inductive XReach (N : Nat) (dv : T) : State T → (Nat → Prop) → Mem T → Prop where
  | start : XReach N dv (fun _ => none) (fun _ => False) empty₀
  | returned {S : State T} {L : Nat → Prop} {h h' : Mem T} {k k' : Nat} {r : Ret} (q : Call T) : XReach N dv S L h → Legal S q →
      exec N dv q k h = .ok (.ret r k', h') → XReach N dv (spec N dv S h.fresh q) L h'
  | thrown {S : State T} {L : Nat → Prop} {h t : Mem T} {k : Nat} (q : Call T) : XReach N dv S L h → Legal S q →
      exec N dv q k h = .ok (.thrown, t) → XReach N dv (leftS S k q) (fun x => L x ∨ holed S k q x ∨ unborn h.fresh q x) t

theorem XReach.world (X : XReach N dv S L h) : WorldL N L h S := by
  induction X with
  | start => exact world_start
  | returned q _ lg e ih =>
    obtain ⟨h1, _, W, P⟩ := call_points (dv := dv) ih q lg
    rcases P.cases _ with ⟨_, g⟩ | ⟨_, t, g, _⟩
    · rw [e] at g; cases g; exact W
    · rw [e] at g; cases g
  | thrown q _ lg e ih =>
    obtain ⟨h1, _, W, P⟩ := call_points (dv := dv) ih q lg
    rcases P.cases _ with ⟨_, g⟩ | ⟨_, t, g, l⟩
    · rw [e] at g; cases g
    · rw [e] at g; cases g; exact l.world

/-- Programs in which nothing threw are among them. -/
theorem reach_xreach (R : Reach N dv S h) : XReach N dv S (fun _ => False) h := by
  induction R with
  | start => exact .start
  | step q R lg e ih =>
    obtain ⟨h1, e1, _, P⟩ := call_points (dv := dv) R.world q lg
    rw [e] at e1; cases e1
    exact .returned q ih lg (P.returns 0)

end Verif.Exc.XFv
