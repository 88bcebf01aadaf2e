import Verif.Exc.VecConfine
import Verif.Exc.VecProps
import Verif.Exc.ListFrame
/-!
# C162: also a call on vectors that throws accesses only the memory of the vectors it names

C159 for the model with exceptions: whichever allocation, copy or assignment of a call throws, and whatever calls threw before.
-/
set_option linter.unusedVariables false
set_option linter.unusedSimpArgs false
namespace Verif.Exc.XVec
open Verif Verif.Vec Verif.Exc
variable {T ρ α β : Type}

/-- `Framed` wherever an exception appears. -/
def FramedT (x : Thr (Heap ρ T) α) : Prop := ∀ k, Framed (α := Out α) (x k)

theorem framedT_pure (a : α) : FramedT (pure a : Thr (Heap ρ T) α) := fun k => framed_pure (α := Out α) (.ret a k)
theorem framedT_call {p : Prog (Heap ρ T) α} (hp : Framed p) : FramedT (Thr.call p) := fun k => hp.bind (fun a => framed_pure (α := Out α) (.ret a k))
theorem framedT_point : FramedT (Thr.point : Thr (Heap ρ T) Unit) := fun k => by
  cases k with
  | zero => exact framed_pure (α := Out Unit) .thrown
  | succ k => exact framed_pure (α := Out Unit) (.ret () k)
theorem FramedT.bind {x : Thr (Heap ρ T) α} {f : α → Thr (Heap ρ T) β} (hx : FramedT x) (hf : ∀ a, FramedT (f a)) : FramedT (x >>= f) := fun k => by
  refine Framed.bind (α := Out α) (β := Out β) (p := x k) (f := fun o h => Thr.after f (o, h)) (hx k) fun o => ?_
  cases o with
  | ret a k => exact hf a k
  | thrown => exact framed_pure (α := Out β) .thrown
theorem framedT_unwinding {x : Thr (Heap ρ T) α} {p : Prog (Heap ρ T) Unit} (hx : FramedT x) (hp : Framed p) : FramedT (Thr.unwinding x p) := fun k => by
  have := Framed.bind (α := Out α) (β := Out α) (p := x k) (f := fun o => match o with
    | .ret a k' => pure (.ret a k')
    | .thrown => do p; pure .thrown) (hx k) fun o => by
      cases o with
      | ret a k => exact framed_pure _
      | thrown => exact hp.bind fun _ => framed_pure _
  constructor
  intro L h hL r m e
  have eq : ∀ h, Thr.unwinding x p k h = (Bind.bind (m := Prog (Heap ρ T)) (α := Out α) (β := Out α) (x k) fun o => match o with
    | .ret a k' => pure (.ret a k')
    | .thrown => do p; pure .thrown) h := by
    intro h
    show (x k h).bind _ = (x k h).bind _
    rcases x k h with _ | _ | ⟨⟨a, k'⟩ | _, s'⟩ <;> rfl
  rw [eq] at e ⊢
  exact this.out L h hL r m e

theorem framedT_ite {c : Prop} [Decidable c] {p q : Thr (Heap ρ T) α} (hp : FramedT p) (hq : FramedT q) : FramedT (if c then p else q) := by
  split
  · exact hp
  · exact hq

section
open Lean.Order
open Verif.Exc.XSeq (thr_sup_le1 thr_sup_ok3 thr_sup_le3)
theorem framedT_adm1 {A : Type} : admissible (fun f : A → Thr (Heap ρ T) α => ∀ a, FramedT (f a)) := by
  intro c hc ih a k; constructor; intro L h hL r m e
  obtain ⟨f, hf, e'⟩ := thr_sup_ok1 hc e
  obtain ⟨h', q, rest⟩ := (ih f hf a k).out L h hL r m e'
  exact ⟨h', thr_sup_le1 hc hf q, rest⟩
theorem framedT_adm2 {A B : Type} : admissible (fun f : A → B → Thr (Heap ρ T) α => ∀ a b, FramedT (f a b)) := by
  intro c hc ih a b k; constructor; intro L h hL r m e
  obtain ⟨f, hf, e'⟩ := thr_sup_ok2 hc e
  obtain ⟨h', q, rest⟩ := (ih f hf a b k).out L h hL r m e'
  exact ⟨h', thr_sup_le2 hc hf q, rest⟩
end

macro "framedT" : tactic => `(tactic| repeat' (first
  | assumption
  | exact framedT_pure _ | exact framedT_point
  | apply FramedT.bind | apply framedT_ite | (apply framedT_unwinding; rotate_left; exact framed_dropObj _) | (apply framedT_call; framed2; done) | (intro a; try dsimp only)))

theorem framedT_alloc (n : Nat) : FramedT (alloc n : Thr (Heap ρ T) Ptr) := by unfold alloc; framedT
theorem framedT_construct (p : Ptr) (v : T) : FramedT (construct p v : Thr (Heap ρ T) Unit) := by unfold construct; framedT
theorem framedT_appendOne (c : Nat) (v : T) : FramedT (appendOne c v : Thr (Vec.Mem T) Unit) := by
  unfold appendOne; framedT
theorem framedT_fillBack (c : Nat) : ∀ (n : Nat) (s : Src T), FramedT (fillBack c n s : Thr (Vec.Mem T) Unit)
  | 0, _ => framedT_pure _
  | n + 1, s => (framedT_call (framed_next s)).bind fun a => (framedT_appendOne _ _).bind fun _ => framedT_fillBack c n _
theorem framedT_fillAt : ∀ (n : Nat) (s : Src T) (o : Ptr), FramedT (fillAt n s o : Thr (Heap ρ T) Ptr)
  | 0, _, _ => framedT_pure _
  | n + 1, s, o => (framedT_call (framed_next s)).bind fun a => (framedT_construct _ _).bind fun _ => framedT_fillAt n _ _
theorem framedT_copyAll (c d : Nat) (i : Ptr) : FramedT (copyAll c d i : Thr (Vec.Mem T) Unit) := by
  refine copyAll.fixpoint_induct (T := T) c d (motive := fun f => ∀ a, FramedT (f a)) framedT_adm1 (fun f ih i => ?_) i
  exact (framedT_call (framed_end d)).bind fun _ => framedT_ite (framedT_pure _) ((framedT_call (framed_read _)).bind fun _ =>
    (framedT_appendOne _ _).bind fun _ => ih _)
theorem framedT_copyTo (i last o : Ptr) : FramedT (copyTo i last o : Thr (Heap ρ T) Ptr) := by
  refine copyTo.fixpoint_induct (T := T) (ρ := ρ) last (motive := fun f => ∀ a b, FramedT (f a b)) framedT_adm2 (fun f ih i o => ?_) i o
  exact framedT_ite (framedT_pure _) ((framedT_call (framed_read _)).bind fun _ => (framedT_construct _ _).bind fun _ => ih _ _)
theorem framedT_shiftUp (i pos o : Ptr) : FramedT (shiftUp i pos o : Thr (Heap ρ T) Unit) := by
  refine shiftUp.fixpoint_induct (T := T) (ρ := ρ) pos (motive := fun f => ∀ a b, FramedT (f a b)) framedT_adm2 (fun f ih i o => ?_) i o
  exact framedT_ite (framedT_pure _) ((framedT_call (framed_dec _)).bind fun _ => (framedT_call (framed_dec _)).bind fun _ => (framedT_call (framed_read _)).bind fun _ =>
    (framedT_construct _ _).bind fun _ => (framedT_call (framed_destruct _)).bind fun _ => ih _ _)
theorem framedT_shiftDown (i last o : Ptr) : FramedT (shiftDown i last o : Thr (Heap ρ T) Ptr) := by
  refine shiftDown.fixpoint_induct (T := T) (ρ := ρ) last (motive := fun f => ∀ a b, FramedT (f a b)) framedT_adm2 (fun f ih i o => ?_) i o
  exact framedT_ite (framedT_pure _) ((framedT_call (framed_read _)).bind fun _ => (framedT_construct _ _).bind fun _ =>
    (framedT_call (framed_destruct _)).bind fun _ => ih _ _)

macro "framedT2" : tactic => `(tactic| repeat' (first
  | assumption
  | exact framedT_pure _ | exact framedT_point | exact framedT_alloc _ | exact framedT_construct _ _ | exact framedT_appendOne _ _ | exact framedT_fillBack _ _ _
  | exact framedT_fillAt _ _ _ | exact framedT_copyAll _ _ _ | exact framedT_copyTo _ _ _ | exact framedT_shiftUp _ _ _ | exact framedT_shiftDown _ _ _
  | exact framedT_call (framed_begin _) | exact framedT_call (framed_end _) | exact framedT_call (framed_size _) | exact framedT_call (framed_capacity _)
  | exact framedT_call (framed_at _ _) | exact framedT_call (framed_clear _) | exact framedT_call (framed_resize _ _ _)
  | exact framedT_call (framed_carg _) | exact framedT_call (framed_csrc _)
  | apply FramedT.bind | apply framedT_ite | (refine framedT_unwinding ?_ (framed_dropObj _)) | (apply framedT_call; framed2; done) | (intro a; try dsimp only)))

theorem framedT_reserve (c n : Nat) : FramedT (reserve c n : Thr (Vec.Mem T) Unit) := by unfold reserve; framedT2
theorem framedT_insertBody (c : Nat) (r : Rep) (pos : Ptr) (dist n : Nat) (s : Src T) : FramedT (insertBody c r pos dist n s : Thr (Vec.Mem T) Unit) := by
  unfold insertBody; framedT2
theorem framedT_insertValues (c : Nat) (pos : Ptr) (n : Nat) (s : Src T) : FramedT (insertValues c pos n s : Thr (Vec.Mem T) Ptr) := by
  unfold insertValues; framedT2
theorem framedT_pushBack (c : Nat) (x : Arg T) : FramedT (pushBack c x : Thr (Vec.Mem T) Unit) := by
  unfold pushBack; framedT2
theorem framedT_pushAll (c : Nat) : ∀ (n : Nat) (s : Src T), FramedT (pushAll c n s : Thr (Vec.Mem T) Unit)
  | 0, _ => framedT_pure _
  | n + 1, s => (framedT_call (framed_deref s)).bind fun a => (framedT_pushBack _ _).bind fun _ => framedT_pushAll c n _
theorem framedT_eraseRange (c : Nat) (f l : Ptr) : FramedT (eraseRange c f l : Thr (Vec.Mem T) Ptr) := by unfold eraseRange; framedT2

theorem framedT_ctorN (n : Nat) (value : Arg T) : FramedT (ctorN n value : Thr (Vec.Mem T) Nat) := by unfold ctorN createN Vec.create; framedT2
theorem framedT_copyOf (d : Nat) : FramedT (copyOf d : Thr (Vec.Mem T) Nat) := by unfold copyOf createN Vec.create; framedT2
theorem framedT_ctorRange (n : Nat) (s : Src T) : FramedT (ctorRange n s : Thr (Vec.Mem T) Nat) :=
  (framedT_call (framed_newObj _)).bind fun c => (framedT_unwinding ((framedT_reserve c n).bind fun _ => framedT_pushAll c n s) (framed_dropObj c)).bind fun _ => framedT_pure _
theorem framedT_assign (c d : Nat) : FramedT (assign c d : Thr (Vec.Mem T) Unit) :=
  (framedT_call (framed_clear c)).bind fun _ => (framedT_call (framed_capacity d)).bind fun _ => (framedT_reserve c _).bind fun _ =>
    (framedT_call (framed_begin d)).bind fun _ => framedT_copyAll _ _ _
theorem framedT_assignN (c n : Nat) (value : Arg T) : FramedT (assignN c n value : Thr (Vec.Mem T) Unit) :=
  (framedT_call (framed_clear c)).bind fun _ => (framedT_reserve c _).bind fun _ => framedT_fillBack _ _ _
theorem framedT_assignRange (c n : Nat) (s : Src T) : FramedT (assignRange c n s : Thr (Vec.Mem T) Unit) :=
  (framedT_call (framed_clear c)).bind fun _ => framedT_pushAll _ _ _
theorem framedT_resize (dv : T) (c n : Nat) : FramedT (resize dv c n : Thr (Vec.Mem T) Unit) :=
  (framedT_call (framed_size c)).bind fun _ => framedT_ite (framedT_call (framed_resize _ _ _)) ((framedT_call (framed_end c)).bind fun _ =>
    framedT_point.bind fun _ => (framedT_insertValues _ _ _ _).bind fun _ => framedT_pure _)
theorem framedT_resizeX (dv : T) (c n : Nat) (x : Arg T) : FramedT (resizeX dv c n x : Thr (Vec.Mem T) Unit) :=
  (framedT_call (framed_size c)).bind fun _ => framedT_ite (framedT_call (framed_resize _ _ _)) ((framedT_call (framed_end c)).bind fun _ =>
    (framedT_insertValues _ _ _ _).bind fun _ => framedT_pure _)
theorem framedT_store (c i : Nat) (x : Arg T) : FramedT (store c i x : Thr (Vec.Mem T) Unit) :=
  (framedT_call (framed_get x)).bind fun _ => (framedT_call (framed_at c i)).bind fun _ => framedT_point.bind fun _ => framedT_call (framed_write _ _)

theorem framedT_exec (dv : T) (q : Call T) : FramedT (exec dv q) := by
  have fin : ∀ {α : Type} {x : Thr (Vec.Mem T) α} {f : α → Ret}, FramedT x → FramedT (do let a ← x; return f a) := fun hx => hx.bind fun _ => framedT_pure _
  have ins : ∀ (c i n : Nat) (s : Src T), FramedT (do let b ← Thr.call (begin_ c); let p ← insertValues c (b + i) n s; return Ret.it p : Thr (Vec.Mem T) Ret) :=
    fun c i n s => (framedT_call (framed_begin c)).bind fun _ => fin (framedT_insertValues _ _ _ _)
  cases q with
  | ctor n => exact fin (framedT_ctorN _ _)
  | ctorN n a => exact (framedT_call (framed_carg a)).bind fun _ => fin (framedT_ctorN _ _)
  | copyOf d => exact fin (framedT_copyOf _)
  | ctorRange r => exact (framedT_call (framed_csrc r)).bind fun _ => fin (framedT_ctorRange _ _)
  | assign c d => exact fin (framedT_assign _ _)
  | assignN c n a => exact (framedT_call (framed_carg a)).bind fun _ => fin (framedT_assignN _ _ _)
  | assignRange c r => exact (framedT_call (framed_csrc r)).bind fun _ => fin (framedT_assignRange _ _ _)
  | resize c n => exact fin (framedT_resize _ _ _)
  | resizeX c n a => exact (framedT_call (framed_carg a)).bind fun _ => fin (framedT_resizeX _ _ _ _)
  | reserve c n => exact fin (framedT_reserve _ _)
  | insert c i a => exact (framedT_call (framed_carg a)).bind fun _ => ins _ _ _ _
  | insertN c i n a => exact (framedT_call (framed_carg a)).bind fun _ => ins _ _ _ _
  | insertRange c i r => exact (framedT_call (framed_csrc r)).bind fun _ => ins _ _ _ _
  | pushBack c a => exact (framedT_call (framed_carg a)).bind fun _ => fin (framedT_pushBack _ _)
  | erase c i => exact (framedT_call (framed_begin c)).bind fun _ => fin (framedT_eraseRange _ _ _)
  | eraseRange c i j => exact (framedT_call (framed_begin c)).bind fun _ => (framedT_call (framed_begin c)).bind fun _ => fin (framedT_eraseRange _ _ _)
  | store c i a => exact (framedT_call (framed_carg a)).bind fun _ => fin (framedT_store _ _ _)
  | _ => exact framedT_call (framed_exec dv _)
end Verif.Exc.XVec

namespace Verif.Vec
open Verif Verif.Exc Verif.Exc.XVec
variable {T ρ : Type}

theorem legal_exists {S : State T} {q : Call T} (lg : Legal S q) : ∀ c ∈ q.args, S.Exists c := by
  have a1 : ∀ a : CArg T, a.Valid S → ∀ c ∈ a.owner, S.Exists c := by
    intro a v c m
    cases a with
    | ext v => cases m
    | elem d i => simp only [CArg.owner, List.mem_singleton] at m; subst m; exact v.1
  have r1 : ∀ a : CSrc T, a.Valid S → ∀ c ∈ a.owner, S.Exists c := by
    intro a v c m
    cases a with
    | vals v => cases m
    | range d i j => simp only [CSrc.owner, List.mem_singleton] at m; subst m; exact v.1
  intro c m
  cases q <;> simp only [Call.args, List.mem_cons, List.not_mem_nil, or_false] at m
  case ctorN => exact a1 _ lg c m
  case copyOf => exact m ▸ lg
  case ctorRange => exact r1 _ lg c m
  case destroy => exact m ▸ lg
  case assign => rcases m with rfl | rfl <;> first | exact lg.1 | exact lg.2
  all_goals first
    | exact m ▸ lg
    | exact m ▸ lg.1
    | (rcases m with rfl | m
       · exact lg.1
       · first | exact m ▸ lg.2 | exact a1 _ lg.2 c m | exact a1 _ lg.2.1 c m | exact a1 _ lg.2.2 c m | exact a1 _ lg.2.2.1 c m | exact r1 _ lg.2.1 c m | exact r1 _ lg.2.2.1 c m)

/-- Lost blocks and objects belong to no vector. -/
theorem part_without {S : State T} {h : Mem T} {L : Lost} (W : Loose L h S) {N : Nat → Prop} (ex : ∀ c, N c → S.Exists c) :
    (without h L).part N (BlocksOf S N) = h.part N (BlocksOf S N) := by
  have o : ∀ c, N c → L.obj c = false := by
    intro c n
    obtain ⟨s, q⟩ := ex c n
    have := (W.world.vec c s q).obj
    cases l : L.obj c with
    | false => rfl
    | true => simp [without, l] at this
  have b : ∀ b, BlocksOf S N b → L.blk b = false := by
    rintro b ⟨z, c, n, ⟨s, q⟩, e⟩
    rw [get_some q] at e
    have := (W.world.vec c s q).blk (by rw [e]; exact z)
    rw [e] at this
    cases l : L.blk b with
    | false => rfl
    | true => simp [without, l] at this
  unfold Heap.part without
  congr 1
  · funext c
    by_cases n : N c
    · simp [n, o c n]
    · simp [n]
  · funext x
    by_cases n : BlocksOf S N x
    · simp [n, b x n]
    · simp [n]
  · funext x
    by_cases n : BlocksOf S N x
    · simp [n, b x n]
    · simp [n]

variable {S : State T} {h : Mem T} {dv : T}

/-- **C162.** A call that returns or throws, at whatever point, accesses only the objects and the blocks of the vectors it names. -/
theorem throw_confined (X : XReach dv S h) (q : Call T) (lg : Legal S q) (k : Nat) :
    Confined (XVec.exec dv q k) h (· ∈ q.args) (BlocksOf S (· ∈ q.args)) := by
  obtain ⟨L, W, _⟩ := X.fine
  have P := World.part W.world (· ∈ q.args)
  rw [part_without W (legal_exists lg)] at P
  have F : Fine (onlyState S (· ∈ q.args)) (h.part (· ∈ q.args) (BlocksOf S (· ∈ q.args))) :=
    ⟨.none, ⟨low_none _, rfl, by rw [without_none]; exact P⟩, .refl _⟩
  obtain ⟨n, h', Y, _⟩ := call_points (dv := dv) F q (legal_congr (fun c hc => onlyState_of hc) lg)
  have gone : ∀ b, h.fresh ≤ b → h.size b = none ∧ h.slot b = lay [] 0 [] := by
    intro b l
    have g := W.world.base.gone b l
    have f : L.blk b = false := by
      cases z : L.blk b with
      | false => rfl
      | true => exact absurd (W.low.blk b z) (Nat.not_lt_of_le l)
    simpa [without, f] using g
  have objs : ∀ c, h.fresh ≤ c → h.obj c = none := by
    intro b l
    have g := W.world.base.objs b l
    have f : L.obj b = false := by
      cases z : L.obj b with
      | false => rfl
      | true => exact absurd (W.low.obj b z) (Nat.not_lt_of_le l)
    simpa [without, f] using g
  rcases Y.cases k with ⟨_, e⟩ | ⟨_, t, e, _⟩
  all_goals exact Confined.of_framed (framedT_exec dv q k) gone objs e

/-- **C162, two calls.** If they name different vectors, one finds its vectors as if the other one, that returned or threw, had not run. -/
theorem throws_apart (X : XReach dv S h) (q1 q2 : Call T) (l1 : Legal S q1) (d : ∀ c ∈ q1.args, c ∉ q2.args) :
    (∀ b, BlocksOf S (· ∈ q1.args) b → ¬ BlocksOf S (· ∈ q2.args) b) ∧
    ∀ k o h', XVec.exec dv q1 k h = .ok (o, h') → (∀ c ∈ q2.args, S.Exists c → h'.obj c = h.obj c) ∧
      ∀ b, BlocksOf S (· ∈ q2.args) b → h'.size b = h.size b ∧ h'.slot b = h.slot b := by
  obtain ⟨L, W, _⟩ := X.fine
  have dj : ∀ b, BlocksOf S (· ∈ q1.args) b → ¬ BlocksOf S (· ∈ q2.args) b := fun b a => (W.world.apart d a).1
  refine ⟨dj, fun k o h' e => ?_⟩
  obtain ⟨r, m, h2, _, e2, _, f1, f2⟩ := throw_confined X q1 l1 k
  rw [e] at e2; cases e2
  refine ⟨fun c hc ⟨s, q⟩ => f1 c ?_ fun m => d c m hc, fun b hb => f2 b ?_ fun m => dj b m hb⟩
  · have := (W.world.vec c s q).obj
    refine Classical.byContradiction fun no => ?_
    rw [W.world.base.objs c (Nat.le_of_not_lt no)] at this; cases this
  · exact (W.world.apart (fun c n1 n2 => d c n2 n1) hb).2

/-- The hypotheses are met: `c` holding 5, 6, 7 and 8 and `d` holding 1 and 2; `c.erase(begin + 1)` throws, which ruins `c`, and the other call is
`d.push_back(d[0])`. -/
example : ∃ (S : State Nat) (h t : Mem Nat) (c d : Nat), XReach 0 S h ∧ Legal S (.erase c 1) ∧ Legal S (.pushBack d (.elem d 0)) ∧
    (∀ x ∈ (Call.erase c 1 : Call Nat).args, x ∉ (Call.pushBack d (.elem d 0) : Call Nat).args) ∧
    XVec.exec 0 (.erase c 1) 0 h = .ok (.thrown, t) ∧ destroy c t = .ub .lifetime := by
  obtain ⟨c, d, S, h, p, q, R, hc, hd, ne, oc, od, _⟩ := XVec.demo
  have sc := xshown R hc oc
  have sd := xshown R hd od
  obtain ⟨t, e, x, _⟩ := erase_throw_ruins (i := 1) R hc (by rw [vals_some sc.1]; simp)
  exact ⟨S, h, t, c, d, R, ⟨hc, by rw [vals_some sc.1]; simp⟩, ⟨hd, hd, by rw [vals_some sd.1]; simp⟩, by simpa [Call.args, CArg.owner] using ne, e, x⟩
end Verif.Vec
