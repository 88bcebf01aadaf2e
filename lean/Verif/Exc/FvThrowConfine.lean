import Verif.Exc.VecThrowConfine
import Verif.Exc.FvConfine
import Verif.Exc.FvProps
/-!
# C162 for `ttl::fixed_vector`
-/
set_option linter.unusedVariables false
set_option linter.unusedSimpArgs false
namespace Verif.Exc.XFv
open Verif Verif.Vec.FV Verif.Exc
open Verif.Vec hiding CArg CSrc Call Legal Mem Reach Ret State World appendOne arg_ok assign assignN assignRange at_ at_ok back back_ok begin_ begin_ok capacity capacity_ok clear clear_ok copies_val copyAll copyAll_ok copyOf create ctor ctorN ctorRange destroy empty empty_ok empty₀ end_ end_ok equal erase eraseRange eraseRange_end exec front insert insertN insertRange insertValues notEqual popBack popBack_ok pushAll pushBack put_exists put_other put_put put_same put_self resize resizeX retOf shrinkTo shrinkTo_ok size size_ok spec src_ok step_ok store sub_made swap swap_ok toList vals_some world_start
open Verif.Exc.XVec (without Framed FramedT Lost SameIn framed_pure framed_getObj framed_setObj framed_read framed_write framed_less framed_diff framed_destroyBack
  framed_destroyDown framed_get framed_deref framed_next framedT_pure framedT_call framedT_point framedT_ite framedT_adm1 framedT_adm2 framedT_construct framedT_shiftUp
  framedT_shiftDown construct shiftUp shiftDown)
variable {T ρ α β : Type}

theorem framedT_appendOne (c : Nat) (v : T) : FramedT (appendOne c v : Thr (FV.Mem T) Unit) :=
  (framedT_call (framed_getObj _)).bind fun _ => (framedT_call (framed_setObj _ _)).bind fun _ => framedT_construct _ _
theorem framedT_fill (N c : Nat) : ∀ (n : Nat) (s : Src T), FramedT (fill N c n s : Thr (FV.Mem T) Unit)
  | 0, _ => framedT_pure _
  | n + 1, s => (framedT_call (framed_full N c)).bind fun _ => framedT_ite (framedT_pure _) ((framedT_call (framed_next s)).bind fun a =>
      (framedT_appendOne _ _).bind fun _ => framedT_fill N c n _)
theorem framedT_copyFull (N c d : Nat) (i : Ptr) : FramedT (copyFull N c d i : Thr (FV.Mem T) Unit) := by
  refine copyFull.fixpoint_induct (T := T) N c d (motive := fun f => ∀ a, FramedT (f a)) framedT_adm1 (fun f ih i => ?_) i
  exact (framedT_call (framed_end d)).bind fun _ => framedT_ite (framedT_pure _) ((framedT_call (framed_full N c)).bind fun _ => framedT_ite (framedT_pure _)
    ((framedT_call (framed_read _)).bind fun _ => (framedT_appendOne _ _).bind fun _ => ih _))
theorem framedT_copyAll (c d : Nat) (i : Ptr) : FramedT (copyAll c d i : Thr (FV.Mem T) Unit) := by
  refine copyAll.fixpoint_induct (T := T) c d (motive := fun f => ∀ a, FramedT (f a)) framedT_adm1 (fun f ih i => ?_) i
  exact (framedT_call (framed_end d)).bind fun _ => framedT_ite (framedT_pure _)
    ((framedT_call (framed_read _)).bind fun _ => (framedT_appendOne _ _).bind fun _ => ih _)
theorem framedT_fillTo (e : Ptr) : ∀ (n : Nat) (s : Src T) (o : Ptr), FramedT (fillTo e n s o : Thr (FV.Mem T) Unit)
  | 0, _, _ => framedT_pure _
  | n + 1, s, o => (framedT_call (framed_less o e)).bind fun _ => framedT_ite ((framedT_call (framed_next s)).bind fun a =>
      (framedT_construct _ _).bind fun _ => framedT_fillTo e n _ _) (framedT_pure _)
theorem framedT_insertValues (N c : Nat) (pos : Ptr) (n : Nat) (s : Src T) : FramedT (insertValues N c pos n s : Thr (FV.Mem T) Ptr) := by
  have tl : ∀ (b : Ptr) (dist : Nat), FramedT (do let b ← Thr.call (begin_ c); return b + dist : Thr (FV.Mem T) Ptr) := fun _ dist =>
    (framedT_call (framed_begin c)).bind fun _ => framedT_pure _
  refine (framedT_call (framed_begin c)).bind fun b => (framedT_call (framed_diff _ _)).bind fun dist => ?_
  dsimp only
  refine framedT_ite ((framedT_call (framed_end c)).bind fun e => (framedT_call (framed_less _ _)).bind fun _ => framedT_ite ?_ ((framedT_fill _ _ _ _).bind fun _ => tl b dist)) (tl b dist)
  exact (framedT_call (framed_getObj _)).bind fun l => (framedT_call (framed_dropTail _ _ _ _)).bind fun x => (framedT_call (framed_less _ _)).bind fun _ =>
    (framedT_call (framed_setObj _ _)).bind fun _ => (framedT_shiftUp _ _ _).bind fun _ => (framedT_fillTo _ _ _ _).bind fun _ => tl b dist
theorem framedT_pushBack (N c : Nat) (x : Arg T) : FramedT (pushBack N c x : Thr (FV.Mem T) Unit) :=
  (framedT_call (framed_full N c)).bind fun _ => framedT_ite (framedT_pure _) ((framedT_call (framed_get x)).bind fun _ => framedT_appendOne _ _)
theorem framedT_pushAll (N c : Nat) : ∀ (n : Nat) (s : Src T), FramedT (pushAll N c n s : Thr (FV.Mem T) Unit)
  | 0, _ => framedT_pure _
  | n + 1, s => (framedT_call (framed_full N c)).bind fun _ => framedT_ite (framedT_pure _) ((framedT_call (framed_deref s)).bind fun a =>
      (framedT_pushBack _ _ _).bind fun _ => framedT_pushAll N c n _)
theorem framedT_resize (N : Nat) (dv : T) (c n : Nat) : FramedT (resize N dv c n : Thr (FV.Mem T) Unit) :=
  (framedT_call (framed_size c)).bind fun _ => framedT_ite (framedT_call (framed_shrinkTo _ _)) ((framedT_call (framed_end c)).bind fun _ =>
    (framedT_call (framed_size c)).bind fun _ => framedT_point.bind fun _ => (framedT_insertValues _ _ _ _ _).bind fun _ => framedT_pure _)
theorem framedT_resizeX (N : Nat) (dv : T) (c n : Nat) (x : Arg T) : FramedT (resizeX N dv c n x : Thr (FV.Mem T) Unit) :=
  (framedT_call (framed_size c)).bind fun _ => framedT_ite (framedT_resize _ _ _ _) ((framedT_call (framed_end c)).bind fun _ =>
    (framedT_call (framed_size c)).bind fun _ => (framedT_insertValues _ _ _ _ _).bind fun _ => framedT_pure _)
theorem framedT_eraseRange (c : Nat) (f l : Ptr) : FramedT (eraseRange c f l : Thr (FV.Mem T) Ptr) :=
  (framedT_call (framed_begin c)).bind fun _ => (framedT_call (framed_diff _ _)).bind fun _ => (framedT_call (framed_begin c)).bind fun _ =>
    (framedT_call (framed_diff _ _)).bind fun _ => (framedT_call (framed_destroyBack _ _)).bind fun _ => (framedT_call (framed_getObj _)).bind fun _ =>
    (framedT_shiftDown _ _ _).bind fun _ => (framedT_call (framed_setObj _ _)).bind fun _ => (framedT_call (framed_begin c)).bind fun _ => framedT_pure _
theorem framedT_swapRanges (i last o : Ptr) : FramedT (swapRanges i last o : Thr (Heap ρ T) Ptr) := by
  refine swapRanges.fixpoint_induct (T := T) (ρ := ρ) last (motive := fun f => ∀ a b, FramedT (f a b)) framedT_adm2 (fun f ih i o => ?_) i o
  exact framedT_ite (framedT_pure _) ((framedT_call (framed_read _)).bind fun _ => framedT_point.bind fun _ => (framedT_call (framed_read _)).bind fun _ =>
    framedT_point.bind fun _ => (framedT_call (framed_write _ _)).bind fun _ => framedT_point.bind fun _ => (framedT_call (framed_write _ _)).bind fun _ => ih _ _)
theorem framedT_moveTail (a b : Nat) (e : Ptr) : FramedT (moveTail a b e : Thr (FV.Mem T) Ptr) := by
  refine moveTail.fixpoint_induct (T := T) a b (motive := fun f => ∀ a, FramedT (f a)) framedT_adm1 (fun f ih i => ?_) e
  exact (framedT_call (framed_getObj _)).bind fun _ => (framedT_call (framed_less _ _)).bind fun _ => framedT_ite ((framedT_call (framed_read _)).bind fun _ =>
    (framedT_appendOne _ _).bind fun _ => ih _) (framedT_pure _)
theorem framedT_swap (c x : Nat) : FramedT (swap c x : Thr (FV.Mem T) Unit) :=
  (framedT_call (framed_size c)).bind fun _ => (framedT_call (framed_size x)).bind fun _ => (framedT_call (XVec.framed_ite (framed_size _) (framed_size _))).bind fun _ =>
    (framedT_swapRanges _ _ _).bind fun _ => (framedT_moveTail _ _ _).bind fun _ => framedT_call ((framed_setObj _ _).bind fun _ => (framed_getObj _).bind fun _ =>
      framed_destroyDown _ _)
theorem framedT_store (c i : Nat) (x : Arg T) : FramedT (store c i x : Thr (FV.Mem T) Unit) :=
  (framedT_call (framed_get x)).bind fun _ => (framedT_call (framed_at c i)).bind fun _ => framedT_point.bind fun _ => framedT_call (framed_write _ _)

/-- `Framed` where object and storage are lost together: the storage of a fixed vector is part of the object. -/
def FramedE (p : Prog (FV.Mem T) α) : Prop := ∀ (L : Lost) (h : FV.Mem T), L.Below h.fresh → L.blk = L.obj → ∀ r m, p (without h L) = .ok (r, m) →
  ∃ h', p h = .ok (r, h') ∧ without h' L = m ∧ h.fresh ≤ h'.fresh ∧ SameIn L h h'

theorem framedE {p : Prog (FV.Mem T) α} (f : Framed p) : FramedE p := fun L h b _ r m e => f.out L h b r m e
theorem FramedE.bind {p : Prog (FV.Mem T) α} {f : α → Prog (FV.Mem T) β} (hp : FramedE p) (hf : ∀ a, FramedE (f a)) : FramedE (p >>= f) := by
  intro L h hL le r m e
  simp only [Prog.bind_app] at e ⊢
  cases q : p (without h L) with
  | ub f => rw [q] at e; cases e
  | diverge => rw [q] at e; cases e
  | ok x =>
    rw [q] at e
    obtain ⟨h1, e1, e2, e3, e4⟩ := hp L h hL le x.1 x.2 q
    simp only [Res.bind_ok] at e
    rw [← e2] at e
    obtain ⟨h2, f1, f2, f3, f4⟩ := hf x.1 L h1 (hL.le e3) le r m e
    exact ⟨h2, by rw [e1]; exact f1, f2, Nat.le_trans e3 f3, e4.trans f4⟩

def FramedET (x : Thr (FV.Mem T) α) : Prop := ∀ k, FramedE (α := Out α) (x k)
theorem FramedT.e {x : Thr (FV.Mem T) α} (f : FramedT x) : FramedET x := fun k => framedE (f k)
theorem FramedET.bind {x : Thr (FV.Mem T) α} {f : α → Thr (FV.Mem T) β} (hx : FramedET x) (hf : ∀ a, FramedET (f a)) : FramedET (x >>= f) := fun k => by
  refine FramedE.bind (α := Out α) (β := Out β) (p := x k) (f := fun o h => Thr.after f (o, h)) (hx k) fun o => ?_
  cases o with
  | ret a k => exact hf a k
  | thrown => exact framedE (framed_pure (α := Out β) .thrown)
theorem framedET_unwinding {x : Thr (FV.Mem T) α} {p : Prog (FV.Mem T) Unit} (hx : FramedET x) (hp : FramedE p) : FramedET (Thr.unwinding x p) := fun k => by
  have := FramedE.bind (α := Out α) (β := Out α) (p := x k) (f := fun o => match o with
    | .ret a k' => pure (.ret a k')
    | .thrown => do p; pure .thrown) (hx k) fun o => by
      cases o with
      | ret a k => exact framedE (framed_pure _)
      | thrown => exact hp.bind fun _ => framedE (framed_pure _)
  intro L h hL le r m e
  have eq : ∀ h, Thr.unwinding x p k h = (Bind.bind (m := Prog (FV.Mem T)) (α := Out α) (β := Out α) (x k) fun o => match o with
    | .ret a k' => pure (.ret a k')
    | .thrown => do p; pure .thrown) h := by
    intro h
    show (x k h).bind _ = (x k h).bind _
    rcases x k h with _ | _ | ⟨⟨a, k'⟩ | _, s'⟩ <;> rfl
  rw [eq] at e ⊢
  exact this L h hL le r m e

theorem framedE_dropStore (c : Nat) : FramedE (dropStore c : Prog (FV.Mem T) Unit) := fun L h _ le r m e => framed_dropStore c L le h r m e

theorem framedET_exec (N : Nat) (dv : T) (q : Call T) : FramedET (exec N dv q) := by
  have fin : ∀ {α : Type} {x : Thr (FV.Mem T) α} {f : α → Ret}, FramedT x → FramedT (do let a ← x; return f a) := fun hx => hx.bind fun _ => framedT_pure _
  have made : ∀ {x : Nat → Thr (FV.Mem T) Unit}, (∀ c, FramedT (x c)) → FramedET (do
      let c ← (do let c ← Thr.call (newStore N); Thr.unwinding (x c) (dropStore c); return c : Thr (FV.Mem T) Nat)
      return FV.Ret.obj c) := fun hx =>
    ((FramedT.e (framedT_call (framed_newStore N))).bind fun c => (framedET_unwinding (FramedT.e (hx c)) (framedE_dropStore c)).bind fun _ =>
      FramedT.e (framedT_pure _)).bind fun _ => FramedT.e (framedT_pure _)
  have ins : ∀ (c i n : Nat) (s : Src T), FramedT (do let b ← Thr.call (begin_ c); let p ← insertValues N c (b + i) n s; return Ret.it p : Thr (FV.Mem T) Ret) :=
    fun c i n s => (framedT_call (framed_begin c)).bind fun _ => fin (framedT_insertValues _ _ _ _ _)
  have asg : ∀ c n (s : Src T), FramedT (assignValues N c n s) := fun c n s => (framedT_call (framed_clear c)).bind fun _ => framedT_fill _ _ _ _
  have oth : ∀ q : FV.Call T, FramedET (Thr.call (FV.exec N dv q)) := fun q k =>
    FramedE.bind (p := FV.exec N dv q) (fun L h b le r m e => framed_all N dv q L h b le r m e) fun a => framedE (framed_pure (α := Out FV.Ret) (.ret a k))
  cases q with
  | ctor n => exact made fun c => framedT_fill _ _ _ _
  | ctorN n a => exact (FramedT.e (framedT_call (framed_carg a))).bind fun _ => made fun c => framedT_fill _ _ _ _
  | copyOf d => exact made fun c => (framedT_call (framed_begin d)).bind fun _ => framedT_copyFull _ _ _ _
  | ctorRange r => exact (FramedT.e (framedT_call (framed_csrc r))).bind fun _ => made fun c => framedT_pushAll _ _ _ _
  | assign c d => exact FramedT.e (fin ((framedT_call (framed_clear c)).bind fun _ => (framedT_call (framed_begin d)).bind fun _ => framedT_copyAll _ _ _))
  | assignN c n a => exact FramedT.e ((framedT_call (framed_carg a)).bind fun _ => fin (asg _ _ _))
  | assignRange c r => exact FramedT.e ((framedT_call (framed_csrc r)).bind fun _ => fin (asg _ _ _))
  | resize c n => exact FramedT.e (fin (framedT_resize _ _ _ _))
  | resizeX c n a => exact FramedT.e ((framedT_call (framed_carg a)).bind fun _ => fin (framedT_resizeX _ _ _ _ _))
  | insert c i a => exact FramedT.e ((framedT_call (framed_carg a)).bind fun _ => ins _ _ _ _)
  | insertN c i n a => exact FramedT.e ((framedT_call (framed_carg a)).bind fun _ => ins _ _ _ _)
  | insertRange c i r => exact FramedT.e ((framedT_call (framed_csrc r)).bind fun _ => ins _ _ _ _)
  | pushBack c a => exact FramedT.e ((framedT_call (framed_carg a)).bind fun _ => fin (framedT_pushBack _ _ _))
  | erase c i => exact FramedT.e ((framedT_call (framed_begin c)).bind fun _ => fin (framedT_eraseRange _ _ _))
  | eraseRange c i j => exact FramedT.e ((framedT_call (framed_begin c)).bind fun _ => (framedT_call (framed_begin c)).bind fun _ => fin (framedT_eraseRange _ _ _))
  | swap c d => exact FramedT.e (fin (framedT_swap _ _))
  | store c i a => exact FramedT.e ((framedT_call (framed_carg a)).bind fun _ => fin (framedT_store _ _ _))
  | _ => exact oth _
end Verif.Exc.XFv

namespace Verif.Vec.FV
open Verif Verif.Vec Verif.Exc Verif.Exc.XFv
open Verif.Exc.XVec (without)
variable {T : Type}

theorem legal_exists {S : State T} {q : Call T} (lg : Legal S q) : ∀ c ∈ q.args, S.Exists c := by
  have a1 : ∀ a : CArg T, a.Valid S → ∀ c ∈ a.owner, S.Exists c := by
    intro a v c m
    cases a with
    | ext v => cases m
    | elem d i => simp only [CArg.owner, List.mem_singleton] at m; subst m; exact v.1
  have r1 : ∀ a : CSrc T, a.Valid S → ∀ c ∈ a.owner, S.Exists c := by
    intro a v c m
    cases a with
    | vals v => cases m
    | range d i j => simp only [CSrc.owner, List.mem_singleton] at m; subst m; exact v.1
  intro c m
  cases q <;> simp only [Call.args, List.mem_cons, List.not_mem_nil, or_false] at m
  case ctorN => exact a1 _ lg c m
  case copyOf => exact m ▸ lg
  case ctorRange => exact r1 _ lg c m
  case destroy => exact m ▸ lg
  case assign => rcases m with rfl | rfl <;> first | exact lg.1 | exact lg.2
  all_goals first
    | exact m ▸ lg
    | exact m ▸ lg.1
    | (rcases m with rfl | m
       · exact lg.1
       · first | exact m ▸ lg.2 | exact m ▸ lg.2.1 | exact a1 _ lg.2 c m | exact a1 _ lg.2.1 c m | exact a1 _ lg.2.2 c m | exact a1 _ lg.2.2.1 c m | exact r1 _ lg.2.1 c m | exact r1 _ lg.2.2.1 c m)

/-- The fixed vectors of `P` are a world of their own, whatever storage is lost. -/
theorem WorldL.part {N : Nat} {L : Nat → Prop} {h : Mem T} {S : State T} (W : WorldL N L h S) {P : Nat → Prop} (ex : ∀ c, P c → S.Exists c) :
    World N (h.part P P) (onlyState S P) := by
  refine ⟨fun c s q => ?_, fun c q _ => ?_, fun c l => ⟨?_, id⟩, fun c l => l.elim⟩
  · obtain ⟨n, q⟩ := onlyState_some q
    exact (W.fv c s q).part n
  · have n : ¬ P c := fun n => by
      obtain ⟨s, e⟩ := ex c n
      rw [onlyState_of n, e] at q; cases q
    simp [Heap.part, n]
  · have l : h.fresh ≤ c := l
    cases q : onlyState S P c with
    | none => rfl
    | some s => have := (onlyState_some q).2; rw [(W.fresh c l).1] at this; cases this

variable {N : Nat} {S : State T} {h : Mem T} {dv : T} {L : Nat → Prop}

/-- **C162, `ttl::fixed_vector`.** A call that returns or throws, at whatever point, accesses only the fixed vectors it names. -/
theorem throw_confined (X : XReach N dv S L h) (q : Call T) (lg : Legal S q) (k : Nat) :
    Confined (XFv.exec N dv q k) h (· ∈ q.args) (· ∈ q.args) := by
  have W := X.world
  have P := WorldL.part W (legal_exists lg)
  obtain ⟨h', _, _, Y⟩ := call_points (dv := dv) P q (legal_congr (fun c hc => onlyState_of hc) lg)
  have gone : ∀ c, h.fresh ≤ c → h.obj c = none ∧ h.size c = none ∧ ∀ i, h.slot c i = none := fun c l => W.only c (W.fresh c l).1 (W.fresh c l).2
  rcases Y.cases k with ⟨_, e⟩ | ⟨_, t, e, _⟩
  all_goals exact Confined.of_without (fun M b le => framedET_exec N dv q k M h b (le rfl)) (fun b l => ⟨(gone b l).2.1, by rw [lay_none]; funext i; exact (gone b l).2.2 i⟩) (fun c l => (gone c l).1) e

/-- **C162, `ttl::fixed_vector`, two calls.** If they name different fixed vectors, one finds its memory as if the other one, that returned or threw, had not
run. -/
theorem throws_apart (X : XReach N dv S L h) (q1 q2 : Call T) (l1 : Legal S q1) (d : ∀ c ∈ q1.args, c ∉ q2.args) :
    ∀ k o h', XFv.exec N dv q1 k h = .ok (o, h') → ∀ c ∈ q2.args, S.Exists c → h'.obj c = h.obj c ∧ h'.size c = h.size c ∧ h'.slot c = h.slot c := by
  have W := X.world
  intro k o h' e c hc ⟨s, hs⟩
  obtain ⟨r', m, h2, _, e2, _, f1, f2⟩ := throw_confined X q1 l1 k
  rw [e] at e2; cases e2
  have lt : c < h.fresh := Classical.byContradiction fun no => by
    have := (W.fresh c (Nat.le_of_not_lt no)).1
    rw [hs] at this; cases this
  have n : ¬ c ∈ q1.args := fun m => d c m hc
  exact ⟨f1 c lt n, f2 c lt n⟩

/-- The hypotheses are met: `c` holding 5, 6, 7 and 8 and `d` holding 1 and 2; `c.push_back(9)` throws, which ruins `c`, and the other call is
`d.push_back(d[0])`. -/
example : ∃ (S : State Nat) (h t : Mem Nat) (c d : Nat), XReach 6 0 S (fun _ => False) h ∧ Legal S (.pushBack c (.ext 9)) ∧ Legal S (.pushBack d (.elem d 0)) ∧
    (∀ x ∈ (Call.pushBack c (.ext 9) : FV.Call Nat).args, x ∉ (Call.pushBack d (.elem d 0) : FV.Call Nat).args) ∧
    XFv.exec 6 0 (.pushBack c (.ext 9)) 0 h = .ok (.thrown, t) ∧ Unusable t c := by
  obtain ⟨c, d, S, h, R, hc, hd, ne, oc, od⟩ := FVProps.demo
  have X := reach_xreach (dv := 0) R
  obtain ⟨t, e, u⟩ := push_back_throw_ruins X hc oc (by decide) 9
  refine ⟨S, h, t, c, d, X, ⟨hc, trivial⟩, ⟨hd, hd, ?_⟩, by simpa [Call.args, CArg.owner] using ne, e, u⟩
  rw [vals_some (FVProps.observed R hd od).1]; decide
end Verif.Vec.FV
