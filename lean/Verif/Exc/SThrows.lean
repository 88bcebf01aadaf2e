import Verif.Exc.SCover
/-!
# What an exception leaves behind in the members of `ttl::sorted_vector_map`
-/
set_option linter.unusedVariables false
set_option linter.unusedSectionVars false
set_option linter.unusedSimpArgs false
namespace Verif.Exc.XSM
open Verif Verif.Vec Verif.SVMap Verif.Exc
variable {K V : Type} {G : Gone} {h h' t : Mem K V} {S : State K V} {c d i : Nat} {s : SS K V} {bs : List Nat}

/-- Memory `t` is `h` with the blocks `bs` added. -/
structure Plus (h t : Mem K V) (bs : List Nat) : Prop where
  obj : t.obj = h.obj
  fresh : h.fresh ≤ t.fresh
  kept : ∀ b, b ∉ bs → t.size b = h.size b ∧ t.slot b = h.slot b
  new : ∀ b ∈ bs, h.fresh ≤ b ∧ b < t.fresh ∧ t.size b ≠ none

theorem Plus.refl (h : Mem K V) : Plus h h [] := ⟨rfl, Nat.le_refl _, fun _ _ => ⟨rfl, rfl⟩, fun b q => by cases q⟩

/-- `G` and the blocks `bs`. -/
def Gone.add (G : Gone) (bs : List Nat) : Gone := ⟨fun b => G.blk b ∨ b ∈ bs, G.obj⟩
/-- `G`, the object `c` and the blocks `bs`. -/
def Gone.lose (G : Gone) (c : Nat) (bs : List Nat) : Gone := ⟨fun b => G.blk b ∨ b ∈ bs, fun d => G.obj d ∨ d = c⟩

theorem IsSM.move (v : IsSM h c s) (ob : t.obj c = h.obj c) (fr : h.fresh ≤ t.fresh) (z : t.slot 0 = h.slot 0)
    (old : ∀ b, b < h.fresh → t.size b = h.size b) (own : ∀ b ∈ s.blocks, t.size b = h.size b ∧ t.slot b = h.slot b) : IsSM t c s := by
  have sb : t.slot s.blk = h.slot s.blk := by
    by_cases q : s.blk = 0
    · rw [q]; exact z
    · exact (own _ (blk_mem q)).2
  refine ⟨ob.trans v.obj, v.le, ?_, fun i e q => by rw [sb]; exact v.slots i e q, ?_, ?_, v.nodup⟩
  · rcases v.arr with q | ⟨q, q'⟩
    · exact .inl q
    · exact .inr ⟨q, by rw [(own _ (blk_mem q)).1]; exact q'⟩
  · intro i x l q
    rw [sb] at q
    obtain ⟨p, a, a', a''⟩ := v.tail i x l q
    exact ⟨p, a, by rw [old _ a'']; exact a', by omega⟩
  · intro e he
    obtain ⟨a, a'⟩ := own _ (node_mem he)
    rw [a, a']; exact v.node e he

/-- Blocks that appear without an owner disturb no map. -/
theorem _root_.Verif.SVMap.WorldG.plus (W : WorldG G h S) (p : Plus h t bs) : WorldG (Gone.add G bs) t S := by
  have old : ∀ b, b < h.fresh → b ∉ bs := fun b l q => by have := (p.new b q).1; omega
  refine ⟨?_, ?_, ?_, ?_, W.disj, ?_, ?_, ?_, ?_⟩
  · intro c s q
    have own := own_some q
    exact IsSM.move (W.sm c s q) (by rw [p.obj]) p.fresh (p.kept 0 (old 0 W.pos)).2 (fun b l => (p.kept b (old b l)).1)
      (fun b hb => p.kept b (old b (W.bound c b (by rw [own]; exact hb)).1))
  · intro c q g; rw [p.obj]; exact W.objG c q g
  · intro c s q; have := W.lt c s q; have := p.fresh; omega
  · intro b q g
    have g : ¬ (G.blk b ∨ b ∈ bs) := g
    obtain ⟨a, a'⟩ := p.kept b fun k => g (.inr k)
    rw [a, a']; exact W.ownG b q fun k => g (.inl k)
  · intro c b q; have z := W.bound c b q; have := p.fresh; exact ⟨by omega, z.2⟩
  · have := W.pos; have := p.fresh; omega
  · rintro b (g | g)
    · obtain ⟨l, z, a⟩ := W.goneB b g
      have := p.fresh
      exact ⟨by omega, z, a⟩
    · obtain ⟨l, l', _⟩ := p.new b g
      have := W.pos
      exact ⟨l', by omega, fun c q => by have := (W.bound c b q).1; omega⟩
  · intro c g
    obtain ⟨l, n⟩ := W.goneO c g
    have := p.fresh
    exact ⟨by omega, n⟩

/-- Memory `t` is `h` in the middle of an insertion before position `i` into the map `c` with state `s`: one more element is counted, the pointers
behind position `i` have been moved, and the one at position `i` has not been replaced. -/
structure Ruined (h t : Mem K V) (c : Nat) (s : SS K V) (i : Nat) : Prop where
  le : i ≤ s.nodes.length
  room : s.nodes.length < s.cap
  obj : t.obj = upd h.obj c (some ⟨⟨s.blk, 0⟩, ⟨s.blk, s.nodes.length + 1⟩, ⟨s.blk, s.cap⟩⟩)
  size : t.size = h.size
  fresh : t.fresh = h.fresh
  other : ∀ b, b ≠ s.blk → t.slot b = h.slot b
  out : ∀ j, j ≤ i ∨ s.nodes.length < j → t.slot s.blk j = h.slot s.blk j
  moved : ∀ j e, i ≤ j → s.nodes[j]? = some e → t.slot s.blk (j + 1) = some (.ptr ⟨e.1, 0⟩)

theorem _root_.Verif.SVMap.WorldG.ruined (W : WorldG G h S) (hc : S c = some s) (r : Ruined h t c s i) : WorldG (Gone.lose G c s.blocks) t (S.set c none) := by
  have v := W.sm c s hc
  have own := own_some hc
  have ne0 : s.blk ≠ 0 := by
    have := r.room
    rcases v.arr with ⟨_, z⟩ | z
    · omega
    · exact z.1
  have bs : s.blk ∈ S.own c := by rw [own]; exact blk_mem ne0
  have owno : ∀ d, d ≠ c → (S.set c none).own d = S.own d := fun d q => by simp only [State.own, set_other S q]
  have ownc : (S.set c none).own c = [] := own_none (set_same ..)
  have inn : ∀ d b, b ∈ (S.set c none).own d → d ≠ c ∧ b ∈ S.own d := by
    intro d b q
    by_cases e : d = c
    · subst e; rw [ownc] at q; cases q
    · rw [owno d e] at q; exact ⟨e, q⟩
  refine ⟨?_, ?_, ?_, ?_, ?_, ?_, ?_, ?_, ?_⟩
  · intro d u q
    by_cases e : d = c
    · subst e; rw [set_same] at q; cases q
    · rw [set_other S e] at q
      refine IsSM.move (W.sm d u q) (by rw [r.obj, upd_other _ _ e]) (Nat.le_of_eq r.fresh.symm) (r.other 0 (Ne.symm ne0)) (fun b _ => by rw [r.size]) fun b hb => ?_
      refine ⟨by rw [r.size], r.other b fun z => ?_⟩
      exact e (W.disj d c b (by rw [own_some q]; exact hb) (by rw [z]; exact bs))
  · intro d q g
    have g : ¬ (G.obj d ∨ d = c) := g
    have e : d ≠ c := fun k => g (.inr k)
    rw [set_other S e] at q
    rw [r.obj, upd_other _ _ e]; exact W.objG d q fun k => g (.inl k)
  · intro d u q
    by_cases e : d = c
    · subst e; rw [set_same] at q; cases q
    · rw [set_other S e] at q; rw [r.fresh]; exact W.lt d u q
  · intro b q g
    have g : ¬ (G.blk b ∨ b ∈ s.blocks) := g
    rw [r.size, r.other b fun z => g (.inr (by rw [z]; exact blk_mem ne0))]
    refine W.ownG b (fun d k => ?_) fun k => g (.inl k)
    by_cases e : d = c
    · subst e; rw [own] at k; exact g (.inr k)
    · exact q d (by rw [owno d e]; exact k)
  · intro d d' b q q'
    exact W.disj d d' b (inn d b q).2 (inn d' b q').2
  · intro d b q; rw [r.fresh]; exact W.bound d b (inn d b q).2
  · rw [r.fresh]; exact W.pos
  · rintro b (g | g)
    · obtain ⟨l, z, a⟩ := W.goneB b g
      exact ⟨by rw [r.fresh]; exact l, z, fun d q => a d (inn d b q).2⟩
    · have := W.bound c b (by rw [own]; exact g)
      refine ⟨by rw [r.fresh]; exact this.1, this.2, fun d q => ?_⟩
      obtain ⟨e, k⟩ := inn d b q
      exact e (W.disj d c b k (by rw [own]; exact g))
  · rintro d (g | rfl)
    · obtain ⟨l, n⟩ := W.goneO d g
      refine ⟨by rw [r.fresh]; exact l, ?_⟩
      by_cases e : d = c
      · subst e; exact set_same ..
      · rw [set_other S e]; exact n
    · exact ⟨by rw [r.fresh]; exact W.lt d s hc, set_same ..⟩

/-! ## `insert_before` -/

/-- The capacity of the new array. -/
abbrev grown (s : SS K V) : Nat := if s.cap + s.cap / 2 = 0 then 2 else s.cap + s.cap / 2

/-- The memory with a new array. -/
abbrev withArray (h : Mem K V) (n : Nat) : Mem K V := { h with size := upd h.size h.fresh (some n), slot := upd h.slot h.fresh fun _ => none, fresh := h.fresh + 1 }

/-- In a full map: the first pointers have been copied to the new array. -/
theorem full_half (W : WorldG G h S) (hc : S c = some s) (hi : i ≤ s.nodes.length) (cp : s.cap ≠ 1) (full : s.nodes.length = s.cap) :
    ∃ h2, copyPtrs ⟨s.blk, 0⟩ ⟨s.blk, i⟩ ⟨h.fresh, 0⟩ (withArray h (grown s)) = .ok (⟨h.fresh, i⟩, h2) ∧ Plus h h2 [h.fresh] := by
  have v := W.sm c s hc
  have hb : s.blk < h.fresh := by
    by_cases z : s.blk = 0
    · rw [z]; exact W.pos
    · exact (W.bound c s.blk (by rw [own_some hc]; exact blk_mem z)).1
  have ne : h.fresh ≠ s.blk := by omega
  have pl : (ptrs (s.nodes.take i)).length = i := by rw [ptrs_length, List.length_take]; omega
  obtain ⟨h2, e2, w2⟩ := copyPtrs_ok (n := s.cap) (m := grown s) ne (ptrs (s.nodes.take i)) 0 0 (withArray h (grown s))
    (fun q => by
      refine ⟨?_, by omega⟩
      show upd h.size h.fresh _ s.blk = _
      rw [upd_other _ _ (Ne.symm ne)]
      have : 0 < s.nodes.length := by
        rcases Nat.eq_zero_or_pos i with z | z
        · subst z; simp [ptrs] at q
        · omega
      exact (v.array this).2)
    (fun k p q => by
      obtain ⟨x, hx, rfl⟩ := ptrs_get q
      show upd h.slot h.fresh _ s.blk (0 + k) = _
      rw [upd_other _ _ (Ne.symm ne), Nat.zero_add]
      refine v.slots k x ?_
      rw [List.getElem?_take] at hx
      split at hx
      · exact hx
      · cases hx)
    (upd_same ..) (by rw [pl]; have := v.le; show _ ≤ (if s.cap + s.cap / 2 = 0 then 2 else s.cap + s.cap / 2); split <;> omega)
  rw [pl, Nat.zero_add] at e2
  refine ⟨h2, e2, w2.obj, by rw [w2.fresh]; exact Nat.le_succ _, fun b q => ?_, fun b q => ?_⟩
  · have q : b ≠ h.fresh := by simpa using q
    rw [w2.size, w2.other b q]
    exact ⟨upd_other _ _ q, upd_other _ _ q⟩
  · have q : b = h.fresh := by simpa using q
    subst q
    rw [w2.fresh, w2.size]
    exact ⟨Nat.le_refl _, Nat.lt_succ_self _, by show upd h.size h.fresh _ h.fresh ≠ none; rw [upd_same]; simp⟩

/-- In a map that is not full: the last pointers have been moved. -/
theorem room_half (W : WorldG G h S) (hc : S c = some s) (hi : i ≤ s.nodes.length) (room : s.nodes.length < s.cap) :
    ∃ t, shiftPtrs ⟨s.blk, s.nodes.length⟩ ⟨s.blk, i⟩ ⟨s.blk, s.nodes.length + 1⟩ (h.setObj c ⟨⟨s.blk, 0⟩, ⟨s.blk, s.nodes.length + 1⟩, ⟨s.blk, s.cap⟩⟩) = .ok (⟨s.blk, i⟩, t) ∧
      Ruined h t c s i := by
  have v := W.sm c s hc
  have sz : h.size s.blk = some s.cap := by
    rcases v.arr with ⟨_, z⟩ | z
    · omega
    · exact z.2
  have dl : (ptrs (s.nodes.drop i)).length = s.nodes.length - i := by rw [ptrs_length, List.length_drop]
  obtain ⟨h2, e2, w2⟩ := shiftPtrs_ok (b := s.blk) i (ptrs (s.nodes.drop i)) (h.setObj c ⟨⟨s.blk, 0⟩, ⟨s.blk, s.nodes.length + 1⟩, ⟨s.blk, s.cap⟩⟩) sz (by omega) (fun k p q => by
    obtain ⟨x, hx, rfl⟩ := ptrs_get q
    rw [List.getElem?_drop] at hx
    exact v.slots _ _ hx)
  rw [show i + (ptrs (s.nodes.drop i)).length = s.nodes.length by omega] at e2
  refine ⟨h2, e2, hi, room, w2.obj, w2.size, w2.fresh, fun b q => w2.other b q, fun j q => ?_, fun j x l hx => ?_⟩
  · rw [w2.out j (by omega)]; rfl
  · have := w2.inn (j - i) ⟨x.1, 0⟩ (ptrs_of (by rw [List.getElem?_drop, show i + (j - i) = j by omega]; exact hx))
    rwa [show i + 1 + (j - i) = j + 1 by omega] at this

theorem throws_insertBefore (W : WorldG G h S) (hc : S c = some s) (hi : i ≤ s.nodes.length) (cp : s.cap ≠ 1) (e : K × V) :
    Throws (insertBefore c ⟨s.blk, i⟩ e) h fun t => t = h ∨ (s.nodes.length = s.cap ∧ Plus h t [h.fresh]) ∨ Ruined h t c s i := by
  have v := W.sm c s hc
  refine throws_call_bind (a := _) (s' := h) (getObj_eq v.obj) ?_
  refine throws_call_bind (a := s.cap - s.nodes.length) (s' := h) (diff_eq s.blk v.le) ?_
  refine throws_ite (fun full => ?_) fun room => ?_
  · have full : s.nodes.length = s.cap := by have := v.le; omega
    refine throws_call_bind (a := s.cap) (s' := h) (by rw [diff_eq s.blk (Nat.zero_le _)]; rfl) ?_
    refine throws_bind (throws_point_call (.inl rfl)) fun k a k' h1 e1 => ?_
    have e1 := point_call_ret e1
    simp only [SVMap.newArray, alloc] at e1
    cases e1
    obtain ⟨h2, e2, pl⟩ := full_half W hc hi cp full
    refine throws_call_bind (a := _) (s' := h2) e2 ?_
    exact throws_bind (throws_point_call (.inr (.inl ⟨full, pl⟩))) fun _ _ _ _ _ => throws_call_any fun _ _ _ => throws_call_any fun _ _ _ => throws_call_any fun _ _ _ =>
      throws_call_any fun _ _ _ => throws_call_any fun _ _ _ => throws_pure
  · have room : s.nodes.length < s.cap := by omega
    refine throws_call_bind (a := ()) (s' := h.setObj c ⟨⟨s.blk, 0⟩, ⟨s.blk, s.nodes.length + 1⟩, ⟨s.blk, s.cap⟩⟩) (setObj_eq v.obj) ?_
    obtain ⟨t, e2, ru⟩ := room_half W hc hi room
    refine throws_call_bind (a := _) (s' := t) e2 ?_
    exact throws_bind (throws_point_call (.inr (.inr ru))) fun _ _ _ _ _ => throws_call_any fun _ _ _ => throws_pure

/-- The second point of an insertion into a full map: the new array is lost. -/
theorem insertBefore_full (W : WorldG G h S) (hc : S c = some s) (hi : i ≤ s.nodes.length) (cp : s.cap ≠ 1) (full : s.nodes.length = s.cap) (e : K × V) :
    ∃ t, insertBefore c ⟨s.blk, i⟩ e 1 h = .ok (.thrown, t) ∧ Plus h t [h.fresh] := by
  have v := W.sm c s hc
  obtain ⟨h2, e2, pl⟩ := full_half W hc hi cp full
  refine ⟨h2, ?_, pl⟩
  have sub : s.cap - s.nodes.length < 1 := by omega
  have na : newArray (if s.cap + s.cap / 2 = 0 then 2 else s.cap + s.cap / 2) (0 + 1) h = .ok (.ret ⟨h.fresh, 0⟩ 0, withArray h (grown s)) := rfl
  have np : newPair e 0 h2 = .ok (.thrown, h2) := rfl
  have d0 : diff (⟨s.blk, s.cap⟩ : Ptr) ⟨s.blk, 0⟩ h = .ok (s.cap, h) := by rw [diff_eq s.blk (Nat.zero_le _)]; rfl
  simp only [insertBefore, Thr.bind_app, Thr.call_app, getObj_eq v.obj, Res.bind_ok, Thr.after_ret, diff_eq s.blk v.le, Thr.ite_app, if_pos sub, d0]
  rw [show (1 : Nat) = 0 + 1 from rfl]
  simp only [na, Res.bind_ok, Thr.after_ret, Thr.bind_app, Thr.call_app, e2, np, Thr.after_thrown]

/-- The point of an insertion into a map that is not full. -/
theorem insertBefore_room (W : WorldG G h S) (hc : S c = some s) (hi : i ≤ s.nodes.length) (room : s.nodes.length < s.cap) (e : K × V) :
    ∃ t, insertBefore c ⟨s.blk, i⟩ e 0 h = .ok (.thrown, t) ∧ Ruined h t c s i := by
  have v := W.sm c s hc
  obtain ⟨t, e2, ru⟩ := room_half W hc hi room
  refine ⟨t, ?_, ru⟩
  have np : newPair e 0 t = .ok (.thrown, t) := rfl
  have sub : ¬ s.cap - s.nodes.length < 1 := by omega
  simp only [insertBefore, Thr.bind_app, Thr.call_app, getObj_eq v.obj, Res.bind_ok, Thr.after_ret, diff_eq s.blk v.le, Thr.ite_app, if_neg sub, setObj_eq v.obj, ptr_add, e2, np, Thr.after_thrown]

section
variable [DecidableEq K] {lt : K → K → Bool}

/-- What an exception in an insertion of the key `k` leaves. -/
def InsLeft (lt : K → K → Bool) (h t : Mem K V) (c : Nat) (s : SS K V) (k : K) : Prop :=
  t = h ∨ hit k s.vals (search lt k s.vals).1 = false ∧ ((s.nodes.length = s.cap ∧ Plus h t [h.fresh]) ∨ Ruined h t c s (search lt k s.vals).1)

theorem throws_point_bind {σ α : Type} {x : Thr σ α} {s : σ} {P : σ → Prop} (h : P s) (X : Throws x s P) : Throws (do Thr.point; x) s P :=
  throws_bind (throws_point h) fun _ _ _ _ e => by rw [point_ret e]; exact X

theorem throws_insertMade {c : Nat} {pos : Ptr} {e : K × V} {P : Mem K V → Prop} (q : Throws (insertBefore c pos e) h fun t => t = h ∨ P t) :
    Throws (insertMade c pos e) h fun t => t = h ∨ P t :=
  throws_point_bind (.inl rfl) (throws_point_bind (.inl rfl) (throws_point_bind (.inl rfl) (throws_point_bind (.inl rfl) (throws_point_bind (.inl rfl)
    (throws_point_bind (.inl rfl) q)))))

theorem throws_insertAt (W : WorldG G h S) (hc : S c = some s) (cp : s.cap ≠ 1) (k : K) (e : K × V) {α : Type} (f x : Ptr → Thr (Mem K V) α) (ins : Ptr → Thr (Mem K V) Ptr)
    (hi : ∀ i, Throws (insertBefore c i e) h (fun t => t = h ∨ (s.nodes.length = s.cap ∧ Plus h t [h.fresh]) ∨ Ruined h t c s (search lt k s.vals).1) →
      Throws (ins i) h (fun t => t = h ∨ (s.nodes.length = s.cap ∧ Plus h t [h.fresh]) ∨ Ruined h t c s (search lt k s.vals).1))
    (hf : ∀ p s P, Throws (f p) s P) (hx : ∀ p s P, Throws (x p) s P) :
    Throws (do
      let i ← findInsertPos lt c k
      let l ← Thr.call (end_ c)
      if i ≠ l then do
        let y ← Thr.call (deref i)
        let b ← same y.1 k
        if b then x i
        else do
          let p ← ins i
          f p
      else do
        let p ← ins i
        f p) h fun t => InsLeft lt h t c s k := by
  have v := W.sm c s hc
  refine throws_bind ((quiet_findInsertPos lt c k).throws (.inl rfl)) fun _ i _ h1 e1 => ?_
  obtain ⟨rfl, rfl⟩ := (covers_findInsertPos lt c k).ret (findInsertPos_any v k) e1
  refine throws_call_bind (a := _) (s' := h1) (end_ok v) ?_
  have le := (search_in (lt := lt) k s.vals).1
  have step : hit k s.vals (search lt k s.vals).1 = false → Throws (do
        let p ← ins ⟨s.blk, (search lt k s.vals).1⟩
        f p) h1 fun t => InsLeft lt h1 t c s k := fun g =>
    throws_bind ((hi _ (throws_insertBefore W hc (by rw [← vals_length]; exact le) cp e)).imp fun t q => by
      rcases q with q | q
      · exact .inl q
      · exact .inr ⟨g, q⟩) fun _ _ _ _ _ => hf _ _ _
  refine throws_ite (fun ne => ?_) fun eq => ?_
  · have l : (search lt k s.vals).1 < s.vals.length := by
      rw [vals_length] at le ⊢
      refine Nat.lt_of_le_of_ne le fun q => ne (by rw [q])
    have hy : s.vals[(search lt k s.vals).1]? = some s.vals[(search lt k s.vals).1] := List.getElem?_eq_getElem l
    refine throws_call_bind (a := _) (s' := h1) (v.deref hy) ?_
    refine throws_bind ((quiet_same _ _).throws (.inl rfl)) fun _ b _ h2 e2 => ?_
    have q2 : Covers (same s.vals[(search lt k s.vals).1].1 k : Thr (Mem K V) Bool) (pure (decide (s.vals[(search lt k s.vals).1].1 = k))) := (covers_pure _).point
    obtain ⟨rfl, rfl⟩ := q2.ret rfl e2
    refine throws_ite (fun _ => hx _ _ _) fun n => step ?_
    simpa [hit, hy] using n
  · refine step ?_
    have q : (search lt k s.vals).1 = s.vals.length := by
      have : (⟨s.blk, (search lt k s.vals).1⟩ : Ptr) = ⟨s.blk, s.nodes.length⟩ := Decidable.not_not.1 eq
      rw [vals_length]; exact (Ptr.mk.inj this).2
    simp [hit, q]

theorem throws_insert (W : WorldG G h S) (hc : S c = some s) (cp : s.cap ≠ 1) (e : K × V) : Throws (insert lt c e) h fun t => InsLeft lt h t c s e.1 :=
  throws_insertAt W hc cp e.1 e (fun p => pure (p, true)) (fun i => pure (i, false)) (fun i => insertBefore c i e) (fun _ q => q) (fun _ _ _ => throws_pure) (fun _ _ _ => throws_pure)

theorem throws_index (W : WorldG G h S) (hc : S c = some s) (cp : s.cap ≠ 1) (dv : V) (k : K) : Throws (index lt dv c k) h fun t => InsLeft lt h t c s k :=
  throws_insertAt W hc cp k (k, dv) (fun p => Thr.call (rdPtr p)) (fun p => Thr.call (rdPtr p)) (fun i => insertMade c i (k, dv)) (fun _ q => throws_insertMade q) (fun _ _ _ => throws_call) (fun _ _ _ => throws_call)
end

/-! ## The constructors -/

/-- The copy constructor has copied `j` pairs; its object is `h.fresh`, the array the next block, the pairs the blocks after it. -/
structure Copied (h u : Mem K V) (cap j : Nat) : Prop where
  obj : u.obj = upd h.obj h.fresh (some ⟨⟨h.fresh + 1, 0⟩, ⟨h.fresh + 1, j⟩, ⟨h.fresh + 1, cap⟩⟩)
  fresh : u.fresh = h.fresh + 2 + j
  kept : ∀ b, b ≤ h.fresh ∨ h.fresh + 2 + j ≤ b → u.size b = h.size b ∧ u.slot b = h.slot b
  arr : u.size (h.fresh + 1) = some cap
  pairs : ∀ b, h.fresh + 2 ≤ b → b < h.fresh + 2 + j → u.size b ≠ none

theorem Copied.drop {u : Mem K V} {cap j : Nat} (C : Copied h u cap j) (n : h.obj h.fresh = none) :
    ∃ t, dropObj h.fresh u = .ok ((), t) ∧ Plus h t (List.range' (h.fresh + 1) (j + 1)) := by
  refine ⟨{ u with obj := upd u.obj h.fresh none }, by simp only [dropObj, C.obj, upd_same], ?_⟩
  refine ⟨?_, by show _ ≤ u.fresh; rw [C.fresh]; omega, fun b q => ?_, fun b q => ?_⟩
  · show upd u.obj h.fresh none = _
    rw [C.obj, upd_upd, ← n, upd_self]
  · rw [List.mem_range'_1] at q
    exact C.kept b (by omega)
  · rw [List.mem_range'_1] at q
    refine ⟨by omega, by show b < u.fresh; rw [C.fresh]; omega, ?_⟩
    show u.size b ≠ none
    by_cases z : b = h.fresh + 1
    · subst z; rw [C.arr]; simp
    · exact C.pairs b (by omega) (by omega)

theorem Copied.map (C : Copied h t s.cap i) (W : WorldG G h S) (hd : S d = some s) : IsSM t d s := by
  have v := W.sm d s hd
  have l := W.lt d s hd
  refine IsSM.move v (by rw [C.obj, upd_other _ _ (by omega)]) (by rw [C.fresh]; omega) (C.kept 0 (.inl (Nat.zero_le _))).2 (fun b l => (C.kept b (.inl (by omega))).1) fun b hb => ?_
  have := (W.bound d b (by rw [own_some hd]; exact hb)).1
  exact C.kept b (.inl (by omega))

theorem Copied.step {u : Mem K V} {cap j : Nat} (C : Copied h u cap j) (l : j < cap) (e : K × V) :
    ∃ w, (∀ (f : Thr (Mem K V) Unit) (k : Nat), (do
        let r ← Thr.call (getObj h.fresh)
        Thr.call (setObj h.fresh { r with last := r.last + 1 })
        Thr.call (wrPtr r.last ⟨u.fresh, 0⟩)
        f : Thr (Mem K V) Unit) k (mk1 u e) = f k w) ∧
      (∀ (f : Thr (Mem K V) Unit) (P : Mem K V → Prop), Throws f w P → Throws (do
        let r ← Thr.call (getObj h.fresh)
        Thr.call (setObj h.fresh { r with last := r.last + 1 })
        Thr.call (wrPtr r.last ⟨u.fresh, 0⟩)
        f : Thr (Mem K V) Unit) (mk1 u e) P) ∧ Copied h w cap (j + 1) := by
  have o1 : (mk1 u e).obj h.fresh = some ⟨⟨h.fresh + 1, 0⟩, ⟨h.fresh + 1, j⟩, ⟨h.fresh + 1, cap⟩⟩ := by
    show u.obj h.fresh = _; rw [C.obj, upd_same]
  have s2 : ((mk1 u e).setObj h.fresh ⟨⟨h.fresh + 1, 0⟩, ⟨h.fresh + 1, j + 1⟩, ⟨h.fresh + 1, cap⟩⟩).size (h.fresh + 1) = some cap := by
    show upd u.size u.fresh _ _ = _
    rw [upd_other _ _ (by rw [C.fresh]; omega)]; exact C.arr
  obtain ⟨w, ew, ww⟩ := wrPtr_ok (b := h.fresh + 1) (j := j) s2 l ⟨u.fresh, 0⟩
  refine ⟨w, fun f k => ?_, fun f P X => ?_, ?_⟩
  · simp only [Thr.bind_app, Thr.call_app, getObj_eq o1, Res.bind_ok, Thr.after_ret, setObj_eq o1, ptr_add, ew]
  · refine throws_call_bind (a := _) (s' := mk1 u e) (getObj_eq o1) ?_
    refine throws_call_bind (a := ()) (s' := _) (setObj_eq o1) ?_
    exact throws_call_bind (a := ()) (s' := w) ew X
  · refine ⟨?_, ?_, fun b q => ?_, ?_, fun b q q' => ?_⟩
    · rw [ww.obj]; show upd u.obj h.fresh _ = _; rw [C.obj, upd_upd]
    · rw [ww.fresh]; show u.fresh + 1 = _; rw [C.fresh]; omega
    · rw [ww.size, ww.other b (by omega)]
      have nb : b ≠ u.fresh := by rw [C.fresh]; omega
      show upd u.size u.fresh _ b = _ ∧ upd u.slot u.fresh _ b = _
      rw [upd_other _ _ nb, upd_other _ _ nb]
      exact C.kept b (by omega)
    · rw [ww.size]; exact s2
    · rw [ww.size]
      show upd u.size u.fresh _ b ≠ none
      by_cases z : b = u.fresh
      · subst z; rw [upd_same]; simp
      · rw [upd_other _ _ z]; rw [C.fresh] at z; exact C.pairs b q (by omega)

theorem throws_copyLoop (W : WorldG G h S) (hd : S d = some s) : ∀ (n i : Nat) (u : Mem K V), i + n = s.nodes.length → Copied h u s.cap i →
    Throws (copyLoop h.fresh ⟨s.blk, i⟩ ⟨s.blk, s.nodes.length⟩) u fun w => ∃ j, j < s.nodes.length ∧ Copied h w s.cap j
  | 0, i, u, q, C => by
    rw [copyLoop, if_neg (by simp; omega)]; exact throws_pure
  | n + 1, i, u, q, C => by
    have v := W.sm d s hd
    have l := W.lt d s hd
    have il : i < s.nodes.length := by omega
    have own := own_some hd
    have vu : IsSM u d s := by
      refine IsSM.move v (by rw [C.obj, upd_other _ _ (by omega)]) (by rw [C.fresh]; omega) (C.kept 0 (.inl (Nat.zero_le _))).2 (fun b l => (C.kept b (.inl (by omega))).1) fun b hb => ?_
      have := (W.bound d b (by rw [own]; exact hb)).1
      exact C.kept b (.inl (by omega))
    have hz : s.nodes[i]? = some s.nodes[i] := List.getElem?_eq_getElem il
    obtain ⟨r1, r2⟩ := vu.rd hz
    rw [copyLoop, if_pos (by simp; omega)]
    refine throws_call_bind (a := _) (s' := u) r1 (throws_call_bind (a := _) (s' := u) r2 ?_)
    refine throws_bind (throws_point_call ⟨i, il, C⟩) fun _ p _ h1 e1 => ?_
    have e1 := point_call_ret e1
    rw [newPair_ok] at e1
    cases e1
    obtain ⟨w, _, X, C'⟩ := C.step (by have := v.le; omega) s.nodes[i].2
    exact X _ _ (throws_copyLoop W hd n (i + 1) w (by omega) C')

/-- An exception at point `k` of the loop comes after `k` pairs. -/
theorem copyLoop_thrown (W : WorldG G h S) (hd : S d = some s) : ∀ (k i : Nat) (u : Mem K V), i + k < s.nodes.length → Copied h u s.cap i →
    ∃ w, copyLoop h.fresh ⟨s.blk, i⟩ ⟨s.blk, s.nodes.length⟩ k u = .ok (.thrown, w) ∧ Copied h w s.cap (i + k) := by
  intro k
  induction k with
  | zero =>
    intro i u q C
    have il : i < s.nodes.length := by omega
    obtain ⟨r1, r2⟩ := (C.map W hd).rd (List.getElem?_eq_getElem il)
    have np : newPair s.nodes[i].2 0 u = .ok (.thrown, u) := rfl
    refine ⟨u, ?_, C⟩
    rw [copyLoop, if_pos (by simp; omega)]
    simp only [Thr.bind_app, Thr.call_app, r1, Res.bind_ok, Thr.after_ret, r2, np, Thr.after_thrown]
  | succ k ih =>
    intro i u q C
    have il : i < s.nodes.length := by omega
    obtain ⟨r1, r2⟩ := (C.map W hd).rd (List.getElem?_eq_getElem il)
    have np : newPair s.nodes[i].2 (k + 1) u = .ok (.ret ⟨u.fresh, 0⟩ k, mk1 u s.nodes[i].2) := by
      simp only [newPair, Thr.bind_app, Thr.point_succ, Res.bind_ok, Thr.after_ret, Thr.call_app, newPair_ok]
    obtain ⟨w, X, _, C'⟩ := C.step (by have := (W.sm d s hd).le; omega) s.nodes[i].2
    obtain ⟨w', e', C''⟩ := ih (i + 1) w (by omega) C'
    refine ⟨w', ?_, by rw [show i + (k + 1) = i + 1 + k by omega]; exact C''⟩
    rw [copyLoop, if_pos (by simp; omega), ← e', ← X (copyLoop h.fresh ⟨s.blk, i + 1⟩ ⟨s.blk, s.nodes.length⟩) k]
    simp only [Thr.bind_app, Thr.call_app, r1, Res.bind_ok, Thr.after_ret, r2, np, ptr_add]

/-- The memory in which the body of a constructor starts. -/
def started (h : Mem K V) : Mem K V := { h with obj := upd h.obj h.fresh (some ⟨Ptr.null, Ptr.null, Ptr.null⟩), fresh := h.fresh + 1 }

theorem started_drop (n : h.obj h.fresh = none) : ∃ t, dropObj h.fresh (started h) = .ok ((), t) ∧ Plus h t [] := by
  refine ⟨{ started h with obj := upd (started h).obj h.fresh none }, by simp only [dropObj, started, upd_same], ?_⟩
  refine ⟨?_, Nat.le_succ _, fun b _ => ⟨rfl, rfl⟩, fun b q => by cases q⟩
  show upd (upd h.obj h.fresh _) h.fresh none = _
  rw [upd_upd, ← n, upd_self]

theorem throws_copyBody (W : WorldG G h S) (hd : S d = some s) :
    Throws (copyBody h.fresh d) (started h) fun w => w = started h ∨ ∃ j, j < s.nodes.length ∧ Copied h w s.cap j := by
  have v := W.sm d s hd
  have l := W.lt d s hd
  have o : (started h).obj d = some ⟨⟨s.blk, 0⟩, ⟨s.blk, s.nodes.length⟩, ⟨s.blk, s.cap⟩⟩ := by
    show upd h.obj h.fresh _ d = _; rw [upd_other _ _ (by omega)]; exact v.obj
  refine throws_call_bind (a := _) (s' := started h) (getObj_eq o) ?_
  refine throws_call_bind (a := s.cap) (s' := started h) (by rw [diff_eq s.blk (Nat.zero_le _)]; rfl) ?_
  refine throws_bind (throws_point_call (.inl rfl)) fun _ a _ h1 e1 => ?_
  have e1 := point_call_ret e1
  simp only [SVMap.newArray, alloc] at e1
  cases e1
  have o1 : upd h.obj h.fresh (some (⟨Ptr.null, Ptr.null, Ptr.null⟩ : Rec)) h.fresh = some ⟨Ptr.null, Ptr.null, Ptr.null⟩ := upd_same ..
  refine throws_call_any fun a1 h2 e2 => ?_
  simp only [setObj, started, o1] at e2
  cases e2
  refine (throws_copyLoop W hd s.nodes.length 0 _ (Nat.zero_add _) ?_).imp fun t q => .inr q
  refine ⟨?_, rfl, fun b q => ?_, upd_same .., fun b q q' => by omega⟩
  · show upd (upd h.obj h.fresh _) h.fresh _ = _
    rw [upd_upd]; simp
  · have : b ≠ h.fresh + 1 := by omega
    exact ⟨upd_other _ _ this, upd_other _ _ this⟩

theorem prog_ok_bind {σ α β : Type} {p : Prog σ α} {k : α → Prog σ β} {s : σ} {y : β × σ} (e : (p >>= k) s = .ok y) : ∃ a s1, p s = .ok (a, s1) ∧ k a s1 = .ok y := by
  rw [Prog.bind_app] at e
  cases g : p s with
  | ok z => rw [g] at e; exact ⟨z.1, z.2, rfl, e⟩
  | ub f => rw [g] at e; cases e
  | diverge => rw [g] at e; cases e

theorem copyOf_body (d : Nat) : (SVMap.copyOf d : Prog (Mem K V) Nat) = (do
    let c ← newObj ⟨Ptr.null, Ptr.null, Ptr.null⟩
    (do
      let o ← getObj d
      let prealloc ← diff o.eoe o.elements
      let a ← SVMap.newArray prealloc
      setObj c ⟨a, a, a + prealloc⟩
      SVMap.copyLoop c o.elements o.last)
    return c) := by
  simp only [SVMap.copyOf, bind_assoc]

theorem copyOf_points (W : WorldG G h S) (hd : S d = some s) (e : SVMap.copyOf d h = .ok (c, h')) :
    ∃ n, Points (copyOf d) h n c h' fun _ t => Plus h t [] ∨ ∃ j, j < s.nodes.length ∧ Plus h t (List.range' (h.fresh + 1) (j + 1)) := by
  have fn := (W.fresh_none (Nat.le_refl _)).2.1
  rw [copyOf_body] at e
  rw [Prog.bind_app, show (newObj ⟨Ptr.null, Ptr.null, Ptr.null⟩ : Prog (Mem K V) Nat) h = .ok (h.fresh, started h) from rfl, Res.bind_ok] at e
  obtain ⟨⟨⟩, h1, e1, e2⟩ := prog_ok_bind e
  cases e2
  have cv : Covers (copyBody h.fresh d : Thr (Mem K V) Unit) (do
      let o ← getObj d
      let prealloc ← diff o.eoe o.elements
      let a ← SVMap.newArray prealloc
      setObj h.fresh ⟨a, a, a + prealloc⟩
      SVMap.copyLoop h.fresh o.elements o.last) :=
    (covers_call _).bind fun o => (covers_call _).bind fun m => (covers_newArray _).bind fun a => (covers_call _).bind fun _ => covers_copyLoop _ _ _
  obtain ⟨n, X⟩ := cv.points e1 (throws_copyBody W hd)
  refine ⟨n, ?_⟩
  refine Points.call_seq (a := h.fresh) (s' := started h) rfl ?_
  refine Points.seq (m := 0) (a := ()) (s' := h') (unwinding_points X fun k t _ q => ?_) Points.pure_
  rcases q with rfl | ⟨j, l, C⟩
  · obtain ⟨t', a, b⟩ := started_drop fn; exact ⟨t', a, .inl b⟩
  · obtain ⟨t', a, b⟩ := C.drop fn; exact ⟨t', a, .inr ⟨j, l, b⟩⟩

/-- An exception at point `k` of the copy constructor loses `k` blocks. -/
theorem copyOf_thrown (W : WorldG G h S) (hd : S d = some s) {k : Nat} (l : k ≤ s.nodes.length) :
    ∃ t, copyOf d k h = .ok (.thrown, t) ∧ Plus h t (List.range' (h.fresh + 1) k) := by
  have fn := (W.fresh_none (Nat.le_refl _)).2.1
  have v := W.sm d s hd
  have ld := W.lt d s hd
  have o : (started h).obj d = some ⟨⟨s.blk, 0⟩, ⟨s.blk, s.nodes.length⟩, ⟨s.blk, s.cap⟩⟩ := by
    show upd h.obj h.fresh _ d = _; rw [upd_other _ _ (by omega)]; exact v.obj
  have no : (newObj ⟨Ptr.null, Ptr.null, Ptr.null⟩ : Prog (Mem K V) Nat) h = .ok (h.fresh, started h) := rfl
  have d0 : diff (⟨s.blk, s.cap⟩ : Ptr) ⟨s.blk, 0⟩ (started h) = .ok (s.cap, started h) := by rw [diff_eq s.blk (Nat.zero_le _)]; rfl
  suffices ∃ w t, copyBody h.fresh d k (started h) = .ok (.thrown, w) ∧ dropObj h.fresh w = .ok ((), t) ∧ Plus h t (List.range' (h.fresh + 1) k) by
    obtain ⟨w, t, e1, e2, p⟩ := this
    refine ⟨t, ?_, p⟩
    simp only [copyOf, Thr.bind_app, Thr.call_app, no, Res.bind_ok, Thr.after_ret, Thr.unwinding, e1, e2, Thr.after_thrown]
  cases k with
  | zero =>
    obtain ⟨t, e, p⟩ := started_drop fn
    refine ⟨started h, t, ?_, e, p⟩
    have na : newArray s.cap 0 (started h) = .ok (.thrown, started h) := rfl
    simp only [copyBody, Thr.bind_app, Thr.call_app, getObj_eq o, Res.bind_ok, Thr.after_ret, d0, na, Thr.after_thrown]
  | succ k =>
    have na : newArray s.cap (k + 1) (started h) = .ok (.ret ⟨h.fresh + 1, 0⟩ k, withArray (started h) s.cap) := rfl
    have o1 : (withArray (started h) s.cap).obj h.fresh = some ⟨Ptr.null, Ptr.null, Ptr.null⟩ := upd_same ..
    have C : Copied h ((withArray (started h) s.cap).setObj h.fresh ⟨⟨h.fresh + 1, 0⟩, ⟨h.fresh + 1, 0⟩, ⟨h.fresh + 1, s.cap⟩⟩) s.cap 0 := by
      refine ⟨?_, rfl, fun b q => ?_, upd_same .., fun b q q' => by omega⟩
      · show upd (upd h.obj h.fresh _) h.fresh _ = _
        rw [upd_upd]
      · have : b ≠ h.fresh + 1 := by omega
        exact ⟨upd_other _ _ this, upd_other _ _ this⟩
    obtain ⟨w, e, C'⟩ := copyLoop_thrown W hd k 0 _ (by omega) C
    rw [Nat.zero_add] at C'
    obtain ⟨t, e', p⟩ := C'.drop fn
    refine ⟨w, t, ?_, e', p⟩
    simp only [copyBody, Thr.bind_app, Thr.call_app, getObj_eq o, Res.bind_ok, Thr.after_ret, d0, na, setObj_eq o1, ptr_add, Nat.zero_add, e]

theorem ctor_points (W : WorldG G h S) (m : Nat) (e : SVMap.ctor m h = .ok (c, h')) : Points (ctor m) h 1 c h' fun _ t => Plus h t [] := by
  have fn := (W.fresh_none (Nat.le_refl _)).2.1
  refine Points.call_seq (a := h.fresh) (s' := started h) rfl ?_
  rw [SVMap.ctor, Prog.bind_app, show (newObj ⟨Ptr.null, Ptr.null, Ptr.null⟩ : Prog (Mem K V) Nat) h = .ok (h.fresh, started h) from rfl, Res.bind_ok] at e
  obtain ⟨a, h1, e1, e2⟩ := prog_ok_bind e
  obtain ⟨⟨⟩, h2, e2, e3⟩ := prog_ok_bind e2
  cases e3
  refine Points.seq (n := 1) (m := 0) (a := a) (s' := h1) (unwinding_points (P := fun _ t => t = started h) (Points.seq (n := 1) (m := 0) (a := ()) (s' := started h) (Points.point_ rfl) (Points.call_ e1)) fun k t _ q => ?_) ?_
  · subst q; exact started_drop fn
  · exact Points.call_seq (a := ()) (s' := h') e2 Points.pure_

end Verif.Exc.XSM
