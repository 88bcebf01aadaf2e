import Verif.Exc.SProps
/-!
# What exceptions break in `ttl::sorted_vector_map` (C130)

An exception in an insertion into a map that is not full leaves a map with one element too many: an element is there twice, and destroying the map is
undefined behaviour; or, if the new element was to become the last one, the last element does not exist, and iteration is undefined behaviour. An
exception in the copy constructor loses what has been copied; one in an insertion into a full map loses the new array.
-/
set_option linter.unusedVariables false
set_option linter.unusedSimpArgs false
set_option linter.unusedSectionVars false
namespace Verif.Exc.XSM
open Verif Verif.Vec Verif.SVMap Verif.SVMap.AnyProps Verif.Exc
variable {K V : Type} [DecidableEq K] {h h' t : Mem K V} {S : State K V} {c d i n : Nat} {s : SS K V} {lt : K → K → Bool} {dv : V} {vs ws : List (K × V)}
variable {ok : Nat → Prop} {L : List Nat} {N : Nat → Prop} {G : Gone} {P : List (K × V) → Prop} {k : SVMap.Call K V}

/-- From position `j` of the block `b` there are pointers to the pairs `ns`. -/
structure Slots (u : Mem K V) (b cap j : Nat) (ns : List (Nat × K × V)) : Prop where
  size : u.size b = some cap
  le : j + ns.length ≤ cap
  ptr : ∀ (k : Nat) x, ns[k]? = some x → u.slot b (j + k) = some (.ptr ⟨x.1, 0⟩)
  pair : ∀ x ∈ ns, u.size x.1 = some 1 ∧ u.slot x.1 = one x.2

theorem Slots.tail {u : Mem K V} {b cap j : Nat} {x : Nat × K × V} {ns : List (Nat × K × V)} (q : Slots u b cap j (x :: ns)) : Slots u b cap (j + 1) ns :=
  ⟨q.size, by have := q.le; simp only [List.length_cons] at this; omega,
    fun k y e => by have := q.ptr (k + 1) y (by simpa using e); rwa [show j + 1 + k = j + (k + 1) by omega], fun y hy => q.pair y (by simp [hy])⟩

theorem Slots.head {u : Mem K V} {b cap j : Nat} {x : Nat × K × V} {ns : List (Nat × K × V)} (q : Slots u b cap j (x :: ns)) : deref ⟨b, j⟩ u = .ok (x.2, u) := by
  have l := q.le
  simp only [List.length_cons] at l
  obtain ⟨a, a'⟩ := q.pair x (by simp)
  have e1 : rdPtr ⟨b, j⟩ u = .ok (⟨x.1, 0⟩, u) := rdPtr_eq (p := ⟨b, j⟩) q.size (by show j < cap; omega) (q.ptr 0 x rfl)
  have e2 : rdPair ⟨x.1, 0⟩ u = .ok (x.2, u) := rdPair_eq a a'
  simp only [deref, Prog.bind_app, e1, Res.bind_ok, e2]

theorem Slots.walk {u : Mem K V} {b cap : Nat} : ∀ {ns : List (Nat × K × V)} {j : Nat}, Slots u b cap j ns →
    SVMap.walk ⟨b, j⟩ ⟨b, j + ns.length⟩ u = .ok (ns.map (·.2), u)
  | [], j, q => by rw [SVMap.walk]; simp
  | x :: ns, j, q => by
    have ne : (⟨b, j⟩ : Ptr) ≠ ⟨b, j + (x :: ns).length⟩ := by simp
    have ih := q.tail.walk
    rw [show j + 1 + ns.length = j + (x :: ns).length by simp only [List.length_cons]; omega] at ih
    rw [SVMap.walk]
    simp only [Prog.ite_app, if_pos ne, Prog.bind_app, q.head, Res.bind_ok, next, ptr_add, ih, Prog.pure_app, List.map_cons]

/-- The walk meets a bad position. -/
theorem Slots.walk_ub {u : Mem K V} {b cap m : Nat} {f : Fault} : ∀ {ns : List (Nat × K × V)} {j : Nat}, Slots u b cap j ns → deref ⟨b, j + ns.length⟩ u = .ub f → j + ns.length < m →
    SVMap.walk ⟨b, j⟩ ⟨b, m⟩ u = .ub f
  | [], j, q, e, l => by
    have ne : (⟨b, j⟩ : Ptr) ≠ ⟨b, m⟩ := by simp only [List.length_nil] at l; simp; omega
    have e : deref ⟨b, j⟩ u = .ub f := e
    rw [SVMap.walk]
    simp only [Prog.ite_app, if_pos ne, Prog.bind_app, e]; rfl
  | x :: ns, j, q, e, l => by
    have ne : (⟨b, j⟩ : Ptr) ≠ ⟨b, m⟩ := by simp only [List.length_cons] at l; simp; omega
    have ih := q.tail.walk_ub (m := m) (by rw [show j + 1 + ns.length = j + (x :: ns).length by simp only [List.length_cons]; omega]; exact e) (by simp only [List.length_cons] at l; omega)
    rw [SVMap.walk]
    simp only [Prog.ite_app, if_pos ne, Prog.bind_app, q.head, Res.bind_ok, next, ptr_add, ih]; rfl

/-- The loop of the destructor up to a position. -/
theorem destroyLoop_prefix {b cap m : Nat} : ∀ (ns : List (Nat × K × V)) (j : Nat) (u : Mem K V), Slots u b cap j ns → (∀ x ∈ ns, x.1 ≠ 0) → (ns.map (·.1)).Nodup → b ∉ ns.map (·.1) →
    j + ns.length < m → destroyLoop ⟨b, j⟩ ⟨b, m⟩ u = destroyLoop ⟨b, j + ns.length⟩ ⟨b, m⟩ (delAll u (ns.map (·.1)))
  | [], j, u, q, z, nd, nb, l => by simp [delAll]
  | x :: ns, j, u, q, z, nd, nb, l => by
    have lc := q.le
    simp only [List.length_cons] at l lc
    simp only [List.map_cons, List.nodup_cons, List.mem_cons, not_or] at nd nb
    obtain ⟨a, a'⟩ := q.pair x (by simp)
    have e1 : rdPtr ⟨b, j⟩ u = .ok (⟨x.1, 0⟩, u) := rdPtr_eq (p := ⟨b, j⟩) q.size (by show j < cap; omega) (q.ptr 0 x rfl)
    have q' : Slots (del u x.1) b cap (j + 1) ns := by
      refine ⟨(upd_other _ _ nb.1).trans q.size, by omega, fun k y e => ?_, fun y hy => ?_⟩
      · show upd u.slot x.1 _ b _ = _
        rw [upd_other _ _ nb.1]; exact q.tail.ptr k y e
      · have : y.1 ≠ x.1 := fun e => nd.1 (by rw [← e]; exact List.mem_map_of_mem hy)
        show upd u.size x.1 none y.1 = _ ∧ upd u.slot x.1 _ y.1 = _
        rw [upd_other _ _ this, upd_other _ _ this]; exact q.pair y (by simp [hy])
    have ih := destroyLoop_prefix ns (j + 1) (del u x.1) q' (fun y hy => z y (by simp [hy])) nd.2 nb.2 (m := m) (by omega)
    have ne : (⟨b, j⟩ : Ptr) ≠ ⟨b, m⟩ := by simp; omega
    rw [destroyLoop]
    simp only [Prog.ite_app, if_pos ne, Prog.bind_app, e1, Res.bind_ok, deletePair_ok (z x (by simp)) a a', ptr_add, ih, List.map_cons, delAll, List.length_cons,
      show j + (ns.length + 1) = j + 1 + ns.length by omega]

section
variable (W : WorldG G h S) (hc : S c = some s) (r : Ruined h t c s i)
include W hc r

theorem Ruined.blk_ne : s.blk ≠ 0 := by
  have v := W.sm c s hc
  have := r.room
  rcases v.arr with ⟨_, z⟩ | z
  · omega
  · exact z.1

theorem Ruined.blk_size : t.size s.blk = some s.cap := by
  have v := W.sm c s hc
  have := r.room
  rw [r.size]
  rcases v.arr with ⟨_, z⟩ | z
  · omega
  · exact z.2

theorem Ruined.blk_ids : s.blk ∉ s.nodes.map (·.1) := by
  have nd := (W.sm c s hc).nodup
  simp only [SS.blocks, if_neg (r.blk_ne W hc), SS.ids, List.singleton_append, List.nodup_cons] at nd
  exact nd.1

theorem Ruined.pairs {x : Nat × K × V} (hx : x ∈ s.nodes) : t.size x.1 = some 1 ∧ t.slot x.1 = one x.2 := by
  obtain ⟨a, b, _⟩ := (W.sm c s hc).node x hx
  have ne : x.1 ≠ s.blk := fun e => r.blk_ids W hc (by rw [← e]; exact List.mem_map_of_mem hx)
  rw [r.size, r.other _ ne]; exact ⟨a, b⟩

/-- The elements before the position, and the one at it. -/
theorem Ruined.slots_take {j : Nat} (lj : j ≤ i + 1) (l : j ≤ s.nodes.length) : Slots t s.blk s.cap 0 (s.nodes.take j) := by
  have v := W.sm c s hc
  refine ⟨r.blk_size W hc, ?_, fun k x e => ?_, fun x hx => r.pairs W hc (List.mem_of_mem_take hx)⟩
  · rw [List.length_take]; have := r.room; omega
  · rw [List.getElem?_take] at e
    split at e
    · rename_i lt
      rw [Nat.zero_add, r.out k (.inl (by omega))]; exact v.slots k x e
    · cases e

/-- The elements from the position on, moved. -/
theorem Ruined.slots_drop : Slots t s.blk s.cap (i + 1) (s.nodes.drop i) := by
  refine ⟨r.blk_size W hc, ?_, fun k x e => ?_, fun x hx => r.pairs W hc (List.mem_of_mem_drop hx)⟩
  · rw [List.length_drop]; have := r.room; have := r.le; omega
  · rw [List.getElem?_drop] at e
    rw [show i + 1 + k = i + k + 1 by omega]; exact r.moved (i + k) x (by omega) e

theorem Ruined.obj_c : t.obj c = some ⟨⟨s.blk, 0⟩, ⟨s.blk, s.nodes.length + 1⟩, ⟨s.blk, s.cap⟩⟩ := by rw [r.obj, upd_same]

theorem Ruined.toList_dup (l : i < s.nodes.length) : toList c t = .ok (s.vals.take (i + 1) ++ s.vals.drop i, t) := by
  have o := r.obj_c W hc
  have q : Slots t s.blk s.cap 0 (s.nodes.take (i + 1) ++ s.nodes.drop i) := by
    have a := r.slots_take W hc (Nat.le_refl _) l
    have b := r.slots_drop W hc
    have la : (s.nodes.take (i + 1)).length = i + 1 := by rw [List.length_take]; omega
    refine ⟨a.size, ?_, fun k x e => ?_, fun x hx => ?_⟩
    · have := b.le; rw [List.length_append, la]; omega
    · rw [List.getElem?_append, la] at e
      split at e
      · exact a.ptr k x e
      · have := b.ptr (k - (i + 1)) x e
        rwa [show i + 1 + (k - (i + 1)) = 0 + k by omega] at this
    · rcases List.mem_append.1 hx with z | z
      · exact a.pair x z
      · exact b.pair x z
  have w := q.walk
  rw [show 0 + (s.nodes.take (i + 1) ++ s.nodes.drop i).length = s.nodes.length + 1 by rw [List.length_append, List.length_take, List.length_drop]; omega] at w
  simp only [SVMap.toList, SVMap.begin_, SVMap.end_, Prog.bind_app, getObj_eq o, Res.bind_ok, Prog.pure_app, w, SS.vals, List.map_append, List.map_take, List.map_drop]

theorem Ruined.destroy_ub (l : i < s.nodes.length) : destroy c t = .ub .access := by
  have v := W.sm c s hc
  have o := r.obj_c W hc
  have nb := r.blk_ids W hc
  have nd : (s.nodes.map (·.1)).Nodup := by
    have nd := v.nodup
    simp only [SS.blocks, if_neg (r.blk_ne W hc), SS.ids, List.singleton_append, List.nodup_cons] at nd
    exact nd.2
  have a := r.slots_take W hc (Nat.le_refl _) l
  have la : (s.nodes.take (i + 1)).length = i + 1 := by rw [List.length_take]; omega
  have sub : ∀ x, x ∈ (s.nodes.take (i + 1)).map (·.1) → x ∈ s.nodes.map (·.1) := by
    intro x q
    rw [List.mem_map] at q ⊢
    obtain ⟨y, hy, e⟩ := q
    exact ⟨y, List.mem_of_mem_take hy, e⟩
  have e1 := destroyLoop_prefix (m := s.nodes.length + 1) (s.nodes.take (i + 1)) 0 t a (fun x hx => (v.node x (List.mem_of_mem_take hx)).2.2)
    (by rw [List.map_take]; exact nd.sublist (List.take_sublist _ _)) (fun q => nb (sub _ q)) (by rw [la]; omega)
  rw [la, Nat.zero_add] at e1
  obtain ⟨_, _, b1, b2⟩ := delAll_spec ((s.nodes.take (i + 1)).map (·.1)) t
  obtain ⟨c1, c2⟩ := b1 s.blk fun q => nb (sub _ q)
  have hx : s.nodes[i]? = some s.nodes[i] := List.getElem?_eq_getElem l
  have rd : rdPtr ⟨s.blk, i + 1⟩ (delAll t ((s.nodes.take (i + 1)).map (·.1))) = .ok (⟨s.nodes[i].1, 0⟩, delAll t ((s.nodes.take (i + 1)).map (·.1))) :=
    rdPtr_eq (p := ⟨s.blk, i + 1⟩) (by rw [c1]; exact r.blk_size W hc) (by have := r.room; show i + 1 < s.cap; omega) (by
      show (delAll t _).slot s.blk (i + 1) = _
      rw [c2]; exact r.moved i _ (Nat.le_refl _) hx)
  have gone : (delAll t ((s.nodes.take (i + 1)).map (·.1))).size s.nodes[i].1 = none := by
    refine (b2 _ ?_).1
    rw [List.mem_map]
    exact ⟨s.nodes[i], List.mem_of_getElem? (i := i) (by rw [List.getElem?_take_of_lt (Nat.lt_succ_self _)]; exact hx), rfl⟩
  have z : s.nodes[i].1 ≠ 0 := (v.node _ (List.mem_of_getElem? hx)).2.2
  have np : (⟨s.nodes[i].1, 0⟩ : Ptr) ≠ Ptr.null := fun e => z (Ptr.mk.inj e).1
  have dl : deletePair ⟨s.nodes[i].1, 0⟩ (delAll t ((s.nodes.take (i + 1)).map (·.1))) = .ub .access := by
    simp only [deletePair, if_neg np, Prog.bind_app, destruct, inBlock, gone]; rfl
  have ne : (⟨s.blk, i + 1⟩ : Ptr) ≠ ⟨s.blk, s.nodes.length + 1⟩ := by simp; omega
  have e2 : destroyLoop ⟨s.blk, 0⟩ ⟨s.blk, s.nodes.length + 1⟩ t = .ub .access := by
    rw [e1, destroyLoop]
    simp only [Prog.ite_app, if_pos ne, Prog.bind_app, rd, Res.bind_ok, dl]; rfl
  simp only [SVMap.destroy, Prog.bind_app, getObj_eq o, Res.bind_ok, e2]; rfl

theorem Ruined.toList_ub (l : i = s.nodes.length) : ∃ f, toList c t = .ub f := by
  have v := W.sm c s hc
  have o := r.obj_c W hc
  have a := r.slots_take W hc (Nat.le_succ _ : i ≤ i + 1) (Nat.le_of_eq l)
  have la : (s.nodes.take i).length = i := by rw [List.length_take]; omega
  have bad : ∃ f, deref ⟨s.blk, i⟩ t = .ub f := by
    have sl : t.slot s.blk i = h.slot s.blk i := r.out i (.inl (Nat.le_refl _))
    have sz := r.blk_size W hc
    have lc : i < s.cap := by have := r.room; omega
    cases g : h.slot s.blk i with
    | none =>
      refine ⟨.lifetime, ?_⟩
      simp only [deref, rdPtr, Prog.bind_app, Vec.read, inBlock, sz, if_pos lc, sl, g]; rfl
    | some x =>
      obtain ⟨q, rfl, z, _⟩ := v.tail i x (Nat.le_of_eq l.symm) g
      have e1 : rdPtr ⟨s.blk, i⟩ t = .ok (q, t) := rdPtr_eq (p := ⟨s.blk, i⟩) sz lc (by show t.slot s.blk i = _; rw [sl, g])
      refine ⟨.access, ?_⟩
      simp only [deref, Prog.bind_app, e1, Res.bind_ok, rdPair, Vec.read, inBlock, r.size, z]; rfl
  obtain ⟨f, bad⟩ := bad
  refine ⟨f, ?_⟩
  have w := a.walk_ub (m := s.nodes.length + 1) (f := f) (by rw [la, Nat.zero_add]; exact bad) (by rw [la]; omega)
  simp only [SVMap.toList, SVMap.begin_, SVMap.end_, Prog.bind_app, getObj_eq o, Res.bind_ok, Prog.pure_app, w]
  try rfl
end

/-- **C130, the ruined map.** If the size of a map changes although the call throws, it has grown by one. Let `i` be the position of `lower_bound` of the key that
was to be inserted. If an element is there, iteration shows that element twice, and destroying the map is undefined behaviour (the pair is deleted twice);
if `i` is the end, iteration is undefined behaviour. -/
theorem ruined_map (X : XRuns ok lt dv L N h) (ft : Fits ok lt L h k) (e : exec lt dv k n h = .ok (.thrown, t)) (hc : c ∈ L) (ns : ¬ SameSize h t c) (o : Lists h c vs) :
    size c t = .ok (vs.length + 1, t) ∧ ∃ key p, ∃ i : Nat, target k = some (c, key) ∧ begin_ c h = .ok (p, h) ∧ SVMap.lowerBound lt c key h = .ok (p + i, h) ∧ i ≤ vs.length ∧
      (i < vs.length → toList c t = .ok (vs.take (i + 1) ++ vs.drop i, t) ∧ destroy c t = .ub .access) ∧
      (i = vs.length → ∃ f, toList c t = .ub f) := by
  obtain ⟨G, S, I, g⟩ := X.inv stable_true
  obtain ⟨m, r, h2, S', Y, _, I'⟩ := call_points (dv := dv) stable_true I k ft
  rcases Y.cases n with ⟨_, q⟩ | ⟨_, u, q, l⟩
  · rw [e] at q; cases q
  · rw [e] at q; cases q
    rcases l.cases with ⟨bs, _, _, p⟩ | ⟨d, key, s, tg, hd, ru⟩
    · exact absurd (plus_same I p hc) ns
    · have : c = d := by
        by_cases ne : c = d
        · exact ne
        · exact absurd (ruined_same I hd ru hc ne) ns
      subst this
      have v := I.world.sm c s hd
      have := (isSM_lists v).inj o
      subst this
      have le := ru.le
      have lo : SVMap.lowerBound lt c key h = .ok (Ptr.mk s.blk 0 + (search lt key s.vals).1, h) := by
        rw [SVMap.lowerBound, findInsertPos_any v, ptr_add, Nat.zero_add]
      refine ⟨by rw [vals_length]; exact ru.size_ok, key, ⟨s.blk, 0⟩, (search lt key s.vals).1, tg, begin_ok v, lo, by rw [vals_length]; exact le, fun l => ?_, fun l => ?_⟩
      · rw [vals_length] at l; exact ⟨ru.toList_dup I.world hd l, ru.destroy_ub I.world hd l⟩
      · rw [vals_length] at l; exact ru.toList_ub I.world hd l

/-- An insertion goes this far before it starts to insert. -/
theorem insert_reaches (v : IsSM h c s) {key : K} (ab : ∀ e ∈ s.vals, e.1 ≠ key) (w : V) :
    ∃ m, ∀ j u, insertBefore c ⟨s.blk, (search lt key s.vals).1⟩ (key, w) j h = .ok (.thrown, u) → exec lt dv (.insert c key w) (m + j) h = .ok (.thrown, u) := by
  obtain ⟨m, X⟩ := (covers_findInsertPos lt c key).out h _ _ (findInsertPos_any v key)
  have fin : ∀ j, findInsertPos lt c key (m + j) h = .ok (.ret ⟨s.blk, (search lt key s.vals).1⟩ j, h) := X.returns
  have le := (search_in (lt := lt) key s.vals).1
  by_cases q : (search lt key s.vals).1 = s.vals.length
  · refine ⟨m, fun j u e => ?_⟩
    have eq : ¬ ((⟨s.blk, (search lt key s.vals).1⟩ : Ptr) ≠ ⟨s.blk, s.nodes.length⟩) := by rw [q, vals_length]; simp
    simp only [exec, insert, Thr.bind_app, fin, Res.bind_ok, Thr.after_ret, Thr.call_app, end_ok v, Thr.ite_app, if_neg eq, e, Thr.after_thrown]
  · have l : (search lt key s.vals).1 < s.vals.length := by omega
    refine ⟨m + 1, fun j u e => ?_⟩
    have ne : (⟨s.blk, (search lt key s.vals).1⟩ : Ptr) ≠ ⟨s.blk, s.nodes.length⟩ := by rw [vals_length] at l; simp; omega
    have hy : s.vals[(search lt key s.vals).1]? = some s.vals[(search lt key s.vals).1] := List.getElem?_eq_getElem l
    have nk := ab _ (List.mem_of_getElem? hy)
    rw [Nat.add_assoc, Nat.add_comm 1 j]
    simp only [exec, insert, Thr.bind_app, fin, Res.bind_ok, Thr.after_ret, Thr.call_app, end_ok v, Thr.ite_app, if_pos ne, v.deref hy, same, Thr.point_succ, Thr.pure_app,
      decide_eq_false nk, Bool.false_eq_true, if_false, e, Thr.after_thrown]

/-- **C130, counterexample: a map is ruined.** For every map whose array has room, and every key it has no entry for, there is a point at which an exception in
`insert` changes the size: `insert` has no strong guarantee, and not even the basic one (`ruined_map`). -/
theorem insert_ruins (X : XRuns ok lt dv L N h) (hc : c ∈ L) (o : Lists h c vs) (l : ok vs.length) {key : K} (ab : ∀ e ∈ vs, e.1 ≠ key) (w : V)
    {r : Rec} (hr : getObj c h = .ok (r, h)) (room : r.last ≠ r.eoe) :
    ∃ n t, exec lt dv (.insert c key w) n h = .ok (.thrown, t) ∧ ¬ SameSize h t c ∧ XRuns ok lt dv (L.erase c) (fun b => N b ∨ Holds h c b) t := by
  obtain ⟨G, S, I, g⟩ := X.inv stable_true
  obtain ⟨s, hs⟩ := (I.live c).1 hc
  have v := I.world.sm c s hs
  have := (isSM_lists v).inj o; subst this
  rw [getObj_eq v.obj] at hr; cases hr
  have le := (search_in (lt := lt) key s.vals).1
  rw [vals_length] at le
  obtain ⟨t, e, ru⟩ := insertBefore_room I.world hs le (Nat.lt_of_le_of_ne v.le fun e => room (by rw [e])) (key, w)
  obtain ⟨m, q⟩ := insert_reaches (lt := lt) (dv := dv) v ab w
  have ns := ruined_not_same I hs ru
  exact ⟨m + 0, t, q 0 t e, ns, .ruined (.insert c key w) _ c X ⟨hc, _, o.size, l⟩ (q 0 t e) hc ns⟩

/-- **C130, counterexample: an array is lost.** For every map whose array is full, and every key it has no entry for, there is a point at which an exception in
`insert` leaves a memory block that belongs to no map; the maps are as before. -/
theorem insert_leaks (X : XRuns ok lt dv L N h) (hc : c ∈ L) (o : Lists h c vs) (l : ok vs.length) {key : K} (ab : ∀ e ∈ vs, e.1 ≠ key) (w : V)
    {r : Rec} (hr : getObj c h = .ok (r, h)) (full : r.last = r.eoe) :
    ∃ n t b, exec lt dv (.insert c key w) n h = .ok (.thrown, t) ∧ h.size b = none ∧ t.size b ≠ none ∧ (∀ d ∈ L, ¬ Holds t d b) ∧ ∀ d ∈ L, ∀ us, Lists h d us → Lists t d us := by
  obtain ⟨G, S, I, g⟩ := X.inv stable_true
  obtain ⟨s, hs⟩ := (I.live c).1 hc
  have v := I.world.sm c s hs
  have := (isSM_lists v).inj o; subst this
  rw [getObj_eq v.obj] at hr; cases hr
  have le := (search_in (lt := lt) key s.vals).1
  rw [vals_length] at le
  obtain ⟨t, e, p⟩ := insertBefore_full I.world hs le (I.cap c s hs) (Ptr.mk.inj full).2 (key, w)
  obtain ⟨m, q⟩ := insert_reaches (lt := lt) (dv := dv) v ab w
  have W' := I.world.plus p
  obtain ⟨n1, n2⟩ := (plus_new I p h.fresh).1 (by simp)
  refine ⟨m + 1, t, h.fresh, q 1 t e, n1, n2, fun d hd z => ?_, fun d hd us ou => ?_⟩
  · obtain ⟨u, hu⟩ := (I.live d).1 hd
    have := (W'.goneB h.fresh (.inr (by simp))).2.2 d
    rw [own_some hu] at this
    exact this ((holds_iff (W'.sm d u hu)).1 z)
  · obtain ⟨u, hu⟩ := (I.live d).1 hd
    have := (isSM_lists (I.world.sm d u hu)).inj ou; subst this
    exact isSM_lists (W'.sm d u hu)

/-- **C130, counterexample: a copy is lost.** An exception at point `n` of the copy constructor of a map, for every `n` up to its number of elements, loses
exactly `n` memory blocks (the array and `n - 1` pairs); the maps are as before. -/
theorem copy_leaks (X : XRuns ok lt dv L N h) (hd : d ∈ L) (o : Lists h d vs) {n : Nat} (l : n ≤ vs.length) :
    ∃ t, ∃ bs : List Nat, exec lt dv (.copyOf d) n h = .ok (.thrown, t) ∧ bs.length = n ∧ bs.Nodup ∧ (∀ b, b ∈ bs ↔ h.size b = none ∧ t.size b ≠ none) ∧
      (∀ c ∈ L, ∀ b ∈ bs, ¬ Holds t c b) ∧ ∀ c ∈ L, ∀ us, Lists h c us → Lists t c us := by
  obtain ⟨G, S, I, g⟩ := X.inv stable_true
  obtain ⟨s, hs⟩ := (I.live d).1 hd
  have v := I.world.sm d s hs
  have := (isSM_lists v).inj o; subst this
  rw [vals_length] at l
  obtain ⟨t, e, p⟩ := copyOf_thrown I.world hs l
  have W' := I.world.plus p
  refine ⟨t, _, ?_, List.length_range', List.nodup_range', plus_new I p, fun c hc b hb z => ?_, fun c hc us ou => ?_⟩
  · simp only [exec, Thr.bind_app, e, Res.bind_ok, Thr.after_thrown]
  · obtain ⟨u, hu⟩ := (I.live c).1 hc
    have := (W'.goneB b (.inr hb)).2.2 c
    rw [own_some hu] at this
    exact this ((holds_iff (W'.sm c u hu)).1 z)
  · obtain ⟨u, hu⟩ := (I.live c).1 hc
    have := (isSM_lists (I.world.sm c u hu)).inj ou; subst this
    exact isSM_lists (W'.sm c u hu)

/-- **C130, counterexample.** Every insertion of a key a map has no entry for has a point at which an exception loses memory or ruins the map. -/
theorem insert_never_safe (X : XRuns ok lt dv L N h) (hc : c ∈ L) (o : Lists h c vs) (l : ok vs.length) {key : K} (ab : ∀ e ∈ vs, e.1 ≠ key) (w : V) :
    ∃ n t, exec lt dv (.insert c key w) n h = .ok (.thrown, t) ∧ (¬ SameSize h t c ∨ ∃ b, h.size b = none ∧ t.size b ≠ none ∧ ∀ d ∈ L, ¬ Holds t d b) := by
  obtain ⟨G, S, I, g⟩ := X.inv stable_true
  obtain ⟨s, hs⟩ := (I.live c).1 hc
  have v := I.world.sm c s hs
  by_cases q : (⟨s.blk, s.nodes.length⟩ : Ptr) = ⟨s.blk, s.cap⟩
  · obtain ⟨n, t, b, e, a1, a2, a3, _⟩ := insert_leaks X hc o l ab w (getObj_eq v.obj) q
    exact ⟨n, t, e, .inr ⟨b, a1, a2, a3⟩⟩
  · obtain ⟨n, t, e, a, _⟩ := insert_ruins X hc o l ab w (getObj_eq v.obj) q
    exact ⟨n, t, e, .inl a⟩

/-! ## Examples -/

/-- Programs in which nothing throws. -/
theorem of_runs (R : Runs ok lt dv L h) : XRuns ok lt dv L (fun _ => False) h := by
  induction R with
  | start => exact .start
  | step k R ft e ih =>
    obtain ⟨G, S, I, g⟩ := ih.inv stable_true
    obtain ⟨m, r, h2, S', Y, e', I'⟩ := call_points (dv := dv) stable_true I k ft
    rw [e] at e'; cases e'
    exact .returned k (m + 0) 0 ih ft (Y.returns 0)

/-- `sorted_vector_map m(2); m.insert(key, w)`: one element, and room for another one. -/
theorem one_of_two (l : ok 0) (key : K) (w : V) : ∃ (h : Mem K V) (r : Rec), Runs ok lt dv [1] h ∧ Lists h 1 [(key, w)] ∧ getObj 1 h = .ok (r, h) ∧ r.last ≠ r.eoe := by
  have I := inv_start (K := K) (V := V) (lt := lt)
  obtain ⟨h1, e1, W1, _⟩ := ctor_ok I.world 2
  have R1 : Runs ok lt dv [1] h1 := Runs.step (r := .obj 1) (.ctor 2) .start (by simp [Fits]) (by simp only [SVMap.exec, Prog.bind_app, e1, Res.bind_ok]; rfl)
  have hc : State.set (fun _ => none) 1 (some (⟨2, 2, []⟩ : SS K V)) 1 = some ⟨2, 2, []⟩ := set_same ..
  have W1 : WorldG Nowhere h1 (State.set (fun _ => none) 1 (some (⟨2, 2, []⟩ : SS K V))) := W1
  have v1 := W1.sm 1 _ hc
  obtain ⟨h2, e2, W2, _⟩ := insert_any (lt := lt) W1 hc key w (by show 2 ≠ 1; omega)
  have R2 := R1.step (.insert 1 key w) ⟨by simp, 0, size_ok v1, l⟩ (by simp only [SVMap.exec, Prog.bind_app, e2, Res.bind_ok]; rfl)
  have v2 := W2.sm 1 _ (set_same ..)
  have st : (⟨2, 2, []⟩ : SS K V).put1 lt h1.fresh key w = ⟨2, 2, [(h1.fresh, key, w)]⟩ := by
    have : (search lt key ([] : List (K × V))) = (0, false) := by rw [search, srch_stop (by simp)]
    simp [SS.put1, SS.vals, hit, insState, insNodes, this]
  rw [st] at v2
  exact ⟨h2, _, R2, isSM_lists v2, getObj_eq v2.obj, by simp⟩

abbrev ltN : Nat → Nat → Bool := fun a b => decide (a < b)

/-- In a map with the element 5, insertion of 3 is left by an exception: iteration shows 5 twice, and destroying the map is undefined behaviour. -/
example : ∃ (h t : Mem Nat Nat) (n : Nat), XRuns (fun _ => True) ltN 0 [1] (fun _ => False) h ∧ Lists h 1 [(5, 50)] ∧ exec ltN 0 (.insert 1 3 30) n h = .ok (.thrown, t) ∧
    toList 1 t = .ok ([(5, 50), (5, 50)], t) ∧ destroy 1 t = .ub .access := by
  obtain ⟨h, r, R, o, hr, q⟩ := one_of_two (ok := fun _ => True) (lt := ltN) (dv := 0) trivial 5 50
  have X := of_runs R
  obtain ⟨n, t, e, ns, _⟩ := insert_ruins X (by simp) o trivial (key := 3) (by simp) 30 hr q
  obtain ⟨_, key, p, i, tg, b, lo, le, A, _⟩ := ruined_map (k := .insert 1 3 30) X ⟨by simp, _, o.size, trivial⟩ e (by simp) ns o
  simp only [target, Option.some.injEq, Prod.mk.injEq, true_and] at tg
  subst tg
  have i0 : i = 0 := by
    obtain ⟨S, s, I, hs, w, ev, cp⟩ := observed R (by simp) o
    have sr : search ltN 3 s.vals = (0, false) := by
      rw [ev, search, show ([(5, 50)] : List (Nat × Nat)).length % 4294967296 = 1 from rfl, srch_step (e := (5, 50)) (by omega) rfl]
      rw [if_neg (by decide), if_neg (by decide), srch_stop (by omega)]
    rw [begin_ok w] at b; cases b
    rw [SVMap.lowerBound, findInsertPos_any w, sr, ptr_add] at lo
    have := (Ptr.mk.inj (Prod.mk.inj (Res.ok.inj lo)).1).2
    rw [Nat.zero_add] at this; exact this.symm
  subst i0
  obtain ⟨A1, A2⟩ := A (by simp)
  exact ⟨h, t, n, X, o, e, A1, A2⟩

/-- The other map of a program goes on after that, with everything it has; the array and the pair of the ruined one are lost. -/
example : ∃ (h : Mem Nat Nat) (N : Nat → Prop), XRuns (fun _ => True) ltN 0 [] N h ∧ ∃ b, N b := by
  obtain ⟨h, r, R, o, hr, q⟩ := one_of_two (ok := fun _ => True) (lt := ltN) (dv := 0) trivial 5 50
  have X := of_runs R
  obtain ⟨n, t, e, ns, X'⟩ := insert_ruins X (by simp) o trivial (key := 3) (by simp) 30 hr q
  obtain ⟨G, S, I, g⟩ := X.inv stable_true
  obtain ⟨s, hs⟩ := (I.live 1).1 (by simp)
  have v := I.world.sm 1 s hs
  have := (isSM_lists v).inj o
  have ne : s.nodes ≠ [] := by rintro z; simp [SS.vals, z] at this
  exact ⟨t, _, X', (s.nodes.head ne).1, .inr ((holds_iff v).2 (node_mem (List.head_mem ne)))⟩

/-- An interrupted copy of a map with one element loses a block. -/
example : ∃ (h t : Mem Nat Nat) (b : Nat), XRuns (fun _ => True) ltN 0 [1] (fun _ => False) h ∧ exec ltN 0 (.copyOf 1) 1 h = .ok (.thrown, t) ∧ h.size b = none ∧ t.size b ≠ none ∧
    ¬ Holds t 1 b ∧ Lists t 1 [(5, 50)] := by
  obtain ⟨h, r, R, o, hr, q⟩ := one_of_two (ok := fun _ => True) (lt := ltN) (dv := 0) trivial 5 50
  obtain ⟨t, bs, e, l, _, a, a', a''⟩ := copy_leaks (of_runs R) (by simp) o (n := 1) (by simp)
  match bs, l with
  | [b], _ =>
    obtain ⟨a1, a2⟩ := (a b).1 (by simp)
    exact ⟨h, t, b, of_runs R, e, a1, a2, a' 1 (by simp) b (by simp), a'' 1 (by simp) _ o⟩

end Verif.Exc.XSM
