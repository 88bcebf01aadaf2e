import Verif.Seq.LazyStep
/-!
# `ttl::lazy_queue`: the step theorem
-/
set_option linter.unusedVariables false
set_option linter.unusedSimpArgs false
namespace Verif.Seq.LQueue
open Verif
open Verif.Seq.DList (Arg fresh insertAt slice cut Blank Relink split_at split_elem posOf posOf_cons posOf_nil)
open Verif.Seq.BList (elem_pos bswp)
open Verif.Seq.BwdProps (last_insert last_cut insert_end pos_is_last last_is_head lastOf_indep)
variable {T : Type} {h : Heap T} {S : State T} {c d : Addr} {es fs : List (Addr × T)} {ns ms : List Addr}

theorem swap_eq (la : h.live c = true) (lb : h.live d = true) : swap c d h = .ok ((), bswp h c d) := by
  simp only [swap, Prog.bind_app, getNext_eq la, getNext_eq lb, Res.bind_ok, setNext, la, lb, if_true]
  rw [getTail_eq (by exact la)]
  simp only [Res.bind_ok]
  rw [getTail_eq (by exact lb)]
  simp only [Res.bind_ok]
  rw [setTail_eq (by exact la)]
  simp only [Res.bind_ok]
  rw [setTail_eq (by exact lb)]
  rfl

/-- `c.swap(c)` -/
theorem swap_self (W : World iface h S) (hc : S c = some ⟨es, ns⟩) : GoodR iface (swap c c) h () S := by
  refine ⟨h, ?_, W, Nat.le_refl _⟩
  rw [swap_eq (World.sl W hc).head (World.sl W hc).head]
  have e1 : ∀ f : Addr → Addr, upd (upd f c (f c)) c (f c) = f := by
    intro f; funext x; unfold upd; split
    · rename_i hx; rw [hx]
    · rfl
  unfold bswp swpA
  simp only [e1]

theorem swap_good (W : World iface h S) (hc : S c = some ⟨es, ns⟩) (hd : S d = some ⟨fs, ms⟩) (hcd : c ≠ d) (h1 : es ≠ []) (h2 : fs ≠ []) :
    GoodR iface (swap c d) h () ((S.put c fs ns).put d es ms) := by
  have r := World.qu W hc
  have s := World.qu W hd
  have t1 := World.tl W hc
  have t2 := World.tl W hd
  have dj : ∀ x ∈ qcells c es ns, x ∉ qcells d fs ms := W.disj c _ d _ hc hd hcd
  have dj1 : ∀ x ∈ scells c es, x ∉ scells d fs := fun x hx q => dj x (mem_qcells.2 (.inl hx)) (mem_qcells.2 (.inl q))
  obtain ⟨a, b, k⟩ := swpA_ok r.main s.main hcd dj1
  have ef := k.effect W.wf (C' := fun x => x ∈ scells c es ∨ x ∈ scells d fs) fun _ => Iff.rfl
  have memc : ∀ x, x ∈ qcells c fs ns ∨ x ∈ qcells d es ms ↔ x ∈ qcells c es ns ∨ x ∈ qcells d fs ms := by
    intro x
    simp only [mem_qcells, scells, List.mem_cons]
    generalize (x ∈ fs.map Prod.fst) = p1
    generalize (x ∈ es.map Prod.fst) = p2
    generalize (x ∈ ns) = p3
    generalize (x ∈ ms) = p4
    clear dj dj1 a b k ef
    grind
  have sm : ∀ x, x ≠ c → x ≠ d → Same h (bswp h c d) x := by
    intro x k1 k2
    constructor <;> simp [bswp, swpA, upd, k1, k2]
  have dead : ∀ {e : Addr} {gs : List (Addr × T)} {os : List Addr}, Queue h e gs os → c ∉ (e + 1) :: os → d ∉ (e + 1) :: os → Pool (bswp h c d) (e + 1) os := by
    intro e gs os q k1 k2
    exact q.dead.frame fun x hx => sm x (fun e => k1 (e ▸ hx)) (fun e => k2 (e ▸ hx))
  refine ⟨bswp h c d, swap_eq r.main.head s.main.head, ?_, Nat.le_of_eq k.fresh.symm⟩
  refine World.step2 W hcd hc hd (sa' := ⟨fs, ns⟩) (sb' := ⟨es, ms⟩) (inner_effect W.wf ?_ rfl rfl ?_) ⟨⟨?_, ?_, ?_⟩, ?_⟩ ⟨⟨?_, ?_, ?_⟩, ?_⟩ ?_
  · intro x; exact (memc x).symm
  · intro x hx
    refine sm x ?_ ?_
    · rintro rfl; exact hx (.inl self_mem)
    · rintro rfl; exact hx (.inr self_mem)
  · exact ⟨a.head, a.bare, a.path.congr (fun _ _ => rfl), a.nodup, a.data⟩
  · exact dead r (r.apart _ (by simp [scells])) (fun q => dj d (mem_qcells.2 (.inr q)) self_mem)
  · intro x hx q
    simp only [scells, List.mem_cons] at hx
    rcases hx with rfl | hx
    · exact r.apart x (by simp [scells]) q
    · exact dj x (mem_qcells.2 (.inr q)) (mem_qcells.2 (.inl (by simp only [scells, List.mem_cons]; exact .inr hx)))
  · show upd (upd h.tail c (h.tail d)) d (h.tail c) c = _
    rw [upd_other _ _ hcd, upd_same, t2]
    exact lastOf_indep (by simp [h2]) _ _
  · exact ⟨b.head, b.bare, b.path.congr (fun _ _ => rfl), b.nodup, b.data⟩
  · exact dead s (fun q => dj c self_mem (mem_qcells.2 (.inr q))) (s.apart _ (by simp [scells]))
  · intro x hx q
    simp only [scells, List.mem_cons] at hx
    rcases hx with rfl | hx
    · exact s.apart x (by simp [scells]) q
    · exact dj x (mem_qcells.2 (.inl (by simp only [scells, List.mem_cons]; exact .inr hx))) (mem_qcells.2 (.inr q))
  · show upd (upd h.tail c (h.tail d)) d (h.tail c) d = _
    rw [upd_same, t1]
    exact lastOf_indep (by simp [h1]) _ _
  · have ra := r.apart
    have sa := s.apart
    have n1 := r.main.nodup
    have n2 := s.main.nodup
    intro x hx hx'
    have d1 := dj x
    have ra := ra x
    have sa := sa x
    have n1 := (List.nodup_cons.1 n1).1
    have n2 := (List.nodup_cons.1 n2).1
    have d2 := dj c
    have d3 := dj d
    simp only [iface, mem_qcells, scells, List.mem_cons] at hx hx' d1 ra sa d2 d3
    have xc : x = c → ¬ x ∈ es.map Prod.fst := by rintro rfl; exact n1
    have xd : x = d → ¬ x ∈ fs.map Prod.fst := by rintro rfl; exact n2
    have xcd : x = c → x ≠ d := by rintro rfl; exact hcd
    revert hx hx' d1 ra sa xc xd xcd
    generalize (x ∈ fs.map Prod.fst) = p1
    generalize (x ∈ es.map Prod.fst) = p2
    generalize (x ∈ ns) = p3
    generalize (x ∈ ms) = p4
    generalize (x = c) = p5
    generalize (x = c + 1) = p6
    generalize hp7 : (x = d) = p7
    generalize (x = d + 1) = p8
    clear n1 n2 d2 d3 dj dj1 a b k ef memc r s t1 t2 hc hd W sm dead
    intro d1 ra sa h1 h2 h3 h4 h5
    rw [ne_eq, hp7] at h5
    grind

theorem rollHead_good (W : World iface h S) (hc : S c = some ⟨es, ns⟩) :
    GoodR iface (rollHead c) h () (S.put c (es.tail ++ es.take 1) ns) := by
  have r := World.qu W hc
  have w := W.wf
  have lc := r.main.head
  have t1 := World.tl W hc
  have nx := r.main.next_head
  match es, hc, r, t1, nx with
  | [], hc, r, t1, nx =>
    have : (S.put c (([] : List (Addr × T)).tail ++ ([] : List (Addr × T)).take 1) ns) = S := put_self hc
    rw [this]
    refine ⟨h, ?_, W, Nat.le_refl _⟩
    simp only [List.map_nil, posOf_nil] at nx
    simp [rollHead, getNext_eq lc, nx]
  | [e], hc, r, t1, nx =>
    have : (S.put c (([e] : List (Addr × T)).tail ++ ([e] : List (Addr × T)).take 1) ns) = S := put_self hc
    rw [this]
    refine ⟨h, ?_, W, Nat.le_refl _⟩
    simp only [List.map_cons, List.map_nil, posOf_cons, lastOf_cons, lastOf_nil] at nx t1
    simp [rollHead, getNext_eq lc, nx, getTail_eq lc, t1]
  | e :: f :: es, hc, r, t1, nx =>
    obtain ⟨le, ve⟩ := r.main.data e (by simp)
    have e0 : e.1 ≠ 0 := w.ne_zero le
    simp only [List.map_cons, posOf_cons, lastOf_cons] at nx t1
    have q1 := unlinkNext_eq (h := h) lc (by rw [nx]; exact le)
    have r1 : Slist (unlA h c) c (f :: es) := r.main.unlA (A := []) (B := f :: es)
    have nd := r.main.nodup
    have hn : e.1 ∉ scells c (f :: es) := by
      simp only [scells, List.map_cons, List.nodup_cons, List.mem_cons, not_or] at nd ⊢
      grind
    have r2 : Slist (insA (unlA h c) (lastOf c ((f :: es).map Prod.fst)) e.1) c ((f :: es) ++ (e.1, e.2) :: []) :=
      Slist.insA (A := f :: es) (B := []) (by simpa using r1) le ve (by simpa using hn)
    have le' : e.1 ≠ lastOf f.1 (es.map Prod.fst) := by
      intro q
      have := lastOf_mem (es.map Prod.fst) f.1
      rw [← q] at this
      exact hn (by simp only [scells, List.map_cons]; exact List.mem_cons_of_mem _ this)
    have ll : h.live (lastOf f.1 (es.map Prod.fst)) = true := by
      have : lastOf f.1 (es.map Prod.fst) ∈ scells c (e :: f :: es) := by
        have := lastOf_mem (es.map Prod.fst) f.1
        simp only [scells, List.map_cons]
        exact List.mem_cons_of_mem _ (List.mem_cons_of_mem _ this)
      exact r.main.live _ this
    have mem : ∀ x, x ∈ scells c (e :: f :: es) ↔ x ∈ scells c ((f :: es) ++ (e.1, e.2) :: []) := by
      intro x; simp only [scells, List.map_append, List.map_cons, List.map_nil, List.mem_cons, List.mem_append, List.not_mem_nil]; grind
    have sm : ∀ x, x ∉ scells c (e :: f :: es) → Same h (insA (unlA h c) (lastOf c ((f :: es).map Prod.fst)) e.1) x := by
      intro x hx
      have k1 : x ≠ c := by rintro rfl; exact hx (by simp [scells])
      have k2 : x ≠ e.1 := by rintro rfl; exact hx (by simp [scells])
      have k3 : x ≠ lastOf f.1 (es.map Prod.fst) := by
        rintro rfl
        apply hx
        have := lastOf_mem (es.map Prod.fst) f.1
        simp only [scells, List.map_cons]
        exact List.mem_cons_of_mem _ (List.mem_cons_of_mem _ this)
      constructor <;> simp [insA, unlA, upd, k1, k2, k3]
    have r3 : Queue (insA (unlA h c) (lastOf c ((f :: es).map Prod.fst)) e.1) c ((f :: es) ++ (e.1, e.2) :: []) ns :=
      ⟨r2, r.dead.frame fun x hx => sm x fun q => r.apart x q hx, fun x hx => r.apart x ((mem x).2 hx)⟩
    refine fin (t := e.1) (es' := (f :: es) ++ (e.1, e.2) :: []) (h' := insA (unlA h c) (lastOf c ((f :: es).map Prod.fst)) e.1) W hc
      (inner_effect w ?_ rfl rfl ?_) r3 ?_ ?_
    · intro x; rw [mem_qcells, mem_qcells, mem x]
    · intro x hx; exact sm x fun q => hx (mem_qcells.2 (.inl q))
    · simp [lastOf_append]
    · simp only [rollHead, Prog.bind_app, getNext_eq lc, Res.bind_ok, nx, Prog.ite_app, ne_eq, e0, not_false_eq_true, if_true, getTail_eq lc, t1, le', q1]
      rw [getTail_eq (h := unlA h c) (by exact lc)]
      show Res.bind _ _ = _
      simp only [Res.bind_ok]
      have t2 : (unlA h c).tail c = lastOf f.1 (es.map Prod.fst) := t1
      rw [t2, insertAfter_eq (by exact ll) (by exact le)]
      simp only [Res.bind_ok]
      rw [setTail_eq (by exact lc)]
      rfl

theorem store_good (W : World iface h S) (hc : S c = some ⟨es, ns⟩) {i : Nat} (hi : i < es.length) (v : T) :
    GoodR iface (do setVal (← SList.posAt c (i + 1)) v : Prog (Heap T) Unit) h () (S.put c (es.modify i fun e => (e.1, v)) ns) := by
  have r := World.qu W hc
  obtain ⟨h', q, r', ef, _, tl⟩ := store_ok W.wf r.main hi v
  have hf : (es.modify i fun e => (e.1, v)).map Prod.fst = es.map Prod.fst := by
    apply List.ext_getElem
    · simp
    · intro j h1 h2
      simp only [List.getElem_map, List.getElem_modify]
      split <;> rfl
  have sc : scells c (es.modify i fun e => (e.1, v)) = scells c es := by simp only [scells, hf]
  have ef' : Effect (· ∈ qcells c es ns) (· ∈ qcells c (es.modify i fun e => (e.1, v)) ns) h h' := by
    refine (ef.weaken (F := (· ∈ (c + 1) :: ns))).congr ?_ ?_ <;> intro x <;> exact mem_qcells.symm
  refine fin0 W hc ef' ⟨r', r.dead.frame fun x hx => ef.keeps (r.dead.live x hx) (fun q => r.apart x q hx), ?_⟩ tl (by rw [hf]) q
  rw [sc]; exact r.apart

/-- **Every legal call returns normally and does what the specification says.** -/
theorem step_ok {triv : Bool} (W : World iface h S) (k : Call T) (lg : Legal triv S k) : GoodR iface (exec triv k) h () (spec S h.fresh k) := by
  cases k with
  | create =>
    obtain ⟨h', q, W', fr, _⟩ := create_good W
    exact GoodR.drop ⟨h', q, W', by omega⟩
  | copyOf s =>
    obtain ⟨⟨fs, u⟩, hs⟩ := lg
    simp only [spec, get_some hs]
    exact (copyCtor_good W hs).drop
  | ctorN n value =>
    obtain ⟨v, rf⟩ := lg
    simp only [spec, copies_eq W rf]
    exact (ctorN_good W n rf).drop
  | destroy c =>
    obtain ⟨⟨⟨es, ns⟩, hc⟩, ok⟩ := lg
    rw [pool_some hc] at ok
    exact destroy_good W hc ok
  | cleanup c =>
    obtain ⟨⟨⟨es, ns⟩, hc⟩, ok⟩ := lg
    rw [pool_some hc] at ok
    simp only [spec, get_some hc]
    exact cleanup_good W hc ok
  | pushFront c v =>
    obtain ⟨⟨es, ns⟩, hc⟩ := lg
    simp only [spec, State.ins, get_some hc, pool_some hc]
    exact pushFront_good W hc v
  | pushBack c v =>
    obtain ⟨⟨es, ns⟩, hc⟩ := lg
    simp only [spec, State.ins, get_some hc, pool_some hc]
    exact pushBack_good W hc v
  | popFront c =>
    obtain ⟨⟨⟨es, ns⟩, hc⟩, hne⟩ := lg
    rw [get_some hc] at hne
    simp only [spec, get_some hc, pool_some hc]
    exact popFront_good W hc hne
  | insert c i v =>
    obtain ⟨⟨⟨es, ns⟩, hc⟩, hi⟩ := lg
    rw [get_some hc] at hi
    simp only [spec, State.ins, get_some hc, pool_some hc]
    refine GoodR.of_eq (insert_good W hc hi v) fun h' q => ?_
    simp only [exec, Prog.bind_app, (World.sl W hc).posAt hi, Res.bind_ok, q, Prog.pure_app]
  | insertN c i n value =>
    obtain ⟨⟨⟨es, ns⟩, hc⟩, hi, v, rf⟩ := lg
    rw [get_some hc] at hi
    simp only [spec, State.ins, get_some hc, pool_some hc, copies_eq W rf]
    refine GoodR.of_eq (insertN_good W hc hi n (refers_readable W rf)) fun h' q => ?_
    simp only [exec, Prog.bind_app, (World.sl W hc).posAt hi, Res.bind_ok, q]
  | insertVals c i vs =>
    obtain ⟨⟨⟨es, ns⟩, hc⟩, hi⟩ := lg
    rw [get_some hc] at hi
    simp only [spec, State.ins, get_some hc, pool_some hc]
    refine GoodR.of_eq (insertVals_good W hc hi vs) fun h' q => ?_
    simp only [exec, Prog.bind_app, (World.sl W hc).posAt hi, Res.bind_ok, q]
  | insertQueue c i d =>
    obtain ⟨⟨⟨es, ns⟩, hc⟩, hi, ⟨⟨fs, ms⟩, hd⟩, hcd⟩ := lg
    rw [get_some hc] at hi
    simp only [spec, State.ins, get_some hc, pool_some hc, get_some hd]
    have s := World.sl W hd
    have dj : ∀ x ∈ qcells d fs ms, x ∉ qcells c es ns := W.disj d _ c _ hd hc (Ne.symm hcd)
    refine GoodR.of_eq (insertNodes_good W hc hi s fun x hx => dj x (mem_qcells.2 (.inl hx))) fun h' q => ?_
    simp only [Prog.bind_app, getNext_eq s.head, Res.bind_ok] at q
    simp only [exec, Prog.bind_app, (World.sl W hc).posAt hi, getNext_eq s.head, Res.bind_ok, q]
  | erase c i =>
    obtain ⟨⟨⟨es, ns⟩, hc⟩, hi⟩ := lg
    rw [get_some hc] at hi
    simp only [spec, get_some hc, pool_some hc, slice1 hi]
    refine GoodR.of_eq (erase_good W hc hi) fun h' q => ?_
    simp only [exec, Prog.bind_app, (World.sl W hc).posAt (Nat.le_of_lt hi), Res.bind_ok, q, Prog.pure_app]
  | eraseRange c i j =>
    obtain ⟨⟨⟨es, ns⟩, hc⟩, hij, hj⟩ := lg
    rw [get_some hc] at hj
    simp only [spec, get_some hc, pool_some hc]
    obtain ⟨j, rfl⟩ : ∃ j', j = j' + 1 := ⟨j - 1, by omega⟩
    rw [Nat.add_sub_cancel]
    have r := World.sl W hc
    refine GoodR.of_eq (eraseRange_good W hc (show i ≤ j by omega) (by omega)) fun h' q => ?_
    simp only [exec, Prog.bind_app, r.posAt (i := i) (by omega), r.posAt_elem (i := j) (by omega), Res.bind_ok, q, Prog.pure_app]
  | clear c =>
    obtain ⟨⟨es, ns⟩, hc⟩ := lg
    simp only [spec, get_some hc, pool_some hc]
    obtain ⟨h', q, W', fr, _⟩ := clear_good W hc
    exact ⟨h', q, W', Nat.le_of_eq fr.symm⟩
  | assign c d =>
    obtain ⟨⟨⟨es, ns⟩, hc⟩, ⟨⟨fs, ms⟩, hd⟩, hcd⟩ := lg
    simp only [spec, get_some hd, get_some hc, pool_some hc]
    have dj : ∀ x ∈ qcells d fs ms, x ∉ qcells c es ns := W.disj d _ c _ hd hc (Ne.symm hcd)
    obtain ⟨h1, q1, W1, fr, ef⟩ := clear_good W hc
    have hd1 : (S.put c [] ((es.map Prod.fst).reverse ++ ns)) d = some ⟨fs, ms⟩ := by rw [put_other S (Ne.symm hcd)]; exact hd
    have hc1 := put_same S c [] ((es.map Prod.fst).reverse ++ ns)
    have s1 := World.sl W1 hd1
    have dj1 : ∀ x ∈ qcells d fs ms, x ∉ qcells c [] ((es.map Prod.fst).reverse ++ ns) := W1.disj d _ c _ hd1 hc1 (Ne.symm hcd)
    obtain ⟨h2, q2, W2, m2⟩ := insertNodes_good W1 hc1 (i := 0) (by simp) s1 fun x hx => dj1 x (mem_qcells.2 (.inl hx))
    rw [put_put, fr] at W2
    refine ⟨h2, ?_, by simpa [insertAt] using W2, by rw [← fr]; exact m2⟩
    simp only [exec, opAssign, Prog.bind_app, q1, Res.bind_ok]
    simpa only [Prog.bind_app, List.take_zero, List.map_nil, lastOf_nil] using q2
  | swap c d =>
    obtain ⟨⟨⟨es, ns⟩, hc⟩, ⟨⟨fs, ms⟩, hd⟩, ok⟩ := lg
    rw [get_some hc, get_some hd] at ok
    simp only [spec, get_some hc, get_some hd, pool_some hc, pool_some hd]
    by_cases k : c = d
    · subst k; rw [if_pos rfl]; exact swap_self W hc
    · rw [if_neg k]
      rcases ok with ok | ok
      · exact absurd ok k
      · exact swap_good W hc hd k ok.1 ok.2
  | rollHead c =>
    obtain ⟨⟨es, ns⟩, hc⟩ := lg
    simp only [spec, get_some hc, pool_some hc]
    exact rollHead_good W hc
  | store c i v =>
    obtain ⟨⟨⟨es, ns⟩, hc⟩, hi⟩ := lg
    rw [get_some hc] at hi
    simp only [spec, get_some hc, pool_some hc]
    exact store_good W hc hi v

/-- After any client program memory holds exactly the queues the specification says, and nothing else. -/
theorem Reach.world {triv : Bool} (R : Reach triv S h) : World iface h S := by
  induction R with
  | start b => exact blank_world b
  | step k _ lg q ih =>
    obtain ⟨h', q', W', _⟩ := step_ok ih k lg
    rw [q] at q'; cases q'; exact W'
  | env _ e ih => exact ih.env e

end Verif.Seq.LQueue
