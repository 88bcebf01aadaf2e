import Verif.Seq.ListProps5
import Verif.Seq.FwdProps3
import Verif.Seq.BwdProps3
/-!
# No element of a list ever moves

Every call of `ttl::list`, `ttl::forward_list` and `ttl::backward_list`, removals included: an element whose node is still allocated
after the call is an element of one of the lists, at its address and with its value.
-/
set_option linter.unusedVariables false
set_option linter.unusedSimpArgs false
set_option linter.unusedSectionVars false
namespace Verif.Seq
open Verif
variable {T : Type}

theorem mem_cut {α : Type} {i j : Nat} {es : List α} {x : α} (q : x ∈ DList.cut i j es) : x ∈ es := by
  rcases List.mem_append.1 q with q | q
  · exact List.mem_of_mem_take q
  · exact List.mem_of_mem_drop q

theorem mem_slice' {α : Type} {i j : Nat} {es : List α} {x : α} (q : x ∈ DList.slice i j es) : x ∈ es :=
  List.mem_of_mem_drop (List.mem_of_mem_take q)

theorem mem_modify_fst {v : T} : ∀ (es : List (Addr × T)) (i : Nat) (x : Addr × T), x ∈ (es.modify i fun e => (e.1, v)) →
    x ∈ es ∨ x.2 = v ∧ x.1 ∈ es.map Prod.fst
  | [], i, x, q => by cases i <;> exact absurd q (by simp)
  | e :: es, 0, x, q => by
    rcases List.mem_cons.1 (by simpa using q : x ∈ (e.1, v) :: es) with q | q
    · subst q; exact .inr ⟨rfl, List.mem_cons_self⟩
    · exact .inl (List.mem_cons_of_mem _ q)
  | e :: es, i + 1, x, q => by
    rcases List.mem_cons.1 (by simpa using q : x ∈ e :: es.modify i fun e => (e.1, v)) with q | q
    · subst q; exact .inl List.mem_cons_self
    · rcases mem_modify_fst es i x q with q | q
      · exact .inl (List.mem_cons_of_mem _ q)
      · exact .inr ⟨q.1, List.mem_cons_of_mem _ q.2⟩

theorem inj_of_nodup : ∀ {es : List (Addr × T)} {x y : Addr × T}, (es.map Prod.fst).Nodup → x ∈ es → y ∈ es → x.1 = y.1 → x = y
  | [], x, y, n, hx, hy, e => by cases hx
  | z :: es, x, y, n, hx, hy, e => by
    have n := List.nodup_cons.1 n
    rcases List.mem_cons.1 hx with h1 | h1 <;> rcases List.mem_cons.1 hy with h2 | h2
    · rw [h1, h2]
    · exact absurd (by rw [← h1, e]; exact List.mem_map_of_mem h2) n.1
    · exact absurd (by rw [← h2, ← e]; exact List.mem_map_of_mem h1) n.1
    · exact inj_of_nodup n.2 h1 h2 e

namespace ListProps
open Verif.Seq.DList
variable {h : Heap T} {S : State T} {c d : Addr}

/-- The element is one of the lists' or its node is new. -/
def From (S : State T) (a : Addr) (e : Addr × T) : Prop := (∃ d, e ∈ S.get d) ∨ a ≤ e.1

theorem from_put {P : Addr × T → Prop} {es' : List (Addr × T)} (h0 : ∀ d, ∀ x ∈ S.get d, P x) (h1 : ∀ x ∈ es', P x) (d : Addr) (x : Addr × T) (q : x ∈ (S.put c es').get d) : P x := by
  by_cases hcd : d = c
  · subst hcd; rw [put_get] at q; exact h1 x q
  · rw [put_get_other _ _ hcd] at q; exact h0 d x q

theorem mem_uniq {pred : T → T → Bool} : ∀ (es : List (Addr × T)) (x : Addr × T), x ∈ uniq pred es → x ∈ es := by
  have key : ∀ (R : List (Addr × T)) (q x : Addr × T), x ∈ dedup pred q R → x ∈ R := by
    intro R
    induction R with
    | nil => intro q x m; exact m
    | cons e R ih =>
      intro q x m
      rw [dedup] at m
      split at m
      · exact List.mem_cons_of_mem _ (ih _ _ m)
      · rcases List.mem_cons.1 m with m | m
        · rw [m]; exact List.mem_cons_self
        · exact List.mem_cons_of_mem _ (ih _ _ m)
  intro es x m
  cases es with
  | nil => exact m
  | cons e es =>
    rcases List.mem_cons.1 m with m | m
    · rw [m]; exact List.mem_cons_self
    · exact List.mem_cons_of_mem _ (key _ _ _ m)

/-- Where the elements after a call come from. -/
theorem spec_from (a : Addr) (k : Call T) (ns : ∀ c i v, k ≠ .store c i v) (d : Addr) (x : Addr × T) (q : x ∈ (spec S a k).get d) : From S a x := by
  have old : ∀ d, ∀ x ∈ S.get d, From S a x := fun d x m => .inl ⟨d, m⟩
  have new : ∀ vs, ∀ x ∈ fresh a vs, From S a x := fun vs x m => .inr (fresh_addr vs a x m)
  have new1 : ∀ vs, ∀ x ∈ fresh (a + 1) vs, From S a x := fun vs x m => .inr (Nat.le_trans (Nat.le_succ a) (fresh_addr vs (a + 1) x m))
  have nil : ∀ x ∈ ([] : List (Addr × T)), From S a x := fun x m => by cases m
  have self : ∀ v : T, From S a (a, v) := fun v => .inr (Nat.le_refl a)
  have ins : ∀ i xs d, (∀ x ∈ xs, From S a x) → ∀ x ∈ insertAt i xs (S.get d), From S a x := fun i xs d m x q =>
    (mem_insertAt.1 q).elim (m x) (old d x)
  cases k with
  | create => exact from_put old nil d x q
  | copyOf s => exact from_put old (new1 _) d x q
  | ctorN n v => exact from_put old (new1 _) d x q
  | ctorVals vs => exact from_put old (new1 _) d x q
  | destroy c =>
    by_cases hdc : d = c
    · subst hdc; simp [spec, State.get, upd] at q
    · simp only [spec, State.get, upd, if_neg hdc] at q; exact old d x q
  | pushFront c v => exact from_put old (fun x m => (List.mem_cons.1 m).elim (fun e => by rw [e]; exact self v) (old c x)) d x q
  | pushBack c v => exact from_put old (fun x m => (List.mem_append.1 m).elim (old c x) (fun e => by rw [List.mem_singleton.1 e]; exact self v)) d x q
  | popFront c => exact from_put old (fun x m => old c x (List.mem_of_mem_tail m)) d x q
  | popBack c => exact from_put old (fun x m => old c x (List.dropLast_subset _ m)) d x q
  | insert c i v => exact from_put old (ins i _ c fun x e => by rw [List.mem_singleton.1 e]; exact self v) d x q
  | insertN c i n v => exact from_put old (ins i _ c (new _)) d x q
  | insertVals c i vs => exact from_put old (ins i _ c (new _)) d x q
  | insertList c i b => exact from_put old (ins i _ c (new _)) d x q
  | erase c i => exact from_put old (fun x m => old c x (List.mem_of_mem_eraseIdx m)) d x q
  | eraseRange c i j => exact from_put old (fun x m => old c x (mem_cut m)) d x q
  | clear c =>
    by_cases em : (S.get c).isEmpty = true
    · have e1 : spec S a (.clear c) = S := if_pos em
      rw [e1] at q; exact old d x q
    · have e1 : spec S a (.clear c) = upd S c (some .cleared) := if_neg em
      rw [e1] at q
      by_cases hdc : d = c
      · subst hdc; simp [State.get, upd, LState.elems] at q
      · simp only [State.get, upd, if_neg hdc] at q; exact old d x q
  | assign c b => exact from_put old (new _) d x q
  | assignN c n v => exact from_put old (new _) d x q
  | assignVals c vs => exact from_put old (new _) d x q
  | resize c n v => exact from_put old (fun x m => (List.mem_append.1 m).elim (fun m => old c x (List.mem_of_mem_take m)) (new _ x)) d x q
  | removeIf c p => exact from_put old (fun x m => old c x (List.mem_filter.1 m).1) d x q
  | remove c eqv v => exact from_put old (fun x m => old c x (List.mem_filter.1 m).1) d x q
  | unique c pred => exact from_put old (fun x m => old c x (mem_uniq _ x m)) d x q
  | merge c b lt =>
    refine from_put (from_put old fun x m => ?_) nil d x q
    exact (List.mem_append.1 ((List.merge_perm_append (le := fun x y : Addr × T => !lt y.2 x.2)).mem_iff.1 m)).elim (old c x) (old b x)
  | reverse c => exact from_put old (fun x m => old c x (List.mem_reverse.1 m)) d x q
  | spliceAll c i b => exact from_put (from_put old (ins i _ c (old b))) nil d x q
  | spliceOne c i b j =>
    by_cases hcd : c = b
    · simp only [spec, if_pos hcd] at q
      exact from_put old (fun x m => old c x ((mem_slice_cut (Nat.le_succ j)).1 (mem_insertAt.1 m))) d x q
    · simp only [spec, if_neg hcd] at q
      exact from_put (from_put old (ins i _ c fun x m => old b x (mem_slice' m))) (fun x m => old b x (mem_cut m)) d x q
  | splice c i b j k =>
    by_cases hcd : c = b
    · simp only [spec, if_pos hcd] at q
      exact from_put old (fun x m => old c x ((mem_insertAt.1 m).elim mem_slice' mem_cut)) d x q
    · simp only [spec, if_neg hcd] at q
      exact from_put (from_put old (ins i _ c fun x m => old b x (mem_slice' m))) (fun x m => old b x (mem_cut m)) d x q
  | swap c b => exact from_put (from_put old (old b)) (old c) d x q
  | store c i v => exact absurd rfl (ns c i v)

theorem exists_of_mem {d : Addr} {x : Addr × T} (m : x ∈ S.get d) : S.Exists d := by
  cases q : S d with
  | none => simp [State.get, q] at m
  | some s => exact ⟨s, q⟩

theorem exists_put {es' : List (Addr × T)} {a : Addr} (h : (S.put c es').Exists d) : d = c ∨ S.Exists d := by
  by_cases hcd : d = c
  · exact .inl hcd
  · obtain ⟨s, q⟩ := h
    rw [put_other _ _ hcd] at q
    exact .inr ⟨s, q⟩

theorem exists_put_old {es' : List (Addr × T)} {a : Addr} {S0 : State T} (old : ∀ d, S.Exists d → S0.Exists d ∨ d = a)
    (hc : S0.Exists c) (h : (S.put c es').Exists d) : S0.Exists d ∨ d = a :=
  (exists_put (a := a) h).elim (fun e => .inl (e ▸ hc)) (old d)

/-- The only list a call can create is the new one. -/
theorem spec_exists (a : Addr) (k : Call T) (lg : Legal S k) (h : (spec S a k).Exists d) : S.Exists d ∨ d = a := by
  have old : ∀ d, S.Exists d → S.Exists d ∨ d = a := fun d q => .inl q
  have int : ∀ {c}, S.Intact c → S.Exists c := fun ⟨es, q⟩ => ⟨_, q⟩
  have drop : ∀ {c : Addr} {o : Option (LState T)}, S.Exists c → State.Exists (upd S c o) d → S.Exists d ∨ d = a := by
    intro c o hc q
    by_cases hdc : d = c
    · exact .inl (hdc ▸ hc)
    · obtain ⟨s, q⟩ := q
      have := (upd_other (α := Option (LState T)) S o hdc).symm.trans q
      exact .inl ⟨s, this⟩
  cases k with
  | create => exact (exists_put (a := a) h).symm
  | copyOf s => exact (exists_put (a := a) h).symm
  | ctorN n v => exact (exists_put (a := a) h).symm
  | ctorVals vs => exact (exists_put (a := a) h).symm
  | destroy c => exact drop lg h
  | clear c =>
    by_cases em : (S.get c).isEmpty = true
    · have e1 : spec S a (.clear c) = S := if_pos em
      rw [e1] at h; exact .inl h
    · have e1 : spec S a (.clear c) = upd S c (some .cleared) := if_neg em
      rw [e1] at h; exact drop lg h
  | merge c b lt => exact exists_put_old (fun d q => exists_put_old old (int lg.1) q) (int lg.2.1) h
  | spliceAll c i b => exact exists_put_old (fun d q => exists_put_old old (int lg.1) q) (int lg.2.1) h
  | spliceOne c i b j =>
    by_cases hcd : c = b
    · simp only [spec, if_pos hcd] at h; exact exists_put_old old (int lg.1) h
    · simp only [spec, if_neg hcd] at h; exact exists_put_old (fun d q => exists_put_old old (int lg.1) q) (int lg.2.1) h
  | splice c i b j k =>
    by_cases hcd : c = b
    · simp only [spec, if_pos hcd] at h; exact exists_put_old old (int lg.1) h
    · simp only [spec, if_neg hcd] at h; exact exists_put_old (fun d q => exists_put_old old (int lg.1) q) (int lg.2.1) h
  | swap c b => exact exists_put_old (fun d q => exists_put_old old lg.1 q) lg.2.1 h
  | pushFront c v => exact exists_put_old old (int lg) h
  | pushBack c v => exact exists_put_old old (int lg) h
  | removeIf c p => exact exists_put_old old (int lg) h
  | remove c eqv v => exact exists_put_old old (int lg) h
  | unique c p => exact exists_put_old old (int lg) h
  | reverse c => exact exists_put_old old (int lg) h
  | _ => exact exists_put_old old (int lg.1) h

/-- **C75.** After every call (also one that removes elements), an element that was in a list before and whose node is still
allocated is in one of the lists, at its address and with its value. (`store` is the client's assignment `*it = v`, which changes
the value at that position, and only the value.) -/
theorem elements_stay_or_go (R : Reach S h) (k : Call T) (lg : Legal S k) :
    ∃ h' S', exec k h = .ok ((), h') ∧ Reach S' h' ∧ ∀ d es, S.Exists d → Shows h d es → ∀ e ∈ es, h'.live e.1 = true →
      ∃ d' es' v, S'.Exists d' ∧ Shows h' d' es' ∧ (e.1, v) ∈ es' ∧ (v = e.2 ∨ ∃ c i, k = .store c i v) := by
  obtain ⟨h', q, R'⟩ := call_returns R k lg
  refine ⟨h', _, q, R', ?_⟩
  intro d es hd hs e he lv
  have hlive := (no_leak R e.1).2 ⟨d, es, hd, hs, .inr (List.mem_map_of_mem he)⟩
  have lt := R.world.wf.used _ hlive
  obtain ⟨d', es', hd', hs', w⟩ := (no_leak R' e.1).1 lv
  have hg' := get_shown R' hd' hs'
  rcases w with w | w
  · exfalso
    rcases spec_exists _ k lg hd' with q | q
    · obtain ⟨s, hs1⟩ := hd
      obtain ⟨t, ht⟩ := q
      have hg := get_shown R ⟨s, hs1⟩ hs
      rw [get_some hs1] at hg
      by_cases hdd : d = d'
      · subst hdd
        have := (World.laid R.world hs1).2.2.2
        rw [hg] at this
        exact (List.nodup_cons.1 this).1 (w ▸ List.mem_map_of_mem he)
      · refine R.world.disj d _ d' _ hs1 ht hdd e.1 ?_ ?_
        · show e.1 ∈ cells d s.elems
          rw [hg]; exact List.mem_cons_of_mem _ (List.mem_map_of_mem he)
        · show e.1 ∈ cells d' t.elems
          rw [w]; exact List.mem_cons_self
    · rw [w, q] at lt; exact Nat.lt_irrefl _ lt
  · obtain ⟨x, hx, hxe⟩ := List.mem_map.1 w
    refine ⟨d', es', x.2, hd', hs', by rw [← hxe]; exact hx, ?_⟩
    have same : ∀ b, ∀ y ∈ S.get b, y.1 = e.1 → y = e := by
      intro b y hy hye
      have hb := exists_of_mem hy
      have L := lists_disjoint R hb hd (reach_shows R hb) hs
      by_cases hbd : b = d
      · subst hbd
        rw [← get_shown R hb hs] at he
        exact inj_of_nodup L.1 hy he hye
      · exact absurd hye (L.2 hbd y hy e he)
    rw [← hg'] at hx
    by_cases st : ∃ c i v, k = .store c i v
    · obtain ⟨c, i, v, st⟩ := st
      subst st
      by_cases hdc : d' = c
      · subst hdc
        have hx' : x ∈ (S.get d').modify i fun e => (e.1, v) := by
          have : (spec S h.fresh (.store d' i v)).get d' = _ := put_get _ _ _
          rwa [this] at hx
        rcases mem_modify_fst _ i x hx' with m | m
        · exact .inl (congrArg Prod.snd (same d' x m hxe))
        · exact .inr ⟨d', i, by rw [m.1]⟩
      · have : (spec S h.fresh (.store c i v)).get d' = S.get d' := put_get_other _ _ hdc
        rw [this] at hx
        exact .inl (congrArg Prod.snd (same d' x hx hxe))
    · rcases spec_from h.fresh k (fun c i v e => st ⟨c, i, v, e⟩) d' x hx with ⟨b, m⟩ | m
      · exact .inl (congrArg Prod.snd (same b x m hxe))
      · rw [hxe] at m
        exact absurd lt (Nat.not_lt.2 m)

end ListProps

namespace FwdProps
open Verif.Seq.FList
open Verif.Seq.DList (fresh insertAt slice cut)
variable {h : Heap T} {S : State T} {c d : Addr}

/-- The element is one of the lists' or its node is new. -/
def From (S : State T) (a : Addr) (e : Addr × T) : Prop := (∃ d, e ∈ S.get d) ∨ a ≤ e.1

theorem from_put {P : Addr × T → Prop} {es' : List (Addr × T)} (h0 : ∀ d, ∀ x ∈ S.get d, P x) (h1 : ∀ x ∈ es', P x) (d : Addr) (x : Addr × T) (q : x ∈ (S.put c es').get d) : P x := by
  by_cases hcd : d = c
  · subst hcd; rw [put_get] at q; exact h1 x q
  · rw [put_get_other _ _ hcd] at q; exact h0 d x q

/-- Where the elements after a call come from. -/
theorem spec_from (a : Addr) (k : Call T) (ns : ∀ c i v, k ≠ .store c i v) (d : Addr) (x : Addr × T) (q : x ∈ (spec S a k).get d) : From S a x := by
  have old : ∀ d, ∀ x ∈ S.get d, From S a x := fun d x m => .inl ⟨d, m⟩
  have new : ∀ vs, ∀ x ∈ fresh a vs, From S a x := fun vs x m => .inr (fresh_addr vs a x m)
  have new1 : ∀ vs, ∀ x ∈ fresh (a + 1) vs, From S a x := fun vs x m => .inr (Nat.le_trans (Nat.le_succ a) (fresh_addr vs (a + 1) x m))
  have nil : ∀ x ∈ ([] : List (Addr × T)), From S a x := fun x m => by cases m
  have self : ∀ v : T, From S a (a, v) := fun v => .inr (Nat.le_refl a)
  have ins : ∀ i xs d, (∀ x ∈ xs, From S a x) → ∀ x ∈ insertAt i xs (S.get d), From S a x := fun i xs d m x q =>
    (mem_insertAt.1 q).elim (m x) (old d x)
  cases k with
  | create => exact from_put old nil d x q
  | copyOf s => exact from_put old (new1 _) d x q
  | ctorN n v => exact from_put old (new1 _) d x q
  | ctorVals vs => exact from_put old (new1 _) d x q
  | destroy c =>
    by_cases hdc : d = c
    · subst hdc; simp [spec, State.get, upd] at q
    · simp only [spec, State.get, upd, if_neg hdc] at q; exact old d x q
  | pushFront c v => exact from_put old (fun x m => (List.mem_cons.1 m).elim (fun e => by rw [e]; exact self v) (old c x)) d x q
  | popFront c => exact from_put old (fun x m => old c x (List.mem_of_mem_tail m)) d x q
  | insert c i v => exact from_put old (ins i _ c fun x e => by rw [List.mem_singleton.1 e]; exact self v) d x q
  | insertN c i n v => exact from_put old (ins i _ c (new _)) d x q
  | insertVals c i vs => exact from_put old (ins i _ c (new _)) d x q
  | insertList c i b => exact from_put old (ins i _ c (new _)) d x q
  | erase c i => exact from_put old (fun x m => old c x (List.mem_of_mem_eraseIdx m)) d x q
  | eraseRange c i j => exact from_put old (fun x m => old c x (mem_cut m)) d x q
  | clear c => exact from_put old nil d x q
  | assign c b => exact from_put old (new _) d x q
  | assignN c n v => exact from_put old (new _) d x q
  | assignVals c vs => exact from_put old (new _) d x q
  | reverse c => exact from_put old (fun x m => old c x (List.mem_reverse.1 m)) d x q
  | spliceAll c i b => exact from_put (from_put old (ins i _ c (old b))) nil d x q
  | spliceOne c i b j =>
    by_cases hcd : c = b
    · simp only [spec, if_pos hcd] at q
      exact from_put old (fun x m => old c x ((mem_slice_cut (Nat.le_succ j)).1 (mem_insertAt.1 m))) d x q
    · simp only [spec, if_neg hcd] at q
      exact from_put (from_put old (ins i _ c fun x m => old b x (mem_slice' m))) (fun x m => old b x (mem_cut m)) d x q
  | splice c i b j k =>
    by_cases hcd : c = b
    · simp only [spec, if_pos hcd] at q
      exact from_put old (fun x m => old c x ((mem_insertAt.1 m).elim mem_slice' mem_cut)) d x q
    · simp only [spec, if_neg hcd] at q
      exact from_put (from_put old (ins i _ c fun x m => old b x (mem_slice' m))) (fun x m => old b x (mem_cut m)) d x q
  | swap c b => exact from_put (from_put old (old b)) (old c) d x q
  | store c i v => exact absurd rfl (ns c i v)

theorem exists_of_mem {d : Addr} {x : Addr × T} (m : x ∈ S.get d) : S.Exists d := by
  cases q : S d with
  | none => simp [State.get, q] at m
  | some s => exact ⟨s, q⟩

theorem exists_put {es' : List (Addr × T)} {a : Addr} (h : (S.put c es').Exists d) : d = c ∨ S.Exists d := by
  by_cases hcd : d = c
  · exact .inl hcd
  · obtain ⟨s, q⟩ := h
    rw [put_other _ _ hcd] at q
    exact .inr ⟨s, q⟩

theorem exists_put_old {es' : List (Addr × T)} {a : Addr} {S0 : State T} (old : ∀ d, S.Exists d → S0.Exists d ∨ d = a)
    (hc : S0.Exists c) (h : (S.put c es').Exists d) : S0.Exists d ∨ d = a :=
  (exists_put (a := a) h).elim (fun e => .inl (e ▸ hc)) (old d)

/-- The only list a call can create is the new one. -/
theorem spec_exists (a : Addr) (k : Call T) (lg : Legal S k) (h : (spec S a k).Exists d) : S.Exists d ∨ d = a := by
  have old : ∀ d, S.Exists d → S.Exists d ∨ d = a := fun d q => .inl q
  have drop : ∀ {c : Addr} {o : Option (List (Addr × T))}, S.Exists c → State.Exists (upd S c o) d → S.Exists d ∨ d = a := by
    intro c o hc q
    by_cases hdc : d = c
    · exact .inl (hdc ▸ hc)
    · obtain ⟨s, q⟩ := q
      have := (upd_other (α := Option (List (Addr × T))) S o hdc).symm.trans q
      exact .inl ⟨s, this⟩
  cases k with
  | create => exact (exists_put (a := a) h).symm
  | copyOf s => exact (exists_put (a := a) h).symm
  | ctorN n v => exact (exists_put (a := a) h).symm
  | ctorVals vs => exact (exists_put (a := a) h).symm
  | destroy c => exact drop lg h
  | clear c => exact exists_put_old old lg h
  | spliceAll c i b => exact exists_put_old (fun d q => exists_put_old old lg.1 q) lg.2.1 h
  | spliceOne c i b j =>
    by_cases hcd : c = b
    · simp only [spec, if_pos hcd] at h; exact exists_put_old old lg.1 h
    · simp only [spec, if_neg hcd] at h; exact exists_put_old (fun d q => exists_put_old old lg.1 q) lg.2.1 h
  | splice c i b j k =>
    by_cases hcd : c = b
    · simp only [spec, if_pos hcd] at h; exact exists_put_old old lg.1 h
    · simp only [spec, if_neg hcd] at h; exact exists_put_old (fun d q => exists_put_old old lg.1 q) lg.2.1 h
  | swap c b => exact exists_put_old (fun d q => exists_put_old old lg.1 q) lg.2 h
  | assignVals c vs => exact exists_put_old old lg h
  | pushFront c v => exact exists_put_old old lg h
  | reverse c => exact exists_put_old old lg h
  | _ => exact exists_put_old old lg.1 h

/-- **C78.** After every call (also one that removes elements), an element that was in a list before and whose node is still
allocated is in one of the lists, at its address and with its value. (`store` is the client's assignment `*it = v`, which changes
the value at that position, and only the value.) -/
theorem elements_stay_or_go (R : Reach S h) (k : Call T) (lg : Legal S k) :
    ∃ h' S', exec k h = .ok ((), h') ∧ Reach S' h' ∧ ∀ d es, S.Exists d → Shows h d es → ∀ e ∈ es, h'.live e.1 = true →
      ∃ d' es' v, S'.Exists d' ∧ Shows h' d' es' ∧ (e.1, v) ∈ es' ∧ (v = e.2 ∨ ∃ c i, k = .store c i v) := by
  obtain ⟨h', q, R'⟩ := call_returns R k lg
  refine ⟨h', _, q, R', ?_⟩
  intro d es hd hs e he lv
  have hlive := (no_leak R e.1).2 ⟨d, es, hd, hs, .inr (List.mem_map_of_mem he)⟩
  have lt := R.world.wf.used _ hlive
  obtain ⟨d', es', hd', hs', w⟩ := (no_leak R' e.1).1 lv
  have hg' := get_shown R' hd' hs'
  rcases w with w | w
  · exfalso
    rcases spec_exists _ k lg hd' with q | q
    · obtain ⟨hd1, r⟩ := shown R hd hs
      obtain ⟨t, ht⟩ := q
      by_cases hdd : d = d'
      · subst hdd
        exact (List.nodup_cons.1 r.nodup).1 (w ▸ List.mem_map_of_mem he)
      · refine R.world.disj d _ d' _ hd1 ht hdd e.1 ?_ ?_
        · exact List.mem_cons_of_mem _ (List.mem_map_of_mem he)
        · rw [w]; exact List.mem_cons_self
    · rw [w, q] at lt; exact Nat.lt_irrefl _ lt
  · obtain ⟨x, hx, hxe⟩ := List.mem_map.1 w
    refine ⟨d', es', x.2, hd', hs', by rw [← hxe]; exact hx, ?_⟩
    have same : ∀ b, ∀ y ∈ S.get b, y.1 = e.1 → y = e := by
      intro b y hy hye
      have hb := exists_of_mem hy
      have L := lists_disjoint R hb hd (reach_shows R hb) hs
      by_cases hbd : b = d
      · subst hbd
        rw [← get_shown R hb hs] at he
        exact inj_of_nodup L.1 hy he hye
      · exact absurd hye (L.2 hbd y hy e he)
    rw [← hg'] at hx
    by_cases st : ∃ c i v, k = .store c i v
    · obtain ⟨c, i, v, st⟩ := st
      subst st
      by_cases hdc : d' = c
      · subst hdc
        have hx' : x ∈ (S.get d').modify i fun e => (e.1, v) := by
          have : (spec S h.fresh (.store d' i v)).get d' = _ := put_get _ _ _
          rwa [this] at hx
        rcases mem_modify_fst _ i x hx' with m | m
        · exact .inl (congrArg Prod.snd (same d' x m hxe))
        · exact .inr ⟨d', i, by rw [m.1]⟩
      · have : (spec S h.fresh (.store c i v)).get d' = S.get d' := put_get_other _ _ hdc
        rw [this] at hx
        exact .inl (congrArg Prod.snd (same d' x hx hxe))
    · rcases spec_from h.fresh k (fun c i v e => st ⟨c, i, v, e⟩) d' x hx with ⟨b, m⟩ | m
      · exact .inl (congrArg Prod.snd (same b x m hxe))
      · rw [hxe] at m
        exact absurd lt (Nat.not_lt.2 m)

end FwdProps

namespace BwdProps
open Verif.Seq.BList
open Verif.Seq.DList (fresh insertAt slice cut)
variable {h : Heap T} {S : State T} {c d : Addr}

/-- The element is one of the lists' or its node is new. -/
def From (S : State T) (a : Addr) (e : Addr × T) : Prop := (∃ d, e ∈ S.get d) ∨ a ≤ e.1

theorem from_put {P : Addr × T → Prop} {es' : List (Addr × T)} {t : Addr} (h0 : ∀ d, ∀ x ∈ S.get d, P x) (h1 : ∀ x ∈ es', P x) (d : Addr) (x : Addr × T) (q : x ∈ (S.put c es' t).get d) : P x := by
  by_cases hcd : d = c
  · subst hcd; rw [put_get] at q; exact h1 x q
  · rw [put_get_other _ _ _ hcd] at q; exact h0 d x q

/-- Where the elements after a call come from. -/
theorem spec_from (a : Addr) (k : Call T) (ns : ∀ c i v, k ≠ .store c i v) (d : Addr) (x : Addr × T) (q : x ∈ (spec S a k).get d) : From S a x := by
  have old : ∀ d, ∀ x ∈ S.get d, From S a x := fun d x m => .inl ⟨d, m⟩
  have new : ∀ vs, ∀ x ∈ fresh a vs, From S a x := fun vs x m => .inr (fresh_addr vs a x m)
  have new1 : ∀ vs, ∀ x ∈ fresh (a + 1) vs, From S a x := fun vs x m => .inr (Nat.le_trans (Nat.le_succ a) (fresh_addr vs (a + 1) x m))
  have nil : ∀ x ∈ ([] : List (Addr × T)), From S a x := fun x m => by cases m
  have self : ∀ v : T, From S a (a, v) := fun v => .inr (Nat.le_refl a)
  have ins : ∀ i xs d, (∀ x ∈ xs, From S a x) → ∀ x ∈ insertAt i xs (S.get d), From S a x := fun i xs d m x q =>
    (mem_insertAt.1 q).elim (m x) (old d x)
  cases k with
  | create => exact from_put old nil d x q
  | copyOf s => exact from_put old (new1 _) d x q
  | ctorN n v => exact from_put old (new1 _) d x q
  | ctorVals vs => exact from_put old (new1 _) d x q
  | destroy c =>
    by_cases hdc : d = c
    · subst hdc; simp [spec, State.get, upd] at q
    · simp only [spec, State.get, upd, if_neg hdc] at q; exact old d x q
  | pushFront c v => exact from_put old (fun x m => (List.mem_cons.1 m).elim (fun e => by rw [e]; exact self v) (old c x)) d x q
  | pushBack c v => exact from_put old (ins _ _ c fun x e => by rw [List.mem_singleton.1 e]; exact self v) d x q
  | popFront c => exact from_put old (fun x m => old c x (List.mem_of_mem_tail m)) d x q
  | insert c i v => exact from_put old (ins i _ c fun x e => by rw [List.mem_singleton.1 e]; exact self v) d x q
  | insertN c i n v => exact from_put old (ins i _ c (new _)) d x q
  | insertVals c i vs => exact from_put old (ins i _ c (new _)) d x q
  | insertList c i b => exact from_put old (ins i _ c (new _)) d x q
  | erase c i => exact from_put old (fun x m => old c x (List.mem_of_mem_eraseIdx m)) d x q
  | eraseRange c i j => exact from_put old (fun x m => old c x (mem_cut m)) d x q
  | clear c => exact from_put old nil d x q
  | assign c b => exact from_put old (new _) d x q
  | assignN c n v => exact from_put old (new _) d x q
  | assignVals c vs => exact from_put old (new _) d x q
  | reverse c => exact from_put old (fun x m => old c x (List.mem_reverse.1 m)) d x q
  | swap c b => exact from_put (from_put old (old b)) (old c) d x q
  | store c i v => exact absurd rfl (ns c i v)

theorem exists_of_mem {d : Addr} {x : Addr × T} (m : x ∈ S.get d) : S.Exists d := by
  cases q : S d with
  | none => simp [State.get, q] at m
  | some s => exact ⟨s, q⟩

theorem exists_put {es' : List (Addr × T)} {t : Addr} {a : Addr} (h : (S.put c es' t).Exists d) : d = c ∨ S.Exists d := by
  by_cases hcd : d = c
  · exact .inl hcd
  · obtain ⟨s, q⟩ := h
    rw [put_other _ _ _ hcd] at q
    exact .inr ⟨s, q⟩

theorem exists_put_old {es' : List (Addr × T)} {t : Addr} {a : Addr} {S0 : State T} (old : ∀ d, S.Exists d → S0.Exists d ∨ d = a)
    (hc : S0.Exists c) (h : (S.put c es' t).Exists d) : S0.Exists d ∨ d = a :=
  (exists_put (a := a) h).elim (fun e => .inl (e ▸ hc)) (old d)

/-- The only list a call can create is the new one. -/
theorem spec_exists (a : Addr) (k : Call T) (lg : Legal S k) (h : (spec S a k).Exists d) : S.Exists d ∨ d = a := by
  have old : ∀ d, S.Exists d → S.Exists d ∨ d = a := fun d q => .inl q
  have drop : ∀ {c : Addr} {o : Option (BState T)}, S.Exists c → State.Exists (upd S c o) d → S.Exists d ∨ d = a := by
    intro c o hc q
    by_cases hdc : d = c
    · exact .inl (hdc ▸ hc)
    · obtain ⟨s, q⟩ := q
      have := (upd_other (α := Option (BState T)) S o hdc).symm.trans q
      exact .inl ⟨s, this⟩
  cases k with
  | create => exact (exists_put (a := a) h).symm
  | copyOf s => exact (exists_put (a := a) h).symm
  | ctorN n v => exact (exists_put (a := a) h).symm
  | ctorVals vs => exact (exists_put (a := a) h).symm
  | destroy c => exact drop lg h
  | clear c => exact exists_put_old old lg h
  | swap c b => exact exists_put_old (fun d q => exists_put_old old lg.1 q) lg.2 h
  | assignVals c vs => exact exists_put_old old lg h
  | pushFront c v => exact exists_put_old old lg h
  | reverse c => exact exists_put_old old lg h
  | _ => exact exists_put_old old lg.1 h

/-- **C83.** After every call (also one that removes elements), an element that was in a list before and whose node is still
allocated is in one of the lists, at its address and with its value. (`store` is the client's assignment `*it = v`, which changes
the value at that position, and only the value.) -/
theorem elements_stay_or_go (R : Reach S h) (k : Call T) (lg : Legal S k) :
    ∃ h' S', exec k h = .ok ((), h') ∧ Reach S' h' ∧ ∀ d es, S.Exists d → Shows h d es → ∀ e ∈ es, h'.live e.1 = true →
      ∃ d' es' v, S'.Exists d' ∧ Shows h' d' es' ∧ (e.1, v) ∈ es' ∧ (v = e.2 ∨ ∃ c i, k = .store c i v) := by
  obtain ⟨h', q, R'⟩ := call_returns R k lg
  refine ⟨h', _, q, R', ?_⟩
  intro d es hd hs e he lv
  have hlive := (no_leak R e.1).2 ⟨d, es, hd, hs, .inr (List.mem_map_of_mem he)⟩
  have lt := R.world.wf.used _ hlive
  obtain ⟨d', es', hd', hs', w⟩ := (no_leak R' e.1).1 lv
  have hg' := get_shown R' hd' hs'
  rcases w with w | w
  · exfalso
    rcases spec_exists _ k lg hd' with q | q
    · obtain ⟨u, hd1, r, _⟩ := shown R hd hs
      obtain ⟨t, ht⟩ := q
      by_cases hdd : d = d'
      · subst hdd
        exact (List.nodup_cons.1 r.nodup).1 (w ▸ List.mem_map_of_mem he)
      · refine R.world.disj d _ d' _ hd1 ht hdd e.1 ?_ ?_
        · exact List.mem_cons_of_mem _ (List.mem_map_of_mem he)
        · rw [w]; exact List.mem_cons_self
    · rw [w, q] at lt; exact Nat.lt_irrefl _ lt
  · obtain ⟨x, hx, hxe⟩ := List.mem_map.1 w
    refine ⟨d', es', x.2, hd', hs', by rw [← hxe]; exact hx, ?_⟩
    have same : ∀ b, ∀ y ∈ S.get b, y.1 = e.1 → y = e := by
      intro b y hy hye
      have hb := exists_of_mem hy
      have L := lists_disjoint R hb hd (reach_shows R hb) hs
      by_cases hbd : b = d
      · subst hbd
        rw [← get_shown R hb hs] at he
        exact inj_of_nodup L.1 hy he hye
      · exact absurd hye (L.2 hbd y hy e he)
    rw [← hg'] at hx
    by_cases st : ∃ c i v, k = .store c i v
    · obtain ⟨c, i, v, st⟩ := st
      subst st
      by_cases hdc : d' = c
      · subst hdc
        have hx' : x ∈ (S.get d').modify i fun e => (e.1, v) := by
          have : (spec S h.fresh (.store d' i v)).get d' = _ := put_get _ _ _ _
          rwa [this] at hx
        rcases mem_modify_fst _ i x hx' with m | m
        · exact .inl (congrArg Prod.snd (same d' x m hxe))
        · exact .inr ⟨d', i, by rw [m.1]⟩
      · have : (spec S h.fresh (.store c i v)).get d' = S.get d' := put_get_other _ _ _ hdc
        rw [this] at hx
        exact .inl (congrArg Prod.snd (same d' x hx hxe))
    · rcases spec_from h.fresh k (fun c i v e => st ⟨c, i, v, e⟩) d' x hx with ⟨b, m⟩ | m
      · exact .inl (congrArg Prod.snd (same b x m hxe))
      · rw [hxe] at m
        exact absurd lt (Nat.not_lt.2 m)

end BwdProps
end Verif.Seq
