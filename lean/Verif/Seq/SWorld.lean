import Verif.Seq.SOps2
import Verif.Seq.ListStep
/-!
# Changing one or two containers of a world

For any kind of container; the two-container lemma is for the singly linked ones.
-/
set_option linter.unusedVariables false
namespace Verif.Seq
open Verif
open Verif.Seq.DList (Relink)
variable {T σ : Type} {I : Iface T σ} {h h' : Heap T} {S : Addr → Option σ}

theorem World.chg (W : World I h S) {c : Addr} {s s' : σ} (hc : S c = some s)
    (ef : Effect (· ∈ I.cells c s) (· ∈ I.cells c s') h h') (o : I.own h' c s') : World I h' (upd S c (some s')) := by
  refine World.step1 W c (some s') (ef.congr ?_ ?_) ?_
  · intro x; rw [hc]; constructor
    · intro hx; exact ⟨_, rfl, hx⟩
    · rintro ⟨s, q, hx⟩; cases q; exact hx
  · intro x; constructor
    · intro hx; exact ⟨_, rfl, hx⟩
    · rintro ⟨s, q, hx⟩; cases q; exact hx
  · intro s q; cases q; exact o

theorem World.fresh_none (W : World I h S) : S h.fresh = none := by
  cases q : S h.fresh with
  | none => rfl
  | some s => exact absurd rfl (W.wf.ne_fresh (I.live (W.own _ _ q) _ (I.self _ _)))

theorem World.made (W : World I h S) {s' : σ} (ef : Effect (fun _ => False) (· ∈ I.cells h.fresh s') h h')
    (o : I.own h' h.fresh s') : World I h' (upd S h.fresh (some s')) := by
  have h0 := W.fresh_none
  refine World.step1 W h.fresh (some s') (ef.congr ?_ ?_) ?_
  · intro x; rw [h0]; simp
  · intro x; constructor
    · intro hx; exact ⟨_, rfl, hx⟩
    · rintro ⟨s, q, hx⟩; cases q; exact hx
  · intro s q; cases q; exact o

theorem World.gone (W : World I h S) {c : Addr} {s : σ} (hc : S c = some s) (ef : Effect (· ∈ I.cells c s) (fun _ => False) h h') :
    World I h' (upd S c none) := by
  refine World.step1 W c none (ef.congr ?_ ?_) (by intro s q; cases q)
  · intro x; rw [hc]; constructor
    · intro hx; exact ⟨_, rfl, hx⟩
    · rintro ⟨s, q, hx⟩; cases q; exact hx
  · intro x; simp

/-- Two chains exchange nodes (or only links). -/
theorem World.swapped (el : σ → List (Addr × T)) (ic : ∀ c s, I.cells c s = scells c (el s))
    (io : ∀ {h c s}, I.own h c s → Slist h c (el s)) (W : World I h S) {c d : Addr} {s t s' t' : σ} (hcd : c ≠ d)
    (hc : S c = some s) (hd : S d = some t) (ef : Effect (fun x => x ∈ scells c (el s) ∨ x ∈ scells d (el t))
      (fun x => x ∈ scells c (el s) ∨ x ∈ scells d (el t)) h h') (r : I.own h' c s') (r' : I.own h' d t')
    (pm : List.Perm (el s' ++ el t') (el s ++ el t)) : World I h' (upd (upd S c (some s')) d (some t')) := by
  have mm : ∀ x, (x ∈ (el s').map Prod.fst ∨ x ∈ (el t').map Prod.fst) ↔ (x ∈ (el s).map Prod.fst ∨ x ∈ (el t).map Prod.fst) := by
    intro x
    rw [← List.mem_append, ← List.mem_append, ← List.map_append, ← List.map_append]
    exact (pm.map _).mem_iff
  have dj : ∀ x ∈ scells c (el s), x ∉ scells d (el t) := by
    have := W.disj c s d t hc hd hcd; rwa [ic, ic] at this
  have nc := List.nodup_cons.1 (io (W.own _ _ hc)).nodup
  have nd := List.nodup_cons.1 (io (W.own _ _ hd)).nodup
  have nn : ((el s').map Prod.fst ++ (el t').map Prod.fst).Nodup := by
    rw [← List.map_append, (pm.map _).nodup_iff, List.map_append, List.nodup_append]
    refine ⟨nc.2, nd.2, ?_⟩
    intro a ha b hb q
    subst q
    exact dj a (by simp only [scells, List.mem_cons]; exact .inr ha) (by simp only [scells, List.mem_cons]; exact .inr hb)
  refine World.step2 W (sa' := s') (sb' := t') hcd hc hd (ef.congr ?_ ?_) r r' ?_
  · intro x; rw [ic, ic]
  · intro x
    have := mm x
    rw [ic, ic]
    simp only [scells, List.mem_cons]
    revert this
    generalize (x ∈ (el s').map Prod.fst) = p1
    generalize (x ∈ (el t').map Prod.fst) = p2
    generalize (x ∈ (el s).map Prod.fst) = p3
    generalize (x ∈ (el t).map Prod.fst) = p4
    clear mm dj nc nd nn pm ef r r'
    grind
  · intro x h1 h2
    rw [ic] at h1 h2
    simp only [scells, List.mem_cons] at h1 h2
    rcases h1 with rfl | h1
    · rcases h2 with h2 | h2
      · exact hcd h2
      · rcases (mm x).1 (.inr h2) with q | q
        · exact nc.1 q
        · exact dj x (by simp [scells]) (by simp only [scells, List.mem_cons]; exact .inr q)
    · rcases h2 with rfl | h2
      · rcases (mm x).1 (.inl h1) with q | q
        · exact dj x (by simp only [scells, List.mem_cons]; exact .inr q) (by simp [scells])
        · exact nd.1 q
      · exact (List.nodup_append.1 nn).2.2 x h1 x h2 rfl

/-- A call returns `a` in a memory that holds the containers of `S'` and nothing else. -/
def GoodR {α : Type} (I : Iface T σ) (p : Prog (Heap T) α) (h : Heap T) (a : α) (S' : Addr → Option σ) : Prop :=
  ∃ h', p h = .ok (a, h') ∧ World I h' S' ∧ h.fresh ≤ h'.fresh

theorem GoodR.drop {α : Type} {p : Prog (Heap T) α} {a : α} {S' : Addr → Option σ} (g : GoodR I p h a S') :
    GoodR I (do let _ ← p) h () S' := by
  obtain ⟨h', q, W', m⟩ := g
  exact ⟨h', by simp only [Prog.bind_app, q, Res.bind_ok, Prog.pure_app], W', m⟩

theorem GoodR.of_eq {α β : Type} {p : Prog (Heap T) α} {p' : Prog (Heap T) β} {a : α} {b : β} {S' : Addr → Option σ} (g : GoodR I p h a S')
    (e : ∀ h', p h = .ok (a, h') → p' h = .ok (b, h')) : GoodR I p' h b S' := by
  obtain ⟨h', q, W', m⟩ := g
  exact ⟨h', e h' q, W', m⟩

theorem blank_world (b : DList.Blank h) : World I h (fun _ => none) :=
  ⟨⟨b.fresh, b.nothing 0, fun x l => absurd l (by rw [b.nothing x]; simp)⟩, fun c s q => absurd q (by simp),
    fun c s c' s' q => absurd q (by simp), fun x l => absurd l (by rw [b.nothing x]; simp)⟩

end Verif.Seq
