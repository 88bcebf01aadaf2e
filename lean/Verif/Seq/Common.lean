import Verif.Seq.ListApi
/-!
# Vocabulary shared by the properties of the linked lists
-/
set_option linter.unusedVariables false
namespace Verif.Seq
open Verif
open Verif.Seq.DList (fresh insertAt slice cut Blank Relink)
variable {T : Type}

theorem fresh_values : ∀ (vs : List T) (a : Addr), (fresh a vs).map Prod.snd = vs
  | [], _ => rfl
  | v :: vs, a => by simp [fresh, fresh_values vs]

theorem fresh_addr : ∀ (vs : List T) (a : Addr), ∀ e ∈ fresh a vs, a ≤ e.1
  | [], _, e, he => by cases he
  | v :: vs, a, e, he => by
    rcases List.mem_cons.1 he with rfl | he
    · exact Nat.le_refl _
    · exact Nat.le_of_succ_le (fresh_addr vs (a + 1) e he)

/-- `new` nodes: values `vs`, at addresses that were not allocated before. -/
structure NewNodes (h : Heap T) (ns : List (Addr × T)) (vs : List T) : Prop where
  values : ns.map Prod.snd = vs
  unused : ∀ e ∈ ns, h.live e.1 = false

/-- Nothing was allocated and nothing released, and every value is where it was. -/
structure NoAlloc (h h' : Heap T) : Prop where
  live : h'.live = h.live
  fresh : h'.fresh = h.fresh
  val : h'.val = h.val

theorem Relink.noAlloc {C : Addr → Prop} {h h' : Heap T} (k : Relink C h h') : NoAlloc h h' := ⟨k.live, k.fresh, k.val⟩

theorem mem_insertAt {α : Type} {i : Nat} {xs es : List α} {x : α} : x ∈ insertAt i xs es ↔ x ∈ xs ∨ x ∈ es := by
  have : x ∈ es ↔ x ∈ es.take i ∨ x ∈ es.drop i := by rw [← List.mem_append, List.take_append_drop]
  unfold insertAt
  rw [List.mem_append, List.mem_append, this]
  constructor
  · rintro (q | q | q)
    · exact .inr (.inl q)
    · exact .inl q
    · exact .inr (.inr q)
  · rintro (q | q | q)
    · exact .inr (.inl q)
    · exact .inl q
    · exact .inr (.inr q)

theorem mem_slice_cut {α : Type} {j k : Nat} (hjk : j ≤ k) {es : List α} {x : α} : x ∈ slice j k es ∨ x ∈ cut j k es ↔ x ∈ es := by
  have e : slice j k es ++ es.drop k = es.drop j := by
    unfold slice
    have : es.drop k = (es.drop j).drop (k - j) := by rw [List.drop_drop]; congr 1; omega
    rw [this, List.take_append_drop]
  have h1 : x ∈ es ↔ x ∈ es.take j ∨ x ∈ es.drop j := by rw [← List.mem_append, List.take_append_drop]
  rw [h1, ← e]
  unfold cut
  rw [List.mem_append, List.mem_append]
  constructor
  · rintro (q | q | q)
    · exact .inr (.inl q)
    · exact .inl q
    · exact .inr (.inr q)
  · rintro (q | q | q)
    · exact .inr (.inl q)
    · exact .inl q
    · exact .inr (.inr q)

/-- An empty memory. -/
def blank (T : Type) : Heap T :=
  { next := fun _ => 77, prev := fun _ => 78, tail := fun _ => 79, val := fun _ => none, live := fun _ => false, fresh := 1 }

theorem blank_blank : Blank (blank T) := ⟨fun _ => rfl, Nat.zero_lt_one⟩

end Verif.Seq
