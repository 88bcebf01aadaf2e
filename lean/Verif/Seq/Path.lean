import Verif.Seq.Heap
/-!
# Singly linked paths
-/
namespace Verif.Seq
variable {T : Type}

/-- Following `next` from `p` visits `ns` and then arrives at `z`. -/
def Path (h : Heap T) (p : Addr) : List Addr → Addr → Prop
  | [], z => h.next p = z
  | n :: ns, z => h.next p = n ∧ Path h n ns z

theorem Path.congr {h h' : Heap T} : ∀ {ns : List Addr} {p z : Addr}, Path h p ns z →
    (∀ x ∈ p :: ns, h'.next x = h.next x) → Path h' p ns z
  | [], p, z, a, e => (e p (by simp)).trans a
  | n :: ns, p, z, a, e =>
    ⟨(e p (by simp)).trans a.1, a.2.congr fun x hx => e x (List.mem_cons_of_mem _ hx)⟩

theorem Path.append {h : Heap T} : ∀ {A : List Addr} {p x z : Addr} {B : List Addr},
    Path h p (A ++ x :: B) z ↔ Path h p A x ∧ Path h x B z
  | [], p, x, z, B => by simp [Path]
  | a :: A, p, x, z, B => by
    have := Path.append (h := h) (A := A) (p := a) (x := x) (z := z) (B := B)
    simp only [List.cons_append, Path, this, and_assoc]

theorem Path.next_head {h : Heap T} {p z : Addr} {ns : List Addr} (a : Path h p ns z) : h.next p = ns.headD z := by
  cases ns with
  | nil => exact a
  | cons n ns => exact a.1

end Verif.Seq
