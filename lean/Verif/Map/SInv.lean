import Verif.Map.SModel
/-!
# Invariant of memories with sorted vector maps
-/
set_option linter.unusedVariables false
set_option linter.unusedSimpArgs false
namespace Verif.SVMap
open Verif Verif.Vec
variable {K V : Type}

/-- State of one map: its array, the capacity of the array, and its nodes in order with their contents. -/
structure SS (K V : Type) where
  blk : Nat
  cap : Nat
  nodes : List (Nat × K × V)

/-- The key-value pairs. -/
def SS.vals (s : SS K V) : List (K × V) := s.nodes.map (·.2)
/-- The nodes. -/
def SS.ids (s : SS K V) : List Nat := s.nodes.map (·.1)
/-- The blocks the map owns. -/
def SS.blocks (s : SS K V) : List Nat := (if s.blk = 0 then [] else [s.blk]) ++ s.ids

/-- A block with one pair. -/
def one (e : K × V) : Nat → Option (Cell K V) := fun i => if i = 0 then some (.pair e.1 e.2) else none

/-- The map `c` has state `s` in memory `h`. -/
structure IsSM (h : Mem K V) (c : Nat) (s : SS K V) : Prop where
  obj : h.obj c = some ⟨⟨s.blk, 0⟩, ⟨s.blk, s.nodes.length⟩, ⟨s.blk, s.cap⟩⟩
  le : s.nodes.length ≤ s.cap
  arr : s.blk = 0 ∧ s.cap = 0 ∨ s.blk ≠ 0 ∧ h.size s.blk = some s.cap
  slots : ∀ i e, s.nodes[i]? = some e → h.slot s.blk i = some (.ptr ⟨e.1, 0⟩)
  tail : ∀ i x, s.nodes.length ≤ i → h.slot s.blk i = some x → ∃ q : Ptr, x = .ptr q ∧ h.size q.blk = none ∧ q.blk < h.fresh
  node : ∀ e ∈ s.nodes, h.size e.1 = some 1 ∧ h.slot e.1 = one e.2 ∧ e.1 ≠ 0
  nodup : s.blocks.Nodup

/-- The maps that exist and their states. -/
def State (K V : Type) : Type := Nat → Option (SS K V)
def State.set (S : State K V) (c : Nat) (o : Option (SS K V)) : State K V := fun d => if d = c then o else S d
def State.Exists (S : State K V) (c : Nat) : Prop := ∃ s, S c = some s
/-- The blocks owned by the map `c`. -/
def State.own (S : State K V) (c : Nat) : List Nat := match S c with | some s => s.blocks | none => []

theorem set_same (S : State K V) (c : Nat) (o : Option (SS K V)) : S.set c o c = o := by simp [State.set]
theorem set_other (S : State K V) {c d : Nat} (q : d ≠ c) (o : Option (SS K V)) : S.set c o d = S d := by simp [State.set, q]
theorem set_set (S : State K V) (c : Nat) (s s' : Option (SS K V)) : (S.set c s).set c s' = S.set c s' := by
  funext d; simp only [State.set]; split <;> rfl
theorem set_self' (S : State K V) (c : Nat) : S.set c (S c) = S := by
  funext d; simp only [State.set]; split
  · rename_i e; rw [e]
  · rfl
theorem set_exists (S : State K V) (c : Nat) (s : SS K V) : (S.set c (some s)).Exists c := ⟨s, set_same ..⟩
theorem own_some {S : State K V} {c : Nat} {s : SS K V} (q : S c = some s) : S.own c = s.blocks := by simp [State.own, q]
theorem own_none {S : State K V} {c : Nat} (q : S c = none) : S.own c = [] := by simp [State.own, q]

/-- Blocks and objects that are lost. -/
structure Gone where
  blk : Nat → Prop
  obj : Nat → Prop

/-- The invariant of memories. `G` are blocks that no map owns and that nobody will release, and objects nobody may use (`Verif.Exc.SModel`):
there are none if nothing throws. -/
structure WorldG (G : Gone) (h : Mem K V) (S : State K V) : Prop where
  sm : ∀ c s, S c = some s → IsSM h c s
  objG : ∀ c, S c = none → ¬ G.obj c → h.obj c = none
  lt : ∀ c s, S c = some s → c < h.fresh
  ownG : ∀ b, (∀ c, b ∉ S.own c) → ¬ G.blk b → h.size b = none ∧ ∀ i, h.slot b i = none
  disj : ∀ c d b, b ∈ S.own c → b ∈ S.own d → c = d
  bound : ∀ c b, b ∈ S.own c → b < h.fresh ∧ b ≠ 0
  pos : 0 < h.fresh
  goneB : ∀ b, G.blk b → b < h.fresh ∧ b ≠ 0 ∧ ∀ c, b ∉ S.own c
  goneO : ∀ c, G.obj c → c < h.fresh ∧ S c = none

/-- Nothing. -/
def Nowhere : Gone := ⟨fun _ => False, fun _ => False⟩
/-- The invariant of every reachable memory. -/
abbrev World (h : Mem K V) (S : State K V) : Prop := WorldG Nowhere h S
theorem WorldG.obj {h : Mem K V} {S : State K V} (W : WorldG Nowhere h S) : ∀ c, S c = none → h.obj c = none := fun c q => W.objG c q fun g => g
theorem WorldG.own {h : Mem K V} {S : State K V} (W : WorldG Nowhere h S) : ∀ b, (∀ c, b ∉ S.own c) → h.size b = none ∧ ∀ i, h.slot b i = none :=
  fun b q => W.ownG b q fun g => g
theorem WorldG.free {G : Gone} {h : Mem K V} {S : State K V} (W : WorldG G h S) {b : Nat} (q : h.fresh ≤ b) : h.size b = none ∧ ∀ i, h.slot b i = none :=
  W.ownG b (fun c k => Nat.not_le.2 (W.bound c b k).1 q) fun g => Nat.not_le.2 (W.goneB b g).1 q
theorem WorldG.zero {G : Gone} {h : Mem K V} {S : State K V} (W : WorldG G h S) : h.size 0 = none ∧ ∀ i, h.slot 0 i = none :=
  W.ownG 0 (fun c k => (W.bound c 0 k).2 rfl) fun g => (W.goneB 0 g).2.1 rfl

theorem WorldG.not_gone {G : Gone} {h : Mem K V} {S : State K V} (W : WorldG G h S) {c : Nat} {s : SS K V} (q : S c = some s) : ¬ G.obj c :=
  fun g => by rw [(W.goneO c g).2] at q; cases q
theorem WorldG.not_fresh {G : Gone} {h : Mem K V} {S : State K V} (W : WorldG G h S) : ¬ G.obj h.fresh := fun g => Nat.lt_irrefl _ (W.goneO _ g).1

theorem IsSM.own_size {h : Mem K V} {c : Nat} {s : SS K V} (v : IsSM h c s) {b : Nat} (q : b ∈ s.blocks) : h.size b ≠ none := by
  simp only [SS.blocks, List.mem_append, SS.ids, List.mem_map] at q
  rcases q with q | ⟨e, he, rfl⟩
  · rcases v.arr with ⟨z, _⟩ | ⟨z, z'⟩
    · simp [z] at q
    · simp [z] at q; subst q; rw [z']; simp
  · rw [(v.node e he).1]; simp

theorem WorldG.size_own {G : Gone} {h : Mem K V} {S : State K V} (W : WorldG G h S) {c b : Nat} (q : b ∈ S.own c) : h.size b ≠ none := by
  cases g : S c with
  | none => rw [own_none g] at q; cases q
  | some s => rw [own_some g] at q; exact (W.sm c s g).own_size q

theorem blk_mem {s : SS K V} (q : s.blk ≠ 0) : s.blk ∈ s.blocks := by simp [SS.blocks, q]
theorem node_mem {s : SS K V} {e : Nat × K × V} (q : e ∈ s.nodes) : e.1 ∈ s.blocks := by
  simp only [SS.blocks, List.mem_append, SS.ids, List.mem_map]; exact .inr ⟨e, q, rfl⟩

/-- A call that changes (creates, destroys) one map `c` only and allocates and releases its blocks. -/
theorem WorldG.change {G : Gone} {h h' : Mem K V} {S : State K V} (W : WorldG G h S) (c : Nat) (o : Option (SS K V))
    (cg : ¬ G.obj c)
    (lt' : ∀ s, o = some s → c < h'.fresh)
    (fr : h.fresh ≤ h'.fresh)
    (ob : ∀ d, d ≠ c → h'.obj d = h.obj d)
    (sm' : ∀ s, o = some s → IsSM h' c s)
    (no : o = none → h'.obj c = none)
    (new : ∀ s, o = some s → ∀ b ∈ s.blocks, (b ∈ S.own c ∨ h.fresh ≤ b) ∧ b < h'.fresh)
    (keep : ∀ b, b ∉ S.own c → (∀ s, o = some s → b ∉ s.blocks) → h'.size b = h.size b ∧ h'.slot b = h.slot b)
    (gone : ∀ b, b ∈ S.own c → (∀ s, o = some s → b ∉ s.blocks) → h'.size b = none ∧ ∀ i, h'.slot b i = none) :
    WorldG G h' (S.set c o) := by
  have ownc : ∀ s, o = some s → (S.set c o).own c = s.blocks := fun s e => own_some ((set_same ..).trans e)
  have owno : ∀ d, d ≠ c → (S.set c o).own d = S.own d := fun d q => by simp only [State.own, set_other S q]
  have inc : ∀ b, b ∈ (S.set c o).own c → ∃ s, o = some s ∧ b ∈ s.blocks := by
    intro b q
    cases g : S.set c o c with
    | none => rw [own_none g] at q; cases q
    | some s => rw [own_some g] at q; rw [set_same] at g; exact ⟨s, g, q⟩
  have kb : ∀ d, d ≠ c → ∀ b ∈ S.own d, h'.size b = h.size b ∧ h'.slot b = h.slot b := by
    intro d q b hb
    refine keep b (fun k => q (W.disj d c b hb k)) ?_
    intro s e k
    rcases (new s e b k).1 with k' | k'
    · exact q (W.disj d c b hb k')
    · have := (W.bound d b hb).1; omega
  have zero : 0 ∉ S.own c ∧ ∀ s, o = some s → 0 ∉ s.blocks := by
    have z : 0 ∉ S.own c := fun q => (W.bound c 0 q).2 rfl
    refine ⟨z, fun s e q => ?_⟩
    rcases (new s e 0 q).1 with k | k
    · exact z k
    · have := W.pos; omega
  have nosize : ∀ b, h.size b = none → b < h.fresh → h'.size b = none := by
    intro b q l
    have n1 : b ∉ S.own c := fun k => W.size_own k q
    rw [(keep b n1 ?_).1]; exact q
    intro s e k
    rcases (new s e b k).1 with k' | k'
    · exact n1 k'
    · omega
  constructor
  · intro d s q
    by_cases e : d = c
    · subst e; rw [set_same] at q; exact sm' s q
    · rw [set_other S e] at q
      have v := W.sm d s q
      have k := kb d e
      rw [own_some q] at k
      have ks : s.blk ≠ 0 → h'.size s.blk = h.size s.blk ∧ h'.slot s.blk = h.slot s.blk := fun z => k _ (blk_mem z)
      have ks0 : h'.slot s.blk = h.slot s.blk := by
        by_cases z : s.blk = 0
        · rw [z]; exact (keep 0 zero.1 zero.2).2
        · exact (ks z).2
      refine ⟨by rw [ob d e]; exact v.obj, v.le, ?_, ?_, ?_, ?_, v.nodup⟩
      · rcases v.arr with z | ⟨z, z'⟩
        · exact .inl z
        · exact .inr ⟨z, by rw [(ks z).1]; exact z'⟩
      · intro i x hx; rw [ks0]; exact v.slots i x hx
      · intro i x l hx
        rw [ks0] at hx
        obtain ⟨p, a, a', a''⟩ := v.tail i x l hx
        exact ⟨p, a, nosize _ a' a'', by omega⟩
      · intro x hx
        obtain ⟨a, a'⟩ := k _ (node_mem hx)
        rw [a, a']; exact v.node x hx
  · intro d q
    by_cases e : d = c
    · subst e; rw [set_same] at q; exact fun _ => no q
    · rw [set_other S e] at q; rw [ob d e]; exact W.objG d q
  · intro d s q
    by_cases e : d = c
    · subst e; rw [set_same] at q; exact lt' s q
    · rw [set_other S e] at q; have := W.lt d s q; omega
  · intro b q ng
    have q1 : ∀ s, o = some s → b ∉ s.blocks := by
      intro s e k; refine q c ?_; rw [ownc s e]; exact k
    by_cases k : b ∈ S.own c
    · exact gone b k q1
    · obtain ⟨a, a'⟩ := keep b k q1
      rw [a, a']
      refine W.ownG b (fun d hd => ?_) ng
      by_cases e : d = c
      · subst e; exact k hd
      · exact q d (by rw [owno d e]; exact hd)
  · have key : ∀ d b, d ≠ c → b ∈ (S.set c o).own c → b ∈ (S.set c o).own d → False := by
      intro d b q b1 b2
      obtain ⟨s, e, hs⟩ := inc b b1
      rw [owno d q] at b2
      rcases (new s e b hs).1 with k | k
      · exact q (W.disj d c b b2 k)
      · have := (W.bound d b b2).1; omega
    intro d d' b b1 b2
    by_cases e : d = c
    · subst e
      by_cases e' : d' = d
      · exact e'.symm
      · exact (key d' b e' b1 b2).elim
    · by_cases e' : d' = c
      · subst e'; exact (key d b e b2 b1).elim
      · rw [owno d e] at b1; rw [owno d' e'] at b2; exact W.disj d d' b b1 b2
  · intro d b q
    by_cases e : d = c
    · subst e
      obtain ⟨s, e, hs⟩ := inc b q
      refine ⟨(new s e b hs).2, fun z => ?_⟩
      subst z; exact zero.2 s e hs
    · rw [owno d e] at q
      have := W.bound d b q
      exact ⟨by omega, this.2⟩
  · have := W.pos; omega
  · intro b g
    obtain ⟨l, z, a⟩ := W.goneB b g
    refine ⟨by omega, z, fun d q => ?_⟩
    by_cases e : d = c
    · subst e
      obtain ⟨s, e, hs⟩ := inc b q
      rcases (new s e b hs).1 with k | k
      · exact a _ k
      · omega
    · rw [owno d e] at q; exact a d q
  · intro d g
    obtain ⟨l, n⟩ := W.goneO d g
    have dc : d ≠ c := fun q => cg (q ▸ g)
    exact ⟨by omega, by rw [set_other S dc]; exact n⟩

end Verif.SVMap
