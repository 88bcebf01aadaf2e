import Verif.Base
/-!
# Memory of the linked-list containers

`ttl::list`, `ttl::forward_list`, `ttl::backward_list` and `ttl::lazy_queue` are all made of nodes linked by
`next` (and, for `ttl::list`, `prev`) pointers. One memory serves the four models.

* an address is a number, `0` is the null pointer;
* `live a` says that storage at `a` is allocated: reading or writing a field of a non-live address is
  undefined behaviour (`Fault.access`);
* `val a = some v` says that a `T` object with value `v` is alive in the node at `a`; list headers are live
  addresses without a value, and so are the pooled nodes of `ttl::lazy_queue`. Reading or destroying a value
  that is not there is `Fault.lifetime`;
* `new` takes the next fresh address, never fails and never reuses an address (simplification: a real
  allocator may reuse addresses, and `std::bad_alloc` is not modelled). The fields of a new node keep the
  arbitrary content that memory had there.
-/
namespace Verif.Seq
open Verif

/-- A pointer. -/
abbrev Addr := Nat

/-- Memory holding list headers and list nodes. `next`/`prev` are the fields of `list_node`
(ttl/list.hpp:15-17) and `slist_node` (ttl/slist_node.hpp:14-16); `val` is `node::value`
(ttl/list.hpp:121-126, ttl/forward_list.hpp:29-33); `tail` is the `tail_` member that `backward_list` and
`lazy_queue` keep beside the header (ttl/backward_list.hpp:38, ttl/lazy_queue.hpp:46). -/
structure Heap (T : Type) where
  next : Addr → Addr
  prev : Addr → Addr
  tail : Addr → Addr
  val : Addr → Option T
  live : Addr → Bool
  fresh : Nat

/-- Function update. -/
def upd {α : Type} (f : Addr → α) (a : Addr) (b : α) : Addr → α := fun x => if x = a then b else f x

@[simp] theorem upd_same {α : Type} (f : Addr → α) (a : Addr) (b : α) : upd f a b a = b := by simp [upd]
theorem upd_other {α : Type} (f : Addr → α) {a x : Addr} (b : α) (hx : x ≠ a) : upd f a b x = f x := by simp [upd, hx]

variable {T : Type}

/-- `p->next` -/
def getNext (p : Addr) : Prog (Heap T) Addr := fun h => if h.live p then .ok (h.next p, h) else .ub .access
/-- `p->prev` -/
def getPrev (p : Addr) : Prog (Heap T) Addr := fun h => if h.live p then .ok (h.prev p, h) else .ub .access
/-- `tail_` of the container at `p` -/
def getTail (p : Addr) : Prog (Heap T) Addr := fun h => if h.live p then .ok (h.tail p, h) else .ub .access
/-- `p->next = q` -/
def setNext (p q : Addr) : Prog (Heap T) Unit := fun h =>
  if h.live p then .ok ((), { h with next := upd h.next p q }) else .ub .access
/-- `p->prev = q` -/
def setPrev (p q : Addr) : Prog (Heap T) Unit := fun h =>
  if h.live p then .ok ((), { h with prev := upd h.prev p q }) else .ub .access
/-- `tail_ = q` in the container at `p` -/
def setTail (p q : Addr) : Prog (Heap T) Unit := fun h =>
  if h.live p then .ok ((), { h with tail := upd h.tail p q }) else .ub .access
/-- read `static_cast<node *>(p)->value` -/
def getVal (p : Addr) : Prog (Heap T) T := fun h =>
  if h.live p then (match h.val p with | some v => .ok (v, h) | none => .ub .lifetime) else .ub .access
/-- `static_cast<node *>(p)->value = v` through a reference or iterator -/
def setVal (p : Addr) (v : T) : Prog (Heap T) Unit := fun h =>
  if h.live p then
    (match h.val p with | some _ => .ok ((), { h with val := upd h.val p (some v) }) | none => .ub .lifetime)
  else .ub .access
/-- `new node(v)` -/
def newNode (v : T) : Prog (Heap T) Addr := fun h =>
  .ok (h.fresh, { h with val := upd h.val h.fresh (some v), live := upd h.live h.fresh true, fresh := h.fresh + 1 })
/-- storage for a header (a container object), or for a node without a value (`::operator new`) -/
def newRaw : Prog (Heap T) Addr := fun h =>
  .ok (h.fresh, { h with val := upd h.val h.fresh none, live := upd h.live h.fresh true, fresh := h.fresh + 1 })
/-- `delete static_cast<node *>(p)`: destroys the value and releases the storage -/
def delete (p : Addr) : Prog (Heap T) Unit := fun h =>
  if h.live p then
    (match h.val p with
     | some _ => .ok ((), { h with val := upd h.val p none, live := upd h.live p false })
     | none => .ub .lifetime)
  else .ub .access
/-- end of the storage of a container object -/
def freeRaw (p : Addr) : Prog (Heap T) Unit := fun h =>
  if h.live p then .ok ((), { h with live := upd h.live p false }) else .ub .access

section
variable {h : Heap T} {p : Addr}
theorem getNext_eq (l : h.live p = true) : getNext p h = .ok (h.next p, h) := by simp [getNext, l]
theorem getPrev_eq (l : h.live p = true) : getPrev p h = .ok (h.prev p, h) := by simp [getPrev, l]
theorem getTail_eq (l : h.live p = true) : getTail p h = .ok (h.tail p, h) := by simp [getTail, l]
theorem setNext_eq (l : h.live p = true) (q : Addr) :
    setNext p q h = .ok ((), { h with next := upd h.next p q }) := by simp [setNext, l]
theorem setPrev_eq (l : h.live p = true) (q : Addr) :
    setPrev p q h = .ok ((), { h with prev := upd h.prev p q }) := by simp [setPrev, l]
theorem setTail_eq (l : h.live p = true) (q : Addr) :
    setTail p q h = .ok ((), { h with tail := upd h.tail p q }) := by simp [setTail, l]
theorem getVal_eq {v : T} (l : h.live p = true) (hv : h.val p = some v) : getVal p h = .ok (v, h) := by
  simp [getVal, l, hv]
theorem setVal_eq {v : T} (l : h.live p = true) (hv : h.val p = some v) (w : T) :
    setVal p w h = .ok ((), { h with val := upd h.val p (some w) }) := by simp [setVal, l, hv]
theorem delete_eq {v : T} (l : h.live p = true) (hv : h.val p = some v) :
    delete p h = .ok ((), { h with val := upd h.val p none, live := upd h.live p false }) := by
  simp [delete, l, hv]
theorem freeRaw_eq (l : h.live p = true) :
    freeRaw p h = .ok ((), { h with live := upd h.live p false }) := by simp [freeRaw, l]
theorem newNode_eq (v : T) : newNode v h = .ok (h.fresh, { h with
    val := upd h.val h.fresh (some v), live := upd h.live h.fresh true, fresh := h.fresh + 1 }) := rfl
theorem newRaw_eq : (newRaw : Prog (Heap T) Addr) h = .ok (h.fresh, { h with
    val := upd h.val h.fresh none, live := upd h.live h.fresh true, fresh := h.fresh + 1 }) := rfl
theorem getNext_dead (l : h.live p = false) : getNext p h = .ub .access := by simp [getNext, l]
theorem getPrev_dead (l : h.live p = false) : getPrev p h = .ub .access := by simp [getPrev, l]
theorem setNext_dead (l : h.live p = false) (q : Addr) : setNext p q h = .ub .access := by simp [setNext, l]
theorem setPrev_dead (l : h.live p = false) (q : Addr) : setPrev p q h = .ub .access := by simp [setPrev, l]
end

/-! ## Sane memories, effects, worlds -/

/-- Only addresses handed out so far are live, and null never is. -/
structure Wf (h : Heap T) : Prop where
  pos : 0 < h.fresh
  null : h.live 0 = false
  used : ∀ x, h.live x = true → x < h.fresh

theorem Wf.ne_zero {h : Heap T} (w : Wf h) {x : Addr} (l : h.live x = true) : x ≠ 0 := by
  intro q; subst q; rw [w.null] at l; cases l
theorem Wf.ne_fresh {h : Heap T} (w : Wf h) {x : Addr} (l : h.live x = true) : x ≠ h.fresh :=
  Nat.ne_of_lt (w.used x l)
theorem Wf.fresh_dead {h : Heap T} (w : Wf h) {x : Addr} (hx : h.fresh ≤ x) : h.live x = false := by
  cases l : h.live x with
  | false => rfl
  | true => exact absurd (w.used x l) (Nat.not_lt.2 hx)

/-- Everything stored at `x` is the same in both memories. -/
structure Same (h h' : Heap T) (x : Addr) : Prop where
  next : h'.next x = h.next x
  prev : h'.prev x = h.prev x
  tail : h'.tail x = h.tail x
  val : h'.val x = h.val x
  live : h'.live x = h.live x

theorem Same.rfl {h : Heap T} {x : Addr} : Same h h x := ⟨Eq.refl _, Eq.refl _, Eq.refl _, Eq.refl _, Eq.refl _⟩
theorem Same.trans {h h' h'' : Heap T} {x : Addr} (a : Same h h' x) (b : Same h' h'' x) : Same h h'' x :=
  ⟨b.next.trans a.next, b.prev.trans a.prev, b.tail.trans a.tail, b.val.trans a.val, b.live.trans a.live⟩

/-- A computation that owned the cells `C` before and owns the cells `C'` after it changed no other allocated
cell, took new cells from unallocated memory and released the cells it gave up. -/
structure Effect (C C' : Addr → Prop) (h h' : Heap T) : Prop where
  frame : ∀ x, ¬ C x → ¬ C' x → h.live x = true → Same h h' x
  dead : ∀ x, ¬ C x → ¬ C' x → h.live x = false → h'.live x = false
  grown : ∀ x, ¬ C x → C' x → h.live x = false
  shrunk : ∀ x, C x → ¬ C' x → h'.live x = false
  wf : Wf h'
  mono : h.fresh ≤ h'.fresh

theorem Effect.refl {C : Addr → Prop} {h : Heap T} (w : Wf h) : Effect C C h h :=
  ⟨fun _ _ _ _ => Same.rfl, fun _ _ _ d => d, fun _ a b => absurd b a, fun _ a b => absurd a b, w, Nat.le_refl _⟩

theorem Effect.trans {C C' C'' : Addr → Prop} {h h' h'' : Heap T}
    (a : Effect C C' h h') (b : Effect C' C'' h' h'') : Effect C C'' h h'' := by
  refine ⟨?_, ?_, ?_, ?_, b.wf, Nat.le_trans a.mono b.mono⟩
  · intro x h1 h2 l
    by_cases h3 : C' x
    · rw [a.grown x h1 h3] at l; cases l
    · have s1 := a.frame x h1 h3 l
      exact s1.trans (b.frame x h3 h2 (s1.live.trans l))
  · intro x h1 h2 l
    by_cases h3 : C' x
    · exact b.shrunk x h3 h2
    · exact b.dead x h3 h2 (a.dead x h1 h3 l)
  · intro x h1 h2
    by_cases h3 : C' x
    · exact a.grown x h1 h3
    · have d := b.grown x h3 h2
      cases l : h.live x with
      | false => rfl
      | true => rw [(a.frame x h1 h3 l).live, l] at d; cases d
  · intro x h1 h2
    by_cases h3 : C' x
    · exact b.shrunk x h3 h2
    · exact b.dead x h3 h2 (a.shrunk x h1 h3)

/-- Effects only depend on which cells are owned. -/
theorem Effect.congr {C C' D D' : Addr → Prop} {h h' : Heap T} (a : Effect C C' h h')
    (e : ∀ x, C x ↔ D x) (e' : ∀ x, C' x ↔ D' x) : Effect D D' h h' := by
  have q : C = D := funext fun x => propext (e x)
  have q' : C' = D' := funext fun x => propext (e' x)
  subst q; subst q'; exact a

/-- Owning more (disjoint, untouched) cells. -/
theorem Effect.weaken {C C' F : Addr → Prop} {h h' : Heap T} (a : Effect C C' h h') :
    Effect (fun x => C x ∨ F x) (fun x => C' x ∨ F x) h h' := by
  refine ⟨?_, ?_, ?_, ?_, a.wf, a.mono⟩
  · intro x h1 h2; exact a.frame x (fun c => h1 (.inl c)) (fun c => h2 (.inl c))
  · intro x h1 h2; exact a.dead x (fun c => h1 (.inl c)) (fun c => h2 (.inl c))
  · intro x h1 h2
    rcases h2 with h2 | h2
    · exact a.grown x (fun c => h1 (.inl c)) h2
    · exact absurd (.inr h2) h1
  · intro x h1 h2
    rcases h1 with h1 | h1
    · exact a.shrunk x h1 (fun c => h2 (.inl c))
    · exact absurd (.inr h1) h2

/-- How a kind of container occupies memory: `own h c s` says that the container object at `c` represents the
mathematical state `s`, `cells c s` are the addresses it owns. -/
structure Iface (T σ : Type) where
  own : Heap T → Addr → σ → Prop
  cells : Addr → σ → List Addr
  frame : ∀ {h h' : Heap T} {c s}, own h c s → (∀ x ∈ cells c s, Same h h' x) → own h' c s
  live : ∀ {h : Heap T} {c s}, own h c s → ∀ x ∈ cells c s, h.live x = true
  self : ∀ c s, c ∈ cells c s

variable {σ : Type}

/-- Memory contains exactly the containers of `S`, side by side, and nothing else (no leaks). -/
structure World (I : Iface T σ) (h : Heap T) (S : Addr → Option σ) : Prop where
  wf : Wf h
  own : ∀ c s, S c = some s → I.own h c s
  disj : ∀ c s c' s', S c = some s → S c' = some s' → c ≠ c' → ∀ x ∈ I.cells c s, x ∉ I.cells c' s'
  tight : ∀ x, h.live x = true → ∃ c s, S c = some s ∧ x ∈ I.cells c s

/-- What the rest of the program may do to memory between two calls on containers: write to storage that belongs to no
container, and take and give back storage for itself. Every allocated cell keeps its contents; the address the allocator hands
out next is any one beyond the cells in use, so that storage given back may be handed out again. -/
structure Env (h h' : Heap T) : Prop where
  same : ∀ x, h.live x = true → Same h h' x
  dead : ∀ x, h.live x = false → h'.live x = false
  wf : Wf h'

theorem World.env {I : Iface T σ} {h h' : Heap T} {S : Addr → Option σ} (W : World I h S) (e : Env h h') : World I h' S := by
  refine ⟨e.wf, fun c s q => I.frame (W.own c s q) fun x hx => e.same x (I.live (W.own c s q) x hx), W.disj, fun x l => W.tight x ?_⟩
  cases q : h.live x with
  | true => rfl
  | false => rw [e.dead x q] at l; cases l

/-- The cells owned by the containers in `D`. -/
def CellsOf (I : Iface T σ) (S : Addr → Option σ) (D : Addr → Prop) (x : Addr) : Prop :=
  ∃ c s, D c ∧ S c = some s ∧ x ∈ I.cells c s

theorem World.step {I : Iface T σ} {h h' : Heap T} {S S' : Addr → Option σ} (W : World I h S) (D : Addr → Prop)
    (ef : Effect (CellsOf I S D) (CellsOf I S' D) h h') (hS : ∀ c, ¬ D c → S' c = S c)
    (ho : ∀ c s, D c → S' c = some s → I.own h' c s)
    (hd : ∀ c s c' s', D c → D c' → S' c = some s → S' c' = some s' → c ≠ c' → ∀ x ∈ I.cells c s, x ∉ I.cells c' s') :
    World I h' S' := by
  have out : ∀ c s, ¬ D c → S c = some s → ∀ x ∈ I.cells c s, ¬ CellsOf I S D x := by
    intro c s hc hs x hx ⟨c', s', h1, h2, h3⟩
    exact W.disj c s c' s' hs h2 (fun q => hc (q ▸ h1)) x hx h3
  have out' : ∀ c s, ¬ D c → S c = some s → ∀ x ∈ I.cells c s, ¬ CellsOf I S' D x := by
    intro c s hc hs x hx q
    have := ef.grown x (out c s hc hs x hx) q
    rw [I.live (W.own c s hs) x hx] at this; cases this
  refine ⟨ef.wf, ?_, ?_, ?_⟩
  · intro c s hs
    by_cases hc : D c
    · exact ho c s hc hs
    · rw [hS c hc] at hs
      exact I.frame (W.own c s hs) fun x hx =>
        ef.frame x (out c s hc hs x hx) (out' c s hc hs x hx) (I.live (W.own c s hs) x hx)
  · intro c s c' s' hs hs' hne x hx hx'
    by_cases hc : D c
    · by_cases hc' : D c'
      · exact hd c s c' s' hc hc' hs hs' hne x hx hx'
      · exact out' c' s' hc' (hS c' hc' ▸ hs') x hx' ⟨c, s, hc, hs, hx⟩
    · by_cases hc' : D c'
      · exact out' c s hc (hS c hc ▸ hs) x hx ⟨c', s', hc', hs', hx'⟩
      · exact W.disj c s c' s' (hS c hc ▸ hs) (hS c' hc' ▸ hs') hne x hx hx'
  · intro x l
    by_cases h1 : CellsOf I S' D x
    · obtain ⟨c, s, _, h2, h3⟩ := h1; exact ⟨c, s, h2, h3⟩
    · by_cases h2 : CellsOf I S D x
      · rw [ef.shrunk x h2 h1] at l; cases l
      · cases l0 : h.live x with
        | false => rw [ef.dead x h2 h1 l0] at l; cases l
        | true =>
          obtain ⟨c, s, hs, hx⟩ := W.tight x l0
          refine ⟨c, s, ?_, hx⟩
          rw [hS c (fun hc => h2 ⟨c, s, hc, hs, hx⟩)]; exact hs

/-- The state of one container changes (or it appears, or disappears). -/
theorem World.step1 {I : Iface T σ} {h h' : Heap T} {S : Addr → Option σ} (W : World I h S) (c : Addr) (o : Option σ)
    (ef : Effect (fun x => ∃ s, S c = some s ∧ x ∈ I.cells c s) (fun x => ∃ s, o = some s ∧ x ∈ I.cells c s) h h')
    (ho : ∀ s, o = some s → I.own h' c s) : World I h' (upd S c o) := by
  refine W.step (· = c) (ef.congr ?_ ?_) ?_ ?_ ?_
  · intro x; constructor
    · rintro ⟨s, h1, h2⟩; exact ⟨c, s, rfl, h1, h2⟩
    · rintro ⟨_, s, rfl, h1, h2⟩; exact ⟨s, h1, h2⟩
  · intro x; constructor
    · rintro ⟨s, h1, h2⟩; exact ⟨c, s, rfl, by simpa using h1, h2⟩
    · rintro ⟨_, s, rfl, h1, h2⟩; exact ⟨s, by simpa using h1, h2⟩
  · intro c' hc; exact upd_other _ _ hc
  · rintro _ s rfl hs; exact ho s (by simpa using hs)
  · rintro _ s _ s' rfl rfl _ _ hne; exact absurd rfl hne

/-- The states of two containers change. -/
theorem World.step2 {I : Iface T σ} {h h' : Heap T} {S : Addr → Option σ} (W : World I h S) {a b : Addr} {sa sb sa' sb' : σ}
    (hab : a ≠ b) (ha : S a = some sa) (hb : S b = some sb)
    (ef : Effect (fun x => x ∈ I.cells a sa ∨ x ∈ I.cells b sb) (fun x => x ∈ I.cells a sa' ∨ x ∈ I.cells b sb') h h')
    (oa : I.own h' a sa') (ob : I.own h' b sb') (hd : ∀ x ∈ I.cells a sa', x ∉ I.cells b sb') :
    World I h' (upd (upd S a (some sa')) b (some sb')) := by
  have e1 : upd (upd S a (some sa')) b (some sb') a = some sa' := by rw [upd_other _ _ hab]; simp
  have e2 : upd (upd S a (some sa')) b (some sb') b = some sb' := by simp
  refine W.step (fun c => c = a ∨ c = b) (ef.congr ?_ ?_) ?_ ?_ ?_
  · intro x; constructor
    · rintro (h1 | h1)
      · exact ⟨a, sa, .inl rfl, ha, h1⟩
      · exact ⟨b, sb, .inr rfl, hb, h1⟩
    · rintro ⟨_, s, rfl | rfl, h1, h2⟩
      · left; rw [ha] at h1; cases h1; exact h2
      · right; rw [hb] at h1; cases h1; exact h2
  · intro x; constructor
    · rintro (h1 | h1)
      · exact ⟨a, sa', .inl rfl, e1, h1⟩
      · exact ⟨b, sb', .inr rfl, e2, h1⟩
    · rintro ⟨_, s, rfl | rfl, h1, h2⟩
      · left; rw [e1] at h1; cases h1; exact h2
      · right; rw [e2] at h1; cases h1; exact h2
  · intro c hc
    rw [upd_other _ _ (fun q => hc (.inr q)), upd_other _ _ (fun q => hc (.inl q))]
  · rintro _ s (rfl | rfl) hs
    · rw [e1] at hs; cases hs; exact oa
    · rw [e2] at hs; cases hs; exact ob
  · rintro _ s _ s' (rfl | rfl) (rfl | rfl) hs hs' hne x hx hx'
    · exact hne rfl
    · rw [e1] at hs; rw [e2] at hs'; cases hs; cases hs'; exact hd x hx hx'
    · rw [e2] at hs; rw [e1] at hs'; cases hs; cases hs'; exact hd x hx' hx
    · exact hne rfl

end Verif.Seq
