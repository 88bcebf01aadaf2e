import Verif.Rb.Model
/-!
# Trees of addresses, zippers and the representation predicate

Proof machinery: the shape of a linked tree as an inductive type, the pure counterparts of the local
rebalancing functions, and what it means for the heap to hold a tree. Nothing here is needed to read
the property statements.
-/
set_option linter.unusedSimpArgs false
namespace Verif.Rb
open Verif

inductive Tree where
  | leaf
  | node (a : Addr) (c : Bool) (l r : Tree)
  deriving DecidableEq, Repr

namespace Tree

def addr : Tree → Addr
  | leaf => 0
  | node a _ _ _ => a
def left : Tree → Tree
  | leaf => leaf
  | node _ _ l _ => l
def right : Tree → Tree
  | leaf => leaf
  | node _ _ _ r => r
def red : Tree → Bool
  | leaf => false
  | node _ c _ _ => c
def inorder : Tree → List Addr
  | leaf => []
  | node a _ l r => l.inorder ++ a :: r.inorder
def size : Tree → Nat
  | leaf => 0
  | node _ _ l r => l.size + r.size + 1
def height : Tree → Nat
  | leaf => 0
  | node _ _ l r => max l.height r.height + 1
def recolor (c : Bool) : Tree → Tree
  | leaf => leaf
  | node a _ l r => node a c l r

@[simp] theorem addr_leaf : leaf.addr = 0 := rfl
@[simp] theorem addr_node (a c l r) : (node a c l r).addr = a := rfl
@[simp] theorem left_leaf : leaf.left = leaf := rfl
@[simp] theorem left_node (a c l r) : (node a c l r).left = l := rfl
@[simp] theorem right_leaf : leaf.right = leaf := rfl
@[simp] theorem right_node (a c l r) : (node a c l r).right = r := rfl
@[simp] theorem red_leaf : leaf.red = false := rfl
@[simp] theorem red_node (a c l r) : (node a c l r).red = c := rfl
@[simp] theorem inorder_leaf : leaf.inorder = [] := rfl
@[simp] theorem inorder_node (a c l r) : (node a c l r).inorder = l.inorder ++ a :: r.inorder := rfl
@[simp] theorem recolor_leaf (c) : leaf.recolor c = leaf := rfl
@[simp] theorem recolor_node (c' a c l r) : (node a c l r).recolor c' = node a c' l r := rfl
@[simp] theorem inorder_recolor (c) (t : Tree) : (t.recolor c).inorder = t.inorder := by cases t <;> rfl
@[simp] theorem addr_recolor (c) (t : Tree) : (t.recolor c).addr = t.addr := by cases t <;> rfl

theorem size_eq (t : Tree) : t.size = t.inorder.length := by
  induction t with
  | leaf => rfl
  | node a c l r ihl ihr => simp [size, ihl, ihr]; omega

/-- pure `rotate_left` -/
def rotL : Tree → Tree
  | node a c l (node b _ m r) => node b c (node a RED l m) r
  | t => t
/-- pure `rotate_right` -/
def rotR : Tree → Tree
  | node b c (node a _ l m) r => node a c l (node b RED m r)
  | t => t
/-- pure `flip_colors` -/
def flipT : Tree → Tree
  | node a c (node b cb l1 r1) (node d cd l2 r2) => node a (!c) (node b (!cb) l1 r1) (node d (!cd) l2 r2)
  | t => t
def fix1 (t : Tree) : Tree := if t.right.red then (if t.left.red then t else rotL t) else t
def fix2 (t : Tree) : Tree := if t.left.red then (if t.left.left.red then rotR t else t) else t
def fix3 (t : Tree) : Tree := if t.left.red then (if t.right.red then flipT t else t) else t
/-- pure `fixup` -/
def fixup (t : Tree) : Tree := fix3 (fix2 (fix1 t))
def setRight : Tree → Tree → Tree
  | node a c l _, r => node a c l r
  | leaf, _ => leaf
/-- pure `move_left` -/
def moveL (t : Tree) : Tree :=
  let t1 := flipT t
  if t1.right.left.red then flipT (rotL (setRight t1 (rotR t1.right))) else t1
/-- pure `move_right` -/
def moveR (t : Tree) : Tree :=
  let t1 := flipT t
  if t1.left.left.red then flipT (rotR t1) else t1

@[simp] theorem inorder_rotL (t : Tree) : (rotL t).inorder = t.inorder := by
  unfold rotL; split <;> simp
@[simp] theorem inorder_rotR (t : Tree) : (rotR t).inorder = t.inorder := by
  unfold rotR; split <;> simp
@[simp] theorem inorder_flip (t : Tree) : (flipT t).inorder = t.inorder := by
  unfold flipT; split <;> simp
@[simp] theorem inorder_fixup (t : Tree) : (fixup t).inorder = t.inorder := by
  unfold fixup fix1 fix2 fix3
  repeat' split
  all_goals simp
theorem inorder_setRight (t r : Tree) (h : r.inorder = t.right.inorder) :
    (setRight t r).inorder = t.inorder := by
  cases t
  · rfl
  · simp only [setRight, inorder_node, h, right_node]
@[simp] theorem inorder_moveL (t : Tree) : (moveL t).inorder = t.inorder := by
  unfold moveL
  simp only
  split
  · rw [inorder_flip, inorder_rotL, inorder_setRight, inorder_flip]; simp
  · simp
@[simp] theorem inorder_moveR (t : Tree) : (moveR t).inorder = t.inorder := by
  unfold moveR
  simp only
  split <;> simp

end Tree
open Tree

/-- One step of a path from the root: the hole is the left (`L`) or right (`R`) child of `a`. -/
inductive Frame where
  | L (a : Addr) (c : Bool) (r : Tree)
  | R (a : Addr) (c : Bool) (l : Tree)

namespace Frame
def addr : Frame → Addr
  | L a _ _ => a
  | R a _ _ => a
def plug : Frame → Tree → Tree
  | L a c r, t => .node a c t r
  | R a c l, t => .node a c l t
def recolor (c' : Bool) : Frame → Frame
  | L a _ r => L a c' r
  | R a _ l => R a c' l
@[simp] theorem addr_L (a c r) : (L a c r).addr = a := rfl
@[simp] theorem addr_R (a c l) : (R a c l).addr = a := rfl
@[simp] theorem plug_L (a c r t) : (L a c r).plug t = .node a c t r := rfl
@[simp] theorem plug_R (a c l t) : (R a c l).plug t = .node a c l t := rfl
@[simp] theorem addr_plug (f : Frame) (t : Tree) : (f.plug t).addr = f.addr := by cases f <;> rfl
theorem plug_recolor (f : Frame) (c t) : (f.recolor c).plug t = (f.plug t).recolor c := by
  cases f <;> rfl
end Frame

/-- Put `t` into the hole of a context (innermost frame first). -/
def zip : List Frame → Tree → Tree
  | [], t => t
  | f :: k, t => zip k (f.plug t)

def ctxEdge : List Frame → Edge
  | [] => .root
  | .L a _ _ :: _ => .left a
  | .R a _ _ :: _ => .right a

def ctxParent (hd : Addr) : List Frame → Addr
  | [] => hd
  | f :: _ => f.addr

def pre : List Frame → List Addr
  | [] => []
  | .L _ _ _ :: k => pre k
  | .R a _ l :: k => pre k ++ (l.inorder ++ [a])

def post : List Frame → List Addr
  | [] => []
  | .L a _ r :: k => (a :: r.inorder) ++ post k
  | .R _ _ _ :: k => post k

@[simp] theorem zip_nil (t) : zip [] t = t := rfl
@[simp] theorem zip_cons (f k t) : zip (f :: k) t = zip k (f.plug t) := rfl

theorem inorder_zip (k : List Frame) (t : Tree) :
    (zip k t).inorder = pre k ++ (t.inorder ++ post k) := by
  induction k generalizing t with
  | nil => simp [pre, post]
  | cons f k ih => cases f <;> simp [ih, pre, post]

theorem zip_addr_nil_iff (k : List Frame) (t : Tree) : (zip k t) = leaf → k = [] ∧ t = leaf := by
  induction k generalizing t with
  | nil => intro h; exact ⟨rfl, h⟩
  | cons f k ih =>
    intro h
    have := (ih (f.plug t) h).2
    cases f <;> simp at this

variable {V : Type}

/-- The heap holds the tree `t` whose root has parent pointer `p`. -/
def Rep (h : Heap V) : Tree → Addr → Prop
  | .leaf, _ => True
  | .node a c l r, p => h.node a = some ⟨p, l.addr, r.addr, c⟩ ∧ a ≠ 0 ∧ Rep h l a ∧ Rep h r a

/-- The tree object with header `hd` holds the tree `t`. -/
structure RepTree (h : Heap V) (hd : Addr) (t : Tree) : Prop where
  rep : Rep h t hd
  header : h.node hd = some ⟨t.addr, 0, 0, RED⟩
  hd_ne : hd ≠ 0
  hd_not : hd ∉ t.inorder
  nodup : t.inorder.Nodup

/-- `h'` differs from `h` at most in the node records listed in `S`. -/
structure Upd (S : List Addr) (h h' : Heap V) : Prop where
  node : ∀ x, x ∉ S → h'.node x = h.node x
  live : ∀ x, (h'.node x).isSome = (h.node x).isSome
  data : h'.data = h.data
  next : h'.next = h.next
  junk : h'.junk = h.junk
  cmps : h'.cmps = h.cmps

theorem Upd.refl (S : List Addr) (h : Heap V) : Upd S h h := ⟨by simp, by simp, rfl, rfl, rfl, rfl⟩
theorem Upd.trans {S : List Addr} {h1 h2 h3 : Heap V} (a : Upd S h1 h2) (b : Upd S h2 h3) : Upd S h1 h3 :=
  ⟨fun x hx => (b.node x hx).trans (a.node x hx), fun x => (b.live x).trans (a.live x),
    b.data.trans a.data, b.next.trans a.next, b.junk.trans a.junk, b.cmps.trans a.cmps⟩
theorem Upd.mono {S S' : List Addr} {h h' : Heap V} (a : Upd S h h') (hs : ∀ x ∈ S, x ∈ S') : Upd S' h h' :=
  ⟨fun x hx => a.node x fun hx' => hx (hs x hx'), a.live, a.data, a.next, a.junk, a.cmps⟩

theorem Rep.congr {h h' : Heap V} {t : Tree} {p : Addr} (hr : Rep h t p)
    (hag : ∀ x ∈ t.inorder, h'.node x = h.node x) : Rep h' t p := by
  induction t generalizing p with
  | leaf => trivial
  | node a c l r ihl ihr =>
    obtain ⟨h1, h2, h3, h4⟩ := hr
    refine ⟨(hag a (by simp)).trans h1, h2, ihl h3 fun x hx => hag x (by simp [hx]),
      ihr h4 fun x hx => hag x (by simp [hx])⟩

theorem Rep.addr_ne {h : Heap V} {a c l r p} (hr : Rep h (.node a c l r) p) : a ≠ 0 := hr.2.1

theorem Rep.zero_not {h : Heap V} {t : Tree} {p : Addr} (hr : Rep h t p) : 0 ∉ t.inorder := by
  induction t generalizing p with
  | leaf => simp
  | node a c l r ihl ihr =>
    obtain ⟨h1, h2, h3, h4⟩ := hr
    simp only [inorder_node, List.mem_append, List.mem_cons, not_or]
    exact ⟨ihl h3, fun h => h2 h.symm, ihr h4⟩

theorem Rep.addr_eq_zero {h : Heap V} {t : Tree} {p : Addr} (hr : Rep h t p) : t.addr = 0 ↔ t = leaf := by
  cases t with
  | leaf => simp
  | node a c l r => simp [hr.addr_ne]

theorem Rep.live {h : Heap V} {t : Tree} {p : Addr} (hr : Rep h t p) {x : Addr} (hx : x ∈ t.inorder) :
    (h.node x).isSome := by
  induction t generalizing p with
  | leaf => simp at hx
  | node a c l r ihl ihr =>
    obtain ⟨h1, h2, h3, h4⟩ := hr
    simp only [inorder_node, List.mem_append, List.mem_cons] at hx
    rcases hx with hx | hx | hx
    · exact ihl h3 hx
    · subst hx; simp [h1]
    · exact ihr h4 hx

@[simp] theorem setNode_node_self (h : Heap V) (a n) : (h.setNode a n).node a = some n := by
  simp [Heap.setNode]
theorem setNode_node_ne (h : Heap V) {a x : Addr} (n) (hx : x ≠ a) : (h.setNode a n).node x = h.node x := by
  simp [Heap.setNode, hx]
theorem setNode_node (h : Heap V) (a x : Addr) (n) :
    (h.setNode a n).node x = if x = a then some n else h.node x := rfl

theorem upd_eq {h : Heap V} {a : Addr} {n : RbNode} (f : RbNode → RbNode) (hn : h.node a = some n) :
    upd a f h = .ok ((), h.setNode a (f n)) := by simp [upd, hn]
theorem nd_eq {h : Heap V} {a : Addr} {n : RbNode} (hn : h.node a = some n) : nd a h = .ok (n, h) := by
  simp [nd, hn]

theorem Upd.setNode {h : Heap V} {a : Addr} {n : RbNode} (m : RbNode) (hn : h.node a = some n)
    {S : List Addr} (ha : a ∈ S) : Upd S h (h.setNode a m) := by
  refine ⟨fun x hx => setNode_node_ne _ _ fun e => hx (e ▸ ha), fun x => ?_, rfl, rfl, rfl, rfl⟩
  rw [setNode_node]
  split
  · next e => subst e; simp [hn]
  · rfl

theorem isRed_eq {h : Heap V} {t : Tree} {p : Addr} (hr : Rep h t p) :
    isRed t.addr h = .ok (t.red, h) := by
  cases t with
  | leaf => simp [isRed]
  | node a c l r =>
    obtain ⟨h1, h2, _⟩ := hr
    cases c <;> simp [isRed, h2, nd_eq h1]

/-- Changing only the parent field of the root re-parents the tree. -/
theorem Rep.reparent {h h' : Heap V} {t : Tree} {p q : Addr} (hr : Rep h t p) (hnd : t.inorder.Nodup)
    (hroot : ∀ a c l r, t = .node a c l r → h'.node a = some ⟨q, l.addr, r.addr, c⟩)
    (hag : ∀ x ∈ t.inorder, x ≠ t.addr → h'.node x = h.node x) : Rep h' t q := by
  cases t with
  | leaf => trivial
  | node a c l r =>
    obtain ⟨h1, h2, h3, h4⟩ := hr
    have hna := hnd
    simp only [inorder_node] at hna
    rw [List.nodup_append] at hna
    obtain ⟨n1, n2, n3⟩ := hna
    rw [List.nodup_cons] at n2
    refine ⟨hroot _ _ _ _ rfl, h2, h3.congr fun x hx => hag x (by simp [hx]) ?_,
      h4.congr fun x hx => hag x (by simp [hx]) ?_⟩
    · exact n3 x hx a (by simp)
    · rintro rfl; exact n2.1 hx

end Verif.Rb
