import Verif.Rb.AnyProps
/-!
# What iteration costs, and how deep the recursive members recurse

The functions of this file are those of `Rb/Model.lean` and `Rb/MapModel.lean` that follow links without
comparing keys, written again with a second answer: the number of links followed (`parent`, `left` or `right`
pointers stepped along), or the greatest number of activations of the recursive function alive at once.
`walks_as_modelled` and `recurses_as_modelled` show that they do what the functions of the model do.
-/
set_option linter.unusedSimpArgs false
set_option linter.unusedSectionVars false
set_option linter.unusedVariables false
namespace Verif.Rb.Steps
open Verif Verif.Rb Tree
variable {K V : Type}

/-- `min_node`, rbtree.hpp:98-103, with the number of `n = n->left` done on top of `k`. -/
def minNodeC (n : Addr) (k : Nat) : Prog (Heap V) (Addr × Nat) := do
  if n = 0 then pure (n, k)
  else do
    let l := (← nd n).left
    if l = 0 then pure (n, k) else minNodeC l (k + 1)
partial_fixpoint

/-- `max_node`, rbtree.hpp:105-110, with the number of `n = n->right` done on top of `k`. -/
def maxNodeC (n : Addr) (k : Nat) : Prog (Heap V) (Addr × Nat) := do
  if n = 0 then pure (n, k)
  else do
    let r := (← nd n).right
    if r = 0 then pure (n, k) else maxNodeC r (k + 1)
partial_fixpoint

/-- Loop of `next_node` and the `return` after it, rbtree.hpp:118-120: each turn, and the `return`, goes to a parent. -/
def nextUpC (n : Addr) (k : Nat) : Prog (Heap V) (Addr × Nat) := do
  let p := (← nd n).parent
  if n = (← nd p).right then nextUpC p (k + 1) else pure (p, k + 1)
partial_fixpoint

/-- `next_node`, rbtree.hpp:112-121 (`operator++`), with the number of links followed. -/
def nextNodeC (n : Addr) : Prog (Heap V) (Addr × Nat) := do
  let r := (← nd n).right
  if r ≠ 0 then minNodeC r 1
  else do
    let p := (← nd n).parent
    if n = (← nd p).left then pure (p, 1) else nextUpC n 0

/-- Loop of `prev_node` and the `return` after it, rbtree.hpp:129-131. -/
def prevUpC (n : Addr) (k : Nat) : Prog (Heap V) (Addr × Nat) := do
  let p := (← nd n).parent
  if n = (← nd p).left then prevUpC p (k + 1) else pure (p, k + 1)
partial_fixpoint

/-- `prev_node`, rbtree.hpp:123-132, with the number of links followed. -/
def prevNodeC (n : Addr) : Prog (Heap V) (Addr × Nat) := do
  let l := (← nd n).left
  if l ≠ 0 then maxNodeC l 1
  else do
    let p := (← nd n).parent
    if n = (← nd p).right then pure (p, 1) else prevUpC n 0

/-- `begin()`, map.hpp:153-157 and set.hpp:141-145, with the number of links followed. -/
def beginC (hd : Addr) : Prog (Heap V) (Addr × Nat) := do
  let root ← rootOf hd
  if root ≠ 0 then minNodeC root 1 else pure (hd, 0)

/-- `iterator::prev`, map.hpp:259-271, set.hpp:236-248 (`operator--`), with the number of links followed. -/
def iterPrevC (n : Addr) : Prog (Heap V) (Addr × Nat) := do
  let x ← nd n
  if x.parent = 0 then pure (n, 0)
  else if x.color == RED then do
    if (← nd x.parent).parent = n then maxNodeC x.parent 1 else prevNodeC n
  else prevNodeC n

/-- Client code: `for (; i != end; ++i) out.push_back({i, *i});`, `k` links followed so far. -/
def walkFwdC (hd i : Addr) (out : List (Addr × V)) (k : Nat) : Prog (Heap V) (List (Addr × V) × Nat) := do
  if i = hd then pure (out, k)
  else do
    let v ← dataOf i
    let j ← nextNodeC i
    walkFwdC hd j.1 (out ++ [(i, v)]) (k + j.2)
partial_fixpoint

/-- Client code: `for (i = begin(); i != end(); ++i)`, with the number of links followed by all of it. -/
def entriesC (hd : Addr) : Prog (Heap V) (List (Addr × V) × Nat) := do
  let b ← beginC hd
  walkFwdC hd b.1 [] b.2

/-- Client code: `while (i != begin) { --i; out.push_back({i, *i}); }`, `k` links followed so far. -/
def walkBwdC (first i : Addr) (out : List (Addr × V)) (k : Nat) : Prog (Heap V) (List (Addr × V) × Nat) := do
  if i = first then pure (out, k)
  else do
    let j ← iterPrevC i
    let v ← dataOf j.1
    walkBwdC first j.1 (out ++ [(j.1, v)]) (k + j.2)
partial_fixpoint

/-- Client code: `for (i = end(), b = begin(); i != b; )`, with the number of links followed by all of it. -/
def entriesBackwardC (hd : Addr) : Prog (Heap V) (List (Addr × V) × Nat) := do
  let b ← beginC hd
  walkBwdC b.1 hd [] b.2

/-- `postorder_destroy`, rbtree.hpp:299-310, with the greatest number of its activations alive at once. -/
def postorderDestroyD (n : Addr) : Prog (Heap V) Nat := do
  if n = 0 then pure 1
  else do
    let l := (← nd n).left
    let dl ← if l ≠ 0 then postorderDestroyD l else pure 0
    let r := (← nd n).right
    let dr ← if r ≠ 0 then postorderDestroyD r else pure 0
    delNode n
    pure (1 + max dl dr)
partial_fixpoint

/-- `preorder_copy`, rbtree.hpp:312-330, with the greatest number of its activations alive at once. -/
def preorderCopyD (n : Addr) : Prog (Heap V) (Addr × Nat) := do
  if n = 0 then pure (0, 1)
  else do
    let nc ← newNode (← dataOf n)
    setColor nc (← nd n).color
    let l := (← nd n).left
    let dl ← if l ≠ 0 then do
        let c ← preorderCopyD l
        setLeft nc c.1
        setParent (← nd nc).left nc
        pure c.2
      else do
        setLeft nc 0
        pure 0
    let r := (← nd n).right
    let dr ← if r ≠ 0 then do
        let c ← preorderCopyD r
        setRight nc c.1
        setParent (← nd nc).right nc
        pure c.2
      else do
        setRight nc 0
        pure 0
    pure (nc, 1 + max dl dr)
partial_fixpoint

/-- `clear`, rbtree.hpp:342-348 (also `~rbtree()`, 244), with the depth of its recursion. -/
def clearD (hd : Addr) : Prog (Heap V) Nat := do
  let root ← rootOf hd
  wrE hd .root 0
  postorderDestroyD root

/-- `assign`, rbtree.hpp:332-340, with the depth of its recursion. -/
def assignD (hd other : Addr) : Prog (Heap V) Nat := do
  let d ← if (← rootOf hd) ≠ 0 then clearD hd else pure 0
  let oroot ← rootOf other
  if oroot ≠ 0 then do
    let c ← preorderCopyD oroot
    wrE hd .root c.1
    setParent (← rdE hd .root) hd
    pure (max d c.2)
  else pure d

/-- `~map()`, map.hpp:170, with the depth of its recursion. -/
def destroyD (hd : Addr) : Prog (Heap V) Nat := do
  let d ← clearD hd
  freeHeader hd
  pure d

/-- `map(const map &)`, map.hpp:172-175, set.hpp:160-163, with the depth of its recursion. -/
def copyCtorD (other : Addr) : Prog (Heap V) (Addr × Nat) := do
  let hd ← newTree
  let d ← assignD hd other
  pure (hd, d)

/-- `operator=`, map.hpp:182-187, set.hpp:170-175, with the depth of its recursion. -/
def opAssignD (hd other : Addr) : Prog (Heap V) Nat := do
  let d ← clearD hd
  let e ← assignD hd other
  pure (max d e)

/-! ## Links followed by one step -/

/-- Links from a subtree's top to its leftmost node. -/
def lspine : Tree → Nat
  | .leaf => 0
  | .node _ _ .leaf _ => 0
  | .node _ _ l _ => 1 + lspine l
/-- Links from a subtree's top to its rightmost node. -/
def rspine : Tree → Nat
  | .leaf => 0
  | .node _ _ _ .leaf => 0
  | .node _ _ _ r => 1 + rspine r
/-- Links from a subtree's top to what follows the subtree. -/
def upR : List Frame → Nat
  | [] => 1
  | .L _ _ _ :: _ => 1
  | .R _ _ _ :: k => 1 + upR k
/-- Links from a subtree's top to what comes before the subtree. -/
def upL : List Frame → Nat
  | [] => 1
  | .R _ _ _ :: _ => 1
  | .L _ _ _ :: k => 1 + upL k

theorem lspine_node {a c l r} (hl : l ≠ leaf) : lspine (.node a c l r) = 1 + lspine l := by
  cases l with
  | leaf => exact absurd rfl hl
  | node => rfl
theorem rspine_node {a c l r} (hl : r ≠ leaf) : rspine (.node a c l r) = 1 + rspine r := by
  cases r with
  | leaf => exact absurd rfl hl
  | node => rfl

theorem minNodeC_spec {h : Heap V} {t : Tree} {p : Addr} (hr : Rep h t p) (ht : t ≠ leaf) (d : Addr) (j : Nat) :
    minNodeC t.addr j h = .ok ((t.inorder.headD d, j + lspine t), h) := by
  induction t generalizing p d j with
  | leaf => exact absurd rfl ht
  | node a c l r ihl _ =>
    obtain ⟨h1, h2, h3, h4⟩ := hr
    rw [minNodeC]
    rw [if_neg (show (Tree.node a c l r).addr ≠ 0 from h2)]
    simp only [addr_node, Prog.bind_app, nd_eq h1, Res.bind_ok, Prog.ite_app]
    by_cases hl : l = leaf
    · subst hl; simp [lspine]
    · rw [if_neg (fun e => hl (h3.addr_eq_zero.1 e)), ihl h3 hl d, lspine_node hl]
      rcases l with _ | ⟨b, cb, bl, br⟩
      · exact absurd rfl hl
      · cases hq : (Tree.node b cb bl br).inorder with
        | nil => simp at hq
        | cons y ys => simp only [inorder_node] at hq; simp [hq]; omega

theorem maxNodeC_spec {h : Heap V} {t : Tree} {p : Addr} (hr : Rep h t p) (ht : t ≠ leaf) (d : Addr) (j : Nat) :
    maxNodeC t.addr j h = .ok ((t.inorder.getLastD d, j + rspine t), h) := by
  induction t generalizing p d j with
  | leaf => exact absurd rfl ht
  | node a c l r _ ihr =>
    obtain ⟨h1, h2, h3, h4⟩ := hr
    rw [maxNodeC]
    rw [if_neg (show (Tree.node a c l r).addr ≠ 0 from h2)]
    simp only [addr_node, Prog.bind_app, nd_eq h1, Res.bind_ok, Prog.ite_app]
    by_cases hl : r = leaf
    · subst hl; simp [rspine]
    · rw [if_neg (fun e => hl (h4.addr_eq_zero.1 e)), ihr h4 hl a, rspine_node hl]
      rw [inorder_node]
      cases hq : r.inorder with
      | nil => rcases r with _ | ⟨b, cb, bl, br⟩
               · exact absurd rfl hl
               · simp at hq
      | cons y ys => simp [List.getLast?_cons_cons, List.getLast?_eq_some_getLast]; omega

theorem nextUpC_spec {h : Heap V} {hd : Addr} {k : List Frame} {t : Tree} (hr : RepTree h hd (zip k t))
    (ht : t ≠ leaf) (j : Nat) : nextUpC t.addr j h = .ok (((post k).headD hd, j + upR k), h) := by
  induction k generalizing t j with
  | nil =>
    obtain ⟨hc, htr, hhd, hnd⟩ := repTree_zip.1 hr
    obtain ⟨k1, k2, k3, k4⟩ := htr.kids ht
    rw [nextUpC]
    have := hr.header
    simp only [zip_nil] at this
    simp only [Prog.bind_app, nd_eq k1, Res.bind_ok, ctxParent, nd_eq this, if_neg k2, Prog.ite_app, Prog.pure_app]
    simp [post, upR]
  | cons f k ih =>
    obtain ⟨hc, htr, hhd, hnd⟩ := repTree_zip.1 hr
    obtain ⟨k1, k2, k3, k4⟩ := htr.kids ht
    rw [nextUpC]
    cases f with
    | L a c r =>
      have hne : t.addr ≠ r.addr := by
        intro e
        rcases r with _ | ⟨b, cb, bl, br⟩
        · exact k2 e
        · rcases t with _ | ⟨x, cx, xl, xr⟩
          · exact ht rfl
          · simp only [addr_node] at e
            subst e
            exact nodup_disj hnd (x := x) (by simp) (by simp [ctxNodes])
      have ha := hc.1
      simp only [Prog.bind_app, nd_eq k1, Res.bind_ok, ctxParent_L, nd_eq ha, if_neg hne, Prog.ite_app, Prog.pure_app]
      simp [post, upR]
    | R a c l =>
      have ha := hc.1
      simp only [Prog.bind_app, nd_eq k1, Res.bind_ok, ctxParent_R, nd_eq ha, if_true, Prog.ite_app]
      have := ih (t := .node a c l t) hr (by simp) (j + 1)
      simp only [addr_node] at this
      rw [this]
      simp [post, upR]; omega

theorem prevUpC_spec {h : Heap V} {hd : Addr} {k : List Frame} {t : Tree} (hr : RepTree h hd (zip k t))
    (ht : t ≠ leaf) (j : Nat) : prevUpC t.addr j h = .ok (((pre k).getLastD hd, j + upL k), h) := by
  induction k generalizing t j with
  | nil =>
    obtain ⟨hc, htr, hhd, hnd⟩ := repTree_zip.1 hr
    obtain ⟨k1, k2, k3, k4⟩ := htr.kids ht
    rw [prevUpC]
    have := hr.header
    simp only [zip_nil] at this
    simp only [Prog.bind_app, nd_eq k1, Res.bind_ok, ctxParent, nd_eq this, if_neg k2, Prog.ite_app, Prog.pure_app]
    simp [pre, upL]
  | cons f k ih =>
    obtain ⟨hc, htr, hhd, hnd⟩ := repTree_zip.1 hr
    obtain ⟨k1, k2, k3, k4⟩ := htr.kids ht
    rw [prevUpC]
    cases f with
    | R a c r =>
      have hne : t.addr ≠ r.addr := by
        intro e
        rcases r with _ | ⟨b, cb, bl, br⟩
        · exact k2 e
        · rcases t with _ | ⟨x, cx, xl, xr⟩
          · exact ht rfl
          · simp only [addr_node] at e
            subst e
            exact nodup_disj hnd (x := x) (by simp) (by simp [ctxNodes])
      have ha := hc.1
      simp only [Prog.bind_app, nd_eq k1, Res.bind_ok, ctxParent_R, nd_eq ha, if_neg hne, Prog.ite_app, Prog.pure_app]
      simp [pre, upL]
    | L a c l =>
      have ha := hc.1
      simp only [Prog.bind_app, nd_eq k1, Res.bind_ok, ctxParent_L, nd_eq ha, if_true, Prog.ite_app]
      have := ih (t := .node a c t l) hr (by simp) (j + 1)
      simp only [addr_node] at this
      rw [this]
      simp [pre, upL]; omega

/-- Links `next_node` follows from the top of `node a c l r`, in context `k`. -/
def fwdCost (k : List Frame) (r : Tree) : Nat := if r = leaf then upR k else 1 + lspine r
/-- Links `prev_node` follows from the top of `node a c l r`, in context `k`. -/
def bwdCost (k : List Frame) (l : Tree) : Nat := if l = leaf then upL k else 1 + rspine l

theorem nextNodeC_spec {h : Heap V} {hd : Addr} {k : List Frame} {x : Addr} {c : Bool} {l r : Tree}
    (hr : RepTree h hd (zip k (.node x c l r))) :
    nextNodeC x h = .ok (((r.inorder ++ post k).headD hd, fwdCost k r), h) := by
  obtain ⟨hc, htr, hhd, hnd⟩ := repTree_zip.1 hr
  obtain ⟨h1, h2, h3, h4⟩ := htr
  unfold nextNodeC fwdCost
  simp only [Prog.bind_app, nd_eq h1, Res.bind_ok, Prog.ite_app]
  by_cases hrl : r = leaf
  · subst hrl
    simp only [addr_leaf, ne_eq, not_true_eq_false, if_false, inorder_leaf, List.nil_append, if_true]
    have hup := nextUpC_spec hr (by simp) 0
    simp only [addr_node, Nat.zero_add] at hup
    rcases k with _ | ⟨f, k⟩
    · have := hr.header
      simp only [zip_nil, addr_node] at this
      simp only [ctxParent, nd_eq this, Res.bind_ok, if_neg h2]
      exact hup
    · cases f with
      | L a c' r' =>
        have ha := hc.1
        simp only [addr_node] at ha
        simp only [ctxParent_L, nd_eq ha, Res.bind_ok, if_true, Prog.pure_app]
        simp [post, upR]
      | R a c' l' =>
        have ha := hc.1
        simp only [ctxParent_R, nd_eq ha, Res.bind_ok]
        rw [hup]
        split
        · next e' =>
          exfalso
          rcases l' with _ | ⟨b, cb, bl, br⟩
          · exact h2 e'
          · simp only [addr_node] at e'
            subst e'
            exact nodup_disj hnd (x := x) (by simp) (by simp [ctxNodes])
        · rfl
  · rw [if_pos (fun e => hrl (h4.addr_eq_zero.1 e)), minNodeC_spec h4 hrl hd, if_neg hrl]
    rcases r with _ | ⟨b, cb, bl, br⟩
    · exact absurd rfl hrl
    · cases hq : (Tree.node b cb bl br).inorder with
      | nil => simp at hq
      | cons y ys => simp

theorem prevNodeC_spec {h : Heap V} {hd : Addr} {k : List Frame} {x : Addr} {c : Bool} {l r : Tree}
    (hr : RepTree h hd (zip k (.node x c l r))) :
    prevNodeC x h = .ok (((pre k ++ l.inorder).getLastD hd, bwdCost k l), h) := by
  obtain ⟨hc, htr, hhd, hnd⟩ := repTree_zip.1 hr
  obtain ⟨h1, h2, h3, h4⟩ := htr
  unfold prevNodeC bwdCost
  simp only [Prog.bind_app, nd_eq h1, Res.bind_ok, Prog.ite_app]
  by_cases hrl : l = leaf
  · subst hrl
    simp only [addr_leaf, ne_eq, not_true_eq_false, if_false, inorder_leaf, List.append_nil, if_true]
    have hup := prevUpC_spec hr (by simp) 0
    simp only [addr_node, Nat.zero_add] at hup
    rcases k with _ | ⟨f, k⟩
    · have := hr.header
      simp only [zip_nil, addr_node] at this
      simp only [ctxParent, nd_eq this, Res.bind_ok, if_neg h2]
      exact hup
    · cases f with
      | R a c' r' =>
        have ha := hc.1
        simp only [addr_node] at ha
        simp only [ctxParent_R, nd_eq ha, Res.bind_ok, if_true, Prog.pure_app]
        simp [pre, upL]
      | L a c' l' =>
        have ha := hc.1
        simp only [ctxParent_L, nd_eq ha, Res.bind_ok]
        rw [hup]
        split
        · next e' =>
          exfalso
          rcases l' with _ | ⟨b, cb, bl, br⟩
          · exact h2 e'
          · simp only [addr_node] at e'
            subst e'
            exact nodup_disj hnd (x := x) (by simp) (by simp [ctxNodes])
        · rfl
  · rw [if_pos (fun e => hrl (h3.addr_eq_zero.1 e)), maxNodeC_spec h3 hrl ((pre k).getLastD hd), if_neg hrl]
    simp

theorem iterPrevC_elem {h : Heap V} {hd : Addr} {k : List Frame} {x : Addr} {c : Bool} {l rr : Tree}
    (r : RepTree h hd (zip k (.node x c l rr))) (b : Balanced (zip k (.node x c l rr))) :
    iterPrevC x h = prevNodeC x h := by
  obtain ⟨hc, htr, hhd, hnd⟩ := repTree_zip.1 r
  obtain ⟨h1, h2, h3, h4⟩ := htr
  have hp0 : ctxParent hd k ≠ 0 := by
    intro e0
    have hm := ctxParent_mem hd k
    rw [e0, mem_ctxNodes] at hm
    rcases hm with hm | hm | hm
    · exact r.hd_ne hm.symm
    · exact r.rep.zero_not (by rw [inorder_zip]; simp [hm])
    · exact r.rep.zero_not (by rw [inorder_zip]; simp [hm])
  unfold iterPrevC
  simp only [Prog.bind_app, nd_eq h1, Res.bind_ok, Prog.ite_app, if_neg hp0]
  cases c with
  | false => simp
  | true =>
    simp only [beq_self_eq_true, if_true]
    rcases k with _ | ⟨f, k⟩
    · have := b.1; simp at this
    · have hpar : ∃ n, h.node (ctxParent hd (f :: k)) = some n ∧ n.parent = ctxParent hd k := by
        cases f with
        | L a c' r' => exact ⟨_, hc.1, rfl⟩
        | R a c' l' => exact ⟨_, hc.1, rfl⟩
      obtain ⟨n, hn, hnp⟩ := hpar
      simp only [nd_eq hn, Res.bind_ok, hnp]
      have hne : ctxParent hd k ≠ x := by
        intro e'
        have hm := ctxParent_mem hd k
        rw [e'] at hm
        have hm' : x ∈ ctxNodes hd (f :: k) := by
          rw [mem_ctxNodes] at hm ⊢
          rcases hm with hm | hm | hm
          · exact Or.inl hm
          · refine Or.inr (Or.inl ?_)
            cases f <;> simp [pre, hm]
          · refine Or.inr (Or.inr ?_)
            cases f <;> simp [post, hm]
        exact nodup_disj hnd (x := x) (by simp) hm'
      rw [if_neg hne]

theorem iterPrevC_end {h : Heap V} {hd : Addr} {t : Tree} (r : RepTree h hd t) (ht : t ≠ leaf) :
    iterPrevC hd h = .ok ((t.inorder.getLastD hd, 1 + rspine t), h) := by
  unfold iterPrevC
  have hh := r.header
  simp only [Prog.bind_app, nd_eq hh, Res.bind_ok, Prog.ite_app, Prog.pure_app]
  rw [if_neg (fun e => ht (r.rep.addr_eq_zero.1 e))]
  obtain ⟨k1, k2, k3, k4⟩ := r.rep.kids ht
  simp only [beq_self_eq_true, if_true, nd_eq k1, Res.bind_ok]
  rw [maxNodeC_spec r.rep ht hd]

theorem beginC_spec {h : Heap V} {hd : Addr} {t : Tree} (r : RepTree h hd t) :
    beginC hd h = .ok ((t.inorder.headD hd, if t = leaf then 0 else 1 + lspine t), h) := by
  unfold beginC
  simp only [Prog.bind_app, root_of_zip r, Res.bind_ok, Prog.ite_app, Prog.pure_app]
  by_cases ht : t = leaf
  · subst ht; simp
  · rw [if_pos (fun e => ht (r.rep.addr_eq_zero.1 e)), minNodeC_spec r.rep ht hd, if_neg ht]

/-! ## Links followed by all the steps -/

/-- Every node of `t`, in context `k`, in order, with what `++` costs there. -/
def fwds : List Frame → Tree → List (Addr × Nat)
  | _, .leaf => []
  | k, .node a c l r => fwds (.L a c r :: k) l ++ (a, fwdCost k r) :: fwds (.R a c l :: k) r
/-- Every node of `t`, in context `k`, in order, with what `--` costs there. -/
def bwds : List Frame → Tree → List (Addr × Nat)
  | _, .leaf => []
  | k, .node a c l r => bwds (.L a c r :: k) l ++ (a, bwdCost k l) :: bwds (.R a c l :: k) r

theorem fwds_fst (k t) : (fwds k t).map Prod.fst = t.inorder := by
  induction t generalizing k with
  | leaf => rfl
  | node a c l r ihl ihr => simp [fwds, ihl, ihr]
theorem bwds_fst (k t) : (bwds k t).map Prod.fst = t.inorder := by
  induction t generalizing k with
  | leaf => rfl
  | node a c l r ihl ihr => simp [bwds, ihl, ihr]

theorem mem_fwds {k t} {x n} (hm : (x, n) ∈ fwds k t) :
    ∃ k' c l r, zip k t = zip k' (.node x c l r) ∧ n = fwdCost k' r ∧ n ≤ k.length + t.height := by
  induction t generalizing k with
  | leaf => simp [fwds] at hm
  | node a c l r ihl ihr =>
    simp only [fwds, List.mem_append, List.mem_cons, Prod.mk.injEq] at hm
    rcases hm with hm | ⟨rfl, rfl⟩ | hm
    · obtain ⟨k', c', l', r', e, q, b⟩ := ihl hm
      refine ⟨k', c', l', r', e, q, ?_⟩
      simp only [List.length_cons, height] at *; omega
    · refine ⟨k, c, l, r, rfl, rfl, ?_⟩
      have u : ∀ k, upR k ≤ k.length + 1 := by
        intro k
        induction k with
        | nil => simp [upR]
        | cons f k ih => cases f <;> simp only [upR, List.length_cons] <;> omega
      have s : ∀ t, lspine t ≤ t.height := by
        intro t
        induction t with
        | leaf => simp [lspine, height]
        | node a c l r ihl ihr => cases l <;> simp only [lspine, height] at * <;> omega
      have := u k
      have := s r
      unfold fwdCost
      simp only [height]
      split <;> omega
    · obtain ⟨k', c', l', r', e, q, b⟩ := ihr hm
      refine ⟨k', c', l', r', e, q, ?_⟩
      simp only [List.length_cons, height] at *; omega

theorem mem_bwds {k t} {x n} (hm : (x, n) ∈ bwds k t) :
    ∃ k' c l r, zip k t = zip k' (.node x c l r) ∧ n = bwdCost k' l ∧ n ≤ k.length + t.height := by
  induction t generalizing k with
  | leaf => simp [bwds] at hm
  | node a c l r ihl ihr =>
    simp only [bwds, List.mem_append, List.mem_cons, Prod.mk.injEq] at hm
    rcases hm with hm | ⟨rfl, rfl⟩ | hm
    · obtain ⟨k', c', l', r', e, q, b⟩ := ihl hm
      refine ⟨k', c', l', r', e, q, ?_⟩
      simp only [List.length_cons, height] at *; omega
    · refine ⟨k, c, l, r, rfl, rfl, ?_⟩
      have u : ∀ k, upL k ≤ k.length + 1 := by
        intro k
        induction k with
        | nil => simp [upL]
        | cons f k ih => cases f <;> simp only [upL, List.length_cons] <;> omega
      have s : ∀ t, rspine t ≤ t.height := by
        intro t
        induction t with
        | leaf => simp [rspine, height]
        | node a c l r ihl ihr => cases r <;> simp only [rspine, height] at * <;> omega
      have := u k
      have := s l
      unfold bwdCost
      simp only [height]
      split <;> omega
    · obtain ⟨k', c', l', r', e, q, b⟩ := ihr hm
      refine ⟨k', c', l', r', e, q, ?_⟩
      simp only [List.length_cons, height] at *; omega

theorem lspine_lt {t : Tree} (ht : t ≠ leaf) : 1 + lspine t ≤ t.height := by
  induction t with
  | leaf => exact absurd rfl ht
  | node a c l r ihl ihr =>
    by_cases hl : l = leaf
    · subst hl; simp only [lspine, height]; omega
    · have := ihl hl
      rw [lspine_node hl]; simp only [height]; omega
theorem rspine_lt {t : Tree} (ht : t ≠ leaf) : 1 + rspine t ≤ t.height := by
  induction t with
  | leaf => exact absurd rfl ht
  | node a c l r ihl ihr =>
    by_cases hl : r = leaf
    · subst hl; simp only [rspine, height]; omega
    · have := ihr hl
      rw [rspine_node hl]; simp only [height]; omega

/-- Going down to the leftmost node, then through the subtree and out of it. -/
theorem fwds_sum {k t} (ht : t ≠ leaf) : lspine t + ((fwds k t).map Prod.snd).sum + 2 = 2 * t.size + upR k := by
  induction t generalizing k with
  | leaf => exact absurd rfl ht
  | node a c l r ihl ihr =>
    simp only [fwds, List.map_append, List.map_cons, List.sum_append, List.sum_cons, size]
    have L : lspine (.node a c l r) + ((fwds (.L a c r :: k) l).map Prod.snd).sum = 2 * l.size := by
      by_cases hl : l = leaf
      · subst hl; simp [lspine, fwds, size]
      · have := ihl (k := .L a c r :: k) hl
        rw [lspine_node hl]
        simp only [upR] at this; omega
    have R : fwdCost k r + ((fwds (.R a c l :: k) r).map Prod.snd).sum = 2 * r.size + upR k := by
      by_cases hl : r = leaf
      · subst hl; simp [fwdCost, fwds, size]
      · have := ihr (k := .R a c l :: k) hl
        rw [fwdCost, if_neg hl]
        simp only [upR] at this; omega
    omega

theorem bwds_sum {k t} (ht : t ≠ leaf) : rspine t + ((bwds k t).map Prod.snd).sum + 2 = 2 * t.size + upL k := by
  induction t generalizing k with
  | leaf => exact absurd rfl ht
  | node a c l r ihl ihr =>
    simp only [bwds, List.map_append, List.map_cons, List.sum_append, List.sum_cons, size]
    have L : bwdCost k l + ((bwds (.L a c r :: k) l).map Prod.snd).sum = 2 * l.size + upL k := by
      by_cases hl : l = leaf
      · subst hl; simp [bwdCost, bwds, size]
      · have := ihl (k := .L a c r :: k) hl
        rw [bwdCost, if_neg hl]
        simp only [upL] at this; omega
    have R : rspine (.node a c l r) + ((bwds (.R a c l :: k) r).map Prod.snd).sum = 2 * r.size := by
      by_cases hl : r = leaf
      · subst hl; simp [rspine, bwds, size]
      · have := ihr (k := .R a c l :: k) hl
        rw [rspine_node hl]
        simp only [upL] at this; omega
    omega

theorem bwds_first {k t} (ht : t ≠ leaf) : ∃ x B, bwds k t = (x, lspine t + upL k) :: B := by
  induction t generalizing k with
  | leaf => exact absurd rfl ht
  | node a c l r ihl ihr =>
    by_cases hl : l = leaf
    · subst hl; exact ⟨a, _, by simp [bwds, bwdCost, lspine]; rfl⟩
    · obtain ⟨x, B, e⟩ := ihl (k := .L a c r :: k) hl
      refine ⟨x, B ++ (a, bwdCost k l) :: bwds (.R a c l :: k) r, ?_⟩
      rw [bwds, e, lspine_node hl]
      simp only [upL, List.cons_append, List.cons.injEq, Prod.mk.injEq, true_and, and_true]; omega

theorem nextC_same {h : Heap V} {hd : Addr} {t : Tree} (r : RepTree h hd t) {x n} (hm : (x, n) ∈ fwds [] t) :
    ∃ y, nextNodeC x h = .ok ((y, n), h) ∧ nextNode x h = .ok (y, h) := by
  obtain ⟨k, c, l, rr, e, q, _⟩ := mem_fwds hm
  simp only [zip_nil] at e
  subst e
  refine ⟨_, by rw [nextNodeC_spec r, q], nextNode_spec r (A := pre k ++ l.inorder) ?_⟩
  rw [inorder_zip]; simp

theorem prevC_same {h : Heap V} {hd : Addr} {t : Tree} (r : RepTree h hd t) (b : Balanced t) {x n} (hm : (x, n) ∈ bwds [] t) :
    ∃ y, iterPrevC x h = .ok ((y, n), h) ∧ prevNode x h = .ok (y, h) := by
  obtain ⟨k, c, l, rr, e, q, _⟩ := mem_bwds hm
  simp only [zip_nil] at e
  subst e
  refine ⟨_, by rw [iterPrevC_elem r b, prevNodeC_spec r, q], prevNode_spec r (B := rr.inorder ++ post k) ?_⟩
  rw [inorder_zip]; simp

/-- The number of links `++` follows, as a function of where it starts. -/
def fwdAt (h : Heap V) (x : Addr) : Nat := match nextNodeC x h with
  | .ok ((_, n), _) => n
  | _ => 0
/-- The number of links `--` follows, as a function of where it starts. -/
def bwdAt (h : Heap V) (x : Addr) : Nat := match iterPrevC x h with
  | .ok ((_, n), _) => n
  | _ => 0

theorem mem_of_fst {l : List (Addr × Nat)} {x : Addr} (hx : x ∈ l.map Prod.fst) : ∃ n, (x, n) ∈ l := by
  obtain ⟨⟨y, n⟩, m, rfl⟩ := List.mem_map.1 hx
  exact ⟨n, m⟩

theorem fwdAt_spec {h : Heap V} {hd : Addr} {t : Tree} (r : RepTree h hd t) {x} (hx : x ∈ t.inorder) {y} (hy : nextNode x h = .ok (y, h)) :
    nextNodeC x h = .ok ((y, fwdAt h x), h) ∧ fwdAt h x ≤ t.height := by
  obtain ⟨n, hm⟩ := mem_of_fst (l := fwds [] t) (by rw [fwds_fst]; exact hx)
  obtain ⟨z, e1, e2⟩ := nextC_same r hm
  rw [e2] at hy
  simp only [Res.ok.injEq, Prod.mk.injEq, and_true] at hy
  subst hy
  have : fwdAt h x = n := by simp [fwdAt, e1]
  obtain ⟨_, _, _, _, _, _, b⟩ := mem_fwds hm
  exact ⟨by rw [e1, this], by simpa [this] using b⟩

theorem bwdAt_spec {h : Heap V} {hd : Addr} {t : Tree} (r : RepTree h hd t) (b : Balanced t) {x} (hx : x ∈ t.inorder) {y} (hy : prevNode x h = .ok (y, h)) :
    iterPrevC x h = .ok ((y, bwdAt h x), h) ∧ bwdAt h x ≤ t.height := by
  obtain ⟨n, hm⟩ := mem_of_fst (l := bwds [] t) (by rw [bwds_fst]; exact hx)
  obtain ⟨z, e1, e2⟩ := prevC_same r b hm
  rw [e2] at hy
  simp only [Res.ok.injEq, Prod.mk.injEq, and_true] at hy
  subst hy
  have : bwdAt h x = n := by simp [bwdAt, e1]
  obtain ⟨_, _, _, _, _, _, b⟩ := mem_bwds hm
  exact ⟨by rw [e1, this], by simpa [this] using b⟩

theorem fwdAt_sum {h : Heap V} {hd : Addr} {t : Tree} (r : RepTree h hd t) : t.inorder.map (fwdAt h) = (fwds [] t).map Prod.snd := by
  rw [← fwds_fst [] t, List.map_map]
  refine List.map_congr_left fun e he => ?_
  obtain ⟨y, e1, _⟩ := nextC_same r (x := e.1) (n := e.2) he
  simp [fwdAt, e1]

theorem bwdAt_sum {h : Heap V} {hd : Addr} {t : Tree} (r : RepTree h hd t) (b : Balanced t) : t.inorder.map (bwdAt h) = (bwds [] t).map Prod.snd := by
  rw [← bwds_fst [] t, List.map_map]
  refine List.map_congr_left fun e he => ?_
  obtain ⟨y, e1, _⟩ := prevC_same r b (x := e.1) (n := e.2) he
  simp [bwdAt, e1]

theorem walkFwdC_owns {h : Heap V} {hd : Addr} {es : List (Addr × V)} (o : Owns h hd es) (A B : List (Addr × V))
    (e : es = A ++ B) (j : Nat) :
    walkFwdC hd ((B.map Prod.fst).headD hd) A j h = .ok ((es, j + ((B.map Prod.fst).map (fwdAt h)).sum), h) := by
  induction B generalizing A j with
  | nil => rw [walkFwdC]; simp [e]
  | cons x B ih =>
    have hx : x.1 ≠ hd := by
      have := o.cells_nodup
      rw [e] at this
      simp only [cells, List.map_append, List.map_cons, List.nodup_cons, List.mem_append, List.mem_cons, not_or] at this
      exact fun q => this.1.2.1 q.symm
    have hn := (e ▸ o : Owns h hd (A ++ x :: B)).nextNode
    obtain ⟨t, r, b, i, d⟩ := o
    have hc := (fwdAt_spec r (x := x.1) (by rw [i, e]; simp) hn).1
    rw [walkFwdC]
    simp only [List.map_cons, List.headD_cons]
    rw [if_neg hx]
    simp only [Prog.bind_app, dataOf_eq (d x (by rw [e]; simp)), Res.bind_ok, hc]
    rw [ih (A ++ [(x.1, x.2)]) (by rw [e]; simp)]
    simp only [List.sum_cons, Nat.add_assoc]

/-- A loop over the whole container follows two links per element. -/
theorem entriesC_owns {h : Heap V} {hd : Addr} {es : List (Addr × V)} (o : Owns h hd es) :
    entriesC hd h = .ok ((es, 2 * es.length), h) := by
  have w := walkFwdC_owns o [] es rfl
  obtain ⟨t, r, b, i, d⟩ := o
  unfold entriesC
  simp only [Prog.bind_app, beginC_spec r, Res.bind_ok]
  rw [i, w, ← i, fwdAt_sum r, ← size_of i]
  by_cases ht : t = leaf
  · subst ht; simp [fwds, size]
  · have := fwds_sum (k := []) ht
    simp only [upR] at this
    rw [if_neg ht]
    have : 1 + lspine t + ((fwds [] t).map Prod.snd).sum = 2 * t.size := by omega
    rw [this]

theorem walkBwdC_owns {h : Heap V} {hd : Addr} {es : List (Addr × V)} (o : Owns h hd es)
    (R : List (Addr × V)) : ∀ (B : List (Addr × V)) (j : Nat), es = R.reverse ++ B →
    walkBwdC ((es.map Prod.fst).headD hd) ((B.map Prod.fst).headD hd) B.reverse j h =
      .ok ((es.reverse, j + if R = [] then 0 else (((R.reverse.map Prod.fst).tail ++ [(B.map Prod.fst).headD hd]).map (bwdAt h)).sum), h) := by
  induction R with
  | nil =>
    intro B j e
    simp only [List.reverse_nil, List.nil_append] at e
    subst e
    rw [walkBwdC]; simp
  | cons x R ih =>
    intro B j e
    have e' : es = R.reverse ++ x :: B := by rw [e]; simp
    have hx : (B.map Prod.fst).headD hd ≠ (es.map Prod.fst).headD hd := by
      have hn := o.cells_nodup
      have hne : (es.map Prod.fst).headD hd ∈ (R.reverse ++ [x]).map Prod.fst := by
        cases hR : R.reverse with
        | nil => rw [e', hR]; simp
        | cons y R' => rw [e', hR]; simp
      intro q
      rw [← q] at hne
      rw [e', show R.reverse ++ x :: B = (R.reverse ++ [x]) ++ B by simp] at hn
      simp only [cells, List.map_append, List.nodup_cons, List.nodup_append] at hn
      simp only [List.map_append] at hne
      cases B with
      | nil => exact hn.1 (by simpa using hne)
      | cons y B => exact hn.2.2.2 y.1 (by simpa using hne) y.1 (by simp) rfl
    have hp : iterPrevC ((B.map Prod.fst).headD hd) h = .ok ((x.1, bwdAt h ((B.map Prod.fst).headD hd)), h) := by
      cases B with
      | nil =>
        obtain ⟨t, r, b, i, d⟩ := o
        have ht : t ≠ leaf := by rintro rfl; rw [e'] at i; simp at i
        have := iterPrevC_end r ht
        rw [i, e'] at this
        have q : bwdAt h hd = 1 + rspine t := by simp [bwdAt, this]
        simp only [List.map_nil, List.headD_nil, q]
        simpa using this
      | cons y B =>
        have hpv := (show Owns h hd ((R.reverse ++ [x]) ++ y :: B) by rw [e'] at o; simpa using o).prevNode
        obtain ⟨t, r, b, i, d⟩ := o
        have := (bwdAt_spec r b (x := y.1) (by rw [i, e']; simp) hpv).1
        simpa using this
    have hd' : h.data x.1 = some x.2 := by
      obtain ⟨t, r, b, i, d⟩ := o
      exact d x (by rw [e']; simp)
    rw [walkBwdC, if_neg hx]
    simp only [Prog.bind_app, hp, Res.bind_ok, dataOf_eq hd']
    have := ih (x :: B) (j + bwdAt h ((B.map Prod.fst).headD hd)) e'
    simp only [List.map_cons, List.headD_cons, List.reverse_cons] at this
    rw [this]
    simp only [Res.ok.injEq, Prod.mk.injEq, and_true, true_and, if_false, reduceCtorEq]
    cases hR : R with
    | nil => simp
    | cons z R' =>
      cases hq : (z :: R').reverse with
      | nil => simp at hq
      | cons u U =>
        simp only [if_false, reduceCtorEq, List.reverse_cons] at *
        simp [hq]; omega

/-- A loop from the end of the container to its beginning follows two links per element. -/
theorem entriesBackwardC_owns {h : Heap V} {hd : Addr} {es : List (Addr × V)} (o : Owns h hd es) :
    entriesBackwardC hd h = .ok ((es.reverse, 2 * es.length), h) := by
  have w := fun j => walkBwdC_owns o es.reverse [] j (by simp)
  obtain ⟨t, r, b, i, d⟩ := o
  unfold entriesBackwardC
  simp only [Prog.bind_app, beginC_spec r, Res.bind_ok]
  simp only [List.map_nil, List.headD_nil, List.reverse_nil, List.reverse_reverse, ← i] at w
  rw [w, ← size_of i]
  by_cases ht : t = leaf
  · subst ht
    have hes : es = [] := by cases es with
      | nil => rfl
      | cons e es => simp at i
    subst hes
    simp [size]
  · have hes : es.reverse ≠ [] := by
      intro e
      have : es = [] := by simpa using e
      subst this
      exact ht (by cases t with | leaf => rfl | node => simp at i)
    rw [if_neg ht, if_neg hes]
    have s := bwds_sum (k := []) ht
    obtain ⟨x, B, q⟩ := bwds_first (k := []) ht
    have m := bwdAt_sum r b
    have en : bwdAt h hd = 1 + rspine t := by simp [bwdAt, iterPrevC_end r ht]
    have tl : (t.inorder.tail.map (bwdAt h)).sum = (B.map Prod.snd).sum := by
      rw [List.map_tail, m, q]; rfl
    simp only [List.map_append, List.sum_append, tl, List.map_cons, List.map_nil, List.sum_cons, List.sum_nil, en]
    rw [q] at s
    simp only [List.map_cons, List.sum_cons, upL] at s
    have : 1 + lspine t + ((B.map Prod.snd).sum + (1 + rspine t + 0)) = 2 * t.size := by omega
    rw [this]

/-! ## Depth of the recursion -/

theorem postorderDestroyD_spec {h : Heap V} {t : Tree} {p : Addr} (hr : Rep h t p) (hnd : t.inorder.Nodup) (ht : t ≠ leaf) :
    ∃ h', postorderDestroy t.addr h = .ok ((), h') ∧ postorderDestroyD t.addr h = .ok (t.height, h') := by
  induction t generalizing p h with
  | leaf => exact absurd rfl ht
  | node a c l r ihl ihr =>
    obtain ⟨g, eg, _⟩ := postorderDestroy_spec hr hnd
    refine ⟨g, eg, ?_⟩
    obtain ⟨h1, h2, h3, h4⟩ := hr
    obtain ⟨n1, n2, n3⟩ := List.nodup_append.1 hnd
    obtain ⟨n4, n5⟩ := List.nodup_cons.1 n2
    have hal : a ∉ l.inorder := fun hm => n3 a hm a (by simp) rfl
    have hlr : ∀ x ∈ r.inorder, x ∉ l.inorder := fun x hx hm => n3 x hm x (by simp [hx]) rfl
    obtain ⟨g1, e1, f1⟩ := postorderDestroy_spec h3 n1
    have a1 : g1.node a = some ⟨p, l.addr, r.addr, c⟩ := (f1.kept a hal).1.trans h1
    have r1 : Rep g1 r a := h4.congr fun x hx => (f1.kept x (hlr x hx)).1
    obtain ⟨g2, e2, f2⟩ := postorderDestroy_spec r1 n5
    have a2 : g2.node a = some ⟨p, l.addr, r.addr, c⟩ := (f2.kept a n4).1.trans a1
    have hg : g = g2.free a := by
      rw [postorderDestroy, if_neg (show (Tree.node a c l r).addr ≠ 0 from h2)] at eg
      simp only [addr_node, Prog.bind_app, Prog.ite_app] at eg
      rw [nd_eq h1] at eg
      simp only [Res.bind_ok] at eg
      by_cases hl : l.addr = 0 <;> by_cases hq : r.addr = 0
      all_goals
        first
          | (have q : l = leaf := h3.addr_eq_zero.1 hl
             subst q
             rw [postorderDestroy] at e1
             simp at e1
             subst e1)
          | skip
      all_goals
        first
          | (have q : r = leaf := h4.addr_eq_zero.1 hq
             subst q
             rw [postorderDestroy] at e2
             simp at e2
             subst e2)
          | skip
      all_goals
        simp [*, nd_eq a1, nd_eq h1, delNode] at eg
        try exact eg.symm
    rw [postorderDestroyD, if_neg (show (Tree.node a c l r).addr ≠ 0 from h2)]
    simp only [addr_node, Prog.bind_app, Prog.ite_app]
    rw [nd_eq h1]
    simp only [Res.bind_ok]
    have k1 : ∀ {α : Type} (M : Nat → Heap V → Res α), (if l.addr ≠ 0 then (postorderDestroyD l.addr h).bind fun r => M r.1 r.2 else M 0 h) = M l.height g1 := by
      intro α M
      by_cases hl : l = leaf
      · subst hl
        rw [postorderDestroy] at e1
        simp at e1
        simp [e1, height]
      · rw [if_pos (fun e => hl (h3.addr_eq_zero.1 e))]
        obtain ⟨g', e', d'⟩ := ihl h3 n1 hl
        rw [e1] at e'
        simp only [Res.ok.injEq, Prod.mk.injEq, true_and] at e'
        rw [d', e']; rfl
    have k2 : ∀ {α : Type} (M : Nat → Heap V → Res α), (if r.addr ≠ 0 then (postorderDestroyD r.addr g1).bind fun r => M r.1 r.2 else M 0 g1) = M r.height g2 := by
      intro α M
      by_cases hl : r = leaf
      · subst hl
        rw [postorderDestroy] at e2
        simp at e2
        simp [e2, height]
      · rw [if_pos (fun e => hl (h4.addr_eq_zero.1 e))]
        obtain ⟨g', e', d'⟩ := ihr r1 n5 hl
        rw [e2] at e'
        simp only [Res.ok.injEq, Prod.mk.injEq, true_and] at e'
        rw [d', e']; rfl
    refine (k1 (fun d hh => (nd a hh).bind fun q => if q.1.right ≠ 0 then (postorderDestroyD q.1.right q.2).bind fun r =>
      (delNode a r.2).bind fun s => .ok (1 + max d r.1, s.2) else (delNode a q.2).bind fun s => .ok (1 + max d 0, s.2))).trans ?_
    rw [nd_eq a1]
    refine (k2 (fun d hh => (delNode a hh).bind fun s => .ok (1 + max l.height d, s.2))).trans ?_
    simp only [Res.bind_ok, delNode, if_neg h2, a2, hg, height]
    simp only [Res.bind_ok, Nat.add_comm]

theorem kidD {setKid : Addr → Addr → Prog (Heap V) Unit} {kid : RbNode → Addr} {h h' : Heap V} {l : Tree} {nc : Addr}
    (hl0 : l.addr = 0 → l = leaf)
    (e : ∀ {α : Type} (M : Heap V → Res α),
        (if l.addr ≠ 0 then
          (preorderCopy l.addr h).bind fun r4 => (setKid nc r4.1 r4.2).bind fun r5 =>
            (nd nc r5.2).bind fun r6 => (setParent (kid r6.1) nc r6.2).bind fun r7 => M r7.2
         else (setKid nc 0 h).bind fun r4 => M r4.2) = M h')
    (ih : l ≠ leaf → ∃ x h1, preorderCopy l.addr h = .ok (x, h1) ∧ preorderCopyD l.addr h = .ok ((x, l.height), h1)) :
    ∀ (α : Type) (M : Nat → Heap V → Res α), (if l.addr ≠ 0 then
          (preorderCopyD l.addr h).bind fun r4 => (setKid nc r4.1.1 r4.2).bind fun r5 =>
            (nd nc r5.2).bind fun r6 => (setParent (kid r6.1) nc r6.2).bind fun r7 => M r4.1.2 r7.2
         else (setKid nc 0 h).bind fun r4 => M 0 r4.2) = M l.height h' := by
  intro α M
  have e' := e (fun g => M l.height g)
  by_cases hl : l.addr = 0
  · have := hl0 hl
    subst this
    simpa [height] using e'
  · obtain ⟨x, h1, q1, q2⟩ := ih (fun q => hl (by rw [q]; rfl))
    rw [if_pos hl, q1] at e'
    rw [if_pos hl, q2]
    exact e'

theorem preorderCopyD_spec {h : Heap V} {t : Tree} {p : Addr} (hr : Rep h t p) (hnd : t.inorder.Nodup)
    (hd : ∀ x ∈ t.inorder, (h.data x).isSome) (hlt : ∀ x ∈ t.inorder, x < h.next) (h0 : 0 < h.next)
    (ht : t ≠ leaf) :
    ∃ x h', preorderCopy t.addr h = .ok (x, h') ∧ preorderCopyD t.addr h = .ok ((x, t.height), h') := by
  induction t generalizing p h with
  | leaf => exact absurd rfl ht
  | node a c l r ihl ihr =>
    obtain ⟨h1, h2, h3, h4⟩ := hr
    obtain ⟨v, hv⟩ := Option.isSome_iff_exists.1 (hd a (by simp))
    have hal : a < h.next := hlt a (by simp)
    let nc := h.next
    let ha := (h.alloc v).setNode nc { h.junk nc with color := c }
    have hnca : (h.alloc v).node nc = some (h.junk nc) := by simp [Heap.alloc, nc]
    have hnc : ha.node nc = some { h.junk nc with color := c } := by simp [ha]
    have hna : ha.next = h.next + 1 := rfl
    have olda : ∀ x, x ≠ nc → ha.node x = h.node x := by
      intro x hx
      rw [setNode_node_ne _ _ hx]; simp only [Heap.alloc]; rw [if_neg hx]
    have oldd : ∀ x, x ≠ nc → ha.data x = h.data x := by
      intro x hx
      show (h.alloc v).data x = _
      simp only [Heap.alloc]; rw [if_neg hx]
    have ne_of_lt : ∀ x, x < h.next → x ≠ nc := fun x hx => Nat.ne_of_lt hx
    have memlt : ∀ x ∈ l.inorder ++ r.inorder, x < h.next := by
      intro x hx; apply hlt; simp only [inorder_node, List.mem_append, List.mem_cons] at hx ⊢; grind
    have la : Rep ha l a := h3.congr fun x hx => olda x (ne_of_lt x (memlt x (by simp [hx])))
    have aa : ha.node a = some ⟨p, l.addr, r.addr, c⟩ := (olda a (ne_of_lt a hal)).trans h1
    obtain ⟨n1, n2, n3⟩ := List.nodup_append.1 hnd
    have n2' := (List.nodup_cons.1 n2).2
    have hltS : ∀ x, x < h.next → x < h.next + 1 := fun x hx => Nat.lt_succ_of_lt hx
    have dl : ∀ x ∈ l.inorder, (ha.data x).isSome := fun x hx => by
      rw [oldd x (ne_of_lt x (memlt x (by simp [hx])))]; exact hd x (by simp [hx])
    have ll : ∀ x ∈ l.inorder, x < ha.next := fun x hx => by rw [hna]; exact hltS x (memlt x (by simp [hx]))
    have pa : 0 < ha.next := by rw [hna]; exact Nat.succ_pos _
    obtain ⟨hb, l', eb, lb, sb, db, rb, ndb, leb, ncb, odb, onb, cb⟩ :=
      copyKid (V := V) setLeft RbNode.left (fun x n => { n with left := x }) (fun _ _ => rfl) (fun _ _ => rfl)
        hnc (by rw [hna]; exact Nat.lt_succ_self _) la.addr_eq_zero
        (fun hl => preorderCopy_spec (h := ha) la n1 dl ll pa hl)
    have eD := kidD (fun e => la.addr_eq_zero.1 e) eb (fun hl => ihl (h := ha) la n1 dl ll pa hl)
    rw [hna] at rb leb
    have fresh_l : ∀ x, x < h.next + 1 → x ∉ l'.inorder := fun x hx hm =>
      Nat.lt_irrefl _ (Nat.lt_of_lt_of_le hx ((rb x).1 hm).1)
    have oldb : ∀ x, x < h.next → hb.node x = h.node x := fun x hx =>
      (onb x (fresh_l x (hltS x hx)) (ne_of_lt x hx)).trans (olda x (ne_of_lt x hx))
    have olddb : ∀ x, x < h.next → hb.data x = h.data x := fun x hx =>
      (odb x (fresh_l x (hltS x hx))).trans (oldd x (ne_of_lt x hx))
    have rrb : Rep hb r a := h4.congr fun x hx => oldb x (memlt x (by simp [hx]))
    have ab : hb.node a = some ⟨p, l.addr, r.addr, c⟩ := (oldb a hal).trans h1
    have hnlt : h.next < hb.next := Nat.lt_of_lt_of_le (Nat.lt_succ_self _) leb
    have dr : ∀ x ∈ r.inorder, (hb.data x).isSome := fun x hx => by
      rw [olddb x (memlt x (by simp [hx]))]; exact hd x (by simp [hx])
    have lr : ∀ x ∈ r.inorder, x < hb.next := fun x hx => Nat.lt_trans (memlt x (by simp [hx])) hnlt
    have pb : 0 < hb.next := Nat.lt_of_le_of_lt (Nat.zero_le _) hnlt
    obtain ⟨hc, r', ec, rc, sc, dc, rgc, ndc, lec, ncc, odc, onc, cc⟩ :=
      copyKid (V := V) setRight RbNode.right (fun x n => { n with right := x }) (fun _ _ => rfl) (fun _ _ => rfl)
        ncb hnlt rrb.addr_eq_zero
        (fun hl => preorderCopy_spec (h := hb) rrb n2' dr lr pb hl)
    have eE := kidD (fun e => rrb.addr_eq_zero.1 e) ec (fun hl => ihr (h := hb) rrb n2' dr lr pb hl)
    have e1 : nd a (h.alloc v) = .ok (⟨p, l.addr, r.addr, c⟩, h.alloc v) := by
      apply nd_eq; simp only [Heap.alloc]; rw [if_neg (ne_of_lt a hal)]; exact h1
    refine ⟨nc, hc, ?_, ?_⟩
    · rw [preorderCopy, if_neg (show (Tree.node a c l r).addr ≠ 0 from h2)]
      simp only [addr_node, Prog.bind_app, dataOf_eq hv, Res.bind_ok, newNode, Prog.ite_app, Prog.pure_app]
      rw [e1]
      simp only [Res.bind_ok, setColor]
      rw [upd_eq _ hnca]
      simp only [Res.bind_ok]
      rw [nd_eq aa]
      simp only [Res.bind_ok]
      have := eb (fun hh => (nd a hh).bind fun r_8 =>
                          if r_8.fst.right ≠ 0 then
                            (preorderCopy r_8.fst.right r_8.snd).bind fun r_9 =>
                              (setRight nc r_9.fst r_9.snd).bind fun r_10 =>
                                (nd nc r_10.snd).bind fun r_11 =>
                                  (setParent r_11.fst.right nc r_11.snd).bind fun r_12 => .ok (nc, r_12.snd)
                          else (setRight nc 0 r_8.snd).bind fun r_9 => .ok (nc, r_9.snd))
      refine this.trans ?_
      rw [nd_eq ab]
      simp only [Res.bind_ok]
      exact ec (fun hh => .ok (nc, hh))
    · rw [preorderCopyD, if_neg (show (Tree.node a c l r).addr ≠ 0 from h2)]
      simp only [addr_node, Prog.bind_app, dataOf_eq hv, Res.bind_ok, newNode, Prog.ite_app, Prog.pure_app]
      rw [e1]
      simp only [Res.bind_ok, setColor]
      rw [upd_eq _ hnca]
      simp only [Res.bind_ok]
      rw [nd_eq aa]
      simp only [Res.bind_ok]
      have := eD _ (fun d hh => (nd a hh).bind fun r_8 =>
                          if r_8.fst.right ≠ 0 then
                            (preorderCopyD r_8.fst.right r_8.snd).bind fun r_9 =>
                              (setRight nc r_9.fst.fst r_9.snd).bind fun r_10 =>
                                (nd nc r_10.snd).bind fun r_11 =>
                                  (setParent r_11.fst.right nc r_11.snd).bind fun r_12 => .ok ((nc, 1 + max d r_9.fst.snd), r_12.snd)
                          else (setRight nc 0 r_8.snd).bind fun r_9 => .ok ((nc, 1 + max d 0), r_9.snd))
      refine this.trans ?_
      rw [nd_eq ab]
      simp only [Res.bind_ok]
      refine (eE _ (fun d hh => .ok ((nc, 1 + max l.height d), hh))).trans ?_
      simp only [height, Nat.add_comm]

/-! ## Whole containers -/

theorem height_of {h : Heap V} {hd : Addr} {es : List (Addr × V)} {t : Tree} (b : Balanced t) (i : t.inorder = es.map Prod.fst) :
    t.height ≤ 2 * Nat.log2 (es.length + 1) := by
  rw [← size_of i]; exact b.height

theorem clearD_owns {h : Heap V} {hd : Addr} {es : List (Addr × V)} (w : Wf h) (o : Owns h hd es) :
    ∃ d h', clear hd h = .ok ((), h') ∧ clearD hd h = .ok (d, h') ∧ (es ≠ [] → d ≤ 2 * Nat.log2 (es.length + 1)) ∧ (es = [] → d = 1) := by
  obtain ⟨t, r, b, i, d⟩ := o
  have hh := r.header
  have r1 : Rep (h.setNode hd ⟨0, 0, 0, RED⟩) t hd := r.rep.congr fun x hx =>
    setNode_node_ne _ _ fun e => r.hd_not (e ▸ hx)
  by_cases ht : t = leaf
  · subst ht
    have hes : es = [] := by cases es with
      | nil => rfl
      | cons e es => simp at i
    refine ⟨1, h.setNode hd ⟨0, 0, 0, RED⟩, ?_, ?_, fun q => absurd hes q, fun _ => rfl⟩
    · unfold clear rootOf wrE setParent
      simp only [Prog.bind_app, nd_eq hh, Res.bind_ok, Prog.pure_app, upd_eq _ hh]
      rw [postorderDestroy]; simp
    · unfold clearD rootOf wrE setParent
      simp only [Prog.bind_app, nd_eq hh, Res.bind_ok, Prog.pure_app, upd_eq _ hh]
      rw [postorderDestroyD]; simp
  · obtain ⟨h', e1, e2⟩ := postorderDestroyD_spec r1 r.nodup ht
    refine ⟨t.height, h', ?_, ?_, fun _ => height_of (h := h) (hd := hd) b i, fun q => ?_⟩
    · unfold clear rootOf wrE setParent
      simp only [Prog.bind_app, nd_eq hh, Res.bind_ok, Prog.pure_app, upd_eq _ hh]
      exact e1
    · unfold clearD rootOf wrE setParent
      simp only [Prog.bind_app, nd_eq hh, Res.bind_ok, Prog.pure_app, upd_eq _ hh]
      exact e2
    · subst q
      exact absurd (by cases t with | leaf => rfl | node => simp at i) ht

theorem assignD_owns {h : Heap V} {hd other : Addr} {es : List (Addr × V)} (w : Wf h)
    (o : Owns h hd []) (oo : Owns h other es) :
    ∃ d h', assign hd other h = .ok ((), h') ∧ assignD hd other h = .ok (d, h') ∧ d ≤ 2 * Nat.log2 (es.length + 1) := by
  obtain ⟨g, es', eg, _⟩ := assign_owns w o oo
  have hlt := fun x hx => oo.lt w (x := x) hx
  obtain ⟨t0, r0, b0, i0, _⟩ := o
  have : t0 = leaf := by
    cases t0 with
    | leaf => rfl
    | node a c l r => simp at i0
  subst this
  have hroot0 := root_of_zip r0
  obtain ⟨t, r, b, i, d⟩ := oo
  have hroot := root_of_zip r
  by_cases ht : t = leaf
  · subst ht
    refine ⟨0, g, eg, ?_, Nat.zero_le _⟩
    unfold assign at eg
    unfold assignD
    simp only [Prog.bind_app, hroot0, hroot, Res.bind_ok, addr_leaf, ne_eq, not_true_eq_false, if_false,
      Prog.ite_app, Prog.pure_app, Res.ok.injEq, Prod.mk.injEq, true_and] at eg ⊢
    exact eg
  · obtain ⟨x, h1, e1, e2⟩ := preorderCopyD_spec r.rep r.nodup
      (fun x hx => by
        rw [i, List.mem_map] at hx
        obtain ⟨e, he, rfl⟩ := hx
        rw [d e he]; rfl)
      (fun x hx => hlt x (by rw [i] at hx; simp only [cells, List.mem_cons]; exact Or.inr hx)) w.pos ht
    refine ⟨t.height, g, eg, ?_, height_of (h := h) (hd := hd) b i⟩
    unfold assign at eg
    unfold assignD
    simp only [Prog.bind_app, hroot0, hroot, Res.bind_ok, addr_leaf, ne_eq, not_true_eq_false, if_false,
      Prog.ite_app, Prog.pure_app] at eg ⊢
    rw [if_pos (fun e => ht (r.rep.addr_eq_zero.1 e))] at eg ⊢
    rw [e1] at eg
    rw [e2]
    simp only [Res.bind_ok] at eg ⊢
    cases q1 : wrE hd .root x h1 with
    | ok p =>
      simp only [q1, Res.bind_ok] at eg ⊢
      cases q2 : rdE hd .root p.2 with
      | ok s =>
        simp only [q2, Res.bind_ok] at eg ⊢
        rw [eg]
        simp
      | _ => simp [q2] at eg
    | _ => simp [q1] at eg

end Verif.Rb.Steps
