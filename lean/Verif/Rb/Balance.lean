import Verif.Rb.Zipper
/-!
# Balance of the left-leaning red-black tree (pure part)

Proof machinery: the 2-3 tree invariant, its preservation by the insertion climb and the deletion
descent, and the height bound it implies.
-/
set_option linter.unusedSimpArgs false
namespace Verif.Rb
open Verif Tree

/-- `t` is a left-leaning red-black tree of black height `n` (its root may be red). -/
def Bal : Tree → Nat → Prop
  | .leaf, n => n = 0
  | .node _ true l r, n => Bal l n ∧ Bal r n ∧ l.red = false ∧ r.red = false
  | .node _ false l r, n => ∃ m, n = m + 1 ∧ Bal l m ∧ Bal r m ∧ r.red = false

/-- A whole tree is balanced: black root and equal black heights. -/
def Balanced (t : Tree) : Prop := t.red = false ∧ ∃ n, Bal t n

theorem Bal.right_black {t : Tree} {n : Nat} (h : Bal t n) : t.right.red = false := by
  rcases t with _ | ⟨a, c, l, r⟩
  · rfl
  · cases c
    · obtain ⟨m, _, _, _, h⟩ := h; exact h
    · exact h.2.2.2

theorem Bal.left_left {t : Tree} {n : Nat} (h : Bal t n) (hl : t.left.red = true) : t.left.left.red = false := by
  rcases t with _ | ⟨a, c, (_ | ⟨b, cb, ll, lr⟩), r⟩
  · rfl
  · rfl
  · simp only [left_node, red_node] at hl; subst hl
    cases c
    · obtain ⟨m, _, h, _, _⟩ := h; exact h.2.2.1
    · exact absurd h.2.2.1 (by simp)

theorem Bal.fixup_id {t : Tree} {n : Nat} (h : Bal t n) : t.fixup = t := by
  have h1 := h.right_black
  have h2 : t.fix1 = t := by simp [Tree.fix1, h1]
  have h3 : t.fix2 = t := by
    unfold Tree.fix2; split
    · next hl => rw [if_neg]; simp [h.left_left hl]
    · rfl
  have h4 : t.fix3 = t := by simp [Tree.fix3, h1]
  rw [Tree.fixup, h2, h3, h4]

theorem Bal.blacken {t : Tree} {n : Nat} (h : Bal t n) : Balanced (t.recolor BLACK) := by
  rcases t with _ | ⟨a, c, l, r⟩
  · exact ⟨rfl, n, h⟩
  · cases c
    · exact ⟨rfl, n, h⟩
    · exact ⟨rfl, n + 1, n, rfl, h.1, h.2.1, h.2.2.2⟩

theorem Bal.unique {t : Tree} {n m : Nat} (h : Bal t n) (h' : Bal t m) : n = m := by
  induction t generalizing n m with
  | leaf => simp only [Bal] at h h'; omega
  | node a c l r ihl ihr =>
    cases c
    · obtain ⟨x, rfl, h1, _⟩ := h
      obtain ⟨y, rfl, h2, _⟩ := h'
      rw [ihl h1 h2]
    · exact ihl h.1 h'.1

/-- Height and size from the invariant. -/
theorem Bal.height {t : Tree} {n : Nat} (h : Bal t n) :
    t.height ≤ 2 * n + (if t.red then 1 else 0) ∧ 2 ^ n ≤ t.size + 1 := by
  induction t generalizing n with
  | leaf => simp only [Bal] at h; subst h; simp [Tree.height, Tree.size]
  | node a c l r ihl ihr =>
    cases c
    · obtain ⟨m, rfl, h1, h2, h3⟩ := h
      obtain ⟨a1, a2⟩ := ihl h1
      obtain ⟨b1, b2⟩ := ihr h2
      simp only [Tree.height, Tree.size, red_node, h3, Bool.false_eq_true, if_false, Nat.pow_succ] at *
      split at a1 <;> constructor <;> omega
    · obtain ⟨h1, h2, h3, h4⟩ := h
      obtain ⟨a1, a2⟩ := ihl h1
      obtain ⟨b1, b2⟩ := ihr h2
      simp only [Tree.height, Tree.size, red_node, h3, h4, Bool.false_eq_true, if_false, if_true] at *
      constructor <;> omega

/-! ## Insertion -/

/-- Pure counterpart of `rebalLoop`. -/
def rebal : List Frame → Tree → Tree
  | [], t => t
  | f :: k, t => if (f.plug t).left.red || (f.plug t).right.red then rebal k (f.plug t).fixup
                 else zip k (f.plug t)

theorem inorder_rebal (k : List Frame) (t : Tree) : (rebal k t).inorder = (zip k t).inorder := by
  induction k generalizing t with
  | nil => rfl
  | cons f k ih =>
    unfold rebal
    split
    · rw [ih, inorder_zip, inorder_fixup, zip_cons, inorder_zip]
    · rfl

/-- A context whose hole may take a subtree of black height `n` (red only if `r`). -/
inductive CtxBal : List Frame → Nat → Bool → Prop
  | nil (n) : CtxBal [] n true
  | lb {a r k n x} : Bal r n → r.red = false → CtxBal k (n + 1) x → CtxBal (.L a false r :: k) n true
  | rb {a l k n x} : Bal l n → CtxBal k (n + 1) x → CtxBal (.R a false l :: k) n false
  | lr {a r k n} : Bal r n → r.red = false → CtxBal k n true → CtxBal (.L a true r :: k) n false
  | rr {a l k n} : Bal l n → l.red = false → CtxBal k n true → CtxBal (.R a true l :: k) n false

theorem ctxBal_of_zip {k : List Frame} {t : Tree} {N : Nat} (h : Bal (zip k t) N) :
    ∃ n r, CtxBal k n r ∧ Bal t n ∧ (t.red = true → r = true) := by
  induction k generalizing t with
  | nil => exact ⟨N, true, .nil N, h, fun _ => rfl⟩
  | cons f k ih =>
    obtain ⟨n, r, hk, hb, hr⟩ := ih h
    rcases f with ⟨a, c, s⟩ | ⟨a, c, s⟩
    · cases c
      · obtain ⟨m, rfl, h1, h2, h3⟩ := hb
        exact ⟨m, true, .lb h2 h3 hk, h1, fun _ => rfl⟩
      · obtain ⟨h1, h2, h3, h4⟩ := hb
        have : r = true := hr rfl
        subst this
        exact ⟨n, false, .lr h2 h4 hk, h1, by simp [h3]⟩
    · cases c
      · obtain ⟨m, rfl, h1, h2, h3⟩ := hb
        exact ⟨m, false, .rb h1 hk, h2, by simp [h3]⟩
      · obtain ⟨h1, h2, h3, h4⟩ := hb
        have : r = true := hr rfl
        subst this
        exact ⟨n, false, .rr h1 h3 hk, h2, by simp [h4]⟩

theorem zip_bal {k : List Frame} {t : Tree} {n : Nat} {r : Bool} (hk : CtxBal k n r) (hb : Bal t n)
    (hr : t.red = true → r = true) : ∃ N, Bal (zip k t) N := by
  induction hk generalizing t with
  | nil n => exact ⟨n, hb⟩
  | lb h1 h2 h3 ih => exact ih (t := .node _ false t _) ⟨_, rfl, hb, h1, h2⟩ (by simp)
  | rb h1 h3 ih =>
    exact ih (t := .node _ false _ t) ⟨_, rfl, h1, hb, by cases h : t.red <;> simp_all⟩ (by simp)
  | lr h1 h2 h3 ih =>
    exact ih (t := .node _ true t _) ⟨hb, h1, by cases h : t.red <;> simp_all, h2⟩ (by simp)
  | rr h1 h2 h3 ih =>
    exact ih (t := .node _ true _ t) ⟨h1, hb, h2, by cases h : t.red <;> simp_all⟩ (by simp)

/-- A red node with a red left child: the only defect that climbs during insertion. -/
def Almost (t : Tree) (n : Nat) : Prop :=
  ∃ a l r, t = .node a true l r ∧ Bal l n ∧ Bal r n ∧ l.red = true ∧ r.red = false

theorem rebal_bal {k : List Frame} {t : Tree} {n : Nat} {r : Bool} (hk : CtxBal k n r)
    (h : Bal t n ∨ (Almost t n ∧ r = true)) : ∃ N, Bal (rebal k t) N ∨ (Almost (rebal k t) N) := by
  induction k generalizing t n r with
  | nil =>
    refine ⟨n, ?_⟩
    rcases h with h | ⟨h, _⟩
    · exact Or.inl h
    · exact Or.inr h
  | cons f k ih =>
    unfold rebal
    split
    · next hc =>
      cases hk with
      | @lb a s k n x h1 h2 h3 =>
        refine ih h3 (Or.inl ?_)
        rcases h with h | ⟨h, _⟩
        · have : Bal (Frame.plug (.L a false s) t) (n + 1) := ⟨n, rfl, h, h1, h2⟩
          rw [this.fixup_id]; exact this
        · obtain ⟨b, l, r, rfl, b1, b2, b3, b4⟩ := h
          rcases l with _ | ⟨d, cd, dl, dr⟩
          · simp at b3
          · simp only [red_node] at b3; subst b3
            simp only [Frame.plug_L, Tree.fixup, Tree.fix1, Tree.fix2, Tree.fix3, right_node, left_node, red_node,
              h2, b4, Bool.false_eq_true, if_false, if_true, rotR, flipT, Bool.not_true, Bool.not_false]
            refine ⟨⟨n, rfl, b1.1, b1.2.1, b1.2.2.2⟩, ⟨n, rfl, b2, h1, h2⟩, rfl, rfl⟩
      | @rb a s k n x h1 h3 =>
        rcases h with h | ⟨_, h⟩
        · rcases t with _ | ⟨b, cb, bl, br⟩
          · refine ih h3 (Or.inl ?_)
            have : Bal (Frame.plug (.R a false s) leaf) (n + 1) := ⟨n, rfl, h1, h, rfl⟩
            rw [this.fixup_id]; exact this
          · cases cb
            · refine ih h3 (Or.inl ?_)
              have : Bal (Frame.plug (.R a false s) (node b false bl br)) (n + 1) := ⟨n, rfl, h1, h, rfl⟩
              rw [this.fixup_id]; exact this
            · refine ih h3 (Or.inl ?_)
              obtain ⟨g1, g2, g3, g4⟩ := h
              rcases s with _ | ⟨d, cd, dl, dr⟩
              · simp only [Frame.plug_R, Tree.fixup, Tree.fix1, Tree.fix2, Tree.fix3, right_node, left_node, red_node,
                  red_leaf, left_leaf, g3, g4, Bool.false_eq_true, if_false, if_true, rotL, flipT]
                exact ⟨n, rfl, ⟨h1, g1, rfl, g3⟩, g2, g4⟩
              · cases cd
                · simp only [Frame.plug_R, Tree.fixup, Tree.fix1, Tree.fix2, Tree.fix3, right_node, left_node, red_node,
                    red_leaf, left_leaf, g3, g4, Bool.false_eq_true, if_false, if_true, rotL, flipT]
                  exact ⟨n, rfl, ⟨h1, g1, rfl, g3⟩, g2, g4⟩
                · obtain ⟨q1, q2, q3, q4⟩ := h1
                  simp only [Frame.plug_R, Tree.fixup, Tree.fix1, Tree.fix2, Tree.fix3, right_node, left_node, red_node,
                    red_leaf, left_leaf, g3, g4, q3, q4, Bool.false_eq_true, if_false, if_true, rotL, flipT, Bool.not_true,
                    Bool.not_false]
                  exact ⟨⟨n, rfl, q1, q2, q4⟩, ⟨n, rfl, g1, g2, g4⟩, rfl, rfl⟩
        · cases h
      | @lr a s k n h1 h2 h3 =>
        rcases h with h | ⟨_, h⟩
        · cases hred : t.red
          · have : Bal (Frame.plug (.L a true s) t) n := ⟨h, h1, hred, h2⟩
            rw [this.fixup_id]
            exact ih h3 (Or.inl this)
          · refine ih h3 (Or.inr ⟨?_, rfl⟩)
            rcases t with _ | ⟨b, cb, bl, br⟩
            · simp at hred
            · simp only [red_node] at hred; subst hred
              have g3 := h.2.2.1
              simp only [Frame.plug_L, Tree.fixup, Tree.fix1, Tree.fix2, Tree.fix3, right_node, left_node, red_node,
                red_leaf, left_leaf, h2, g3, Bool.false_eq_true, if_false, if_true]
              exact ⟨a, _, _, rfl, h, h1, rfl, h2⟩
        · cases h
      | @rr a s k n h1 h2 h3 =>
        rcases h with h | ⟨_, h⟩
        · cases hred : t.red
          · have : Bal (Frame.plug (.R a true s) t) n := ⟨h1, h, h2, hred⟩
            rw [this.fixup_id]
            exact ih h3 (Or.inl this)
          · refine ih h3 (Or.inr ⟨?_, rfl⟩)
            rcases t with _ | ⟨b, cb, bl, br⟩
            · simp at hred
            · simp only [red_node] at hred; subst hred
              obtain ⟨g1, g2, g3, g4⟩ := h
              simp only [Frame.plug_R, Tree.fixup, Tree.fix1, Tree.fix2, Tree.fix3, right_node, left_node, red_node,
                red_leaf, left_leaf, h2, g3, g4, Bool.false_eq_true, if_false, if_true, rotL]
              exact ⟨b, _, _, rfl, ⟨h1, g1, h2, g3⟩, g2, rfl, g4⟩
        · cases h
    · next hc =>
      simp only [Bool.or_eq_true, not_or, Bool.not_eq_true] at hc
      have hzip : ∃ N, Bal (zip (f :: k) t) N := by
        rcases h with h | ⟨h, hr⟩
        · refine zip_bal hk h fun ht => ?_
          cases f <;> simp [ht] at hc
        · obtain ⟨b, l, r', rfl, _⟩ := h
          cases f <;> simp at hc
      obtain ⟨N, hN⟩ := hzip
      exact ⟨N, Or.inl hN⟩

/-- Insertion keeps the tree balanced. -/
theorem rebal_balanced {k : List Frame} {a : Addr} (h : Balanced (zip k leaf)) :
    Balanced ((rebal k (.node a RED leaf leaf)).recolor BLACK) := by
  obtain ⟨_, N, h⟩ := h
  obtain ⟨n, r, hk, hb, _⟩ := ctxBal_of_zip h
  have hn : n = 0 := hb
  subst hn
  obtain ⟨N', h'⟩ := rebal_bal hk (t := .node a RED leaf leaf) (Or.inl ⟨rfl, rfl, rfl, rfl⟩)
  rcases h' with h' | ⟨b, l, r, e, h1, h2, h3, h4⟩
  · exact h'.blacken
  · rw [e]
    exact ⟨rfl, N' + 1, N', rfl, h1, h2, h4⟩

/-! ## Deletion -/

/-- Re-plugging any balanced subtree of black height `m` and fixing up gives black height `n`. -/
def SoundF (f : Frame) (m : Nat) (ru : Bool) (n : Nat) (r : Bool) : Prop :=
  ∀ t, Bal t m → (t.red = true → ru = true) →
    Bal (f.plug t).fixup n ∧ ((f.plug t).fixup.red = true → r = true)

/-- The focus of the descent: it can lose a node without losing black height. -/
def F1 (t : Tree) (n : Nat) (r : Bool) : Prop :=
  Bal t n ∧ (t.red = true → r = true) ∧ (t.red = true ∨ t.left.red = true)

/-- The other shape met by the descent, after a rotating `move_right`. -/
def F2 (t : Tree) (n : Nat) : Prop :=
  ∃ a l r m, t = .node a false l r ∧ n = m + 1 ∧ Bal l m ∧ l.red = false ∧ Bal r m ∧ r.red = true

def pot (t : Tree) (n : Nat) : Nat := 2 * n + (if t.red then 1 else 0)

def poorT (t : Tree) : Bool := match t with
  | .leaf => false
  | t => !t.red && !t.left.red

def goLeft (t : Tree) : Tree := if poorT t.left then moveL t else t
def goRight1 (t : Tree) : Tree := if t.left.red then rotR t else t
def goRight2 (t : Tree) : Tree := if poorT t.right then moveR t else t
def lframe (t : Tree) : Frame := .L t.addr t.red t.right
def rframe (t : Tree) : Frame := .R t.addr t.red t.left

theorem lframe_plug {t : Tree} (h : t ≠ leaf) : (lframe t).plug t.left = t := by
  cases t <;> simp_all [lframe]
theorem rframe_plug {t : Tree} (h : t ≠ leaf) : (rframe t).plug t.right = t := by
  cases t <;> simp_all [rframe]

/-- fixup of a black node whose left child is black -/
theorem fixup_right {a l t n} (hl : Bal l n) (hlr : l.red = false) (ht : Bal t n) :
    Bal (Tree.node a false l t).fixup (n + 1) ∧ (Tree.node a false l t).fixup.red = false := by
  rcases t with _ | ⟨b, cb, bl, br⟩
  · have : Bal (.node a false l leaf) (n + 1) := ⟨n, rfl, hl, ht, rfl⟩
    rw [this.fixup_id]; exact ⟨this, rfl⟩
  · cases cb
    · have : Bal (.node a false l (.node b false bl br)) (n + 1) := ⟨n, rfl, hl, ht, rfl⟩
      rw [this.fixup_id]; exact ⟨this, rfl⟩
    · obtain ⟨g1, g2, g3, g4⟩ := ht
      simp only [Tree.fixup, Tree.fix1, Tree.fix2, Tree.fix3, right_node, left_node, red_node,
        red_leaf, left_leaf, g3, g4, hlr, Bool.false_eq_true, if_false, if_true, rotL, flipT]
      exact ⟨⟨n, rfl, ⟨hl, g1, hlr, g3⟩, g2, g4⟩, trivial⟩

/-- fixup of a black node with a red right child -/
theorem fixup_redright {a b bl br t n} (hb : Bal (.node b true bl br) n) (ht : Bal t n) :
    Bal (Tree.node a false t (.node b true bl br)).fixup (n + 1) := by
  obtain ⟨g1, g2, g3, g4⟩ := hb
  rcases t with _ | ⟨d, cd, dl, dr⟩
  · simp only [Tree.fixup, Tree.fix1, Tree.fix2, Tree.fix3, right_node, left_node, red_node,
      red_leaf, left_leaf, g3, g4, Bool.false_eq_true, if_false, if_true, rotL, flipT]
    exact ⟨n, rfl, ⟨ht, g1, rfl, g3⟩, g2, g4⟩
  · cases cd
    · simp only [Tree.fixup, Tree.fix1, Tree.fix2, Tree.fix3, right_node, left_node, red_node,
        red_leaf, left_leaf, g3, g4, Bool.false_eq_true, if_false, if_true, rotL, flipT]
      exact ⟨n, rfl, ⟨ht, g1, rfl, g3⟩, g2, g4⟩
    · obtain ⟨q1, q2, q3, q4⟩ := ht
      simp only [Tree.fixup, Tree.fix1, Tree.fix2, Tree.fix3, right_node, left_node, red_node,
        red_leaf, left_leaf, g3, g4, q3, q4, Bool.false_eq_true, if_false, if_true, rotL, flipT, Bool.not_true,
        Bool.not_false]
      exact ⟨⟨n, rfl, q1, q2, q4⟩, ⟨n, rfl, g1, g2, g4⟩, rfl, rfl⟩

/-- fixup of a black node with both children red-able: left red -/
theorem fixup_redleft {a b bl br t n} (hb : Bal (.node b true bl br) n) (ht : Bal t n) :
    Bal (Tree.node a false (.node b true bl br) t).fixup (n + 1) := by
  rcases t with _ | ⟨d, cd, dl, dr⟩
  · have : Bal (.node a false (.node b true bl br) leaf) (n + 1) := ⟨n, rfl, hb, ht, rfl⟩
    rw [this.fixup_id]; exact this
  · cases cd
    · have : Bal (.node a false (.node b true bl br) (.node d false dl dr)) (n + 1) := ⟨n, rfl, hb, ht, rfl⟩
      rw [this.fixup_id]; exact this
    · exact fixup_redright ht hb

/-- One step of the descent to the left. -/
theorem left_step {t : Tree} {n : Nat} {r : Bool} (h : F1 t n r) (hl : t.left ≠ leaf) :
    ∃ m ru, SoundF (lframe (goLeft t)) m ru n r ∧ F1 (goLeft t).left m ru ∧
      pot (goLeft t).left m < pot t n := by
  obtain ⟨hb, hr, hred⟩ := h
  rcases t with _ | ⟨a, c, l, s⟩
  · simp at hl
  rcases l with _ | ⟨b, cb, bl, br⟩
  · simp at hl
  simp only [left_node, red_node] at hred
  by_cases hp : poorT (.node b cb bl br) = true
  · simp only [poorT, Bool.and_eq_true, Bool.not_eq_true', red_node, left_node] at hp
    obtain ⟨rfl, hbl⟩ := hp
    have hc : c = true := by simpa using hred
    subst hc
    have hrt : r = true := hr rfl
    subst hrt
    obtain ⟨⟨m, rfl, g1, g2, g3⟩, h2, h3, h4⟩ := hb
    rcases s with _ | ⟨d, cd, dl, dr⟩
    · simp [Bal] at h2
    simp only [red_node] at h4; subst h4
    obtain ⟨m', hm, q1, q2, q3⟩ := h2
    have : m' = m := by omega
    subst this
    cases hdl : dl.red
    · have e : goLeft (.node a true (.node b false bl br) (.node d false dl dr)) =
          .node a false (.node b true bl br) (.node d true dl dr) := by
        simp [goLeft, poorT, hbl, moveL, flipT, hdl]
      rw [e]
      refine ⟨m', true, ?_, ⟨⟨g1, g2, hbl, g3⟩, fun _ => rfl, Or.inl rfl⟩, ?_⟩
      · intro t ht _
        exact ⟨fixup_redright ⟨q1, q2, hdl, q3⟩ ht, fun _ => rfl⟩
      · simp [pot]
    · rcases dl with _ | ⟨x, cx, xl, xr⟩
      · simp at hdl
      simp only [red_node] at hdl; subst hdl
      obtain ⟨x1, x2, x3, x4⟩ := q1
      have e : goLeft (.node a true (.node b false bl br) (.node d false (.node x true xl xr) dr)) =
          .node x true (.node a false (.node b true bl br) xl) (.node d false xr dr) := by
        simp [goLeft, poorT, hbl, moveL, flipT, Tree.setRight, rotR, rotL]
      rw [e]
      refine ⟨m' + 1, false, ?_, ⟨⟨m', rfl, ⟨g1, g2, hbl, g3⟩, x1, x3⟩, by simp, Or.inr rfl⟩, ?_⟩
      · intro t ht htr
        have htr : t.red = false := by cases h : t.red <;> simp_all
        have : Bal (.node x true t (.node d false xr dr)) (m' + 1) := ⟨ht, ⟨m', rfl, x2, q2, q3⟩, htr, rfl⟩
        simp only [lframe, addr_node, red_node, right_node, Frame.plug_L]
        rw [this.fixup_id]
        exact ⟨this, fun _ => by trivial⟩
      · simp [pot]
  · have e : goLeft (.node a c (.node b cb bl br) s) = .node a c (.node b cb bl br) s := by
      simp only [goLeft, left_node, hp, if_false]; simp
    rw [e]
    have hf : (Tree.node b cb bl br).red = true ∨ (Tree.node b cb bl br).left.red = true := by
      simp only [poorT, Bool.and_eq_true, Bool.not_eq_true', red_node, left_node] at hp
      cases cb <;> cases h : bl.red <;> simp_all
    cases c
    · obtain ⟨m, rfl, g1, g2, g3⟩ := hb
      refine ⟨m, true, ?_, ⟨g1, fun _ => rfl, hf⟩, ?_⟩
      · intro t ht _
        have : Bal (.node a false t s) (m + 1) := ⟨m, rfl, ht, g2, g3⟩
        simp only [lframe, addr_node, red_node, right_node, Frame.plug_L]
        rw [this.fixup_id]
        exact ⟨this, by simp⟩
      · cases cb <;> simp [pot] <;> omega
    · obtain ⟨g1, g2, g3, g4⟩ := hb
      refine ⟨n, false, ?_, ⟨g1, by simpa using g3, hf⟩, ?_⟩
      · intro t ht htr
        have htr : t.red = false := by cases h : t.red <;> simp_all
        have : Bal (.node a true t s) n := ⟨ht, g2, htr, g4⟩
        simp only [lframe, addr_node, red_node, right_node, Frame.plug_L]
        rw [this.fixup_id]
        exact ⟨this, hr⟩
      · simp only [red_node] at g3; subst g3; simp [pot]

/-- A red left child is rotated up and the descent goes right. -/
theorem right_step1 {t : Tree} {n : Nat} {r : Bool} (h : F1 t n r) (hl : t.left.red = true) :
    goRight2 (goRight1 t) = goRight1 t ∧ (goRight1 t).right.right = t.right ∧
    (goRight1 t).right.addr = t.addr ∧ (goRight1 t).right ≠ leaf ∧
    ∃ m ru, SoundF (rframe (goRight1 t)) m ru n r ∧ F1 (goRight1 t).right m ru ∧
      pot (goRight1 t).right m < pot t n := by
  obtain ⟨hb, hr, hred⟩ := h
  rcases t with _ | ⟨a, c, l, s⟩
  · simp at hl
  rcases l with _ | ⟨b, cb, bl, br⟩
  · simp at hl
  simp only [left_node, red_node] at hl
  subst hl
  cases c
  · obtain ⟨m, rfl, ⟨g1, g2, g3, g4⟩, g5, g6⟩ := hb
    have e : goRight1 (.node a false (.node b true bl br) s) = .node b false bl (.node a true br s) := by
      simp [goRight1, rotR]
    rw [e]
    refine ⟨by simp [goRight2, poorT], rfl, rfl, by simp, m, true, ?_,
      ⟨⟨g2, g5, g4, g6⟩, fun _ => rfl, Or.inl rfl⟩, by simp [pot]; omega⟩
    intro t ht _
    obtain ⟨q1, q2⟩ := fixup_right (a := b) g1 g3 ht
    exact ⟨q1, by simp [rframe, q2]⟩
  · exact absurd hb.2.2.1 (by simp)

/-- No red left child: what `move_right` makes of the focus. Either the node stays on top and its
right subtree can be descended into, or a rotation brought the left child up. -/
theorem right_step2 {t : Tree} {n : Nat} {r : Bool} (h : F1 t n r) (hl : t.left.red = false)
    (hr0 : t.right ≠ leaf) :
    goRight1 t = t ∧
    ((goRight2 t).addr = t.addr ∧ (goRight2 t).right.inorder = t.right.inorder ∧ ((goRight2 t).right ≠ leaf ∧
        ∃ m ru, (∀ a, SoundF (.R a (goRight2 t).red (goRight2 t).left) m ru n r) ∧
          F1 (goRight2 t).right m ru ∧ pot (goRight2 t).right m < pot t n) ∨
     ((goRight2 t).addr ∈ t.left.inorder ∧ (goRight2 t).right.addr = t.addr ∧
        (∃ m, SoundF (rframe (goRight2 t)) m false n r ∧ F2 (goRight2 t).right m ∧
          pot (goRight2 t).right m < pot t n))) := by
  obtain ⟨hb, hr, hred⟩ := h
  rcases t with _ | ⟨a, c, l, s⟩
  · simp at hr0
  rcases s with _ | ⟨d, cd, dl, dr⟩
  · simp at hr0
  simp only [left_node] at hl
  refine ⟨by simp [goRight1, hl], ?_⟩
  simp only [left_node, red_node, hl, Bool.false_eq_true, or_false] at hred
  subst hred
  have hrt : r = true := hr rfl
  subst hrt
  obtain ⟨h1, h2, h3, h4⟩ := hb
  simp only [red_node] at h4; subst h4
  obtain ⟨m, rfl, g1, g2, g3⟩ := h2
  rcases l with _ | ⟨b, cb, bl, br⟩
  · simp [Bal] at h1
  simp only [red_node] at hl; subst hl
  obtain ⟨m', hm, q1, q2, q3⟩ := h1
  have : m' = m := by omega
  subst this
  cases hdl : dl.red
  · cases hbl : bl.red
    · have e : goRight2 (.node a true (.node b false bl br) (.node d false dl dr)) =
          .node a false (.node b true bl br) (.node d true dl dr) := by
        simp [goRight2, poorT, hbl, hdl, moveR, flipT]
      rw [e]
      refine Or.inl ⟨rfl, rfl, by simp, m', true, ?_, ⟨⟨g1, g2, hdl, g3⟩, fun _ => rfl, Or.inl rfl⟩, ?_⟩
      · intro a t ht _
        exact ⟨fixup_redleft ⟨q1, q2, hbl, q3⟩ ht, fun _ => rfl⟩
      · simp [pot]
    · rcases bl with _ | ⟨x, cx, xl, xr⟩
      · simp at hbl
      simp only [red_node] at hbl; subst hbl
      have e : goRight2 (.node a true (.node b false (.node x true xl xr) br) (.node d false dl dr)) =
          .node b true (.node x false xl xr) (.node a false br (.node d true dl dr)) := by
        simp [goRight2, poorT, hdl, moveR, flipT, rotR]
      rw [e]
      refine Or.inr ⟨by simp, rfl, m' + 1, ?_, ⟨a, br, .node d true dl dr, m', rfl, rfl, q2, q3,
        ⟨g1, g2, hdl, g3⟩, rfl⟩, ?_⟩
      · intro t ht htr
        have htr : t.red = false := by cases h : t.red <;> simp_all
        obtain ⟨x1, x2, x3, x4⟩ := q1
        have : Bal (.node b true (.node x false xl xr) t) (m' + 1) := ⟨⟨m', rfl, x1, x2, x4⟩, ht, rfl, htr⟩
        simp only [rframe, addr_node, red_node, left_node, Frame.plug_R]
        rw [this.fixup_id]
        exact ⟨this, fun _ => by trivial⟩
      · simp [pot]
  · have e : goRight2 (.node a true (.node b false bl br) (.node d false dl dr)) =
        .node a true (.node b false bl br) (.node d false dl dr) := by
      simp [goRight2, poorT, hdl]
    rw [e]
    refine Or.inl ⟨rfl, rfl, by simp, m' + 1, false, ?_, ⟨⟨m', rfl, g1, g2, g3⟩, by simp, Or.inr hdl⟩, ?_⟩
    · intro a t ht htr
      have htr : t.red = false := by cases h : t.red <;> simp_all
      have : Bal (.node a true (.node b false bl br) t) (m' + 1) := ⟨⟨m', rfl, q1, q2, q3⟩, ht, rfl, htr⟩
      simp only [left_node, red_node, Frame.plug_R]
      rw [this.fixup_id]
      exact ⟨this, fun _ => by trivial⟩
    · simp [pot]

theorem right_step3 {t : Tree} {n : Nat} (h : F2 t n) (r : Bool) :
    goRight1 t = t ∧ goRight2 t = t ∧ t.right ≠ leaf ∧
    ∃ m, (∀ a, SoundF (.R a t.red t.left) m true n r) ∧ F1 t.right m true ∧ pot t.right m < pot t n := by
  obtain ⟨a, l, s, m, rfl, rfl, h1, h2, h3, h4⟩ := h
  rcases s with _ | ⟨d, cd, dl, dr⟩
  · simp at h4
  simp only [red_node] at h4; subst h4
  refine ⟨by simp [goRight1, h2], by simp [goRight2, poorT], by simp, m, ?_, ⟨h3, fun _ => rfl, Or.inl rfl⟩,
    by simp [pot]; omega⟩
  intro a t ht _
  obtain ⟨q1, q2⟩ := fixup_right (a := a) h1 h2 ht
  exact ⟨q1, by simp [q2]⟩

/-! ### The root's colour does not matter -/

theorem rotL_recolor (t : Tree) (c : Bool) : (rotL (t.recolor c)) = (rotL t).recolor c := by
  rcases t with _ | ⟨a, c', l, (_ | ⟨b, cb, bl, br⟩)⟩ <;> rfl
theorem rotR_recolor (t : Tree) (c : Bool) : (rotR (t.recolor c)) = (rotR t).recolor c := by
  rcases t with _ | ⟨a, c', (_ | ⟨b, cb, bl, br⟩), r⟩ <;> rfl
theorem flipT_recolor (t : Tree) (c : Bool) : ∃ c', (flipT (t.recolor c)) = (flipT t).recolor c' := by
  rcases t with _ | ⟨a, c', (_ | ⟨b, cb, bl, br⟩), (_ | ⟨d, cd, dl, dr⟩)⟩
  · exact ⟨c, rfl⟩
  · exact ⟨c, rfl⟩
  · exact ⟨c, rfl⟩
  · exact ⟨c, rfl⟩
  · exact ⟨!c, rfl⟩
@[simp] theorem left_recolor (t : Tree) (c) : (t.recolor c).left = t.left := by cases t <;> rfl
@[simp] theorem right_recolor (t : Tree) (c) : (t.recolor c).right = t.right := by cases t <;> rfl
@[simp] theorem recolor_recolor (t : Tree) (c c') : (t.recolor c).recolor c' = t.recolor c' := by cases t <;> rfl
theorem setRight_recolor (t s : Tree) (c) : Tree.setRight (t.recolor c) s = (Tree.setRight t s).recolor c := by
  cases t <;> rfl

theorem fixup_recolor (t : Tree) (c : Bool) : ∃ c', (t.recolor c).fixup = t.fixup.recolor c' := by
  have h1 : (t.recolor c).fix1 = t.fix1.recolor c := by
    unfold Tree.fix1; simp only [left_recolor, right_recolor, rotL_recolor]; repeat' split
    all_goals rfl
  have h2 : ∀ t : Tree, (t.recolor c).fix2 = t.fix2.recolor c := by
    intro t; unfold Tree.fix2; simp only [left_recolor, right_recolor, rotR_recolor]; repeat' split
    all_goals rfl
  have h3 : ∀ t : Tree, ∃ c', (t.recolor c).fix3 = t.fix3.recolor c' := by
    intro t; unfold Tree.fix3; simp only [left_recolor, right_recolor]
    obtain ⟨c', hc'⟩ := flipT_recolor t c
    by_cases h : t.left.red = true <;> by_cases h' : t.right.red = true
    · exact ⟨c', by simp [h, h', hc']⟩
    all_goals exact ⟨c, by simp [h, h']⟩
  unfold Tree.fixup
  rw [h1, h2]
  exact h3 _

theorem goLeft_recolor (t : Tree) (c : Bool) : ∃ c', goLeft (t.recolor c) = (goLeft t).recolor c' := by
  unfold goLeft
  rw [left_recolor]
  split
  · unfold moveL
    obtain ⟨c', hc'⟩ := flipT_recolor t c
    simp only [hc', right_recolor, setRight_recolor, rotL_recolor]
    obtain ⟨c'', hc''⟩ := flipT_recolor (rotL (Tree.setRight (flipT t) (rotR (flipT t).right))) c'
    split
    · exact ⟨c'', hc''⟩
    · exact ⟨c', rfl⟩
  · exact ⟨c, rfl⟩

theorem goRight1_recolor (t : Tree) (c : Bool) : goRight1 (t.recolor c) = (goRight1 t).recolor c := by
  unfold goRight1
  rw [left_recolor, rotR_recolor]
  split <;> rfl

theorem goRight2_recolor (t : Tree) (c : Bool) : ∃ c', goRight2 (t.recolor c) = (goRight2 t).recolor c' := by
  unfold goRight2
  rw [right_recolor]
  split
  · unfold moveR
    obtain ⟨c', hc'⟩ := flipT_recolor t c
    simp only [hc', left_recolor, rotR_recolor]
    obtain ⟨c'', hc''⟩ := flipT_recolor (rotR (flipT t)) c'
    split
    · exact ⟨c'', hc''⟩
    · exact ⟨c', rfl⟩
  · exact ⟨c, rfl⟩

/-- Whatever balanced subtree (red only if `r`) is put in the hole, the climb ends balanced. -/
def Good (k : List Frame) (n : Nat) (r : Bool) : Prop :=
  ∀ t, Bal t n → (t.red = true → r = true) → Balanced ((climb k t).recolor BLACK)

theorem good_nil (n r) : Good [] n r := fun _ h _ => h.blacken

theorem good_cons {k : List Frame} {n m : Nat} {r ru : Bool} {f : Frame} (h : Good k n r)
    (hf : SoundF f m ru n r) : Good (f :: k) m ru := fun t ht htr => h _ (hf t ht htr).1 (hf t ht htr).2

theorem good_one {n m : Nat} {r ru : Bool} {f : Frame} (c : Bool) (hf : SoundF (f.recolor c) m ru n r) :
    Good [f] m ru := by
  intro t ht htr
  have h1 := (hf t ht htr).1.blacken
  rw [Frame.plug_recolor] at h1
  obtain ⟨c', hc'⟩ := fixup_recolor (f.plug t) c
  rw [hc', recolor_recolor] at h1
  exact h1

/-- Composition of sound frames, for `delete_min`. -/
def SoundK (k : List Frame) (m : Nat) (ru : Bool) (n : Nat) (r : Bool) : Prop :=
  ∀ t, Bal t m → (t.red = true → ru = true) → Bal (climb k t) n ∧ ((climb k t).red = true → r = true)

theorem soundK_nil (n r) : SoundK [] n r n r := fun _ h h' => ⟨h, h'⟩
theorem soundK_cons {k : List Frame} {n m p : Nat} {r ru rp : Bool} {f : Frame}
    (hf : SoundF f p rp m ru) (hk : SoundK k m ru n r) : SoundK (f :: k) p rp n r :=
  fun t ht htr => hk _ (hf t ht htr).1 (hf t ht htr).2

end Verif.Rb
