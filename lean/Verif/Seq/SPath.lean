import Verif.Seq.RingOps2
import Verif.Seq.SlistModel
/-!
# Singly linked chains: predicate and pointer surgery
-/
set_option linter.unusedVariables false
set_option linter.unusedSimpArgs false
namespace Verif.Seq
open Verif
open DList (posOf posOf_nil posOf_cons Laid)
variable {T : Type}

/-- The last address of `A`, or `c` when there is none. -/
def lastOf (c : Addr) : List Addr → Addr
  | [] => c
  | a :: A => lastOf a A

theorem lastOf_mem : ∀ (A : List Addr) (c : Addr), lastOf c A ∈ c :: A
  | [], c => by simp [lastOf]
  | a :: A, c => List.mem_cons_of_mem _ (lastOf_mem A a)

theorem lastOf_append : ∀ (A : List Addr) (c : Addr) (B : List Addr), lastOf c (A ++ B) = lastOf (lastOf c A) B
  | [], c, B => rfl
  | a :: A, c, B => lastOf_append A a B

@[simp] theorem lastOf_nil (c : Addr) : lastOf c [] = c := rfl
@[simp] theorem lastOf_cons (c a : Addr) (A : List Addr) : lastOf c (a :: A) = lastOf a A := rfl

theorem lastOf_mem' {A : List Addr} (c : Addr) (hA : A ≠ []) : lastOf c A ∈ A := by
  cases A with
  | nil => exact absurd rfl hA
  | cons a A => exact lastOf_mem A a

theorem lastOf_concat (c : Addr) (A : List Addr) (x : Addr) : lastOf c (A ++ [x]) = x := by rw [lastOf_append]; rfl

theorem Path.split {h : Heap T} : ∀ {A : List Addr} {c z : Addr} {B : List Addr},
    Path h c (A ++ B) z ↔ Path h c A (posOf z B) ∧ Path h (lastOf c A) B z
  | [], c, z, B => by
    simp only [List.nil_append, lastOf_nil]
    exact ⟨fun a => ⟨a.next_head, a⟩, fun a => a.2⟩
  | a :: A, c, z, B => by
    simp only [List.cons_append, Path, lastOf_cons, Path.split (A := A), and_assoc]

/-- Redirecting the last link of a path. -/
theorem Path.retarget {h h' : Heap T} : ∀ {A : List Addr} {c z z' : Addr}, Path h c A z → (c :: A).Nodup →
    (∀ x ∈ c :: A, x ≠ lastOf c A → h'.next x = h.next x) → h'.next (lastOf c A) = z' → Path h' c A z'
  | [], c, z, z', a, nd, e, l => l
  | n :: A, c, z, z', a, nd, e, l => by
    have hc : c ≠ lastOf n A := fun q => (List.nodup_cons.1 nd).1 (q ▸ lastOf_mem A n)
    refine ⟨(e c (by simp) hc).trans a.1, a.2.retarget (List.nodup_cons.1 nd).2 ?_ l⟩
    intro x hx hne; exact e x (List.mem_cons_of_mem _ hx) hne

theorem Path.next_last {h : Heap T} : ∀ {A : List Addr} {c z : Addr}, Path h c A z → h.next (lastOf c A) = z
  | [], c, z, a => a
  | n :: A, c, z, a => Path.next_last (A := A) (c := n) a.2

/-- A null-terminated chain of nodes with the elements `es`, hanging off the header at `c`. -/
structure Slist (h : Heap T) (c : Addr) (es : List (Addr × T)) : Prop where
  head : h.live c = true
  bare : h.val c = none
  path : Path h c (es.map Prod.fst) 0
  nodup : (c :: es.map Prod.fst).Nodup
  data : ∀ e ∈ es, h.live e.1 = true ∧ h.val e.1 = some e.2

/-- The addresses of a chain. -/
def scells (c : Addr) (es : List (Addr × T)) : List Addr := c :: es.map Prod.fst

theorem Slist.live {h : Heap T} {c : Addr} {es : List (Addr × T)} (r : Slist h c es) : ∀ x ∈ scells c es, h.live x = true := by
  intro x hx
  simp only [scells, List.mem_cons, List.mem_map] at hx
  rcases hx with rfl | ⟨e, he, rfl⟩
  · exact r.head
  · exact (r.data e he).1

theorem Slist.frame {h h' : Heap T} {c : Addr} {es : List (Addr × T)} (r : Slist h c es)
    (e : ∀ x ∈ scells c es, Same h h' x) : Slist h' c es := by
  have ec := e c (by simp [scells])
  refine ⟨ec.live.trans r.head, ec.val.trans r.bare, r.path.congr (fun x hx => (e x hx).next), r.nodup, ?_⟩
  intro a ha
  have ea := e a.1 (by simp only [scells, List.mem_cons, List.mem_map]; exact .inr ⟨a, ha, rfl⟩)
  exact ⟨ea.live.trans (r.data a ha).1, ea.val.trans (r.data a ha).2⟩

theorem Slist.laid {h : Heap T} {c : Addr} {es : List (Addr × T)} (w : Wf h) (r : Slist h c es) : Laid h c es 0 := by
  refine ⟨r.path, r.data, fun q => ?_⟩
  exact w.ne_zero (r.live 0 (by simp only [scells, List.mem_cons]; exact .inr q)) rfl

theorem Slist.next_head {h : Heap T} {c : Addr} {es : List (Addr × T)} (r : Slist h c es) :
    h.next c = posOf 0 (es.map Prod.fst) := r.path.next_head

theorem Slist.last_mem {c : Addr} {A B : List (Addr × T)} : lastOf c (A.map Prod.fst) ∈ scells c (A ++ B) := by
  have := lastOf_mem (A.map Prod.fst) c
  simp only [scells, List.map_append, List.mem_cons, List.mem_append] at this ⊢
  grind

theorem Slist.last_live {h : Heap T} {c : Addr} {A B : List (Addr × T)} (r : Slist h c (A ++ B)) :
    h.live (lastOf c (A.map Prod.fst)) = true := r.live _ Slist.last_mem

/-! ## insert_after -/

/-- Memory after `p->insert_after(n)`. -/
def insA (h : Heap T) (p n : Addr) : Heap T := { h with next := upd (upd h.next n (h.next p)) p n }

theorem insertAfter_eq {h : Heap T} {p n : Addr} (lp : h.live p = true) (ln : h.live n = true) :
    SNode.insertAfter p n h = .ok (n, insA h p n) := by
  simp only [SNode.insertAfter, Prog.bind_app, getNext_eq lp, Res.bind_ok, setNext, ln, lp, if_true, Prog.pure_app, insA]

theorem insA_path {h : Heap T} {c n : Addr} {A B : List Addr} (hp : Path h c (A ++ B) 0) (nd : (c :: (A ++ B)).Nodup)
    (hn : n ∉ c :: (A ++ B)) : Path (insA h (lastOf c A) n) c (A ++ n :: B) 0 := by
  obtain ⟨p1, p2⟩ := Path.split.1 hp
  have m1 := lastOf_mem A c
  have ndA : (c :: A).Nodup := nd.sublist (by simp)
  have e0 : (insA h (lastOf c A) n).next n = posOf 0 B := by
    have : n ≠ lastOf c A := fun q => hn (by rw [q]; simp only [List.mem_cons, List.mem_append] at m1 ⊢; grind)
    simp only [insA]; rw [upd_other _ _ this, upd_same]; exact p1.next_last
  refine Path.split.2 ⟨p1.retarget ndA ?_ ?_, ?_⟩
  · intro x hx hne
    simp only [insA]; rw [upd_other _ _ hne, upd_other _ _ (fun q => hn (by rw [← q]; simp only [List.mem_cons, List.mem_append] at hx ⊢; grind))]
  · simp [insA]
  · refine ⟨by simp [insA], ?_⟩
    cases B with
    | nil => exact e0
    | cons b B =>
      refine ⟨e0, p2.2.congr ?_⟩
      intro x hx
      have h1 : x ≠ lastOf c A := by
        intro q
        rw [← List.cons_append] at nd
        exact (List.nodup_append.1 nd).2.2 _ m1 x hx q.symm
      have h2 : x ≠ n := fun q => hn (by rw [← q]; simp only [List.mem_cons, List.mem_append] at hx ⊢; grind)
      simp only [insA]; rw [upd_other _ _ h1, upd_other _ _ h2]

/-- A node joins the chain. -/
theorem Slist.insA {h : Heap T} {c n : Addr} {v : T} {A B : List (Addr × T)} (r : Slist h c (A ++ B))
    (ln : h.live n = true) (vn : h.val n = some v) (hn : n ∉ scells c (A ++ B)) :
    Slist (insA h (lastOf c (A.map Prod.fst)) n) c (A ++ (n, v) :: B) := by
  have nd := r.nodup
  simp only [List.map_append] at nd
  refine ⟨r.head, r.bare, ?_, ?_, ?_⟩
  · have := r.path
    simp only [List.map_append, List.map_cons] at this ⊢
    exact insA_path this nd (by simpa [scells] using hn)
  · simp only [scells, List.map_append, List.map_cons] at hn ⊢
    grind
  · intro e he
    simp only [List.mem_append, List.mem_cons] at he
    rcases he with he | rfl | he
    · exact r.data e (by simp [he])
    · exact ⟨ln, vn⟩
    · exact r.data e (by simp [he])

/-! ## unlink_next -/

/-- Memory after `p->unlink_next()`. -/
def unlA (h : Heap T) (p : Addr) : Heap T := { h with next := upd h.next p (h.next (h.next p)) }

theorem unlinkNext_eq {h : Heap T} {p : Addr} (lp : h.live p = true) (ln : h.live (h.next p) = true) :
    SNode.unlinkNext p h = .ok (h.next p, unlA h p) := by
  simp only [SNode.unlinkNext, Prog.bind_app, getNext_eq lp, getNext_eq ln, Res.bind_ok, setNext, lp, if_true, Prog.pure_app, unlA]

theorem Slist.next_at {h : Heap T} {c : Addr} {A B : List (Addr × T)} (r : Slist h c (A ++ B)) :
    h.next (lastOf c (A.map Prod.fst)) = posOf 0 (B.map Prod.fst) := by
  have := r.path
  rw [List.map_append, Path.split] at this
  exact this.1.next_last

/-- A node leaves the chain. -/
theorem Slist.unlA {h : Heap T} {c : Addr} {e : Addr × T} {A B : List (Addr × T)} (r : Slist h c (A ++ e :: B)) :
    Slist (unlA h (lastOf c (A.map Prod.fst))) c (A ++ B) := by
  have hp := r.path
  have nd := r.nodup
  have r' : Slist h c ((A ++ [e]) ++ B) := by simpa using r
  have n1 := r.next_at
  have n2 := r'.next_at
  simp only [List.map_append, List.map_cons, List.map_nil, lastOf_concat, posOf_cons] at n1 n2 hp nd ⊢
  obtain ⟨p1, p2⟩ := Path.split.1 hp
  have m1 := lastOf_mem (A.map Prod.fst) c
  have e1 : (Seq.unlA h (lastOf c (A.map Prod.fst))).next (lastOf c (A.map Prod.fst)) = posOf 0 (B.map Prod.fst) := by
    simp [Seq.unlA, n1, n2]
  refine ⟨r.head, r.bare, ?_, ?_, ?_⟩
  · rw [List.map_append]
    refine Path.split.2 ⟨p1.retarget (nd.sublist (by simp)) ?_ e1, ?_⟩
    · intro x hx hne; simp only [Seq.unlA]; exact upd_other _ _ hne
    · cases B with
      | nil => exact e1
      | cons b B =>
        refine ⟨e1, p2.2.2.congr ?_⟩
        intro x hx
        simp only [Seq.unlA]
        refine upd_other _ _ (fun q => ?_)
        rw [← List.cons_append] at nd
        exact (List.nodup_append.1 nd).2.2 _ m1 x (List.mem_cons_of_mem _ hx) q.symm
  · simp only [List.map_append, List.nodup_cons, List.nodup_append, List.mem_append, List.mem_cons, not_or] at nd ⊢
    grind
  · intro x hx
    refine r.data x ?_
    simp only [List.mem_append, List.mem_cons] at hx ⊢
    grind

/-! ## splice_after -/

theorem spliceLoop_ok {h : Heap T} {l : Addr} : ∀ {M : List Addr} {f : Addr}, Path h f M l → l ∉ M → (∀ x ∈ f :: M, h.live x = true) →
    SNode.spliceLoop f l h = .ok (lastOf f M, h)
  | [], f, p, hl, lv => by
    rw [SNode.spliceLoop]
    have : h.next f = l := p
    simp [getNext_eq (lv f (by simp)), this]
  | m :: M, f, p, hl, lv => by
    rw [SNode.spliceLoop]
    simp only [List.mem_cons, not_or] at hl
    simp only [Prog.bind_app, getNext_eq (lv f (by simp)), Res.bind_ok, p.1, Prog.ite_app]
    rw [if_pos (fun q => hl.1 q.symm), spliceLoop_ok p.2 hl.2 (fun x hx => lv x (List.mem_cons_of_mem _ hx))]; rfl

/-- Memory after `p->splice_after(f, l)` when the loop stops at `m`. -/
def splA (h : Heap T) (p f m l : Addr) : Heap T :=
  { h with next := upd (upd (upd h.next p (h.next f)) m (h.next p)) f l }

theorem spliceRange_eq {h : Heap T} {p f l : Addr} {M : List Addr} (lp : h.live p = true) (hM : M ≠ []) (hp : Path h f M l)
    (hl : l ∉ M) (lv : ∀ x ∈ f :: M, h.live x = true) (pM : p ∉ f :: M) :
    SNode.spliceRange p f l h = .ok ((), splA h p f (lastOf f M) l) := by
  have pf : p ≠ f := fun q => pM (by simp [q])
  have lf := lv f (by simp)
  have lo := lv (lastOf f M) (lastOf_mem M f)
  have k := spliceLoop_ok (h := { h with next := upd h.next p (h.next f) }) (hp.congr (fun x hx => upd_other _ _ (fun q => pM (q ▸ hx)))) hl lv
  simp only [SNode.spliceRange, Prog.bind_app, getNext_eq lp, getNext_eq lf, Res.bind_ok, setNext, lp, if_true, k, lo, lf, splA]

/-! ## reverse -/

theorem reverseLoop_ok : ∀ (ns : List Addr) {h : Heap T} {rs : List Addr},
    (∀ x ∈ ns, h.live x = true ∧ x ≠ 0) → (ns ++ rs).Nodup → (∀ x ∈ rs, x ≠ 0) →
    (∀ p B, ns = p :: B → Path h p B 0) → (∀ p B, rs = p :: B → Path h p B 0) →
    ∃ h', SNode.reverseLoop (posOf 0 ns) (posOf 0 rs) h = .ok (posOf 0 (ns.reverse ++ rs), h') ∧
      (∀ p B, ns.reverse ++ rs = p :: B → Path h' p B 0) ∧
      DList.Relink (· ∈ ns) h h' ∧ h'.prev = h.prev
  | [], h, rs, lv, nd, nz, pn, pr => by
    refine ⟨h, ?_, by simpa using pr, DList.Relink.refl, rfl⟩
    rw [SNode.reverseLoop]; simp
  | n :: ns, h, rs, lv, nd, nz, pn, pr => by
    have hn := lv n (by simp)
    have pth := pn n ns rfl
    simp only [List.cons_append, List.nodup_cons, List.mem_append, not_or] at nd
    let h1 : Heap T := { h with next := upd h.next n (posOf 0 rs) }
    obtain ⟨h', q, p', k, pv⟩ := reverseLoop_ok ns (h := h1) (rs := n :: rs) (fun x hx => lv x (by simp [hx]))
      (by
        rw [List.nodup_append] at nd ⊢
        simp only [List.nodup_cons, List.mem_cons]
        refine ⟨nd.2.1, ⟨nd.1.2, nd.2.2.1⟩, ?_⟩
        rintro a ha b (rfl | hb)
        · intro q; exact nd.1.1 (q ▸ ha)
        · exact nd.2.2.2 a ha b hb)
      (by intro x hx; rcases List.mem_cons.1 hx with rfl | hx; exact hn.2; exact nz x hx)
      (by
        intro p B e; subst e
        refine pth.2.congr ?_
        intro x hx; exact upd_other _ _ (fun q => nd.1.1 (q ▸ hx)))
      (by
        intro p B e
        simp only [List.cons.injEq] at e
        obtain ⟨rfl, rfl⟩ := e
        cases rs with
        | nil => show upd h.next n _ n = 0; simp
        | cons r R =>
          refine ⟨by simp [h1], (pr r R rfl).congr ?_⟩
          intro x hx; exact upd_other _ _ (fun q => nd.1.2 (q ▸ hx)))
    refine ⟨h', ?_, by simpa using p', ?_, pv⟩
    · show SNode.reverseLoop n (posOf 0 rs) h = _
      rw [SNode.reverseLoop]
      simp only [posOf_cons, Prog.ite_app, if_pos hn.2, Prog.bind_app, getNext_eq hn.1, Res.bind_ok, setNext, hn.1, if_true]
      rw [pth.next_head]
      have e : (n :: ns).reverse ++ rs = ns.reverse ++ n :: rs := by simp
      rw [e]; exact q
    · have k0 : DList.Relink (· ∈ n :: ns) h h1 :=
        ⟨rfl, rfl, rfl, rfl, fun x hx => upd_other _ _ (fun q => hx (by simp [q])), fun _ _ => rfl⟩
      exact k0.trans (k.mono fun x hx => List.mem_cons_of_mem _ hx)

end Verif.Seq
