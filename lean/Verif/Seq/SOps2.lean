import Verif.Seq.SOps
/-!
# Moving nodes between singly linked chains
-/
set_option linter.unusedVariables false
set_option linter.unusedSimpArgs false
namespace Verif.Seq
open Verif
open DList (posOf posOf_nil posOf_cons Laid Relink Arg readArg fresh)
variable {T : Type}

theorem Slist.relink {C : Addr → Prop} {h h' : Heap T} (k : Relink C h h') {c : Addr} {es : List (Addr × T)}
    (lc : h.live c = true) (vc : h.val c = none) (nd : (c :: es.map Prod.fst).Nodup)
    (d : ∀ e ∈ es, h.live e.1 = true ∧ h.val e.1 = some e.2) (p : Path h' c (es.map Prod.fst) 0) : Slist h' c es :=
  ⟨by rw [k.live]; exact lc, by rw [k.val]; exact vc, p, nd, fun e he => by rw [k.live, k.val]; exact d e he⟩

theorem splA_relink (h : Heap T) (p f m l : Addr) (C : Addr → Prop) (hp : C p) (hf : C f) (hm : C m) : Relink C h (splA h p f m l) := by
  refine ⟨rfl, rfl, rfl, rfl, ?_, fun _ _ => rfl⟩
  intro x hx
  have q1 : x ≠ p := fun q => hx (q ▸ hp)
  have q2 : x ≠ f := fun q => hx (q ▸ hf)
  have q3 : x ≠ m := fun q => hx (q ▸ hm)
  simp [splA, upd, q1, q2, q3]

/-- Elements of the second chain move behind position `A` of the first one. -/
theorem splice_two {h : Heap T} {c d : Addr} {A B P M Q : List (Addr × T)} (w : Wf h) (hM : M ≠ []) (r : Slist h c (A ++ B))
    (s : Slist h d (P ++ (M ++ Q))) (dj : ∀ x ∈ scells c (A ++ B), x ∉ scells d (P ++ (M ++ Q))) :
    ∃ h', SNode.spliceRange (lastOf c (A.map Prod.fst)) (lastOf d (P.map Prod.fst)) (posOf 0 (Q.map Prod.fst)) h = .ok ((), h') ∧
      Slist h' c (A ++ (M ++ B)) ∧ Slist h' d (P ++ Q) ∧
      Relink (fun x => x ∈ scells c (A ++ B) ∨ x ∈ scells d (P ++ (M ++ Q))) h h' := by
  have pc := r.path
  have pd := s.path
  have ndc := r.nodup
  have ndd := s.nodup
  have lvd := s.live
  have ms := s.laid w |>.stop
  simp only [List.map_append, Path.split] at pc pd ms
  simp only [scells, List.map_append] at ndc ndd dj lvd
  obtain ⟨pc1, pc2⟩ := pc
  obtain ⟨pd1, pd2, pd3⟩ := pd
  have lp := r.last_live
  have hp : lastOf c (A.map Prod.fst) ∈ c :: A.map Prod.fst := lastOf_mem _ _
  have hf : lastOf d (P.map Prod.fst) ∈ d :: P.map Prod.fst := lastOf_mem _ _
  have hM' : M.map Prod.fst ≠ [] := by simpa using hM
  have hm : lastOf (lastOf d (P.map Prod.fst)) (M.map Prod.fst) ∈ M.map Prod.fst := lastOf_mem' _ hM'
  have e1 := pc1.next_last
  have e2 := pd1.next_last
  have e3 := pd2.next_last
  revert pc1 pc2 pd1 pd2 pd3 e1 e2 e3 lp hp hf hm
  generalize hP : lastOf c (A.map Prod.fst) = p
  generalize hF : lastOf d (P.map Prod.fst) = f
  generalize hMm : lastOf f (M.map Prod.fst) = m
  intro pc1 pc2 pd1 pd2 pd3 lp hp hf hm e1 e2 e3
  have hp' : p ∈ c :: (A.map Prod.fst ++ B.map Prod.fst) := by simp only [List.mem_cons, List.mem_append] at hp ⊢; grind
  have hf' : f ∈ d :: (P.map Prod.fst ++ (M.map Prod.fst ++ Q.map Prod.fst)) := by simp only [List.mem_cons, List.mem_append] at hf ⊢; grind
  have hm' : m ∈ d :: (P.map Prod.fst ++ (M.map Prod.fst ++ Q.map Prod.fst)) := by simp only [List.mem_cons, List.mem_append] at hm ⊢; grind
  have hpf : p ≠ f := fun q => dj p hp' (q ▸ hf')
  have hpm : p ≠ m := fun q => dj p hp' (q ▸ hm')
  have hfm : f ≠ m := by
    intro q; rw [← List.cons_append] at ndd; exact (List.nodup_append.1 ndd).2.2 f hf m (List.mem_append.2 (.inl hm)) q
  have k := splA_relink h p f m (posOf 0 (Q.map Prod.fst)) (fun x => x ∈ scells c (A ++ B) ∨ x ∈ scells d (P ++ (M ++ Q)))
    (.inl (by simp only [scells, List.map_append]; exact hp')) (.inr (by simp only [scells, List.map_append]; exact hf'))
    (.inr (by simp only [scells, List.map_append]; exact hm'))
  have nx : ∀ x, x ≠ p → x ≠ f → x ≠ m → (splA h p f m (posOf 0 (Q.map Prod.fst))).next x = h.next x := by
    intro x h1 h2 h3; simp [splA, upd, h1, h2, h3]
  have np : (splA h p f m (posOf 0 (Q.map Prod.fst))).next p = posOf 0 (M.map Prod.fst ++ B.map Prod.fst) := by
    simp only [splA, upd_other _ _ hpf, upd_other _ _ hpm, upd_same, e2]
    cases M with
    | nil => exact absurd rfl hM
    | cons _ _ => simp
  have nm : (splA h p f m (posOf 0 (Q.map Prod.fst))).next m = posOf 0 (B.map Prod.fst) := by
    simp only [splA, upd_other _ _ hfm.symm, upd_same, e1]
  have nf : (splA h p f m (posOf 0 (Q.map Prod.fst))).next f = posOf 0 (Q.map Prod.fst) := by simp [splA]
  refine ⟨splA h p f m (posOf 0 (Q.map Prod.fst)), ?_, ?_, ?_, k⟩
  · rw [spliceRange_eq lp hM' pd2, hMm]
    · intro q
      cases Q with
      | nil => exact ms (by simp at q ⊢; grind)
      | cons b Q =>
        simp only [List.map_cons, posOf_cons, List.nodup_cons, List.nodup_append, List.mem_cons, List.mem_append] at q ndd
        grind
    · intro x hx
      exact lvd x (by simp only [List.mem_cons, List.mem_append] at hx hf' ⊢; grind)
    · intro q
      exact dj p hp' (by simp only [List.mem_cons, List.mem_append] at q hf' ⊢; grind)
  · refine Slist.relink k r.head r.bare ?_ ?_ ?_
    · simp only [List.map_append, List.nodup_cons, List.nodup_append, List.mem_cons, List.mem_append] at ndc ndd dj ⊢
      grind
    · intro e he
      simp only [List.mem_append] at he
      rcases he with he | he | he
      · exact r.data e (by simp [he])
      · exact s.data e (by simp [he])
      · exact r.data e (by simp [he])
    · simp only [List.map_append, Path.split]
      refine ⟨pc1.retarget (ndc.sublist (by simp)) ?_ (by rw [hP]; exact np), ?_, ?_⟩
      · rw [hP]
        intro x hx hne
        have hx' : x ∈ c :: (A.map Prod.fst ++ B.map Prod.fst) := by simp only [List.mem_cons, List.mem_append] at hx ⊢; grind
        exact nx x hne (fun q => dj x hx' (q ▸ hf')) (fun q => dj x hx' (q ▸ hm'))
      · rw [hP]
        cases M with
        | nil => exact absurd rfl hM
        | cons e M =>
          simp only [List.map_cons, lastOf_cons] at hMm pd2 np hm ndd dj hf' hm' ⊢
          refine ⟨by rw [np]; simp, pd2.2.retarget (ndd.sublist ?_) ?_ (by rw [hMm]; exact nm)⟩
          · refine List.Sublist.cons _ (List.Sublist.trans ?_ (List.sublist_append_right _ _))
            simp
          · rw [hMm]
            intro x hx hne
            refine nx x ?_ ?_ hne
            · rintro rfl; refine dj x hp' ?_
              simp only [List.mem_cons, List.mem_append] at hx ⊢; grind
            · rintro rfl
              rw [← List.cons_append] at ndd
              refine (List.nodup_append.1 ndd).2.2 x hf x ?_ rfl
              simp only [List.mem_cons, List.mem_append] at hx ⊢; grind
      · rw [hP]
        have e0 : lastOf p (M.map Prod.fst) = m := by
          cases M with
          | nil => exact absurd rfl hM
          | cons e M => exact hMm
        rw [e0]
        cases B with
        | nil => exact nm
        | cons b B =>
          refine ⟨nm, pc2.2.congr ?_⟩
          intro x hx
          have hx' : x ∈ c :: (A.map Prod.fst ++ (b :: B).map Prod.fst) := by
            simp only [List.map_cons, List.mem_cons, List.mem_append] at hx ⊢; grind
          refine nx x ?_ (fun q => dj x hx' (q ▸ hf')) (fun q => dj x hx' (q ▸ hm'))
          rintro rfl
          rw [← List.cons_append] at ndc
          exact (List.nodup_append.1 ndc).2.2 x hp x hx rfl
  · refine Slist.relink k s.head s.bare ?_ ?_ ?_
    · simp only [List.map_append, List.nodup_cons, List.nodup_append, List.mem_cons, List.mem_append] at ndd ⊢
      grind
    · intro e he
      simp only [List.mem_append] at he
      exact s.data e (by simp only [List.mem_append]; grind)
    · simp only [List.map_append, Path.split]
      refine ⟨pd1.retarget (ndd.sublist (by simp)) ?_ (by rw [hF]; exact nf), ?_⟩
      · rw [hF]
        intro x hx hne
        have hx' : x ∈ d :: (P.map Prod.fst ++ (M.map Prod.fst ++ Q.map Prod.fst)) := by simp only [List.mem_cons, List.mem_append] at hx ⊢; grind
        refine nx x (fun q => dj p hp' (q ▸ hx')) hne ?_
        rintro rfl
        rw [← List.cons_append] at ndd
        exact (List.nodup_append.1 ndd).2.2 x hx x (List.mem_append.2 (.inl hm)) rfl
      · rw [hF]
        cases Q with
        | nil => exact nf
        | cons b Q =>
          refine ⟨nf, pd3.2.congr ?_⟩
          intro x hx
          have hx' : x ∈ d :: (P.map Prod.fst ++ (M.map Prod.fst ++ (b :: Q).map Prod.fst)) := by
            simp only [List.map_cons, List.mem_cons, List.mem_append] at hx ⊢; grind
          refine nx x (fun q => dj p hp' (q ▸ hx')) ?_ ?_
          · rintro rfl
            rw [← List.cons_append] at ndd
            exact (List.nodup_append.1 ndd).2.2 x hf x (by simp only [List.map_cons, List.mem_cons, List.mem_append] at hx ⊢; grind) rfl
          · rintro rfl
            simp only [List.map_cons, List.nodup_cons, List.nodup_append, List.mem_cons, List.mem_append] at ndd hx
            grind

/-- Elements move to an earlier position of the same chain. -/
theorem splice_before {h : Heap T} {c : Addr} {A N M Q : List (Addr × T)} (w : Wf h) (hM : M ≠ []) (hN : N ≠ [])
    (r : Slist h c (A ++ (N ++ (M ++ Q)))) :
    ∃ h', SNode.spliceRange (lastOf c (A.map Prod.fst)) (lastOf c ((A ++ N).map Prod.fst)) (posOf 0 (Q.map Prod.fst)) h = .ok ((), h') ∧
      Slist h' c (A ++ (M ++ (N ++ Q))) ∧ Relink (· ∈ scells c (A ++ (N ++ (M ++ Q)))) h h' := by
  have pc := r.path
  have nd := r.nodup
  have lv := r.live
  have ms := r.laid w |>.stop
  simp only [List.map_append, Path.split] at pc ms
  simp only [scells, List.map_append] at nd lv
  obtain ⟨pA, pN, pM, pQ⟩ := pc
  have lp := r.last_live
  have hp : lastOf c (A.map Prod.fst) ∈ c :: A.map Prod.fst := lastOf_mem _ _
  have hM' : M.map Prod.fst ≠ [] := by simpa using hM
  have hN' : N.map Prod.fst ≠ [] := by simpa using hN
  have hf : lastOf (lastOf c (A.map Prod.fst)) (N.map Prod.fst) ∈ N.map Prod.fst := lastOf_mem' _ hN'
  have hm : lastOf (lastOf (lastOf c (A.map Prod.fst)) (N.map Prod.fst)) (M.map Prod.fst) ∈ M.map Prod.fst := lastOf_mem' _ hM'
  have e1 := pA.next_last
  have e2 := pN.next_last
  have e3 := pM.next_last
  rw [List.map_append, lastOf_append]
  revert pA pN pM pQ e1 e2 e3 lp hp hf hm
  generalize hP : lastOf c (A.map Prod.fst) = p
  generalize hF : lastOf p (N.map Prod.fst) = f
  generalize hMm : lastOf f (M.map Prod.fst) = m
  intro pA pN pM pQ lp hp hf hm e1 e2 e3
  simp only [List.mem_cons] at hp
  have ndx := nd
  simp only [List.nodup_cons, List.nodup_append, List.mem_append] at ndx
  have hpf : p ≠ f := by grind
  have hpm : p ≠ m := by grind
  have hfm : f ≠ m := by grind
  have k := splA_relink h p f m (posOf 0 (Q.map Prod.fst)) (· ∈ scells c (A ++ (N ++ (M ++ Q))))
    (by simp only [scells, List.map_append, List.mem_cons, List.mem_append]; grind)
    (by simp only [scells, List.map_append, List.mem_cons, List.mem_append]; grind)
    (by simp only [scells, List.map_append, List.mem_cons, List.mem_append]; grind)
  have nx : ∀ x, x ≠ p → x ≠ f → x ≠ m → (splA h p f m (posOf 0 (Q.map Prod.fst))).next x = h.next x := by
    intro x h1 h2 h3; simp [splA, upd, h1, h2, h3]
  have np : (splA h p f m (posOf 0 (Q.map Prod.fst))).next p = posOf 0 (M.map Prod.fst) := by
    simp only [splA, upd_other _ _ hpf, upd_other _ _ hpm, upd_same, e2]
    cases M with
    | nil => exact absurd rfl hM
    | cons _ _ => simp
  have nm : (splA h p f m (posOf 0 (Q.map Prod.fst))).next m = posOf 0 (N.map Prod.fst) := by
    simp only [splA, upd_other _ _ hfm.symm, upd_same, e1]
    cases N with
    | nil => exact absurd rfl hN
    | cons _ _ => simp
  have nf : (splA h p f m (posOf 0 (Q.map Prod.fst))).next f = posOf 0 (Q.map Prod.fst) := by simp [splA]
  refine ⟨splA h p f m (posOf 0 (Q.map Prod.fst)), ?_, ?_, k⟩
  · rw [spliceRange_eq lp hM' pM, hMm]
    · intro q
      cases Q with
      | nil => exact ms (by simp at q ⊢; grind)
      | cons b Q =>
        simp only [List.map_cons, posOf_cons, List.mem_cons] at q ndx
        grind
    · intro x hx
      exact lv x (by simp only [List.mem_cons, List.mem_append] at hx ⊢; grind)
    · simp only [List.mem_cons]; grind
  · refine Slist.relink k r.head r.bare ?_ ?_ ?_
    · simp only [List.map_append, List.nodup_cons, List.nodup_append, List.mem_cons, List.mem_append]
      grind
    · intro e he
      simp only [List.mem_append] at he
      exact r.data e (by simp only [List.mem_append]; grind)
    · simp only [List.map_append, Path.split]
      have eM : lastOf p (M.map Prod.fst) = m := by
        cases M with
        | nil => exact absurd rfl hM
        | cons e M => exact hMm
      have eN : lastOf m (N.map Prod.fst) = f := by
        cases N with
        | nil => exact absurd rfl hN
        | cons e M => exact hF
      have pA' : posOf 0 (M.map Prod.fst ++ (N.map Prod.fst ++ Q.map Prod.fst)) = posOf 0 (M.map Prod.fst) := by
        cases M with
        | nil => exact absurd rfl hM
        | cons e M => simp
      have pN' : posOf 0 (N.map Prod.fst ++ Q.map Prod.fst) = posOf 0 (N.map Prod.fst) := by
        cases N with
        | nil => exact absurd rfl hN
        | cons e M => simp
      rw [hP, eM, eN, pA', pN']
      refine ⟨pA.retarget (nd.sublist (by simp)) ?_ (by rw [hP]; exact np), ?_, ?_, ?_⟩
      · rw [hP]
        intro x hx hne
        simp only [List.mem_cons] at hx
        exact nx x hne (by grind) (by grind)
      · cases M with
        | nil => exact absurd rfl hM
        | cons e M =>
          simp only [List.map_cons, lastOf_cons, List.nodup_cons, List.mem_cons] at hMm pM np hm ndx ⊢
          refine ⟨by rw [np]; simp, pM.2.retarget (by simp only [List.nodup_cons]; grind) ?_ (by rw [hMm]; exact nm)⟩
          rw [hMm]
          intro x hx hne
          simp only [List.mem_cons] at hx
          exact nx x (by grind) (by grind) hne
      · cases N with
        | nil => exact absurd rfl hN
        | cons e N =>
          simp only [List.map_cons, lastOf_cons, List.nodup_cons, List.mem_cons] at hF pN nm hf ndx ⊢
          refine ⟨by rw [nm]; simp, pN.2.retarget (by simp only [List.nodup_cons]; grind) ?_ (by rw [hF]; exact nf)⟩
          rw [hF]
          intro x hx hne
          simp only [List.mem_cons] at hx
          exact nx x (by grind) hne (by grind)
      · cases Q with
        | nil => exact nf
        | cons b Q =>
          refine ⟨nf, pQ.2.congr ?_⟩
          intro x hx
          simp only [List.map_cons, List.nodup_cons, List.mem_cons] at hx ndx
          exact nx x (by grind) (by grind) (by grind)

/-- Elements move to a later position of the same chain. -/
theorem splice_behind {h : Heap T} {c : Addr} {P M N B : List (Addr × T)} (w : Wf h) (hM : M ≠ []) (hN : N ≠ [])
    (r : Slist h c (P ++ (M ++ (N ++ B)))) :
    ∃ h', SNode.spliceRange (lastOf c ((P ++ (M ++ N)).map Prod.fst)) (lastOf c (P.map Prod.fst)) (posOf 0 (N.map Prod.fst)) h = .ok ((), h') ∧
      Slist h' c (P ++ (N ++ (M ++ B))) ∧ Relink (· ∈ scells c (P ++ (M ++ (N ++ B)))) h h' := by
  have pc := r.path
  have nd := r.nodup
  have lv := r.live
  have ms := r.laid w |>.stop
  simp only [List.map_append, Path.split] at pc ms
  simp only [scells, List.map_append] at nd lv
  obtain ⟨pP, pM, pN, pB⟩ := pc
  have hf : lastOf c (P.map Prod.fst) ∈ c :: P.map Prod.fst := lastOf_mem _ _
  have hM' : M.map Prod.fst ≠ [] := by simpa using hM
  have hN' : N.map Prod.fst ≠ [] := by simpa using hN
  have hm : lastOf (lastOf c (P.map Prod.fst)) (M.map Prod.fst) ∈ M.map Prod.fst := lastOf_mem' _ hM'
  have hp : lastOf (lastOf (lastOf c (P.map Prod.fst)) (M.map Prod.fst)) (N.map Prod.fst) ∈ N.map Prod.fst := lastOf_mem' _ hN'
  have e1 := pP.next_last
  have e2 := pM.next_last
  have e3 := pN.next_last
  rw [List.map_append, List.map_append, lastOf_append, lastOf_append]
  revert pP pM pN pB e1 e2 e3 hp hf hm
  generalize hF : lastOf c (P.map Prod.fst) = f
  generalize hMm : lastOf f (M.map Prod.fst) = m
  generalize hP : lastOf m (N.map Prod.fst) = p
  intro pP pM pN pB hf hm hp e1 e2 e3
  have lp : h.live p = true := lv p (by simp only [List.mem_cons, List.mem_append]; grind)
  simp only [List.mem_cons] at hf
  have ndx := nd
  simp only [List.nodup_cons, List.nodup_append, List.mem_append] at ndx
  have hpf : p ≠ f := by grind
  have hpm : p ≠ m := by grind
  have hfm : f ≠ m := by grind
  have lN : posOf 0 (N.map Prod.fst ++ B.map Prod.fst) = posOf 0 (N.map Prod.fst) := by
    cases N with
    | nil => exact absurd rfl hN
    | cons e M => simp
  have k := splA_relink h p f m (posOf 0 (N.map Prod.fst)) (· ∈ scells c (P ++ (M ++ (N ++ B))))
    (by simp only [scells, List.map_append, List.mem_cons, List.mem_append]; grind)
    (by simp only [scells, List.map_append, List.mem_cons, List.mem_append]; grind)
    (by simp only [scells, List.map_append, List.mem_cons, List.mem_append]; grind)
  have nx : ∀ x, x ≠ p → x ≠ f → x ≠ m → (splA h p f m (posOf 0 (N.map Prod.fst))).next x = h.next x := by
    intro x h1 h2 h3; simp [splA, upd, h1, h2, h3]
  have np : (splA h p f m (posOf 0 (N.map Prod.fst))).next p = posOf 0 (M.map Prod.fst) := by
    simp only [splA, upd_other _ _ hpf, upd_other _ _ hpm, upd_same, e1]
    cases M with
    | nil => exact absurd rfl hM
    | cons _ _ => simp
  have nm : (splA h p f m (posOf 0 (N.map Prod.fst))).next m = posOf 0 (B.map Prod.fst) := by
    simp only [splA, upd_other _ _ hfm.symm, upd_same, e3]
  have nf : (splA h p f m (posOf 0 (N.map Prod.fst))).next f = posOf 0 (N.map Prod.fst) := by simp [splA]
  refine ⟨splA h p f m (posOf 0 (N.map Prod.fst)), ?_, ?_, k⟩
  · rw [lN] at pM
    rw [spliceRange_eq lp hM' pM, hMm]
    · cases N with
      | nil => exact absurd rfl hN
      | cons b N =>
        simp only [List.map_cons, posOf_cons, List.mem_cons] at ndx ⊢
        grind
    · intro x hx
      exact lv x (by simp only [List.mem_cons, List.mem_append] at hx ⊢; grind)
    · simp only [List.mem_cons]; grind
  · refine Slist.relink k r.head r.bare ?_ ?_ ?_
    · simp only [List.map_append, List.nodup_cons, List.nodup_append, List.mem_cons, List.mem_append]
      grind
    · intro e he
      simp only [List.mem_append] at he
      exact r.data e (by simp only [List.mem_append]; grind)
    · simp only [List.map_append, Path.split]
      have eN : lastOf f (N.map Prod.fst) = p := by
        cases N with
        | nil => exact absurd rfl hN
        | cons e M => exact hP
      have eM : lastOf p (M.map Prod.fst) = m := by
        cases M with
        | nil => exact absurd rfl hM
        | cons e M => exact hMm
      have pA' : posOf 0 (N.map Prod.fst ++ (M.map Prod.fst ++ B.map Prod.fst)) = posOf 0 (N.map Prod.fst) := by
        cases N with
        | nil => exact absurd rfl hN
        | cons e M => simp
      have pN' : posOf 0 (M.map Prod.fst ++ B.map Prod.fst) = posOf 0 (M.map Prod.fst) := by
        cases M with
        | nil => exact absurd rfl hM
        | cons e M => simp
      rw [hF, eN, eM, pA', pN']
      refine ⟨pP.retarget (nd.sublist (by simp)) ?_ (by rw [hF]; exact nf), ?_, ?_, ?_⟩
      · rw [hF]
        intro x hx hne
        simp only [List.mem_cons] at hx
        exact nx x (by grind) hne (by grind)
      · cases N with
        | nil => exact absurd rfl hN
        | cons e N =>
          simp only [List.map_cons, lastOf_cons, List.nodup_cons, List.mem_cons] at hP pN nf hp ndx ⊢
          refine ⟨by rw [nf]; simp, pN.2.retarget (by simp only [List.nodup_cons]; grind) ?_ (by rw [hP]; exact np)⟩
          rw [hP]
          intro x hx hne
          simp only [List.mem_cons] at hx
          exact nx x hne (by grind) (by grind)
      · cases M with
        | nil => exact absurd rfl hM
        | cons e M =>
          simp only [List.map_cons, lastOf_cons, List.nodup_cons, List.mem_cons] at hMm pM np hm ndx ⊢
          refine ⟨by rw [np]; simp, pM.2.retarget (by simp only [List.nodup_cons]; grind) ?_ (by rw [hMm]; exact nm)⟩
          rw [hMm]
          intro x hx hne
          simp only [List.mem_cons] at hx
          exact nx x (by grind) (by grind) hne
      · cases B with
        | nil => exact nm
        | cons b B =>
          refine ⟨nm, pB.2.congr ?_⟩
          intro x hx
          simp only [List.map_cons, List.nodup_cons, List.mem_cons] at hx ndx
          exact nx x (by grind) (by grind) (by grind)

/-- Moving the single element after `it` is moving a one-element range, unless it would be moved behind itself. -/
theorem spliceNext_eq {h : Heap T} {p o l e : Addr} (lp : h.live p = true) (lo : h.live o = true) (le : h.live e = true)
    (ho : h.next o = e) (he : h.next e = l) (hl : e ≠ l) (hpo : p ≠ o) (hpe : p ≠ e) (hoe : o ≠ e) :
    SNode.spliceNext p o h = SNode.spliceRange p o l h := by
  have k := spliceRange_eq (M := [e]) (f := o) (l := l) lp (by simp) ⟨ho, he⟩ (by simpa using fun q => hl q.symm)
    (by simp [lo, le]) (by simp [hpo, hpe])
  rw [k]
  simp only [SNode.spliceNext, Prog.bind_app, getNext_eq lo, ho, getNext_eq le, he, Res.bind_ok, setNext, lo, le, if_true]
  rw [getNext_eq (h := { h with next := upd h.next o l }) lp]
  simp only [Res.bind_ok, le, lp, if_true, splA, lastOf, upd_other _ _ hpo, ho]
  congr 3
  funext x
  simp only [upd]
  grind

/-! ## swap, reverse -/

/-- Memory after exchanging the `next` pointers of two headers. -/
def swpA (h : Heap T) (a b : Addr) : Heap T := { h with next := upd (upd h.next a (h.next b)) b (h.next a) }

theorem swpA_path {h : Heap T} {a b : Addr} {M : List Addr} (hp : Path h b M 0) (hab : a ≠ b) (nd : (b :: M).Nodup) (ha : a ∉ M) :
    Path (swpA h a b) a M 0 := by
  have e : (swpA h a b).next a = h.next b := by simp [swpA, upd, hab]
  cases M with
  | nil => exact e.trans hp
  | cons m M =>
    refine ⟨e.trans hp.1, hp.2.congr ?_⟩
    intro x hx
    have h1 : x ≠ b := fun q => (List.nodup_cons.1 nd).1 (q ▸ hx)
    have h2 : x ≠ a := fun q => ha (q ▸ hx)
    simp [swpA, upd, h1, h2]

theorem swpA_comm {h : Heap T} {a b : Addr} (hab : a ≠ b) : swpA h a b = swpA h b a := by
  simp only [swpA]; congr 1; funext x; simp only [upd]; grind

theorem swpA_ok {h : Heap T} {a b : Addr} {es fs : List (Addr × T)} (r : Slist h a es) (s : Slist h b fs) (hab : a ≠ b)
    (dj : ∀ x ∈ scells a es, x ∉ scells b fs) :
    Slist (swpA h a b) a fs ∧ Slist (swpA h a b) b es ∧ Relink (fun x => x ∈ scells a es ∨ x ∈ scells b fs) h (swpA h a b) := by
  have k : Relink (fun x => x ∈ scells a es ∨ x ∈ scells b fs) h (swpA h a b) := by
    refine ⟨rfl, rfl, rfl, rfl, ?_, fun _ _ => rfl⟩
    intro x hx
    have h1 : x ≠ a := fun q => hx (.inl (by simp [scells, q]))
    have h2 : x ≠ b := fun q => hx (.inr (by simp [scells, q]))
    simp [swpA, upd, h1, h2]
  have ha : a ∉ fs.map Prod.fst := fun q => dj a (by simp [scells]) (by simp only [scells, List.mem_cons]; exact .inr q)
  have hb : b ∉ es.map Prod.fst := fun q => dj b (by simp only [scells, List.mem_cons]; exact .inr q) (by simp [scells])
  refine ⟨?_, ?_, k⟩
  · exact Slist.relink k r.head r.bare (List.nodup_cons.2 ⟨ha, (List.nodup_cons.1 s.nodup).2⟩) s.data (swpA_path s.path hab s.nodup ha)
  · refine Slist.relink k s.head s.bare (List.nodup_cons.2 ⟨hb, (List.nodup_cons.1 r.nodup).2⟩) r.data ?_
    rw [swpA_comm hab]; exact swpA_path r.path hab.symm r.nodup hb

theorem reverse_ok {h : Heap T} {c : Addr} {es : List (Addr × T)} (w : Wf h) (r : Slist h c es) :
    ∃ h', SNode.reverse c h = .ok ((), h') ∧ Slist h' c es.reverse ∧ Relink (· ∈ scells c es) h h' := by
  have nd := List.nodup_cons.1 r.nodup
  have lv : ∀ x ∈ es.map Prod.fst, h.live x = true := fun x hx => r.live x (by simp only [scells, List.mem_cons]; exact .inr hx)
  obtain ⟨h1, q, p, k, pv⟩ := reverseLoop_ok (es.map Prod.fst) (h := h) (rs := [])
    (fun x hx => ⟨lv x hx, w.ne_zero (lv x hx)⟩) (by simpa using nd.2) (by simp)
    (by
      intro a B e
      have := r.path
      rw [e] at this; exact this.2)
    (by intro a B e; cases e)
  have lc1 : h1.live c = true := by rw [k.live]; exact r.head
  let h2 : Heap T := { h1 with next := upd h1.next c (posOf 0 (es.map Prod.fst).reverse) }
  have k2 : Relink (· ∈ scells c es) h1 h2 :=
    ⟨rfl, rfl, rfl, rfl, fun x hx => upd_other _ _ (fun q => hx (by simp [scells, q])), fun _ _ => rfl⟩
  have kk : Relink (· ∈ scells c es) h h2 := (k.mono (fun x hx => by simp only [scells, List.mem_cons]; exact .inr hx)).trans k2
  refine ⟨h2, ?_, Slist.relink kk r.head r.bare ?_ ?_ ?_, kk⟩
  · simp only [SNode.reverse, Prog.bind_app, getNext_eq r.head, Res.bind_ok, r.next_head]
    rw [posOf_nil] at q
    rw [q]
    simp only [Res.bind_ok, setNext, lc1, if_true, h2, List.append_nil]
  · rw [List.map_reverse, List.nodup_cons, List.mem_reverse, (List.reverse_perm _).nodup_iff]; exact nd
  · intro e he; exact r.data e (by simpa using he)
  · rw [List.map_reverse]
    rw [List.append_nil] at p
    cases e : (es.map Prod.fst).reverse with
    | nil => show upd h1.next c _ c = 0; simp [e]
    | cons x B =>
      refine ⟨by simp [h2, e], (p x B e).congr ?_⟩
      intro y hy
      refine upd_other _ _ (fun q => nd.1 ?_)
      rw [← List.mem_reverse, e, ← q]; exact hy

end Verif.Seq
