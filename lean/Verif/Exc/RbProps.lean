import Verif.Exc.RbAssign
/-!
# Properties of `ttl::map` and `ttl::set` under exceptions (C129)

`XRb.exec c k` executes the call `c` when the `k`-th allocation, element construction, comparison or element assignment (from 0) throws.
-/
set_option linter.unusedVariables false
set_option linter.unusedSimpArgs false
set_option linter.unusedSectionVars false
set_option linter.constructorNameAsVariable false
namespace Verif.Exc.XRb
open Verif Verif.Rb Verif.Exc Tree
variable {K V : Type}

/-! ## The specification -/

/-- A container as the client knows it: the object, whether every `erase` so far has returned, its elements in iteration order. -/
structure Cont (V : Type) where
  hd : Addr
  ok : Bool
  vals : List V

/-- The containers alive. -/
abbrev St (V : Type) := List (Cont V)

/-- The containers alive, as objects. -/
abbrev St.objs (S : St V) : List Addr := S.map Cont.hd

def St.get (S : St V) (c : Addr) : Cont V := (S.find? fun w => decide (w.hd = c)).getD ⟨c, true, []⟩

def St.put (S : St V) (c : Addr) (ok : Bool) (vals : List V) : St V := S.map fun w => if w.hd = c then ⟨c, ok, vals⟩ else w

/-- Calls: those of `Rb.Call`, and the constructor from a range. -/
inductive XCall (K V : Type) where
  | base (q : Call K V)
  | ofRange (vs : List V)

section Keyed
variable [DecidableEq K] (lt : K → K → Bool) (keyOf : V → K)

/-- An element added to a sorted list of elements, unless its key is there. -/
def addVal (vals : List V) (v : V) : List V :=
  if vals.any fun x => decide (keyOf x = keyOf v) then vals
  else (vals.filter fun x => lt (keyOf x) (keyOf v)) ++ v :: vals.filter fun x => !lt (keyOf x) (keyOf v)

/-- What a call that returns makes of the containers; `a` is the address a new object gets. -/
def spec (S : St V) (a : Addr) : XCall K V → St V
  | .base .create => S ++ [⟨a, true, []⟩]
  | .base (.copyOf s) => S ++ [⟨a, (S.get s).ok, (S.get s).vals⟩]
  | .base (.assign d s) => S.put d (S.get s).ok (S.get s).vals
  | .base (.destroy c) => S.filter fun w => !decide (w.hd = c)
  | .base (.insert c v) => S.put c (S.get c).ok (addVal lt keyOf (S.get c).vals v)
  | .base (.insertRange c vs) => S.put c (S.get c).ok (vs.foldl (addVal lt keyOf) (S.get c).vals)
  | .base (.erase c k) => S.put c true ((S.get c).vals.filter fun x => !decide (keyOf x = k))
  | .base (.clear c) => S.put c true []
  | .base (.store c v) => S.put c (S.get c).ok ((S.get c).vals.map fun x => if keyOf x = keyOf v then v else x)
  | .base (.find _ _) => S
  | .base (.lower _ _) => S
  | .ofRange vs => S ++ [⟨a, true, vs.foldl (addVal lt keyOf) []⟩]

/-- `Interrupted S k q S' m`: an exception at point `k` of the call `q` may leave the containers as `S'` says, and lose `m` nodes. -/
def Interrupted (S : St V) (k : Nat) : XCall K V → St V → Nat → Prop
  | .base (.copyOf s), S', m => k < (S.get s).vals.length ∧ S' = S ∧ m = k
  | .base (.assign d s), S', m => k < (S.get s).vals.length ∧ S' = S.put d true [] ∧ m = k
  | .base (.insert _ _), S', m => S' = S ∧ m = 0
  | .base (.insertRange c vs), S', m => (∃ i, i < vs.length ∧ S' = S.put c (S.get c).ok ((vs.take i).foldl (addVal lt keyOf) (S.get c).vals)) ∧ m = 0
  | .base (.erase c _), S', m => S' = S.put c false (S.get c).vals ∧ m = 0
  | .base (.store _ _), S', m => S' = S ∧ m = 0
  | .base (.find _ _), S', m => S' = S ∧ m = 0
  | .base (.lower _ _), S', m => S' = S ∧ m = 0
  | .ofRange _, S', m => S' = S ∧ m = 0
  | _, _, _ => False

/-- The call is legal: its containers are alive, it is not a self-assignment, and it is not an `erase` on a container whose last `erase` threw (see
`erase_after_throw_loses`). -/
def Legal (S : St V) : XCall K V → Prop
  | .base q => q.Legal S.objs ∧ ∀ c k, q = .erase c k → (S.get c).ok = true
  | .ofRange _ => True

/-- Execute a call. -/
def exec (objs : List Addr) : XCall K V → Thr (Heap V) (List Addr)
  | .base q => call lt keyOf objs q
  | .ofRange vs => do let c ← rangeCtor lt keyOf vs; pure (objs ++ [c])

/-! ## The invariant -/

def Box.cont (b : Box V) : Cont V := ⟨b.hd, b.ok, b.es.map Prod.snd⟩

/-- Memory holds exactly the containers of `S`, and `n` nodes nobody owns. -/
def Inv (S : St V) (n : Nat) (h : Heap V) : Prop :=
  ∃ bs L, World h bs L ∧ S = bs.map Box.cont ∧ L.length = n ∧ ∀ b ∈ bs, Ascending lt keyOf b.es

variable {lt keyOf} {S : St V} {n : Nat} {h : Heap V} {c : Addr}

theorem heads {A B : List (Box V)} {b : Box V} {L : List Addr} (W : World h (A ++ b :: B) L) : ∀ x ∈ A ++ B, x.hd ≠ b.hd := by
  intro x hx q
  refine (W.split.1 b.hd (by simp [cells])).1 (List.mem_flatMap.2 ⟨x, hx, ?_⟩)
  rw [← q]; simp [cells]

theorem get_split {A B : List (Box V)} {b : Box V} {L : List Addr} (W : World h (A ++ b :: B) L) : St.get ((A ++ b :: B).map Box.cont) b.hd = b.cont := by
  unfold St.get
  have hA : ∀ x ∈ A.map Box.cont, ¬(decide (x.hd = b.hd) = true) := by
    intro x hx
    obtain ⟨y, hy, rfl⟩ := List.mem_map.1 hx
    exact fun q => heads W y (by simp [hy]) (of_decide_eq_true q)
  rw [List.map_append, List.map_cons, List.find?_append, List.find?_eq_none.2 hA]
  simp [Box.cont]

theorem put_split {A B : List (Box V)} {b : Box V} {L : List Addr} (W : World h (A ++ b :: B) L) (ok : Bool) (es : List (Addr × V)) :
    St.put ((A ++ b :: B).map Box.cont) b.hd ok (es.map Prod.snd) = (A ++ ⟨b.hd, ok, es⟩ :: B).map Box.cont := by
  have H := heads W
  unfold St.put
  rw [List.map_map, List.map_append, List.map_append, List.map_cons, List.map_cons]
  congr 1
  · refine List.map_congr_left fun x hx => ?_
    simp [Box.cont, H x (by simp [hx])]
  · congr 1
    · simp [Box.cont]
    · refine List.map_congr_left fun x hx => ?_
      simp [Box.cont, H x (by simp [hx])]

theorem box_at {bs : List (Box V)} (hc : c ∈ St.objs (bs.map Box.cont)) : ∃ A b B, bs = A ++ b :: B ∧ b.hd = c := by
  simp only [St.objs, List.map_map, List.mem_map] at hc
  obtain ⟨b, hb, rfl⟩ := hc
  obtain ⟨A, B, e⟩ := List.append_of_mem hb
  exact ⟨A, b, B, e, rfl⟩

theorem addVal_there {es : List (Addr × V)} {v : V} (he : ∃ e ∈ es, keyOf e.2 = keyOf v) : addVal lt keyOf (es.map Prod.snd) v = es.map Prod.snd := by
  obtain ⟨e, he, q⟩ := he
  unfold addVal
  rw [if_pos]
  exact List.any_eq_true.2 ⟨e.2, List.mem_map_of_mem he, by simpa using q⟩

theorem addVal_new (ho : StrictTotalOrder lt) {A B : List (Addr × V)} {a : Addr} {v : V} (hA : ∀ e ∈ A, lt (keyOf e.2) (keyOf v) = true)
    (hB : ∀ e ∈ B, lt (keyOf v) (keyOf e.2) = true) : addVal lt keyOf ((A ++ B).map Prod.snd) v = (A ++ (a, v) :: B).map Prod.snd := by
  have irr : ∀ k, lt k k = false := ho.irrefl
  have asym : ∀ a b, lt a b = true → lt b a = false := fun a b q => by
    cases e : lt b a with
    | false => rfl
    | true => have := ho.trans _ _ _ q e; rw [irr] at this; cases this
  unfold addVal
  rw [if_neg]
  · simp only [List.map_append, List.map_cons, List.filter_append]
    have a1 : (A.map Prod.snd).filter (fun x => lt (keyOf x) (keyOf v)) = A.map Prod.snd := List.filter_eq_self.2 fun x hx => by
      obtain ⟨e, he, rfl⟩ := List.mem_map.1 hx; exact hA e he
    have a2 : (A.map Prod.snd).filter (fun x => !lt (keyOf x) (keyOf v)) = [] := List.filter_eq_nil_iff.2 fun x hx => by
      obtain ⟨e, he, rfl⟩ := List.mem_map.1 hx; simp [hA e he]
    have b1 : (B.map Prod.snd).filter (fun x => lt (keyOf x) (keyOf v)) = [] := List.filter_eq_nil_iff.2 fun x hx => by
      obtain ⟨e, he, rfl⟩ := List.mem_map.1 hx; simp [asym _ _ (hB e he)]
    have b2 : (B.map Prod.snd).filter (fun x => !lt (keyOf x) (keyOf v)) = B.map Prod.snd := List.filter_eq_self.2 fun x hx => by
      obtain ⟨e, he, rfl⟩ := List.mem_map.1 hx; simp [asym _ _ (hB e he)]
    rw [a1, a2, b1, b2]; simp
  · intro q
    obtain ⟨x, hx, e⟩ := List.any_eq_true.1 q
    obtain ⟨y, hy, rfl⟩ := List.mem_map.1 hx
    have e : keyOf y.2 = keyOf v := by simpa using e
    rcases List.mem_append.1 hy with hy | hy
    · have := hA y hy; rw [e, irr] at this; cases this
    · have := hB y hy; rw [e, irr] at this; cases this

/-- One insertion, what it makes of the elements. -/
theorem insert_step {f : Bool} (ho : StrictTotalOrder lt) {hd : Addr} {es : List (Addr × V)} (w : Wf h) (o : Holds f h hd es) (ha : Ascending lt keyOf es) (v : V) :
    ∃ r h' es', Rb.insertUnique lt keyOf hd v h = .ok (r, h') ∧ Holds f h' hd es' ∧ Ascending lt keyOf es' ∧ Effect (cells hd es) (cells hd es') h h' ∧
      es'.map Prod.snd = addVal lt keyOf (es.map Prod.snd) v := by
  obtain ⟨n, hc⟩ := insertUnique_holds ho w o ha v
  rcases hc with ⟨e, he, hk, q⟩ | ⟨A, B, h', rfl, hA, hB, q, o', ef, _, _⟩
  · exact ⟨_, h.tick n, es, q, o.tick n, ha, Effect.tick w _ n, (addVal_there ⟨e, he, hk⟩).symm⟩
  · refine ⟨_, h', _, q, o', ?_, ef, (addVal_new ho hA hB).symm⟩
    simp only [Ascending, List.pairwise_append, List.pairwise_cons, List.mem_cons] at ha ⊢
    grind

theorem insertRange_step {f : Bool} (ho : StrictTotalOrder lt) {hd : Addr} (vs : List V) : ∀ {h : Heap V} {es : List (Addr × V)}, Wf h → Holds f h hd es →
    Ascending lt keyOf es → ∃ h' es', Rb.insertRange lt keyOf hd vs h = .ok ((), h') ∧ Holds f h' hd es' ∧ Ascending lt keyOf es' ∧
      Effect (cells hd es) (cells hd es') h h' ∧ es'.map Prod.snd = vs.foldl (addVal lt keyOf) (es.map Prod.snd) := by
  induction vs with
  | nil => intro h es w o a; exact ⟨h, es, rfl, o, a, Effect.refl w _, rfl⟩
  | cons v vs ih =>
    intro h es w o a
    obtain ⟨r, h1, es1, q1, o1, a1, f1, v1⟩ := insert_step ho w o a v
    obtain ⟨h2, es2, q2, o2, a2, f2, v2⟩ := ih f1.wf o1 a1
    exact ⟨h2, es2, by simp only [Rb.insertRange, Prog.bind_app, q1, q2, Res.bind_ok, Prog.pure_app], o2, a2, f1.trans w f2, by rw [v2, v1]; rfl⟩

theorem asc_vals {es es' : List (Addr × V)} (e : es'.map Prod.snd = es.map Prod.snd) (a : Ascending lt keyOf es) : Ascending lt keyOf es' := by
  have h1 : (es.map Prod.snd).Pairwise fun a b => lt (keyOf a) (keyOf b) = true := by rw [List.pairwise_map]; exact a
  rw [← e, List.pairwise_map] at h1
  exact h1

theorem filter_erased (ho : StrictTotalOrder lt) {A B : List (Addr × V)} {e : Addr × V} (ha : Ascending lt keyOf (A ++ e :: B)) :
    ((A ++ e :: B).map Prod.snd).filter (fun x => !decide (keyOf x = keyOf e.2)) = (A ++ B).map Prod.snd := by
  have irr : ∀ k, lt k k = false := ho.irrefl
  simp only [Ascending, List.pairwise_append, List.pairwise_cons, List.mem_cons] at ha
  simp only [List.map_append, List.map_cons, List.filter_append, List.filter_cons, decide_true, Bool.not_true, Bool.false_eq_true, if_false]
  congr 1
  · refine List.filter_eq_self.2 fun x hx => ?_
    obtain ⟨y, hy, rfl⟩ := List.mem_map.1 hx
    have := ha.2.2 y hy e (.inl rfl)
    simp only [Bool.not_eq_true', decide_eq_false_iff_not]
    intro q; rw [q, irr] at this; cases this
  · refine List.filter_eq_self.2 fun x hx => ?_
    obtain ⟨y, hy, rfl⟩ := List.mem_map.1 hx
    have := ha.2.1.1 y hy
    simp only [Bool.not_eq_true', decide_eq_false_iff_not]
    intro q; rw [q, irr] at this; cases this

/-! ## One call -/

/-- **C129.** Every legal call passes some number `N` of points where an exception may appear. If none appears, the call does what the model without
exceptions does. If one appears, at any of the points, it leaves the call in a memory that holds exactly the containers that `Interrupted` names, and
the nodes lost. -/
theorem call_points (ho : StrictTotalOrder lt) (I : Inv lt keyOf S n h) (q : XCall K V) (lg : Legal S q) :
    ∃ N h', Inv lt keyOf (spec lt keyOf S h.next q) n h' ∧
      Points (exec lt keyOf S.objs q) h N (spec lt keyOf S h.next q).objs h' fun k t => ∃ S' m, Interrupted lt keyOf S k q S' m ∧ Inv lt keyOf S' (n + m) t := by
  obtain ⟨bs, L, W, rfl, rfl, ha⟩ := I
  have put_objs : ∀ (S : St V) c ok vals, (S.put c ok vals).objs = S.objs := by
    intro S c ok vals
    simp only [St.objs, St.put, List.map_map]
    refine List.map_congr_left fun x _ => ?_
    simp only [Function.comp]
    split
    · rename_i e; exact e.symm
    · rfl
  have same : ∀ j, ∃ S' m, (S' = bs.map Box.cont ∧ m = 0) ∧ Inv lt keyOf S' (L.length + m) (h.tick j) := fun j =>
    ⟨_, 0, ⟨rfl, rfl⟩, bs, L, W.tick j, rfl, rfl, ha⟩
  -- one container changed, nodes lost
  have one : ∀ A b B ok es' M t, bs = A ++ b :: B → Holds ok t b.hd es' → Ascending lt keyOf es' → Effect (cells b.hd b.es) (cells b.hd es' ++ M) h t →
      (cells b.hd es' ++ M).Nodup → (∀ x ∈ M, (t.node x).isSome) →
      Inv lt keyOf (St.put (bs.map Box.cont) b.hd ok (es'.map Prod.snd)) (L.length + M.length) t := by
    intro A b B ok es' M t e o a ef nd lv
    subst e
    refine ⟨_, _, W.step (w' := ⟨b.hd, ok, es'⟩) rfl ef o nd lv, put_split W ok es', by simp, fun w hw => ?_⟩
    simp only [List.mem_append, List.mem_cons] at hw
    rcases hw with hw | rfl | hw
    · exact ha w (by simp [hw])
    · exact a
    · exact ha w (by simp [hw])
  have one0 : ∀ A b B ok es' t, bs = A ++ b :: B → Holds ok t b.hd es' → Ascending lt keyOf es' → Effect (cells b.hd b.es) (cells b.hd es') h t →
      Inv lt keyOf (St.put (bs.map Box.cont) b.hd ok (es'.map Prod.snd)) L.length t := fun A b B ok es' t e o a ef =>
    one A b B ok es' [] t e o a (by rw [List.append_nil]; exact ef) (by rw [List.append_nil]; exact o.cells_nodup) (by simp)
  have plus : ∀ ok es' t, Holds ok t h.next es' → Ascending lt keyOf es' → Effect [] (cells h.next es') h t →
      Inv lt keyOf (bs.map Box.cont ++ [⟨h.next, ok, es'.map Prod.snd⟩]) L.length t := by
    intro ok es' t o a ef
    refine ⟨_, _, W.add (w' := ⟨h.next, ok, es'⟩) ef o, by simp [Box.cont], rfl, fun w hw => ?_⟩
    simp only [List.mem_append, List.mem_cons, List.not_mem_nil, or_false] at hw
    rcases hw with hw | rfl
    · exact ha w hw
    · exact a
  cases q with
  | ofRange vs =>
    obtain ⟨h1, e1, o1, f1, n1, c1⟩ := newTree_holds W.wf
    obtain ⟨h2, es2, e2, o2, a2, f2, v2⟩ := insertRange_step ho vs f1.wf o1 List.Pairwise.nil
    obtain ⟨N, X⟩ := insertRange_points lt keyOf _ vs e2
    refine ⟨N, h2, ?_, ?_⟩
    · have := plus true es2 h2 o2 a2 (f1.trans W.wf f2)
      rw [v2] at this
      exact this
    · have Y : Points (rangeCtor lt keyOf vs) h N h.next h2 fun k t => ∃ S' m, (S' = bs.map Box.cont ∧ m = 0) ∧ Inv lt keyOf S' (L.length + m) t := by
        refine Points.call_seq (a := h.next) (s' := h1) e1 (Points.seq (m := 0) (unwinding_points X fun k t l ⟨i, h3, j, li, e3, q3⟩ => ?_) Points.pure_)
        obtain ⟨h3', es3, e3', o3, a3, f3, v3⟩ := insertRange_step ho (vs.take i) f1.wf o1 (List.Pairwise.nil (R := fun a b : Addr × V => lt (keyOf a.2) (keyOf b.2) = true))
        rw [e3] at e3'; cases e3'
        subst q3
        obtain ⟨t', e4, f4⟩ := destroy_holds (f3.wf.tick j) (o3.tick j)
        refine ⟨t', e4, _, 0, ⟨rfl, rfl⟩, ?_⟩
        have F := (f1.trans W.wf f3).trans W.wf f4.of_tick
        exact ⟨bs, L ++ [], W.leak F List.nodup_nil (by simp), rfl, by simp, ha⟩
      have Z := Points.seq_pure (g := fun c => St.objs (bs.map Box.cont) ++ [c]) Y
      have e1 : (spec lt keyOf (bs.map Box.cont) h.next (.ofRange vs)).objs = St.objs (bs.map Box.cont) ++ [h.next] := by simp [spec, St.objs]
      rw [e1]; exact Z
  | base q =>
  obtain ⟨⟨hargs, hns⟩, her⟩ := lg
  cases q with
  | create =>
    obtain ⟨h', e, o, ef, _, _⟩ := newTree_holds W.wf
    refine ⟨0, h', plus true [] h' o List.Pairwise.nil ef, ?_⟩
    have e1 : (spec lt keyOf (bs.map Box.cont) h.next (.base .create)).objs = St.objs (bs.map Box.cont) ++ [h.next] := by simp [spec, St.objs]
    rw [e1]
    exact Points.call_ (p := Rb.call lt keyOf (St.objs (bs.map Box.cont)) .create) (by simp only [Rb.call, Prog.bind_app, e, Res.bind_ok, Prog.pure_app])
  | copyOf s =>
    obtain ⟨A, b, B, e, hs⟩ := box_at (hargs s (by simp [Call.args]))
    have hb : b ∈ bs := by rw [e]; simp
    obtain ⟨h', es', e', o', sv, ef, X⟩ := copyCtor_points W.wf (W.holds b hb)
    have g : St.get (bs.map Box.cont) s = b.cont := by subst e; rw [← hs]; exact get_split W
    rw [hs] at X
    refine ⟨b.es.length, h', ?_, ?_⟩
    · have := plus b.ok es' h' o' (asc_vals sv (ha b hb)) ef
      rw [sv] at this
      simp only [spec, g]; exact this
    · have Y := Points.seq_pure (g := fun c => St.objs (bs.map Box.cont) ++ [c]) X
      have e1 : (spec lt keyOf (bs.map Box.cont) h.next (.base (.copyOf s))).objs = St.objs (bs.map Box.cont) ++ [h.next] := by simp [spec, St.objs]
      rw [e1]
      refine Y.imp fun k t l ⟨ef, lv⟩ => ⟨_, k, ⟨?_, rfl, rfl⟩, bs, _, W.leak ef List.nodup_range' lv, rfl, by simp, ha⟩
      rw [g]; simpa [Box.cont] using l
  | assign d s =>
    have hne : s ≠ d := fun e => hns d (by rw [e])
    obtain ⟨A, b, B, e, hd⟩ := box_at (hargs d (by simp [Call.args]))
    obtain ⟨A', b', B', e', hs⟩ := box_at (hargs s (by simp [Call.args]))
    have hb : b ∈ bs := by rw [e]; simp
    have hb' : b' ∈ bs := by rw [e']; simp
    have g : St.get (bs.map Box.cont) s = b'.cont := by subst e'; rw [← hs]; exact get_split W
    have hdis : ∀ x ∈ cells b'.hd b'.es, x ∉ cells b.hd b.es := by
      intro x hx hx'
      subst e
      simp only [List.mem_append, List.mem_cons] at hb'
      have ne : b' ≠ b := fun q => hne (by rw [← hs, ← hd, q])
      refine (W.split.1 x hx').1 (List.mem_flatMap.2 ⟨b', ?_, hx⟩)
      simp only [List.mem_append]; grind
    obtain ⟨h', es', e1, o', sv, ef, X⟩ := opAssign_points W.wf (W.holds b hb) (W.holds b' hb') hdis
    rw [hs, hd] at X
    refine ⟨b'.es.length, h', ?_, ?_⟩
    · have := one0 A b B b'.ok es' h' e o' (asc_vals sv (ha b' hb')) ef
      rw [sv, hd] at this
      simp only [spec, g]; exact this
    · have Y := Points.seq_pure (g := fun _ => St.objs (bs.map Box.cont)) X
      have e1 : (spec lt keyOf (bs.map Box.cont) h.next (.base (.assign d s))).objs = St.objs (bs.map Box.cont) := put_objs _ _ _ _
      rw [e1]
      refine Y.imp fun k t l ⟨o, ef, lv⟩ => ⟨_, k, ⟨?_, rfl, rfl⟩, ?_⟩
      · rw [g]; simpa [Box.cont] using l
      · rw [← hd] at ef o ⊢
        have nd : (cells b.hd ([] : List (Addr × V)) ++ List.range' h.next k).Nodup := by
          refine List.nodup_append.2 ⟨o.cells_nodup, List.nodup_range', fun x hx y hy q => ?_⟩
          subst q
          have := (W.holds b hb).lt W.wf (x := x) (by
            simp only [cells, List.map_nil, List.mem_cons, List.not_mem_nil, or_false] at hx ⊢
            exact .inl hx)
          exact Nat.lt_irrefl _ (Nat.lt_of_lt_of_le this (mem_made.1 hy).1)
        have := one A b B true [] _ t e o List.Pairwise.nil ef nd lv
        simpa using this
  | destroy c =>
    obtain ⟨A, b, B, e, hc⟩ := box_at (hargs c (by simp [Call.args]))
    obtain ⟨h', e', ef⟩ := destroy_holds W.wf (W.holds b (by rw [e]; simp))
    subst e
    have H := heads W
    have s1 : spec lt keyOf ((A ++ b :: B).map Box.cont) h.next (.base (.destroy c)) = (A ++ B).map Box.cont := by
      simp only [spec, List.map_append, List.map_cons, List.filter_append, List.filter_cons]
      have f1 : ∀ l : List (Box V), (∀ x ∈ l, x.hd ≠ b.hd) → (l.map Box.cont).filter (fun w => !decide (w.hd = c)) = l.map Box.cont := fun l hl =>
        List.filter_eq_self.2 fun x hx => by
          obtain ⟨y, hy, rfl⟩ := List.mem_map.1 hx
          have := hl y hy
          rw [hc] at this
          rw [Bool.not_eq_true']; exact decide_eq_false this
      rw [f1 A fun x hx => H x (by simp [hx]), f1 B fun x hx => H x (by simp [hx])]
      simp [Box.cont, hc]
    have s2 : (St.objs ((A ++ b :: B).map Box.cont)).erase c = St.objs ((A ++ B).map Box.cont) := by
      simp only [St.objs, List.map_map, List.map_append, List.map_cons]
      rw [List.erase_append_right]
      · simp [Box.cont, hc]
      · intro hm
        obtain ⟨x, hx, q⟩ := List.mem_map.1 hm
        exact H x (by simp [hx]) (by rw [hc]; exact q)
    rw [s1]
    refine ⟨0, h', ⟨A ++ B, L, W.drop ef, rfl, rfl, fun w hw => ha w ?_⟩, Points.call_ ?_⟩
    · simp only [List.mem_append, List.mem_cons] at hw ⊢; grind
    · rw [hc] at e'
      simp only [Rb.call, Prog.bind_app, e', Res.bind_ok, Prog.pure_app, s2]
  | insert c v =>
    obtain ⟨A, b, B, e, hc⟩ := box_at (hargs c (by simp [Call.args]))
    have hb : b ∈ bs := by rw [e]; simp
    have g : St.get (bs.map Box.cont) c = b.cont := by subst e; rw [← hc]; exact get_split W
    obtain ⟨r, h', es', q, o', a', ef, vv⟩ := insert_step ho W.wf (W.holds b hb) (ha b hb) v
    rw [hc] at q
    obtain ⟨N, X⟩ := insertUnique_points lt keyOf q
    refine ⟨N, h', ?_, ?_⟩
    · have := one0 A b B b.ok es' h' e o' a' ef
      rw [vv, hc] at this
      simp only [spec, g]; exact this
    · have Y := Points.seq_pure (g := fun _ => St.objs (bs.map Box.cont)) X
      have e1 : (spec lt keyOf (bs.map Box.cont) h.next (.base (.insert c v))).objs = St.objs (bs.map Box.cont) := put_objs _ _ _ _
      rw [e1]
      exact Y.imp fun k t l ⟨j, q⟩ => by rw [q]; exact same j
  | insertRange c vs =>
    obtain ⟨A, b, B, e, hc⟩ := box_at (hargs c (by simp [Call.args]))
    have hb : b ∈ bs := by rw [e]; simp
    have g : St.get (bs.map Box.cont) c = b.cont := by subst e; rw [← hc]; exact get_split W
    obtain ⟨h', es', q, o', a', ef, vv⟩ := insertRange_step ho vs W.wf (W.holds b hb) (ha b hb)
    rw [hc] at q
    obtain ⟨N, X⟩ := insertRange_points lt keyOf c vs q
    refine ⟨N, h', ?_, ?_⟩
    · have := one0 A b B b.ok es' h' e o' a' ef
      rw [vv, hc] at this
      simp only [spec, g]; exact this
    · have Y := Points.seq_pure (g := fun _ => St.objs (bs.map Box.cont)) X
      have e1 : (spec lt keyOf (bs.map Box.cont) h.next (.base (.insertRange c vs))).objs = St.objs (bs.map Box.cont) := put_objs _ _ _ _
      rw [e1]
      refine Y.imp fun k t l ⟨i, h1, j, li, q1, qt⟩ => ?_
      obtain ⟨h1', es1, q1', o1, a1, f1, v1⟩ := insertRange_step ho (vs.take i) W.wf (W.holds b hb) (ha b hb)
      rw [hc, q1] at q1'; cases q1'
      subst qt
      refine ⟨_, 0, ⟨⟨i, li, rfl⟩, rfl⟩, ?_⟩
      have := one0 A b B b.ok es1 (h1.tick j) e (o1.tick j) a1 (f1.trans W.wf (Effect.tick f1.wf _ j))
      rw [v1, hc] at this
      rw [g]; exact this
  | erase c k =>
    obtain ⟨A, b, B, e, hc⟩ := box_at (hargs c (by simp [Call.args]))
    have hb : b ∈ bs := by rw [e]; simp
    have g : St.get (bs.map Box.cont) c = b.cont := by subst e; rw [← hc]; exact get_split W
    have hok : b.ok = true := by have := her c k rfl; rw [g] at this; exact this
    have hh := W.holds b hb
    have hh0 := hh
    rw [hok] at hh
    have e1 : ∀ ok vals, (St.put (bs.map Box.cont) c ok vals).objs = St.objs (bs.map Box.cont) := put_objs _ _
    obtain ⟨h', _, _, hcase⟩ := erase_owns ho W.wf hh.owns (ha b hb) k
    have fin : ∀ r es', Rb.erase lt keyOf b.hd k h = .ok (r, h') → Owns h' b.hd es' → Ascending lt keyOf es' → Effect (cells b.hd b.es) (cells b.hd es') h h' →
        es'.map Prod.snd = (b.es.map Prod.snd).filter (fun x => !decide (keyOf x = k)) →
        ∃ N h', Inv lt keyOf (spec lt keyOf (bs.map Box.cont) h.next (.base (.erase c k))) L.length h' ∧
          Points (exec lt keyOf (St.objs (bs.map Box.cont)) (.base (.erase c k))) h N (spec lt keyOf (bs.map Box.cont) h.next (.base (.erase c k))).objs h' fun i t =>
            ∃ S' m, Interrupted lt keyOf (bs.map Box.cont) i (.base (.erase c k)) S' m ∧ Inv lt keyOf S' (L.length + m) t := by
      intro r es' q o' a' ef vv
      obtain ⟨tr, rt, _, it, dt⟩ := hh
      obtain ⟨N, X⟩ := (covers_erase lt keyOf b.hd k).points q (throws_erase lt keyOf rt W.null k)
      refine ⟨N, h', ?_, ?_⟩
      · have := one0 A b B true es' h' e (.of_owns o') a' ef
        rw [vv, hc] at this
        simp only [spec, g]; exact this
      · rw [hc] at X
        have Y := Points.seq_pure (g := fun _ => St.objs (bs.map Box.cont)) X
        simp only [spec]
        rw [e1]
        refine Y.imp fun i t l ⟨tr', r', i', c', u⟩ => ⟨_, 0, ⟨rfl, rfl⟩, ?_⟩
        rw [it] at i' u
        have o2 : Holds false t b.hd b.es := ⟨tr', by rw [hc]; exact r', fun q => (by cases q), i', fun x hx => by rw [u.data]; exact dt x hx⟩
        have lv : ∀ x ∈ cells b.hd b.es, x ∈ c :: b.es.map Prod.fst := by intro x hx; rw [← hc]; exact hx
        have ef2 : Effect (cells b.hd b.es) (cells b.hd b.es) h t := by
          refine ⟨fun x hx _ => ?_, fun x hx hx' => absurd hx hx', fun x hx hx' => absurd hx hx', ⟨by rw [u.next]; exact W.wf.pos, fun x hx => ?_⟩, by rw [u.next]; exact Nat.le_refl _⟩
          · rw [u.data]
            exact ⟨u.node x fun q => hx (by rw [← hc] at q; exact q), rfl⟩
          · rw [u.next] at hx
            have un := W.wf.unused x hx
            have lx := u.live x
            rw [un.1] at lx
            rw [u.data]
            exact ⟨by simpa using lx, un.2⟩
        have := one0 A b B false b.es t e o2 (ha b hb) ef2
        rw [hc] at this
        rw [g]; exact this
    rcases hcase with ⟨hno, q, o', ef⟩ | ⟨A', x, B', e', hk, q, o', ef⟩
    · refine fin _ b.es q o' (ha b hb) ef (List.filter_eq_self.2 fun x hx => ?_).symm
      obtain ⟨y, hy, rfl⟩ := List.mem_map.1 hx
      simpa using hno y hy
    · refine fin _ _ q o' ?_ ef ?_
      · have := ha b hb
        rw [e'] at this
        exact this.sublist (List.Sublist.append (List.Sublist.refl A') (List.sublist_cons_self x B'))
      · have := ha b hb
        rw [e'] at this ⊢
        rw [← filter_erased ho this, hk]
  | clear c =>
    obtain ⟨A, b, B, e, hc⟩ := box_at (hargs c (by simp [Call.args]))
    have hb : b ∈ bs := by rw [e]; simp
    obtain ⟨h', q, o', ef, _⟩ := clear_holds W.wf (W.holds b hb)
    refine ⟨0, h', ?_, ?_⟩
    · have := one0 A b B true [] h' e o' List.Pairwise.nil ef
      rw [hc] at this; exact this
    · have e1 : (spec lt keyOf (bs.map Box.cont) h.next (.base (.clear c))).objs = St.objs (bs.map Box.cont) := put_objs _ _ _ _
      rw [e1]
      rw [hc] at q
      exact Points.call_ (by simp only [Rb.call, Prog.bind_app, q, Res.bind_ok, Prog.pure_app])
  | store c v =>
    obtain ⟨A, b, B, e, hc⟩ := box_at (hargs c (by simp [Call.args]))
    have hb : b ∈ bs := by rw [e]; simp
    have g : St.get (bs.map Box.cont) c = b.cont := by subst e; rw [← hc]; exact get_split W
    have e1 : (spec lt keyOf (bs.map Box.cont) h.next (.base (.store c v))).objs = St.objs (bs.map Box.cont) := put_objs _ _ _ _
    rw [e1]
    have o := W.holds b hb
    obtain ⟨j, q⟩ := find_holds ho o (ha b hb) (keyOf v)
    rw [hc] at q
    obtain ⟨N, X⟩ := (covers_find lt keyOf c (keyOf v)).points q ((quiet_find lt keyOf c _).throws h)
    cases hf : b.es.find? (fun e => decide (keyOf e.2 = keyOf v)) with
    | none =>
      rw [hf] at X
      simp only [Option.map_none, Option.getD_none] at X
      refine ⟨N, h.tick j, ?_, ?_⟩
      · have := one0 A b B b.ok b.es (h.tick j) e (o.tick j) (ha b hb) (Effect.tick W.wf _ j)
        rw [hc] at this
        simp only [spec, g]
        have e2 : (b.cont.vals.map fun x => if keyOf x = keyOf v then v else x) = b.es.map Prod.snd := by
          show (b.es.map Prod.snd).map _ = _
          refine (List.map_congr_left fun x hx => ?_).trans (List.map_id _)
          obtain ⟨y, hy, rfl⟩ := List.mem_map.1 hx
          rw [List.find?_eq_none] at hf
          have := hf y hy
          simp only [decide_eq_true_eq] at this
          simp [this]
        rw [e2]; exact this
      · refine Points.seq (m := 0) (X.imp fun k t l ⟨i, q⟩ => ?_) ?_
        · rw [q]; exact same i
        · simp only [if_true]; exact Points.pure_
    | some x =>
      rw [hf] at X
      simp only [Option.map_some, Option.getD_some] at X
      have hx := List.mem_of_find?_eq_some hf
      have hk := List.find?_some hf
      simp only [decide_eq_true_eq] at hk
      obtain ⟨A1, B1, e3⟩ := List.append_of_mem hx
      have o0 := o
      have hab := ha b hb
      rw [e3] at o hab
      have hne : x.1 ≠ c := by
        have := o.cells_nodup
        simp only [cells, List.nodup_cons] at this
        rw [← hc]
        exact fun q => this.1 (q ▸ List.mem_map_of_mem (by simp))
      obtain ⟨h', q', o', ef, _, _⟩ := storeData_holds (W.wf.tick j) (o.tick j) v
      refine ⟨N + 1, h', ?_, ?_⟩
      · have a' : Ascending lt keyOf (A1 ++ (x.1, v) :: B1) := by
          simp only [Ascending, List.pairwise_append, List.pairwise_cons, List.mem_cons] at hab ⊢
          grind
        have := one0 A b B b.ok _ h' e o' a' (by rw [e3]; exact ef.of_tick)
        rw [hc] at this
        simp only [spec, g]
        have e2 : (b.cont.vals.map fun x => if keyOf x = keyOf v then v else x) = (A1 ++ (x.1, v) :: B1).map Prod.snd := by
          have irr : ∀ k, lt k k = false := ho.irrefl
          show (b.es.map Prod.snd).map _ = _
          simp only [Ascending, List.pairwise_append, List.pairwise_cons, List.mem_cons] at hab
          rw [e3]
          simp only [List.map_append, List.map_cons, hk, if_true]
          congr 1
          · refine (List.map_congr_left fun y hy => ?_).trans (List.map_id _)
            obtain ⟨z, hz, rfl⟩ := List.mem_map.1 hy
            have := hab.2.2 z hz x (.inl rfl)
            rw [if_neg]; · rfl
            intro q; rw [hk, q, irr] at this; cases this
          · congr 1
            refine (List.map_congr_left fun y hy => ?_).trans (List.map_id _)
            obtain ⟨z, hz, rfl⟩ := List.mem_map.1 hy
            have := hab.2.1.1 z hz
            rw [if_neg]; · rfl
            intro q; rw [hk, q, irr] at this; cases this
        rw [e2]; exact this
      · refine Points.seq (m := 1) (X.imp fun k t l ⟨i, q⟩ => ?_) ?_
        · rw [q]; exact same i
        · simp only [if_neg hne]
          exact Points.seq (n := 1) (m := 0) (Points.point_ (same j)) (Points.call_seq (a := ()) (s' := h') q' Points.pure_)
  | find c k =>
    obtain ⟨A, b, B, e, hc⟩ := box_at (hargs c (by simp [Call.args]))
    have hb : b ∈ bs := by rw [e]; simp
    obtain ⟨j, q⟩ := find_holds ho (W.holds b hb) (ha b hb) k
    rw [hc] at q
    obtain ⟨N, X⟩ := (covers_find lt keyOf c k).points q ((quiet_find lt keyOf c k).throws h)
    refine ⟨N, h.tick j, ⟨bs, L, W.tick j, rfl, rfl, ha⟩, ?_⟩
    exact (Points.seq_pure (g := fun _ => St.objs (bs.map Box.cont)) X).imp fun k t l ⟨i, q⟩ => by rw [q]; exact same i
  | lower c k =>
    obtain ⟨A, b, B, e, hc⟩ := box_at (hargs c (by simp [Call.args]))
    have hb : b ∈ bs := by rw [e]; simp
    obtain ⟨j, q⟩ := lowerBound_holds ho.toStrictWeak (W.holds b hb) ((ha b hb).weak ho) k
    rw [hc] at q
    obtain ⟨N, X⟩ := (covers_lowerBound lt keyOf c k).points q ((quiet_lowerBound lt keyOf c k).throws h)
    refine ⟨N, h.tick j, ⟨bs, L, W.tick j, rfl, rfl, ha⟩, ?_⟩
    exact (Points.seq_pure (g := fun _ => St.objs (bs.map Box.cont)) X).imp fun k t l ⟨i, q⟩ => by rw [q]; exact same i

end Keyed
end Verif.Exc.XRb
