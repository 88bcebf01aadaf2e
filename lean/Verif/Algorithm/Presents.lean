import Verif.Algorithm.GenericProps3
/-!
# Sequences a client can hand to the algorithms

`Presents I pos xs h Ok`: in the memory `h` the iterators `pos 0 … pos xs.length` (of type `I`) are `begin() … end()` of a sequence with the
values `xs`; whatever values `ys` (equally many) are assigned through the iterators, the resulting memory satisfies `Ok ys`. For a container,
`Ok ys h'` says that `h'` is again a memory a client program can have, in which the container has the elements `ys` and all other containers
are as before. That the containers present their contents in this sense is proved in `OnLists.lean`, `OnArrays.lean`.
-/
set_option linter.unusedVariables false
set_option linter.unusedSimpArgs false
set_option linter.unusedSectionVars false
namespace Verif.Gen
open Verif
variable {σ σ' ι κ ω T U V δ : Type}

/-- A sequence reached through forward iterators. -/
def Presents (I : WIter σ ι T) (pos : Nat → ι) (xs : List T) (h : σ) (Ok : List T → σ → Prop) : Prop :=
  ∃ mem, Window I pos xs.length mem ∧ mem xs = h ∧ ∀ ys, ys.length = xs.length → Ok ys (mem ys)

/-- A sequence reached through bidirectional iterators. -/
def BiPresents (I : WIter σ ι T) (pos : Nat → ι) (xs : List T) (h : σ) (Ok : List T → σ → Prop) : Prop :=
  ∃ mem, BiWindow I pos xs.length mem ∧ mem xs = h ∧ ∀ ys, ys.length = xs.length → Ok ys (mem ys)

/-- Two sequences without common objects. -/
def Presents2 (I : WIter σ ι T) (pos : Nat → ι) (xs : List T) (J : WIter σ κ U) (pos' : Nat → κ) (ys : List U) (h : σ)
    (Ok : List T → List U → σ → Prop) : Prop :=
  ∃ mem, Window2 I pos xs.length J pos' ys.length mem ∧ mem xs ys = h ∧
    ∀ xs' ys', xs'.length = xs.length → ys'.length = ys.length → Ok xs' ys' (mem xs' ys')

/-- Two sequences without common objects, both with bidirectional iterators. -/
def BiPresents2 (I : WIter σ ι T) (pos : Nat → ι) (xs : List T) (J : WIter σ κ U) (pos' : Nat → κ) (ys : List U) (h : σ)
    (Ok : List T → List U → σ → Prop) : Prop :=
  ∃ mem : List T → List U → σ, (∀ zs, zs.length = ys.length → BiWindow I pos xs.length (fun xs => mem xs zs)) ∧ (∀ zs, zs.length = xs.length → BiWindow J pos' ys.length (mem zs)) ∧
    mem xs ys = h ∧ ∀ xs' ys', xs'.length = xs.length → ys'.length = ys.length → Ok xs' ys' (mem xs' ys')

section
variable {I : WIter σ ι T} {pos : Nat → ι} {xs : List T} {h : σ} {Ok : List T → σ → Prop}

theorem BiPresents.forward (P : BiPresents I pos xs h Ok) : Presents I pos xs h Ok := by
  obtain ⟨mem, W, e, ok⟩ := P
  exact ⟨mem, W.toWindow, e, ok⟩

/-- Part of a sequence. -/
theorem Presents.slice {A M B : List T} (P : Presents I pos (A ++ M ++ B) h Ok) :
    Presents I (fun i => pos (A.length + i)) M h (fun ys h' => Ok (A ++ ys ++ B) h') := by
  obtain ⟨mem, W, e, ok⟩ := P
  exact ⟨_, W.slice A B M.length (by simp [Nat.add_assoc]), e, fun ys hy => ok _ (by simp [hy])⟩

theorem BiPresents.slice {A M B : List T} (P : BiPresents I pos (A ++ M ++ B) h Ok) :
    BiPresents I (fun i => pos (A.length + i)) M h (fun ys h' => Ok (A ++ ys ++ B) h') := by
  obtain ⟨mem, W, e, ok⟩ := P
  exact ⟨_, W.slice A B M.length (by simp [Nat.add_assoc]), e, fun ys hy => ok _ (by simp [hy])⟩

theorem Presents2.slice {J : WIter σ κ U} {pos' : Nat → κ} {A M B : List T} {C N D : List U} {Ok : List T → List U → σ → Prop}
    (P : Presents2 I pos (A ++ M ++ B) J pos' (C ++ N ++ D) h Ok) :
    Presents2 I (fun i => pos (A.length + i)) M J (fun i => pos' (C.length + i)) N h (fun xs ys h' => Ok (A ++ xs ++ B) (C ++ ys ++ D) h') := by
  obtain ⟨mem, W, e, ok⟩ := P
  refine ⟨fun xs ys => mem (A ++ xs ++ B) (C ++ ys ++ D), ⟨fun ys hy => ?_, fun xs hx => ?_⟩, e, fun xs ys hx hy => ok _ _ (by simp [hx]) (by simp [hy])⟩
  · exact (W.left (C ++ ys ++ D) (by simp [hy])).slice A B M.length (by simp [Nat.add_assoc])
  · exact (W.right (A ++ xs ++ B) (by simp [hx])).slice C D N.length (by simp [Nat.add_assoc])

theorem Presents.weaken {Ok' : List T → σ → Prop} (P : Presents I pos xs h Ok) (w : ∀ ys h', Ok ys h' → Ok' ys h') : Presents I pos xs h Ok' := by
  obtain ⟨mem, W, e, ok⟩ := P
  exact ⟨mem, W, e, fun ys hy => w _ _ (ok ys hy)⟩

/-- A presented sequence is a valid range for all the algorithms that only read. -/
theorem Presents.range (P : Presents I pos xs h Ok) : Iter.Range I.toIter h (pos 0) xs (pos xs.length) := by
  obtain ⟨mem, W, rfl, ok⟩ := P
  exact W.range xs [] (by simp)

variable [DecidableEq ι]

theorem Presents.fill (P : Presents I pos xs h Ok) (v : T) :
    ∃ h', fill I (pos 0) (pos xs.length) v h = .ok ((), h') ∧ Ok (List.replicate xs.length v) h' := by
  obtain ⟨mem, W, rfl, ok⟩ := P
  exact ⟨_, fill_any W rfl v, ok _ (by simp)⟩

theorem Presents.fill_n (P : Presents I pos xs h Ok) (v : T) (k : Nat) (hk : k ≤ xs.length) :
    ∃ h', fillN I (pos 0) k v h = .ok (pos k, h') ∧ Ok (List.replicate k v ++ xs.drop k) h' := by
  obtain ⟨mem, W, rfl, ok⟩ := P
  exact ⟨_, by simpa using fill_n_any W rfl v k (by omega), ok _ (by simp; omega)⟩

theorem Presents.generate (P : Presents I pos xs h Ok) (g : Fn δ Unit T) (d : δ) :
    ∃ h', generate I g (pos 0) (pos xs.length) d h = .ok ((genS g d xs.length).2, h') ∧ Ok (genS g d xs.length).1 h' := by
  obtain ⟨mem, W, rfl, ok⟩ := P
  have : ∀ k d, (genS g d k).1.length = k := by intro k; induction k with | zero => intro d; rfl | succ k ih => intro d; simp [genS, ih]
  exact ⟨_, generate_any W rfl g d, ok _ (this _ _)⟩

theorem Presents.iota (P : Presents I pos xs h Ok) (succ : T → T) (v : T) :
    ∃ h', iota I succ (pos 0) (pos xs.length) v h = .ok ((), h') ∧ Ok (Algo.iotaSeq succ xs.length v) h' := by
  obtain ⟨mem, W, rfl, ok⟩ := P
  have : ∀ k v, (Algo.iotaSeq succ k v).length = k := by intro k; induction k with | zero => intro v; rfl | succ k ih => intro v; simp [Algo.iotaSeq, ih]
  exact ⟨_, iota_any W rfl succ v, ok _ (this _ _)⟩

theorem Presents.replace_if (P : Presents I pos xs h Ok) (p : Fn δ T Bool) (v : T) (d : δ) :
    ∃ h', replaceIf I p v (pos 0) (pos xs.length) d h = .ok ((mapS (replS p v) d xs).2, h') ∧ Ok (mapS (replS p v) d xs).1 h' := by
  obtain ⟨mem, W, rfl, ok⟩ := P
  exact ⟨_, replace_if_any W rfl p v d, ok _ (mapS_length _ _ _)⟩

theorem Presents.transform (P : Presents I pos xs h Ok) (op : Fn δ T T) (d : δ) :
    ∃ h', transform I.toIter I op (pos 0) (pos xs.length) (pos 0) d h = .ok ((pos xs.length, (mapS op d xs).2), h') ∧ Ok (mapS op d xs).1 h' := by
  obtain ⟨mem, W, rfl, ok⟩ := P
  exact ⟨_, transform_in_place W rfl op d, ok _ (mapS_length _ _ _)⟩

theorem Presents.remove_if (P : Presents I pos xs h Ok) (residue : T → T) (p : Fn δ T Bool) (d : δ) :
    ∃ h' J, removeIf I residue p (pos 0) (pos xs.length) d h = .ok ((pos (filterS (notS p) d xs).1.length, (filterS (notS p) d xs).2), h') ∧
      ((filterS (notS p) d xs).1 ++ J).length = xs.length ∧ Ok ((filterS (notS p) d xs).1 ++ J) h' := by
  obtain ⟨mem, W, rfl, ok⟩ := P
  obtain ⟨J, e, hl⟩ := remove_if_any W rfl residue p d
  exact ⟨_, J, e, hl, ok _ hl⟩

theorem BiPresents.reverse (P : BiPresents I pos xs h Ok) :
    ∃ h', reverse I (pos 0) (pos xs.length) h = .ok ((), h') ∧ Ok xs.reverse h' := by
  obtain ⟨mem, W, rfl, ok⟩ := P
  exact ⟨_, reverse_any W rfl, ok _ (by simp)⟩
end

section
variable [DecidableEq ι] {I : WIter σ ι T} {pos : Nat → ι} {xs : List T} {h : σ} {pos' : Nat → κ}

theorem Presents2.transform {J : WIter σ κ U} {ys : List U} {Ok : List T → List U → σ → Prop} (P : Presents2 I pos xs J pos' ys h Ok)
    (hn : xs.length ≤ ys.length) (op : Fn δ T U) (d : δ) :
    ∃ h', Gen.transform I.toIter J op (pos 0) (pos xs.length) (pos' 0) d h = .ok ((pos' xs.length, (mapS op d xs).2), h') ∧
      Ok xs ((mapS op d xs).1 ++ ys.drop xs.length) h' := by
  obtain ⟨mem, W, rfl, ok⟩ := P
  exact ⟨_, transform_any W rfl rfl op d hn, ok _ _ rfl (by simp [mapS_length]; omega)⟩

variable {J : WIter σ κ T} {ys : List T} {Ok : List T → List T → σ → Prop}

theorem Presents2.copy (P : Presents2 I pos xs J pos' ys h Ok) (hn : xs.length ≤ ys.length) :
    ∃ h', Gen.copy I.toIter J (pos 0) (pos xs.length) (pos' 0) h = .ok (pos' xs.length, h') ∧ Ok xs (xs ++ ys.drop xs.length) h' := by
  obtain ⟨mem, W, rfl, ok⟩ := P
  exact ⟨_, copy_any W rfl rfl hn, ok _ _ rfl (by simp; omega)⟩

theorem Presents2.copy_n (P : Presents2 I pos xs J pos' ys h Ok) (k : Nat) (hk : k ≤ xs.length) (hk' : k ≤ ys.length) :
    ∃ h', copyN I.toIter J (pos 0) k (pos' 0) h = .ok (pos' k, h') ∧ Ok xs (xs.take k ++ ys.drop k) h' := by
  obtain ⟨mem, W, rfl, ok⟩ := P
  exact ⟨_, by simpa using copy_n_any W rfl rfl k (by omega) (by omega), ok _ _ rfl (by simp; omega)⟩

theorem Presents2.copy_if (P : Presents2 I pos xs J pos' ys h Ok) (p : Fn δ T Bool) (d : δ) (hn : (filterS p d xs).1.length ≤ ys.length) :
    ∃ h', copyIf I.toIter J p (pos 0) (pos xs.length) (pos' 0) d h = .ok ((pos' (filterS p d xs).1.length, (filterS p d xs).2), h') ∧
      Ok xs ((filterS p d xs).1 ++ ys.drop (filterS p d xs).1.length) h' := by
  obtain ⟨mem, W, rfl, ok⟩ := P
  exact ⟨_, copy_if_any W rfl rfl p d hn, ok _ _ rfl (by simp; omega)⟩

theorem Presents2.remove_copy_if (P : Presents2 I pos xs J pos' ys h Ok) (p : Fn δ T Bool) (d : δ) (hn : (filterS (notS p) d xs).1.length ≤ ys.length) :
    ∃ h', removeCopyIf I.toIter J p (pos 0) (pos xs.length) (pos' 0) d h = .ok ((pos' (filterS (notS p) d xs).1.length, (filterS (notS p) d xs).2), h') ∧
      Ok xs ((filterS (notS p) d xs).1 ++ ys.drop (filterS (notS p) d xs).1.length) h' := by
  obtain ⟨mem, W, rfl, ok⟩ := P
  exact ⟨_, remove_copy_if_any W rfl rfl p d hn, ok _ _ rfl (by simp; omega)⟩

theorem Presents2.replace_copy_if (P : Presents2 I pos xs J pos' ys h Ok) (hn : xs.length ≤ ys.length) (p : Fn δ T Bool) (v : T) (d : δ) :
    ∃ h', replaceCopyIf I.toIter J p v (pos 0) (pos xs.length) (pos' 0) d h = .ok ((pos' xs.length, (mapS (replS p v) d xs).2), h') ∧
      Ok xs ((mapS (replS p v) d xs).1 ++ ys.drop xs.length) h' := by
  obtain ⟨mem, W, rfl, ok⟩ := P
  exact ⟨_, replace_copy_if_any W rfl rfl p v d hn, ok _ _ rfl (by simp [mapS_length]; omega)⟩

theorem Presents2.swap_ranges (P : Presents2 I pos xs J pos' ys h Ok) (hn : xs.length ≤ ys.length) :
    ∃ h', swapRanges I J (pos 0) (pos xs.length) (pos' 0) h = .ok (pos' xs.length, h') ∧ Ok (ys.take xs.length) (xs ++ ys.drop xs.length) h' := by
  obtain ⟨mem, W, rfl, ok⟩ := P
  have := swap_ranges_any W (xs := xs) (ys := ys.take xs.length) (zs := ys.drop xs.length) rfl (by simp) (by simp; omega)
  rw [List.take_append_drop] at this
  exact ⟨_, this, ok _ _ (by simp; omega) (by simp; omega)⟩

theorem BiPresents2.reverse_copy (P : BiPresents2 I pos xs J pos' ys h Ok) (hn : xs.length ≤ ys.length) :
    ∃ h', reverseCopy I J (pos 0) (pos xs.length) (pos' 0) h = .ok (pos' xs.length, h') ∧ Ok xs (xs.reverse ++ ys.drop xs.length) h' := by
  obtain ⟨mem, W, W', rfl, ok⟩ := P
  exact ⟨_, reverse_copy_any W (fun xs hx => (W' xs hx).toWindow) rfl rfl hn, ok _ _ rfl (by simp; omega)⟩

theorem BiPresents2.copy_backward (P : BiPresents2 I pos xs J pos' ys h Ok) (hn : xs.length ≤ ys.length) :
    ∃ h', copyBackward I J (pos 0) (pos xs.length) (pos' ys.length) h = .ok (pos' (ys.length - xs.length), h') ∧
      Ok xs (ys.take (ys.length - xs.length) ++ xs) h' := by
  obtain ⟨mem, W, W', rfl, ok⟩ := P
  exact ⟨_, copy_backward_any W W' rfl rfl hn, ok _ _ rfl (by simp; omega)⟩
end

/-! ## Containers of different kinds: two memories side by side -/

/-- Run in the first part of the memory. -/
def inFst {A : Type} (p : Prog σ A) : Prog (σ × σ') A := fun s =>
  match p s.1 with
  | .ok (a, h) => .ok (a, (h, s.2))
  | .ub f => .ub f
  | .diverge => .diverge
/-- Run in the second part of the memory. -/
def inSnd {A : Type} (p : Prog σ' A) : Prog (σ × σ') A := fun s =>
  match p s.2 with
  | .ok (a, h) => .ok (a, (s.1, h))
  | .ub f => .ub f
  | .diverge => .diverge

/-- Iterators into the first part of the memory. -/
def WIter.fst (I : WIter σ ι T) : WIter (σ × σ') ι T where
  deref i := inFst (I.deref i)
  next i := inFst (I.next i)
  assign i v := inFst (I.assign i v)
  prev i := inFst (I.prev i)
/-- Iterators into the second part of the memory. -/
def WIter.snd (J : WIter σ' κ U) : WIter (σ × σ') κ U where
  deref i := inSnd (J.deref i)
  next i := inSnd (J.next i)
  assign i v := inSnd (J.assign i v)
  prev i := inSnd (J.prev i)

theorem Window.fst {I : WIter σ ι T} {pos : Nat → ι} {n : Nat} {mem : List T → σ} (W : Window I pos n mem) (k : σ') :
    Window I.fst pos n (fun xs => (mem xs, k)) :=
  ⟨W.inj, fun xs hx i x e => by simp [WIter.fst, inFst, W.deref xs hx i x e], fun xs hx i hi v => by simp [WIter.fst, inFst, W.assign xs hx i hi v],
    fun xs hx i hi => by simp [WIter.fst, inFst, W.next xs hx i hi]⟩

theorem Window.snd {J : WIter σ' κ U} {pos : Nat → κ} {n : Nat} {mem : List U → σ'} (W : Window J pos n mem) (k : σ) :
    Window J.snd pos n (fun xs => (k, mem xs)) :=
  ⟨W.inj, fun xs hx i x e => by simp [WIter.snd, inSnd, W.deref xs hx i x e], fun xs hx i hi v => by simp [WIter.snd, inSnd, W.assign xs hx i hi v],
    fun xs hx i hi => by simp [WIter.snd, inSnd, W.next xs hx i hi]⟩

theorem BiWindow.fst {I : WIter σ ι T} {pos : Nat → ι} {n : Nat} {mem : List T → σ} (W : BiWindow I pos n mem) (k : σ') :
    BiWindow I.fst pos n (fun xs => (mem xs, k)) :=
  ⟨W.toWindow.fst k, fun xs hx i hi => by simp [WIter.fst, inFst, W.prev xs hx i hi]⟩

theorem BiWindow.snd {J : WIter σ' κ U} {pos : Nat → κ} {n : Nat} {mem : List U → σ'} (W : BiWindow J pos n mem) (k : σ) :
    BiWindow J.snd pos n (fun xs => (k, mem xs)) :=
  ⟨W.toWindow.snd k, fun xs hx i hi => by simp [WIter.snd, inSnd, W.prev xs hx i hi]⟩

/-- A sequence in one memory and a sequence in another. -/
theorem Presents.both {I : WIter σ ι T} {pos : Nat → ι} {xs : List T} {h : σ} {Ok : List T → σ → Prop} {J : WIter σ' κ U} {pos' : Nat → κ}
    {ys : List U} {k : σ'} {Ok' : List U → σ' → Prop} (P : Presents I pos xs h Ok) (Q : Presents J pos' ys k Ok') :
    Presents2 I.fst pos xs J.snd pos' ys (h, k) (fun xs' ys' s => Ok xs' s.1 ∧ Ok' ys' s.2) := by
  obtain ⟨m, W, e, ok⟩ := P
  obtain ⟨m', W', e', ok'⟩ := Q
  exact ⟨fun xs ys => (m xs, m' ys), ⟨fun ys _ => W.fst _, fun xs _ => W'.snd _⟩, by simp only [e, e'], fun xs' ys' h1 h2 => ⟨ok _ h1, ok' _ h2⟩⟩

theorem BiPresents.both {I : WIter σ ι T} {pos : Nat → ι} {xs : List T} {h : σ} {Ok : List T → σ → Prop} {J : WIter σ' κ U} {pos' : Nat → κ}
    {ys : List U} {k : σ'} {Ok' : List U → σ' → Prop} (P : BiPresents I pos xs h Ok) (Q : BiPresents J pos' ys k Ok') :
    BiPresents2 I.fst pos xs J.snd pos' ys (h, k) (fun xs' ys' s => Ok xs' s.1 ∧ Ok' ys' s.2) := by
  obtain ⟨m, W, e, ok⟩ := P
  obtain ⟨m', W', e', ok'⟩ := Q
  exact ⟨fun xs ys => (m xs, m' ys), fun ys _ => W.fst _, fun xs _ => W'.snd _, by simp only [e, e'], fun xs' ys' h1 h2 => ⟨ok _ h1, ok' _ h2⟩⟩

end Verif.Gen
