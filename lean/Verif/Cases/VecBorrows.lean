import Verif.Props.VecBorrows
/-! # C103: concrete programs -/
set_option autoImplicit false
namespace Verif.VecBorrows
open Verif.Borrows

instance (s : St) (k : Nat) : Decidable (s.Usable k) :=
  match h : s.vecs[k]? with
  | none => .isFalse (fun ⟨v, hv, _⟩ => by rw [h] at hv; cases hv)
  | some v => decidable_of_iff (v.alive = true ∧ ∀ u ∈ s.vecs, u.alive = true → k ∉ u.from_)
      ⟨fun h' => ⟨v, h, h'⟩, fun ⟨v', hv, h'⟩ => by rw [h] at hv; cases hv; exact h'⟩

instance (s : St) (k : Nat) (P : Vec → Prop) [DecidablePred P] : Decidable (∀ v, s.vecs[k]? = some v → P v) :=
  match h : s.vecs[k]? with
  | none => .isTrue (fun v hv => by cases hv)
  | some v => decidable_of_iff (P v) ⟨fun h' u hu => by cases hu; exact h', fun h' => h' v rfl⟩

instance (s : St) (k : Nat) : Decidable (s.Draining k) :=
  match h : s.vecs[k]? with
  | none => .isFalse (fun ⟨_, v, _, hv, _⟩ => by rw [h] at hv; cases hv)
  | some v => decidable_of_iff (s.Usable k ∧ v.drain.isSome = true)
      ⟨fun ⟨h1, h2⟩ => ⟨h1, v, v.drain.get h2, h, by simp⟩, fun ⟨h1, v', d, hv, hd⟩ => ⟨h1, by rw [h] at hv; cases hv; rw [hd]; rfl⟩⟩

instance (s : St) (k : Nat) : Decidable (s.Free k) := by unfold St.Free; infer_instance

instance (s : St) (a : Act) : Decidable (Permitted s a) := by
  cases a <;> unfold Permitted <;> infer_instance

/-- Runs a program as long as each action is permitted. -/
def checked (sz : Nat) (s : St) : List Act → Option St
  | [] => some s
  | a :: as => if Permitted s a then (step sz s a).bind (fun s' => checked sz s' as) else none

theorem checked_reach {sz : Nat} {s₀ : St} : ∀ (as : List Act) (s s' : St), Reach sz s₀ s → checked sz s as = some s' → Reach sz s₀ s'
  | [], s, s', h, e => by cases e; exact h
  | a :: as, s, s', h, e => by
    unfold checked at e
    by_cases hp : Permitted s a
    · rw [if_pos hp] at e
      cases hs : step sz s a with
      | none => rw [hs] at e; cases e
      | some s1 => rw [hs] at e; exact checked_reach as s1 s' (h.step hp hs) e
    · rw [if_neg hp] at e; cases e

/-- Memory of a local `[MaybeUninit<u16>; 4]` (tag 0) at address 10, with an `Uninit` made from a `&mut` to it (tag 1). -/
def exMem : Mem := ⟨fun b => if 10 ≤ b ∧ b < 18 then [⟨1, .sharedRW⟩, ⟨0, .unique⟩] else [], 2⟩
def exStart : St := ⟨exMem, [⟨⟨⟨1, 10⟩, 4⟩, 0, true, [], none⟩], [], []⟩

theorem exStart_start : Start 2 exStart := by
  refine ⟨⟨⟨⟨1, 10⟩, 4⟩, rfl, ?_, by decide⟩, ?_, ?_, rfl, rfl⟩
  · intro b h1 h2
    have h1' : 10 ≤ b := h1
    have h2' : b < 18 := h2
    exact ⟨.sharedRW, [⟨0, .unique⟩], if_pos ⟨h1', h2'⟩, rfl⟩
  · intro b
    change List.Pairwise _ (if 10 ≤ b ∧ b < 18 then _ else _)
    split
    · decide
    · exact List.Pairwise.nil
  · intro b i hi
    change i ∈ (if 10 ≤ b ∧ b < 18 then _ else _) at hi
    change i.tag < 2
    split at hi
    · rcases List.mem_cons.1 hi with rfl | hi
      · decide
      · rw [List.mem_singleton.1 hi]; decide
    · cases hi

/-- A program: fills the vector, splits it, has references to both halves at once, drains, uses the raw pointer beyond the length. -/
def exProg : List Act :=
  [.asMutPtr 0, .push 0, .fill 0 2, .pop 0, .push 0, .splitShrink 0 2, .asMutSlice 0,
   .reborrow ⟨4, true, 10, 14, 0, []⟩ true 10 12, .push 1, .use ⟨5, true, 10, 12, 0, [4]⟩ .write 10 12, .use ⟨4, true, 10, 14, 0, []⟩ .read 10 14,
   .asSlice 1, .asSlice 1, .useRaw ⟨⟨1, 10⟩, 8⟩ .read 10 18, .splitBorrowed 0 1, .drop 2, .drain 1 0 1, .drainSlice 1 true, .drainNext 1, .drainDrop 1 5, .truncate 1 0 7,
   .useRaw ⟨⟨1, 10⟩, 8⟩ .write 10 18]

theorem exProg_runs : ((checked 2 exStart exProg).map (fun s => (s.vecs.map Vec.length, s.refs, s.raws))) = some ([1, 0, 1], [], [⟨⟨1, 10⟩, 8⟩]) := by decide +kernel

/-- The state after the first `n` actions. -/
def exState (n : Nat) : St := (checked 2 exStart (exProg.take n)).getD exStart
theorem exState_some (n : Nat) (h : (checked 2 exStart (exProg.take n)).isSome = true) : checked 2 exStart (exProg.take n) = some (exState n) := by
  unfold exState
  cases e : checked 2 exStart (exProg.take n) with
  | none => rw [e] at h; cases h
  | some s => rfl
theorem exState_reach (n : Nat) (h : (checked 2 exStart (exProg.take n)).isSome = true) : Reach 2 exStart (exState n) :=
  checked_reach _ _ _ .refl (exState_some n h)

/-- C103_defined: pushing to the second vector while there are references to the first. -/
example : ∃ s', step 2 (exState 8) (.push 1) = some s' :=
  C103_defined exStart_start (exState_reach 8 (by decide +kernel)) (by decide +kernel)

/-- C103_refs_usable: and those can be used afterwards. -/
example : ∃ m, (exState 9).mem.access .write 5 10 12 = some m :=
  (C103_refs_usable exStart_start (exState_reach 9 (by decide +kernel)) (r := ⟨5, true, 10, 12, 0, [4]⟩) (by decide +kernel)).2 rfl

/-- C103_other_vectors -/
example {s' : St} (h : step 2 (exState 8) (.push 1) = some s') : (⟨5, true, 10, 12, 0, [4]⟩ : Ref) ∈ s'.refs :=
  C103_other_vectors rfl h (by decide +kernel) (by decide)

/-- C103_shared_refs: two slices of the same vector. -/
example {s' : St} (h : step 2 (exState 12) (.asSlice 1) = some s') : ∃ r ∈ s'.refs, r.mutable = false ∧ r ∈ (exState 12).refs := by
  have hr : (⟨7, false, 14, 18, 1, []⟩ : Ref) ∈ (exState 12).refs := by decide +kernel
  exact ⟨_, C103_shared_refs h hr rfl, rfl, hr⟩

/-- C103_as_mut_ptr: the pointer taken at the beginning is usable in the whole memory at the end. -/
example : ∃ m, (exState 22).mem.access .write 1 10 18 = some m := by
  have hs : step 2 exStart (.asMutPtr 0) = some (exState 1) := rfl
  have hr : Reach 2 (exState 1) (exState 22) := by
    have e : checked 2 (exState 1) ((exProg.take 22).drop 1) = some (exState 22) := rfl
    exact checked_reach _ _ _ .refl e
  exact C103_as_mut_ptr (k := 0) (v := ⟨⟨⟨1, 10⟩, 4⟩, 0, true, [], none⟩) exStart_start .refl rfl (by decide +kernel) hs hr .write (Nat.le_refl 10) (Nat.le_refl 18)

/-- C103_slice -/
example {s' : St} (h : step 2 (exState 6) (.asMutSlice 0) = some s') : ∃ r rest, s'.refs = r :: rest ∧ r.lo = 10 ∧ r.hi = 14 := by
  obtain ⟨r, rest, h1, _, _, h2, h3, _⟩ := C103_slice (k := 0) (v := ⟨⟨⟨1, 10⟩, 2⟩, 2, true, [], none⟩) rfl true h
  exact ⟨r, rest, h1, h2, h3⟩

/-- C103_lengths: a full vector (capacity 2) takes no more. -/
example {s' : St} (h : step 2 (exState 6) (.push 0) = some s') : ∃ v', s'.vecs[0]? = some v' ∧ v'.length = 2 := by
  obtain ⟨v', h1, _, h2⟩ := (C103_lengths (k := 0) (v := ⟨⟨⟨1, 10⟩, 2⟩, 2, true, [], none⟩) rfl (by decide) h).1 rfl
  exact ⟨v', h1, h2⟩

/-- C103_drain_length: of three elements, drain the middle one. -/
example {v' : Vec} {m m' : Mem} (h : drainDrop 2 ⟨⟨⟨1, 10⟩, 4⟩, 1, true, [], some ⟨0, 1, 1, 1, ⟨1, 12⟩⟩⟩ ⟨0, 1, 1, 1, ⟨1, 12⟩⟩ 1 m = some (v', m')) : v'.length = 2 := by
  obtain ⟨d, h1, _, h3, h4, h5, h6⟩ := C103_drain_length (sz := 2) (v := ⟨⟨⟨1, 10⟩, 4⟩, 3, true, [], none⟩) (a := 1) (b := 2) (by decide) (by decide)
  have hd : d = ⟨0, 1, 1, 1, ⟨1, 12⟩⟩ := by
    have : (drain 2 ⟨⟨⟨1, 10⟩, 4⟩, 3, true, [], none⟩ 1 2).drain = some ⟨0, 1, 1, 1, ⟨1, 12⟩⟩ := rfl
    rw [this] at h1; cases h1; rfl
  subst hd
  exact (h6 0 1 1 v' m m' (by decide) h).2.1 (by decide)

/-- The rules do reject wrong programs: a mutable reference to the elements used after the vector was popped … -/
example : (run 2 exStart [.push 0, .asMutSlice 0, .pop 0, .use ⟨3, true, 10, 12, 0, []⟩ .read 10 12]).isNone = true := by decide +kernel

/-- … and the bug fixed in version 0.2.2: if `as_mut_ptr` is that of the slice of the elements (by `DerefMut`), writing the next element with it is undefined. -/
example : ((step 2 exStart (.push 0)).bind (fun s => (asMutSlice 2 ⟨⟨⟨1, 10⟩, 4⟩, 1, true, [], none⟩ s.mem).bind (fun p => p.2.access .write p.1 12 14))).isNone = true := by decide +kernel

/-- … and writing with the pointer of a shared slice. -/
example : ((step 2 exStart (.push 0)).bind (fun s => (s.mem.retag false 1 10 12).bind (fun p => p.2.access .write p.1 10 12))).isNone = true := by decide +kernel
example : accessByte .write 9 [⟨9, .sharedRO⟩, ⟨1, .unique⟩] = none := by decide

end Verif.VecBorrows
