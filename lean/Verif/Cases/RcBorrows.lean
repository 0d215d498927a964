import Verif.Props.RcBorrows
/-! # C105: concrete programs -/
set_option autoImplicit false
namespace Verif.RcBorrows
open Verif Verif.Borrows
open Verif.VecBorrows (Ref endRefs)

instance (s : St) (i : Nat) (k : Kind) : Decidable (s.Is i k) :=
  match h : s.handles[i]? with
  | none => .isFalse (fun ⟨p, hp, _⟩ => by rw [h] at hp; cases hp)
  | some p => decidable_of_iff (p.kind = k) ⟨fun h' => ⟨p, h, h'⟩, fun ⟨p', hp, h'⟩ => by rw [h] at hp; cases hp; exact h'⟩

instance (s : St) (k : Nat) : Decidable (s.Dying k) := by unfold St.Dying; infer_instance

instance {α : Type} (x : Option α) (P : α → Prop) [DecidablePred P] : Decidable (∀ n, x = some n → P n) :=
  match x with
  | none => .isTrue (fun n hn => by cases hn)
  | some n => decidable_of_iff (P n) ⟨fun h' u hu => by cases hu; exact h', fun h' => h' n rfl⟩

instance (bs : List Box) (l : List Handle) (i : Nat) (P : Handle → Box → Prop) [∀ x B, Decidable (P x B)] : Decidable (∃ x B, l[i]? = some x ∧ bs[x.box]? = some B ∧ P x B) :=
  match h : l[i]? with
  | none => .isFalse (fun ⟨_, _, hp, _⟩ => by cases hp)
  | some x => match h' : bs[x.box]? with
    | none => .isFalse (fun ⟨y, _, hp, hq, _⟩ => by cases hp; rw [h'] at hq; cases hq)
    | some B => decidable_of_iff (P x B) ⟨fun hp => ⟨x, B, rfl, h', hp⟩, fun ⟨y, C, hp, hq, hr⟩ => by cases hp; rw [h'] at hq; cases hq; exact hr⟩

instance (bs : List Box) (s : St) (a : Act) : Decidable (Permitted bs s a) := by
  cases a <;> unfold Permitted <;> infer_instance

theorem forall_handles {l : List Handle} {P : Nat → Handle → Prop} (h : ∀ j : Fin l.length, P j l[j]) : ∀ (j : Nat) (y : Handle), l[j]? = some y → P j y := by
  intro j y e
  obtain ⟨hj, e⟩ := List.getElem?_eq_some_iff.1 e
  subst e
  exact h ⟨j, hj⟩

instance (s : St) (i : Nat) (x : Handle) : Decidable (s.Sole i x) :=
  decidable_of_iff (∀ j : Fin s.handles.length, j.val ≠ i → s.handles[j].box = x.box → s.handles[j].kind = .gone)
    ⟨fun h j y hj e => forall_handles (P := fun j y => j ≠ i → y.box = x.box → y.kind = .gone) h j y e hj,
      fun h j hj hb => h j s.handles[j] hj (List.getElem?_eq_getElem j.isLt) hb⟩

instance (s : St) (i : Nat) (x : Handle) : Decidable (s.Last i x) :=
  decidable_of_iff (∀ j : Fin s.handles.length, j.val ≠ i → s.handles[j].box = x.box → s.handles[j].kind ≠ .rc)
    ⟨fun h j y hj e => forall_handles (P := fun j y => j ≠ i → y.box = x.box → y.kind ≠ .rc) h j y e hj,
      fun h j hj hb => h j s.handles[j] hj (List.getElem?_eq_getElem j.isLt) hb⟩

/-- Runs a program as long as each action is permitted. -/
def checked (bs : List Box) (s : St) : List Act → Option St
  | [] => some s
  | a :: as => if Permitted bs s a then (step bs s a).bind (fun s' => checked bs s' as) else none

theorem checked_reach {bs : List Box} {s₀ : St} : ∀ (as : List Act) (s s' : St), Reach bs s₀ s → checked bs s as = some s' → Reach bs s₀ s'
  | [], s, s', h, e => by cases e; exact h
  | a :: as, s, s', h, e => by
    unfold checked at e
    by_cases hp : Permitted bs s a
    · rw [if_pos hp] at e
      cases hs : step bs s a with
      | none => rw [hs] at e; cases e
      | some s1 => rw [hs] at e; exact checked_reach as s1 s' (h.step hp hs) e
    · rw [if_neg hp] at e; cases e

/-- Memory for two boxes: the first for a value with 4 bytes, the second for one with 8; that of the second is shared mutable. -/
def exBoxes : List Box := [⟨0, 4, 8, 16, 16, 24, 24, 0⟩, ⟨32, 40, 40, 48, 48, 56, 56, 1⟩]
def exStart : St :=
  ⟨⟨⟨fun b => if b < 24 then [⟨0, .unique⟩] else if 32 ≤ b ∧ b < 56 then [⟨1, .sharedRW⟩] else [], 2⟩, fun _ => 0, fun _ => 0⟩, [⟨0, .mem⟩, ⟨1, .mem⟩], []⟩

theorem exStart_start : Start exBoxes exStart := by
  refine ⟨?_, ?_, ?_, rfl, rfl⟩
  · intro B hB
    rcases List.mem_cons.1 hB with rfl | hB
    · exact ⟨by decide, by decide, by decide⟩
    · rw [List.mem_singleton.1 hB]; exact ⟨by decide, by decide, by decide⟩
  · exact List.pairwise_pair.2 (Or.inl (by decide))
  · intro B hB b h1 h2
    rcases List.mem_cons.1 hB with rfl | hB
    · have e : exStart.heap.mem.stack b = [⟨0, .unique⟩] := if_pos h2
      rw [e]
      refine ⟨.unique, [], rfl, rfl, by simp, ?_⟩
      intro i hi
      rw [List.mem_singleton.1 hi]
      exact Nat.zero_lt_two
    · rw [List.mem_singleton.1 hB] at h1 h2 ⊢
      have h1' : 32 ≤ b := h1
      have h2' : b < 56 := h2
      have e : exStart.heap.mem.stack b = [⟨1, .sharedRW⟩] := by
        change (if b < 24 then _ else if 32 ≤ b ∧ b < 56 then _ else _) = _
        rw [if_neg (by omega), if_pos ⟨h1', h2'⟩]
      rw [e]
      refine ⟨.sharedRW, [], rfl, rfl, by simp, ?_⟩
      intro i hi
      rw [List.mem_singleton.1 hi]
      exact Nat.one_lt_two

/-- A program with two values: `Rc`s and `Weak`s to the first are made, used and dropped, its memory is taken out raw and put back, in the end taken and used again; all the time there is a `&mut` to the second. -/
def exProg : List Act :=
  [.new 0, .new 1, .getMut 0, .use ⟨8, true, 0, 4, 0, []⟩ .write 0 4, .clone 0, .deref 0, .deref 2, .downgrade 2, .getMut 1, .upgrade 3, .dropRc 0, .dropRc 2, .tryUnwrapWeak 3, .intoRaw 4, .dropWeak 3,
   .getMut 4, .intoRaw 4, .useRaw 4 .write 0 4, .fromRaw 4, .downgrade 4, .cloneWeak 5, .dropRc 4, .upgrade 5, .endDrop 4, .dropWeak 6, .tryUnwrapWeak 5, .new 5, .tryUnwrap 5,
   .use ⟨25, true, 32, 40, 1, []⟩ .write 32 40]

theorem exProg_runs : (checked exBoxes exStart exProg).map (fun s => (s.handles, s.refs, s.heap.strong 0, s.heap.weak 0, s.heap.strong 1, s.heap.weak 1)) =
    some ([⟨0, .gone⟩, ⟨1, .rc⟩, ⟨0, .gone⟩, ⟨0, .gone⟩, ⟨0, .gone⟩, ⟨0, .weak⟩, ⟨0, .gone⟩], [⟨25, true, 32, 40, 1, []⟩], 0, 1, 1, 1) := by decide +kernel

/-- The state after the first `n` actions. -/
def exState (n : Nat) : St := (checked exBoxes exStart (exProg.take n)).getD exStart
theorem exState_reach (n : Nat) (h : (checked exBoxes exStart (exProg.take n)).isSome = true) : Reach exBoxes exStart (exState n) := by
  refine checked_reach (exProg.take n) _ _ .refl ?_
  unfold exState
  cases e : checked exBoxes exStart (exProg.take n) with
  | none => rw [e] at h; cases h
  | some s => rfl

/-- C105_defined: upgrade, with three references. -/
example : ∃ s', step exBoxes (exState 9) (.upgrade 3) = some s' :=
  C105_defined_partial exStart_start (exState_reach 9 (by decide +kernel)) (by decide +kernel)

/-- C105_refs_usable -/
example : ∃ m, (exState 13).heap.mem.access .write 25 32 40 = some m :=
  (C105_refs_usable_partial exStart_start (exState_reach 13 (by decide +kernel)) (r := ⟨25, true, 32, 40, 1, []⟩) (by decide +kernel)).2 rfl

/-- C105_exclusive: of the two values. -/
example : (40 : Nat) ≤ 0 ∨ (4 : Nat) ≤ 32 :=
  C105_exclusive_partial exStart_start (exState_reach 10 (by decide +kernel)) (r := ⟨25, true, 32, 40, 1, []⟩) (q := ⟨16, false, 0, 4, 2, []⟩) (by decide +kernel) rfl (by decide +kernel) (by decide)

/-- C105_alive -/
example : ∃ x B, (exState 22).handles[4]? = some x ∧ (x.kind = .rc ∨ x.kind = .dying) ∧ exBoxes[x.box]? = some B ∧ B.lo ≤ 0 ∧ 4 ≤ B.vhi :=
  C105_alive_partial exStart_start (exState_reach 22 (by decide +kernel)) (r := ⟨75, true, 0, 4, 4, []⟩) (by decide +kernel)

/-- C105_other: another `Rc` to the value is dropped. -/
example {s' : St} (h : step exBoxes (exState 10) (.dropRc 0) = some s') : (⟨16, false, 0, 4, 2, []⟩ : Ref) ∈ s'.refs :=
  C105_other_partial exStart_start (exState_reach 10 (by decide +kernel)) (by decide +kernel) h (by decide +kernel) (by decide)

/-- C105_counts: three `Rc`, one `Weak`. -/
example : (exState 10).heap.strong 0 = 3 ∧ (exState 10).heap.weak 0 = 2 := by
  obtain ⟨h1, h2⟩ := C105_counts_partial exStart_start (exState_reach 10 (by decide +kernel)) (k := 0) (by decide) (by decide +kernel)
  have e1 : (exState 10).heap.strong 0 = 3 := h1.trans (by decide +kernel)
  rw [e1] at h2
  exact ⟨e1, h2.trans (by decide +kernel)⟩

/-- C105_returned: the memory which `Weak::try_unwrap` gave. -/
example : ∀ B, exBoxes[0]? = some B → ∀ r ∈ (exState 26).refs, r.hi ≤ B.lo ∨ B.hi ≤ r.lo :=
  (C105_returned_partial exStart_start (exState_reach 26 (by decide +kernel)) (i := 5) (x := ⟨0, .mem⟩) (by decide +kernel) (Or.inr rfl)).2
example : (exState 26).refs = [⟨25, true, 32, 40, 1, []⟩] := by decide +kernel

/-- C105_get_mut: of the only `Rc`. -/
example {s' : St} (h : step exBoxes (exState 15) (.getMut 4) = some s') : ∃ t, s'.refs = ⟨t, true, 0, 4, 4, []⟩ :: endRefs 4 (exState 15).refs := by
  rcases C105_get_mut_partial exStart_start (exState_reach 15 (by decide +kernel)) (x := ⟨0, .rc⟩) (B := ⟨0, 4, 8, 16, 16, 24, 24, 0⟩) (by decide +kernel) rfl rfl h with ⟨_, h⟩ | ⟨h, _⟩
  · exact h
  · exact absurd (by decide +kernel) h
/-- Not of one of three. -/
example {s' : St} (h : step exBoxes (exState 10) (.getMut 0) = some s') : s'.refs = endRefs 0 (exState 10).refs := by
  rcases C105_get_mut_partial exStart_start (exState_reach 10 (by decide +kernel)) (x := ⟨0, .rc⟩) (B := ⟨0, 4, 8, 16, 16, 24, 24, 0⟩) (by decide +kernel) rfl rfl h with ⟨h, _⟩ | ⟨_, h⟩
  · exact absurd h (by decide +kernel)
  · exact h

/-- C105_drop: the last `Rc`. -/
example {s' : St} (h : step exBoxes (exState 21) (.dropRc 4) = some s') : s'.handles[4]? = some ⟨0, .dying⟩ := by
  rcases C105_drop_partial exStart_start (exState_reach 21 (by decide +kernel)) (x := ⟨0, .rc⟩) (B := ⟨0, 4, 8, 16, 16, 24, 24, 0⟩) (by decide +kernel) rfl rfl h with ⟨_, h, _⟩ | ⟨h, _⟩
  · rw [h]; decide +kernel
  · exact absurd (by decide +kernel) h
/-- Not the last. -/
example {s' : St} (h : step exBoxes (exState 10) (.dropRc 0) = some s') : s'.handles[0]? = some ⟨0, .gone⟩ := by
  rcases C105_drop_partial exStart_start (exState_reach 10 (by decide +kernel)) (x := ⟨0, .rc⟩) (B := ⟨0, 4, 8, 16, 16, 24, 24, 0⟩) (by decide +kernel) rfl rfl h with ⟨h, _⟩ | ⟨_, h, _⟩
  · exact absurd h (by decide +kernel)
  · rw [h]; decide +kernel

/-- C105_try_unwrap: the last `Rc`; there are `Weak`s. -/
example {s' : St} (h : step exBoxes (exState 21) (.tryUnwrap 4) = some s') : s'.handles = (exState 21).handles.set 4 ⟨0, .weak⟩ := by
  rcases C105_try_unwrap_partial exStart_start (exState_reach 21 (by decide +kernel)) (x := ⟨0, .rc⟩) (B := ⟨0, 4, 8, 16, 16, 24, 24, 0⟩) (by decide +kernel) rfl rfl h with ⟨_, h⟩ | ⟨h, _⟩
  · exact h
  · exact absurd (by decide +kernel) h

/-- C105_into_raw: not if there are `Weak`s; then if not. -/
example {s' : St} (h : step exBoxes (exState 13) (.intoRaw 4) = some s') : s'.handles = (exState 13).handles := by
  rcases C105_into_raw_partial exStart_start (exState_reach 13 (by decide +kernel)) (x := ⟨0, .rc⟩) (B := ⟨0, 4, 8, 16, 16, 24, 24, 0⟩) (by decide +kernel) rfl rfl h with ⟨h, _⟩ | ⟨_, h⟩
  · exact absurd h (by decide +kernel)
  · exact h
example {s' : St} (h : step exBoxes (exState 16) (.intoRaw 4) = some s') : s'.handles = (exState 16).handles.set 4 ⟨0, .raw⟩ := by
  rcases C105_into_raw_partial exStart_start (exState_reach 16 (by decide +kernel)) (x := ⟨0, .rc⟩) (B := ⟨0, 4, 8, 16, 16, 24, 24, 0⟩) (by decide +kernel) rfl rfl h with ⟨_, h⟩ | ⟨h, _⟩
  · exact h
  · exact absurd (by decide +kernel) h

/-- C105_upgrade: there are other `Rc`s; then, in the destructor of the value, not. -/
example {s' : St} (h : step exBoxes (exState 9) (.upgrade 3) = some s') : s'.handles = (exState 9).handles ++ [⟨0, .rc⟩] := by
  rcases C105_upgrade_partial exStart_start (exState_reach 9 (by decide +kernel)) (x := ⟨0, .weak⟩) (B := ⟨0, 4, 8, 16, 16, 24, 24, 0⟩) (by decide +kernel) rfl rfl h with ⟨_, h⟩ | ⟨h, _⟩
  · exact h
  · exact absurd ⟨0, ⟨0, .rc⟩, by decide +kernel, rfl, rfl⟩ h
example {s' : St} (h : step exBoxes (exState 22) (.upgrade 5) = some s') : s'.handles = (exState 22).handles := by
  rcases C105_upgrade_partial exStart_start (exState_reach 22 (by decide +kernel)) (x := ⟨0, .weak⟩) (B := ⟨0, 4, 8, 16, 16, 24, 24, 0⟩) (by decide +kernel) rfl rfl h with ⟨⟨j, y, h1, h2, h3⟩, _⟩ | ⟨_, h⟩
  · exact absurd ⟨h2, h3⟩ (forall_handles (l := (exState 22).handles) (P := fun _ y => ¬ (y.box = 0 ∧ y.kind = .rc)) (by decide +kernel) j y h1)
  · exact h

/-- C105_weak_unwrap: not if there is an `Rc`; then the last `Weak`. -/
example {s' : St} (h : step exBoxes (exState 12) (.tryUnwrapWeak 3) = some s') : s'.handles = (exState 12).handles := by
  rcases C105_weak_unwrap_partial exStart_start (exState_reach 12 (by decide +kernel)) (x := ⟨0, .weak⟩) (B := ⟨0, 4, 8, 16, 16, 24, 24, 0⟩) (by decide +kernel) rfl (by decide +kernel) rfl h with ⟨h, _⟩ | ⟨_, h⟩
  · exact absurd h (by decide +kernel)
  · exact h
example {s' : St} (h : step exBoxes (exState 25) (.tryUnwrapWeak 5) = some s') : s'.handles = (exState 25).handles.set 5 ⟨0, .mem⟩ := by
  rcases C105_weak_unwrap_partial exStart_start (exState_reach 25 (by decide +kernel)) (x := ⟨0, .weak⟩) (B := ⟨0, 4, 8, 16, 16, 24, 24, 0⟩) (by decide +kernel) rfl (by decide +kernel) rfl h with ⟨_, h⟩ | ⟨h, _⟩
  · exact h
  · exact absurd (by decide +kernel) h

/-- C105_deref: of two `Rc` to one value at once. -/
example {s' : St} (h : step exBoxes (exState 6) (.deref 2) = some s') : ∃ t, (⟨t, false, 0, 4, 2, []⟩ : Ref) ∈ s'.refs ∧ (⟨14, false, 0, 4, 0, []⟩ : Ref) ∈ s'.refs := by
  obtain ⟨t, e, _⟩ := C105_deref_partial exStart_start (exState_reach 6 (by decide +kernel)) (x := ⟨0, .rc⟩) (B := ⟨0, 4, 8, 16, 16, 24, 24, 0⟩) (by decide +kernel) rfl h
  rw [e]
  exact ⟨t, List.mem_cons_self, List.mem_cons_of_mem _ (by decide +kernel)⟩

/-- C105_handles -/
example {s' : St} (h : step exBoxes (exState 4) (.clone 0) = some s') : s'.handles = [⟨0, .rc⟩, ⟨1, .rc⟩, ⟨0, .rc⟩] := by
  rw [(C105_handles_partial exStart_start (exState_reach 4 (by decide +kernel)) (i := 0) (x := ⟨0, .rc⟩) (B := ⟨0, 4, 8, 16, 16, 24, 24, 0⟩) (by decide +kernel) rfl).1 h]
  decide +kernel

/-- In the model the rules are strict: what the borrow checker rejects is undefined behaviour, for example use of a `&mut` by `get_mut` after the next `deref`, then use of the first of two `&mut` (by another `get_mut`). -/
example : (step exBoxes (exState 7) (.use ⟨8, true, 0, 4, 0, []⟩ .read 0 4)).isNone = true := by decide +kernel
example : ((step exBoxes (exState 13) (.getMut 1)).bind (fun s => step exBoxes s (.use ⟨25, true, 32, 40, 1, []⟩ .read 32 40))).isNone = true := by decide +kernel
/-- A value that is shared is not written, the counters are. -/
example : (step exBoxes (exState 7) (.use ⟨16, false, 0, 4, 2, []⟩ .write 0 1)).isNone = true := by decide +kernel
example : ((exState 7).heap.mem.retagShared (fun b => decide (8 ≤ b)) 0 0 24).isSome = true ∧
    (((exState 7).heap.mem.retagShared (fun b => decide (8 ≤ b)) 0 0 24).bind (fun (c, m) => m.access .write c 8 24)).isSome = true ∧
    (((exState 7).heap.mem.retagShared (fun b => decide (8 ≤ b)) 0 0 24).bind (fun (c, m) => m.access .write c 7 24)).isNone = true := by decide +kernel

end Verif.RcBorrows
