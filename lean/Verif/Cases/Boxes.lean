import Verif.Props.Boxes
/-!
# Concrete cases for C33 and C51

Each theorem is applied to a concrete program with two values, of which the destructor of the second panics.
-/
namespace Verif.CasesBoxes
open Verif Owned

/-- Nothing exists; the destructor of value 1 panics. -/
def s₀ : OState := ⟨⟨fun _ => none, [], fun v => decide (v = 1)⟩, fun _ => none, [], 0⟩

/-- `LeakBox`: values 0 and 1 were made and put into boxes at the places 7 and 8. -/
theorem lreach : ∃ s, LReach s ∧ s.kind 7 = some .boxed ∧ s.st.mem 7 = some 0 ∧ s.kind 8 = some .boxed ∧ s.st.mem 8 = some 1 ∧ s.st.panics 1 = true ∧ s.owned = [] ∧ s.next = 2 := by
  have h0 : LReach s₀ := .init
  have h1 := h0.step (op := .make) trivial rfl
  have h2 := h1.step (op := .make) trivial rfl
  have h3 := h2.step (op := .allocate 7 0) ⟨by decide, rfl⟩ rfl
  have h4 := h3.step (op := .allocate 8 1) ⟨by decide, rfl⟩ rfl
  exact ⟨_, h4, rfl, rfl, rfl, rfl, rfl, by decide, rfl⟩

example : ∃ s, LReach s ∧ s.next = 2 ∧ s.Conserved := let ⟨s, h, _, _, _, _, _, _, h7⟩ := lreach; ⟨s, h, h7, C33_conserved h⟩
example : ∃ s, LReach s ∧ s.next = 2 ∧ ∃ r s', lexec s .make = .ret (r, s') := let ⟨s, h, _, _, _, _, _, _, h7⟩ := lreach; ⟨s, h, h7, C33_no_ub h trivial⟩
example : ∃ s v, LReach s ∧ lexec s (.deref 7) = .ret (.val v, s) ∧ s.Where v (.at 7) ∧ v ∉ s.st.dropped ∧ v ∉ s.owned :=
  let ⟨s, h, h1, _⟩ := lreach; let ⟨v, hv⟩ := C33_readable_is_live h h1; ⟨s, v, h, hv⟩
/-- Dropping the box with value 1 unwinds, but the value counts as dropped. -/
example : ∃ s r s', LReach s ∧ lexec s (.drop 8) = .ret (r, s') ∧ s'.st.dropped = 1 :: s.st.dropped ∧ r = .unwound :=
  let ⟨s, h, _, _, h3, h4, h5, _, _⟩ := lreach; let ⟨⟨r, s', k1, k2, _, _, k5⟩, _⟩ := C33_ends h3 h4; ⟨s, r, s', h, k1, k2, k5.mpr h5⟩
/-- All boxes dropped: both values were dropped. -/
example : ∃ s, LReach s ∧ s.next = 2 ∧ s.st.dropped.Perm (List.range 2) := by
  have h0 : LReach s₀ := .init
  have h1 := h0.step (op := .make) trivial rfl
  have h2 := h1.step (op := .make) trivial rfl
  have h3 := h2.step (op := .allocate 7 0) ⟨by decide, rfl⟩ rfl
  have h4 := h3.step (op := .allocate 8 1) ⟨by decide, rfl⟩ rfl
  have h5 := h4.step (op := .drop 8) (.inl rfl) rfl
  have h6 := h5.step (op := .drop 7) (.inl rfl) rfl
  refine ⟨_, h6, rfl, C33_all_dropped h6 (fun p => .inl ?_) (by decide)⟩
  simp only [OState.setKind]
  by_cases h : p = 7 <;> by_cases h' : p = 8 <;> simp [h, h', s₀]

/-- `without_alloc::Box`. -/
theorem breach : ∃ s, BReach s ∧ s.kind 7 = some .boxed ∧ s.st.mem 7 = some 0 ∧ s.kind 8 = some .boxed ∧ s.st.mem 8 = some 1 ∧ s.st.panics 1 = true ∧ s.owned = [] ∧ s.next = 2 := by
  have h0 : BReach s₀ := .init
  have h1 := h0.step (op := .make) trivial rfl
  have h2 := h1.step (op := .make) trivial rfl
  have h3 := h2.step (op := .memory 7) rfl rfl
  have h4 := h3.step (op := .memory 8) rfl rfl
  have h5 := h4.step (op := .new 0 7) ⟨by decide, rfl⟩ rfl
  have h6 := h5.step (op := .new 1 8) ⟨by decide, rfl⟩ rfl
  exact ⟨_, h6, rfl, rfl, rfl, rfl, rfl, by decide, rfl⟩

example : ∃ s, BReach s ∧ s.next = 2 ∧ s.Conserved := let ⟨s, h, _, _, _, _, _, _, h7⟩ := breach; ⟨s, h, h7, C51_conserved h⟩
example : ∃ s, BReach s ∧ s.next = 2 ∧ ∃ r s', bexec s .make = .ret (r, s') := let ⟨s, h, _, _, _, _, _, _, h7⟩ := breach; ⟨s, h, h7, C51_no_ub h trivial⟩
example : ∃ s v, BReach s ∧ bexec s (.deref 7) = .ret (.val v, s) ∧ s.Where v (.at 7) ∧ v ∉ s.st.dropped ∧ v ∉ s.owned :=
  let ⟨s, h, h1, _⟩ := breach; let ⟨v, hv⟩ := C51_readable_is_live h h1; ⟨s, v, h, hv⟩
example : ∃ s r s', BReach s ∧ bexec s (.drop 8) = .ret (r, s') ∧ s'.st.dropped = 1 :: s.st.dropped ∧ r = .unwound :=
  let ⟨s, h, _, _, h3, h4, h5, _, _⟩ := breach; let ⟨⟨r, s', k1, k2, _, _, k5⟩, _⟩ := C51_ends h3 h4; ⟨s, r, s', h, k1, k2, k5.mpr h5⟩

end Verif.CasesBoxes
