import Verif.Props.ExitBorrows
import Verif.Cases.BumpBorrows
/-! # C107: concrete programs, and the one which is undefined -/
set_option autoImplicit false
namespace Verif.ExitBorrows
open Verif Verif.Borrows
open Verif.VecBorrows (Ref)
open Verif.BumpBorrows (Obj exObj exObj_valid exStart exStart_start)

instance (x : Option Ref) (P : Ref → Prop) [DecidablePred P] : Decidable (∃ r, x = some r ∧ P r) :=
  match x with
  | none => .isFalse (fun ⟨_, h, _⟩ => by cases h)
  | some r => decidable_of_iff (P r) ⟨fun h => ⟨r, rfl, h⟩, fun ⟨_, h, h'⟩ => by cases h; exact h'⟩

instance (w : Nat) (s : St) (a : Act) : Decidable (Allowed w s a) := by
  cases a <;> unfold Allowed <;> infer_instance

instance (w : Nat) (unpin : Bool) (s : St) (a : Act) : Decidable (Permitted w unpin s a) := by
  unfold Permitted; infer_instance

/-- Runs a program as long as each action is permitted. -/
def checked (o : Obj) (w : Nat) (unpin : Bool) (s : St) : List Act → Option St
  | [] => some s
  | a :: as => if Permitted w unpin s a then (step o w unpin s a).bind (fun s' => checked o w unpin s' as) else none

theorem checked_reach {o : Obj} {w : Nat} {unpin : Bool} {s₀ : St} : ∀ (as : List Act) (s s' : St), Reach o w unpin s₀ s → checked o w unpin s as = some s' → Reach o w unpin s₀ s'
  | [], s, s', h, e => by cases e; exact h
  | a :: as, s, s', h, e => by
    unfold checked at e
    by_cases hp : Permitted w unpin s a
    · rw [if_pos hp] at e
      cases hs : step o w unpin s a with
      | none => rw [hs] at e; cases e
      | some s1 => rw [hs] at e; exact checked_reach as s1 s' (h.step hp hs) e
    · rw [if_neg hp] at e; cases e

/-- A stack with 16 bytes of memory, empty. -/
def exS : St := ⟨exStart .unique, [], []⟩
theorem exS_start : Start exObj 0 exS := ⟨exStart_start _ rfl, rfl, rfl⟩

/-- Two slots, with 4 and 2 bytes for the link, are taken through a shared reference, and filled in the other order. -/
def exProg : List Act :=
  [.share 0, .slot 1 ⟨6, 2⟩, .slot 1 ⟨4, 2⟩, .pin 1 4100 4102 [(.write, 4100, 4102), (.read, 4101, 4102)], .slot 1 ⟨1, 1⟩, .pin 1 4104 4106 [(.read, 4104, 4106), (.write, 4105, 4106)], .use ⟨10, true, 4100, 4102, 0, [5]⟩ .write 4100 4102,
   .reborrow ⟨10, true, 4100, 4102, 0, [5]⟩ false 4100 4101, .slot 1 ⟨32, 1⟩, .popAll, .slot 0 ⟨16, 1⟩]

def exState (unpin : Bool) (n : Nat) : St := (checked exObj 0 unpin exS (exProg.take n)).getD exS
theorem exState_reach (unpin : Bool) (n : Nat) (h : (checked exObj 0 unpin exS (exProg.take n)).isSome = true) : Reach exObj 0 unpin exS (exState unpin n) := by
  refine checked_reach (exProg.take n) _ _ .refl ?_
  unfold exState
  cases e : checked exObj 0 unpin exS (exProg.take n) with
  | none => rw [e] at h; cases h
  | some s => rfl

/-- All of it is permitted if the stack is not `Unpin`, all before `pop_all` if it is. -/
example : (checked exObj 0 false exS exProg).isSome = true := by decide +kernel
example : (checked exObj 0 true exS (exProg.take 9)).isSome = true := by decide +kernel
example : (exState false 9).chain.map (fun p => (p.vlo, p.vhi)) = [(4104, 4106), (4100, 4102)] := by decide +kernel

/-- C107_violated_unpin: with `Mem: Unpin` a program the compiler accepts — two values are pinned, then the stack is cleared or dropped — is undefined behaviour: the `&mut self` is a unique borrow of the stack, and
the memory with the values, to which the list of handles points, is in the stack itself. That is the only reason: if the stack is not `Unpin`, the same is permitted. -/
theorem C107_violated_unpin : ∃ s, Reach exObj 0 true exS s ∧ Start exObj 0 exS ∧ Allowed 0 s .popAll ∧ s.chain.length = 2 ∧ step exObj 0 true s .popAll = none ∧ (step exObj 0 false s .popAll).isSome = true :=
  ⟨exState true 6, exState_reach true 6 (by decide +kernel), exS_start, by decide +kernel, by decide +kernel, Option.isNone_iff_eq_none.1 (by decide +kernel), by decide +kernel⟩

/-- C107_violated_unpin_always: with two values and a shared reference to one of them. -/
example : step exObj 0 true (exState true 9) .popAll = none :=
  C107_violated_unpin_always exObj_valid exS_start (exState_reach true 9 (by decide +kernel)) (by decide +kernel) (by decide +kernel)

/-- C107_defined_partial: `pop_all` with two values, and an `Unpin` stack with none. -/
example : ∃ s', step exObj 0 false (exState false 9) .popAll = some s' :=
  C107_defined_partial exObj_valid exS_start (exState_reach false 9 (by decide +kernel)) (by decide +kernel)
example : ∃ s', step exObj 0 true (exState true 3) .popAll = some s' :=
  C107_defined_partial exObj_valid exS_start (exState_reach true 3 (by decide +kernel)) (by decide +kernel)

/-- C107_usable_partial: the value which was pinned first. -/
example : ∃ m, (exState false 6).bump.mem.access .write 10 4100 4102 = some m :=
  (C107_usable_partial exObj_valid exS_start (exState_reach false 6 (by decide +kernel)) (r := ⟨10, true, 4100, 4102, 0, [5]⟩) (by decide +kernel)).2 rfl

/-- C107_handles_partial: while there is a reference to the value. -/
example : ∃ m, (exState false 8).bump.mem.access .write 5 4096 4102 = some m :=
  (C107_handles_partial exObj_valid exS_start (exState_reach false 8 (by decide +kernel)) (r := ⟨5, true, 4096, 4102, 0, []⟩) (Or.inr ⟨⟨⟨5, true, 4096, 4102, 0, []⟩, 4100, 4102, [(.write, 4100, 4102), (.read, 4101, 4102)]⟩, by decide +kernel, rfl⟩)).2

/-- C107_apart_partial: three. -/
example : ((exState false 6).slots ++ (exState false 6).chain.map Pinned.ref).length = 3 ∧
    ((exState false 6).slots ++ (exState false 6).chain.map Pinned.ref).Pairwise (fun p q => p.hi ≤ q.lo ∨ q.hi ≤ p.lo) :=
  ⟨by decide +kernel, C107_apart_partial exObj_valid exS_start (exState_reach false 6 (by decide +kernel))⟩

/-- C107_stays_partial: the value in the first slot when the second is filled. -/
example {s' : St} (h : step exObj 0 false (exState false 5) (.pin 1 4104 4106 [(.read, 4104, 4106), (.write, 4105, 4106)]) = some s') : (⟨10, true, 4100, 4102, 0, [5]⟩ : Ref) ∈ s'.bump.refs := by
  refine C107_stays_partial exObj_valid exS_start (exState_reach false 5 (by decide +kernel)) (by decide +kernel) h (by decide +kernel) ?_
  intro q hq
  have e : (exState false 5).slots[1]? = some ⟨9, true, 4102, 4106, 1, []⟩ := by decide +kernel
  rw [e] at hq
  cases hq
  decide

/-- C107_slot_partial: one that fits, aligned, and one that does not. -/
example {s' : St} (h : step exObj 0 false (exState false 4) (.slot 1 ⟨4, 4⟩) = some s') : ∃ r, s'.slots = r :: (exState false 4).slots ∧ 4106 ≤ r.lo ∧ 4 ∣ r.lo ∧ r.hi = r.lo + 4 := by
  obtain ⟨_, h | ⟨r, h1, _, _, h4, h5, h6, _⟩⟩ := C107_slot_partial exObj_valid exS_start (exState_reach false 4 (by decide +kernel)) (by decide +kernel) h
  · exact absurd ⟨4108, by decide +kernel, by decide, by decide⟩ h.2.2
  · have e : exObj.env.base + (exState false 4).bump.level = 4106 := by decide +kernel
    exact ⟨r, h1, by omega, h5, h4⟩
example {s' : St} (h : step exObj 0 false (exState false 4) (.slot 1 ⟨32, 1⟩) = some s') : s'.slots = (exState false 4).slots := by
  obtain ⟨_, h | ⟨r, _, _, _, h4, _, h6, _, h8⟩⟩ := C107_slot_partial exObj_valid exS_start (exState_reach false 4 (by decide +kernel)) (by decide +kernel) h
  · exact h.1
  · have e : exObj.env.base + (exState false 4).bump.level = 4106 := by decide +kernel
    have e' : exObj.env.base + exObj.env.len = 4112 := by decide +kernel
    simp only at h4
    omega

/-- C107_pin_partial -/
example {s' : St} (h : step exObj 0 false (exState false 3) (.pin 1 4100 4102 [(.read, 4100, 4101)]) = some s') : ∃ v rest, s'.bump.refs = v :: rest ∧ v.mutable = true ∧ v.lo = 4100 ∧ v.hi = 4102 := by
  obtain ⟨v, rest, h1, h2, h3, h4, _⟩ := C107_pin_partial (r := ⟨5, true, 4096, 4102, 0, []⟩) (by decide +kernel) h
  exact ⟨v, rest, h1, h2, h3, h4⟩

/-- C107_cleared_partial -/
example {s' : St} (h : step exObj 0 false (exState false 9) .popAll = some s') : s'.bump.refs = [] ∧ s'.bump.level = 0 :=
  ⟨(C107_cleared_partial h).2.2.1, (C107_cleared_partial h).2.2.2.2⟩

/-- The destructors get references to the values, in the order of the list; these exist until the memory is reset. -/
example : ((dropAll exObj 0 (exState false 8).bump (exState false 8).chain).map (fun b => (b.refs.take 2).map (fun r => (r.lo, r.hi, r.mutable)))) = some [(4100, 4102, true), (4104, 4106, true)] := by decide +kernel

end Verif.ExitBorrows
