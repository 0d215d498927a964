import Verif.Props.ExitStack
import Verif.Props.ExitNest
/-!
# Concrete cases for C102

Two stacks. The destructor of a value in the first one changes its own bytes, pins a value to the second stack, and drops that; the destructor there makes a third stack and pins to it. Then with unwinding, and with a `Mem` that is too aligned.
-/
namespace Verif.CasesExitNest
open Verif ExitNest ExitExample

/-- Bytes of a slot of a `u64`: the link, and eight times `n`. -/
def val (n : Byte) : List Byte := List.replicate 16 0 ++ List.replicate 8 n

/-- Two values in stack 0, one in stack 1. -/
def start : List Op :=
  [.new conf (fun _ => 7), .new conf (fun _ => 9), .slot 0 u64, .pin 0 4104 u64 (val 1), .slot 0 u64, .pin 0 4128 u64 (val 2), .slot 0 u64, .slot 1 u64, .pin 1 4104 u64 (val 3)]

/-- Stack 0 is dropped. In the destructor of its value 1: stack 0 can not be used; a value is pinned to stack 1, which then is dropped; in the destructor of that value a stack is made. -/
def nested : List Op :=
  start ++ [.write 0 4104 16 [5, 6], .read 0 4104 15 2, .read 0 4104 16 9, .read 0 4104 16 8, .dropStack 0, .slot 0 u64, .popAll 0, .writeSelf 23 [8], .writeSelf 23 [8, 8], .readSelf 16 8, .slot 1 u64, .pin 1 4128 u64 (val 4),
    .read 1 4128 16 8, .dropStack 1, .new conf (fun _ => 0), .slot 2 u64, .pin 2 4104 u64 (val 5), .endDrop false]

/-- The destructors end; at last stack 2 is used once more. -/
def ending : List Op := [.readSelf 16 8, .endDrop false, .readSelf 22 2, .endDrop false, .readSelf 16 8, .endDrop false, .endDrop false, .slot 0 u64, .set 2 (List.replicate 64 1), .endDrop false, .read 2 4104 60 4]

theorem ok (ops : List Op) (h : ops.all (fun
    | .new c _ => decide (c.t = conf.t ∧ c.debug = conf.debug ∧ c.addr = conf.addr ∧ c.M = conf.M)
    | .slot _ T => decide (T = u64)
    | _ => true) = true) : ∀ op ∈ ops, op.Ok .w64 := by
  intro op hop
  have := List.all_eq_true.mp h op hop
  cases op with
  | new c m =>
    simp only [decide_eq_true_eq] at this
    have e : c = conf := by cases c; simp only at this; obtain ⟨h1, h2, h3, h4⟩ := this; subst h1 h2 h3 h4; rfl
    subst e
    exact ⟨conf_valid, rfl⟩
  | slot k T =>
    simp only [decide_eq_true_eq] at this
    subst this
    exact ⟨u64_valid, u64_slot_valid⟩
  | _ => trivial

theorem start_ok : ∀ op ∈ start, op.Ok .w64 := ok _ (by decide +kernel)
theorem nested_ok : ∀ op ∈ nested, op.Ok .w64 := ok _ (by decide +kernel)
theorem all_ok : ∀ op ∈ nested ++ ending, op.Ok .w64 := ok _ (by decide +kernel)

/-- The state after a program. -/
def after (ops : List Op) : World := match run .init ops with | some (_, w) => w | none => .init
def answers (ops : List Op) : Option (List Resp) := (run .init ops).map (·.1)
theorem run_after {t : Target} (ops : List Op) (h : ∀ op ∈ ops, op.Ok t) : ∃ rs, run .init ops = some (rs, after ops) := by
  obtain ⟨w, hw, _⟩ := C102_refines ops h
  exact ⟨_, by rw [hw, after, hw]⟩

/-- What the program sees. -/
example : answers start = some [.made 0, .made 1, .addr 4104, .addr 4104, .addr 4128, .addr 4128, .full, .addr 4104, .addr 4104] := by decide +kernel
example : (answers nested).map (·.drop 9) = some
    [.unit, .absent, .absent, .bytes [5, 6, 1, 1, 1, 1, 1, 1], .running 0 1, .absent, .absent, .unit, .absent, .bytes [2, 2, 2, 2, 2, 2, 2, 8], .addr 4128, .addr 4128,
     .bytes [4, 4, 4, 4, 4, 4, 4, 4], .running 1 1, .made 2, .addr 4104, .addr 4104, .running 1 0] := by decide +kernel
example : (answers (nested ++ ending)).map (·.drop 27) = some
    [.bytes [3, 3, 3, 3, 3, 3, 3, 3], .unit, .bytes [2, 8], .running 0 0, .bytes [5, 6, 1, 1, 1, 1, 1, 1], .unit, .absent, .absent, .running 2 0, .addr 4104, .bytes [1, 1, 1, 1]] := by decide +kernel
example : (srun .init (nested ++ ending)).1 = (answers (nested ++ ending)).getD [] := by decide +kernel

/-- C102. Destructors that are running: of value 1 of stack 0 and, within it, of value 0 of stack 1. -/
example := C102_refines nested nested_ok
example : (after nested).frames = [⟨1, 4104, .drop⟩, ⟨0, 4128, .drop⟩] ∧ (after nested).log = [(1, 0), (1, 1), (0, 1)] := by decide +kernel
example : (srun .init nested).2.waiting = [(0, 0)] ∧ (srun .init nested).2.live 2 = [0] ∧ (srun .init nested).2.lost = [] := by decide +kernel
example : (after (nested ++ ending)).log.Nodup := let ⟨_, h⟩ := run_after _ all_ok; (C102_once all_ok h).1
example : (after (nested ++ ending)).log = [(2, 0), (0, 0), (1, 0), (1, 1), (0, 1)] := by decide +kernel
example : ((srun .init nested).2.live 0).count 0 + (srun .init nested).2.waiting.count (0, 0) + (after nested).log.count (0, 0) + (srun .init nested).2.lost.count (0, 0) = 1 := by
  obtain ⟨_, h⟩ := run_after _ nested_ok
  rw [C102_accounted nested_ok h (k := 0) (List.getElem?_eq_getElem (by decide +kernel)) 0]; decide +kernel

theorem calm {ops : List Op} (h : ops.all (fun | .endDrop p => !p | _ => true) = true) : ∀ op ∈ ops, op ≠ .endDrop true := by
  intro op hop e
  have := List.all_eq_true.mp h op hop
  rw [e] at this
  cases this

example : (srun .init (nested ++ ending)).2.lost = [] := C102_no_loss _ (calm (by decide +kernel))
example : (after (nested ++ ending)).log.count (0, 0) = 1 := by
  obtain ⟨_, h⟩ := run_after _ all_ok
  have := C102_all_dropped all_ok (calm (by decide +kernel)) h (by decide +kernel) (k := 0) (List.getElem?_eq_getElem (by decide +kernel)) (by decide +kernel) 0
  rw [this]; decide +kernel
/-- Value 1 of stack 2 is pinned, value 0 is not any more. -/
example : (∃ p r, ((after (nested ++ ending)).stacks[2]'(by decide +kernel)).s.Pinned p r ∧ r.value = 1) ∧ ¬ ∃ p r, ((after (nested ++ ending)).stacks[2]'(by decide +kernel)).s.Pinned p r ∧ r.value = 0 := by
  obtain ⟨_, h⟩ := run_after _ all_ok
  refine ⟨(C102_pinned_or_dropped all_ok (calm (by decide +kernel)) h (by decide +kernel) (k := 2) (List.getElem?_eq_getElem (by decide +kernel)) (by decide +kernel)).mpr (by decide +kernel), ?_⟩
  rw [C102_pinned_or_dropped all_ok (calm (by decide +kernel)) h (by decide +kernel) (k := 2) (List.getElem?_eq_getElem (by decide +kernel)) (by decide +kernel)]
  decide +kernel
/-- The destructor of value 0 of stack 1 is begun by the end of that of value 1. -/
example := C102_newest (op := .endDrop false) (ops := nested.dropLast) (k := 1) (v := 0) (w := after nested.dropLast) (w' := after nested) (rs := (srun .init nested.dropLast).1) nested_ok
  (by obtain ⟨rs, h⟩ := run_after nested.dropLast (fun o ho => nested_ok o (List.dropLast_subset _ ho))
      obtain ⟨w, h', _⟩ := C102_refines nested.dropLast (fun o ho => nested_ok o (List.dropLast_subset _ ho))
      rw [h] at h' ⊢; cases h'; rfl)
  rfl
example := (C102_disjoint nested_ok (k := 0) (List.getElem?_eq_getElem (by decide +kernel))).2 _ (List.getElem_mem (l := (srun .init nested).2.frames) (n := 1) (by decide +kernel)) (by decide +kernel)
example := (C102_disjoint nested_ok (k := 2) (List.getElem?_eq_getElem (by decide +kernel))).1 (by decide +kernel)
/-- Stack 0 before it is dropped. -/
example : ∃ rs w, run (after start) [.popAll 0, .endDrop false, .endDrop false] = some (rs, w) ∧ w.log = [(0, 0), (0, 1)] := by
  obtain ⟨_, h⟩ := run_after _ start_ok
  obtain ⟨rs, w, h1, _, _, h2⟩ := C102_agrees start_ok h (k := 0) (st := (after start).stacks[0]'(by decide +kernel)) rfl rfl
  exact ⟨rs, w, h1, h2.trans rfl⟩

/-- Unwinding out of the inner destructor, and then out of the outer one: the values that wait are lost. -/
def unwinding : List Op := nested.dropLast ++ [.endDrop true, .endDrop true, .endDrop true]
example : (answers unwinding).map (·.drop 26) = some [.unwound, .unwound, .absent] ∧ (srun .init unwinding).2.lost = [(0, 0), (1, 0)] ∧ (after unwinding).log = [(1, 1), (0, 1)] := by decide +kernel

/-- A `Mem` with alignment 16: with debug assertions all calls unwind; without, `set` finds no room. -/
def wide (debug : Bool) : Exit.Conf := ⟨.w64, debug, 4096, ⟨16, 16⟩⟩
example : answers [.new (wide true) (fun _ => 0), .slot 0 u64, .popAll 0, .set 0 (List.replicate 32 0), .dropStack 0, .popAll 0] = some [.made 0, .unwound, .unwound, .unwound, .unwound, .absent] := by decide +kernel
example : answers [.new (wide false) (fun _ => 0), .slot 0 u64, .set 0 (List.replicate 32 0), .set 0 [], .popAll 0, .dropStack 0] = some [.made 0, .addr 4104, .unwound, .absent, .unit, .unit] := by decide +kernel
example : (srun .init [.new (wide true) (fun _ => 0), .slot 0 u64, .popAll 0]).1 = [.made 0, .unwound, .unwound] := by decide +kernel

end Verif.CasesExitNest
