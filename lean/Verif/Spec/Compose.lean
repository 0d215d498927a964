import Verif.Spec.Basic
/-!
# Several data structures in one memory: what it means that they do not interfere

A data structure is used by calls, which change its variables (`St`) and the bytes of the memory, and give an answer. Its specification is a program without memory.
-/
namespace Verif.Compose
open Verif

structure Machine where
  /-- Its variables outside of the memory (on the stack of the program). -/
  St : Type
  Op : Type
  Resp : Type
  /-- The states of the specification. -/
  Sp : Type
  /-- One call; `none` is undefined behaviour. -/
  exec : St → Mem → Op → Option (Resp × St × Mem)
  /-- Types, borrows and safety sections permit the call. -/
  permitted : St → Mem → Op → Prop
  sexec : Sp → Op → Resp × Sp
  /-- The process ends with this answer. -/
  halts : Resp → Bool
  /-- The bytes that belong to it. -/
  own : Nat → Prop
  /-- Before its first call: variables, what has to be in the memory, and how the specification sees this. -/
  start : St
  ready : Mem → Prop
  sstart : Mem → Sp

namespace Machine
/-- Alone in the memory: calls one after the other; nothing after the end of the process. -/
def run (M : Machine) : M.St → Mem → List M.Op → Option (List M.Resp × M.St × Mem)
  | s, m, [] => some ([], s, m)
  | s, m, op :: ops =>
    match M.exec s m op with
    | none => none
    | some (r, s, m) => if M.halts r then some ([r], s, m) else (M.run s m ops).map fun x => (r :: x.1, x.2)

def srun (M : Machine) : M.Sp → List M.Op → List M.Resp
  | _, [] => []
  | s, op :: ops => if M.halts (M.sexec s op).1 then [(M.sexec s op).1] else (M.sexec s op).1 :: M.srun (M.sexec s op).2 ops

def SafeRun (M : Machine) : M.St → Mem → List M.Op → Prop
  | _, _, [] => True
  | s, m, op :: ops => M.permitted s m op ∧ ∀ r s' m', M.exec s m op = some (r, s', m') → M.halts r = false → M.SafeRun s' m' ops
end Machine

section
variable {ι : Type} [DecidableEq ι] (M : ι → Machine)

/-- Variables of all. -/
abbrev Vars := ∀ i, (M i).St
def Vars.set {M : ι → Machine} (v : Vars M) (i : ι) (s : (M i).St) : Vars M := fun j => if h : j = i then h ▸ s else v j

/-- A program that calls all of them, in any order, in one memory. -/
def run : Vars M → Mem → List (Σ i, (M i).Op) → Option (List (Σ i, (M i).Resp) × Vars M × Mem)
  | v, m, [] => some ([], v, m)
  | v, m, ⟨i, op⟩ :: ops =>
    match (M i).exec (v i) m op with
    | none => none
    | some (r, s, m) => if (M i).halts r then some ([⟨i, r⟩], v.set i s, m) else (run (v.set i s) m ops).map fun x => (⟨i, r⟩ :: x.1, x.2)

def SafeRun : Vars M → Mem → List (Σ i, (M i).Op) → Prop
  | _, _, [] => True
  | v, m, ⟨i, op⟩ :: ops => (M i).permitted (v i) m op ∧ ∀ r s m', (M i).exec (v i) m op = some (r, s, m') → (M i).halts r = false → SafeRun (v.set i s) m' ops

/-- The part that is about `i`. -/
def only {F : ι → Type} (i : ι) : List (Σ i, F i) → List (F i)
  | [] => []
  | ⟨j, x⟩ :: xs => if h : j = i then h ▸ x :: only i xs else only i xs

/-- Before the program. -/
def start : Vars M := fun i => (M i).start

/-- No byte belongs to two of them. -/
def Apart : Prop := ∀ i j, i ≠ j → ∀ x, ¬ ((M i).own x ∧ (M j).own x)
end

end Verif.Compose
