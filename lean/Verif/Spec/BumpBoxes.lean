import Verif.Model.BumpBoxes
import Verif.Spec.Uninit
/-!
# Specification of boxes in a bump: there is no memory, variables hold their values

Of the allocator only the level is left, which decides whether there is room.
-/
namespace Verif.Unsync.BumpBoxes
open Verif Unsync

/-- A variable: the type, what kind it is, and its value (empty as long as it is not initialised). -/
structure SBox where
  ty : VType
  hold : Hold
  val : List Byte
  deriving DecidableEq, Repr

structure SWorld where
  level : Nat
  boxes : List (Option SBox)
  dropped : List (List Byte)

/-- Running the destructor of a value of the type. -/
def sdrop (ty : VType) (v : List Byte) (dropped : List (List Byte)) : List (List Byte) := if ty.needsDrop then dropped ++ [v] else dropped
def sunwinds (panics : List Byte → Bool) (ty : VType) (v : List Byte) : Resp := if ty.needsDrop = true ∧ panics v = true then .unwound else .unit

/-- A new variable, if there is room in the slab behind the level. A zero-sized request panics. -/
def salloc (s : Slab) (w : SWorld) (box : SBox) (full : Resp) : Resp × SWorld :=
  if box.ty.layout.size = 0 then (.panicked, w) else
  match s.place box.ty.layout w.level with
  | none => (full, w)
  | some a => (.made, { w with level := a.level, boxes := w.boxes ++ [some box] })

/-- One statement. -/
def sexec (s : Slab) (panics : List Byte → Bool) (w : SWorld) : Op → Resp × SWorld
  | .bumpBox ty => salloc s w ⟨ty, .uninit, []⟩ (.err .exhausted)
  | .getBoxed ty val => salloc s w ⟨ty, .boxed, val⟩ .none
  | .write k val =>
    match w.boxes[k]? with
    | some (some x) => (.unit, { w with boxes := w.boxes.set k (some { x with hold := .boxed, val := val }) })
    | _ => (.unit, w)
  | .deref k =>
    match w.boxes[k]? with
    | some (some x) => (.val x.val, w)
    | _ => (.unit, w)
  | .replace k val =>
    match w.boxes[k]? with
    | some (some x) => (.val x.val, { w with boxes := w.boxes.set k (some { x with val := val }) })
    | _ => (.unit, w)
  | .assign k val =>
    match w.boxes[k]? with
    | some (some x) => (sunwinds panics x.ty x.val, { w with boxes := w.boxes.set k (some { x with val := val }), dropped := sdrop x.ty x.val w.dropped })
    | _ => (.unit, w)
  | .take k =>
    match w.boxes[k]? with
    | some (some x) => (.val x.val, { w with boxes := w.boxes.set k none })
    | _ => (.unit, w)
  | .leak k | .intoRaw k =>
    match w.boxes[k]? with
    | some (some x) => (.unit, { w with boxes := w.boxes.set k (some { x with hold := .bare }) })
    | _ => (.unit, w)
  | .fromRaw k =>
    match w.boxes[k]? with
    | some (some x) => (.unit, { w with boxes := w.boxes.set k (some { x with hold := .boxed }) })
    | _ => (.unit, w)
  | .drop k =>
    match w.boxes[k]? with
    | some (some x) =>
      if x.hold = .uninit then (.unit, { w with boxes := w.boxes.set k none })
      else (sunwinds panics x.ty x.val, { w with boxes := w.boxes.set k none, dropped := sdrop x.ty x.val w.dropped })
    | _ => (.unit, w)
  | .level => (.num w.level, w)
  | .reset => (.unit, { w with level := 0, boxes := w.boxes.map fun _ => none })

def srun (s : Slab) (panics : List Byte → Bool) : SWorld → List Op → List Resp × SWorld
  | w, [] => ([], w)
  | w, op :: ops =>
    let (r, w) := sexec s panics w op
    let (rs, w) := srun s panics w ops
    (r :: rs, w)

/-- The variable exists and has one of the kinds. -/
def Has (w : World) (k : Nat) (holds : List Hold) (size : Nat → Prop := fun _ => True) : Prop := ∃ h, w.hs[k]? = some (some h) ∧ h.hold ∈ holds ∧ size h.ty.layout.size

/-- What types and the borrow checker permit, and the safety sections of `from_raw` and of `Allocation::boxed`: variables have the type required, values the size of their type; a reset needs that there is no box any more (bare pointers
are forgotten). -/
def Permitted (t : Target) (w : World) : Op → Prop
  | .bumpBox ty => ty.layout.ValidType t
  | .getBoxed ty val => ty.layout.ValidType t ∧ val.length = ty.layout.size
  | .write k val => Has w k [.uninit] (· = val.length)
  | .deref k => Has w k [.boxed, .bare]
  | .replace k val | .assign k val => Has w k [.boxed, .bare] (· = val.length)
  | .take k | .leak k | .intoRaw k => Has w k [.boxed]
  | .fromRaw k => Has w k [.bare]
  | .drop k => Has w k [.boxed, .uninit]
  | .level => True
  | .reset => ∀ (k : Nat) (h : Handle), w.hs[k]? = some (some h) → h.hold = .bare

/-- Every statement of the program is permitted when it is executed. -/
def SafeRun (t : Target) (b : MemBump) (panics : List Byte → Bool) : World → List Op → Prop
  | _, [] => True
  | w, op :: ops => Permitted t w op ∧ ∀ r w', exec t b panics w op = .ret (r, w') → SafeRun t b panics w' ops

/-- Before the program: no variables, memory with any contents. -/
def World.init (m : Mem) : World := ⟨m, [], []⟩

/-- The bytes of the bump: its header and its data. -/
def bumpRegion (t : Target) (b : MemBump) : Region := ⟨b.addr, t.wordBytes + b.cap⟩

/-- Memory of the value of a variable. -/
def Handle.region (h : Handle) : Region := ⟨h.addr, h.ty.layout.size⟩

/-- The values moved into variables by the program, and those it got back. -/
def inputOf : Op → Resp → List (List Byte)
  | .getBoxed _ v, .made => [v]
  | .write _ v, _ | .replace _ v, _ | .assign _ v, _ => [v]
  | _, _ => []
def outputOf : Op → Resp → List (List Byte)
  | .replace .., .val v | .take .., .val v => [v]
  | _, _ => []
def inputsOf (ops : List Op) (rs : List Resp) : List (List Byte) := (List.zipWith inputOf ops rs).flatten
def outputsOf (ops : List Op) (rs : List Resp) : List (List Byte) := (List.zipWith outputOf ops rs).flatten

/-- All types used have destructors. -/
def AllDrop (ops : List Op) : Prop := ∀ op ∈ ops, ∀ ty, (op = .bumpBox ty ∨ ∃ v, op = .getBoxed ty v) → ty.needsDrop = true

/-- The statement does not use the variable to change or move the value. -/
def NotUsed (k : Nat) (op : Op) : Prop :=
  op ≠ .reset ∧ (∀ v, op ≠ .write k v ∧ op ≠ .replace k v ∧ op ≠ .assign k v) ∧ op ≠ .take k ∧ op ≠ .drop k

end Verif.Unsync.BumpBoxes
