import Verif.Model.ExitMem
import Verif.Spec.Slab
/-!
# Specification of the exit stack: a list of values, the last pinned first

No memory; only the level of the slab is left, which decides whether there is room.
-/
namespace Verif.Exit.ExitMem
open Verif Unsync

/-- A pinned value: its slot, its type, and its bytes. -/
structure Entry where
  slot : Handle
  val : List Byte
  deriving DecidableEq, Repr

structure SState where
  level : Nat
  stack : List Entry
  open_ : List Handle
  log : List (Option Nat × Nat × List Byte)
  alive : Bool
  deriving DecidableEq, Repr

inductive SOut (α : Type) where
  | ret (a : α) (s : SState)
  | unwound (s : SState)
  | abort
  deriving DecidableEq, Repr

/-- The memory for slots: as large as one slot for `Mem`, behind the level (one word). -/
def Cfg.slab (c : Cfg) : Slab := ⟨c.addr + c.t.wordBytes, (c.slotLayout c.M).size⟩

/-- The bytes of the stack: level and slots, and the field `top`. -/
def Cfg.Own (c : Cfg) (x : Nat) : Prop := Region.Has ⟨c.addr, c.t.wordBytes + (c.slotLayout c.M).size⟩ x ∨ Region.Has ⟨c.topAddr, 2 * c.t.wordBytes⟩ x

/-- The debug assertion in `Deref for Bump` fails. -/
def Cfg.asserts (c : Cfg) : Bool := c.debug && decide (c.t.wordBytes < (c.vt.layout c.M).align)

/-- Run the destructors from the top on, up to and including the first that unwinds. Whether one did, and the log. -/
def dropFrom (vt : VTables) : List Entry → List (Option Nat × Nat × List Byte) → Bool × List (Option Nat × Nat × List Byte)
  | [], log => (false, log)
  | e :: es, log => if vt.panics e.slot.vtable e.val then (true, log ++ [(some e.slot.addr, e.slot.vtable, e.val)]) else dropFrom vt es (log ++ [(some e.slot.addr, e.slot.vtable, e.val)])

/-- Drop everything. If a destructor unwinds (or the assertion fails), the level stays and what was not dropped is lost. -/
def sclear (c : Cfg) (s : SState) : SOut Unit :=
  let (panicked, log) := dropFrom c.vt s.stack s.log
  if panicked || c.asserts then .unwound { s with stack := [], open_ := [], log := log } else .ret () { s with level := 0, stack := [], open_ := [], log := log }

/-- A slot, if there is room behind the level. -/
def sslot (c : Cfg) (s : SState) (ty : Nat) : SOut (Option Nat) :=
  if c.asserts then .unwound s else
  match c.slab.place (c.slotLayout ty) s.level with
  | none => .ret none s
  | some a => .ret (some a.ptr) { s with level := a.level }

def sdropArgument (c : Cfg) (s : SState) (value : List Byte) : SOut ERet :=
  if c.vt.panics c.M value then .abort else .unwound { s with log := s.log ++ [(none, c.M, value)] }

def sexec (c : Cfg) (s : SState) : BOp → SOut ERet
  | .slot ty =>
    match sslot c s ty with
    | .ret (some p) s => .ret (.addr p) { s with open_ := ⟨p, ty⟩ :: s.open_ }
    | .ret none s => .ret .none s
    | .unwound s => .unwound s
    | .abort => .abort
  | .pin h value _ => .ret (.addr (c.valueAddr h)) { s with stack := ⟨h, value⟩ :: s.stack, open_ := s.open_.erase h }
  | .set value _ =>
    match sclear c s with
    | .ret () s =>
      match sslot c s c.M with
      | .ret (some p) s => .ret (.addr (c.valueAddr ⟨p, c.M⟩)) { s with stack := [⟨⟨p, c.M⟩, value⟩] }
      | .ret none s => sdropArgument c s value
      | .unwound s => sdropArgument c s value
      | .abort => .abort
    | .unwound s => sdropArgument c s value
    | .abort => .abort
  | .popAll =>
    match sclear c s with
    | .ret () s => .ret .unit s
    | .unwound s => .unwound s
    | .abort => .abort
  | .write h value => .ret .unit { s with stack := s.stack.map fun e => if e.slot = h then { e with val := value } else e }
  | .drop =>
    match sclear c { s with alive := false } with
    | .ret () s => .ret .unit s
    | .unwound s => .unwound s
    | .abort => .abort

/-- What a program sees: the answers, and whether a call unwound; after an abort nothing. -/
inductive Seen where
  | ret (r : ERet) | unwound | aborted
  deriving DecidableEq, Repr

def srun (c : Cfg) : SState → List BOp → List Seen × Option SState
  | s, [] => ([], some s)
  | s, op :: ops =>
    match sexec c s op with
    | .ret r s => let (rs, s) := srun c s ops; (.ret r :: rs, s)
    | .unwound s => let (rs, s) := srun c s ops; (.unwound :: rs, s)
    | .abort => ([.aborted], none)

/-- A program on bytes; `none` if there is undefined behaviour. -/
def brun (c : Cfg) : BState → List BOp → Option (List Seen × Option BState)
  | s, [] => some ([], some s)
  | s, op :: ops =>
    match bexec c s op with
    | .ret r s => (brun c s ops).map fun (rs, s) => (.ret r :: rs, s)
    | .unwound s => (brun c s ops).map fun (rs, s) => (.unwound :: rs, s)
    | .abort => some ([.aborted], none)
    | .ub => none

/-- Each operation of the program is one that is possible when its turn comes. -/
def SafeRun (c : Cfg) : BState → List BOp → Prop
  | _, [] => True
  | s, op :: ops => op.Allowed c s ∧ ∀ s', (bexec c s op = .unwound s' ∨ ∃ r, bexec c s op = .ret r s') → SafeRun c s' ops

/-- Following the pointers in the memory finds these entries with these bytes, then a null pointer. -/
def Found (c : Cfg) (m : Mem) : Option Handle → List Entry → Prop
  | none, [] => True
  | some h, e :: es => e.slot = h ∧ readBytes m (c.valueAddr h) (c.valueSize h.vtable) = e.val ∧ Found c m (loadHandle c.t m h.addr) es
  | _, _ => False

/-- The memory shows the stack. -/
structure Shows (c : Cfg) (b : BState) (s : SState) : Prop where
  stack : Found c b.mem (loadHandle c.t b.mem c.topAddr) s.stack
  level : loadUsize c.t b.mem c.addr = s.level
  live : b.live = s.stack.map (·.slot)
  open_ : b.open_ = s.open_
  log : b.log = s.log
  alive : b.alive = s.alive

end Verif.Exit.ExitMem
