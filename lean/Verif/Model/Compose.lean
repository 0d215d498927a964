import Verif.Spec.Compose
import Verif.Spec.BumpBoxes
import Verif.Spec.ChainMem
import Verif.Spec.ExitMem
import Verif.Spec.FixedVecBytes
import Verif.Spec.RcMem
import Verif.Spec.BoxMem
/-!
# The data structures of the repository as parts of one program

Each of the byte-level models, put into the form of `Spec/Compose`: the memory is taken out of its state and passed to each call (the copy of the memory that is in the states of the models is not used). No new code is modelled here; the citations are in the models.
-/
namespace Verif.Compose
open Verif

/-- `unsync::MemBump` as an allocator (`/repo/static-alloc/src/unsync/bump.rs:320-327` `get`, 466-468 `level`), whose allocations are for other data structures. -/
inductive AOp where
  | get (l : Layout)
  | level
  deriving DecidableEq, Repr
/-- Not code of the repository: an auxiliary function of the machine. -/
inductive AResp where
  | some (ptr : Nat) | none | panicked | num (n : Nat)
  deriving DecidableEq, Repr

/-- Memory blocks of an `unsync::MemBump`, `Model/Unsync`, as a machine: see there for the code. -/
def allocMachine (t : Target) (b : Unsync.MemBump) : Machine where
  St := Unit
  Op := AOp
  Resp := AResp
  Sp := Nat
  exec _ m
    | .get l =>
      match b.get t m l with
      | .ub => none
      | .panic => some (.panicked, (), m)
      | .ret (Option.none, m) => some (.none, (), m)
      | .ret (Option.some a, m) => some (.some a.ptr, (), m)
    | .level => some (.num (b.level t m), (), m)
  permitted _ _
    | .get l => l.Valid t
    | .level => True
  sexec n
    | .get l =>
      if l.size = 0 then (.panicked, n) else
      match (⟨b.addr + t.wordBytes, b.cap⟩ : Slab).place l n with
      | Option.none => (.none, n)
      | Option.some a => (.some a.ptr, a.level)
    | .level => (.num n, n)
  halts _ := false
  own := Region.Has ⟨b.addr, t.wordBytes⟩
  start := ()
  ready m := b.level t m ≤ b.cap
  sstart m := b.level t m

/-- `LeakBox`es in an `unsync::MemBump`, `Model/BumpBoxes`. See there for the code. -/
def boxMachine (t : Target) (b : Unsync.MemBump) (panics : List Byte → Bool) : Machine where
  St := Unsync.BumpBoxes.World
  Op := Unsync.BumpBoxes.Op
  Resp := Unsync.BumpBoxes.Resp
  Sp := Unsync.BumpBoxes.SWorld
  exec w m op :=
    match Unsync.BumpBoxes.exec t b panics { w with mem := m } op with
    | .ret (r, w) => some (r, w, w.mem)
    | _ => none
  permitted w m op := Unsync.BumpBoxes.Permitted t { w with mem := m } op
  sexec := Unsync.BumpBoxes.sexec ⟨b.addr + t.wordBytes, b.cap⟩ panics
  halts _ := false
  own := Region.Has ⟨b.addr, t.wordBytes + b.cap⟩
  start := ⟨fun _ => 0, [], []⟩
  ready m := b.level t m ≤ b.cap
  sstart m := ⟨b.level t m, [], []⟩

/-- `exit_stack::ExitStack`, `Model/ExitMem`. See there for the code. -/
def exitMachine (c : Exit.ExitMem.Cfg) : Machine where
  St := Exit.ExitMem.BState
  Op := Exit.ExitMem.BOp
  Resp := Exit.ExitMem.Seen
  Sp := Exit.ExitMem.SState
  exec b m op :=
    match Exit.ExitMem.bexec c { b with mem := m } op with
    | .ret r b => some (.ret r, b, b.mem)
    | .unwound b => some (.unwound, b, b.mem)
    | .abort => some (.aborted, b, m)
    | .ub => none
  permitted b m op := op.Allowed c { b with mem := m }
  sexec s op :=
    match Exit.ExitMem.sexec c s op with
    | .ret r s => (.ret r, s)
    | .unwound s => (.unwound, s)
    | .abort => (.aborted, s)
  halts r := decide (r = .aborted)
  own := c.Own
  start := ⟨fun _ => 0, [], [], [], 0, true⟩
  -- as `ExitStack::new` leaves it
  ready m := loadUsize c.t m c.addr = 0 ∧ Exit.ExitMem.loadHandle c.t m c.topAddr = none
  sstart _ := ⟨0, [], [], [], true⟩

/-- Pieces of memory and `without_alloc::Box`es in the given bytes, `Model/BoxMem`. See there for
the code. -/
def pieceMachine (t : Target) (panics : Layout → List Byte → Bool) (mine : Nat → Prop) : Machine where
  St := BoxMem.World
  Op := BoxMem.Op
  Resp := BoxMem.Resp
  Sp := BoxMem.SWorld
  exec w m op :=
    match BoxMem.exec t panics { w with mem := m } op with
    | .ret (r, w) => some (r, w, w.mem)
    | _ => none
  permitted w m op := BoxMem.Permitted t mine { w with mem := m } op
  sexec := BoxMem.sexec t panics
  halts _ := false
  own := mine
  start := .init fun _ => 0
  ready _ := True
  sstart _ := .init

/-- Any number of `FixedVec`s with elements of one type, `Model/FixedVecBytes`, whose memory is
from the given bytes. See there for the code. -/
def vecMachine (t : Target) (T : Layout) (checks : Bool) (panics : FVec.Bits T → Bool) (mine : Nat → Prop) : Machine where
  St := FVec.BWorld T
  Op := FVec.Op (FVec.Bits T)
  Resp := FVec.Resp (FVec.Bits T)
  Sp := FVec.SWorld (FVec.Bits T)
  exec w m op :=
    match FVec.Bytes.exec t checks panics { w with heap := { w.heap with mem := m } } op with
    | .ret (r, w) => some (r, w, w.heap.mem)
    | _ => none
  permitted w _ op := FVec.Bytes.Permitted t w op ∧ FVec.NoWrap t checks op ∧ ∀ addr len, op = .new addr len → ∀ x, Region.Has ⟨addr, len⟩ x → mine x
  sexec := FVec.sexec t T panics
  halts r := match r with | .abort _ => true | _ => false
  own := mine
  start := FVec.Bytes.init fun _ => 0
  ready _ := True
  sstart _ := FVec.SWorld.init

/-- `Rc` and `Weak` of one type, `Model/RcMem`, in the blocks of memory that satisfy `mine`. See
there for the code. -/
def rcMachine (c : RcMem.Cfg) (checks : Bool) (mine : Nat → Prop) : Machine where
  St := RcMem.BWorld
  Op := RcMem.BOp
  Resp := RcMem.BResp
  Sp := RcM.SWorld (List Byte)
  exec w m op :=
    match RcMem.bexec c checks { w with m := m } op with
    | .ret (r, w) => some (r, w, w.m)
    | _ => none
  permitted w m op := RcMem.Allowed c { w with m := m } op ∧ (∀ a v, op = .call (.new a v) → mine a) ∧ ∀ a off bs, op = .raw a off bs → mine a
  sexec s op := RcM.sexec s (RcMem.specOp op)
  halts _ := false
  own x := ∃ a, mine a ∧ (c.region a).Has x
  start := .initial fun _ => 0
  ready _ := True
  sstart _ := .init

/-- `unsync::Chain`s, `Model/ChainMem`, whose links the allocator puts in the given bytes. See
there for the code. -/
def chainMachine (c : Unsync.ChainMem.Cfg) (mine : Nat → Prop) : Machine where
  St := Unsync.ChainMem.BState
  Op := Unsync.COp
  Resp := Unsync.CRet
  Sp := Unsync.ChainMem.Chains
  exec b m op :=
    match Unsync.ChainMem.bexec c { b with heap := { b.heap with mem := m } } (.call op) with
    | .ret (r, b) => some (r, b, b.heap.mem)
    | _ => none
  permitted b _ op := (Unsync.ChainMem.BOp.call op).Allowed c b ∧
    ∀ h size a L, op = .new h size (some a) → Unsync.linkLayoutFromSize c.t size = some L → ∀ x, Region.Has ⟨a, L.size⟩ x → mine x
  sexec σ op := Unsync.ChainMem.sexec c.t σ (.call op)
  halts _ := false
  own := mine
  start := .init fun _ => 0
  ready _ := True
  sstart _ := fun _ => none

end Verif.Compose
