import Verif.Spec.Unsync
import Verif.Spec.LocalAlloc
import Verif.Model.AllocTraits
/-!
# Model of `static_alloc::unsync` (`/repo/static-alloc/src/unsync/bump.rs`)

Sequential functions over a byte memory. The level (`index`) lives in the memory, in the header of the `MemBump`.
Simplifications: `align_of::<usize>()` equals `size_of::<usize>()` (all common targets); the `usize` is stored little-endian (only
used through load/store at the same address). `debug_assert!`s are executed.
-/
namespace Verif

/-- Little-endian decoding of an unsigned integer. Not code of the repository: the semantics of the
Rust language. -/
def leNat : List Byte → Nat
  | [] => 0
  | b :: bs => b.toNat + 256 * leNat bs
/-- Little-endian encoding in `k` bytes. Not code of the repository: the semantics of the Rust
language. -/
def leBytes : Nat → Nat → List Byte
  | 0, _ => []
  | k + 1, n => UInt8.ofNat n :: leBytes k (n / 256)
/-- Read a `usize`. Not code of the repository: the semantics of the Rust language. -/
def loadUsize (t : Target) (m : Mem) (a : Nat) : Nat := leNat (readBytes m a t.wordBytes)
/-- Write a `usize`. Not code of the repository: the semantics of the Rust language. -/
def storeUsize (t : Target) (m : Mem) (a v : Nat) : Mem := writeBytes m a (leBytes t.wordBytes v)

namespace Unsync

/-- `&MemBump`: a pointer to the struct with the length of the trailing slice as metadata.
Models: `struct MemBump` bump.rs:81-100 (`repr(C)`, `index: Cell<usize>`, `data: [u8]`). -/
structure MemBump where
  addr : Nat
  cap : Nat
  deriving DecidableEq, Repr

/-- `MemBump::header_layout`, bump.rs:232-234. -/
def headerLayout (t : Target) : Layout := ⟨t.wordBytes, t.wordBytes⟩
/-- `MemBump::data_layout`, bump.rs:237-239. -/
def dataLayout (t : Target) (size : Nat) : Option Layout := layoutArray t ⟨1, 1⟩ size
/-- `MemBump::layout_from_size`, bump.rs:243-247. -/
def layoutFromSize (t : Target) (size : Nat) : Option Layout :=
  match dataLayout t size with
  | none => none
  | some dataTail =>
    match layoutExtend t (headerLayout t) dataTail with
    | none => none
    | some (layout, _) => some (layoutPadToAlign layout)

namespace MemBump
/-- `MemBump::data_ptr`, bump.rs:266-268: address of the second field of the `repr(C)` struct. -/
def dataPtr (t : Target) (b : MemBump) : Nat := b.addr + alignUp 1 t.wordBytes
/-- `MemBump::capacity`, bump.rs:252-257. -/
def capacity (b : MemBump) : Nat := b.cap
/-- `Layout::for_value(&MemBump)`: repr(C) layout of the struct with a tail of `cap` bytes.
static-alloc/src/unsync/bump.rs:82-100; not code of the repository: the semantics of the Rust
language. -/
def layoutForValue (t : Target) (b : MemBump) : Layout := ⟨alignUp t.wordBytes (t.wordBytes + b.cap), t.wordBytes⟩
/-- `MemBump::level`, bump.rs:466-468. -/
def level (t : Target) (b : MemBump) (m : Mem) : Nat := loadUsize t m b.addr
/-- `MemBump::reset`, bump.rs:474-476. -/
def reset (t : Target) (b : MemBump) (m : Mem) : Mem := storeUsize t m b.addr 0

/-- `MemBump::bump`, bump.rs:551-561. -/
def bump (t : Target) (b : MemBump) (m : Mem) (expect consume : Nat) : Outcome (Except Nat Unit × Mem) := do
  Outcome.assert (consume ≤ b.capacity)
  Outcome.assert (expect ≤ consume)
  let prev := b.level t m
  if prev ≠ expect then pure (.error prev, m)
  else pure (.ok (), storeUsize t m b.addr consume)

/-- `MemBump::try_alloc_at`, bump.rs:489-549. -/
def tryAllocAt (t : Target) (b : MemBump) (m : Mem) (layout : Layout) (expectConsumed : Nat) :
    Outcome (Except Failure Alloc × Mem) := do
  Outcome.assert (layout.size > 0)
  let length := b.cap
  let basePtr := b.dataPtr t
  let alignment := layout.align
  let requested := layout.size
  Outcome.assert (expectConsumed ≤ length)
  let available ← Outcome.unwrap (Usize.checkedSub length expectConsumed)
  let ptrTo := Usize.wrappingAdd t basePtr expectConsumed
  let offset := alignOffsetU8 ptrTo alignment
  -- `if Some(requested) > available.checked_sub(offset)`
  let exhausted := match Usize.checkedSub available offset with
    | none => true
    | some rest => decide (requested > rest)
  if exhausted = true then pure (.error .exhausted, m)
  else
    Outcome.assert (offset < available)
    let atAligned ← Outcome.unwrap (Usize.checkedAdd t expectConsumed offset)
    let newConsumed ← Outcome.unwrap (Usize.checkedAdd t atAligned requested)
    Outcome.assert (newConsumed ≤ length)
    Outcome.assert (atAligned < length)
    let (r, m) ← b.bump t m expectConsumed newConsumed
    match r with
    | .error observed => pure (.error (.mismatch observed), m)
    | .ok () =>
      let aligned := basePtr + atAligned
      Outcome.assert (aligned ≠ 0) -- `NonNull::new(aligned).unwrap()`
      pure (.ok ⟨aligned, newConsumed⟩, m)

/-- `MemBump::try_alloc`, bump.rs:478-487; `unreachable!` is a panic. -/
def tryAlloc (t : Target) (b : MemBump) (m : Mem) (layout : Layout) : Outcome (Option Alloc × Mem) := do
  let consumed := b.level t m
  let (r, m) ← b.tryAllocAt t m layout consumed
  match r with
  | .ok a => pure (some a, m)
  | .error .exhausted => pure (none, m)
  | .error (.mismatch _) => .panic

/-- `MemBump::alloc`, bump.rs:280-282. -/
def alloc (t : Target) (b : MemBump) (m : Mem) (layout : Layout) : Outcome (Option Nat × Mem) := do
  let (r, m) ← b.tryAlloc t m layout
  pure (r.map (·.ptr), m)
/-- `MemBump::alloc_at`, bump.rs:292-295. -/
def allocAt (t : Target) (b : MemBump) (m : Mem) (layout : Layout) (level : Nat) : Outcome (Except Failure Nat × Mem) := do
  let (r, m) ← b.tryAllocAt t m layout level
  pure (r.map (·.ptr), m)
/-- `MemBump::get`, bump.rs:320-327. -/
def get (t : Target) (b : MemBump) (m : Mem) (V : Layout) : Outcome (Option Alloc × Mem) := b.tryAlloc t m V
/-- `MemBump::get_at`, bump.rs:335-342. -/
def getAt (t : Target) (b : MemBump) (m : Mem) (V : Layout) (level : Nat) : Outcome (Except Failure Alloc × Mem) :=
  b.tryAllocAt t m V level
/-- `MemBump::get_unchecked`, bump.rs:392-403. -/
def getUnchecked (t : Target) (b : MemBump) (level : Nat) : Outcome Alloc := do
  Outcome.assert (level < b.capacity)
  pure ⟨b.dataPtr t + level, level⟩
/-- `MemBump::bump_box`, bump.rs:434-439. -/
def bumpBox (t : Target) (b : MemBump) (m : Mem) (T : Layout) : Outcome (Except Failure Nat × Mem) := do
  let (r, m) ← b.getAt t m T (b.level t m)
  pure (r.map (·.ptr), m)
/-- `MemBump::bump_array`, bump.rs:454-463. -/
def bumpArray (t : Target) (b : MemBump) (m : Mem) (T : Layout) (n : Nat) : Outcome (Except Failure Nat × Mem) :=
  match layoutArray t T n with
  | none => pure (.error .exhausted, m)
  | some layout => do
    let (r, m) ← b.alloc t m layout
    match r with
    | none => pure (.error .exhausted, m)
    | some raw => pure (.ok raw, m)

/-! Construction -/

/-- `MemBump::from_aligned_mem`, bump.rs:181-197. The subtraction panics on underflow (checked arithmetic; it never happens). -/
def fromAlignedMem (t : Target) (mem : Region) : Outcome MemBump := do
  let header := headerLayout t
  let datasize ← Outcome.unwrap (Usize.checkedSub mem.size header.size)
  let datasize := datasize - datasize % header.align
  Outcome.assert (((layoutFromSize t datasize).map fun l => decide (l.size ≤ mem.size)) = some true)
  pure ⟨mem.start, datasize⟩
/-- `MemBump::from_mem_unchecked`, bump.rs:174-177. -/
def fromMemUnchecked (t : Target) (mem : Region) : Outcome MemBump := fromAlignedMem t mem
/-- `MemBump::from_mem`, bump.rs:150-159. -/
def fromMem (t : Target) (m : Mem) (mem : Region) : Outcome (Option MemBump × Mem) :=
  let header := headerLayout t
  let offset := alignOffsetU8 mem.start header.align
  if mem.size < offset then pure (none, m) else
  let mem : Region := ⟨mem.start + offset, mem.size - offset⟩
  if mem.size < header.size then pure (none, m) else do
  let m := writeZeros m mem.start header.size
  let b ← fromMemUnchecked t mem
  pure (some b, m)
/-- `MemBump::into_mem`, bump.rs:221-225. -/
def intoMem (t : Target) (b : MemBump) : Region := ⟨b.addr, (b.layoutForValue t).size⟩

/-- `MemBump::new`, bump.rs:127-133, given the answer of the heap: the address of a block of the layout, in memory `m`
with unspecified contents. `alloc::alloc::alloc` does not initialise the memory, and neither does `new`. -/
def new (t : Target) (capacity : Nat) (heap : Layout → Nat) : Outcome MemBump := do
  let layout ← Outcome.unwrap (layoutFromSize t capacity)
  pure ⟨heap layout, capacity⟩
end MemBump

/-! The typed wrapper -/

/-- `unsync::Bump<T>` at an address. Models `struct Bump<T>` bump.rs:65-72 (`repr(C)`, `_index: Cell<usize>`, `_data: T`). -/
structure TBump where
  addr : Nat
  T : Layout
  deriving DecidableEq, Repr

namespace TBump
/-- `Layout::new::<Bump<T>>()`: the repr(C) layout. static-alloc/src/unsync/bump.rs:66-72; Not code
of the repository: the semantics of the Rust language. -/
def layout (t : Target) (b : TBump) : Layout :=
  let align := max t.wordBytes b.T.align
  ⟨alignUp align (alignUp b.T.align t.wordBytes + b.T.size), align⟩
/-- Bytes of the field `_data`. static-alloc/src/unsync/bump.rs:66-72. -/
def dataField (t : Target) (b : TBump) : Region := ⟨b.addr + alignUp b.T.align t.wordBytes, b.T.size⟩
/-- `Bump::uninit`, bump.rs:106-111 and `zeroed` 116-121 (the data is not relevant): the memory after construction at the address. -/
def init (t : Target) (b : TBump) (m : Mem) : Mem := storeUsize t m b.addr 0
/-- `Deref::deref`, bump.rs:566-577, also `deref_mut` 581-592; the `debug_assert_eq!` if `debug`. -/
def deref (t : Target) (debug : Bool) (b : TBump) : Outcome MemBump :=
  let bump : MemBump := ⟨b.addr, b.T.size⟩
  if debug = true ∧ b.layout t ≠ bump.layoutForValue t then .panic else pure bump
end TBump

/-! Histories -/

/-- Memory, and (ghost) the blocks handed out since the last reset. -/
structure UState where
  mem : Mem
  granted : List Block

/-- Operations of users: calls, reset (needs exclusive access: ends all borrows), and writes into a
block by its owner. Not code of the repository: the program of the user, any sequence of these. The
methods are those of static-alloc/src/unsync/bump.rs:266-475. -/
inductive UOp where
  | call (c : UCall)
  | reset
  | write (b : Block) (off : Nat) (bytes : List Byte)
  deriving DecidableEq, Repr

/-- Run one call: its result and the memory. A panic unwinds out of the call; all assertions come
before the first store, see `tryAllocAt`. Calls of the public methods; each case cites the method
it runs. (static-alloc/src/unsync/bump.rs:266-471.) -/
def runCall (t : Target) (b : MemBump) (m : Mem) (c : UCall) : Outcome (Ret × Mem) :=
  match c with
  | .alloc l => do let (r, m) ← b.alloc t m l; pure (match r with | some p => .ptr p | none => .none, m)
  | .allocAt l n => do let (r, m) ← b.allocAt t m l n; pure (match r with | .ok p => .ptr p | .error f => .err f, m)
  | .get V => do let (r, m) ← b.get t m V; pure (match r with | some a => .allocation a | none => .none, m)
  | .getAt V n => do let (r, m) ← b.getAt t m V n; pure (match r with | .ok a => .allocation a | .error f => .err f, m)
  | .bumpBox V => do let (r, m) ← b.bumpBox t m V; pure (match r with | .ok p => .ptr p | .error f => .err f, m)
  | .bumpArray V n => do let (r, m) ← b.bumpArray t m V n; pure (match r with | .ok p => .ptr p | .error f => .err f, m)
  | .level => pure (.level (b.level t m), m)

/-- Execute an operation; `none` stands for undefined behaviour. Calls of the public methods; each
case cites the method it runs. `reset` is static-alloc/src/unsync/bump.rs:474-476. -/
def uexec (t : Target) (b : MemBump) (s : UState) (op : UOp) : Option (Ret × UState) :=
  match op with
  | .call c =>
    match runCall t b s.mem c with
    | .ub => none
    | .panic => some (.panicked, s)
    | .ret (r, m) => some (r, ⟨m, match c.layout, r.ptr? with
      | some l, some p => ⟨p, l⟩ :: s.granted
      | _, _ => s.granted⟩)
  | .reset => some (.none, ⟨b.reset t s.mem, []⟩)
  | .write blk off bytes => some (.none, { s with mem := writeBytes s.mem (blk.ptr + off) bytes })

/-- What the type system and the validity of references demand of operations. Not code of the
repository: what the language, or the documented contract of the methods, demands of callers. -/
def UOp.Allowed (t : Target) (s : UState) : UOp → Prop
  | .call c => c.Valid t
  | .reset => True
  | .write blk off bytes => blk ∈ s.granted ∧ off + bytes.length ≤ blk.layout.size

/-- A `MemBump` reference as guaranteed by the language: aligned, not wrapping. Not code of the
repository: what the language, or the documented contract of the methods, demands of callers. -/
structure MemBump.Valid (t : Target) (b : MemBump) : Prop where
  addr_pos : 0 < b.addr
  aligned : t.wordBytes ∣ b.addr
  no_wrap : b.addr + t.wordBytes + b.cap ≤ t.W
  cap_le : b.cap ≤ t.isizeMax

/-- States reachable from a `MemBump` whose level is at most its capacity, with nothing borrowed
from it. Not code of the repository: what programs can reach. -/
inductive UReach (t : Target) (b : MemBump) : UState → Prop
  | init {m : Mem} (h : b.level t m ≤ b.cap) : UReach t b ⟨m, []⟩
  | step {s s' : UState} {op : UOp} {r : Ret} (h : UReach t b s) (ha : op.Allowed t s)
      (hx : uexec t b s op = some (r, s')) : UReach t b s'

end Unsync
end Verif
