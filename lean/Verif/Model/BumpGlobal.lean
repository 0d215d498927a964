import Verif.Model.Bump
import Verif.Model.AllocTraits
/-!
# Model of the allocator traits of the sync `Bump` (`/repo/static-alloc/src/bump.rs:871-974`)

Calls are executed one after the other (the concurrent behaviour of the allocation inside is the subject of `Model/Bump.lean`).
The state is the level `consumed` (bump.rs:152) and the memory.
-/
namespace Verif.Bump
open Verif AllocTraits

/-- `Bump::try_alloc_at` executed without interference at level `c`.
Models: bump.rs:583-638 and `bump` 776-786. -/
def tryAllocAtSeq (e : Env) (c : Nat) (l : Layout) (expect : Nat) : Outcome (Except Failure Alloc × Nat) := do
  match ← tryAllocAtPre e l expect with
  | none => pure (.error .exhausted, c)
  | some (atAligned, new) =>
    if c = expect then
      let a ← tryAllocAtPost e atAligned new
      pure (.ok a, new)
    else pure (.error (.mismatch c), c)

/-- The loop of `Bump::try_alloc`, bump.rs:561-573, with a bound on the number of rounds (`ub` if it is not sufficient). -/
def tryAllocLoop (e : Env) (c : Nat) (l : Layout) : Nat → Nat → Outcome (Option Alloc × Nat)
  | 0, _ => .ub
  | fuel + 1, consumed => do
    match ← tryAllocAtSeq e c l consumed with
    | (.ok a, c') => pure (some a, c')
    | (.error .exhausted, c') => pure (none, c')
    | (.error (.mismatch observed), _) => tryAllocLoop e c l fuel observed

/-- `Bump::try_alloc` without interference, bump.rs:561-573. Two rounds are sufficient, see `tryAllocSeq_spec`. -/
def tryAllocSeq (e : Env) (c : Nat) (l : Layout) : Outcome (Option Alloc × Nat) := tryAllocLoop e c l 2 0

/-- `impl LocalAlloc for Bump`: `alloc`, bump.rs:920-930, and `dealloc` 971-973. -/
def localAlloc (e : Env) : LocalAlloc Nat where
  alloc := fun c m l => do
    let (r, c') ← tryAllocSeq e c l
    match r with
    | none => pure (none, c', m)
    | some raw => pure (some ⟨raw.ptr, l⟩, c', m)
  dealloc := fun c m _ => pure (c, m)

/-- `LocalAlloc::realloc` of `Bump`, bump.rs:943-969. -/
def localRealloc (e : Env) (c : Nat) (m : Mem) (alloc : Block) (layout : Layout) : Outcome (Option Block × Nat × Mem) :=
  if alloc.ptr % layout.align = 0 ∧ alloc.layout.size ≥ layout.size then
    pure (some ⟨alloc.ptr, layout⟩, c, m)
  else do
    let (r, c, m) ← (localAlloc e).alloc c m layout
    match r with
    | none => pure (none, c, m)
    | some newAlloc =>
      let m ← copyNonoverlapping m alloc.ptr newAlloc.ptr (min layout.size alloc.layout.size)
      pure (some newAlloc, c, m)

/-- `GlobalAlloc::alloc` of `Bump`, bump.rs:872-876 (`None` becomes null). -/
def globalAlloc (e : Env) (c : Nat) (m : Mem) (l : Layout) : Outcome (Nat × Nat × Mem) := do
  let (r, c) ← tryAllocSeq e c l
  match r with
  | none => pure (0, c, m)
  | some a => pure (a.ptr, c, m)

/-- `GlobalAlloc::alloc_zeroed`, not overridden: the provided method of core calls `alloc` and
zeroes the block if it is not null. (`impl GlobalAlloc` is static-alloc/src/bump.rs:871-908.) Not
code of the repository: the library core, as documented. -/
def globalAllocZeroed (e : Env) (c : Nat) (m : Mem) (l : Layout) : Outcome (Nat × Nat × Mem) := do
  let (p, c, m) ← globalAlloc e c m l
  if p ≠ 0 then pure (p, c, writeZeros m p l.size) else pure (p, c, m)

/-- `layout_reallocated`, bump.rs:910-917. -/
def layoutReallocated (t : Target) (align target : Nat) : Outcome (Option Layout) :=
  match layoutFromSizeAlign t target align with
  | none => pure none
  | some l => do
    let z ← Outcome.unwrap (NonZeroLayout.fromLayout l)
    pure (some z.toLayout)

/-- `GlobalAlloc::realloc` of `Bump`, bump.rs:878-903. -/
def globalRealloc (e : Env) (c : Nat) (m : Mem) (ptr : Nat) (current : Layout) (newSize : Nat) :
    Outcome (Nat × Nat × Mem) := do
  let z ← Outcome.unwrap (NonZeroLayout.fromLayout current)
  match ← layoutReallocated e.target z.align newSize with
  | none => pure (0, c, m)
  | some target =>
    let (r, c, m) ← localRealloc e c m ⟨ptr, z.toLayout⟩ target
    match r with
    | none => pure (0, c, m)
    | some b => pure (b.ptr, c, m)

/-- `GlobalAlloc::dealloc` of `Bump`, bump.rs:905-907. -/
def globalDealloc (c : Nat) (m : Mem) : Outcome (Nat × Mem) := pure (c, m)

/-! Histories of the global allocator -/

/-- State with the ghost list of live blocks. -/
structure GState where
  level : Nat
  mem : Mem
  live : List Block

/-- Operations of users of the global allocator. Not code of the repository: the program of the
user, any sequence of these. The methods are those of static-alloc/src/bump.rs:871-908. -/
inductive GOp where
  | alloc (l : Layout)
  | allocZeroed (l : Layout)
  | realloc (b : Block) (newSize : Nat)
  | dealloc (b : Block)
  | write (b : Block) (off : Nat) (bytes : List Byte)
  deriving DecidableEq, Repr

/-- The contract of `GlobalAlloc` for callers: layouts exist and are not empty, blocks passed are
live. Not code of the repository: what the language, or the documented contract of the methods,
demands of callers. -/
def GOp.Allowed (t : Target) (s : GState) : GOp → Prop
  | .alloc l | .allocZeroed l => l.Valid t ∧ 0 < l.size
  | .realloc b newSize => b ∈ s.live ∧ 0 < newSize
  | .dealloc b => b ∈ s.live
  | .write b off bytes => b ∈ s.live ∧ off + bytes.length ≤ b.layout.size

/-- Execute an operation: the pointer returned (0 for null and for the operations without result),
and the next state. Calls of the public methods; each case cites the method it runs.
(static-alloc/src/bump.rs:351-353, 871-908.) -/
def gexec (e : Env) (s : GState) : GOp → Outcome (Nat × GState)
  | .alloc l => do
    let (p, c, m) ← globalAlloc e s.level s.mem l
    pure (p, ⟨c, m, if p = 0 then s.live else ⟨p, l⟩ :: s.live⟩)
  | .allocZeroed l => do
    let (p, c, m) ← globalAllocZeroed e s.level s.mem l
    pure (p, ⟨c, m, if p = 0 then s.live else ⟨p, l⟩ :: s.live⟩)
  | .realloc b newSize => do
    let (p, c, m) ← globalRealloc e s.level s.mem b.ptr b.layout newSize
    pure (p, ⟨c, m, if p = 0 then s.live else ⟨p, ⟨newSize, b.layout.align⟩⟩ :: s.live.erase b⟩)
  | .dealloc b => do
    let (c, m) ← globalDealloc s.level s.mem
    pure (0, ⟨c, m, s.live.erase b⟩)
  | .write b off bytes => pure (0, { s with mem := writeBytes s.mem (b.ptr + off) bytes })

/-- States reachable by operations allowed by the contract, from any slab without live blocks. Not
code of the repository: what programs can reach. -/
inductive GReach (e : Env) : GState → Prop
  | init {c : Nat} {m : Mem} (hc : c ≤ e.len) : GReach e ⟨c, m, []⟩
  | step {s s' : GState} {op : GOp} {p : Nat} (h : GReach e s) (ha : op.Allowed e.target s)
      (hx : gexec e s op = .ret (p, s')) : GReach e s'

end Verif.Bump
