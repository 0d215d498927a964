import Verif.Model.BumpGlobal
/-!
# Concurrent use of the sync `Bump` as global allocator (`/repo/static-alloc/src/bump.rs:871-974`)

`n` threads call the methods of `GlobalAlloc` (and the other methods by shared reference) on one `Bump<T>`. The
allocation inside of a method runs on the machine of `Model/Bump.lean`, interleaved with the steps of all other threads. Zeroing and copying
is done byte by byte, each a step of its own, in ascending order (core does not specify an order).

The ghost list `live` are the blocks that users own. A call of `realloc` or `dealloc` takes the block away when it is
invoked, the result is given to the users when the call returns.
-/
namespace Verif.Bump.Conc
open Verif AllocTraits

/-- Calls of the users of the global allocator; `api` are the methods of `Bump` itself. Not code of
the repository: the program of the user, any sequence of these. The methods are those of
static-alloc/src/bump.rs:871-908. -/
inductive Op where
  | alloc (l : Layout)
  | allocZeroed (l : Layout)
  | realloc (b : Block) (newSize : Nat)
  | dealloc (b : Block)
  | api (call : Call)
  deriving DecidableEq, Repr

/-- Results: a pointer (0 is null), nothing, the result of a method of `Bump`; panics and undefined
behaviour. Results of these methods. -/
inductive Res where
  | ptr (p : Nat)
  | unit
  | api (r : Ret)
  | panicked
  | ub
  deriving DecidableEq, Repr

/-- The block which a call takes away from its users. Not code of the repository: an auxiliary
function of the machine. -/
def Op.takes : Op → Option Block
  | .realloc b _ | .dealloc b => some b
  | _ => none

/-- The block which a returning call gives to its users. A failed `realloc` leaves the old block to
them. Not code of the repository: an auxiliary function of the machine. -/
def Op.gives : Op → Res → Option Block
  | .alloc l, .ptr p | .allocZeroed l, .ptr p => if p = 0 then none else some ⟨p, l⟩
  | .realloc b newSize, .ptr p => if p = 0 then some b else some ⟨p, ⟨newSize, b.layout.align⟩⟩
  | .api call, .api r => match call.layout, grant call r with
    | some l, some reg => some ⟨reg.start, l⟩
    | _, _ => none
  | _, _ => none

/-- The number of bytes which a call has to zero or to copy. Not code of the repository: an
auxiliary function of the machine. -/
def Op.work : Op → Nat
  | .allocZeroed l => l.size
  | .realloc b ns => min ns b.layout.size
  | _ => 0

/-- Where a thread is. Program points in static-alloc/src/bump.rs:872-908. -/
inductive Pc where
  | idle
  /-- about to execute the first instructions of the method -/
  | start (op : Op)
  /-- inside of the allocation, that is of the machine of `Model/Bump.lean` -/
  | inner (op : Op)
  /-- `alloc_zeroed`: bytes before `i` are written -/
  | zero (l : Layout) (p i : Nat)
  /-- `realloc`: bytes before `i` are copied -/
  | copy (b : Block) (newSize dst i : Nat)
  | ret (op : Op) (r : Res)
  deriving DecidableEq, Repr

/-- The first instructions of the methods: either which method of `Bump` is called, or the result.
Models: `alloc` bump.rs:872-873, `alloc_zeroed` (provided method of core), `realloc` 878-900 with 943-962, `dealloc` 905-907. -/
def start (e : Env) : Op → Outcome (Call ⊕ Res)
  | .alloc l => pure (.inl (.alloc l))
  | .allocZeroed l => pure (.inl (.alloc l))
  | .realloc b newSize => do
    let z ← Outcome.unwrap (NonZeroLayout.fromLayout b.layout)
    match ← layoutReallocated e.target z.align newSize with
    | none => pure (.inr (.ptr 0))
    | some target =>
      if b.ptr % target.align = 0 ∧ z.toLayout.size ≥ target.size then pure (.inr (.ptr b.ptr))
      else pure (.inl (.getLayout target))
  | .dealloc _ => pure (.inr .unit)
  | .api call => pure (.inl call)

/-- What follows the return of the method of `Bump`.
Models: `alloc` 874-875, `alloc_zeroed` of core, `LocalAlloc::alloc` 923-929, `realloc` 962-968 (`copy_nonoverlapping` needs
disjoint ranges) and 901-902. -/
def resume (op : Op) (r : Ret) : Pc :=
  match op, r with
  | .alloc _, .ptr p => .ret op (.ptr p)
  | .alloc _, .none => .ret op (.ptr 0)
  | .allocZeroed l, .ptr p => if p ≠ 0 then .zero l p 0 else .ret op (.ptr p)
  | .allocZeroed _, .none => .ret op (.ptr 0)
  | .realloc b newSize, .allocation a =>
    let n := min newSize b.layout.size
    if n = 0 ∨ b.ptr + n ≤ a.ptr ∨ a.ptr + n ≤ b.ptr then .copy b newSize a.ptr 0 else .ret op .ub
  | .realloc _ _, .none => .ret op (.ptr 0)
  | .api _, r => .ret op (.api r)
  | _, _ => .ret op .panicked

/-- The allocator with its memory, the threads, and the blocks owned by users. Not code of the
repository: the state that the program of the user and the library have together. -/
structure State (n : Nat) where
  bump : Bump.State n
  pc : Fin n → Pc
  live : List Block

/-- Not code of the repository: an auxiliary function of the machine. -/
def setPc {n : Nat} (pc : Fin n → Pc) (t : Fin n) (p : Pc) : Fin n → Pc := fun u => if u = t then p else pc u

/-- Not code of the repository: an auxiliary function of the machine. -/
def State.goto {n : Nat} (s : State n) (t : Fin n) (p : Pc) : State n := { s with pc := setPc s.pc t p }

/-- A write into memory. Not code of the repository: the semantics of the Rust language. -/
def State.poke {n : Nat} (s : State n) (p : Nat) (bs : List Byte) : State n :=
  { s with bump := { s.bump with mem := writeBytes s.bump.mem p bs } }

/-- One step of thread `t`. static-alloc/src/bump.rs:872-908; each case cites its lines. -/
def step {n : Nat} (e : Env) (s : State n) (t : Fin n) : State n :=
  match s.pc t with
  | .idle => s
  | .start op =>
    match start e op with
    | .ret (.inl call) => { (s.goto t (.inner op)) with bump := Bump.exec e s.bump (.invoke t call) }
    | .ret (.inr r) => s.goto t (.ret op r)
    | .panic => s.goto t (.ret op .panicked)
    | .ub => s.goto t (.ret op .ub)
  | .inner op =>
    let s' := { s with bump := Bump.step e s.bump t }
    match s.bump.pc t with
    | .ret _ r => s'.goto t (resume op r)
    | _ => s'
  | .zero l p i =>
    if i < l.size then (s.poke (p + i) [0]).goto t (.zero l p (i + 1))
    else s.goto t (.ret (.allocZeroed l) (.ptr p))
  | .copy b newSize dst i =>
    if i < min newSize b.layout.size then
      (s.poke (dst + i) [s.bump.mem (b.ptr + i)]).goto t (.copy b newSize dst (i + 1))
    else s.goto t (.ret (.realloc b newSize) (.ptr dst))
  | .ret op r => { (s.goto t .idle) with live := (op.gives r).toList ++ s.live }

/-- What may happen next: a thread starts a call, a thread makes a step, users write into a block
they own, the allocator
is reset by somebody with exclusive access (this is not possible for a `static`). Not code of the
repository: the program of the user, any sequence of these. -/
inductive Event (n : Nat) where
  | invoke (t : Fin n) (op : Op)
  | step (t : Fin n)
  | userWrite (b : Block) (off : Nat) (bytes : List Byte)
  | reset
  deriving DecidableEq, Repr

/-- Execute an event, those that are not possible have no effect. Calls of the public methods; each
case cites the method it runs. -/
def exec {n : Nat} (e : Env) (s : State n) : Event n → State n
  | .invoke t op =>
    if s.pc t = .idle ∧ ∀ b ∈ op.takes, b ∈ s.live then
      { (s.goto t (.start op)) with live := match op.takes with | some b => s.live.erase b | none => s.live }
    else s
  | .step t => step e s t
  | .userWrite b off bs =>
    if b ∈ s.live ∧ off + bs.length ≤ b.layout.size then s.poke (b.ptr + off) bs else s
  | .reset =>
    if ∀ t, s.pc t = .idle then { s with bump := Bump.exec e s.bump .reset, live := [] } else s

/-- Not code of the repository: the program of the user, any sequence of these. -/
def run {n : Nat} (e : Env) (s : State n) (evs : List (Event n)) : State n := evs.foldl (exec e) s

/-- Arguments that exist in Rust and fulfill the contract of `GlobalAlloc` for callers (core
documents: layouts and sizes are not zero). Not code of the repository: what the language, or the
documented contract of the methods, demands of callers. -/
def Op.Valid (t : Target) : Op → Prop
  | .alloc l | .allocZeroed l => l.Valid t ∧ 0 < l.size
  | .realloc _ newSize => 0 < newSize
  | .dealloc _ => True
  | .api call => call.Valid t

/-- Not code of the repository: what the language, or the documented contract of the methods,
demands of callers. -/
def Event.Valid {n : Nat} (t : Target) : Event n → Prop
  | .invoke _ op => op.Valid t
  | _ => True

/-- Initial state: an allocator at any level, no live blocks. Not code of the repository: the state
that the program of the user and the library have together. -/
def init (n : Nat) (c : Nat) (m : Mem) : State n := ⟨Bump.init n c m, fun _ => .idle, []⟩

/-- Not code of the repository: what programs can reach. -/
def Reachable {n : Nat} (e : Env) (s : State n) : Prop :=
  ∃ c m evs, c ≤ e.len ∧ (∀ ev ∈ evs, Event.Valid e.target ev) ∧ s = run e (init n c m) evs

end Verif.Bump.Conc
