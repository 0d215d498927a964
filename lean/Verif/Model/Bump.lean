import Verif.Spec.BumpHist
import Verif.Model.Rust
/-!
# Model of the sync allocator `static_alloc::Bump<T>` (`/repo/static-alloc/src/bump.rs`)

A machine of `n` threads which call methods of one shared `Bump<T>`. Each thread executes the code of
the method; one machine step runs the thread's local code including at most one access to
shared memory (`consumed` or the bytes of the storage). A schedule is any list of events.

Simplifications: a value is its list of bytes; lifetimes are not represented except for the rule that `reset` needs
exclusive access (enabled only if no thread is inside of a call; it ends all borrows). The machine starts with an arbitrary level
`≤ len`: this covers `Bump` values which were used and then moved to the address `base`.
-/
namespace Verif.Bump

/-- The fixed surroundings: the target, address of the storage (`storage.get()`), `mem::size_of::<T>()` and
the addresses of `&[Z; 0]` constants by alignment.
Models: `struct Bump<T>` bump.rs:147-158 (field `storage`). -/
structure Env where
  target : Target
  base : Nat
  len : Nat
  zst : ZstAddr

/-- The slab of memory in the terms of the specification. Not code of the repository: an auxiliary
function of the machine. -/
def Env.slab (e : Env) : Slab := ⟨e.base, e.len⟩

/-- What the Rust language guarantees about `storage` and about references to zero-sized arrays.
Not code of the repository: what the language, or the documented contract of the methods, demands
of callers. -/
structure Env.Valid (e : Env) : Prop where
  base_pos : 0 < e.base
  no_wrap : e.base + e.len ≤ e.target.W
  len_le : e.len ≤ e.target.isizeMax
  zst_ok : ∀ a, IsPow2 a → 0 < e.zst a ∧ a ∣ e.zst a

/-- The assertions in `Bump::bump`, bump.rs:776-778. -/
def bumpAsserts (e : Env) (expectConsumed newConsumed : Nat) : Outcome Unit := do
  Outcome.assert (expectConsumed ≤ newConsumed)
  Outcome.assert (newConsumed ≤ e.len)

/-- `Bump::try_alloc_at` up to the compare-exchange (local computation): `none` for
`Err(Exhausted)`, otherwise `(at_aligned, new_consumed)`.
Models: bump.rs:583-617 and the assertions of `bump` (776-778). -/
def tryAllocAtPre (e : Env) (layout : Layout) (expectConsumed : Nat) :
    Outcome (Option (Nat × Nat)) := do
  Outcome.assert (layout.size > 0)
  let length := e.len
  let basePtr := e.base
  let alignment := layout.align
  let requested := layout.size
  Outcome.assert (expectConsumed ≤ length)
  let available ← Outcome.unwrap (Usize.checkedSub length expectConsumed)
  let ptrTo := Usize.wrappingAdd e.target basePtr expectConsumed
  let offset := alignOffsetU8 ptrTo alignment
  if requested > Usize.saturatingSub available offset then
    pure none
  else
    Outcome.assert (offset < available)
    let atAligned ← Outcome.unwrap (Usize.checkedAdd e.target expectConsumed offset)
    let newConsumed ← Outcome.unwrap (Usize.checkedAdd e.target atAligned requested)
    Outcome.assert (newConsumed ≤ length)
    Outcome.assert (atAligned < length)
    bumpAsserts e expectConsumed newConsumed
    pure (some (atAligned, newConsumed))

/-- `Bump::try_alloc_at` after a successful compare-exchange: pointer and level.
Models: bump.rs:626-637 (`NonNull::new(aligned).unwrap()`). -/
def tryAllocAtPost (e : Env) (atAligned newConsumed : Nat) : Outcome Alloc :=
  let aligned := e.base + atAligned
  if aligned = 0 then .panic else .ret ⟨aligned, newConsumed⟩

/-- What a thread does next. Program points between the accesses to shared memory in
static-alloc/src/bump.rs:363-786. -/
inductive Pc where
  /-- not inside of a call -/
  | idle
  /-- about to execute the body of `try_alloc_at(layout, guess)`; `retry` if called from the loop of `try_alloc` -/
  | attempt (call : Call) (layout : Layout) (retry : Bool) (guess : Nat)
  /-- about to execute `consumed.compare_exchange(expect, new)`, bump.rs:780-785 -/
  | cas (call : Call) (layout : Layout) (retry : Bool) (expect atAligned new : Nat)
  /-- about to execute `consumed.load()` in `level`, bump.rs:557-559 -/
  | load (call : Call)
  /-- about to `ptr::write` the value of the call into the allocation -/
  | write (call : Call) (a : Alloc)
  /-- about to return -/
  | ret (call : Call) (r : Ret)
  deriving DecidableEq, Repr

/-- The first instructions of each method, up to its first shared access or loop.
Models: `alloc` 363-365, `alloc_at` 375-378, `get_layout` 393-397, `get_layout_at` 408-412, `get` 435-441, `get_at` 455-468,
`leak_box` 532-533, `leak_box_at` 544-545, `level` 557-559, `try_alloc` 561-566 (`consumed = 0`), `leak` 701-702, `leak_at` 744-747,
`zst_fake_alloc` 759-761. -/
def enter (call : Call) : Pc :=
  match call with
  | .alloc l => .attempt call l true 0
  | .allocAt l n => .attempt call l false n
  | .getLayout l => .attempt call l true 0
  | .getLayoutAt l n => .attempt call l false n
  | .get V => if V.size = 0 then .load call else .attempt call V true 0
  | .getAt V n => if V.size = 0 then .load call else .attempt call V false n
  | .leak V _ => if V.size = 0 then .load call else .attempt call V true 0
  | .leakAt V _ n => if V.size = 0 then .load call else .attempt call V false n
  | .leakBox V _ => if V.size = 0 then .load call else .attempt call V true 0
  | .leakBoxAt V _ n => if V.size = 0 then .load call else .attempt call V false n
  | .level => .load call

/-- The continuation of each method after a successful allocation.
Models: `alloc` 364, `alloc_at` 380-384, `get` 443-447, `get_at` 470-475, `leak_box` 533-536, `leak_box_at` 545-548, `leak` 704, `leak_at` 750-755. -/
def onOk (call : Call) (a : Alloc) : Pc :=
  match call with
  | .alloc _ => .ret call (.ptr a.ptr)
  | .allocAt _ _ => .ret call (.allocation a)
  | .getLayout _ => .ret call (.allocation a)
  | .getLayoutAt _ _ => .ret call (.allocation a)
  | .get _ => .ret call (.allocation a)
  | .getAt _ _ => .ret call (.allocation a)
  | .leak _ _ => .write call a
  | .leakAt _ _ _ => .write call a
  | .leakBox _ _ => .write call a
  | .leakBoxAt _ _ _ => .write call a
  | .level => .ret call .panicked -- does not allocate

/-- What each method returns after the allocation failed.
Models: `try_alloc` 569 (`Exhausted` becomes `None`), the `?` operators, `leak` 705, `leak_at` 749, `LeakError::new` 853-855. -/
def onErr (call : Call) (f : Failure) : Ret :=
  match call with
  | .alloc _ => .none
  | .allocAt _ _ => .err f
  | .getLayout _ => .none
  | .getLayoutAt _ _ => .err f
  | .get _ => .none
  | .getAt _ _ => .err f
  | .leak _ v => .leakErr v .exhausted
  | .leakAt _ v _ => .leakErr v f
  | .leakBox _ _ => .none
  | .leakBoxAt _ _ _ => .err f
  | .level => .panicked -- does not allocate

/-- `Allocation::for_zst(level)` and the code following it for the zero-sized case.
Models: `get` 436-438, `get_at` 456-465, `zst_fake_alloc` 759-761, `for_zst` 836-849. -/
def onZst (e : Env) (call : Call) (V : Layout) (expect : Option Nat) (observed : Nat) : Pc :=
  if V.size ≠ 0 then .ret call .panicked -- assert in `for_zst`
  else
    let fake : Alloc := ⟨e.zst V.align, observed⟩
    match expect with
    | none => onOk call fake
    | some level =>
      if fake.level ≠ level then .ret call (onErr call (.mismatch fake.level))
      else onOk call fake

/-- The continuation of each method after `consumed.load()` gave `observed`.
Models: `level` 557-559 and the zero-sized branches of `get` 436-438, `get_at` 456-465 and their callers. -/
def onLoad (e : Env) (call : Call) (observed : Nat) : Pc :=
  match call with
  | .level => .ret call (.level observed)
  | .get V => onZst e call V none observed
  | .getAt V n => onZst e call V (some n) observed
  | .leak V _ => onZst e call V none observed
  | .leakAt V _ n => onZst e call V (some n) observed
  | .leakBox V _ => onZst e call V none observed
  | .leakBoxAt V _ n => onZst e call V (some n) observed
  | .alloc _ | .allocAt _ _ | .getLayout _ | .getLayoutAt _ _ => .ret call .panicked -- do not load

/-- The bytes stored by `ptr::write`. Models: `Allocation::leak` 803-807, `LeakBox::new_from_raw_non_null` leaked.rs:168-178. -/
def storedValue (call : Call) : List Byte :=
  match call with
  | .leak _ v | .leakAt _ v _ | .leakBox _ v | .leakBoxAt _ v _ => v
  | _ => []

/-- The result after the value was stored. Models: `leak` 704, `leak_at` 755, `leak_box` 534-536, `leak_box_at` 546-548. -/
def afterWrite (call : Call) (a : Alloc) : Ret :=
  match call with
  | .leakAt _ _ _ => .allocation a
  | _ => .ptr a.ptr

/-- State of the machine: the atomic counter `consumed` (bump.rs:152), memory, threads, history. -/
structure State (n : Nat) where
  consumed : Nat
  mem : Mem
  pc : Fin n → Pc
  hist : Hist n

/-- Initial state: level `c` and memory contents `m`. `Bump::uninit`/`zeroed`/`new` (bump.rs:283-310) give `c = 0`. -/
def init (n : Nat) (c : Nat) (m : Mem) : State n := ⟨c, m, fun _ => .idle, []⟩

/-- Function update. Not code of the repository: an auxiliary function of the machine. -/
def setPc {n : Nat} (pc : Fin n → Pc) (t : Fin n) (p : Pc) : Fin n → Pc :=
  fun u => if u = t then p else pc u

/-- The result with which a call will return, once it is decided. Not code of the repository: an
auxiliary function of the machine. -/
def Pc.decided : Pc → Option Ret
  | .write call a => some (afterWrite call a)
  | .ret _ r => some r
  | _ => none

/-- Continue at `p`, where the outcome of the call is decided now. Not code of the repository: an
auxiliary function of the machine. It records the moment in the history. -/
def State.decide {n : Nat} (s : State n) (t : Fin n) (call : Call) (p : Pc) : State n :=
  { s with pc := setPc s.pc t p, hist := .lin t call ((Pc.decided p).getD .panicked) :: s.hist }

/-- One step of thread `t`.
Models: `try_alloc` 561-573, `try_alloc_at` 583-638, `bump` 776-786, `level` 557-559, and the rest of the methods via `enter`, `onOk`, `onErr`, `onLoad`. -/
def step {n : Nat} (e : Env) (s : State n) (t : Fin n) : State n :=
  match s.pc t with
  | .idle => s
  | .attempt call l retry guess =>
    match tryAllocAtPre e l guess with
    | .panic => s.decide t call (.ret call .panicked)
    | .ub => s.decide t call (.ret call .panicked)
    | .ret none => s.decide t call (.ret call (onErr call .exhausted))
    | .ret (some (atAligned, new)) =>
      { s with pc := setPc s.pc t (.cas call l retry guess atAligned new) }
  | .cas call l retry expect atAligned new =>
    if s.consumed = expect then
      let s' := { s with consumed := new }
      match tryAllocAtPost e atAligned new with
      | .ret a => s'.decide t call (onOk call a)
      | _ => s'.decide t call (.ret call .panicked)
    else if retry then
      { s with pc := setPc s.pc t (.attempt call l retry s.consumed), hist := .retry t :: s.hist }
    else
      s.decide t call (.ret call (onErr call (.mismatch s.consumed)))
  | .load call => s.decide t call (onLoad e call s.consumed)
  | .write call a =>
    { s with mem := writeBytes s.mem a.ptr (storedValue call)
             pc := setPc s.pc t (.ret call (afterWrite call a)) }
  | .ret call r => { s with pc := setPc s.pc t .idle, hist := .resp t call r :: s.hist }

/-- What may happen next: a thread starts a call, a thread makes a step, the owner of an allocation
writes into it, or somebody with exclusive access resets the allocator. Not code of the repository:
the program of the user, any sequence of these. `reset` is static-alloc/src/bump.rs:351-353. -/
inductive Event (n : Nat) where
  | invoke (t : Fin n) (call : Call)
  | step (t : Fin n)
  | userWrite (r : Region) (off : Nat) (bytes : List Byte)
  | reset
  deriving DecidableEq, Repr

/-- Execute an event; events that are not possible in the state have no effect (a thread inside a call can not invoke another one,
only handed out regions can be written by users, `reset(&mut self)` bump.rs:351-353 needs all calls finished). -/
def exec {n : Nat} (e : Env) (s : State n) : Event n → State n
  | .invoke t call =>
    if s.pc t = .idle then
      { s with pc := setPc s.pc t (enter call), hist := .inv t call :: s.hist }
    else s
  | .step t => step e s t
  | .userWrite r off bs =>
    if r ∈ handedOut s.hist ∧ off + bs.length ≤ r.size then
      { s with mem := writeBytes s.mem (r.start + off) bs, hist := .userWrite r :: s.hist }
    else s
  | .reset =>
    if ∀ t, s.pc t = .idle then { s with consumed := 0, hist := .reset :: s.hist } else s

/-- Execute a schedule. Not code of the repository: the program of the user, any sequence of these.
-/
def run {n : Nat} (e : Env) (s : State n) (evs : List (Event n)) : State n := evs.foldl (exec e) s

/-- Arguments of calls in the schedule exist in Rust. Not code of the repository: what the
language, or the documented contract of the methods, demands of callers. -/
def Event.Valid {n : Nat} (t : Target) : Event n → Prop
  | .invoke _ call => call.Valid t
  | _ => True

/-- States that can be reached by some schedule. Not code of the repository: what programs can
reach. -/
def Reachable {n : Nat} (e : Env) (s : State n) : Prop :=
  ∃ c m evs, c ≤ e.len ∧ (∀ ev ∈ evs, Event.Valid e.target ev) ∧ s = run e (init n c m) evs

end Verif.Bump
