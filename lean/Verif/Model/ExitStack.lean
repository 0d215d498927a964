import Verif.Model.Unsync
/-!
# Model of `exit_stack::ExitStack` (`/repo/exit-stack/src/lib.rs`)

The stack is pinned at an address. Its allocator is `unsync::Bump<PinSlot<Mem>>`, see `Model/Unsync.lean`, whose level is in the byte memory. The two fields of
the `PinSlot`s that were written are kept as records by address; storing a `PinSlot` also stores (arbitrary) bytes to the memory and destroys
records of slots which it overlaps. Using the address of a destroyed record is undefined behaviour. Values are numbered in the order they are pinned.
Destructors that use other stacks: `Model/ExitNest.lean` (they have no access to this one: `pop_all` has exclusive access).
-/
namespace Verif.Exit
open Verif Unsync

/-- The parameters: the target, whether debug assertions are on, address of the stack's `memory`
field and the type parameter `Mem`. exit-stack/src/lib.rs:62-76. -/
structure Conf where
  t : Target
  debug : Bool
  addr : Nat
  M : Layout

/-- Layout of `PinSlot<T>`, lib.rs:89-92: `link` is a fat pointer; `value` comes last, as the struct can be unsized. -/
def pinSlotLayout (t : Target) (T : Layout) : Layout :=
  let align := max t.wordBytes T.align
  ⟨alignUp align (alignUp T.align (2 * t.wordBytes) + T.size), align⟩

/-- Field `memory: Bump<PinSlot<Mem>>`, lib.rs:62-67. -/
def Conf.memory (c : Conf) : TBump := ⟨c.addr, pinSlotLayout c.t c.M⟩

/-- A `PinSlot` that was written: its fields, and the layout of the whole slot.
exit-stack/src/lib.rs:89-92. -/
structure SlotRec where
  link : Option Nat
  value : Nat
  layout : Layout
  deriving DecidableEq, Repr

/-- `open_` are the `Slot`s handed out and not used yet (address and value layout); `alive` is
false after the destructor of the stack was run. `panics` tells which values have
a destructor that unwinds. Not code of the repository: the state that the program of the user and
the library have together. -/
structure EState where
  mem : Mem
  top : Option Nat
  slots : Nat → Option SlotRec
  dropped : List Nat
  next : Nat
  open_ : List (Nat × Layout)
  alive : Bool
  panics : Nat → Bool

/-- How a method ends. Not code of the repository: the semantics of the Rust language. -/
inductive EOut (α : Type) where
  | ret (a : α) (s : EState)
  /-- a panic, unwinding out of the function -/
  | unwound (s : EState)
  | abort
  | ub

/-- `drop_in_place(&mut slot.value)`: log the destructor. exit-stack/src/lib.rs:205-211. -/
def dropValue (s : EState) (v : Nat) : EState := { s with dropped := v :: s.dropped }

/-- `Drop for UnwindFlag`, lib.rs:187-202, run with the given `chain`. A panic in it aborts. -/
def unwindFlagDrop : Nat → EState → Option Nat → EOut Unit
  | _, s, none => .ret () s
  | 0, _, some _ => .ub
  | fuel + 1, s, some h =>
    match s.slots h with
    | none => .ub
    | some slot =>
      let s := dropValue s slot.value
      if s.panics slot.value then .abort else unwindFlagDrop fuel s slot.link

/-- The loop lib.rs:205-211. `chain` is `flag.chain`; it is empty (taken) while a destructor runs. -/
def popLoop : Nat → EState → Option Nat → EOut Unit
  | _, s, none => .ret () s
  | 0, _, some _ => .ub
  | fuel + 1, s, some h =>
    let flagChain : Option Nat := none -- `flag.chain.take()`
    match s.slots h with
    | none => .ub
    | some slot =>
      let s := dropValue s slot.value
      if s.panics slot.value then
        match unwindFlagDrop fuel s flagChain with
        | .ret () s => .unwound s
        | .unwound _ => .abort
        | .abort => .abort
        | .ub => .ub
      else popLoop fuel s slot.link

/-- `inner_pop_all_with_unsafe_self_and_pinned`, lib.rs:180-215. -/
def innerPopAll (c : Conf) (s : EState) : EOut Unit :=
  let chain := s.top
  let s := { s with top := none }
  match popLoop (s.next + 1) s chain with
  | .ret () s =>
    match c.memory.deref c.t c.debug with
    | .ub => .ub
    | .panic => .unwound s
    | .ret b => .ret () { s with mem := b.reset c.t s.mem }
  | e => e

/-- `ExitStack::slot`, lib.rs:109-118. -/
def slot (c : Conf) (s : EState) (T : Layout) : EOut (Option Nat) :=
  match c.memory.deref c.t c.debug with
  | .ub => .ub
  | .panic => .unwound s
  | .ret b =>
    match b.bumpBox c.t s.mem (pinSlotLayout c.t T) with
    | .ub => .ub
    | .panic => .unwound s
    | .ret (.error _, m) => .ret none { s with mem := m }
    | .ret (.ok p, m) => .ret (some p) { s with mem := m }

/-- Store a `PinSlot`: the record, and its bytes in memory. exit-stack/src/lib.rs:256-257. -/
def writeSlot (s : EState) (p : Nat) (r : SlotRec) (bytes : List Byte) : EState :=
  { s with
    mem := writeBytes s.mem p bytes
    slots := fun x => if x = p then some r else
      match s.slots x with
      | none => none
      | some q => if p < x + q.layout.size ∧ x < p + r.layout.size then none else some q }

/-- `Slot::pin`, lib.rs:226-246, and `Slot::pin_local`, 254-275. The value is the next number. -/
def pin (c : Conf) (s : EState) (p : Nat) (T : Layout) (bytes : List Byte) : EState :=
  let link := s.top
  let value := s.next
  let s := writeSlot s p ⟨link, value, pinSlotLayout c.t T⟩ bytes
  { s with top := some p, next := s.next + 1 }

/-- `ExitStack::pop_all`, lib.rs:173-178. -/
def popAll (c : Conf) (s : EState) : EOut Unit := innerPopAll c s

/-- `ExitStack::set`, lib.rs:159-170; `unreachable!` is a panic. If it panics the value given is dropped, it never was pinned. -/
def set (c : Conf) (s : EState) (bytes : List Byte) : EOut Nat :=
  match popAll c s with
  | .ret () s =>
    match slot c s c.M with
    | .ret (some p) s => .ret p (pin c s p c.M bytes)
    | .ret none s => .unwound s
    | .unwound s => .unwound s
    | .abort => .abort
    | .ub => .ub
  | .unwound s => .unwound s
  | .abort => .abort
  | .ub => .ub

/-- `Drop for ExitStack`, lib.rs:278-282. -/
def drop (c : Conf) (s : EState) : EOut Unit := innerPopAll c s

/-! The user. -/

/-- Not code of the repository: the program of the user, any sequence of these. The methods are
those of exit-stack/src/lib.rs:94-283. -/
inductive EOp where
  | slot (T : Layout)
  | pin (p : Nat) (T : Layout) (bytes : List Byte)
  | set (bytes : List Byte)
  | popAll
  | write (p off : Nat) (bytes : List Byte)   -- write to a pinned value (through `Pin<&mut T>`)
  | drop
  deriving DecidableEq, Repr

/-- Results of these methods. -/
inductive ERet where
  | unit | none | addr (p : Nat)
  deriving DecidableEq, Repr

/-- Calls of the public methods; each case cites the method it runs.
(exit-stack/src/lib.rs:94-283.) -/
def eexec (c : Conf) (s : EState) : EOp → EOut ERet
  | .slot T =>
    match slot c s T with
    | .ret (some p) s => .ret (.addr p) { s with open_ := (p, T) :: s.open_ }
    | .ret none s => .ret .none s
    | .unwound s => .unwound s
    | .abort => .abort
    | .ub => .ub
  | .pin p T bytes => .ret (.addr p) { (pin c s p T bytes) with open_ := s.open_.erase (p, T) }
  | .set bytes =>
    -- exclusive access: no `Slot` is left
    match set c { s with open_ := [] } bytes with
    | .ret p s => .ret (.addr p) s
    | .unwound s => .unwound s
    | .abort => .abort
    | .ub => .ub
  | .popAll =>
    match popAll c { s with open_ := [] } with
    | .ret () s => .ret .unit s
    | .unwound s => .unwound s
    | .abort => .abort
    | .ub => .ub
  | .write p off bytes => .ret .unit { s with mem := writeBytes s.mem (p + off) bytes }
  | .drop =>
    match drop c { s with open_ := [], alive := false } with
    | .ret () s => .ret .unit s
    | .unwound s => .unwound s
    | .abort => .abort
    | .ub => .ub

/-- A pinned value that is alive: the slot is in the linked list. Not code of the repository: an
auxiliary function of the machine. -/
inductive EState.Pinned (s : EState) : Nat → SlotRec → Prop
  | top {p : Nat} {r : SlotRec} (h : s.top = some p) (hr : s.slots p = some r) : Pinned s p r
  | link {p q : Nat} {r r' : SlotRec} (h : Pinned s p r) (hl : r.link = some q) (hr : s.slots q = some r') : Pinned s q r'

/-- Not code of the repository: what the language, or the documented contract of the methods,
demands of callers. -/
def EOp.Allowed (c : Conf) (s : EState) : EOp → Prop
  | .slot T => s.alive = true ∧ T.ValidType c.t ∧ (pinSlotLayout c.t T).ValidType c.t
  | .pin p T bytes => s.alive = true ∧ (p, T) ∈ s.open_ ∧ bytes.length = (pinSlotLayout c.t T).size
  | .set bytes => s.alive = true ∧ bytes.length = (pinSlotLayout c.t c.M).size
  | .popAll => s.alive = true
  | .write p off bytes => s.alive = true ∧ ∃ r, s.Pinned p r ∧ 2 * c.t.wordBytes ≤ off ∧ off + bytes.length ≤ r.layout.size
  | .drop => s.alive = true

/-- Existing types and addresses. Not code of the repository: what the language, or the documented
contract of the methods, demands of callers. -/
structure Conf.Valid (c : Conf) : Prop where
  M : c.M.ValidType c.t
  slot : (pinSlotLayout c.t c.M).ValidType c.t
  bump : (c.memory.layout c.t).ValidType c.t
  pos : 0 < c.addr
  aligned : (c.memory.layout c.t).align ∣ c.addr
  no_wrap : c.addr + (c.memory.layout c.t).size ≤ c.t.W

/-- What happened, seen from outside: a value was pinned, or the stack was cleared (by `pop_all`,
at the start of `set`, or dropped). Not code of the repository: an auxiliary function of the
machine. -/
inductive EEvent where
  | pinned (v : Nat)
  | cleared
  deriving DecidableEq, Repr

/-- The events of an operation that ended in state `s'`. Not code of the repository: an auxiliary
function of the machine. -/
def EOp.events (s : EState) (panicked : Bool) : EOp → List EEvent
  | .slot _ => []
  | .pin _ _ _ => [.pinned s.next]
  | .set _ => if panicked then [.cleared] else [.cleared, .pinned s.next]
  | .popAll | .drop => [.cleared]
  | .write _ _ _ => []

/-- Reachable states with the events so far (oldest first), starting after `ExitStack::new` (lib.rs:98-103: level 0, empty list). -/
inductive EReach (c : Conf) : EState → List EEvent → Prop
  | init {m : Mem} {panics : Nat → Bool} (h : loadUsize c.t m c.addr = 0) :
      EReach c ⟨m, none, fun _ => none, [], 0, [], true, panics⟩ []
  | ret {s s' : EState} {ev : List EEvent} {op : EOp} {r : ERet} (h : EReach c s ev) (ha : op.Allowed c s) (hx : eexec c s op = .ret r s') :
      EReach c s' (ev ++ op.events s false)
  | unwound {s s' : EState} {ev : List EEvent} {op : EOp} (h : EReach c s ev) (ha : op.Allowed c s) (hx : eexec c s op = .unwound s') :
      EReach c s' (ev ++ op.events s true)

end Verif.Exit
