import Verif.Model.ExitStack
/-!
# Model of `exit_stack::ExitStack` on bytes (`/repo/exit-stack/src/lib.rs`)

As `Model/ExitStack`, but all is in the bytes of the memory: the field `top`, the level of the bump, and the slots, each with its `link` (a fat pointer: address and vtable) and the value. The type of a value is known from the vtable only.
A destructor sees the bytes of the value, may change them, and may unwind. `live` (ghost) has the values that are pinned and whose destructor was not begun; following a pointer to anything else is undefined behaviour here.
-/
namespace Verif.Exit.ExitMem
open Verif Unsync

/-- The types, by the address of their vtable: the layout, what the destructor leaves in the place
of the value, and whether it unwinds. Not code of the repository: the semantics of the Rust
language. -/
structure VTables where
  layout : Nat → Layout
  dtor : Nat → List Byte → List Byte
  panics : Nat → List Byte → Bool

/-- Target, debug assertions, address of the field `memory`, the type parameter `Mem`, address of
the field `top`, and the types. exit-stack/src/lib.rs:62-92. -/
structure Cfg where
  t : Target
  debug : Bool
  addr : Nat
  M : Nat
  topAddr : Nat
  vt : VTables

/-- The parameters of `Model/ExitStack`. Not code of the repository: an auxiliary function of the
machine. -/
def Cfg.conf (c : Cfg) : Conf := ⟨c.t, c.debug, c.addr, c.vt.layout c.M⟩

/-- `ExitHandle`, lib.rs:69: address and vtable. -/
structure Handle where
  addr : Nat
  vtable : Nat
  deriving DecidableEq, Repr

/-- Read an `Option<ExitHandle>`; `None` is a null address. exit-stack/src/lib.rs:62-92; Not code
of the repository: the semantics of the Rust language. -/
def loadHandle (t : Target) (m : Mem) (a : Nat) : Option Handle :=
  if loadUsize t m a = 0 then none else some ⟨loadUsize t m a, loadUsize t m (a + t.wordBytes)⟩
/-- Write an `Option<ExitHandle>`; the second word of a `None` is left as it is.
exit-stack/src/lib.rs:62-92; not code of the repository: the semantics of the Rust language. -/
def storeHandle (t : Target) (m : Mem) (a : Nat) : Option Handle → Mem
  | none => storeUsize t m a 0
  | some h => storeUsize t (storeUsize t m a h.addr) (a + t.wordBytes) h.vtable

/-- The layout of `PinSlot<T>`, lib.rs:89-92. -/
def Cfg.slotLayout (c : Cfg) (ty : Nat) : Layout := pinSlotLayout c.t (c.vt.layout ty)
/-- Address of `slot.value`, lib.rs:89-92: the last field, behind `link`, at an offset that is found from the alignment in the vtable. -/
def Cfg.valueAddr (c : Cfg) (h : Handle) : Nat := h.addr + alignUp (c.vt.layout h.vtable).align (2 * c.t.wordBytes)
/-- Not code of the repository: the semantics of the Rust language. -/
def Cfg.valueSize (c : Cfg) (ty : Nat) : Nat := (c.vt.layout ty).size

/-- The log has the values on which destructors were begun, with their place (`none`: it was not
pinned). Not code of the repository: the state that the program of the user and the library have
together. -/
structure BState where
  mem : Mem
  live : List Handle
  open_ : List Handle
  log : List (Option Nat × Nat × List Byte)
  pins : Nat
  alive : Bool

/-- How a method ends. Not code of the repository: the semantics of the Rust language. -/
inductive BOut (α : Type) where
  | ret (a : α) (s : BState)
  /-- a panic, unwinding out of the function -/
  | unwound (s : BState)
  | abort
  | ub

/-- `drop_in_place(&mut slot.value)`: the destructor is run on the bytes in the slot.
exit-stack/src/lib.rs:205-211. -/
def dropInPlace (c : Cfg) (s : BState) (h : Handle) : BState :=
  let v := readBytes s.mem (c.valueAddr h) (c.valueSize h.vtable)
  { s with log := s.log ++ [(some h.addr, h.vtable, v)], live := s.live.erase h, mem := writeBytes s.mem (c.valueAddr h) (c.vt.dtor h.vtable v) }
/-- Whether it unwinds. Not code of the repository: the semantics of the Rust language. -/
def dropPanics (c : Cfg) (s : BState) (h : Handle) : Bool := c.vt.panics h.vtable (readBytes s.mem (c.valueAddr h) (c.valueSize h.vtable))

/-- `Drop for UnwindFlag`, lib.rs:187-202, run with the given `chain`. A panic in it aborts. -/
def unwindFlagDrop (c : Cfg) : Nat → BState → Option Handle → BOut Unit
  | _, s, none => .ret () s
  | 0, _, some _ => .ub
  | fuel + 1, s, some h =>
    if h ∉ s.live then .ub
    else if dropPanics c s h then .abort
    else
      let s := dropInPlace c s h
      unwindFlagDrop c fuel s (loadHandle c.t s.mem h.addr)

/-- The loop lib.rs:205-211. `chain` is `flag.chain`; it is empty (taken) while a destructor runs. -/
def popLoop (c : Cfg) : Nat → BState → Option Handle → BOut Unit
  | _, s, none => .ret () s
  | 0, _, some _ => .ub
  | fuel + 1, s, some h =>
    let flagChain : Option Handle := none -- `flag.chain.take()`
    if h ∉ s.live then .ub
    else
      let panics := dropPanics c s h
      let s := dropInPlace c s h
      if panics then
        match unwindFlagDrop c fuel s flagChain with
        | .ret () s => .unwound s
        | .unwound _ => .abort
        | .abort => .abort
        | .ub => .ub
      else popLoop c fuel s (loadHandle c.t s.mem h.addr)

/-- `inner_pop_all_with_unsafe_self_and_pinned`, lib.rs:180-215. -/
def innerPopAll (c : Cfg) (s : BState) : BOut Unit :=
  let chain := loadHandle c.t s.mem c.topAddr
  let s := { s with mem := storeHandle c.t s.mem c.topAddr none }
  match popLoop c (s.pins + 1) s chain with
  | .ret () s =>
    match c.conf.memory.deref c.t c.debug with
    | .ub => .ub
    | .panic => .unwound s
    | .ret b => .ret () { s with mem := b.reset c.t s.mem }
  -- `live` is ghost: what was not dropped is not in the list any more
  | .unwound s => .unwound { s with live := [] }
  | .abort => .abort
  | .ub => .ub

/-- `ExitStack::slot`, lib.rs:109-118. -/
def slot (c : Cfg) (s : BState) (ty : Nat) : BOut (Option Nat) :=
  match c.conf.memory.deref c.t c.debug with
  | .ub => .ub
  | .panic => .unwound s
  | .ret b =>
    match b.bumpBox c.t s.mem (c.slotLayout ty) with
    | .ub => .ub
    | .panic => .unwound s
    | .ret (.error _, m) => .ret none { s with mem := m }
    | .ret (.ok p, m) => .ret (some p) { s with mem := m }

/-- `LeakBox::write(self.value, PinSlot { link, value })` in lib.rs:232: the whole slot is written, `fill` is what gets into its padding. -/
def writeSlot (c : Cfg) (m : Mem) (h : Handle) (link : Option Handle) (value fill : List Byte) : Mem :=
  writeBytes (storeHandle c.t (writeBytes m h.addr fill) h.addr link) (c.valueAddr h) value

/-- `Slot::pin`, lib.rs:226-246, and `Slot::pin_local`, 254-275. -/
def pin (c : Cfg) (s : BState) (h : Handle) (value fill : List Byte) : BState :=
  let link := loadHandle c.t s.mem c.topAddr
  let m := writeSlot c s.mem h link value fill
  let m := storeHandle c.t m c.topAddr (some h)
  { s with mem := m, live := h :: s.live, pins := s.pins + 1 }

/-- The argument of `set` is dropped while unwinding; a panic in this aborts.
exit-stack/src/lib.rs:159-170; not code of the repository: the semantics of the Rust language. -/
def dropArgument (c : Cfg) (s : BState) (value : List Byte) : BOut Nat :=
  if c.vt.panics c.M value then .abort else .unwound { s with log := s.log ++ [(none, c.M, value)] }

/-- `ExitStack::set`, lib.rs:159-170; `unreachable!` is a panic. -/
def set (c : Cfg) (s : BState) (value fill : List Byte) : BOut Nat :=
  match innerPopAll c s with
  | .ret () s =>
    match slot c s c.M with
    | .ret (some p) s => .ret p (pin c s ⟨p, c.M⟩ value fill)
    | .ret none s => dropArgument c s value
    | .unwound s => dropArgument c s value
    | .abort => .abort
    | .ub => .ub
  | .unwound s => dropArgument c s value
  | .abort => .abort
  | .ub => .ub

/-- What users can do. `write` is a change of a pinned value through the `Pin<&mut T>`. Not code of
the repository: the program of the user, any sequence of these. The methods are those of
exit-stack/src/lib.rs:94-283. -/
inductive BOp where
  | slot (ty : Nat)
  | pin (h : Handle) (value fill : List Byte)
  | set (value fill : List Byte)
  | popAll
  | write (h : Handle) (value : List Byte)
  | drop
  deriving DecidableEq, Repr

/-- Calls of the public methods; each case cites the method it runs.
(exit-stack/src/lib.rs:94-283.) -/
def bexec (c : Cfg) (s : BState) : BOp → BOut ERet
  | .slot ty =>
    match slot c s ty with
    | .ret (some p) s => .ret (.addr p) { s with open_ := ⟨p, ty⟩ :: s.open_ }
    | .ret none s => .ret .none s
    | .unwound s => .unwound s
    | .abort => .abort
    | .ub => .ub
  | .pin h value fill => .ret (.addr (c.valueAddr h)) { (pin c s h value fill) with open_ := s.open_.erase h }
  | .set value fill =>
    -- exclusive access: no `Slot` is left
    match set c { s with open_ := [] } value fill with
    | .ret p s => .ret (.addr (c.valueAddr ⟨p, c.M⟩)) s
    | .unwound s => .unwound s
    | .abort => .abort
    | .ub => .ub
  -- `ExitStack::pop_all`, lib.rs:173-178
  | .popAll =>
    match innerPopAll c { s with open_ := [] } with
    | .ret () s => .ret .unit s
    | .unwound s => .unwound s
    | .abort => .abort
    | .ub => .ub
  | .write h value => .ret .unit { s with mem := writeBytes s.mem (c.valueAddr h) value }
  -- `Drop for ExitStack`, lib.rs:278-282
  | .drop =>
    match innerPopAll c { s with open_ := [], alive := false } with
    | .ret () s => .ret .unit s
    | .unwound s => .unwound s
    | .abort => .abort
    | .ub => .ub

/-- What types and borrows permit: slots are used once, for a value of their type; the references
to pinned values end when the stack is used exclusively. Not code of the repository: what the
language, or the documented contract of the methods, demands of callers. -/
def BOp.Allowed (c : Cfg) (s : BState) : BOp → Prop
  | .slot ty => s.alive = true ∧ ty < c.t.W ∧ (c.vt.layout ty).ValidType c.t ∧ (c.slotLayout ty).ValidType c.t
  | .pin h value fill => s.alive = true ∧ h ∈ s.open_ ∧ value.length = c.valueSize h.vtable ∧ fill.length = (c.slotLayout h.vtable).size
  | .set value fill => s.alive = true ∧ value.length = c.valueSize c.M ∧ fill.length = (c.slotLayout c.M).size
  | .popAll => s.alive = true
  | .write h value => s.alive = true ∧ h ∈ s.live ∧ value.length = c.valueSize h.vtable
  | .drop => s.alive = true

/-- Existing types and addresses; the two fields of the stack do not overlap. Not code of the
repository: what the language, or the documented contract of the methods, demands of callers. -/
structure Cfg.Valid (c : Cfg) : Prop where
  conf : c.conf.Valid
  M : c.M < c.t.W
  top : c.topAddr + 2 * c.t.wordBytes ≤ c.addr ∨ c.addr + (c.conf.memory.layout c.t).size ≤ c.topAddr
  dtor : ∀ ty v, (c.vt.dtor ty v).length = v.length

/-- After `ExitStack::new`, lib.rs:98-103, and pinning. -/
def BState.init (c : Cfg) (m : Mem) : BState := ⟨storeHandle c.t (c.conf.memory.init c.t m) c.topAddr none, [], [], [], 0, true⟩

end Verif.Exit.ExitMem
