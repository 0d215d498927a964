import Verif.Model.ExitNest
import Verif.Spec.Slab
/-!
# Specification of exit stacks that are used by destructors

A stack is a list of values, newest first. Clearing it takes this list; the values' destructors run one after the other, while each runs the rest waits. There are no pointers and no memory: a value is its bytes.
-/
namespace Verif.ExitNest
open Exit

set_option autoImplicit false

/-- A value: the address of its slot, its number, and the bytes of the slot. -/
structure Entry where
  addr : Nat
  value : Nat
  bytes : List Byte
  deriving DecidableEq, Repr

/-- `level`: how many bytes of the memory are used up; `open_`: slots that were given out and are not used; `made`: how many values were pinned to it. -/
structure SStack where
  conf : Conf
  level : Nat
  live : List Entry
  open_ : List (Nat × Layout)
  made : Nat
  alive : Bool

/-- A destructor that is running, and the values that wait for theirs. -/
structure SFrame where
  stack : Nat
  running : Entry
  rest : List Entry
  goal : Goal

/-- `lost`: values whose destructors never run, as an earlier one unwound. -/
structure SWorld where
  stacks : List SStack
  frames : List SFrame
  log : List (Nat × Nat)
  lost : List (Nat × Nat)

def SWorld.init : SWorld := ⟨[], [], [], []⟩

/-- The values in a stack. -/
def SWorld.live (w : SWorld) (k : Nat) : List Nat :=
  match w.stacks[k]? with
  | none => []
  | some x => x.live.map (·.value)

/-- How many values were pinned to a stack. -/
def SWorld.made (w : SWorld) (k : Nat) : Nat :=
  match w.stacks[k]? with
  | none => 0
  | some x => x.made

/-- The values that wait for their destructors. -/
def SWorld.waiting (w : SWorld) : List (Nat × Nat) := w.frames.flatMap fun f => f.rest.map fun e => (f.stack, e.value)

/-- The memory for slots: behind the counter of the allocator, as much as a slot for a `Mem` takes. -/
def SStack.slab (x : SStack) : Slab := ⟨x.conf.addr + x.conf.t.wordBytes, (pinSlotLayout x.conf.t x.conf.M).size⟩

/-- With debug assertions every use of the memory panics if the alignment of `Mem` is more than that of a pointer. -/
def SStack.asserts (x : SStack) : Bool := x.conf.debug && decide (x.conf.t.wordBytes < x.conf.M.align)

def SWorld.idle (w : SWorld) (k : Nat) : Option SStack :=
  match w.stacks[k]? with
  | none => none
  | some x => if x.alive = true ∧ k ∉ w.frames.map (·.stack) then some x else none

def SWorld.put (w : SWorld) (k : Nat) (x : SStack) : SWorld := { w with stacks := w.stacks.set k x }

/-- The bytes from `off` on replaced. -/
def patch (bs : List Byte) (off : Nat) (new : List Byte) : List Byte := bs.take off ++ new ++ bs.drop (off + new.length)

/-- The bytes `off..off+len` are in the value: not in the link before it. -/
def Entry.Has (e : Entry) (t : Target) (off len : Nat) : Prop := 2 * t.wordBytes ≤ off ∧ off + len ≤ e.bytes.length
instance (e : Entry) (t : Target) (off len : Nat) : Decidable (e.Has t off len) := by unfold Entry.Has; infer_instance

/-- All destructors have run: the memory is free again. -/
def sfinish (w : SWorld) (k : Nat) (x : SStack) (goal : Goal) : Resp × SWorld :=
  if x.asserts then (.unwound, w)
  else
    match goal with
    | .pop => (.unit, w.put k { x with level := 0 })
    | .drop => (.unit, w.put k { x with level := 0 })
    | .set bytes =>
      match x.slab.place (pinSlotLayout x.conf.t x.conf.M) 0 with
      | some a => (.addr a.ptr, w.put k { x with level := a.level, live := [⟨a.ptr, x.made, bytes⟩], made := x.made + 1 })
      | none => (.unwound, w.put k { x with level := 0 })

/-- The next destructor. -/
def snext (w : SWorld) (k : Nat) (x : SStack) (goal : Goal) : List Entry → Resp × SWorld
  | [] => sfinish w k x goal
  | e :: rest => (.running k e.value, { w with frames := ⟨k, e, rest, goal⟩ :: w.frames, log := (k, e.value) :: w.log })

/-- Clearing takes all values. -/
def sclear (w : SWorld) (k : Nat) (x : SStack) (goal : Goal) : Resp × SWorld :=
  let x' : SStack := { x with live := [], open_ := [], alive := if goal = .drop then false else x.alive }
  snext (w.put k x') k x' goal x.live

def sexec (w : SWorld) : Op → Resp × SWorld
  | .new c _ => (.made w.stacks.length, { w with stacks := w.stacks ++ [⟨c, 0, [], [], 0, true⟩] })
  | .slot k T =>
    match w.idle k with
    | none => (.absent, w)
    | some x =>
      if x.asserts then (.unwound, w)
      else
        match x.slab.place (pinSlotLayout x.conf.t T) x.level with
        | none => (.full, w)
        | some a => (.addr a.ptr, w.put k { x with level := a.level, open_ := (a.ptr, T) :: x.open_ })
  | .pin k p T bytes =>
    match w.idle k with
    | none => (.absent, w)
    | some x =>
      if (p, T) ∈ x.open_ ∧ bytes.length = (pinSlotLayout x.conf.t T).size then
        (.addr p, w.put k { x with live := ⟨p, x.made, bytes⟩ :: x.live, open_ := x.open_.erase (p, T), made := x.made + 1 })
      else (.absent, w)
  | .write k p off bytes =>
    match w.idle k with
    | none => (.absent, w)
    | some x =>
      if ∃ e ∈ x.live, e.addr = p ∧ e.Has x.conf.t off bytes.length then
        (.unit, w.put k { x with live := x.live.map fun e => if e.addr = p then { e with bytes := patch e.bytes off bytes } else e })
      else (.absent, w)
  | .read k p off len =>
    match w.idle k with
    | none => (.absent, w)
    | some x =>
      match x.live.find? (fun e => decide (e.addr = p)) with
      | none => (.absent, w)
      | some e => if e.Has x.conf.t off len then (.bytes ((e.bytes.drop off).take len), w) else (.absent, w)
  | .writeSelf off bytes =>
    match w.frames with
    | [] => (.absent, w)
    | f :: fs =>
      match w.stacks[f.stack]? with
      | none => (.absent, w)
      | some x =>
        if f.running.Has x.conf.t off bytes.length then
          (.unit, { w with frames := { f with running := { f.running with bytes := patch f.running.bytes off bytes } } :: fs })
        else (.absent, w)
  | .readSelf off len =>
    match w.frames with
    | [] => (.absent, w)
    | f :: _ =>
      match w.stacks[f.stack]? with
      | none => (.absent, w)
      | some x => if f.running.Has x.conf.t off len then (.bytes ((f.running.bytes.drop off).take len), w) else (.absent, w)
  | .set k bytes =>
    match w.idle k with
    | none => (.absent, w)
    | some x => if bytes.length = (pinSlotLayout x.conf.t x.conf.M).size then sclear w k x (.set bytes) else (.absent, w)
  | .popAll k =>
    match w.idle k with
    | none => (.absent, w)
    | some x => sclear w k x .pop
  | .dropStack k =>
    match w.idle k with
    | none => (.absent, w)
    | some x => sclear w k x .drop
  | .endDrop panics =>
    match w.frames with
    | [] => (.absent, w)
    | f :: fs =>
      if panics = true then (.unwound, { w with frames := fs, lost := f.rest.map (fun e => (f.stack, e.value)) ++ w.lost })
      else
        match w.stacks[f.stack]? with
        | none => (.absent, w)
        | some x => snext { w with frames := fs } f.stack x f.goal f.rest

def srun : SWorld → List Op → List Resp × SWorld
  | w, [] => ([], w)
  | w, op :: ops =>
    let (r, w) := sexec w op
    let (rs, w) := srun w ops
    (r :: rs, w)

/-- The slot of a value. -/
def Entry.region (e : Entry) : Region := ⟨e.addr, e.bytes.length⟩

/-- The model shows what the specification says: the destructors that were begun and the calls that are running one; of each stack, how many values were pinned, whether it still exists, which slots are open; and of a stack that is not being
cleared the values, newest first, are found by following the links, and are where the program has references to, with their bytes. -/
structure Shows (w : World) (s : SWorld) : Prop where
  log : w.log = s.log
  frames : w.frames = s.frames.map fun f => ⟨f.stack, f.running.addr, f.goal⟩
  len : w.stacks.length = s.stacks.length
  stack : ∀ (k : Nat) (st : Stack) (x : SStack), w.stacks[k]? = some st → s.stacks[k]? = some x →
    st.conf = x.conf ∧ st.s.next = x.made ∧ st.s.alive = x.alive ∧ st.s.open_ = x.open_ ∧ loadUsize st.conf.t st.s.mem st.conf.addr = x.level ∧
    st.refs = x.live.map (fun e => (e.addr, e.bytes.length)) ∧ ∀ e ∈ x.live, readBytes st.s.mem e.addr e.bytes.length = e.bytes
  linked : ∀ (k : Nat) (st : Stack) (x : SStack), w.stacks[k]? = some st → s.stacks[k]? = some x → k ∉ s.frames.map (·.stack) →
    ∀ (p v : Nat), (∃ r, st.s.Pinned p r ∧ r.value = v) ↔ ∃ e ∈ x.live, e.addr = p ∧ e.value = v

end Verif.ExitNest
