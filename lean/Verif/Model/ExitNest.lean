import Verif.Model.ExitStack
/-!
# Model of several `exit_stack::ExitStack`s whose values' destructors use other exit stacks

`Model/ExitStack.lean` runs each destructor in one step. Here the destructor of a value is code of the user that runs for as long as it likes: it makes exit stacks, pins values to them, clears and drops them (so that further destructors begin,
nested to any depth), reads and writes its own value, and then ends or unwinds. Only a stack that is being cleared can not be used, `pop_all`, `set` and the drop glue have exclusive access to it. `inner_pop_all_with_unsafe_self_and_pinned` is
here a loop that is suspended while a destructor runs; its local variables are the `Frame`.

Simplified: each stack has a memory of its own. That the calls only touch the bytes of the stack they are made on is C85; that stacks in one memory do not disturb each other then follows. Values are numbered in each stack in the order
they are pinned.
-/
namespace Verif.ExitNest
open Exit Unsync

set_option autoImplicit false

/-- What is to be done when the stack is cleared: return from `pop_all` (exit-stack/src/lib.rs:173-178), end the drop glue of the stack (278-282), or go on in `set` (159-170), with the bytes of the slot for the new value. -/
inductive Goal where
  | pop
  | drop
  | set (bytes : List Byte)
  deriving DecidableEq, Repr

/-- Whether there is a stack afterwards: not after its drop glue. exit-stack/src/lib.rs:278-282. -/
def Goal.leaves : Goal → Bool → Bool
  | .drop, _ => false
  | .pop, alive => alive
  | .set _, alive => alive

/-- A stack (exit-stack/src/lib.rs:62-76), with the references `Pin<&mut T>` to its values that the program has: address and size of the slot. -/
structure Stack where
  conf : Conf
  s : EState
  refs : List (Nat × Nat)

/-- A call of `inner_pop_all_with_unsafe_self_and_pinned` that is running a destructor: the stack, the local variable `exit_handle` and what comes after. `flag.chain` is `None` then. exit-stack/src/lib.rs:204-211. -/
structure Frame where
  stack : Nat
  handle : Nat
  goal : Goal
  deriving DecidableEq, Repr

/-- All stacks ever made; the calls that are running a destructor, the innermost first; the destructors that were begun, the last first. Not code of the repository: the state that the program of the user and the library have together. -/
structure World where
  stacks : List Stack
  frames : List Frame
  log : List (Nat × Nat)

/-- Not code of the repository: the program starts without stacks. -/
def World.init : World := ⟨[], [], []⟩

/-- Not code of the repository: the program of the user, any sequence of these. The methods are those of exit-stack/src/lib.rs:94-283; `writeSelf`, `readSelf` and `endDrop` are what the destructor that is running does. -/
inductive Op where
  | new (c : Conf) (m : Mem)
  | slot (k : Nat) (T : Layout)
  | pin (k p : Nat) (T : Layout) (bytes : List Byte)
  | write (k p off : Nat) (bytes : List Byte)
  | read (k p off len : Nat)
  | writeSelf (off : Nat) (bytes : List Byte)
  | readSelf (off len : Nat)
  | set (k : Nat) (bytes : List Byte)
  | popAll (k : Nat)
  | dropStack (k : Nat)
  | endDrop (panics : Bool)

/-- What the program sees. `absent`: it can not make this call (there is no such stack, slot or reference, or no destructor is running), nothing happens. `running`: the destructor of this value of this stack begins. Not code of the repository. -/
inductive Resp where
  | absent
  | made (k : Nat)
  | unit
  | full
  | addr (p : Nat)
  | bytes (bs : List Byte)
  | running (k v : Nat)
  | unwound
  deriving DecidableEq, Repr

/-- A stack that can be used: it exists and no call with exclusive access to it is running. Not code of the repository: rules of the language. -/
def World.idle (w : World) (k : Nat) : Option Stack :=
  match w.stacks[k]? with
  | none => none
  | some st => if st.s.alive = true ∧ k ∉ w.frames.map (·.stack) then some st else none

/-- Not code of the repository: an auxiliary function of the machine. -/
def World.put (w : World) (k : Nat) (st : Stack) : World := { w with stacks := w.stacks.set k st }

/-- After the loop: exit-stack/src/lib.rs:213-214, and, called from `set`, 164-168. `none` is undefined behaviour. -/
def finish (w : World) (k : Nat) (st : Stack) (goal : Goal) : Option (Resp × World) :=
  match st.conf.memory.deref st.conf.t st.conf.debug with
  | .ub => none
  | .panic => some (.unwound, w)
  | .ret b =>
    let s := { st.s with mem := b.reset st.conf.t st.s.mem }
    match goal with
    | .pop => some (.unit, w.put k { st with s := s })
    | .drop => some (.unit, w.put k { st with s := s })
    | .set bytes =>
      match Exit.slot st.conf s st.conf.M with
      | .ret (some p) s =>
        some (.addr p, w.put k { st with s := Exit.pin st.conf s p st.conf.M bytes, refs := (p, (pinSlotLayout st.conf.t st.conf.M).size) :: st.refs })
      | .ret none s => some (.unwound, w.put k { st with s := s })
      | .unwound s => some (.unwound, w.put k { st with s := s })
      | .abort => none
      | .ub => none

/-- The head of the loop, exit-stack/src/lib.rs:206-210, with the given `flag.chain`: up to where the destructor of a value begins, or the end of the call. -/
def advance (w : World) (k : Nat) (goal : Goal) (chain : Option Nat) : Option (Resp × World) :=
  match w.stacks[k]? with
  | none => none
  | some st =>
    match chain with
    | none => finish w k st goal
    | some h =>
      match st.s.slots h with
      | none => none
      | some slot =>
        some (.running k slot.value, { w.put k { st with s := dropValue st.s slot.value } with frames := ⟨k, h, goal⟩ :: w.frames, log := (k, slot.value) :: w.log })

/-- exit-stack/src/lib.rs:204: `self.top.take()`. The call has exclusive access: no `Slot` and no reference is left. After the drop glue the stack is gone. -/
def clear (w : World) (k : Nat) (st : Stack) (goal : Goal) : Option (Resp × World) :=
  let chain := st.s.top
  advance (w.put k { st with s := { st.s with top := none, open_ := [], alive := goal.leaves st.s.alive }, refs := [] }) k goal chain

/-- Calls of the public methods; each case cites the method it runs. -/
def exec (w : World) : Op → Option (Resp × World)
  -- lib.rs:98-103: the level of the bump allocator is 0, the list is empty
  | .new c m => some (.made w.stacks.length, { w with stacks := w.stacks ++ [⟨c, ⟨storeUsize c.t m c.addr 0, none, fun _ => none, [], 0, [], true, fun _ => false⟩, []⟩] })
  -- lib.rs:109-118
  | .slot k T =>
    match w.idle k with
    | none => some (.absent, w)
    | some st =>
      match Exit.slot st.conf st.s T with
      | .ret (some p) s => some (.addr p, w.put k { st with s := { s with open_ := (p, T) :: s.open_ } })
      | .ret none s => some (.full, w.put k { st with s := s })
      | .unwound s => some (.unwound, w.put k { st with s := s })
      | .abort => none
      | .ub => none
  -- lib.rs:226-275
  | .pin k p T bytes =>
    match w.idle k with
    | none => some (.absent, w)
    | some st =>
      if (p, T) ∈ st.s.open_ ∧ bytes.length = (pinSlotLayout st.conf.t T).size then
        some (.addr p, w.put k { st with
          s := { Exit.pin st.conf st.s p T bytes with open_ := st.s.open_.erase (p, T) }
          refs := (p, (pinSlotLayout st.conf.t T).size) :: st.refs })
      else some (.absent, w)
  | .write k p off bytes =>
    match w.idle k with
    | none => some (.absent, w)
    | some st =>
      if st.refs.any (fun r => decide (r.1 = p ∧ 2 * st.conf.t.wordBytes ≤ off ∧ off + bytes.length ≤ r.2)) then
        some (.unit, w.put k { st with s := { st.s with mem := writeBytes st.s.mem (p + off) bytes } })
      else some (.absent, w)
  | .read k p off len =>
    match w.idle k with
    | none => some (.absent, w)
    | some st =>
      if st.refs.any (fun r => decide (r.1 = p ∧ 2 * st.conf.t.wordBytes ≤ off ∧ off + len ≤ r.2)) then
        some (.bytes (readBytes st.s.mem (p + off) len), w)
      else some (.absent, w)
  -- the destructor that is running has `&mut slot.value`, lib.rs:210
  | .writeSelf off bytes =>
    match w.frames with
    | [] => some (.absent, w)
    | f :: _ =>
      match w.stacks[f.stack]? with
      | none => none
      | some st =>
        match st.s.slots f.handle with
        | none => none
        | some slot =>
          if 2 * st.conf.t.wordBytes ≤ off ∧ off + bytes.length ≤ slot.layout.size then
            some (.unit, w.put f.stack { st with s := { st.s with mem := writeBytes st.s.mem (f.handle + off) bytes } })
          else some (.absent, w)
  | .readSelf off len =>
    match w.frames with
    | [] => some (.absent, w)
    | f :: _ =>
      match w.stacks[f.stack]? with
      | none => none
      | some st =>
        match st.s.slots f.handle with
        | none => none
        | some slot =>
          if 2 * st.conf.t.wordBytes ≤ off ∧ off + len ≤ slot.layout.size then some (.bytes (readBytes st.s.mem (f.handle + off) len), w)
          else some (.absent, w)
  -- lib.rs:159-170
  | .set k bytes =>
    match w.idle k with
    | none => some (.absent, w)
    | some st => if bytes.length = (pinSlotLayout st.conf.t st.conf.M).size then clear w k st (.set bytes) else some (.absent, w)
  -- lib.rs:173-178
  | .popAll k =>
    match w.idle k with
    | none => some (.absent, w)
    | some st => clear w k st .pop
  -- lib.rs:278-282
  | .dropStack k =>
    match w.idle k with
    | none => some (.absent, w)
    | some st => clear w k st .drop
  -- lib.rs:210-212: `drop_in_place` returns and the link is read; or it unwinds, which drops `flag` (187-202) and leaves the call
  | .endDrop panics =>
    match w.frames with
    | [] => some (.absent, w)
    | f :: fs =>
      match w.stacks[f.stack]? with
      | none => none
      | some st =>
        match st.s.slots f.handle with
        | none => none
        | some slot =>
          if panics = true then
            let flagChain : Option Nat := none -- `flag.chain` was taken
            match unwindFlagDrop (st.s.next + 1) { st.s with panics := fun v => if v = slot.value then true else st.s.panics v } flagChain with
            | .ret () s => some (.unwound, { w.put f.stack { st with s := s } with frames := fs })
            | _ => none
          else advance { w with frames := fs } f.stack f.goal slot.link

/-- A program from a state; `none` is undefined behaviour. Not code of the repository. -/
def run : World → List Op → Option (List Resp × World)
  | w, [] => some ([], w)
  | w, op :: ops =>
    match exec w op with
    | none => none
    | some (r, w) =>
      match run w ops with
      | none => none
      | some (rs, w) => some (r :: rs, w)

/-- Existing types and addresses. Not code of the repository: rules of the language. -/
def Op.Ok (t : Target) : Op → Prop
  | .new c _ => c.Valid ∧ c.t = t
  | .slot _ T => T.ValidType t ∧ (pinSlotLayout t T).ValidType t
  | _ => True

end Verif.ExitNest
