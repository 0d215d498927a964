import Verif.Model.AllocExt
/-!
# Model of `without_alloc::rc` on bytes (`/repo/without-alloc/src/rc.rs`)

The same calls as in `Model/Rc`, but on the bytes of the memory instead of a record per block: the value is the bytes at the start of the block, and the counters are words at the offsets of the `#[repr(C)]` struct `RcBox` (rc.rs:58-73).
Block number `a` is at address `c.addr a`. A value is given by its bytes.
-/
namespace Verif.RcMem
open Verif RcM

/-- Target, layout of the value type, and where the blocks are. without-alloc/src/rc.rs:59-71. -/
structure Cfg where
  t : Target
  T : Layout
  addr : Nat → Nat

namespace Cfg
/-- `as_ptr`, `as_mut_ptr`, rc.rs:317-327: the value is the first field. -/
def valueAddr (c : Cfg) (a : Nat) : Nat := c.addr a
/-- Address of the field `strong`, rc.rs:304-308 (`inner`) and 476-478. -/
def strongAddr (c : Cfg) (a : Nat) : Nat := AllocExt.strongAddr c.t c.T (c.addr a)
/-- Address of the field `weak`, rc.rs:304-308 (`inner`) and 469-471. -/
def weakAddr (c : Cfg) (a : Nat) : Nat := AllocExt.weakAddr c.t c.T (c.addr a)
/-- Reading the value. without-alloc/src/rc.rs:304-327. -/
def value (c : Cfg) (m : Mem) (a : Nat) : List Byte := readBytes m (c.valueAddr a) c.T.size
/-- `self.strong().get()` without-alloc/src/rc.rs:476-478. -/
def strong (c : Cfg) (m : Mem) (a : Nat) : Nat := loadUsize c.t m (c.strongAddr a)
/-- `self.weak().get()` without-alloc/src/rc.rs:469-474. -/
def weak (c : Cfg) (m : Mem) (a : Nat) : Nat := loadUsize c.t m (c.weakAddr a)
/-- `self.strong().set(val)` without-alloc/src/rc.rs:329-337. -/
def setStrong (c : Cfg) (m : Mem) (a v : Nat) : Mem := storeUsize c.t m (c.strongAddr a) v
/-- `self.weak().set(val)` without-alloc/src/rc.rs:339-347, 480-488. -/
def setWeak (c : Cfg) (m : Mem) (a v : Nat) : Mem := storeUsize c.t m (c.weakAddr a) v
/-- A write of a value (`ptr::write`, or through a mutable reference). Not code of the repository:
the semantics of the Rust language. -/
def setValue (c : Cfg) (m : Mem) (a : Nat) (v : List Byte) : Mem := writeBytes m (c.valueAddr a) v

/-- Write of the initial contents, rc.rs:105-109. -/
def init (c : Cfg) (m : Mem) (a : Nat) (v : List Byte) : Mem := c.setWeak (c.setStrong (c.setValue m a v) a 1) a 1
/-- `inc_strong`, rc.rs:329-332. -/
def incStrong (c : Cfg) (checks : Bool) (m : Mem) (a : Nat) : Outcome Mem := do let val ← plusOne c.t checks (c.strong m a); pure (c.setStrong m a val)
/-- `dec_strong`, rc.rs:334-337. -/
def decStrong (c : Cfg) (checks : Bool) (m : Mem) (a : Nat) : Outcome Mem := do let val ← minusOne c.t checks (c.strong m a); pure (c.setStrong m a val)
/-- `inc_weak`, rc.rs:339-342 and 480-483. -/
def incWeak (c : Cfg) (checks : Bool) (m : Mem) (a : Nat) : Outcome Mem := do let val ← plusOne c.t checks (c.weak m a); pure (c.setWeak m a val)
/-- `dec_weak`, rc.rs:344-347 and 485-488. -/
def decWeak (c : Cfg) (checks : Bool) (m : Mem) (a : Nat) : Outcome Mem := do let val ← minusOne c.t checks (c.weak m a); pure (c.setWeak m a val)
/-- `is_unique`, rc.rs:310-312. -/
def isUnique (c : Cfg) (m : Mem) (a : Nat) : Bool := c.strong m a = 1 && c.weak m a = 1
/-- `is_unique_to_rc_memory`, rc.rs:462-464. -/
def isUniqueToRcMemory (c : Cfg) (m : Mem) (a : Nat) : Bool := c.strong m a = 0 && c.weak m a = 1
/-- The counters part of `Drop for Rc`, rc.rs:520-525. -/
def dropRc (c : Cfg) (checks : Bool) (m : Mem) (a : Nat) : Outcome (Bool × Mem) := do
  let m ← c.decStrong checks m a
  if c.strong m a = 0 then do
    let m ← c.decWeak checks m a
    pure (true, m)
  else pure (false, m)
end Cfg

/-- As `RcM.World`, with the bytes of all of the memory. Not code of the repository: the state that
the program of the user and the library have together. -/
structure BWorld where
  m : Mem
  owner : Nat → Owner
  hs : List (Option Handle)
  log : List (List Byte)
  running : List Nat

/-- Results of the methods. -/
abbrev BResp := Resp (List Byte)

namespace BWorld
/-- Not code of the repository: an auxiliary function of the machine. -/
def setMem (w : BWorld) (m : Mem) : BWorld := { w with m := m }
/-- Not code of the repository: an auxiliary function of the machine. -/
def setOwner (w : BWorld) (a : Nat) (o : Owner) : BWorld := { w with owner := fun x => if x = a then o else w.owner x }
/-- Not code of the repository: an auxiliary function of the machine. -/
def kill (w : BWorld) (h : Nat) : BWorld := { w with hs := w.hs.set h none }
/-- Not code of the repository: an auxiliary function of the machine. -/
def add (w : BWorld) (k : HKind) (a : Nat) : BWorld := { w with hs := w.hs ++ [some ⟨k, a, false⟩] }
/-- The block of a usable handle of the kind. Not code of the repository: an auxiliary function of
the machine. -/
def block? (w : BWorld) (k : HKind) (h : Nat) : Option Nat :=
  match w.hs[h]? with
  | some (some ⟨k', a, false⟩) => if k' = k then some a else none
  | _ => none
/-- The block of a usable handle of any kind. Not code of the repository: an auxiliary function of
the machine. -/
def any? (w : BWorld) (h : Nat) : Option Nat :=
  match w.hs[h]? with
  | some (some ⟨_, a, false⟩) => some a
  | _ => none
/-- `ptr::drop_in_place`, rc.rs:526-528: the destructor of the value found is begun. -/
def beginDrop (c : Cfg) (w : BWorld) (a : Nat) : BWorld := { w with log := w.log ++ [c.value w.m a], running := a :: w.running }
/-- `Drop for Rc`, rc.rs:520-530. -/
def dropRc (c : Cfg) (checks : Bool) (w : BWorld) (a : Nat) : Outcome BWorld := do
  let (last, m) ← c.dropRc checks w.m a
  if last then pure ((w.setMem m).beginDrop c a) else pure (w.setMem m)
/-- `Weak::upgrade` if the value exists, rc.rs:411-415. -/
def upgradeSome (c : Cfg) (checks : Bool) (w : BWorld) (a : Nat) : Outcome (BResp × BWorld) :=
  match c.incStrong checks w.m a with
  | .ret m => .ret (.handle w.hs.length, (w.setMem m).add .strong a)
  | .panic => do let w ← w.dropRc c checks a; pure (.panic, w)
  | .ub => .ub
/-- A new handle after incrementing a counter; a panic of the increment changes nothing. Not code
of the repository: an auxiliary function of the machine. -/
def counted (w : BWorld) (k : HKind) (a : Nat) (x : Outcome Mem) : Outcome (BResp × BWorld) :=
  match x with
  | .ret m => .ret (.handle w.hs.length, (w.setMem m).add k a)
  | .panic => .ret (.panic, w)
  | .ub => .ub
end BWorld

/-- A call, or the user writes bytes to a block that is his memory. Not code of the repository: the
program of the user, any sequence of these. The methods are those of
without-alloc/src/rc.rs:75-607. -/
inductive BOp where
  | call (op : Op (List Byte))
  | raw (a off : Nat) (bytes : List Byte)

/-- One call; citations as in `RcM.exec`. (without-alloc/src/rc.rs:75-607.) -/
def bexec (c : Cfg) (checks : Bool) (w : BWorld) : BOp → Outcome (BResp × BWorld)
  | .raw a off bytes => .ret (.unit, w.setMem (writeBytes w.m (c.addr a + off) bytes))
  | .call op => match op with
    -- `Rc::new`, rc.rs:101-114
    | .new a v => .ret (.handle w.hs.length, ((w.setMem (c.init w.m a v)).setOwner a .rc).add .strong a)
    -- `Clone for Rc`, rc.rs:563-568
    | .clone h => match w.block? .strong h with | none => .ub | some a => w.counted .strong a (c.incStrong checks w.m a)
    -- `downgrade`, rc.rs:213-216
    | .downgrade h => match w.block? .strong h with | none => .ub | some a => w.counted .weak a (c.incWeak checks w.m a)
    -- `upgrade`, rc.rs:408-416
    | .upgrade h => match w.block? .weak h with | none => .ub | some a => if c.strong w.m a = 0 then .ret (.none, w) else w.upgradeSome c checks a
    -- `Clone for Weak`, rc.rs:601-606
    | .cloneWeak h => match w.block? .weak h with | none => .ub | some a => w.counted .weak a (c.incWeak checks w.m a)
    -- `Drop for Rc`, rc.rs:520-530
    | .dropRc h => match w.block? .strong h with | none => .ub | some a => do let w ← (w.kill h).dropRc c checks a; pure (.unit, w)
    -- `Drop for Weak`, rc.rs:572-575
    | .dropWeak h => match w.block? .weak h with | none => .ub | some a => do let m ← c.decWeak checks w.m a; pure (.unit, (w.kill h).setMem m)
    -- `Rc::try_unwrap`, rc.rs:178-190
    | .tryUnwrap h =>
      match w.block? .strong h with
      | none => .ub
      | some a => if c.strong w.m a ≠ 1 then .ret (.err, w) else do
        let m ← c.decStrong checks w.m a
        pure (.unwrapped (c.value m a) w.hs.length, ((w.setMem m).kill h).add .weak a)
    -- `Weak::try_unwrap`, rc.rs:371-384
    | .weakTryUnwrap h =>
      match w.block? .weak h with
      | none => .ub
      | some a => if c.isUniqueToRcMemory w.m a then do
          let m ← c.decWeak checks w.m a
          pure (.memory a, ((w.setMem m).kill h).setOwner a .user)
        else .ret (.err, w)
    -- `into_raw`, rc.rs:156-170
    | .intoRaw h => match w.block? .strong h with | none => .ub | some a => if c.isUnique w.m a then .ret (.memory a, (w.kill h).setOwner a .raw) else .ret (.err, w)
    -- `from_raw`, rc.rs:121-128
    | .fromRaw a => .ret (.handle w.hs.length, (w.setOwner a .rc).add .strong a)
    | .rawReplace a v => .ret (.val (c.value w.m a), w.setMem (c.setValue w.m a v))
    | .rawTake a => .ret (.val (c.value w.m a), w.setOwner a .user)
    -- `get_mut`, rc.rs:264-270
    | .replace h v => match w.block? .strong h with | none => .ub | some a => if c.isUnique w.m a then .ret (.val (c.value w.m a), w.setMem (c.setValue w.m a v)) else .ret (.err, w)
    -- `Deref for Rc`, rc.rs:536-538
    | .deref h => match w.block? .strong h with | none => .ub | some a => .ret (.val (c.value w.m a), w)
    -- `strong_count`, rc.rs:256-258 and 437-439
    | .strongCount h => match w.any? h with | none => .ub | some a => .ret (.num (c.strong w.m a), w)
    -- `weak_count`, rc.rs:251-253 and 458-460
    | .weakCount h => match w.any? h with | none => .ub | some a => .ret (.num (c.weak w.m a), w)
    -- `ptr_eq`, rc.rs:296-298: compares the addresses of the values
    | .ptrEq h h' =>
      match w.block? .strong h, w.block? .strong h' with
      | some a, some a' => .ret (.bool (c.valueAddr a = c.valueAddr a'), w)
      | _, _ => .ub
    | .forget h =>
      match w.hs[h]? with
      | some (some x) => .ret (.unit, { w with hs := w.hs.set h (some { x with forgotten := true }) })
      | _ => .ub
    -- here the user writes by `raw`
    | .scribble _ _ => .ub
    | .endDrop => .ret (.unit, { w with running := w.running.tail })

/-- Not code of the repository: the program of the user, any sequence of these. -/
def brun (c : Cfg) (checks : Bool) : BWorld → List BOp → Outcome (List BResp × BWorld)
  | w, [] => .ret ([], w)
  | w, op :: ops => do
    let (r, w) ← bexec c checks w op
    let (rs, w) ← brun c checks w ops
    pure (r :: rs, w)

/-- Not code of the repository: the state that the program of the user and the library have
together. -/
def BWorld.initial (m : Mem) : BWorld := ⟨m, fun _ => .user, [], [], []⟩

end Verif.RcMem
