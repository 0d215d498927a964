import Verif.Model.Uninit
/-!
# Model of `without_alloc::rc` (`/repo/without-alloc/src/rc.rs`)

Memory blocks are numbered; of a block that is used for an `RcBox` the three fields are modelled (`rcLayout` and its theorems show that they do not overlap). `ptr::read` and `drop_in_place` leave the bits of the value, so that using them
again shows in the results. The destructor of a value can run arbitrary code, also on handles to the same block: a call that has to run it only begins it, then come (in the history) the
calls made by the destructor, until it ends. `checks`: overflow checks are on; without them arithmetic wraps. Panics are caught by the user, who continues. The comparison traits are in `Model/Compare`; the formatting traits are not modelled.
-/
namespace Verif.RcM
open Verif

/-- `RcBox`, rc.rs:58-73. `val` are the bits of the value, if any value was stored. -/
structure RcBox (V : Type) where
  val : Option V
  strong : Nat
  weak : Nat

/-- `a + 1` on `usize`. without-alloc/src/rc.rs:329-347, 480-488; not code of the repository: the
semantics of the Rust language. -/
def plusOne (t : Target) (checks : Bool) (a : Nat) : Outcome Nat := if a + 1 < t.W then .ret (a + 1) else if checks then .panic else .ret ((a + 1) % t.W)
/-- `a - 1` on `usize`. without-alloc/src/rc.rs:329-347, 480-488; not code of the repository: the
semantics of the Rust language. -/
def minusOne (t : Target) (checks : Bool) (a : Nat) : Outcome Nat := if 1 ≤ a then .ret (a - 1) else if checks then .panic else .ret ((a + t.W - 1) % t.W)

namespace RcBox
variable {V : Type}
/-- The initial contents, rc.rs:105-109. -/
def init (v : V) : RcBox V := ⟨some v, 1, 1⟩
/-- `inc_strong`, rc.rs:329-332. -/
def incStrong (t : Target) (checks : Bool) (b : RcBox V) : Outcome (RcBox V) := do let val ← plusOne t checks b.strong; pure { b with strong := val }
/-- `dec_strong`, rc.rs:334-337. -/
def decStrong (t : Target) (checks : Bool) (b : RcBox V) : Outcome (RcBox V) := do let val ← minusOne t checks b.strong; pure { b with strong := val }
/-- `inc_weak`, rc.rs:339-342 and 480-483. -/
def incWeak (t : Target) (checks : Bool) (b : RcBox V) : Outcome (RcBox V) := do let val ← plusOne t checks b.weak; pure { b with weak := val }
/-- `dec_weak`, rc.rs:344-347 and 485-488. -/
def decWeak (t : Target) (checks : Bool) (b : RcBox V) : Outcome (RcBox V) := do let val ← minusOne t checks b.weak; pure { b with weak := val }
/-- `is_unique`, rc.rs:310-312. -/
def isUnique (b : RcBox V) : Bool := b.strong = 1 && b.weak = 1
/-- `is_unique_to_rc_memory`, rc.rs:462-464. -/
def isUniqueToRcMemory (b : RcBox V) : Bool := b.strong = 0 && b.weak = 1
/-- The counters part of `Drop for Rc`, rc.rs:520-525: whether `drop_in_place` is called next. -/
def dropRc (t : Target) (checks : Bool) (b : RcBox V) : Outcome (Bool × RcBox V) := do
  let b ← b.decStrong t checks
  if b.strong = 0 then do
    let b ← b.decWeak t checks
    pure (true, b)
  else pure (false, b)
end RcBox

/-- without-alloc/src/rc.rs:23-26, 40-43. -/
inductive HKind where
  | strong | weak
  deriving DecidableEq, Repr
/-- An `Rc` (rc.rs:23-30) or `Weak` (rc.rs:40-46) for a block. A handle passed to `mem::forget` can not be used but stays counted. -/
structure Handle where
  kind : HKind
  block : Nat
  forgotten : Bool
  deriving DecidableEq, Repr

/-- Who the block belongs to: the user (as uninitialised memory), `Rc` and `Weak` handles, or the
user as result of `into_raw`. Not code of the repository: an auxiliary function of the machine. -/
inductive Owner where
  | user | rc | raw
  deriving DecidableEq, Repr

/-- Not code of the repository: the state that the program of the user and the library have
together. -/
structure World (V : Type) where
  mem : Nat → RcBox V
  owner : Nat → Owner
  /-- Handles by number; `none` if gone. -/
  hs : List (Option Handle)
  /-- Values whose destructors were called, in order. -/
  log : List V
  /-- Blocks on whose values destructors are running, the innermost first. -/
  running : List Nat

/-- Not code of the repository: the program of the user, any sequence of these. The methods are
those of without-alloc/src/rc.rs:75-607. -/
inductive Op (V : Type) where
  | new (a : Nat) (v : V) | clone (h : Nat) | downgrade (h : Nat) | upgrade (h : Nat) | cloneWeak (h : Nat) | dropRc (h : Nat) | dropWeak (h : Nat)
  | tryUnwrap (h : Nat) | weakTryUnwrap (h : Nat) | intoRaw (h : Nat) | fromRaw (a : Nat) | rawReplace (a : Nat) (v : V) | rawTake (a : Nat)
  | replace (h : Nat) (v : V) | deref (h : Nat) | strongCount (h : Nat) | weakCount (h : Nat) | ptrEq (h h' : Nat) | forget (h : Nat)
  | scribble (a : Nat) (b : RcBox V) | endDrop

/-- `err` is the `Err(self)`, or `None` of `get_mut`. Results of these methods. -/
inductive Resp (V : Type) where
  | unit | handle (h : Nat) | none | val (v : V) | num (n : Nat) | bool (b : Bool) | unwrapped (v : V) (h : Nat) | memory (a : Nat) | err | panic
  deriving DecidableEq, Repr

section
variable {V : Type}

/-- Not code of the repository: an auxiliary function of the machine. -/
def World.setMem (w : World V) (a : Nat) (b : RcBox V) : World V := { w with mem := fun x => if x = a then b else w.mem x }
/-- Not code of the repository: an auxiliary function of the machine. -/
def World.setOwner (w : World V) (a : Nat) (o : Owner) : World V := { w with owner := fun x => if x = a then o else w.owner x }
/-- Not code of the repository: an auxiliary function of the machine. -/
def World.kill (w : World V) (h : Nat) : World V := { w with hs := w.hs.set h .none }
/-- Not code of the repository: an auxiliary function of the machine. -/
def World.add (w : World V) (k : HKind) (a : Nat) : World V := { w with hs := w.hs ++ [some ⟨k, a, false⟩] }

/-- The block of a usable handle of the kind. Not code of the repository: an auxiliary function of
the machine. -/
def World.block? (w : World V) (k : HKind) (h : Nat) : Option Nat :=
  match w.hs[h]? with
  | some (some ⟨k', a, false⟩) => if k' = k then some a else .none
  | _ => .none
/-- The block of a usable handle of any kind. Not code of the repository: an auxiliary function of
the machine. -/
def World.any? (w : World V) (h : Nat) : Option Nat :=
  match w.hs[h]? with
  | some (some ⟨_, a, false⟩) => some a
  | _ => .none

/-- `ptr::drop_in_place`, rc.rs:526-528: the destructor of the value is begun. -/
def World.beginDrop (w : World V) (a : Nat) : Outcome (World V) :=
  match (w.mem a).val with
  | .none => .ub
  | some v => .ret { w with log := w.log ++ [v], running := a :: w.running }

/-- `Drop for Rc` on an `Rc` for the block, rc.rs:520-530. -/
def World.dropRc (t : Target) (checks : Bool) (w : World V) (a : Nat) : Outcome (World V) := do
  let (last, b) ← (w.mem a).dropRc t checks
  if last then (w.setMem a b).beginDrop a else pure (w.setMem a b)

/-- `Weak::upgrade` if the value exists, rc.rs:411-415. If `inc_strong` panics then the unwinding drops the local `rc`. -/
def World.upgradeSome (t : Target) (checks : Bool) (w : World V) (a : Nat) : Outcome (Resp V × World V) :=
  match (w.mem a).incStrong t checks with
  | .ret b => .ret (.handle w.hs.length, (w.setMem a b).add .strong a)
  | .panic => do let w ← w.dropRc t checks a; pure (.panic, w)
  | .ub => .ub

/-- One call. Calls of the public methods; each case cites the method it runs.
(without-alloc/src/rc.rs:75-607.) -/
def exec (t : Target) (checks : Bool) (w : World V) : Op V → Outcome (Resp V × World V)
  -- `Rc::new`, rc.rs:101-114, on a block that fits
  | .new a v => .ret (.handle w.hs.length, ((w.setMem a (.init v)).setOwner a .rc).add .strong a)
  -- `Clone for Rc`, rc.rs:563-568
  | .clone h =>
    match w.block? .strong h with
    | .none => .ub
    | some a =>
      match (w.mem a).incStrong t checks with
      | .ret b => .ret (.handle w.hs.length, (w.setMem a b).add .strong a)
      | .panic => .ret (.panic, w)
      | .ub => .ub
  -- `downgrade`, rc.rs:213-216
  | .downgrade h =>
    match w.block? .strong h with
    | .none => .ub
    | some a =>
      match (w.mem a).incWeak t checks with
      | .ret b => .ret (.handle w.hs.length, (w.setMem a b).add .weak a)
      | .panic => .ret (.panic, w)
      | .ub => .ub
  -- `upgrade`, rc.rs:408-416
  | .upgrade h =>
    match w.block? .weak h with
    | .none => .ub
    | some a => if (w.mem a).strong = 0 then .ret (.none, w) else w.upgradeSome t checks a
  -- `Clone for Weak`, rc.rs:601-606
  | .cloneWeak h =>
    match w.block? .weak h with
    | .none => .ub
    | some a =>
      match (w.mem a).incWeak t checks with
      | .ret b => .ret (.handle w.hs.length, (w.setMem a b).add .weak a)
      | .panic => .ret (.panic, w)
      | .ub => .ub
  -- `Drop for Rc`, rc.rs:520-530
  | .dropRc h =>
    match w.block? .strong h with
    | .none => .ub
    | some a => do let w ← (w.kill h).dropRc t checks a; pure (.unit, w)
  -- `Drop for Weak`, rc.rs:572-575
  | .dropWeak h =>
    match w.block? .weak h with
    | .none => .ub
    | some a => do let b ← (w.mem a).decWeak t checks; pure (.unit, (w.kill h).setMem a b)
  -- `Rc::try_unwrap`, rc.rs:178-190
  | .tryUnwrap h =>
    match w.block? .strong h with
    | .none => .ub
    | some a =>
      if (w.mem a).strong ≠ 1 then .ret (.err, w)
      else do
        let b ← (w.mem a).decStrong t checks
        match b.val with
        | .none => .ub
        | some v => pure (.unwrapped v w.hs.length, ((w.setMem a b).kill h).add .weak a)
  -- `Weak::try_unwrap`, rc.rs:371-384; `self` is dropped at the end
  | .weakTryUnwrap h =>
    match w.block? .weak h with
    | .none => .ub
    | some a =>
      if (w.mem a).isUniqueToRcMemory then do
        let b ← (w.mem a).decWeak t checks
        pure (.memory a, ((w.setMem a b).kill h).setOwner a .user)
      else .ret (.err, w)
  -- `into_raw`, rc.rs:156-170
  | .intoRaw h =>
    match w.block? .strong h with
    | .none => .ub
    | some a => if (w.mem a).isUnique then .ret (.memory a, (w.kill h).setOwner a .raw) else .ret (.err, w)
  -- `from_raw`, rc.rs:121-128
  | .fromRaw a => .ret (.handle w.hs.length, (w.setOwner a .rc).add .strong a)
  -- the user replaces resp. moves out the value of a raw block
  | .rawReplace a v =>
    match (w.mem a).val with
    | .none => .ub
    | some old => .ret (.val old, w.setMem a { w.mem a with val := some v })
  | .rawTake a =>
    match (w.mem a).val with
    | .none => .ub
    | some old => .ret (.val old, w.setOwner a .user)
  -- `get_mut`, rc.rs:264-270, and `mem::replace` on the result
  | .replace h v =>
    match w.block? .strong h with
    | .none => .ub
    | some a =>
      if (w.mem a).isUnique then
        match (w.mem a).val with
        | .none => .ub
        | some old => .ret (.val old, w.setMem a { w.mem a with val := some v })
      else .ret (.err, w)
  -- `Deref for Rc`, rc.rs:536-538
  | .deref h =>
    match w.block? .strong h with
    | .none => .ub
    | some a => match (w.mem a).val with | .none => .ub | some v => .ret (.val v, w)
  -- `strong_count`, rc.rs:256-258 and 437-439
  | .strongCount h => match w.any? h with | .none => .ub | some a => .ret (.num (w.mem a).strong, w)
  -- `weak_count`, rc.rs:251-253 and 458-460
  | .weakCount h => match w.any? h with | .none => .ub | some a => .ret (.num (w.mem a).weak, w)
  -- `ptr_eq`, rc.rs:296-298
  | .ptrEq h h' =>
    match w.block? .strong h, w.block? .strong h' with
    | some a, some a' => .ret (.bool (a = a'), w)
    | _, _ => .ub
  -- `mem::forget`
  | .forget h =>
    match w.hs[h]? with
    | some (some x) => .ret (.unit, { w with hs := w.hs.set h (some { x with forgotten := true }) })
    | _ => .ub
  -- the user writes to memory that is his
  | .scribble a b => .ret (.unit, w.setMem a b)
  -- the innermost destructor returns
  | .endDrop => .ret (.unit, { w with running := w.running.tail })

/-- A sequence of calls. Not code of the repository: the program of the user, any sequence of
these. -/
def run (t : Target) (checks : Bool) : World V → List (Op V) → Outcome (List (Resp V) × World V)
  | w, [] => .ret ([], w)
  | w, op :: ops => do
    let (r, w) ← exec t checks w op
    let (rs, w) ← run t checks w ops
    pure (r :: rs, w)

/-- All memory is of the user and has arbitrary contents. Not code of the repository: the state
that the program of the user and the library have together. -/
def World.init (mem : Nat → RcBox V) : World V := ⟨mem, fun _ => .user, [], [], []⟩

end

/-! ## Memory -/
open Uninit

/-- The fields of `RcBox<T>` (`#[repr(C)]`, rc.rs:58-73). -/
def fields (t : Target) (T : Layout) : List Layout := [T, ⟨t.wordBytes, t.wordBytes⟩, ⟨t.wordBytes, t.wordBytes⟩]
/-- `Rc::layout`, rc.rs:243-246: `Layout::new::<RcBox<T>>()`. -/
def rcLayout (t : Target) (T : Layout) : Layout :=
  let align := max T.align t.wordBytes
  ⟨alignUp align (alignUp t.wordBytes T.size + t.wordBytes + t.wordBytes), align⟩
/-- Memory handling of `Rc::new`, rc.rs:102-103. -/
def newView (t : Target) (T : Layout) (memory : View) : Outcome View :=
  if memory.fits (rcLayout t T) then
    match memory.cast (rcLayout t T) with
    | .ok v => .ret v
    | .error _ => .panic
  else .panic
/-- Memory handling of `into_raw`, rc.rs:162-168. -/
def intoRawView (T : Layout) (inner : View) : Outcome View :=
  match (fromMemory inner.addr inner.len).cast T with
  | .ok v => .ret v
  | .error _ => .panic
/-- Memory handling of `from_raw`, rc.rs:122-123; `checks` as debug assertions. -/
def fromRawView (t : Target) (checks : Bool) (T : Layout) (init : View) : Outcome View :=
  if checks ∧ ¬ init.fits (rcLayout t T) then .panic
  else
    match init.cast (rcLayout t T) with
    | .ok v => .ret v
    | .error _ => .panic
/-- `as_ptr`, `as_mut_ptr`, rc.rs:317-327. -/
def valuePtr (inner : View) : Nat := inner.addr
/-- Memory handling of `Weak::try_unwrap`, rc.rs:376-382. -/
def releaseView (inner : View) : View := fromMemory inner.addr inner.len

end Verif.RcM
