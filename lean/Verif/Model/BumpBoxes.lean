import Verif.Model.Unsync
/-!
# Boxes in an `unsync::Bump`, on the bytes of the memory

A program that makes `LeakBox`es in one `unsync::MemBump` (`/repo/static-alloc/src/unsync/bump.rs`, modelled in `Model/Unsync`) and uses them (`/repo/static-alloc/src/leaked.rs`). Everything is in one memory of bytes: the level of
the bump (its header) and the values, which are byte strings of the size of their type. Types can have destructors, which are logged with the bytes they are run on, and which may unwind. `Model/LeakBox` has more of the methods, but knows nothing about
memory: its places are just different.
-/
namespace Verif.Unsync.BumpBoxes
open Verif Unsync

/-- A type of values: its layout and whether there is drop glue (`mem::needs_drop`). Not code of
the repository: the semantics of the Rust language. -/
structure VType where
  layout : Layout
  needsDrop : Bool
  deriving DecidableEq, Repr

/-- What kind of variable it is: `LeakBox<MaybeUninit<T>>`, `LeakBox<T>`, or a bare pointer, i.e.
`&mut T` from `leak` or `*mut T` from `into_raw`. `LeakBox` is static-alloc/src/leaked.rs:154-157,
`leak` static-alloc/src/leaked.rs:315-322, `into_raw` static-alloc/src/leaked.rs:221-226. -/
inductive Hold where
  | uninit | boxed | bare
  deriving DecidableEq, Repr

/-- `LeakBox`, leaked.rs:140-158: the pointer. Its lifetime parameter is in `Permitted`. -/
structure Handle where
  addr : Nat
  ty : VType
  hold : Hold
  deriving DecidableEq, Repr

/-- The memory, the variables of the program (`none` after they were moved from) and the values on
which destructors were run. Not code of the repository: the state that the program of the user and
the library have together. -/
structure World where
  mem : Mem
  hs : List (Option Handle)
  log : List (List Byte)

/-- Not code of the repository: the program of the user, any sequence of these. The methods are
those of static-alloc/src/unsync/bump.rs:280-475 and static-alloc/src/leaked.rs:161-557. -/
inductive Op where
  | bumpBox (ty : VType)
  | getBoxed (ty : VType) (val : List Byte)
  | write (k : Nat) (val : List Byte)
  | deref (k : Nat)
  | replace (k : Nat) (val : List Byte)
  | assign (k : Nat) (val : List Byte)
  | take (k : Nat)
  | leak (k : Nat)
  | intoRaw (k : Nat)
  | fromRaw (k : Nat)
  | drop (k : Nat)
  | level
  | reset
  deriving DecidableEq, Repr

/-- Results of these methods. -/
inductive Resp where
  | made | err (f : Failure) | none | panicked | unit | unwound | val (v : List Byte) | num (n : Nat)
  deriving DecidableEq, Repr

namespace LeakBox
/-- `ptr::write`. Not code of the repository: the library core, as documented. -/
def ptrWrite (m : Mem) (addr : Nat) (val : List Byte) : Mem := writeBytes m addr val
/-- `ptr::read`, also what is seen through the reference of `Deref::deref` (leaked.rs:499-505). -/
def ptrRead (m : Mem) (this : Handle) : List Byte := readBytes m this.addr this.ty.layout.size
/-- `drop_in_place` of a value of the type: the destructor, if there is one. Not code of the
repository: the semantics of the Rust language. -/
def dropInPlace (m : Mem) (log : List (List Byte)) (this : Handle) : List (List Byte) :=
  if this.ty.needsDrop then log ++ [ptrRead m this] else log
/-- `Drop for LeakBox`, leaked.rs:515-520: a `MaybeUninit` has no drop glue. -/
def drop (m : Mem) (log : List (List Byte)) (this : Handle) : List (List Byte) :=
  match this.hold with
  | .uninit => log
  | _ => dropInPlace m log this
/-- `LeakBox::from_raw`, leaked.rs:238-244. -/
def fromRaw (this : Handle) : Handle := { this with hold := .boxed }
/-- `LeakBox::into_raw`, leaked.rs:221-224, and `leak` 315-323. -/
def intoRaw (this : Handle) : Handle := { this with hold := .bare }
/-- `LeakBox::take`, leaked.rs:426-433. -/
def take (m : Mem) (this : Handle) : List Byte := ptrRead m this
/-- `LeakBox::write`, leaked.rs:476-483, with `assume_init` 491-496 (which drops the `LeakBox<MaybeUninit<T>>`). -/
def write (m : Mem) (log : List (List Byte)) (this : Handle) (val : List Byte) : Handle × Mem × List (List Byte) :=
  let m := ptrWrite m this.addr val
  let log := drop m log this
  (fromRaw this, m, log)
end LeakBox

/-- Whether running the destructor unwinds. Not code of the repository: an auxiliary function of
the machine. -/
def unwinds (panics : List Byte → Bool) (this : Handle) (v : List Byte) : Bool := this.ty.needsDrop && panics v

/-- Execute one statement. `panics` tells for which values the destructor unwinds. Using a variable
that was moved from is impossible in Rust, and `ub` here. Calls of the public methods; each case
cites the method it runs. -/
def exec (t : Target) (b : MemBump) (panics : List Byte → Bool) (w : World) : Op → Outcome (Resp × World)
  -- `MemBump::bump_box`, bump.rs:434-439
  | .bumpBox ty =>
    match b.bumpBox t w.mem ty.layout with
    | .ub => .ub
    | .panic => pure (.panicked, w)
    | .ret (.error f, m) => pure (.err f, { w with mem := m })
    | .ret (.ok p, m) => pure (.made, { w with mem := m, hs := w.hs ++ [some ⟨p, ty, .uninit⟩] })
  -- `MemBump::get`, bump.rs:320-327, then `Allocation::boxed`, /repo/static-alloc/src/bump.rs:819-824
  | .getBoxed ty val =>
    match b.get t w.mem ty.layout with
    | .ub => .ub
    | .panic => pure (.panicked, w)
    | .ret (none, m) => pure (.none, { w with mem := m })
    | .ret (some a, m) => pure (.made, { w with mem := LeakBox.ptrWrite m a.ptr val, hs := w.hs ++ [some (LeakBox.fromRaw ⟨a.ptr, ty, .bare⟩)] })
  | .write k val =>
    match w.hs[k]? with
    | some (some h) =>
      let (h', m, log) := LeakBox.write w.mem w.log h val
      pure (.unit, ⟨m, w.hs.set k (some h'), log⟩)
    | _ => .ub
  | .deref k =>
    match w.hs[k]? with
    | some (some h) => pure (.val (LeakBox.ptrRead w.mem h), w)
    | _ => .ub
  -- `mem::replace(&mut *this, val)` through `DerefMut::deref_mut`, leaked.rs:508-513
  | .replace k val =>
    match w.hs[k]? with
    | some (some h) => pure (.val (LeakBox.ptrRead w.mem h), { w with mem := LeakBox.ptrWrite w.mem h.addr val })
    | _ => .ub
  -- `*this = val` through `deref_mut`: the old value is dropped; also if that unwinds the new value is moved in
  | .assign k val =>
    match w.hs[k]? with
    | some (some h) =>
      pure (if unwinds panics h (LeakBox.ptrRead w.mem h) then .unwound else .unit,
        { w with mem := LeakBox.ptrWrite w.mem h.addr val, log := LeakBox.dropInPlace w.mem w.log h })
    | _ => .ub
  | .take k =>
    match w.hs[k]? with
    | some (some h) => pure (.val (LeakBox.take w.mem h), { w with hs := w.hs.set k none })
    | _ => .ub
  | .leak k | .intoRaw k =>
    match w.hs[k]? with
    | some (some h) => pure (.unit, { w with hs := w.hs.set k (some (LeakBox.intoRaw h)) })
    | _ => .ub
  | .fromRaw k =>
    match w.hs[k]? with
    | some (some h) => pure (.unit, { w with hs := w.hs.set k (some (LeakBox.fromRaw h)) })
    | _ => .ub
  | .drop k =>
    match w.hs[k]? with
    | some (some h) =>
      pure (if h.hold = .boxed ∧ unwinds panics h (LeakBox.ptrRead w.mem h) = true then .unwound else .unit,
        { w with hs := w.hs.set k none, log := LeakBox.drop w.mem w.log h })
    | _ => .ub
  -- `MemBump::level`, bump.rs:466-468
  | .level => pure (.num (b.level t w.mem), w)
  -- `MemBump::reset`, bump.rs:474-476; the pointers that are left can not be used any more
  | .reset => pure (.unit, { w with mem := b.reset t w.mem, hs := w.hs.map fun _ => none })

/-- A program. Not code of the repository: the program of the user, any sequence of these. -/
def run (t : Target) (b : MemBump) (panics : List Byte → Bool) : World → List Op → Outcome (List Resp × World)
  | w, [] => .ret ([], w)
  | w, op :: ops => do
    let (r, w) ← exec t b panics w op
    let (rs, w) ← run t b panics w ops
    pure (r :: rs, w)

end Verif.Unsync.BumpBoxes
