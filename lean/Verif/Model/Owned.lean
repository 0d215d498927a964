import Verif.Model.Rust
/-!
# A machine for ownership of values, used for the box types

Values have numbers. A place in memory holds the bits of a value or is uninitialised. `ptr::read` copies bits and leaves them in place,
`drop_in_place` runs the destructor of the value whose bits are found (and leaves the bits). So reading a place twice, or dropping a moved value, is
not prevented by the machine: it shows in the log of the destructors.
-/
namespace Verif.Owned

/-- Memory by places and the log of the destructors that were run (latest first). `panics v`: the
destructor of `v` unwinds. Not code of the repository: the state that the program of the user and
the library have together. -/
structure PState where
  mem : Nat → Option Nat
  dropped : List Nat
  panics : Nat → Bool

/-- `core::ptr::write`: no destructor of an old value is run. -/
def ptrWrite (s : PState) (p v : Nat) : PState := { s with mem := fun x => if x = p then some v else s.mem x }
/-- `core::ptr::read`; reading uninitialised memory is undefined. -/
def ptrRead (s : PState) (p : Nat) : Outcome Nat :=
  match s.mem p with
  | none => .ub
  | some v => .ret v
/-- `core::ptr::drop_in_place::<T>`; tells whether the destructor unwinds. `needsDrop`: the type has drop glue (not so for `MaybeUninit<_>`
and `Copy` types). -/
def dropInPlace (needsDrop : Bool) (s : PState) (p : Nat) : Outcome (Bool × PState) :=
  if needsDrop then
    match s.mem p with
    | none => .ub
    | some v => .ret (s.panics v, { s with dropped := v :: s.dropped })
  else .ret (false, s)

/-- What the single handle for a place is. Handles: `LeakBox` (static-alloc/src/leaked.rs:154-157),
`Box` (without-alloc/src/boxed.rs:63-66), `Uninit` (without-alloc/src/uninit.rs:79-84), references.
-/
inductive Kind where
  /-- An owning box with a value (`LeakBox<T>`, `Box<T>`). -/
  | boxed
  /-- A `LeakBox` of a `Copy` type. -/
  | copy
  /-- Memory for a value, contents irrelevant (`LeakBox<MaybeUninit<T>>`, `Uninit<T>`). -/
  | uninit
  /-- Memory for a value that the user has initialised without this being visible in the type. -/
  | uninitFull
  /-- A raw pointer (or leaked reference) to a value: the user is responsible for it. -/
  | raw
  deriving DecidableEq, Repr

/-- The world: memory, the handle of each place, the values that the user holds as variables,
number of values created. Not code of the repository: the state that the program of the user and
the library have together. -/
structure OState where
  st : PState
  kind : Nat → Option Kind
  owned : List Nat
  next : Nat

/-- Not code of the repository: an auxiliary function of the machine. -/
def OState.setKind (s : OState) (p : Nat) (k : Option Kind) : OState :=
  { s with kind := fun x => if x = p then k else s.kind x }

end Verif.Owned
