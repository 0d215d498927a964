import Verif.Spec.Slab
/-!
# Specification of the API of `static_alloc::Bump` as a sequential object

`Call` and `Ret` are the operations of the public API and their results; `specApply` says what each
call does if it is executed atomically. The state of the object is the level only.
-/
namespace Verif

/-- The calls of the public API of `Bump<T>` by shared reference. Types are given by their layout, values by their bytes.

`leakBox`/`leakBoxAt` return a `LeakBox`, the pointer to the value. `getLayout` is also what
`LocalAlloc::alloc` and `GlobalAlloc::alloc` call. -/
inductive Call where
  | alloc (l : Layout)
  | allocAt (l : Layout) (level : Nat)
  | getLayout (l : Layout)
  | getLayoutAt (l : Layout) (level : Nat)
  | get (V : Layout)
  | getAt (V : Layout) (level : Nat)
  | leak (V : Layout) (val : List Byte)
  | leakAt (V : Layout) (val : List Byte) (level : Nat)
  | leakBox (V : Layout) (val : List Byte)
  | leakBoxAt (V : Layout) (val : List Byte) (level : Nat)
  | level
  deriving DecidableEq, Repr

/-- Results of calls. -/
inductive Ret where
  /-- the call panicked -/
  | panicked
  /-- `None` -/
  | none
  /-- `Err(failure)` -/
  | err (f : Failure)
  /-- `Err(LeakError { val, failure })` -/
  | leakErr (val : List Byte) (f : Failure)
  /-- success, giving only a pointer/reference/box -/
  | ptr (p : Nat)
  /-- success, giving a pointer and the new level -/
  | allocation (a : Alloc)
  /-- result of `level()` -/
  | level (n : Nat)
  deriving DecidableEq, Repr

namespace Call
/-- Layout requested by the call. -/
def layout : Call → Option Layout
  | alloc l | allocAt l _ | getLayout l | getLayoutAt l _ => some l
  | get V | getAt V _ | leak V _ | leakAt V _ _ | leakBox V _ | leakBoxAt V _ _ => some V
  | level => none

/-- The level at which the call wants to allocate, for the methods `*_at`. -/
def atLevel : Call → Option Nat
  | allocAt _ n | getLayoutAt _ n | getAt _ n | leakAt _ _ n | leakBoxAt _ _ n => some n
  | _ => none

/-- Whether the call is generic over a type (those treat zero-sized types specially) rather than
taking a runtime layout. -/
def typed : Call → Bool
  | get _ | getAt _ _ | leak _ _ | leakAt _ _ _ | leakBox _ _ | leakBoxAt _ _ _ => true
  | _ => false

/-- The value which the call moves into the allocation. -/
def value : Call → Option (List Byte)
  | leak _ v | leakAt _ v _ | leakBox _ v | leakBoxAt _ v _ => some v
  | _ => none

/-- Arguments that exist in Rust: layouts are valid, types have valid type layouts, and a value has as
many bytes as its type. -/
def Valid (t : Target) (c : Call) : Prop :=
  (∀ l, c.layout = some l → if c.typed then l.ValidType t else l.Valid t) ∧
  (∀ l v, c.layout = some l → c.value = some v → v.length = l.size)

/-- How a successful allocation is presented by the call. -/
def success (c : Call) (a : Alloc) : Ret :=
  match c with
  | alloc _ | leak _ _ | leakBox _ _ | leakBoxAt _ _ _ => .ptr a.ptr
  | _ => .allocation a

/-- How a failed allocation is presented by the call. -/
def failure (c : Call) (f : Failure) : Ret :=
  match c with
  | leak _ v | leakAt _ v _ => .leakErr v f
  | allocAt _ _ | getLayoutAt _ _ | getAt _ _ | leakBoxAt _ _ _ => .err f
  | alloc _ | getLayout _ | get _ | leakBox _ _ | level => .none
end Call

/-- The allocation made by a call of a raw or non-zero-sized layout: result (`none` = panic). -/
def specPlace (s : Slab) (c : Nat) (l : Layout) (atLevel : Option Nat) : Option (Except Failure Alloc) :=
  if l.size = 0 then none else
  match atLevel with
  | .none => some <| match s.place l c with
    | .some a => .ok a
    | .none => .error .exhausted
  | .some n =>
    if s.len < n then none else
    some <| match s.place l n with
    | .none => .error .exhausted
    | .some a => if c = n then .ok a else .error (.mismatch c)

/-- The pointers handed out for zero-sized types: `zst align`. -/
abbrev ZstAddr := Nat → Nat

/-- Sequential specification: the result and the next level if the call is executed atomically at level `c`. -/
def specApply (zst : ZstAddr) (s : Slab) (c : Nat) (call : Call) : Ret × Nat :=
  match call.layout with
  | none => (.level c, c)
  | some l =>
    if call.typed = true ∧ l.size = 0 then
      -- zero-sized types do not interact with the memory, only check the level
      match call.atLevel with
      | .none => (call.success ⟨zst l.align, c⟩, c)
      | .some n => if c = n then (call.success ⟨zst l.align, c⟩, c) else (call.failure (.mismatch c), c)
    else
      match specPlace s c l call.atLevel with
      | none => (.panicked, c)
      | some (.ok a) => (call.success a, a.level)
      | some (.error f) => (call.failure f, c)

/-- The non-empty region which a call with this result got. -/
def grant (call : Call) (r : Ret) : Option Region :=
  match call.layout with
  | none => none
  | some l => if l.size = 0 then none else
    match r with
    | .ptr p => some ⟨p, l.size⟩
    | .allocation a => some ⟨a.ptr, l.size⟩
    | _ => none

/-- The pointer in a successful result. -/
def Ret.ptr? : Ret → Option Nat
  | .ptr p => some p
  | .allocation a => some a.ptr
  | _ => Option.none

/-- The result reports that the memory is exhausted (for the methods returning `Option`, that is `None`). -/
def Ret.IsExhausted : Ret → Prop
  | .none => True
  | .err .exhausted => True
  | .leakErr _ .exhausted => True
  | _ => False

/-- The result reports the current level in a `Mismatch`. -/
def Ret.mismatch? : Ret → Option Nat
  | .err (.mismatch n) => some n
  | .leakErr _ (.mismatch n) => some n
  | _ => .none

/-- A level which the result of a call discloses. -/
def disclosed : Ret → Option Nat
  | .level n => some n
  | .allocation a => some a.level
  | .err (.mismatch n) => some n
  | .leakErr _ (.mismatch n) => some n
  | _ => none

end Verif
