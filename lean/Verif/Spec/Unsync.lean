import Verif.Spec.BumpApi
/-!
# Specification of the API of `unsync::MemBump` as a sequential object

The state is the level; memory of a `Slab`. Compare `Spec/BumpApi.lean`: zero-sized types are *not* special here.
-/
namespace Verif

/-- Calls by shared reference. Types are given by their layout. -/
inductive UCall where
  | alloc (l : Layout)
  | allocAt (l : Layout) (level : Nat)
  | get (V : Layout)
  | getAt (V : Layout) (level : Nat)
  | bumpBox (V : Layout)
  | bumpArray (V : Layout) (n : Nat)
  | level
  deriving DecidableEq, Repr

namespace UCall
/-- The layout that is allocated. -/
def layout : UCall → Option Layout
  | alloc l | allocAt l _ => some l
  | get V | getAt V _ | bumpBox V => some V
  | bumpArray V n => some ⟨V.size * n, V.align⟩
  | level => none
def atLevel : UCall → Option Nat
  | allocAt _ n | getAt _ n => some n
  | _ => none
/-- Arguments that exist in Rust. -/
def Valid (t : Target) : UCall → Prop
  | alloc l | allocAt l _ => l.Valid t
  | get V | getAt V _ | bumpBox V | bumpArray V _ => V.ValidType t
  | level => True
def success (c : UCall) (a : Alloc) : Ret :=
  match c with
  | get _ | getAt _ _ => .allocation a
  | _ => .ptr a.ptr
def failure (c : UCall) (f : Failure) : Ret :=
  match c with
  | alloc _ | get _ => .none
  | _ => .err f
end UCall

/-- Result and next level, if the call is executed at level `c`. An array layout that does not exist (larger than the address space
allows) can not be allocated. -/
def uSpecApply (t : Target) (s : Slab) (c : Nat) (call : UCall) : Ret × Nat :=
  match call.layout with
  | none => (.level c, c)
  | some l =>
    if t.isizeMax < l.size + (l.align - 1) then (call.failure .exhausted, c) else
    match specPlace s c l call.atLevel with
    | none => (.panicked, c)
    | some (.ok a) => (call.success a, a.level)
    | some (.error f) => (call.failure f, c)

end Verif
