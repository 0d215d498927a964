import Verif.Spec.Basic
/-!
# Specification of a bump-pointer slab

The sequential object which users think of: a piece of memory `[base, base+len)` and one number, the
*level*, counting how many bytes at the front are used up.
-/
namespace Verif

/-- A piece of memory at a fixed address. -/
structure Slab where
  base : Nat
  len : Nat
  deriving DecidableEq, Repr

/-- A pointer together with the level of the slab behind the allocation. -/
structure Alloc where
  ptr : Nat
  level : Nat
  deriving DecidableEq, Repr

/-- Why an allocation did not succeed (`Failure`). -/
inductive Failure where
  | exhausted
  | mismatch (observed : Nat)
  deriving DecidableEq, Repr

namespace Slab
/-- Where a request is placed if everything before `level` is used: the first aligned address at or after
`base+level`, provided the request ends within the slab. -/
def place (s : Slab) (l : Layout) (level : Nat) : Option Alloc :=
  let p := alignUp l.align (s.base + level)
  if p + l.size ≤ s.base + s.len then some ⟨p, p + l.size - s.base⟩ else none

/-- The request fits behind `level`: there is *some* aligned place for it. -/
def Fits (s : Slab) (l : Layout) (level : Nat) : Prop :=
  ∃ p, s.base + level ≤ p ∧ l.align ∣ p ∧ p + l.size ≤ s.base + s.len
end Slab

end Verif
