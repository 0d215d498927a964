import Verif.Spec.Basic
/-!
# Modelled pieces of Rust's `core`

These model the parts of the standard library which the crates call (not code of `/repo`).
-/
namespace Verif

/-- What running a piece of Rust code leads to: a value, an (unwinding) panic, or undefined behaviour
(a violated precondition of an unsafe operation). -/
inductive Outcome (α : Type) where
  | ret (a : α)
  | panic
  | ub
  deriving DecidableEq, Repr

namespace Outcome
protected def bind {α β : Type} (x : Outcome α) (f : α → Outcome β) : Outcome β :=
  match x with
  | ret a => f a
  | panic => panic
  | ub => ub
instance : Monad Outcome where
  pure := ret
  bind := Outcome.bind

/-- `assert!(b)` -/
def assert (b : Prop) [Decidable b] : Outcome Unit := if b then ret () else panic
/-- `Option::unwrap` -/
def unwrap {α : Type} : Option α → Outcome α
  | some a => ret a
  | none => panic
end Outcome

namespace Usize
/-- `usize::checked_add` -/
def checkedAdd (t : Target) (a b : Nat) : Option Nat := if a + b < t.W then some (a + b) else none
/-- `usize::checked_sub` -/
def checkedSub (a b : Nat) : Option Nat := if b ≤ a then some (a - b) else none
/-- `usize::checked_mul` -/
def checkedMul (t : Target) (a b : Nat) : Option Nat := if a * b < t.W then some (a * b) else none
/-- `usize::saturating_sub` -/
def saturatingSub (a b : Nat) : Nat := a - b
/-- `usize::wrapping_add`, also `<*mut u8>::wrapping_add` on addresses. -/
def wrappingAdd (t : Target) (a b : Nat) : Nat := (a + b) % t.W
/-- `usize::wrapping_sub` -/
def wrappingSub (t : Target) (a b : Nat) : Nat := (a + t.W - b) % t.W
end Usize

/-- `<*mut u8>::align_offset(align)` for a pointer at address `addr`: with a stride of one byte the number of
bytes up to the next multiple. (core documents that implementations may also return `usize::MAX`; at runtime, for
stride 1 and a power-of-two alignment, the implementation computes exactly this.) -/
def alignOffsetU8 (addr align : Nat) : Nat := (align - addr % align) % align

/-- `<*mut ()>::align_offset(align)`: with a stride of zero bytes the pointer can not be moved, the result
is 0 if it already is aligned and else `usize::MAX`. -/
def alignOffsetUnit (t : Target) (addr align : Nat) : Nat :=
  if addr % align = 0 then 0 else t.usizeMax

/-- `Layout::from_size_align` (core): `Ok` iff the arguments form a valid layout. -/
def layoutFromSizeAlign (t : Target) (size align : Nat) : Option Layout :=
  if size + (align - 1) ≤ t.isizeMax then some ⟨size, align⟩ else none

/-- `Layout::array::<T>(n)` (core): `Ok` iff the product does not overflow and is a valid size. -/
def layoutArray (t : Target) (elem : Layout) (n : Nat) : Option Layout :=
  match Usize.checkedMul t elem.size n with
  | none => none
  | some size => layoutFromSizeAlign t size elem.align

/-- `Layout::extend` (core): append `next` with padding, returning the new layout and the offset. -/
def layoutExtend (t : Target) (l next : Layout) : Option (Layout × Nat) :=
  let align := max l.align next.align
  let offset := alignUp next.align l.size
  match layoutFromSizeAlign t (offset + next.size) align with
  | none => none
  | some r => some (r, offset)

/-- `Layout::pad_to_align` (core). -/
def layoutPadToAlign (l : Layout) : Layout := ⟨alignUp l.align l.size, l.align⟩

end Verif
