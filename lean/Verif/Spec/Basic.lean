/-!
# Basic specification vocabulary

Small, self-contained notions in which the properties are stated: machine targets, layouts,
memory regions, disjointness, alignment, "first aligned address", repr(C) offsets.
Nothing here refers to the model of the code.
-/
namespace Verif

/-- Pointer width of the compilation target. -/
inductive Target where
  | w16 | w32 | w64
  deriving DecidableEq, Repr

namespace Target
/-- `size_of::<usize>()`. -/
def wordBytes : Target → Nat
  | w16 => 2 | w32 => 4 | w64 => 8
/-- Number of values of `usize`. -/
def W (t : Target) : Nat := 2 ^ (8 * t.wordBytes)
/-- `usize::MAX`. -/
def usizeMax (t : Target) : Nat := t.W - 1
/-- `isize::MAX`. -/
def isizeMax (t : Target) : Nat := t.W / 2 - 1
end Target

/-- A size and an alignment, `core::alloc::Layout`. Also used as the layout of a type. -/
structure Layout where
  size : Nat
  align : Nat
  deriving DecidableEq, Repr

/-- `n` is a power of two. -/
def IsPow2 (n : Nat) : Prop := ∃ k, n = 2 ^ k

namespace Layout
/-- The invariant of `core::alloc::Layout`: the alignment is a power of two, and rounding the size
up to the alignment does not exceed `isize::MAX`. -/
def Valid (t : Target) (l : Layout) : Prop :=
  IsPow2 l.align ∧ l.size + (l.align - 1) ≤ t.isizeMax
/-- The layout of a Rust type: additionally, the size is a multiple of the alignment. -/
def ValidType (t : Target) (l : Layout) : Prop :=
  l.Valid t ∧ l.align ∣ l.size
end Layout

/-- A contiguous range of byte addresses. -/
structure Region where
  start : Nat
  size : Nat
  deriving DecidableEq, Repr

namespace Region
/-- Byte address `x` belongs to the region. -/
def Has (r : Region) (x : Nat) : Prop := r.start ≤ x ∧ x < r.start + r.size
/-- No byte belongs to both. -/
def Disjoint (r s : Region) : Prop := ∀ x, ¬ (r.Has x ∧ s.Has x)
/-- The region lies within the other one. (Stated on the bounds, so that also the position of
empty regions is constrained.) -/
def Within (r s : Region) : Prop := s.start ≤ r.start ∧ r.start + r.size ≤ s.start + s.size

instance (r : Region) (x : Nat) : Decidable (r.Has x) := by unfold Has; infer_instance
instance (r s : Region) : Decidable (r.Within s) := by unfold Within; infer_instance
end Region

/-- `y` is the lowest multiple of `a` that is at least `x`. -/
def IsFirstAligned (a x y : Nat) : Prop :=
  x ≤ y ∧ a ∣ y ∧ ∀ z, x ≤ z → a ∣ z → y ≤ z

/-- The lowest multiple of `a` that is at least `x`, see `alignUp_isFirstAligned`. -/
def alignUp (a x : Nat) : Nat := (x + (a - 1)) / a * a

/-- Layout algorithm of `#[repr(C)]` structs: offsets of the fields, starting at offset `o`. -/
def reprCOffsets : Nat → List Layout → List Nat
  | _, [] => []
  | o, l :: ls => alignUp l.align o :: reprCOffsets (alignUp l.align o + l.size) ls

/-- A byte of memory and a flat memory. -/
abbrev Byte := UInt8
abbrev Mem := Nat → Byte

/-- The `n` bytes of memory starting at `p`. -/
def readBytes (m : Mem) (p n : Nat) : List Byte := (List.range n).map fun i => m (p + i)

/-- Memory after storing the bytes at `p`. -/
def writeBytes (m : Mem) (p : Nat) (bs : List Byte) : Mem := fun x =>
  if p ≤ x ∧ x < p + bs.length then bs.getD (x - p) 0 else m x

end Verif
