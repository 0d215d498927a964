import Verif.Spec.Basic
/-!
# Specification of allocators

Blocks of memory, and the contract of the trait `alloc_traits::LocalAlloc` (documentation of the trait,
alloc-traits/src/local.rs:32-75).
-/
namespace Verif

/-- An allocated block: address and layout (`alloc_traits::Allocation`). -/
structure Block where
  ptr : Nat
  layout : Layout
  deriving DecidableEq, Repr

def Block.region (b : Block) : Region := ⟨b.ptr, b.layout.size⟩

/-- The block can be used for values of layout `l`. -/
def Block.Serves (b : Block) (l : Layout) : Prop :=
  b.ptr ≠ 0 ∧ l.align ∣ b.ptr ∧ l.size ≤ b.layout.size

/-- All bytes of the blocks are the same in both memories. -/
def Kept (live : List Block) (m m' : Mem) : Prop :=
  ∀ b ∈ live, ∀ x, b.region.Has x → m' x = m x

/-- All bytes outside of the region are the same in both memories. -/
def OnlyIn (r : Region) (m m' : Mem) : Prop := ∀ x, ¬ r.Has x → m' x = m x

end Verif
