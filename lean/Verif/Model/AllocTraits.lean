import Verif.Spec.LocalAlloc
import Verif.Model.Rust
/-!
# Model of the crate `alloc-traits` (`/repo/alloc-traits/src`)
-/
namespace Verif

/-- `core::ptr::copy_nonoverlapping::<u8>`: undefined behaviour if the ranges overlap. -/
def copyNonoverlapping (m : Mem) (src dst n : Nat) : Outcome Mem :=
  if n = 0 ∨ src + n ≤ dst ∨ dst + n ≤ src then .ret (writeBytes m dst (readBytes m src n)) else .ub

/-- `core::ptr::write_bytes::<u8>(p, 0, n)`. -/
def writeZeros (m : Mem) (p n : Nat) : Mem := writeBytes m p (List.replicate n 0)

namespace AllocTraits

/-- `struct NonZeroLayout(Layout)`, alloc-traits/src/layout.rs:13-15. The field is private: values are only made by the functions below. -/
structure NonZeroLayout where
  private mk ::
  layout : Layout
  deriving DecidableEq, Repr

namespace NonZeroLayout
/-- `NonZeroLayout::from_layout`, layout.rs:47-53. Also `TryFrom<Layout>` 82-88, `TryFrom<alloc::Layout>` 90-96 (the error has no content). -/
def fromLayout (l : Layout) : Option NonZeroLayout := if l.size = 0 then none else some ⟨l⟩
/-- `NonZeroLayout::new::<T>`, layout.rs:42-44; `T` is given by its layout. -/
def new (T : Layout) : Option NonZeroLayout := fromLayout T
/-- `NonZeroLayout::size`, layout.rs:56-58. `NonZeroUsize::new(..).unwrap()` panics for 0. -/
def size (l : NonZeroLayout) : Outcome Nat :=
  Outcome.unwrap (if l.layout.size = 0 then none else some l.layout.size)
/-- `NonZeroLayout::align`, layout.rs:61-63. -/
def align (l : NonZeroLayout) : Nat := l.layout.align
/-- `From<NonZeroLayout> for alloc::Layout`, layout.rs:71-75. -/
def toLayout (l : NonZeroLayout) : Layout := l.layout
end NonZeroLayout

/-- The required methods of `trait LocalAlloc`, alloc-traits/src/local.rs:36-49, over states `σ` of an allocator.
Layouts are those of `NonZeroLayout`, callers pass only non-zero sizes. -/
structure LocalAlloc (σ : Type) where
  alloc : σ → Mem → Layout → Outcome (Option Block × σ × Mem)
  dealloc : σ → Mem → Block → Outcome (σ × Mem)

/-- `defaults::local::alloc_zeroed`, alloc-traits/src/util.rs:27-39 (`LocalAlloc::alloc_zeroed` local.rs:56-60). -/
def defaultAllocZeroed {σ : Type} (A : LocalAlloc σ) (s : σ) (m : Mem) (layout : Layout) :
    Outcome (Option Block × σ × Mem) := do
  let (r, s, m) ← A.alloc s m layout
  match r with
  | none => pure (none, s, m)
  | some allocation => pure (some allocation, s, writeZeros m allocation.ptr allocation.layout.size)

/-- `defaults::local::realloc`, alloc-traits/src/util.rs:51-67 (`LocalAlloc::realloc` local.rs:71-75). -/
def defaultRealloc {σ : Type} (A : LocalAlloc σ) (s : σ) (m : Mem) (alloc : Block) (layout : Layout) :
    Outcome (Option Block × σ × Mem) := do
  let (r, s, m) ← A.alloc s m layout
  match r with
  | none => pure (none, s, m)
  | some newAlloc =>
    let m ← copyNonoverlapping m alloc.ptr newAlloc.ptr (min layout.size alloc.layout.size)
    let (s, m) ← A.dealloc s m alloc
    pure (some newAlloc, s, m)

end AllocTraits
end Verif
