import Verif.Spec.LocalAlloc
import Verif.Model.AllocTraits
/-!
# The contract of `LocalAlloc`

What the documentation of the trait demands of implementors, relative to an invariant `Inv state memory live` of the allocator,
where `live` are the blocks handed out and not deallocated.
-/
namespace Verif.AllocTraits
open Verif

structure Contract {σ : Type} (t : Target) (A : LocalAlloc σ) (Inv : σ → Mem → List Block → Prop) : Prop where
  /-- `alloc` returns; a success serves the layout and is disjoint from all live blocks; live blocks keep their bytes. -/
  alloc : ∀ {s m live l}, Inv s m live → l.Valid t → 0 < l.size →
    ∃ r s' m', A.alloc s m l = .ret (r, s', m') ∧ Kept live m m' ∧
      match r with
      | none => Inv s' m' live
      | some b => b.Serves l ∧ (∀ c ∈ live, b.region.Disjoint c.region) ∧ Inv s' m' (b :: live)
  /-- `dealloc` of a live block returns and the other live blocks keep their bytes. -/
  dealloc : ∀ {s m live b}, Inv s m live → b ∈ live →
    ∃ s' m', A.dealloc s m b = .ret (s', m') ∧ Kept (live.erase b) m m' ∧ Inv s' m' (live.erase b)
  /-- Users may write to live blocks. -/
  frame : ∀ {s m m' live}, Inv s m live →
    (∀ x, (∀ b ∈ live, ¬ b.region.Has x) → m' x = m x) → Inv s m' live

end Verif.AllocTraits
