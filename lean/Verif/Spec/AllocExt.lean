import Verif.Spec.LocalAllocContract
import Verif.Spec.Uninit
/-! # Specification of the allocator extension methods -/
namespace Verif.AllocExt
open Verif AllocTraits Uninit

section
variable {σ α : Type}

/-- A method that needs memory of layout `l` gets it from the allocator: `r` is its result, `place` tells where a result lies. It fails exactly if the allocator does. Without need for memory the allocator is not asked, and the result has no memory. Otherwise the
result lies in the block which the allocator returned and can hold the layout; the block is disjoint from all other blocks and is live afterwards; nothing but the block was written. -/
def Follows (A : LocalAlloc σ) (Inv : σ → Mem → List Block → Prop) (live : List Block) (s : σ) (m : Mem) (l : Layout) (place : α → Region)
    (r : Option α) (s' : σ) (m' : Mem) : Prop :=
  Kept live m m' ∧
  if l.size = 0 then ∃ x, r = some x ∧ s' = s ∧ m' = m ∧ CanHold (place x) l ∧ (place x).start ≠ 0 ∧ (place x).size = 0
  else ∃ a m1, A.alloc s m l = .ret (a, s', m1) ∧
    match a with
    | none => r = none ∧ m' = m1 ∧ Inv s' m' live
    | some b => ∃ x, r = some x ∧ (place x).Within b.region ∧ CanHold (place x) l ∧ b.ptr ≠ 0 ∧ (∀ c ∈ live, b.region.Disjoint c.region) ∧ Inv s' m' (b :: live) ∧ OnlyIn b.region m1 m'

/-- The memory is in use by the program, so that the allocator does not change it or hand it out. -/
def InUse (t : Target) (A : LocalAlloc σ) (s : σ) (m : Mem) (S : Region) : Prop :=
  ∀ l, l.Valid t → 0 < l.size → ∀ r s' m', A.alloc s m l = .ret (r, s', m') → (∀ x, S.Has x → m' x = m x) ∧ ∀ b, r = some b → b.region.Disjoint S

/-- The allocator returns blocks of exactly the requested size. -/
def Exact (A : LocalAlloc σ) : Prop := ∀ s m l b s' m', A.alloc s m l = .ret (some b, s', m') → b.layout.size = l.size

/-- The elements (of size `size`) of a slice, as bytes. -/
def elements (m : Mem) (addr size n : Nat) : List (List Byte) := (List.range n).map fun i => readBytes m (addr + i * size) size

end
end Verif.AllocExt
