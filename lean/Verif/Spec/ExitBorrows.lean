import Verif.Model.ExitBorrows
import Verif.Spec.BumpBorrows
/-! # Which programs with an exit stack the borrow checker accepts -/
set_option autoImplicit false
namespace Verif.ExitBorrows
open Verif Verif.Borrows
open Verif.VecBorrows (Ref)
open Verif.BumpBorrows (Obj)

/-- What the program may do: share the stack, take slots through the references it has to it, pin values to the slots (with any destructor that uses the bytes of the value), use the references to the values (not those of the stack itself, which are made from no other). `pop_all` needs exclusive access: all
references to values end. -/
def Allowed (w : Nat) (s : St) : Act → Prop
  | .share t => t = w ∨ t ∈ s.bump.shares
  | .slot t l => (t = w ∨ t ∈ s.bump.shares) ∧ 0 < l.size ∧ 0 < l.align
  | .pin i vlo vhi dtor => (∃ r, s.slots[i]? = some r ∧ r.lo ≤ vlo ∧ vlo ≤ vhi ∧ vhi ≤ r.hi) ∧ ∀ d ∈ dtor, vlo ≤ d.2.1 ∧ d.2.2 ≤ vhi
  | .popAll => True
  | .use r a lo hi => r ∈ s.bump.refs ∧ r.from_ ≠ [] ∧ (a = .write → r.mutable = true) ∧ r.lo ≤ lo ∧ hi ≤ r.hi
  | .reborrow r mutable lo hi => r ∈ s.bump.refs ∧ r.from_ ≠ [] ∧ (mutable = true → r.mutable = true) ∧ r.lo ≤ lo ∧ lo ≤ hi ∧ hi ≤ r.hi

/-- The same, but if the stack is `Unpin` it must not be cleared or dropped with values pinned to it. The compiler does not check this: see `C107_violated_unpin`. -/
def Permitted (w : Nat) (unpin : Bool) (s : St) (a : Act) : Prop := Allowed w s a ∧ (a = .popAll → unpin = false ∨ s.chain = [])

/-- An empty stack (its `memory` at some level). -/
structure Start (o : Obj) (w : Nat) (s : St) : Prop where
  bump : BumpBorrows.Start o w s.bump
  slots : s.slots = []
  chain : s.chain = []

/-- States that a permitted program reaches. -/
inductive Reach (o : Obj) (w : Nat) (unpin : Bool) (s₀ : St) : St → Prop
  | refl : Reach o w unpin s₀ s₀
  | step {s s' : St} {a : Act} (h : Reach o w unpin s₀ s) (hp : Permitted w unpin s a) (hs : step o w unpin s a = some s') : Reach o w unpin s₀ s'

end Verif.ExitBorrows
