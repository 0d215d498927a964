import Verif.Model.RcBorrows
/-! # Which programs with `Rc` the borrow checker accepts -/
set_option autoImplicit false
namespace Verif.RcBorrows
open Verif.Borrows
open Verif.VecBorrows (Ref)

/-- There is a handle with this number, and it is of this kind. -/
def St.Is (s : St) (i : Nat) (k : Kind) : Prop := ∃ x, s.handles[i]? = some x ∧ x.kind = k

/-- The destructor of the value in this box runs. -/
def St.Dying (s : St) (k : Nat) : Prop := ∃ x ∈ s.handles, x.box = k ∧ x.kind = .dying

/-- What the program may do: call the methods of the handles it has, as long as they are what the method is for (with memory anything, with the result of `into_raw` only
something to the value), and use the references which were not ended. The last condition is not checked by the compiler: `Weak::try_unwrap` must not be called while the destructor of the value runs, see `C105_violated_unwrap_in_drop`. -/
def Permitted (bs : List Box) (s : St) : Act → Prop
  | .new i => s.Is i .mem
  | .clone i | .downgrade i | .strongCount i | .weakCount i | .deref i | .getMut i | .dropRc i | .tryUnwrap i | .intoRaw i => s.Is i .rc
  | .endDrop i => s.Is i .dying
  | .fromRaw i | .forget i => s.Is i .raw
  | .useRaw i _ lo hi => ∃ x B, s.handles[i]? = some x ∧ bs[x.box]? = some B ∧ B.lo ≤ lo ∧ (x.kind = .raw ∧ hi ≤ B.vhi ∨ x.kind = .mem ∧ hi ≤ B.hi)
  | .upgrade i | .cloneWeak i | .strongCountWeak i | .weakCountWeak i | .dropWeak i => s.Is i .weak
  | .tryUnwrapWeak i => s.Is i .weak ∧ ∀ x, s.handles[i]? = some x → ¬ s.Dying x.box
  | .use r a lo hi => r ∈ s.refs ∧ (a = .write → r.mutable = true) ∧ r.lo ≤ lo ∧ hi ≤ r.hi
  | .reborrow r mutable lo hi => r ∈ s.refs ∧ (mutable = true → r.mutable = true) ∧ r.lo ≤ lo ∧ lo ≤ hi ∧ hi ≤ r.hi

/-- The fields are in the box in the order of their declaration. -/
structure Box.Valid (B : Box) : Prop where
  value : B.lo ≤ B.vhi ∧ B.vhi ≤ B.slo
  strong : B.slo ≤ B.shi ∧ B.shi ≤ B.wlo
  weak : B.wlo ≤ B.whi ∧ B.whi ≤ B.hi

/-- The boxes are in different places. -/
def Apart (bs : List Box) : Prop := bs.Pairwise (fun A B => A.hi ≤ B.lo ∨ B.hi ≤ A.lo)

/-- The program starts with memory for these boxes: a pointer whose tag is the topmost in all stacks there. -/
structure Start (bs : List Box) (s : St) : Prop where
  valid : ∀ B ∈ bs, B.Valid
  apart : Apart bs
  stack : ∀ B ∈ bs, ∀ b, B.lo ≤ b → b < B.hi → ∃ p rest, s.heap.mem.stack b = ⟨B.tag, p⟩ :: rest ∧ p.grants .write = true ∧ ((s.heap.mem.stack b).map Item.tag).Nodup ∧
    ∀ i ∈ s.heap.mem.stack b, i.tag < s.heap.mem.next
  handles : s.handles = (List.range bs.length).map (fun k => ⟨k, .mem⟩)
  refs : s.refs = []

/-- States that a permitted program reaches. -/
inductive Reach (bs : List Box) (s₀ : St) : St → Prop
  | refl : Reach bs s₀ s₀
  | step {s s' : St} {a : Act} (h : Reach bs s₀ s) (hp : Permitted bs s a) (hs : step bs s a = some s') : Reach bs s₀ s'

end Verif.RcBorrows
