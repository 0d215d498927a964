import Verif.Model.BumpBorrows
/-! # Which programs the borrow checker accepts -/
set_option autoImplicit false
namespace Verif.BumpBorrows
open Verif Verif.Borrows
open Verif.VecBorrows (Ref)

/-- There is an allocation with this number, and it is of this kind. -/
def St.Is (s : St) (j : Nat) (k : Kind) : Prop := ∃ p, s.pieces[j]? = some p ∧ p.kind = k

/-- What the program may do: call methods through the `&Bump` it has, or (with the tag `w`) borrow the `Bump` itself; use the pointers it got until it made them to boxes or references, the boxes until they are
consumed, and the references which were not ended. (Other calls are not undefined, but panic: C03.) `reset` needs `&mut`: everything else ends. -/
def Permitted (o : Obj) (w : Nat) (s : St) : Act → Prop
  | .share t | .level t => t = w ∨ t ∈ s.shares
  | .alloc t l at_ => (t = w ∨ t ∈ s.shares) ∧ 0 < l.size ∧ 0 < l.align ∧ ∀ n, at_ = some n → n ≤ o.env.len
  | .reset => True
  | .leak j | .boxed j | .uninit j | .fromRaw j => s.Is j .raw
  | .useRaw j _ lo hi => s.Is j .raw ∧ ∀ p, s.pieces[j]? = some p → p.lo ≤ lo ∧ hi ≤ p.hi
  | .deref j _ | .boxLeak j | .intoRaw j | .take j | .dropBox j => s.Is j .box
  | .use r a lo hi => r ∈ s.refs ∧ (a = .write → r.mutable = true) ∧ r.lo ≤ lo ∧ hi ≤ r.hi
  | .reborrow r mutable lo hi => r ∈ s.refs ∧ (mutable = true → r.mutable = true) ∧ r.lo ≤ lo ∧ lo ≤ hi ∧ hi ≤ r.hi

/-- The fields are in the object, and do not overlap. -/
structure Obj.Valid (o : Obj) : Prop where
  env : o.env.Valid
  storage : o.lo ≤ o.env.base ∧ o.env.base + o.env.len ≤ o.hi
  cell : o.lo ≤ o.cell ∧ o.cellEnd ≤ o.hi
  apart : o.cellEnd ≤ o.env.base ∨ o.env.base + o.env.len ≤ o.cell

/-- The program starts with a `Bump` at some level which it owns: the tag `w` is the topmost in all stacks (a variable or a `&mut`, or a `static`). -/
structure Start (o : Obj) (w : Nat) (s : St) : Prop where
  stack : ∀ b, o.lo ≤ b → b < o.hi → ∃ p rest, s.mem.stack b = ⟨w, p⟩ :: rest ∧ p.grants .write = true ∧ ((s.mem.stack b).map Item.tag).Nodup ∧ ∀ i ∈ s.mem.stack b, i.tag < s.mem.next
  next : w < s.mem.next
  level : s.level ≤ o.env.len
  shares : s.shares = []
  pieces : s.pieces = []
  refs : s.refs = []

/-- States that a permitted program reaches. -/
inductive Reach (o : Obj) (w : Nat) (s₀ : St) : St → Prop
  | refl : Reach o w s₀ s₀
  | step {s s' : St} {a : Act} (h : Reach o w s₀ s) (hp : Permitted o w s a) (hs : step o w s a = some s') : Reach o w s₀ s'

/-- The action is on this allocation: by its pointer or box, or by one of its references. -/
def Act.On (a : Act) (j : Nat) : Prop :=
  match a with
  | .leak i | .boxed i | .uninit i | .useRaw i .. | .deref i _ | .boxLeak i | .intoRaw i | .fromRaw i | .take i | .dropBox i => i = j
  | .use r .. | .reborrow r .. => r.owner = j
  | .share _ | .level _ | .alloc .. | .reset => False

end Verif.BumpBorrows
