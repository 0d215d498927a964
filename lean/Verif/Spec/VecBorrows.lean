import Verif.Model.VecBorrows
/-! # Which programs the borrow checker accepts -/
set_option autoImplicit false
namespace Verif.VecBorrows
open Verif.Borrows

/-- The vector exists and no other vector borrows it (`split_borrowed`). -/
def St.Usable (s : St) (k : Nat) : Prop :=
  ∃ v, s.vecs[k]? = some v ∧ v.alive = true ∧ ∀ u ∈ s.vecs, u.alive = true → k ∉ u.from_

/-- Usable, and not borrowed by a `Drain`. -/
def St.Free (s : St) (k : Nat) : Prop := s.Usable k ∧ ∀ v, s.vecs[k]? = some v → v.drain = none

/-- There is a `Drain` of the vector. -/
def St.Draining (s : St) (k : Nat) : Prop := s.Usable k ∧ ∃ v d, s.vecs[k]? = some v ∧ v.drain = some d

/-- What the program may do: use the vectors it has (those that are borrowed by a drain or a vector split off only through these), use the references that were not
ended, mutable ones only for writing, and only in the bytes they refer to; use the raw pointers in the capacity of the vector (unsafe code, the references ended by that are not used any more); `set_len` up to
the capacity. -/
def Permitted (s : St) : Act → Prop
  | .asSlice k | .asMutSlice k | .asMutPtr k | .push k | .pop k | .truncate k _ _ | .fill k _ | .splitBorrowed k _ | .splitShrink k _
  | .drop k | .forget k | .drain k _ _ => s.Free k
  | .setLen k n => s.Free k ∧ ∀ v, s.vecs[k]? = some v → n ≤ v.uninit.cap
  | .drainNext k | .drainNextBack k | .drainSlice k _ | .drainDrop k _ | .drainForget k => s.Draining k
  | .use r a lo hi => r ∈ s.refs ∧ (a = .write → r.mutable = true) ∧ r.lo ≤ lo ∧ hi ≤ r.hi
  | .reborrow r mutable lo hi => r ∈ s.refs ∧ (mutable = true → r.mutable = true) ∧ r.lo ≤ lo ∧ lo ≤ hi ∧ hi ≤ r.hi
  | .useRaw p _ lo hi => p ∈ s.raws ∧ p.ptr.off ≤ lo ∧ hi ≤ p.ptr.off + p.size

/-- A program starts with one empty vector over memory that its `Uninit` may read and write: the pointer's tag is the topmost in the stacks of all bytes of the
capacity. Nothing is known about other memory, except that no tag of it is used again. -/
structure Start (sz : Nat) (s : St) : Prop where
  vec : ∃ u : Buf, s.vecs = [⟨u, 0, true, [], none⟩] ∧
    (∀ b, u.ptr.off ≤ b → b < u.ptr.off + u.cap * sz → ∃ p rest, s.mem.stack b = ⟨u.ptr.tag, p⟩ :: rest ∧ p.grants .write = true) ∧ u.ptr.tag < s.mem.next
  sorted : ∀ b, (s.mem.stack b).Pairwise (fun i j => j.tag < i.tag)
  fresh : ∀ b, ∀ i ∈ s.mem.stack b, i.tag < s.mem.next
  refs : s.refs = []
  raws : s.raws = []

/-- States that a permitted program reaches. -/
inductive Reach (sz : Nat) (s₀ : St) : St → Prop
  | refl : Reach sz s₀ s₀
  | step {s s' : St} {a : Act} (h : Reach sz s₀ s) (hp : Permitted s a) (hs : step sz s a = some s') : Reach sz s₀ s'

/-- Runs a program; `none`: undefined behaviour. -/
def run (sz : Nat) (s : St) : List Act → Option St
  | [] => some s
  | a :: as => (step sz s a).bind (fun s' => run sz s' as)

/-- The vector whose method is called. -/
def Act.vec? : Act → Option Nat
  | .asSlice k | .asMutSlice k | .asMutPtr k | .push k | .pop k | .truncate k _ _ | .fill k _ | .splitBorrowed k _ | .splitShrink k _
  | .drop k | .forget k | .drain k _ _ | .setLen k _ | .drainNext k | .drainNextBack k | .drainSlice k _ | .drainDrop k _ | .drainForget k => some k
  | .use .. | .reborrow .. | .useRaw .. => none

end Verif.VecBorrows
