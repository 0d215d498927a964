import Verif.Model.Unsize
/-! # Specification of unsizing -/
namespace Verif.Unsize
open Verif

/-- `Layout::for_value` of the pointee: what the metadata says about the memory of the value. -/
def Meta.layout : Meta → Layout
  | vtable ty _ => ty.layout
  | len _ l n => ⟨l.size * n, l.align⟩

/-- Identity of the values whose destructors run when the pointee is dropped, in order: of the type itself, or the elements. -/
inductive Dtor where
  | one (ty : Ty)
  | elems (elem n : Nat)
  deriving DecidableEq
/-- Dropping a value of the sized type. -/
def Ty.drops : Ty → Dtor
  | named id l => .one (.named id l)
  | array e _ n => .elems e n
/-- Dropping through the pointer. -/
def Meta.drops : Meta → Dtor
  | vtable ty _ => ty.drops
  | len e _ n => .elems e n

/-- The requirement on coercions (`Coercion::new`): nothing else than adding the metadata. -/
def OnlyUnsizes (coerce : Coerce) (m : Meta) : Prop := ∀ addr tag, coerce ⟨addr, tag, []⟩ = ⟨addr, tag, [m]⟩

/-- The tag can be used to read the value. -/
def World.CanRead (w : World) (tag : Nat) : Prop := ∃ w', w.read tag = .ret w'
/-- The tag can be used to write the value. -/
def World.CanWrite (w : World) (tag : Nat) : Prop := ∃ w', w.write tag = .ret w'

/-- Tags in use were created before. -/
def World.WF (w : World) : Prop := ∀ i ∈ w.stack, i.1 < w.next

/-- The handles that can be in a `Pin` which has an impl: they implement `DerefMut`. -/
inductive Pinnable : Kind → Prop
  | mutRef : Pinnable .mutRef
  | box : Pinnable .box
  | wbox : Pinnable .wbox
  | pin {k} (h : Pinnable k) : Pinnable (.pin k)

/-- The pointer of a `&mut T`, `Box` or pinned pointer is usable for writing, that of a `&T`, `Rc` or `Arc` for reading; nothing is required of raw pointers, `Weak`, `Uninit` and `UninitView`. -/
def Handle.Valid (w : World) (h : Handle) : Prop :=
  match h.kind with
  | .mutRef | .box => w.CanWrite h.ptr.tag
  | .sharedRef | .rc | .arc => w.CanRead h.ptr.tag
  | .pin k => Pinnable k ∧ w.CanWrite h.ptr.tag
  | _ => True

/-- The kind without the `Pin`s. -/
def Kind.base : Kind → Kind
  | .pin k => k.base
  | k => k

end Verif.Unsize
