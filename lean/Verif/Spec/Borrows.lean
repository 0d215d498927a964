/-! # Stacked Borrows

The aliasing rules of Rust as `Miri` checks them in its default mode ("Stacked Borrows", Jung et al., POPL 2020; without protectors).
Every byte of memory has a stack of items, each a tag with a permission. Every pointer has a tag. An access through a pointer is undefined
behaviour unless the stacks of all bytes accessed contain an item for its tag which permits it, and it removes what conflicts with it:

* a write keeps the granting item and what is below; above a shared-mutable item also the shared-mutable items directly above it,
* a read keeps all items, but disables the unique ones above the granting item.

Creating a reference (a retag) is such an access with the tag of the pointer it is made from, then a fresh tag is pushed. This is not code of
the repository but the language it is written in. -/
set_option autoImplicit false
namespace Verif.Borrows

inductive Perm where
  | unique
  | sharedRW
  | sharedRO
  | disabled
  deriving DecidableEq, Repr

inductive Access where
  | read
  | write
  deriving DecidableEq, Repr

/-- What an item permits. -/
def Perm.grants : Perm → Access → Bool
  | .unique, _ => true
  | .sharedRW, _ => true
  | .sharedRO, .read => true
  | .sharedRO, .write => false
  | .disabled, _ => false

structure Item where
  tag : Nat
  perm : Perm
  deriving DecidableEq, Repr

/-- The item is one for this tag that permits this access. -/
def Item.is (a : Access) (t : Nat) (i : Item) : Bool := i.tag == t && i.perm.grants a

/-- What a read does to an item above the granting one. -/
def Item.disable (i : Item) : Item := if i.perm = .unique then ⟨i.tag, .disabled⟩ else i

/-- An access to one byte; the stack is given top first. `none`: undefined behaviour. -/
def accessByte (a : Access) (t : Nat) (st : List Item) : Option (List Item) :=
  let above := st.takeWhile (fun i => !i.is a t)
  match st.dropWhile (fun i => !i.is a t) with
  | [] => none
  | g :: below =>
    match a with
    | .read => some (above.map Item.disable ++ g :: below)
    | .write =>
      if g.perm = .sharedRW then some ((above.reverse.takeWhile (fun i => i.perm == .sharedRW)).reverse ++ g :: below)
      else some (g :: below)

/-- The stacks of all bytes, by address, and the next fresh tag. Bytes which are not part of an allocation have an empty stack. -/
structure Mem where
  stack : Nat → List Item
  next : Nat

/-- An access to the bytes from `lo` below `hi`. -/
def Mem.access (m : Mem) (a : Access) (t lo hi : Nat) : Option Mem :=
  if (List.range' lo (hi - lo)).all (fun b => (accessByte a t (m.stack b)).isSome) then
    some { m with stack := fun b => if lo ≤ b ∧ b < hi then (accessByte a t (m.stack b)).getD [] else m.stack b }
  else none

/-- Creating a reference from a pointer with tag `t`: `&mut` for `mutable`, otherwise `&`. Gives its tag. -/
def Mem.retag (m : Mem) (mutable : Bool) (t lo hi : Nat) : Option (Nat × Mem) := do
  let m ← m.access (if mutable then .write else .read) t lo hi
  pure (m.next, { stack := fun b => if lo ≤ b ∧ b < hi then ⟨m.next, if mutable then .unique else .sharedRO⟩ :: m.stack b else m.stack b, next := m.next + 1 })

/-- Creating a `&` to an `UnsafeCell` from a pointer with tag `t`, for one byte: no access, the new item `new` goes next to the granting one, above the other shared-mutable ones there. -/
def insertByte (new t : Nat) (st : List Item) : Option (List Item) :=
  let above := st.takeWhile (fun i => !i.is .write t)
  match st.dropWhile (fun i => !i.is .write t) with
  | [] => none
  | g :: below =>
    if g.perm = .sharedRW then
      some ((above.reverse.dropWhile (fun i => i.perm == .sharedRW)).reverse ++ ⟨new, .sharedRW⟩ ::
        ((above.reverse.takeWhile (fun i => i.perm == .sharedRW)).reverse ++ g :: below))
    else some (above ++ ⟨new, .sharedRW⟩ :: g :: below)

/-- Creating a `&` to something all of which is in `UnsafeCell`s. Gives its tag. -/
def Mem.retagCell (m : Mem) (t lo hi : Nat) : Option (Nat × Mem) :=
  if (List.range' lo (hi - lo)).all (fun b => (insertByte m.next t (m.stack b)).isSome) then
    some (m.next, ⟨fun b => if lo ≤ b ∧ b < hi then (insertByte m.next t (m.stack b)).getD [] else m.stack b, m.next + 1⟩)
  else none

/-- Creating a `&` to something, part of which (`cell`) is in `UnsafeCell`s, for one byte. -/
def shareByte (cell : Bool) (new t : Nat) (st : List Item) : Option (List Item) :=
  if cell then insertByte new t st else (accessByte .read t st).map (fun st => ⟨new, .sharedRO⟩ :: st)

/-- Creating a `&` to something, part of which (`cell`, by address) is in `UnsafeCell`s. Gives its tag. -/
def Mem.retagShared (m : Mem) (cell : Nat → Bool) (t lo hi : Nat) : Option (Nat × Mem) :=
  if (List.range' lo (hi - lo)).all (fun b => (shareByte (cell b) m.next t (m.stack b)).isSome) then
    some (m.next, ⟨fun b => if lo ≤ b ∧ b < hi then (shareByte (cell b) m.next t (m.stack b)).getD [] else m.stack b, m.next + 1⟩)
  else none

end Verif.Borrows
