import Verif.Model.BumpBorrows
/-! # The pointers of `ExitStack`

`exit-stack/src/lib.rs` again, with the provenance of each pointer. The field `memory` is a `Bump` whose pointers are those of `Model/BumpBorrows` (of the unsync `Bump`, unsync/bump.rs: the methods make the same references, the counter
is in a `Cell`; reading the level is a further access). Simplified: the field `top` is not in it (its bytes are accessed only through `&Cell` or the `&mut` of the whole); references whose tags are not used are not made. `none`: undefined behaviour.

A `&mut` to a type which is not `Unpin` is not unique in the rules of the language (it is used like the raw pointer it was made from). The type of a slot in the list, `PinSlot<dyn Drop>` (lib.rs:69, 89-92), is not `Unpin`; that of the whole stack
is not `Unpin` exactly if `Mem` is not. -/
set_option autoImplicit false
namespace Verif.ExitBorrows
open Verif Verif.Borrows
open Verif.VecBorrows (Ref)
open Verif.BumpBorrows (Obj)

/-- An entry of the list: `ExitHandle` (lib.rs:69), the pointer of the `LeakBox` which the slot was; the value in it (lib.rs:89-92), and what its destructor does with its bytes. -/
structure Pinned where
  ref : Ref
  vlo : Nat
  vhi : Nat
  dtor : List (Access × Nat × Nat)
  deriving DecidableEq, Repr

/-- `memory` and the references; `Slot`s which are not used yet (lib.rs:78-84); the list from `top` on (lib.rs:62-67). -/
structure St where
  bump : BumpBorrows.St
  slots : List Ref
  chain : List Pinned

/-- `ExitStack::slot` (lib.rs:109-118): `Deref for Bump` (unsync/bump.rs:563-577), `bump_box` (unsync/bump.rs:434-442) allocates at the level it reads and makes a `&mut MaybeUninit`, of which the `LeakBox` has the pointer (leaked.rs:526-535). -/
def slot (o : Obj) (w : Nat) (s : St) (t : Nat) (l : Layout) : Option St := do
  let b ← BumpBorrows.step o w s.bump (.level t)
  let c ← BumpBorrows.step o w b (.alloc t l none)
  if c.pieces.length = b.pieces.length then pure { s with bump := c }
  else
    let d ← BumpBorrows.step o w c (.uninit b.pieces.length)
    pure { s with bump := d, slots := d.refs.take 1 ++ s.slots }

/-- `Slot::pin` (lib.rs:226-246): `LeakBox::write` (leaked.rs:476-492) writes the slot, then the reference to the value is made from the pointer that gets into the list. -/
def pin (o : Obj) (w : Nat) (s : St) (i vlo vhi : Nat) (dtor : List (Access × Nat × Nat)) : Option St :=
  match s.slots[i]? with
  | none => some s
  | some r => do
    let b ← BumpBorrows.step o w s.bump (.use r .write r.lo r.hi)
    let c ← BumpBorrows.step o w b (.reborrow r true vlo vhi)
    pure ⟨c, s.slots.eraseIdx i, ⟨r, vlo, vhi, dtor⟩ :: s.chain⟩

/-- The destructor of a value (`drop_in_place`, lib.rs:209) uses its `&mut self`. Not code of the repository. -/
def runDtor (o : Obj) (w : Nat) (r : Ref) : BumpBorrows.St → List (Access × Nat × Nat) → Option BumpBorrows.St
  | b, [] => some b
  | b, d :: ds => do
    let b ← BumpBorrows.step o w b (.use r d.1 d.2.1 d.2.2)
    runDtor o w r b ds

/-- One round of the loop in `inner_pop_all_with_unsafe_self_and_pinned` (lib.rs:205-211): the destructor gets a `&mut` to the value; then the link is read. -/
def dropOne (o : Obj) (w : Nat) (b : BumpBorrows.St) (p : Pinned) : Option BumpBorrows.St := do
  let b ← BumpBorrows.step o w b (.reborrow p.ref true p.vlo p.vhi)
  let b ← match b.refs with
    | [] => pure b
    | r :: _ => runDtor o w r b p.dtor
  BumpBorrows.step o w b (.use p.ref .read p.ref.lo p.vlo)

/-- The loop lib.rs:205-211. -/
def dropAll (o : Obj) (w : Nat) : BumpBorrows.St → List Pinned → Option BumpBorrows.St
  | b, [] => some b
  | b, p :: ps => do
    let b ← dropOne o w b p
    dropAll o w b ps

/-- `&mut self` of the methods (lib.rs:173-178, 278-282), from the owner with tag `w`: unique if the type of the stack is `Unpin`. -/
def mutSelf (o : Obj) (w : Nat) (unpin : Bool) (b : BumpBorrows.St) : Option BumpBorrows.St :=
  if unpin then do
    let (_, m) ← b.mem.retag true w o.lo o.hi
    pure { b with mem := m }
  else some b

/-- `ExitStack::pop_all` (lib.rs:173-178), `Drop for ExitStack` (lib.rs:278-282), with `inner_pop_all_with_unsafe_self_and_pinned` (lib.rs:180-215) and `reset` (unsync/bump.rs:474-476). -/
def popAll (o : Obj) (w : Nat) (unpin : Bool) (s : St) : Option St := do
  let b ← mutSelf o w unpin s.bump
  let b ← dropAll o w b s.chain
  let b ← BumpBorrows.step o w b .reset
  pure ⟨b, [], []⟩

/-- What a program can do; `set` (lib.rs:159-170) is `popAll`, `share`, `slot` and `pin`. Not code of the repository. -/
inductive Act where
  | share (t : Nat)
  | slot (t : Nat) (l : Layout)
  | pin (i vlo vhi : Nat) (dtor : List (Access × Nat × Nat))
  | popAll
  | use (r : Ref) (a : Access) (lo hi : Nat)
  | reborrow (r : Ref) (mutable : Bool) (lo hi : Nat)
  deriving DecidableEq, Repr

/-- One action; the references of the program are those in `bump`. Not code of the repository. -/
def step (o : Obj) (w : Nat) (unpin : Bool) (s : St) : Act → Option St
  | .share t => do
    let b ← BumpBorrows.step o w s.bump (.share t)
    pure { s with bump := b }
  | .slot t l => slot o w s t l
  | .pin i vlo vhi dtor => pin o w s i vlo vhi dtor
  | .popAll => popAll o w unpin s
  | .use r a lo hi => do
    let b ← BumpBorrows.step o w s.bump (.use r a lo hi)
    pure { s with bump := b }
  | .reborrow r mutable lo hi => do
    let b ← BumpBorrows.step o w s.bump (.reborrow r mutable lo hi)
    pure { s with bump := b }

end Verif.ExitBorrows
