import Verif.Model.BumpGlobal
import Verif.Model.VecBorrows
/-! # The pointers of `Bump` and `LeakBox`

`static-alloc/src/bump.rs` and `leaked.rs` again, with the provenance of each pointer: `Bump` gives out mutable references although all of its methods
take `&self`. Where the values go is computed by `Model/BumpGlobal`. Calls are executed one after the other; memory is the bytes with their borrow stacks
(`Spec/Borrows`). `none`: undefined behaviour. Simplified: padding of the `Bump` object counts as part of its `UnsafeCell`s; the references made in each
round of the loop of `try_alloc` are made once; `LeakBox::from_mut`, `from_mut_unchecked` are not part of it. -/
set_option autoImplicit false
namespace Verif.BumpBorrows
open Verif Verif.Borrows
open Verif.VecBorrows (Ref Ptr dropElem keepRefs endRefs endMutRefs)

/-- The object `Bump` (bump.rs:152-158) from address `lo` below `hi`, where `consumed` (from `cell` below `cellEnd`) and `storage` (in `env`) are. -/
structure Obj where
  env : Bump.Env
  lo : Nat
  hi : Nat
  cell : Nat
  cellEnd : Nat

/-- What belongs to an allocation: nothing but the pointer, a `LeakBox`, or references only. Not code of the repository. -/
inductive Kind where
  | raw
  | box
  | gone
  deriving DecidableEq, Repr

/-- A piece of the storage that was allocated, and the tag of the pointer to it (`Allocation::ptr`, bump.rs:250-259, `LeakBox::pointer`, leaked.rs:154-159). -/
structure Piece where
  lo : Nat
  hi : Nat
  tag : Nat
  kind : Kind
  deriving DecidableEq, Repr

/-- The stacks; the level (`consumed`); the tags of the `&Bump` that the program has; allocations; references. Not code of the repository. `owner` in a reference is the number of the allocation. -/
structure St where
  mem : Borrows.Mem
  level : Nat
  shares : List Nat
  pieces : List Piece
  refs : List Ref

/-- `&self.consumed` and an atomic operation on it (`load` bump.rs:555-557, `compare_exchange` bump.rs:776-786). -/
def touchCell (o : Obj) (t : Nat) (a : Access) (m : Borrows.Mem) : Option Borrows.Mem := do
  let (c, m) ← m.retagCell t o.cell o.cellEnd
  m.access a c o.cell o.cellEnd

/-- `Bump::try_alloc`, `try_alloc_at` through the `&Bump` with tag `t` (bump.rs:561-573, 583-638): `self.storage.get()` (bump.rs:588), the atomic operation, and the pointer to the bytes which were allocated. -/
def tryAlloc (o : Obj) (s : St) (t : Nat) (l : Layout) (at_ : Option Nat) : Option St := do
  let (p, m) ← s.mem.retagCell t o.env.base (o.env.base + o.env.len)
  let m ← touchCell o t .write m
  match at_ with
  | none =>
    match Bump.tryAllocSeq o.env s.level l with
    | .ret (some a, c) => some { s with mem := m, level := c, pieces := s.pieces ++ [⟨a.ptr, a.ptr + l.size, p, .raw⟩] }
    | .ret (none, c) => some { s with mem := m, level := c }
    | _ => some { s with mem := m }
  | some n =>
    match Bump.tryAllocAtSeq o.env s.level l n with
    | .ret (.ok a, c) => some { s with mem := m, level := c, pieces := s.pieces ++ [⟨a.ptr, a.ptr + l.size, p, .raw⟩] }
    | .ret (.error _, c) => some { s with mem := m, level := c }
    | _ => some { s with mem := m }

/-- `Bump::reset` (bump.rs:351-353): `&mut self` from the tag `w` of the owner; `consumed.get_mut()`. -/
def reset (o : Obj) (w : Nat) (s : St) : Option St := do
  let (t, m) ← s.mem.retag true w o.lo o.hi
  let m ← m.access .write t o.cell o.cellEnd
  pure ⟨m, 0, [], [], []⟩

/-- `Allocation::leak` (bump.rs:802-806), and `Bump::leak`, `leak_at` (bump.rs:701-708, 741-754) with it: writes the value, gives a `&mut`. -/
def leak (p : Piece) (m : Borrows.Mem) : Option (Nat × Borrows.Mem) := do
  let m ← m.access .write p.tag p.lo p.hi
  m.retag true p.tag p.lo p.hi

/-- `Allocation::boxed` (bump.rs:820-825), `LeakBox::new_from_raw_non_null` (leaked.rs:168-179), used by `leak_box` and `leak_box_at` (bump.rs:532-549): writes the value, keeps the pointer. -/
def boxed (p : Piece) (m : Borrows.Mem) : Option Borrows.Mem := m.access .write p.tag p.lo p.hi

/-- `Allocation::uninit` (bump.rs:832-834). -/
def uninit (p : Piece) (m : Borrows.Mem) : Option (Nat × Borrows.Mem) := m.retag true p.tag p.lo p.hi

/-- `LeakBox::deref`, `deref_mut` (leaked.rs:502-512). -/
def deref (p : Piece) (mutable : Bool) (m : Borrows.Mem) : Option (Nat × Borrows.Mem) := m.retag mutable p.tag p.lo p.hi

/-- `LeakBox::leak` (leaked.rs:315-323), through `into_raw` (leaked.rs:221-224). -/
def boxLeak (p : Piece) (m : Borrows.Mem) : Option (Nat × Borrows.Mem) := m.retag true p.tag p.lo p.hi

/-- `LeakBox::take` (leaked.rs:426-433). -/
def take (p : Piece) (m : Borrows.Mem) : Option Borrows.Mem := m.access .read p.tag p.lo p.hi

/-- `Drop for LeakBox` (leaked.rs:515-520). -/
def dropBox (p : Piece) (m : Borrows.Mem) : Option Borrows.Mem := dropElem (p.hi - p.lo) ⟨p.tag, p.lo⟩ m

/-- What a program can do. Not code of the repository. -/
inductive Act where
  | share (t : Nat)
  | level (t : Nat)
  | alloc (t : Nat) (l : Layout) (at_ : Option Nat)
  | reset
  | leak (j : Nat)
  | boxed (j : Nat)
  | uninit (j : Nat)
  | useRaw (j : Nat) (a : Access) (lo hi : Nat)
  | deref (j : Nat) (mutable : Bool)
  | boxLeak (j : Nat)
  | intoRaw (j : Nat)
  | fromRaw (j : Nat)
  | take (j : Nat)
  | dropBox (j : Nat)
  | use (r : Ref) (a : Access) (lo hi : Nat)
  | reborrow (r : Ref) (mutable : Bool) (lo hi : Nat)
  deriving DecidableEq, Repr

/-- A `&mut` to all of the allocation is made, all its other references end. Not code of the repository. -/
def St.give (s : St) (j : Nat) (p : Piece) (kind : Kind) (r : Option (Nat × Borrows.Mem)) : Option St := do
  let (t, m) ← r
  pure { s with mem := m, pieces := s.pieces.set j { p with kind := kind }, refs := ⟨t, true, p.lo, p.hi, j, []⟩ :: endRefs j s.refs }

/-- The allocation is accessed by its owner, its references end. Not code of the repository. -/
def St.own (s : St) (j : Nat) (p : Piece) (kind : Kind) (r : Option Borrows.Mem) : Option St := do
  let m ← r
  pure { s with mem := m, pieces := s.pieces.set j { p with kind := kind }, refs := endRefs j s.refs }

/-- One action: the calls of the functions above, and the bookkeeping of references; `LeakBox::into_raw`, `from_raw` (leaked.rs:221-244) access nothing. `w` is the tag of the owner of the `Bump`. `none` is undefined behaviour. -/
def step (o : Obj) (w : Nat) (s : St) : Act → Option St
  | .share t => do
    let (n, m) ← s.mem.retagCell t o.lo o.hi
    pure { s with mem := m, shares := n :: s.shares }
  | .level t => do
    let m ← touchCell o t .read s.mem
    pure { s with mem := m }
  | .alloc t l at_ => tryAlloc o s t l at_
  | .reset => reset o w s
  | .leak j => match s.pieces[j]? with
    | none => some s
    | some p => s.give j p .gone (leak p s.mem)
  | .boxed j => match s.pieces[j]? with
    | none => some s
    | some p => s.own j p .box (boxed p s.mem)
  | .uninit j => match s.pieces[j]? with
    | none => some s
    | some p => s.give j p .gone (uninit p s.mem)
  | .useRaw j a lo hi => match s.pieces[j]? with
    | none => some s
    | some p => s.own j p .raw (s.mem.access a p.tag lo hi)
  | .deref j mutable => match s.pieces[j]? with
    | none => some s
    | some p => do
      let (t, m) ← deref p mutable s.mem
      pure { s with mem := m, refs := ⟨t, mutable, p.lo, p.hi, j, []⟩ :: (if mutable then endRefs j s.refs else endMutRefs j s.refs) }
  | .boxLeak j => match s.pieces[j]? with
    | none => some s
    | some p => s.give j p .gone (boxLeak p s.mem)
  | .intoRaw j => match s.pieces[j]? with
    | none => some s
    | some p => s.own j p .raw (some s.mem)
  | .fromRaw j => match s.pieces[j]? with
    | none => some s
    | some p => s.own j p .box (some s.mem)
  | .take j => match s.pieces[j]? with
    | none => some s
    | some p => s.own j p .raw (take p s.mem)
  | .dropBox j => match s.pieces[j]? with
    | none => some s
    | some p => s.own j p .gone (dropBox p s.mem)
  | .use r a lo hi => do
    let m ← s.mem.access a r.tag lo hi
    pure { s with mem := m, refs := keepRefs a r.tag r.from_ lo hi s.refs }
  | .reborrow r mutable lo hi => do
    let (t, m) ← s.mem.retag mutable r.tag lo hi
    pure { s with mem := m, refs := ⟨t, mutable, lo, hi, r.owner, r.tag :: r.from_⟩ :: keepRefs (if mutable then .write else .read) r.tag r.from_ lo hi s.refs }

end Verif.BumpBorrows
