import Verif.Spec.Shared
/-!
# Destructors that use pointers

As in `Spec/Shared` programs have values that contain `Rc` and `Weak`. Here the destructor of a value is code of the user, that does anything: it takes pointers out of its value, clones, drops, allocates, and so it begins other destructors. So an operation that
destroys a value only begins that: the next operations are those of the destructor, until it ends. Then the pointers left in the value are dropped, one after the other, which may begin destructors as well. There are no counters here.
-/
set_option autoImplicit false
namespace Verif.Dtor
open Shared (Ptr Value Resp)
open Linked (var)

inductive Op where
  /-- what a program without destructors does, see `Shared.Op` -/
  | call (op : Shared.Op)
  /-- the destructor takes field `i` out of its value -/
  | selfTake (i : Nat)
  /-- the destructor puts the pointer in variable `k` into its value -/
  | selfPush (k : Nat)
  /-- the destructor clones field `i` of its value -/
  | selfClone (i : Nat)
  /-- the destructor ends, by a panic or not -/
  | endDrop (panics : Bool)

/-- What is left to do for a value that is being destroyed. `place` is the block it is in, if any; `unwinding`: a panic is unwinding. -/
inductive Frame where
  /-- the destructor is running -/
  | body (v : Value) (place : Option Nat) (unwinding : Bool)
  /-- the destructor has ended, these pointers have to be dropped next -/
  | rest (ps : List Ptr) (place : Option Nat) (unwinding : Bool)

def Frame.ptrs : Frame → List Ptr
  | .body v _ _ => v.fields
  | .rest ps _ _ => ps
def Frame.place : Frame → Option Nat
  | .body _ p _ | .rest _ p _ => p

/-- The pointers in values that are being destroyed. -/
def stackPtrs (fs : List Frame) : List Ptr := fs.flatMap Frame.ptrs
/-- The blocks of values that are being destroyed. -/
def dying (fs : List Frame) : List Nat := fs.filterMap Frame.place

/-- As for programs without destructors, and the values that are being destroyed, the innermost first. These are not in `base.blocks` any more. -/
structure Spec where
  base : Shared.Spec
  stack : List Frame

def Spec.init (level : Nat) : Spec := ⟨.init level, []⟩

/-- The state as a program without destructors would see it: the pointers in values that are being destroyed exist, but can not be used. -/
def Spec.view (s : Spec) : Shared.Spec := { s.base with forgotten := s.base.forgotten ++ stackPtrs s.stack }

/-- The value that is destroyed if `p` is dropped and the pointers `others` exist. -/
def destroys (base : Shared.Spec) (others : List Ptr) (p : Ptr) : Option Value :=
  if p.strong = false ∨ p ∈ others then none else var base.blocks p.block

/-- The destructor of value `v` in block `b` is begun. -/
def beginDrop (base : Shared.Spec) (b : Nat) (v : Value) : Shared.Spec := { base with blocks := base.blocks.set b none, log := base.log ++ [v.id] }

/-- Dropping pointers one after the other, until a value is destroyed by that: its block, the value, and the pointers that were not yet dropped. -/
def next (base : Shared.Spec) (others : List Ptr) : List Ptr → Option (Nat × Value × List Ptr)
  | [] => none
  | p :: ps => match destroys base (others ++ ps) p with
    | some v => some (p.block, v, ps)
    | none => next base others ps

/-- What happens until code of the user runs again: in another destructor, in one that dropped something, or in the program. The first result is whether a panic arrives there. -/
def resume (base : Shared.Spec) : Bool → List Frame → Bool × Shared.Spec × List Frame
  | u, [] => (u, base, [])
  | u, .body v place w :: fs => (u, base, .body v place w :: fs)
  | u, .rest ps place w :: fs => match next base (base.pointers ++ stackPtrs fs) ps with
    | none => resume base (u || w) fs
    | some (b, v, ps) => (false, beginDrop base b v, .body v (some b) (u || w) :: .rest ps place (u || w) :: fs)

/-- A value that is not in a block any more is dropped. -/
def Spec.dropVal (s : Spec) (v : Value) : Spec := ⟨{ s.base with log := s.base.log ++ [v.id] }, .body v none false :: s.stack⟩

def Spec.add (s : Spec) (p : Ptr) : Resp × Spec := (.var s.base.ptrs.length, { s with base := { s.base with ptrs := s.base.ptrs ++ [some p] } })

def Spec.exec (slab : Slab) (s : Spec) : Op → Resp × Spec
  | .call (.dropPtr p) => match var s.base.ptrs p with
    | none => (.absent, s)
    | some q =>
      let base := { s.base with ptrs := s.base.ptrs.set p none }
      match destroys base (base.pointers ++ stackPtrs s.stack) q with
      | none => (.unit, { s with base := base })
      | some v => (.unit, ⟨beginDrop base q.block v, .body v (some q.block) false :: s.stack⟩)
  | .call (.dropVal v) => match var s.base.vals v with
    | none => (.absent, s)
    | some x => (.unit, { s with base := { s.base with vals := s.base.vals.set v none } }.dropVal x)
  | .call (.rc v L) => match var s.base.vals v with
    | none => (.absent, s)
    | some x => match slab.place L s.base.level with
      | none => (.full, { s with base := { s.base with vals := s.base.vals.set v none } }.dropVal x)
      | some a => { s with base := { s.base with vals := s.base.vals.set v none, blocks := s.base.blocks ++ [some x], level := a.level } }.add ⟨true, s.base.blocks.length⟩
  | .call (.forget p) => match var s.base.ptrs p with
    | none => (.absent, s)
    | some q => (.unit, { s with base := { s.base with ptrs := s.base.ptrs.set p none, forgotten := q :: s.base.forgotten } })
  | .call op =>
    let r := s.view.exec slab (fun _ => false) op
    (r.1, { s with base := { r.2 with forgotten := s.base.forgotten } })
  | .selfTake i => match s.stack with
    | .body v place u :: fs => match v.fields[i]? with
      | none => (.absent, s)
      | some q => { s with stack := .body { v with fields := v.fields.eraseIdx i } place u :: fs }.add q
    | _ => (.absent, s)
  | .selfPush k => match s.stack with
    | .body v place u :: fs => match var s.base.ptrs k with
      | none => (.absent, s)
      | some q => (.unit, ⟨{ s.base with ptrs := s.base.ptrs.set k none }, .body { v with fields := v.fields ++ [q] } place u :: fs⟩)
    | _ => (.absent, s)
  | .selfClone i => match s.stack with
    | .body v _ _ :: _ => match v.fields[i]? with
      | none => (.absent, s)
      | some q => s.add q
    | _ => (.absent, s)
  | .endDrop panics => match s.stack with
    | .body v place u :: fs =>
      if panics && u then (.aborted, { s with base := { s.base with aborted := true } })
      else match resume s.base false (.rest v.fields place (u || panics) :: fs) with
        | (u, base, fs) => (if u then .unwound else .unit, ⟨base, fs⟩)
    | _ => (.absent, s)

/-- A program; it ends when it is aborted. -/
def Spec.run (slab : Slab) : Spec → List Op → List Resp × Spec
  | s, [] => ([], s)
  | s, op :: ops =>
    let (r, s) := s.exec slab op
    if s.base.aborted then ([r], s) else
    let (rs, s) := Spec.run slab s ops
    (r :: rs, s)

/-- `Weak::try_unwrap` is not called for the memory of a value that is being destroyed. -/
def Spec.Allowed (s : Spec) : Op → Prop
  | .call (.recycle p _) => ∀ b ∈ dying s.stack, var s.base.ptrs p ≠ some ⟨false, b⟩
  | _ => True

/-- That holds whenever it is called in the program. -/
def Spec.AllowedRun (slab : Slab) : Spec → List Op → Prop
  | _, [] => True
  | s, op :: ops => s.Allowed op ∧ ((s.exec slab op).2.base.aborted = false → Spec.AllowedRun slab (s.exec slab op).2 ops)

/-- In all states in which the program does something there are less pointers to each block than `usize` has numbers. -/
def Spec.FewRun (t : Target) (slab : Slab) : Spec → List Op → Prop
  | _, [] => True
  | s, op :: ops => s.view.Few t ∧ ((s.exec slab op).2.base.aborted = false → Spec.FewRun t slab (s.exec slab op).2 ops)

end Verif.Dtor
