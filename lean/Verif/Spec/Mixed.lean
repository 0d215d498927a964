import Verif.Spec.Linked
/-!
# Programs with boxes and reference counted pointers, in values and in destructors

What is expected of a program that uses `LeakBox`, `Rc` and `Weak` together. Values contain pointers of all three kinds, in any combination; destructors are arbitrary code of the user. There are no counters and no addresses here: a value in a block of
memory exists as long as there is a `LeakBox` or an `Rc` for it.
-/
set_option autoImplicit false
namespace Verif.Mixed
open Linked (var)

/-- `LeakBox`, `Rc`, `Weak`. -/
inductive Kind where | own | strong | weak
  deriving DecidableEq, Repr

/-- `block` is the number of the memory block with the value. -/
structure Ptr where
  kind : Kind
  block : Nat
  deriving DecidableEq, Repr

/-- A value: its identity, and the pointers that it contains. -/
structure Value where
  id : Nat
  fields : List Ptr
  deriving DecidableEq, Repr

/-- From where the program goes to a value: from a variable with a value, from one with a pointer, or (in a destructor) from `self`. -/
inductive Root where | val (v : Nat) | ptr (p : Nat) | self
  deriving DecidableEq, Repr

/-- Where a value is: in a variable, in a block, or it is the `self` of the destructor that is running. -/
inductive Place where | val (v : Nat) | block (b : Nat) | self
  deriving DecidableEq, Repr

/-- What a program does, in destructors or outside of them. It has variables with values and with pointers, both are numbered. A value is reached by going from the root through fields, with these numbers. -/
inductive Op where
  /-- a new value without pointers -/
  | make
  /-- `bump.leak_box(v)`, for a type of this layout -/
  | box (v : Nat) (L : Layout)
  /-- `bump.rc(v)`, for an inner layout `L` -/
  | rc (v : Nat) (L : Layout)
  /-- another allocation -/
  | alloc (L : Layout)
  /-- `clone` of an `Rc` or a `Weak` -/
  | clone (p : Nat)
  | downgrade (p : Nat)
  | upgrade (p : Nat)
  /-- pointer `k` becomes the last field of the value there -/
  | push (root : Root) (path : List Nat) (k : Nat)
  /-- field `i` is taken out of the value there -/
  | pull (root : Root) (path : List Nat) (i : Nat)
  /-- `clone` of field `i` of the value there -/
  | follow (root : Root) (path : List Nat) (i : Nat)
  | read (root : Root) (path : List Nat)
  /-- the value there is exchanged with the one in variable `v` -/
  | swap (root : Root) (path : List Nat) (v : Nat)
  /-- `strong_count` and `weak_count` -/
  | counts (p : Nat)
  | ptrEq (p q : Nat)
  /-- exchange of values as in `swap`, but by `Rc::get_mut` -/
  | getMut (p v : Nat)
  /-- `LeakBox::take` -/
  | take (p : Nat)
  /-- `Rc::try_unwrap` -/
  | tryUnwrap (p : Nat)
  /-- `Weak::try_unwrap`, and then `Rc::new` in this memory -/
  | recycle (p v : Nat)
  | dropPtr (p : Nat)
  | dropVal (v : Nat)
  /-- `mem::forget`, `LeakBox::leak` -/
  | forget (p : Nat)
  /-- the destructor ends, by a panic or not -/
  | endDrop (panics : Bool)

/-- `absent`: there is no such variable, value or field, or the pointer has the wrong type; the program does nothing. `refused`: `None` or `Err`. -/
inductive Resp where
  | absent | var (n : Nat) | full | id (n : Nat) | nums (n m : Nat) | bool (b : Bool) | refused | unit | unwound | aborted
  deriving DecidableEq, Repr

/-- What is left to do for a value that is being destroyed. `place` is the block it is in, if any; `unwinding`: a panic is unwinding. -/
inductive Frame where
  /-- the destructor is running -/
  | body (v : Value) (place : Option Nat) (unwinding : Bool)
  /-- the destructor has ended, these pointers have to be dropped next -/
  | rest (ps : List Ptr) (place : Option Nat) (unwinding : Bool)

def Frame.ptrs : Frame → List Ptr
  | .body v _ _ => v.fields
  | .rest ps _ _ => ps
def Frame.place : Frame → Option Nat
  | .body _ p _ | .rest _ p _ => p

/-- The pointers in values that are being destroyed. -/
def stackPtrs (fs : List Frame) : List Ptr := fs.flatMap Frame.ptrs
/-- The blocks of values that are being destroyed. -/
def dying (fs : List Frame) : List Nat := fs.filterMap Frame.place
/-- The pointers in existing values. -/
def fieldsOf (xs : List (Option Value)) : List Ptr := xs.flatMap fun o => match o with | some v => v.fields | none => []

/-- Variables; the values in blocks, as long as they exist; the level of the slab; the number of values made; the destructors begun, in order; pointers that were forgotten; the values that are being destroyed, the innermost first. -/
structure Spec where
  vals : List (Option Value)
  ptrs : List (Option Ptr)
  blocks : List (Option Value)
  level : Nat
  made : Nat
  log : List Nat
  forgotten : List Ptr
  aborted : Bool
  stack : List Frame

def Spec.init (level : Nat) : Spec := ⟨[], [], [], level, 0, [], [], false, []⟩

/-- The pointers outside of blocks. -/
def Spec.roots (s : Spec) : List Ptr := s.ptrs.filterMap id ++ fieldsOf s.vals ++ stackPtrs s.stack ++ s.forgotten
/-- All pointers. -/
def Spec.pointers (s : Spec) : List Ptr := s.roots ++ fieldsOf s.blocks

/-- The numbers of strong and of weak pointers; all strong ones together count as one more weak pointer. -/
def Spec.strongs (s : Spec) (b : Nat) : Nat := s.pointers.count ⟨.strong, b⟩
def Spec.weaks (s : Spec) (b : Nat) : Nat := s.pointers.count ⟨.weak, b⟩ + (if 0 < s.strongs b then 1 else 0)

/-! ## Destroying values -/

/-- The value that is destroyed if `p` is dropped, while the pointers `ps` have to be dropped too: that in a box, or the one for which `p` was the last `Rc`. -/
def Spec.destroys (s : Spec) (ps : List Ptr) (p : Ptr) : Option Value := match p.kind with
  | .own => var s.blocks p.block
  | .strong => if p ∈ s.pointers ++ ps then none else var s.blocks p.block
  | .weak => none

/-- The destructor of value `v` in block `b` is begun. -/
def Spec.begin (s : Spec) (b : Nat) (v : Value) (unwinding : Bool) : Spec :=
  { s with blocks := s.blocks.set b none, log := s.log ++ [v.id], stack := .body v (some b) unwinding :: s.stack }

/-- Dropping pointers one after the other, until a value is destroyed by that: its block, the value, and the pointers that were not yet dropped. -/
def Spec.next (s : Spec) : List Ptr → Option (Nat × Value × List Ptr)
  | [] => none
  | p :: ps => match s.destroys ps p with
    | some v => some (p.block, v, ps)
    | none => s.next ps

/-- What happens until code of the user runs again: in another destructor, in one that dropped something, or in the program. The first result is whether a panic arrives there. -/
def Spec.resume (s : Spec) : Bool → List Frame → Bool × Spec
  | u, [] => (u, { s with stack := [] })
  | u, .body v place w :: fs => (u, { s with stack := .body v place w :: fs })
  | u, .rest ps place w :: fs => match { s with stack := fs }.next ps with
    | none => s.resume (u || w) fs
    | some (b, v, ps) => (false, { s with stack := .rest ps place (u || w) :: fs }.begin b v (u || w))

/-- A value that is not in a block any more is dropped. -/
def Spec.dropVal (s : Spec) (v : Value) : Spec := { s with log := s.log ++ [v.id], stack := .body v none false :: s.stack }

/-! ## Going to values -/

/-- The value there. -/
def Spec.at (s : Spec) : Place → Option Value
  | .val v => var s.vals v
  | .block b => var s.blocks b
  | .self => match s.stack with | .body v _ _ :: _ => some v | _ => none

/-- Another value is there. -/
def Spec.put (s : Spec) (x : Value) : Place → Spec
  | .val v => { s with vals := s.vals.set v (some x) }
  | .block b => { s with blocks := s.blocks.set b (some x) }
  | .self => match s.stack with | .body _ o u :: fs => { s with stack := .body x o u :: fs } | _ => s

/-- The value behind a pointer; there is no access by a `Weak`. -/
def Ptr.target (q : Ptr) : Option Place := if q.kind = .weak then none else some (.block q.block)

def Spec.start (s : Spec) : Root → Option Place
  | .val v => some (.val v)
  | .ptr p => (var s.ptrs p).bind Ptr.target
  | .self => some .self

def Spec.walk (s : Spec) : Place → List Nat → Option Place
  | pl, [] => some pl
  | pl, i :: path => match s.at pl with
    | none => none
    | some x => match (x.fields[i]?).bind Ptr.target with
      | none => none
      | some pl => s.walk pl path

/-- The value that is reached, and where it is. -/
def Spec.find (s : Spec) (root : Root) (path : List Nat) : Option (Place × Value) := match s.start root with
  | none => none
  | some pl => match s.walk pl path with
    | none => none
    | some pl => (s.at pl).map fun x => (pl, x)

/-! ## Operations -/

/-- A new pointer variable. -/
def Spec.add (s : Spec) (p : Ptr) : Resp × Spec := (.var s.ptrs.length, { s with ptrs := s.ptrs ++ [some p] })

/-- The content of the variable, if it is a pointer of this kind: its block. -/
def ofKind (ptrs : List (Option Ptr)) (k : Kind) (p : Nat) : Option Nat := match var ptrs p with
  | some q => if q.kind = k then some q.block else none
  | none => none

/-- The value in variable `v` is put into a new block. If there is no memory then it is dropped. -/
def Spec.place (s : Spec) (slab : Slab) (v : Nat) (L : Layout) (k : Kind) : Resp × Spec := match var s.vals v with
  | none => (.absent, s)
  | some x => match slab.place L s.level with
    | none => (.full, { s with vals := s.vals.set v none }.dropVal x)
    | some a => { s with vals := s.vals.set v none, blocks := s.blocks ++ [some x], level := a.level }.add ⟨k, s.blocks.length⟩

def Spec.exec (slab : Slab) (s : Spec) : Op → Resp × Spec
  | .make => (.var s.vals.length, { s with vals := s.vals ++ [some ⟨s.made, []⟩], made := s.made + 1 })
  | .box v L => s.place slab v L .own
  | .rc v L => s.place slab v L .strong
  | .alloc L => match slab.place L s.level with
    | some a => (.unit, { s with level := a.level })
    | none => (.full, s)
  | .clone p => match var s.ptrs p with
    | none => (.absent, s)
    | some q => if q.kind = .own then (.absent, s) else s.add q
  | .downgrade p => match ofKind s.ptrs .strong p with
    | none => (.absent, s)
    | some b => s.add ⟨.weak, b⟩
  | .upgrade p => match ofKind s.ptrs .weak p with
    | none => (.absent, s)
    | some b => if 0 < s.strongs b then s.add ⟨.strong, b⟩ else (.refused, s)
  | .push root path k => match s.find root path, (if root = .ptr k then none else var s.ptrs k) with
    | some (pl, x), some q => (.unit, { s with ptrs := s.ptrs.set k none }.put { x with fields := x.fields ++ [q] } pl)
    | _, _ => (.absent, s)
  | .pull root path i => match s.find root path with
    | none => (.absent, s)
    | some (pl, x) => match x.fields[i]? with
      | none => (.absent, s)
      | some q => (s.put { x with fields := x.fields.eraseIdx i } pl).add q
  | .follow root path i => match s.find root path with
    | none => (.absent, s)
    | some (_, x) => match x.fields[i]? with
      | none => (.absent, s)
      | some q => if q.kind = .own then (.absent, s) else s.add q
  | .read root path => match s.find root path with
    | none => (.absent, s)
    | some (_, x) => (.id x.id, s)
  | .swap root path v => if root = .val v then (.absent, s) else match s.find root path, var s.vals v with
    | some (.self, _), _ => (.absent, s)
    | some (pl, x), some y => (.unit, { s with vals := s.vals.set v (some x) }.put y pl)
    | _, _ => (.absent, s)
  | .counts p => match var s.ptrs p with
    | none => (.absent, s)
    | some q => if q.kind = .own then (.absent, s) else (.nums (s.strongs q.block) (s.weaks q.block), s)
  | .ptrEq p q => match ofKind s.ptrs .strong p, ofKind s.ptrs .strong q with
    | some b, some c => (.bool (b = c), s)
    | _, _ => (.absent, s)
  | .getMut p v => match ofKind s.ptrs .strong p, var s.vals v with
    | some b, some y => match var s.blocks b with
      | none => (.absent, s)
      | some x => if s.strongs b = 1 ∧ s.weaks b = 1 then (.unit, { s with blocks := s.blocks.set b (some y), vals := s.vals.set v (some x) }) else (.refused, s)
    | _, _ => (.absent, s)
  | .take p => match ofKind s.ptrs .own p with
    | none => (.absent, s)
    | some b => match var s.blocks b with
      | none => (.absent, s)
      | some x => (.var s.vals.length, { s with blocks := s.blocks.set b none, vals := s.vals ++ [some x], ptrs := s.ptrs.set p none })
  | .tryUnwrap p => match ofKind s.ptrs .strong p with
    | none => (.absent, s)
    | some b => match var s.blocks b with
      | none => (.absent, s)
      | some x =>
        if s.strongs b = 1 then (.var s.vals.length, { s with blocks := s.blocks.set b none, vals := s.vals ++ [some x], ptrs := s.ptrs.set p (some ⟨.weak, b⟩) }) else (.refused, s)
  | .recycle p v => match ofKind s.ptrs .weak p, var s.vals v with
    | some b, some y =>
      if s.strongs b = 0 ∧ s.weaks b = 1 then (.unit, { s with blocks := s.blocks.set b (some y), vals := s.vals.set v none, ptrs := s.ptrs.set p (some ⟨.strong, b⟩) }) else (.refused, s)
    | _, _ => (.absent, s)
  | .dropPtr p => match var s.ptrs p with
    | none => (.absent, s)
    | some q => match { s with ptrs := s.ptrs.set p none }.destroys [] q with
      | none => (.unit, { s with ptrs := s.ptrs.set p none })
      | some v => (.unit, { s with ptrs := s.ptrs.set p none }.begin q.block v false)
  | .dropVal v => match var s.vals v with
    | none => (.absent, s)
    | some x => (.unit, { s with vals := s.vals.set v none }.dropVal x)
  | .forget p => match var s.ptrs p with
    | none => (.absent, s)
    | some q => (.unit, { s with ptrs := s.ptrs.set p none, forgotten := q :: s.forgotten })
  | .endDrop panics => match s.stack with
    | .body v place u :: fs =>
      if panics && u then (.aborted, { s with aborted := true })
      else
        let r := s.resume false (.rest v.fields place (u || panics) :: fs)
        (if r.1 then .unwound else .unit, r.2)
    | _ => (.absent, s)

/-- A program; it ends when it is aborted. -/
def Spec.run (slab : Slab) : Spec → List Op → List Resp × Spec
  | s, [] => ([], s)
  | s, op :: ops =>
    let (r, s) := s.exec slab op
    if s.aborted then ([r], s) else
    let (rs, s) := Spec.run slab s ops
    (r :: rs, s)

/-! ## Conditions -/

/-- `Weak::try_unwrap` is not called for the memory of a value that is being destroyed. -/
def Spec.Allowed (s : Spec) : Op → Prop
  | .recycle p _ => ∀ b ∈ dying s.stack, var s.ptrs p ≠ some ⟨.weak, b⟩
  | _ => True
/-- Less pointers to each block than `usize` has numbers. -/
def Spec.Few (t : Target) (s : Spec) : Prop := ∀ b, s.strongs b < t.usizeMax ∧ s.weaks b < t.usizeMax
/-- Both, in all states in which the program does something. -/
def Spec.AllowedRun (slab : Slab) : Spec → List Op → Prop
  | _, [] => True
  | s, op :: ops => s.Allowed op ∧ ((s.exec slab op).2.aborted = false → Spec.AllowedRun slab (s.exec slab op).2 ops)
def Spec.FewRun (t : Target) (slab : Slab) : Spec → List Op → Prop
  | _, [] => True
  | s, op :: ops => s.Few t ∧ ((s.exec slab op).2.aborted = false → Spec.FewRun t slab (s.exec slab op).2 ops)

/-! ## The graph -/

/-- The value in block `b` contains such a pointer to block `c`. -/
def Spec.Edge (s : Spec) (k : Kind) (b c : Nat) : Prop := ∃ v, var s.blocks b = some v ∧ ⟨k, c⟩ ∈ v.fields

/-- A way by boxes and `Rc`s. -/
inductive Spec.Path (s : Spec) : Nat → Nat → Prop
  | one {k : Kind} {b c : Nat} : k ≠ .weak → s.Edge k b c → s.Path b c
  | more {k : Kind} {b c d : Nat} : k ≠ .weak → s.Edge k b c → s.Path c d → s.Path b d

/-- A way by boxes alone. -/
inductive Spec.BoxPath (s : Spec) : Nat → Nat → Prop
  | one {b c : Nat} : s.Edge .own b c → s.BoxPath b c
  | more {b c d : Nat} : s.Edge .own b c → s.BoxPath c d → s.BoxPath b d

/-- The block can be reached by boxes and `Rc`s from outside of the blocks. -/
inductive Spec.Reach (s : Spec) : Nat → Prop
  | root {k : Kind} {b : Nat} : k ≠ .weak → ⟨k, b⟩ ∈ s.roots → s.Reach b
  | edge {k : Kind} {b c : Nat} : k ≠ .weak → s.Reach b → s.Edge k b c → s.Reach c

end Verif.Mixed
