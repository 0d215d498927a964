import Verif.Spec.Linked
/-!
# Structures of values that are shared by reference counting

What is expected, without counters: a value in an `Rc` exists as long as there is a strong pointer to it, in a variable or in a value that exists itself. Values contain pointers, so the structures are graphs, and may have cycles.
-/
set_option autoImplicit false
namespace Verif.Shared
open Linked (var Ended)

/-- An `Rc` or (`strong = false`) a `Weak`; `block` is the number of the memory block with the value. -/
structure Ptr where
  strong : Bool
  block : Nat
  deriving DecidableEq, Repr

/-- A value: its identity, and the pointers that it contains. -/
structure Value where
  id : Nat
  fields : List Ptr
  deriving DecidableEq, Repr

/-- What a program does. It has variables with values and with pointers, both are numbered. -/
inductive Op where
  /-- a new value without pointers -/
  | make
  /-- `bump.rc(v)`, for an inner layout `L` -/
  | rc (v : Nat) (L : Layout)
  /-- another allocation -/
  | alloc (L : Layout)
  /-- `clone` of an `Rc` or a `Weak` -/
  | clone (p : Nat)
  | downgrade (p : Nat)
  | upgrade (p : Nat)
  /-- the pointer becomes the last field of the value in the variable -/
  | attach (v p : Nat)
  /-- field `i` is taken out of the value in the variable -/
  | unpack (v i : Nat)
  /-- pointer `k` becomes the last field of the value that `p` points to, which has its fields in a `RefCell` -/
  | push (p k : Nat)
  /-- field `i` is taken out of the value that `p` points to -/
  | pull (p i : Nat)
  /-- a clone of field `i` of the value that `p` points to -/
  | follow (p i : Nat)
  | read (p : Nat)
  /-- `strong_count` and `weak_count` -/
  | counts (p : Nat)
  | ptrEq (p q : Nat)
  /-- `mem::replace` through `Rc::get_mut` -/
  | replace (p v : Nat)
  | tryUnwrap (p : Nat)
  /-- `Weak::try_unwrap`, and then `Rc::new` in this memory -/
  | recycle (p v : Nat)
  | dropPtr (p : Nat)
  | dropVal (v : Nat)
  | forget (p : Nat)

/-- `absent`: there is no such variable or field, or the pointer has the wrong type; the program does nothing. `refused`: `None` or `Err`. -/
inductive Resp where
  | absent | var (n : Nat) | full | id (n : Nat) | nums (n m : Nat) | bool (b : Bool) | refused | unit | unwound | aborted
  deriving DecidableEq, Repr

def endResp (done : Resp) : Ended → Resp
  | .ok => done | .unwound => .unwound | .aborted => .aborted

/-- Variables; the values in blocks, as long as they exist; the level of the slab; the number of values made; the destructors run in order; pointers that were forgotten. -/
structure Spec where
  vals : List (Option Value)
  ptrs : List (Option Ptr)
  blocks : List (Option Value)
  level : Nat
  made : Nat
  log : List Nat
  forgotten : List Ptr
  aborted : Bool

def Spec.init (level : Nat) : Spec := ⟨[], [], [], level, 0, [], [], false⟩

/-- The pointers in existing values. -/
def fieldsOf (xs : List (Option Value)) : List Ptr := xs.flatMap fun o => match o with | some v => v.fields | none => []

/-- All pointers. -/
def Spec.pointers (s : Spec) : List Ptr := s.ptrs.filterMap id ++ fieldsOf s.vals ++ fieldsOf s.blocks ++ s.forgotten

/-- Dropping a pointer, while those in `rest` have to be dropped too. If it is the last strong one for its value then the value is destroyed: its destructor is run, and its own pointers have to be dropped next. The first result is that the program
is aborted because a destructor panicked while another panic is unwinding, the second whether one is unwinding. -/
def Spec.dropOne (panics : Nat → Bool) (unwinding : Bool) (s : Spec) (p : Ptr) (rest : List Ptr) : Bool × Bool × Spec × List Ptr :=
  if p.strong = false ∨ p ∈ s.pointers ++ rest then (false, unwinding, s, rest)
  else match var s.blocks p.block with
    | none => (false, unwinding, s, rest)
    | some v => (panics v.id && unwinding, unwinding || panics v.id, { s with blocks := s.blocks.set p.block none, log := s.log ++ [v.id] }, v.fields ++ rest)

/-- Dropping pointers one after the other. There are not more steps than pointers. -/
def Spec.dropAll (panics : Nat → Bool) : Nat → Bool → Spec → List Ptr → Ended × Spec
  | _, unwinding, s, [] => (if unwinding then .unwound else .ok, s)
  | 0, _, s, _ :: _ => (.ok, s)
  | n + 1, unwinding, s, p :: rest =>
    match s.dropOne panics unwinding p rest with
    | (true, _, s, _) => (.aborted, s)
    | (false, unwinding, s, rest) => Spec.dropAll panics n unwinding s rest

def Spec.finish (r : Ended × Spec) (done : Resp) : Resp × Spec := (endResp done r.1, { r.2 with aborted := r.1 = .aborted })

/-- A pointer that is no longer in a variable is dropped. -/
def Spec.dropPtr (panics : Nat → Bool) (s : Spec) (p : Ptr) (done : Resp) : Resp × Spec :=
  Spec.finish (s.dropAll panics (s.pointers.length + 1) false [p]) done
/-- A value that is no longer in a variable is dropped. -/
def Spec.dropVal (panics : Nat → Bool) (s : Spec) (v : Value) (done : Resp) : Resp × Spec :=
  Spec.finish ({ s with log := s.log ++ [v.id] }.dropAll panics (s.pointers.length + v.fields.length) (panics v.id) v.fields) done

/-- The numbers of strong and of weak pointers; all strong ones together count as one more weak pointer. -/
def Spec.strongs (s : Spec) (b : Nat) : Nat := s.pointers.count ⟨true, b⟩
def Spec.weaks (s : Spec) (b : Nat) : Nat := s.pointers.count ⟨false, b⟩ + (if 0 < s.strongs b then 1 else 0)

/-- A new pointer variable. -/
def Spec.add (s : Spec) (p : Ptr) : Resp × Spec := (.var s.ptrs.length, { s with ptrs := s.ptrs ++ [some p] })

/-- The value that the pointer in the variable points to, if it is strong. -/
def Spec.target (s : Spec) (p : Nat) : Option (Nat × Value) := match var s.ptrs p with
  | some ⟨true, b⟩ => (var s.blocks b).map fun v => (b, v)
  | _ => none

def Spec.exec (slab : Slab) (panics : Nat → Bool) (s : Spec) : Op → Resp × Spec
  | .make => (.var s.vals.length, { s with vals := s.vals ++ [some ⟨s.made, []⟩], made := s.made + 1 })
  | .rc v L => match var s.vals v with
    | none => (.absent, s)
    | some x => match slab.place L s.level with
      | some a => { s with vals := s.vals.set v none, blocks := s.blocks ++ [some x], level := a.level }.add ⟨true, s.blocks.length⟩
      | none => { s with vals := s.vals.set v none }.dropVal panics x .full
  | .alloc L => match slab.place L s.level with
    | some a => (.unit, { s with level := a.level })
    | none => (.full, s)
  | .clone p => match var s.ptrs p with
    | none => (.absent, s)
    | some q => s.add q
  | .downgrade p => match var s.ptrs p with
    | some ⟨true, b⟩ => s.add ⟨false, b⟩
    | _ => (.absent, s)
  | .upgrade p => match var s.ptrs p with
    | some ⟨false, b⟩ => if 0 < s.strongs b then s.add ⟨true, b⟩ else (.refused, s)
    | _ => (.absent, s)
  | .attach v p => match var s.vals v, var s.ptrs p with
    | some x, some q => (.unit, { s with vals := s.vals.set v (some { x with fields := x.fields ++ [q] }), ptrs := s.ptrs.set p none })
    | _, _ => (.absent, s)
  | .unpack v i => match var s.vals v with
    | none => (.absent, s)
    | some x => match x.fields[i]? with
      | none => (.absent, s)
      | some q => { s with vals := s.vals.set v (some { x with fields := x.fields.eraseIdx i }) }.add q
  | .push p k => match s.target p with
    | none => (.absent, s)
    | some (b, x) => match (if p = k then none else var s.ptrs k) with
      | none => (.absent, s)
      | some q => (.unit, { s with blocks := s.blocks.set b (some { x with fields := x.fields ++ [q] }), ptrs := s.ptrs.set k none })
  | .pull p i => match s.target p with
    | none => (.absent, s)
    | some (b, x) => match x.fields[i]? with
      | none => (.absent, s)
      | some q => { s with blocks := s.blocks.set b (some { x with fields := x.fields.eraseIdx i }) }.add q
  | .follow p i => match s.target p with
    | none => (.absent, s)
    | some (_, x) => match x.fields[i]? with
      | none => (.absent, s)
      | some q => s.add q
  | .read p => match s.target p with
    | none => (.absent, s)
    | some (_, x) => (.id x.id, s)
  | .counts p => match var s.ptrs p with
    | none => (.absent, s)
    | some q => (.nums (s.strongs q.block) (s.weaks q.block), s)
  | .ptrEq p q => match var s.ptrs p, var s.ptrs q with
    | some ⟨true, b⟩, some ⟨true, c⟩ => (.bool (b = c), s)
    | _, _ => (.absent, s)
  | .replace p v => match s.target p, var s.vals v with
    | some (b, x), some y =>
      if s.strongs b = 1 ∧ s.weaks b = 1 then (.unit, { s with blocks := s.blocks.set b (some y), vals := s.vals.set v (some x) }) else (.refused, s)
    | _, _ => (.absent, s)
  | .tryUnwrap p => match s.target p with
    | none => (.absent, s)
    | some (b, x) =>
      if s.strongs b = 1 then (.var s.vals.length, { s with blocks := s.blocks.set b none, vals := s.vals ++ [some x], ptrs := s.ptrs.set p (some ⟨false, b⟩) }) else (.refused, s)
  | .recycle p v => match var s.ptrs p, var s.vals v with
    | some ⟨false, b⟩, some y =>
      if s.strongs b = 0 ∧ s.weaks b = 1 then (.unit, { s with blocks := s.blocks.set b (some y), vals := s.vals.set v none, ptrs := s.ptrs.set p (some ⟨true, b⟩) }) else (.refused, s)
    | _, _ => (.absent, s)
  | .dropPtr p => match var s.ptrs p with
    | none => (.absent, s)
    | some q => { s with ptrs := s.ptrs.set p none }.dropPtr panics q .unit
  | .dropVal v => match var s.vals v with
    | none => (.absent, s)
    | some x => { s with vals := s.vals.set v none }.dropVal panics x .unit
  | .forget p => match var s.ptrs p with
    | none => (.absent, s)
    | some q => (.unit, { s with ptrs := s.ptrs.set p none, forgotten := q :: s.forgotten })

/-- A program; it ends when it is aborted. -/
def Spec.run (slab : Slab) (panics : Nat → Bool) : Spec → List Op → List Resp × Spec
  | s, [] => ([], s)
  | s, op :: ops =>
    let (r, s) := s.exec slab panics op
    if s.aborted then ([r], s) else
    let (rs, s) := Spec.run slab panics s ops
    (r :: rs, s)

/-- Less pointers to each block than `usize` has numbers. -/
def Spec.Few (t : Target) (s : Spec) : Prop := ∀ b, s.strongs b < t.usizeMax ∧ s.weaks b < t.usizeMax

/-! ## The graph -/

/-- The pointers outside of blocks. -/
def Spec.roots (s : Spec) : List Ptr := s.ptrs.filterMap id ++ fieldsOf s.vals ++ s.forgotten

/-- The value in block `b` contains a strong pointer to block `c`. -/
def Spec.Edge (s : Spec) (b c : Nat) : Prop := ∃ v, var s.blocks b = some v ∧ ⟨true, c⟩ ∈ v.fields

inductive Spec.Path (s : Spec) : Nat → Nat → Prop
  | one {b c : Nat} : s.Edge b c → s.Path b c
  | more {b c d : Nat} : s.Edge b c → s.Path c d → s.Path b d

/-- The block can be reached by strong pointers from outside of the blocks. -/
inductive Spec.Reach (s : Spec) : Nat → Prop
  | root {b : Nat} : ⟨true, b⟩ ∈ s.roots → s.Reach b
  | edge {b c : Nat} : s.Reach b → s.Edge b c → s.Reach c

/-- The operations that put no strong pointers in values that are shared already. -/
def Spec.Layered (s : Spec) : Op → Prop
  | .push _ k => ∀ b, var s.ptrs k ≠ some ⟨true, b⟩
  | .replace _ _ | .recycle _ _ => False
  | _ => True

end Verif.Shared
