import Verif.Model.FixedVec
import Verif.Model.WBox
import Verif.Model.Rc
/-!
# Model of the comparison and hash traits of `FixedVec`, `Box` and `Rc`

`Traits V` are the methods of the implementations of `PartialEq`, `PartialOrd`, `Ord` and `Hash` for a type, as they are: nothing relates them to each other. A hasher sees a sequence of writes; `hash v` is what is written for a value.
Methods that panic are not modelled.
-/
namespace Verif.Cmp
open Verif

/-- One call of a method of `core::hash::Hasher`. -/
inductive Feed where
  | bytes (bs : List Nat)
  | usize (n : Nat)
  deriving DecidableEq, Repr

/-- What the impls of without-alloc/src/fixed_vec.rs:549-596, without-alloc/src/rc.rs:609-656,
without-alloc/src/boxed.rs:183-230 call. Not code of the repository: the library core, as
documented. -/
structure Traits (V : Type) where
  eq : V → V → Bool
  ne : V → V → Bool
  partialCmp : V → V → Option Ordering
  lt : V → V → Bool
  le : V → V → Bool
  ge : V → V → Bool
  gt : V → V → Bool
  cmp : V → V → Ordering
  hash : V → List Feed

/-! ## The implementation for slices (core) -/
section
variable {V : Type}

/-- `core::slice::cmp`: equal lengths and all pairs of elements are equal. -/
def sliceEq (d : Traits V) : List V → List V → Bool
  | [], [] => true
  | x :: xs, y :: ys => d.eq x y && sliceEq d xs ys
  | _, _ => false
/-- `core::slice::cmp`: the first pair that does not compare as equal decides, otherwise the lengths. -/
def slicePartialCmp (d : Traits V) : List V → List V → Option Ordering
  | [], [] => some .eq
  | [], _ :: _ => some .lt
  | _ :: _, [] => some .gt
  | x :: xs, y :: ys =>
    match d.partialCmp x y with
    | some .eq => slicePartialCmp d xs ys
    | r => r
/-- Lexicographic comparison of slices. Not code of the repository: the library core, as
documented. -/
def sliceCmp (d : Traits V) : List V → List V → Ordering
  | [], [] => .eq
  | [], _ :: _ => .lt
  | _ :: _, [] => .gt
  | x :: xs, y :: ys =>
    match d.cmp x y with
    | .eq => sliceCmp d xs ys
    | r => r
/-- The traits of `[V]`. The operators are those that `PartialOrd` defines from `partial_cmp`; the
hash is that of the length and of all elements. Not code of the repository: the library core, as
documented. -/
def sliceTraits (d : Traits V) : Traits (List V) where
  eq := sliceEq d
  ne xs ys := !sliceEq d xs ys
  partialCmp := slicePartialCmp d
  lt xs ys := slicePartialCmp d xs ys == some .lt
  le xs ys := slicePartialCmp d xs ys == some .lt || slicePartialCmp d xs ys == some .eq
  ge xs ys := slicePartialCmp d xs ys == some .gt || slicePartialCmp d xs ys == some .eq
  gt xs ys := slicePartialCmp d xs ys == some .gt
  cmp := sliceCmp d
  hash xs := .usize xs.length :: xs.flatMap d.hash
end

/-! ## `FixedVec` -/
namespace FixedVec
open FVec
variable {V : Type}

/-- `PartialEq::eq`, fixed_vec.rs:551-553. -/
def eq (d : Traits V) (h : Heap V) (a b : FVec.FixedVec) : Outcome Bool := do let x ← a.asSlice h; let y ← b.asSlice h; pure ((sliceTraits d).eq x y)
/-- `PartialEq::ne`, fixed_vec.rs:555-557. -/
def ne (d : Traits V) (h : Heap V) (a b : FVec.FixedVec) : Outcome Bool := do let x ← a.asSlice h; let y ← b.asSlice h; pure ((sliceTraits d).ne x y)
/-- `PartialOrd::partial_cmp`, fixed_vec.rs:561-564. -/
def partialCmp (d : Traits V) (h : Heap V) (a b : FVec.FixedVec) : Outcome (Option Ordering) := do let x ← a.asSlice h; let y ← b.asSlice h; pure ((sliceTraits d).partialCmp x y)
/-- `PartialOrd::lt`, fixed_vec.rs:565-568. -/
def lt (d : Traits V) (h : Heap V) (a b : FVec.FixedVec) : Outcome Bool := do let x ← a.asSlice h; let y ← b.asSlice h; pure ((sliceTraits d).lt x y)
/-- `PartialOrd::le`, fixed_vec.rs:569-572. -/
def le (d : Traits V) (h : Heap V) (a b : FVec.FixedVec) : Outcome Bool := do let x ← a.asSlice h; let y ← b.asSlice h; pure ((sliceTraits d).le x y)
/-- `PartialOrd::ge`, fixed_vec.rs:573-576. -/
def ge (d : Traits V) (h : Heap V) (a b : FVec.FixedVec) : Outcome Bool := do let x ← a.asSlice h; let y ← b.asSlice h; pure ((sliceTraits d).ge x y)
/-- `PartialOrd::gt`, fixed_vec.rs:577-580. -/
def gt (d : Traits V) (h : Heap V) (a b : FVec.FixedVec) : Outcome Bool := do let x ← a.asSlice h; let y ← b.asSlice h; pure ((sliceTraits d).gt x y)
/-- `Ord::cmp`, fixed_vec.rs:584-587. -/
def cmp (d : Traits V) (h : Heap V) (a b : FVec.FixedVec) : Outcome Ordering := do let x ← a.asSlice h; let y ← b.asSlice h; pure ((sliceTraits d).cmp x y)
/-- `Hash::hash`, fixed_vec.rs:593-595. -/
def hash (d : Traits V) (h : Heap V) (a : FVec.FixedVec) : Outcome (List Feed) := do let x ← a.asSlice h; pure ((sliceTraits d).hash x)
/-- `Borrow::borrow`, `AsRef::as_ref`, fixed_vec.rs:598-614: `&**self`. -/
def borrow (h : Heap V) (a : FVec.FixedVec) : Outcome (List V) := a.asSlice h
end FixedVec

/-! ## `Box`: the values have numbers, the traits of the type are about these. -/
namespace WBox
open Owned
/-- `PartialEq::eq`, boxed.rs:184-187. -/
def eq (d : Traits Nat) (s : PState) (a b : Nat) : Outcome Bool := do let x ← Owned.WBox.deref s a; let y ← Owned.WBox.deref s b; pure (d.eq x y)
/-- `PartialEq::ne`, boxed.rs:188-191. -/
def ne (d : Traits Nat) (s : PState) (a b : Nat) : Outcome Bool := do let x ← Owned.WBox.deref s a; let y ← Owned.WBox.deref s b; pure (d.ne x y)
/-- `PartialOrd::partial_cmp`, boxed.rs:195-198. -/
def partialCmp (d : Traits Nat) (s : PState) (a b : Nat) : Outcome (Option Ordering) := do let x ← Owned.WBox.deref s a; let y ← Owned.WBox.deref s b; pure (d.partialCmp x y)
/-- `PartialOrd::lt`, boxed.rs:199-202. -/
def lt (d : Traits Nat) (s : PState) (a b : Nat) : Outcome Bool := do let x ← Owned.WBox.deref s a; let y ← Owned.WBox.deref s b; pure (d.lt x y)
/-- `PartialOrd::le`, boxed.rs:203-206. -/
def le (d : Traits Nat) (s : PState) (a b : Nat) : Outcome Bool := do let x ← Owned.WBox.deref s a; let y ← Owned.WBox.deref s b; pure (d.le x y)
/-- `PartialOrd::ge`, boxed.rs:207-210. -/
def ge (d : Traits Nat) (s : PState) (a b : Nat) : Outcome Bool := do let x ← Owned.WBox.deref s a; let y ← Owned.WBox.deref s b; pure (d.ge x y)
/-- `PartialOrd::gt`, boxed.rs:211-214. -/
def gt (d : Traits Nat) (s : PState) (a b : Nat) : Outcome Bool := do let x ← Owned.WBox.deref s a; let y ← Owned.WBox.deref s b; pure (d.gt x y)
/-- `Ord::cmp`, boxed.rs:218-221. -/
def cmp (d : Traits Nat) (s : PState) (a b : Nat) : Outcome Ordering := do let x ← Owned.WBox.deref s a; let y ← Owned.WBox.deref s b; pure (d.cmp x y)
/-- `Hash::hash`, boxed.rs:227-229. -/
def hash (d : Traits Nat) (s : PState) (a : Nat) : Outcome (List Feed) := do let x ← Owned.WBox.deref s a; pure (d.hash x)
end WBox

/-! ## `Rc` -/
namespace Rc
open RcM
variable {V : Type}
/-- `Deref::deref`, rc.rs:534-540, on a usable `Rc`. -/
def deref (w : World V) (h : Nat) : Outcome V :=
  match w.block? .strong h with
  | none => .ub
  | some a =>
    match (w.mem a).val with
    | none => .ub
    | some v => .ret v
/-- `PartialEq::eq`, rc.rs:611-614. -/
def eq (d : Traits V) (w : World V) (a b : Nat) : Outcome Bool := do let x ← deref w a; let y ← deref w b; pure (d.eq x y)
/-- `PartialEq::ne`, rc.rs:615-618. -/
def ne (d : Traits V) (w : World V) (a b : Nat) : Outcome Bool := do let x ← deref w a; let y ← deref w b; pure (d.ne x y)
/-- `PartialOrd::partial_cmp`, rc.rs:624-627. -/
def partialCmp (d : Traits V) (w : World V) (a b : Nat) : Outcome (Option Ordering) := do let x ← deref w a; let y ← deref w b; pure (d.partialCmp x y)
/-- `PartialOrd::lt`, rc.rs:628-631. -/
def lt (d : Traits V) (w : World V) (a b : Nat) : Outcome Bool := do let x ← deref w a; let y ← deref w b; pure (d.lt x y)
/-- `PartialOrd::le`, rc.rs:632-635. -/
def le (d : Traits V) (w : World V) (a b : Nat) : Outcome Bool := do let x ← deref w a; let y ← deref w b; pure (d.le x y)
/-- `PartialOrd::ge`, rc.rs:636-639. -/
def ge (d : Traits V) (w : World V) (a b : Nat) : Outcome Bool := do let x ← deref w a; let y ← deref w b; pure (d.ge x y)
/-- `PartialOrd::gt`, rc.rs:640-643. -/
def gt (d : Traits V) (w : World V) (a b : Nat) : Outcome Bool := do let x ← deref w a; let y ← deref w b; pure (d.gt x y)
/-- `Ord::cmp`, rc.rs:647-650. -/
def cmp (d : Traits V) (w : World V) (a b : Nat) : Outcome Ordering := do let x ← deref w a; let y ← deref w b; pure (d.cmp x y)
/-- `Hash::hash`, rc.rs:653-655. -/
def hash (d : Traits V) (w : World V) (a : Nat) : Outcome (List Feed) := do let x ← deref w a; pure (d.hash x)
end Rc

end Verif.Cmp
