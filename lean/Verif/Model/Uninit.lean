import Verif.Model.Rust
/-!
# Model of `without_alloc::uninit` (`/repo/without-alloc/src/uninit.rs`)

A `UninitView<T>` is a pointer and a length in bytes; for slices the pointer has the number of elements as metadata. `Uninit<T>` wraps it
and all its methods delegate to the ones of the view or repeat them (lines cited), so both are modelled by the same functions. Methods with `&mut self` return
the new `self` as first component; if they return `None` then `self` is unchanged. `NonNull::new(..).unwrap()` of pointers that are valid references or
results of in-bounds arithmetic is not modelled as a check. Addresses computed by `ptr::add` are modelled as numbers; that going beyond the allocation is undefined behaviour by itself is not modelled.
-/
namespace Verif.Uninit
open Verif

/-- Layout of `()`. Not code of the repository: the semantics of the Rust language. -/
def unit : Layout := ⟨0, 1⟩

/-- `UninitView<'_, T>` (uninit.rs:99-118) and `Uninit<'_, T>` (uninit.rs:78-86) of a sized type. -/
structure View where
  addr : Nat
  len : Nat
  T : Layout
  deriving DecidableEq, Repr

/-- `UninitView<'_, [T]>` and `Uninit<'_, [T]>`: the pointer has metadata.
without-alloc/src/uninit.rs:79-104. -/
structure SliceView where
  addr : Nat
  len : Nat
  T : Layout
  count : Nat
  deriving DecidableEq, Repr

/-- `from_memory`, uninit.rs:133-140 and 547-554. -/
def fromMemory (addr len : Nat) : View := ⟨addr, len, unit⟩

/-- `fits`, uninit.rs:892-895: uses `align_offset` of `*mut u8`. The arguments are address and `len`. -/
def fitsAt (addr len : Nat) (l : Layout) : Bool := decide (alignOffsetU8 addr l.align = 0) && decide (l.size ≤ len)
/-- `fits`, see `fitsAt`. without-alloc/src/uninit.rs:496-498, 892-895. -/
def View.fits (v : View) (l : Layout) : Bool := fitsAt v.addr v.len l
/-- `fits`, see `fitsAt`. without-alloc/src/uninit.rs:496-498, 892-895. -/
def SliceView.fits (v : SliceView) (l : Layout) : Bool := fitsAt v.addr v.len l

/-- `cast`, uninit.rs:734-745 and 237-241. -/
def View.cast (v : View) (U : Layout) : Except View View :=
  if !v.fits U then .error v else .ok ⟨v.addr, v.len, U⟩

/-- `cast_slice`, uninit.rs:658-681 and 248-252. The layout of the empty slice has size 0. -/
def View.castSlice (t : Target) (v : View) (U : Layout) : Except View SliceView :=
  let empty : Layout := ⟨0, U.align⟩
  if !v.fits empty then .error v
  else
    let sliceLen := if U.size = 0 then t.usizeMax else v.len / U.size
    .ok ⟨v.addr, v.len, U, sliceLen⟩

/-- `decast`, uninit.rs:152-159 and 579-586, also `as_memory` 501-503. -/
def View.decast (v : View) : View := ⟨v.addr, v.len, unit⟩
/-- `decast`. without-alloc/src/uninit.rs:152-160, 579-586. -/
def SliceView.decast (v : SliceView) : View := ⟨v.addr, v.len, unit⟩

/-- `split_at_byte`, uninit.rs:624-639 and 223-226. `base` is a `*mut T`: `base.add(at)` goes forward by `at * size_of::<T>()` bytes. -/
def View.splitAtByte (v : View) (at_ : Nat) : Option (View × View) :=
  if v.len < at_ ∨ at_ < v.T.size then none
  else
    let nextBase := v.addr + at_ * v.T.size
    let nextLen := v.len - at_
    some (⟨v.addr, at_, v.T⟩, fromMemory nextBase nextLen)

/-- `split_to_fit`, uninit.rs:684-686 and 257-259. -/
def View.splitToFit (v : View) : Outcome (View × View) := Outcome.unwrap (v.splitAtByte v.T.size)

/-- `split_layout` of `UninitView<'_, ()>`, uninit.rs:561-575 and 145-148: `align_offset` of a `*mut ()`. -/
def View.splitLayout (t : Target) (v : View) (layout : Layout) : Outcome (Option (View × View)) :=
  let align := alignOffsetUnit t v.addr layout.align
  let alignedLen := match Usize.checkedSub v.len align with
    | none => none
    | some len => Usize.checkedSub len layout.size
  match alignedLen with
  | none => .ret none
  | some _ =>
    match v.splitAtByte align with
    | none => .ret none
    | some (self, aligned) => if aligned.fits layout then .ret (some (self, aligned)) else .panic

/-- `split_cast`, uninit.rs:589-593 and 166-170. -/
def View.splitCast (t : Target) (v : View) (U : Layout) : Outcome (Option (View × View)) := do
  match ← v.splitLayout t U with
  | none => pure none
  | some (self, split) =>
    match split.cast U with
    | .ok c => pure (some (self, c))
    | .error _ => .panic

/-- `split_slice`, uninit.rs:596-601 and 180-185. -/
def View.splitSlice (t : Target) (v : View) (U : Layout) : Outcome (Option (View × SliceView)) := do
  match ← v.splitLayout t ⟨0, U.align⟩ with
  | none => pure none
  | some (self, split) =>
    match split.castSlice t U with
    | .ok c => pure (some (self, c))
    | .error _ => .panic

/-- `invent_for_zst`, uninit.rs:609-615 and 193-196. The dangling pointer is at the address of the alignment. -/
def inventForZst (T : Layout) : Outcome View := do
  Outcome.assert (T.size = 0)
  match (fromMemory T.align 0).cast T with
  | .ok v => pure v
  | .error _ => .panic

/-- `from_maybe_uninit`, uninit.rs:209-218 and 646-655, for a reference at the address. -/
def fromMaybeUninit (T : Layout) (addr : Nat) : Outcome View :=
  match (fromMemory addr T.size).cast T with
  | .ok v => .ret v
  | .error _ => .panic
/-- `into_maybe_uninit`, uninit.rs:338-341 and 696-699: a reference to a `T`, i.e. this memory. -/
def View.intoMaybeUninit (v : View) : Region := ⟨v.addr, v.T.size⟩

/-- `init`, uninit.rs:315-329: write a value of the type; the reference returned is to the same memory. -/
def View.init (v : View) (m : Mem) (bytes : List Byte) : Mem × Nat := (writeBytes m v.addr bytes, v.addr)
/-- `read`, uninit.rs:351-353. -/
def View.read (v : View) (m : Mem) : List Byte := readBytes m v.addr v.T.size

/-- `as_ptr`, `as_non_null`, `as_ref`, `as_mut`, `into_ref`, `into_mut` (uninit.rs:265-311, 748-775): memory covered by the referent. -/
def View.referent (v : View) : Region := ⟨v.addr, v.T.size⟩

/-! Slices -/

/-- `empty`, uninit.rs:366-377 and 782-793. -/
def empty (T : Layout) : SliceView := ⟨T.align, 0, T, 0⟩

/-- `from_maybe_uninit_slice`, uninit.rs:380-390 and 796-804, for a slice of `n` elements at the address. -/
def fromMaybeUninitSlice (t : Target) (T : Layout) (addr n : Nat) : Outcome SliceView :=
  match (fromMemory addr (n * T.size)).castSlice t T with
  | .ok v => .ret v
  | .error _ => .panic

/-- `capacity`, uninit.rs:812-816 and 400-402. -/
def SliceView.capacity (t : Target) (v : SliceView) : Nat := if v.T.size = 0 then t.usizeMax else v.len / v.T.size

/-- `split_at`, uninit.rs:819-839 and 407-410. The pointer of `self` keeps its metadata. -/
def SliceView.splitAt (t : Target) (v : SliceView) (at_ : Nat) : Outcome (Option (SliceView × SliceView)) :=
  match Usize.checkedMul t at_ v.T.size with
  | none => .ret none
  | some bytes =>
    if bytes > v.len then .ret none
    else
      let nextLen := v.len - bytes
      let self : SliceView := { v with len := bytes }
      let nextBase := v.addr + bytes
      match (fromMemory nextBase nextLen).castSlice t v.T with
      | .ok other => .ret (some (self, other))
      | .error _ => .panic

/-- `shrink_to_fit`, uninit.rs:848-850 and 419-421. -/
def SliceView.shrinkToFit (t : Target) (v : SliceView) : Outcome (SliceView × View) := do
  match ← v.splitAt t (v.capacity t) with
  | none => .panic
  | some (self, rest) => pure (self, rest.decast)

/-- `split_first`, uninit.rs:853-859 and 426-432. -/
def SliceView.splitFirst (t : Target) (v : SliceView) : Outcome (Option (SliceView × View)) := do
  match ← v.splitAt t 1 with
  | none => pure none
  | some (first, part) =>
    match first.decast.cast v.T with
    | .ok f => pure (some (part, f))
    | .error _ => .panic

/-- `split_last`, uninit.rs:862-868 and 437-443. -/
def SliceView.splitLast (t : Target) (v : SliceView) : Outcome (Option (SliceView × View)) := do
  let split := Usize.wrappingSub t (v.capacity t) 1
  match ← v.splitAt t split with
  | none => pure none
  | some (self, part) =>
    match part.decast.cast v.T with
    | .ok f => pure (some (self, f))
    | .error _ => .panic

/-- `into_maybe_uninit_slice`, uninit.rs:454-461 and 878-885: address and number of elements of the resulting slice. -/
def SliceView.intoMaybeUninitSlice (t : Target) (v : SliceView) : Nat × Nat := (v.addr, v.capacity t)

/-- `as_ptr`, `as_non_null`, `as_ref`, `as_mut`, `into_ref`, `into_mut` (uninit.rs:265-311, 748-775) of a slice: memory covered by the referent. -/
def SliceView.referent (v : SliceView) : Region := ⟨v.addr, v.count * v.T.size⟩

/-- `CoerciblePtr::replace_ptr` (uninit.rs:976-1006) for the coercion `[U; n]` to `[U]`: same address and length, metadata `n`. -/
def View.unsize (v : View) (U : Layout) (n : Nat) : SliceView := ⟨v.addr, v.len, U, n⟩

/-! Derivations -/

/-- Not code of the repository: an auxiliary function of the machine. -/
inductive AnyView where
  | sized (v : View)
  | slice (v : SliceView)
  deriving DecidableEq, Repr

/-- Not code of the repository: the program of the user, any sequence of these. The methods are
those of without-alloc/src/uninit.rs:120-905. -/
inductive VOp where
  | cast (U : Layout) | castSlice (U : Layout) | splitAtByte (n : Nat) | splitToFit | asMemory | unsize (U : Layout) (n : Nat)
  | splitLayout (l : Layout) | splitCast (U : Layout) | splitSlice (U : Layout)
  | splitAt (n : Nat) | shrinkToFit | splitFirst | splitLast
  deriving DecidableEq, Repr

/-- The type has the method, and the arguments are types resp. valid layouts. Not code of the
repository: what the language, or the documented contract of the methods, demands of callers. -/
def VOp.Applies (t : Target) : AnyView → VOp → Prop
  | .sized _, .cast U => U.ValidType t
  | .sized _, .castSlice U => U.ValidType t
  | .sized _, .splitAtByte n => n < t.W
  | .sized _, .splitToFit => True
  | _, .asMemory => True
  | .sized v, .unsize U n => U.ValidType t ∧ v.T = ⟨n * U.size, U.align⟩ ∧ n < t.W
  | .sized v, .splitLayout l => v.T = unit ∧ l.Valid t
  | .sized v, .splitCast U => v.T = unit ∧ U.ValidType t
  | .sized v, .splitSlice U => v.T = unit ∧ U.ValidType t
  | .slice _, .splitAt n => n < t.W
  | .slice _, .shrinkToFit => True
  | .slice _, .splitFirst => True
  | .slice _, .splitLast => True
  | _, _ => False

/-- The views one has after the operation in place of the one it was applied to. Calls of the
public methods; each case cites the method it runs. (without-alloc/src/uninit.rs:120-905.) -/
def VOp.apply (t : Target) : AnyView → VOp → Outcome (List AnyView)
  | .sized v, .cast U => match v.cast U with | .ok w => .ret [.sized w] | .error w => .ret [.sized w]
  | .sized v, .castSlice U => match v.castSlice t U with | .ok w => .ret [.slice w] | .error w => .ret [.sized w]
  | .sized v, .splitAtByte n => match v.splitAtByte n with | some (a, b) => .ret [.sized a, .sized b] | none => .ret [.sized v]
  | .sized v, .splitToFit => do let (a, b) ← v.splitToFit; pure [.sized a, .sized b]
  | .sized v, .asMemory => .ret [.sized v.decast]
  | .slice v, .asMemory => .ret [.sized v.decast]
  | .sized v, .unsize U n => .ret [.slice (v.unsize U n)]
  | .sized v, .splitLayout l => do match ← v.splitLayout t l with | some (a, b) => pure [.sized a, .sized b] | none => pure [.sized v]
  | .sized v, .splitCast U => do match ← v.splitCast t U with | some (a, b) => pure [.sized a, .sized b] | none => pure [.sized v]
  | .sized v, .splitSlice U => do match ← v.splitSlice t U with | some (a, b) => pure [.sized a, .slice b] | none => pure [.sized v]
  | .slice v, .splitAt n => do match ← v.splitAt t n with | some (a, b) => pure [.slice a, .slice b] | none => pure [.slice v]
  | .slice v, .shrinkToFit => do let (a, b) ← v.shrinkToFit t; pure [.slice a, .sized b]
  | .slice v, .splitFirst => do match ← v.splitFirst t with | some (a, b) => pure [.slice a, .sized b] | none => pure [.slice v]
  | .slice v, .splitLast => do match ← v.splitLast t with | some (a, b) => pure [.slice a, .sized b] | none => pure [.slice v]
  | v, _ => .ret [v]

/-- The collections of views that can be derived from the memory by operations satisfying `P`. Not
code of the repository: what programs can reach. -/
inductive Derived (t : Target) (mem : Region) (P : AnyView → VOp → Prop) : List AnyView → Prop
  | init : Derived t mem P [.sized (fromMemory mem.start mem.size)]
  | step {pre post vs : List AnyView} {v : AnyView} {op : VOp} (h : Derived t mem P (pre ++ v :: post)) (ha : op.Applies t v) (hp : P v op)
      (hx : op.apply t v = .ret vs) : Derived t mem P (pre ++ vs ++ post)

end Verif.Uninit
