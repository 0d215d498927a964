import Verif.Model.Rust
/-!
# Model of the crate `unsize` and the impls of `CoerciblePtr` (`/repo/unsize/src/lib.rs`, `/repo/unsize/src/alloc_impls.rs`, `/repo/without-alloc/src/{uninit,boxed}.rs`)

One value of type `T` and one pointer(-like) handle to it. A pointer is an address, a provenance tag and metadata words. For the provenance there is a simplified version of Stacked Borrows with one stack for the
memory of the value: each item has a tag and a permission; a write access through a tag removes all items above it, a read access removes the unique ones above it; access with a tag which is not in the stack (or the permission is missing) is
undefined. (In Stacked Borrows a write through a shared-mutable item keeps adjacent ones: the model is stricter.) Tags also have a range of memory they are valid for.
The std smart pointers (`Box`, `Rc`, `Arc`, their `Weak`) are modelled as far as `into_raw`/`from_raw`/`as_ptr`/`Deref` go. Lifetimes are not modelled.
-/
namespace Verif.Unsize
open Verif

/-- A sized type: layout and identity (for the vtable), or an array. Not code of the repository:
the semantics of the Rust language. -/
inductive Ty where
  | named (id : Nat) (layout : Layout)
  | array (elem : Nat) (elemLayout : Layout) (n : Nat)
  deriving DecidableEq, Repr

/-- `Layout::new::<T>()`. Not code of the repository: the semantics of the Rust language. -/
def Ty.layout : Ty → Layout
  | named _ l => l
  | array _ l n => ⟨l.size * n, l.align⟩

/-- Metadata word of a pointer: vtable of this type for a trait, or the length of a slice. Not code
of the repository: the semantics of the Rust language. -/
inductive Meta where
  | vtable (ty : Ty) (trt : Nat)
  | len (elem : Nat) (elemLayout : Layout) (n : Nat)
  deriving DecidableEq, Repr

/-- A pointer: address, provenance tag, words behind the address (none if the pointee is sized).
Not code of the repository: the semantics of the Rust language. -/
structure Ptr where
  addr : Nat
  tag : Nat
  extra : List Meta
  deriving DecidableEq, Repr

/-- Permission of an item in the borrow stack: `Unique`, `SharedReadWrite`, `SharedReadOnly`. Not
code of the repository: the semantics of the Rust language. -/
inductive Perm where
  | unique | rw | ro
  deriving DecidableEq, Repr

/-- Borrow stack (top first) of the value, range of each tag, next fresh tag; the counts of
`Rc`/`Arc`; how often the value was dropped; whether access with a missing tag happened. Not code
of the repository: the state that the program of the user and the library have together. -/
structure World where
  stack : List (Nat × Perm)
  range : Nat → Region
  next : Nat
  strong : Nat
  weak : Nat
  drops : Nat

/-- Read access: unique items above the granting one are removed. Not code of the repository: the
semantics of the Rust language. -/
def World.read (w : World) (tag : Nat) : Outcome World :=
  if tag ∈ w.stack.map Prod.fst then
    .ret { w with stack := (w.stack.takeWhile (fun i => i.1 != tag)).filter (fun i => i.2 != .unique) ++ w.stack.dropWhile (fun i => i.1 != tag) }
  else .ub

/-- Write access: all items above the granting one are removed. Not code of the repository: the
semantics of the Rust language. -/
def World.write (w : World) (tag : Nat) : Outcome World :=
  match w.stack.dropWhile (fun i => i.1 != tag) with
  | (x, .ro) :: _ => let _ := x; .ub
  | i :: rest => .ret { w with stack := i :: rest }
  | [] => .ub

/-- Retag (reborrow) of memory: access with the parent, then a new tag on top, valid for `r`. Not
code of the repository: the semantics of the Rust language. -/
def World.retag (w : World) (tag : Nat) (perm : Perm) (r : Region) : Outcome (Nat × World) := do
  let w ← if perm = .ro then w.read tag else w.write tag
  pure (w.next, { w with stack := (w.next, perm) :: w.stack, range := fun x => if x = w.next then r else w.range x, next := w.next + 1 })

/-- Kinds of handles with an impl of `CoerciblePtr`. unsize/src/lib.rs:32-120,
unsize/src/alloc_impls.rs:1-66, without-alloc/src/uninit.rs:976-1006,
without-alloc/src/boxed.rs:85-96. -/
inductive Kind where
  | constPtr | mutPtr | sharedRef | mutRef | nonNull      -- unsize/src/lib.rs:37-119
  | box | rc | arc | weakRc | weakArc                     -- unsize/src/alloc_impls.rs
  | uninitView | uninit | wbox                            -- without-alloc/src/uninit.rs:976-1006, boxed.rs:85-96
  | pin (inner : Kind)                                    -- unsize/src/lib.rs:92-107
  deriving DecidableEq, Repr

/-- A handle. `len`: the bytes of an `Uninit` or `UninitView`. Not code of the repository: the
semantics of the Rust language. -/
structure Handle where
  kind : Kind
  ptr : Ptr
  len : Nat
  deriving DecidableEq, Repr

/-- Memory of a value of this type at the pointer. Not code of the repository: the semantics of the
Rust language. -/
def valueAt (ty : Ty) (addr : Nat) : Region := ⟨addr, ty.layout.size⟩

/-- `Deref::deref` of the pointer and of `Rc`, `Arc`, `Box`: a shared reference. Not code of the
repository: the library core, as documented. -/
def derefShared (w : World) (ty : Ty) (h : Handle) : Outcome (Ptr × World) := do
  let (tag, w) ← w.retag h.ptr.tag .ro (valueAt ty h.ptr.addr)
  pure (⟨h.ptr.addr, tag, []⟩, w)

/-- `DerefMut::deref_mut` of the pointers which can be in `Pin`: a mutable reference (boxed.rs:175-181 for `without_alloc::Box`). -/
def derefMut (w : World) (ty : Ty) (h : Handle) : Outcome (Ptr × World) := do
  let (tag, w) ← w.retag h.ptr.tag .unique (valueAt ty h.ptr.addr)
  pure (⟨h.ptr.addr, tag, []⟩, w)

/-- `as_sized_ptr` of the impls.
`*const T`, `*mut T`: lib.rs:40-42, 52-54; `&T`: lib.rs:64-66; `&mut T`: lib.rs:77-79; `Pin`: lib.rs:99-101; `NonNull`: lib.rs:112-114;
`Box`, `Rc`, `Arc`: alloc_impls.rs:14-18; `Weak`: alloc_impls.rs:49-60, 63-66 (`as_ptr` does not make a reference);
`UninitView`, `Uninit`: uninit.rs:979-981, 995-997; `Box`: boxed.rs:88-90. -/
def asSizedPtr (w : World) (ty : Ty) (h : Handle) : Outcome (Ptr × World) :=
  match h.kind with
  | .constPtr | .mutPtr | .nonNull | .weakRc | .weakArc | .uninitView | .uninit | .wbox => pure (⟨h.ptr.addr, h.ptr.tag, []⟩, w)
  | .sharedRef | .box | .rc | .arc => derefShared w ty h
  | .mutRef | .pin _ => derefMut w ty h

/-- A coercion: `FnOnce(*const T) -> *const U`. unsize/src/lib.rs:124-128. -/
abbrev Coerce := Ptr → Ptr

/-- `unsize_with`, lib.rs:495-525. `debug`: `debug_assert`s are enabled. The assertion: a pointer to `U` has two words. -/
def unsizeWith (debug : Bool) (ptr : Ptr) (coerce : Coerce) : Outcome Ptr := do
  let raw := coerce ptr
  Outcome.assert (raw.extra.length + 1 = 2)
  Outcome.assert (debug = true → raw.addr = ptr.addr)
  -- `ptr_slot.write(ptr)`: overwrites the first word
  pure { raw with addr := ptr.addr, tag := ptr.tag }

/-- Passing a reference or `Box` as an argument by value retags it. Not code of the repository: the
semantics of the Rust language. -/
def passByValue (w : World) (ty : Ty) (h : Handle) : Outcome (Handle × World) :=
  match h.kind with
  | .mutRef | .box => do
    let (tag, w) ← w.retag h.ptr.tag .unique (valueAt ty h.ptr.addr)
    pure ({ h with ptr := { h.ptr with tag := tag } }, w)
  | .sharedRef => do
    let (tag, w) ← w.retag h.ptr.tag .ro (valueAt ty h.ptr.addr)
    pure ({ h with ptr := { h.ptr with tag := tag } }, w)
  | _ => pure (h, w)

/-- `replace_ptr` of the impls except `Pin`. unsize/src/lib.rs:37-120,
unsize/src/alloc_impls.rs:8-66, without-alloc/src/uninit.rs:976-1006,
without-alloc/src/boxed.rs:85-96; each case cites its lines. -/
def replacePtrBase (debug : Bool) (w : World) (ty : Ty) (h : Handle) (new : Ptr) : Outcome (Handle × World) := do
  let (h, w) ← passByValue w ty h
  match h.kind with
  | .constPtr | .mutPtr =>
    -- lib.rs:43-46, 55-58: `unsize_with(self, |_| new)`
    let p ← unsizeWith debug ⟨h.ptr.addr, h.ptr.tag, []⟩ (fun _ => new)
    pure ({ h with ptr := p }, w)
  | .sharedRef =>
    -- lib.rs:67-70: `&*unsize_with(self as *const T as *mut T, |_| new)`
    let (raw, w) ← w.retag h.ptr.tag .ro (valueAt ty h.ptr.addr)
    let p ← unsizeWith debug ⟨h.ptr.addr, raw, []⟩ (fun _ => new)
    let (tag, w) ← w.retag p.tag .ro (valueAt ty p.addr)
    pure ({ h with ptr := { p with tag := tag } }, w)
  | .mutRef =>
    -- lib.rs:80-89: `&mut *unsize_with(self, |_| new)`
    let (raw, w) ← w.retag h.ptr.tag .rw (valueAt ty h.ptr.addr)
    let p ← unsizeWith debug ⟨h.ptr.addr, raw, []⟩ (fun _ => new)
    let (tag, w) ← w.retag p.tag .unique (valueAt ty p.addr)
    pure ({ h with ptr := { p with tag := tag } }, w)
  | .nonNull =>
    -- lib.rs:115-118: `NonNull::new_unchecked(new)`
    pure ({ h with ptr := new }, w)
  | .box =>
    -- alloc_impls.rs:26-41: `Box::into_raw` gives a raw pointer, `Box::from_raw` a `Box`
    let (raw, w) ← w.retag h.ptr.tag .rw (valueAt ty h.ptr.addr)
    let p ← unsizeWith debug ⟨h.ptr.addr, raw, []⟩ (fun _ => new)
    let (tag, w) ← w.retag p.tag .unique (valueAt ty p.addr)
    pure ({ h with ptr := { p with tag := tag } }, w)
  | .rc | .arc | .weakRc | .weakArc =>
    -- alloc_impls.rs:26-41: `into_raw` forgets `self` (counts unchanged) and gives the raw pointer of the allocation, `from_raw` takes it back
    let p ← unsizeWith debug ⟨h.ptr.addr, h.ptr.tag, []⟩ (fun _ => new)
    pure ({ h with ptr := p }, w)
  | .uninitView | .uninit =>
    -- uninit.rs:982-988, 999-1005: keeps the length
    Outcome.assert (debug = true → h.ptr.addr = new.addr)
    pure ({ h with ptr := new }, w)
  | .wbox =>
    -- boxed.rs:91-95: `into_raw` (the destructor does not run), `replace_ptr` of `Uninit`, `from_raw`
    Outcome.assert (debug = true → h.ptr.addr = new.addr)
    pure ({ h with ptr := new }, w)
  | .pin _ => .ub -- not used

/-- `replace_ptr`; `Pin`: lib.rs:102-106. -/
def replacePtr (debug : Bool) (w : World) (ty : Ty) (new : Ptr) : Kind → Ptr → Nat → Outcome (Handle × World)
  | .pin k, ptr, len => do
    let (h, w) ← replacePtr debug w ty new k ptr len
    pure ({ h with kind := .pin h.kind }, w)
  | k, ptr, len => replacePtrBase debug w ty ⟨k, ptr, len⟩ new

/-- `CoerceUnsized::unsize`, lib.rs:461-470. -/
def unsize (debug : Bool) (w : World) (ty : Ty) (h : Handle) (coerce : Coerce) : Outcome (Handle × World) := do
  let (ptr, w) ← asSizedPtr w ty h
  let new ← unsizeWith debug ptr coerce
  replacePtr debug w ty new h.kind h.ptr h.len

/-- The pre-built coercions to trait objects: `to_any`, `to_debug`, `to_display`, `to_fn*`, `to_iterator`, `to_future` (lib.rs:157-176, used until 412) and the macro `Coercion!` (lib.rs:556-570). -/
def toDyn (ty : Ty) (trt : Nat) : Coerce := fun p => ⟨p.addr, p.tag, [.vtable ty trt]⟩
/-- `Coercion::to_slice`, lib.rs:244-265, for `[T; N]`. -/
def toSlice (elem : Nat) (elemLayout : Layout) (n : Nat) : Coerce := fun p => ⟨p.addr, p.tag, [.len elem elemLayout n]⟩

end Verif.Unsize
