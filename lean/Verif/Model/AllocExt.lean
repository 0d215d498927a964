import Verif.Model.AllocTraits
import Verif.Model.Unsync
import Verif.Model.FixedVec
import Verif.Model.Rc
/-!
# Model of `without_alloc::alloc` (`/repo/without-alloc/src/alloc.rs`)

The provided methods of `LocalAllocLeakExt`, for an arbitrary allocator `A` in state `s` with memory `m`. Types are given by their layouts, values by their bytes. `LeakedAllocation<T>`
(alloc.rs:16-20) is the `Uninit<T>` it wraps. A result reference is modelled by its address and metadata. All methods return the new state and memory also if they return `None`.
-/
namespace Verif.AllocExt
open Verif AllocTraits Uninit

section
variable {σ : Type}

/-- `alloc_layout`, alloc.rs:30-41. -/
def allocLayout (A : LocalAlloc σ) (s : σ) (m : Mem) (layout : NonZeroLayout) : Outcome (Option View × σ × Mem) := do
  let (r, s, m) ← A.alloc s m layout.toLayout
  match r with
  | none => pure (none, s, m)
  | some alloc => pure (some (fromMemory alloc.ptr alloc.layout.size), s, m)

/-- `LeakedAllocation::zst_fake_alloc`, alloc.rs:258-262. -/
def zstFakeAlloc (V : Layout) : Outcome View := inventForZst V

/-- `LeakedAllocation::cast`, alloc.rs:265-269. -/
def cast (v : View) (U : Layout) : Option View :=
  match v.cast U with
  | .ok w => some w
  | .error _ => none
/-- `LeakedAllocation::cast_slice`, alloc.rs:271-275. -/
def castSlice (t : Target) (v : View) (U : Layout) : Option SliceView :=
  match v.castSlice t U with
  | .ok w => some w
  | .error _ => none

/-- The operator `?` on an `Option`, then the rest of the function. Not code of the repository: the
semantics of the Rust language. -/
def orNone {α β : Type} (x : Option α × σ × Mem) (f : α → σ → Mem → Outcome (Option β × σ × Mem)) : Outcome (Option β × σ × Mem) :=
  match x with
  | (none, s, m) => .ret (none, s, m)
  | (some a, s, m) => f a s m

/-- `alloc_t`, alloc.rs:65-74. -/
def allocT (A : LocalAlloc σ) (s : σ) (m : Mem) (V : Layout) : Outcome (Option View × σ × Mem) :=
  match NonZeroLayout.new V with
  | none => do
    let v ← zstFakeAlloc V
    pure (some v, s, m)
  | some alloc => do
    let x ← allocLayout A s m alloc
    orNone x fun (allocation : View) s m => do
      let rightType ← Outcome.unwrap (cast allocation V)
      pure (some rightType, s, m)

/-- `boxed`, alloc.rs:82-85, with `Box::new` (boxed.rs:100-106), for a value of these bytes. -/
def boxed (A : LocalAlloc σ) (s : σ) (m : Mem) (V : Layout) (bytes : List Byte) : Outcome (Option View × σ × Mem) := do
  let x ← allocT A s m V
  orNone x fun (alloc : View) s m => pure (some alloc, s, (alloc.init m bytes).1)

/-- The memory for a slice of `n` elements in `fixed_vec` (alloc.rs:98-105) and `copy_slice` (alloc.rs:140-147), from its layout. -/
def sliceMemory (t : Target) (A : LocalAlloc σ) (s : σ) (m : Mem) (V layout : Layout) : Outcome (Option SliceView × σ × Mem) :=
  match NonZeroLayout.fromLayout layout with
  | none => .ret (some (Uninit.empty V), s, m)
  | some layout => do
    let x ← allocLayout A s m layout
    orNone x fun (allocation : View) s m => do
      let rightType ← Outcome.unwrap (castSlice t allocation V)
      pure (some rightType, s, m)

/-- `fixed_vec`, alloc.rs:94-108. -/
def fixedVec (t : Target) (A : LocalAlloc σ) (s : σ) (m : Mem) (V : Layout) (capacity : Nat) : Outcome (Option FVec.FixedVec × σ × Mem) :=
  match Usize.checkedMul t V.size capacity with
  | none => .ret (none, s, m)
  | some size =>
    match layoutFromSizeAlign t size V.align with
    | none => .ret (none, s, m)
    | some layout => do
      let x ← sliceMemory t A s m V layout
      orNone x fun (uninit : SliceView) s m => pure (some (FVec.FixedVec.new uninit), s, m)

/-- Addresses of the fields of an `RcBox<V>` at the address (`#[repr(C)]`, rc.rs:58-73). -/
def strongAddr (t : Target) (V : Layout) (addr : Nat) : Nat := addr + (reprCOffsets 0 (RcM.fields t V)).getD 1 0
/-- Address of the field `weak`, without-alloc/src/rc.rs:59-71. -/
def weakAddr (t : Target) (V : Layout) (addr : Nat) : Nat := addr + (reprCOffsets 0 (RcM.fields t V)).getD 2 0

/-- `rc`, alloc.rs:116-122, with `Rc::new` (rc.rs:101-114): the fields are stored one after the other, padding is left. -/
def rc (t : Target) (A : LocalAlloc σ) (s : σ) (m : Mem) (V : Layout) (bytes : List Byte) : Outcome (Option View × σ × Mem) := do
  let layout := RcM.rcLayout t V
  let layout ← Outcome.unwrap (NonZeroLayout.fromLayout layout)
  let x ← allocLayout A s m layout
  orNone x fun (alloc : View) s m => do
    let memory ← RcM.newView t V alloc
    let m := writeBytes m memory.addr bytes
    let m := storeUsize t m (strongAddr t V memory.addr) 1
    let m := storeUsize t m (weakAddr t V memory.addr) 1
    pure (some memory, s, m)

/-- `core::ptr::copy` of bytes. -/
def ptrCopy (m : Mem) (src dst n : Nat) : Mem := writeBytes m dst (readBytes m src n)

/-- `copy_slice`, alloc.rs:138-161, of `n` elements at `src`: address and length of the returned slice. -/
def copySlice (t : Target) (A : LocalAlloc σ) (s : σ) (m : Mem) (T : Layout) (src n : Nat) : Outcome (Option (Nat × Nat) × σ × Mem) := do
  let layout : Layout := ⟨n * T.size, T.align⟩
  let x ← sliceMemory t A s m T layout
  orNone x fun (uninit : SliceView) s m => pure (some (uninit.addr, uninit.count), s, ptrCopy m src uninit.addr (n * T.size))

/-- Layout of `u8`. Not code of the repository: the semantics of the Rust language. -/
def u8 : Layout := ⟨1, 1⟩
/-- `copy_str`, alloc.rs:177-184, of a string of `n` bytes. -/
def copyStr (t : Target) (A : LocalAlloc σ) (s : σ) (m : Mem) (src n : Nat) : Outcome (Option (Nat × Nat) × σ × Mem) := do
  let x ← copySlice t A s m u8 src n
  orNone x fun (bytes : Nat × Nat) s m => pure (some bytes, s, m)

/-- The memory for `copy_dst`, alloc.rs:226-229. -/
def dstMemory (A : LocalAlloc σ) (s : σ) (m : Mem) (layout : Layout) : Outcome (Option View × σ × Mem) :=
  match NonZeroLayout.fromLayout layout with
  | none => do
    let v ← inventForZst unit
    pure (some v, s, m)
  | some layout => allocLayout A s m layout

/-- `copy_dst`, alloc.rs:224-246 (feature `nightly_set_ptr_value`), of a value of the layout at `src`, whose pointer has this metadata: address and metadata of the returned reference. -/
def copyDst (A : LocalAlloc σ) (s : σ) (m : Mem) (layout : Layout) (src metadata : Nat) : Outcome (Option (Nat × Nat) × σ × Mem) := do
  let x ← dstMemory A s m layout
  orNone x fun (uninit : View) s m => pure (some (uninit.addr, metadata), s, ptrCopy m src uninit.addr layout.size)

end
end Verif.AllocExt
