import Verif.Spec.Borrows
/-! # The pointers of `FixedVec`

`without-alloc/src/fixed_vec.rs` again, now with the provenance of each pointer: which accesses and references the functions make, with which
pointer. Values are not modelled (see `Model/FixedVec`, `Model/FixedVecBytes`); memory is the bytes with their borrow stacks (`Spec/Borrows`).
`sz` is the size of an element. The fields of the vector itself lie elsewhere and its pointer is a raw one (`NonNull`), so `&mut self` does not
retag the elements. `none`: undefined behaviour. Simplified: the check of `push` for a length of `usize::MAX` (uninit.rs, matters to zero-sized elements
only, which have no bytes) and `shrink_to_fit`, `from_unaligned` are not part of it. -/
set_option autoImplicit false
namespace Verif.VecBorrows
open Verif.Borrows

/-- A raw pointer: its provenance and its address. Not code of the repository: `*mut T` of the language. -/
structure Ptr where
  tag : Nat
  off : Nat
  deriving DecidableEq, Repr

/-- `ptr.add(i)`. Not code of the repository: of the language. -/
def Ptr.add (p : Ptr) (sz i : Nat) : Ptr := ⟨p.tag, p.off + i * sz⟩

/-- `Uninit<[T]>`: pointer and number of elements (without-alloc/src/uninit.rs:27-60, 396, 400). -/
structure Buf where
  ptr : Ptr
  cap : Nat
  deriving DecidableEq, Repr

/-- `Uninit::split_at` (uninit.rs:404-409, 815-846): the front and the rest, if there are that many elements. Only pointer arithmetic, no references. -/
def Buf.splitAt (sz : Nat) (b : Buf) (n : Nat) : Option (Buf × Buf) :=
  if n ≤ b.cap then some (⟨b.ptr, n⟩, ⟨b.ptr.add sz n, b.cap - n⟩) else none

/-- `Uninit::split_first` (uninit.rs:425-440): pointer to the first element. -/
def Buf.first (b : Buf) : Option Ptr := if b.cap = 0 then none else some b.ptr

/-- `Uninit::split_last` (uninit.rs:442-457): pointer to the last element. -/
def Buf.last (sz : Nat) (b : Buf) : Option Ptr := if b.cap = 0 then none else some (b.ptr.add sz (b.cap - 1))

/-- `Drain` (fixed_vec.rs:66-79). `stop` is the field `end`. -/
structure Drain where
  start : Nat
  stop : Nat
  tail : Nat
  tailLen : Nat
  elements : Ptr
  deriving DecidableEq, Repr

/-- `FixedVec` (fixed_vec.rs:59-62), whether it still exists, which vectors it is borrowed from (`split_borrowed`), and the `Drain` that borrows it. -/
structure Vec where
  uninit : Buf
  length : Nat
  alive : Bool
  from_ : List Nat
  drain : Option Drain
  deriving DecidableEq, Repr

/-- `ptr::read` (language). Not code of the repository: reads one element. -/
def readElem (sz : Nat) (p : Ptr) (m : Mem) : Option Mem := m.access .read p.tag p.off (p.off + sz)
/-- `ptr::write` (language). Not code of the repository: writes one element. -/
def writeElem (sz : Nat) (p : Ptr) (m : Mem) : Option Mem := m.access .write p.tag p.off (p.off + sz)

/-- `ptr::drop_in_place` of one element. Not code of the repository: the destructor gets a `&mut` to the value, and may read and write it. -/
def dropElem (sz : Nat) (p : Ptr) (m : Mem) : Option Mem := do
  let (t, m) ← m.retag true p.tag p.off (p.off + sz)
  let m ← readElem sz ⟨t, p.off⟩ m
  writeElem sz ⟨t, p.off⟩ m

/-- `as_mut_ptr` (fixed_vec.rs:427-429). -/
def asMutPtr (v : Vec) : Ptr := v.uninit.ptr
/-- `end_mut_ptr` (fixed_vec.rs:431-433). -/
def endMutPtr (sz : Nat) (v : Vec) : Ptr := (asMutPtr v).add sz v.length
/-- `head_tail_mut` (fixed_vec.rs:411-417). -/
def headTailMut (sz : Nat) (v : Vec) : Option (Buf × Buf) := v.uninit.splitAt sz v.length

/-- `as_slice` (fixed_vec.rs:157-162): the tag of the reference. -/
def asSlice (sz : Nat) (v : Vec) (m : Mem) : Option (Nat × Mem) :=
  m.retag false v.uninit.ptr.tag v.uninit.ptr.off (v.uninit.ptr.off + v.length * sz)
/-- `as_mut_slice` (fixed_vec.rs:165-172). -/
def asMutSlice (sz : Nat) (v : Vec) (m : Mem) : Option (Nat × Mem) :=
  m.retag true v.uninit.ptr.tag v.uninit.ptr.off (v.uninit.ptr.off + v.length * sz)

/-- `push` (fixed_vec.rs:237-251) with `Uninit::init` (uninit.rs:315-327): writes, makes a `&mut` (unused). -/
def push (sz : Nat) (v : Vec) (m : Mem) : Option (Vec × Mem) :=
  match headTailMut sz v with
  | none => some (v, m)
  | some (_, tail) =>
    match tail.first with
    | none => some (v, m)
    | some p => do
      let m ← writeElem sz p m
      let (_, m) ← m.retag true p.tag p.off (p.off + sz)
      pure ({ v with length := v.length + 1 }, m)

/-- `pop` (fixed_vec.rs:258-272). -/
def pop (sz : Nat) (v : Vec) (m : Mem) : Option (Vec × Mem) :=
  if v.length = 0 then some (v, m) else
  match headTailMut sz v with
  | none => some (v, m)
  | some (head, _) =>
    match head.last sz with
    | none => some (v, m)
    | some p => do
      let m ← readElem sz p m
      pure ({ v with length := v.length - 1 }, m)

/-- The loop of `truncate` (fixed_vec.rs:141-148): `n` destructors from the end backwards. -/
def dropBack (sz : Nat) : Nat → Ptr → Mem → Option Mem
  | 0, _, m => some m
  | n + 1, p, m => do
    let p : Ptr := ⟨p.tag, p.off - sz⟩
    let m ← dropElem sz p m
    dropBack sz n p m

/-- `truncate` (fixed_vec.rs:121-149), `clear` (fixed_vec.rs:175-177) for `len = 0`. `ran` bounds how many destructors are run: fewer than needed when the last of them panics, the length is stored all the same. -/
def truncate (sz : Nat) (v : Vec) (len ran : Nat) (m : Mem) : Option (Vec × Mem) := do
  let n := min (v.length - len) ran
  let m ← dropBack sz n (endMutPtr sz v) m
  pure ({ v with length := v.length - n }, m)

/-- `fill` (fixed_vec.rs:340-360), `extend` (fixed_vec.rs:684-693): the iterator gives `n` items that are asked for, until it ends or panics. -/
def fill (sz : Nat) : Nat → Vec → Mem → Option (Vec × Mem)
  | 0, v, m => some (v, m)
  | n + 1, v, m =>
    if v.length < v.uninit.cap then do
      let m ← writeElem sz (endMutPtr sz v) m
      fill sz n { v with length := v.length + 1 } m
    else some (v, m)

/-- Destructors of `n` elements in order through the pointer. Not code of the repository: drop glue of slices. -/
def dropForward (sz : Nat) : Nat → Ptr → Mem → Option Mem
  | 0, _, m => some m
  | n + 1, p, m => do
    let m ← dropElem sz p m
    dropForward sz n (p.add sz 1) m

/-- `Drop for FixedVec` (fixed_vec.rs:525-531). A slice drops its other elements also when a destructor panics. -/
def dropVec (sz : Nat) (v : Vec) (m : Mem) : Option (Vec × Mem) := do
  let (t, m) ← asMutSlice sz v m
  let m ← dropForward sz v.length ⟨t, v.uninit.ptr.off⟩ m
  pure ({ v with alive := false }, m)

/-- `split_borrowed` (fixed_vec.rs:285-294): the vector (number `k`) keeps its capacity and is borrowed by the new one. `none`: panic. -/
def splitBorrowed (sz k : Nat) (v : Vec) (n : Nat) : Option (Vec × Vec) :=
  match v.uninit.splitAt sz n with
  | none => none
  | some (_, rest) => some ({ v with length := v.length - (v.length - n) }, ⟨rest, v.length - n, true, k :: v.from_, none⟩)

/-- `split_and_shrink_to` (fixed_vec.rs:309-320): two independent vectors. `none`: panic. -/
def splitShrink (sz : Nat) (v : Vec) (n : Nat) : Option (Vec × Vec) :=
  match v.uninit.splitAt sz n with
  | none => none
  | some (front, rest) => some ({ v with uninit := front, length := v.length - (v.length - n) }, ⟨rest, v.length - n, true, v.from_, none⟩)

/-- `drain` (fixed_vec.rs:369-409) for the range from `a` below `b`; out of range it panics, nothing happened. -/
def drain (sz : Nat) (v : Vec) (a b : Nat) : Vec :=
  if a ≤ b ∧ b ≤ v.length then
    { v with length := a, drain := some ⟨0, b - a, b - a, v.length - b, (asMutPtr v).add sz a⟩ }
  else v

/-- `Drain::next` (fixed_vec.rs:624-637). -/
def drainNext (sz : Nat) (d : Drain) (m : Mem) : Option (Drain × Mem) :=
  if d.start = d.stop then some (d, m) else do
    let m ← readElem sz (d.elements.add sz d.start) m
    pure ({ d with start := d.start + 1 }, m)

/-- `Drain::next_back` (fixed_vec.rs:645-658). -/
def drainNextBack (sz : Nat) (d : Drain) (m : Mem) : Option (Drain × Mem) :=
  if d.start = d.stop then some (d, m) else do
    let m ← readElem sz (d.elements.add sz (d.stop - 1)) m
    pure ({ d with stop := d.stop - 1 }, m)

/-- `Drain::as_slice`, `as_mut_slice` (fixed_vec.rs:477-500). -/
def drainSlice (sz : Nat) (mutable : Bool) (d : Drain) (m : Mem) : Option (Nat × Mem) :=
  let p := d.elements.add sz d.start
  m.retag mutable p.tag p.off (p.off + (d.stop - d.start) * sz)

/-- `self.for_each(drop)` (fixed_vec.rs:669): takes up to `n` elements out. -/
def drainSome (sz : Nat) : Nat → Drain → Mem → Option (Drain × Mem)
  | 0, d, m => some (d, m)
  | n + 1, d, m => do
    let (d, m) ← drainNext sz d m
    drainSome sz n d m

/-- `Drop for Drain` (fixed_vec.rs:667-681). `ran` bounds how many elements are taken out: if fewer than there are then a destructor panicked and the tail is not restored. -/
def drainDrop (sz : Nat) (v : Vec) (d : Drain) (ran : Nat) (m : Mem) : Option (Vec × Mem) := do
  let (d, m) ← drainSome sz (min ran (d.stop - d.start)) d m
  if d.start = d.stop ∧ d.tailLen ≠ 0 then
    let src := d.elements.add sz d.tail
    let m ← m.access .read src.tag src.off (src.off + d.tailLen * sz)
    let m ← m.access .write d.elements.tag d.elements.off (d.elements.off + d.tailLen * sz)
    pure ({ v with length := v.length + d.tailLen, drain := none }, m)
  else pure ({ v with drain := none }, m)

/-! ### Programs -/

/-- A reference of the program into the memory: its tag, whether it is `&mut`, the bytes, the vector it was borrowed from, the tags of the references it was reborrowed from. Not code of the repository. -/
structure Ref where
  tag : Nat
  mutable : Bool
  lo : Nat
  hi : Nat
  owner : Nat
  from_ : List Nat
  deriving DecidableEq, Repr

/-- A result of `as_mut_ptr`/`as_ptr` the program has kept, with the capacity in bytes. Not code of the repository. -/
structure Raw where
  ptr : Ptr
  size : Nat
  deriving DecidableEq, Repr

/-- Memory, vectors, references that the borrow checker lets the program use, raw pointers. Not code of the repository. -/
structure St where
  mem : Mem
  vecs : List Vec
  refs : List Ref
  raws : List Raw

/-- The references that remain usable when the one with tag `t`, reborrowed from those in `from_`, is used for an access of these bytes: itself, those it was reborrowed from, those to other bytes, and for reading the shared ones. Not code of the repository: the borrow checker. -/
def keepRefs (a : Access) (t : Nat) (from_ : List Nat) (lo hi : Nat) (refs : List Ref) : List Ref :=
  refs.filter (fun q => q.tag == t || from_.contains q.tag || decide (q.hi ≤ lo ∨ hi ≤ q.lo ∨ hi ≤ lo) || (a == .read && !q.mutable))

/-- Use of the vector by `&mut` ends all references to its elements. Not code of the repository: the borrow checker. -/
def endRefs (k : Nat) (refs : List Ref) : List Ref := refs.filter (fun q => q.owner != k)

/-- Use of the vector by `&` ends the mutable references to its elements. Not code of the repository: the borrow checker. -/
def endMutRefs (k : Nat) (refs : List Ref) : List Ref := refs.filter (fun q => q.owner != k || !q.mutable)

/-- What a program can do. Not code of the repository. -/
inductive Act where
  | asSlice (k : Nat)
  | asMutSlice (k : Nat)
  | asMutPtr (k : Nat)
  | push (k : Nat)
  | pop (k : Nat)
  | truncate (k len ran : Nat)
  | fill (k n : Nat)
  | setLen (k n : Nat)
  | splitBorrowed (k n : Nat)
  | splitShrink (k n : Nat)
  | drop (k : Nat)
  | forget (k : Nat)
  | drain (k a b : Nat)
  | drainNext (k : Nat)
  | drainNextBack (k : Nat)
  | drainSlice (k : Nat) (mutable : Bool)
  | drainDrop (k ran : Nat)
  | drainForget (k : Nat)
  | use (r : Ref) (a : Access) (lo hi : Nat)
  | reborrow (r : Ref) (mutable : Bool) (lo hi : Nat)
  | useRaw (p : Raw) (a : Access) (lo hi : Nat)
  deriving DecidableEq, Repr

/-- Replaces the vector; its references end. Not code of the repository. -/
def St.setVec (s : St) (k : Nat) (v : Vec) (m : Mem) : St := { s with mem := m, vecs := s.vecs.set k v, refs := endRefs k s.refs }

/-- One action of the program: the calls of the functions above, and the bookkeeping of references. Not code of the repository. `none` is undefined behaviour. -/
def step (sz : Nat) (s : St) : Act → Option St
  | .asSlice k => match s.vecs[k]? with
    | none => some s
    | some v => do
      let (t, m) ← asSlice sz v s.mem
      pure { s with mem := m, refs := ⟨t, false, v.uninit.ptr.off, v.uninit.ptr.off + v.length * sz, k, []⟩ :: endMutRefs k s.refs }
  | .asMutSlice k => match s.vecs[k]? with
    | none => some s
    | some v => do
      let (t, m) ← asMutSlice sz v s.mem
      pure { s with mem := m, refs := ⟨t, true, v.uninit.ptr.off, v.uninit.ptr.off + v.length * sz, k, []⟩ :: endRefs k s.refs }
  | .asMutPtr k => match s.vecs[k]? with
    | none => some s
    | some v => some { s with raws := ⟨asMutPtr v, v.uninit.cap * sz⟩ :: s.raws, refs := endRefs k s.refs }
  | .push k => match s.vecs[k]? with
    | none => some s
    | some v => do let (v, m) ← push sz v s.mem; pure (s.setVec k v m)
  | .pop k => match s.vecs[k]? with
    | none => some s
    | some v => do let (v, m) ← pop sz v s.mem; pure (s.setVec k v m)
  | .truncate k len ran => match s.vecs[k]? with
    | none => some s
    | some v => do let (v, m) ← truncate sz v len ran s.mem; pure (s.setVec k v m)
  | .fill k n => match s.vecs[k]? with
    | none => some s
    | some v => do let (v, m) ← fill sz n v s.mem; pure (s.setVec k v m)
  | .setLen k n => match s.vecs[k]? with
    | none => some s
    | some v => some (s.setVec k { v with length := n } s.mem)
  | .splitBorrowed k n => match s.vecs[k]? with
    | none => some s
    | some v => match splitBorrowed sz k v n with
      | none => some (s.setVec k v s.mem)
      | some (v, new) => some { s.setVec k v s.mem with vecs := s.vecs.set k v ++ [new] }
  | .splitShrink k n => match s.vecs[k]? with
    | none => some s
    | some v => match splitShrink sz v n with
      | none => some (s.setVec k v s.mem)
      | some (v, new) => some { s.setVec k v s.mem with vecs := s.vecs.set k v ++ [new] }
  | .drop k => match s.vecs[k]? with
    | none => some s
    | some v => do let (v, m) ← dropVec sz v s.mem; pure (s.setVec k v m)
  | .forget k => match s.vecs[k]? with
    | none => some s
    | some v => some (s.setVec k { v with alive := false } s.mem)
  | .drain k a b => match s.vecs[k]? with
    | none => some s
    | some v => some (s.setVec k (drain sz v a b) s.mem)
  | .drainNext k => match s.vecs[k]? with
    | none => some s
    | some v => match v.drain with
      | none => some s
      | some d => do let (d, m) ← drainNext sz d s.mem; pure (s.setVec k { v with drain := some d } m)
  | .drainNextBack k => match s.vecs[k]? with
    | none => some s
    | some v => match v.drain with
      | none => some s
      | some d => do let (d, m) ← drainNextBack sz d s.mem; pure (s.setVec k { v with drain := some d } m)
  | .drainSlice k mutable => match s.vecs[k]? with
    | none => some s
    | some v => match v.drain with
      | none => some s
      | some d => do
        let (t, m) ← drainSlice sz mutable d s.mem
        let p := d.elements.add sz d.start
        pure { s with mem := m, refs := ⟨t, mutable, p.off, p.off + (d.stop - d.start) * sz, k, []⟩ :: (if mutable then endRefs k s.refs else endMutRefs k s.refs) }
  | .drainDrop k ran => match s.vecs[k]? with
    | none => some s
    | some v => match v.drain with
      | none => some s
      | some d => do let (v, m) ← drainDrop sz v d ran s.mem; pure (s.setVec k v m)
  | .drainForget k => match s.vecs[k]? with
    | none => some s
    | some v => some (s.setVec k { v with drain := none } s.mem)
  | .use r a lo hi => do
    let m ← s.mem.access a r.tag lo hi
    pure { s with mem := m, refs := keepRefs a r.tag r.from_ lo hi s.refs }
  | .reborrow r mutable lo hi => do
    let (t, m) ← s.mem.retag mutable r.tag lo hi
    pure { s with mem := m, refs := ⟨t, mutable, lo, hi, r.owner, r.tag :: r.from_⟩ :: keepRefs (if mutable then .write else .read) r.tag r.from_ lo hi s.refs }
  | .useRaw p a lo hi => do
    let m ← s.mem.access a p.ptr.tag lo hi
    pure { s with mem := m, refs := keepRefs a p.ptr.tag [] lo hi s.refs }

end Verif.VecBorrows
