import Verif.Model.Unsync
/-!
# Model of `static_alloc::unsync::Chain` (`/repo/static-alloc/src/unsync/chain.rs`)

The heap holds records for the allocated links; using or freeing an address that is not allocated, or freeing with a layout different from the
one of the allocation, is undefined behaviour. The bytes of the bump of each link (header and data) are in the byte memory. The field `next` of a link is kept in
the record instead of the bytes. Handles (`Chain` values) have numbers. Recursion of destructors consumes a budget of stack frames, exceeding it is undefined behaviour
(a stack overflow).
-/
namespace Verif.Unsync
open Verif

/-- `NonNull<Link>`: a fat pointer, the metadata is the length of the trailing slice.
static-alloc/src/unsync/chain.rs:34-44, `LinkPtr`. -/
structure LPtr where
  addr : Nat
  cap : Nat
  deriving DecidableEq, Repr

/-- An allocated link. `layout` is the layout it was allocated with, `serial` the number of the allocation (ghost).
Models: `struct Link` chain.rs:36-43. -/
structure LinkRec where
  layout : Layout
  next : Option LPtr
  serial : Nat
  deriving DecidableEq, Repr

/-- The part of the heap that belongs to links, and (ghost) the numbers of the freed allocations. -/
structure LHeap where
  link : Nat → Option LinkRec
  freed : List Nat

/-- Not code of the repository: an auxiliary function of the machine. -/
def LHeap.set (h : LHeap) (a : Nat) (r : Option LinkRec) : LHeap :=
  { h with link := fun x => if x = a then r else h.link x }

/-- `Layout::new::<Cell<LinkPtr>>()`: a fat pointer has two words.
static-alloc/src/unsync/chain.rs:36-44, 157-160. -/
def nextLayout (t : Target) : Layout := ⟨2 * t.wordBytes, t.wordBytes⟩

/-- `Link::layout_from_size`, chain.rs:157-161. -/
def linkLayoutFromSize (t : Target) (size : Nat) : Option Layout :=
  match layoutFromSize t size with
  | none => none
  | some bump => (layoutExtend t (nextLayout t) bump).map (·.1)

/-- `Layout::for_value(&Link)`, which `Box<Link>` passes to `dealloc`: the struct of `next` and the
unsized `bump`. static-alloc/src/unsync/chain.rs:36-44; not code of the repository: the library
alloc, as documented. -/
def linkLayoutForValue (t : Target) (p : LPtr) : Layout :=
  ⟨alignUp t.wordBytes (alignUp t.wordBytes (nextLayout t).size + (MemBump.layoutForValue t ⟨0, p.cap⟩).size), t.wordBytes⟩

/-- `Link::as_bump`, chain.rs:153-155: the field `bump` follows `next`. -/
def LPtr.asBump (t : Target) (p : LPtr) : MemBump := ⟨p.addr + 2 * t.wordBytes, p.cap⟩

namespace Link
/-- Deallocation of a `Box<Link>` (after its destructor). static-alloc/src/unsync/chain.rs:200-218;
Not code of the repository: the library alloc, as documented. -/
def free (t : Target) (h : LHeap) (p : LPtr) : Outcome LHeap :=
  match h.link p.addr with
  | none => .ub
  | some rec =>
    if linkLayoutForValue t p ≠ rec.layout then .ub
    else pure { (h.set p.addr none) with freed := rec.serial :: h.freed }

/-- `Link::take_next`, chain.rs:146-151, and `link.next.take()`. -/
def takeNext (h : LHeap) (p : LPtr) : Outcome (Option LPtr × LHeap) :=
  match h.link p.addr with
  | none => .ub
  | some rec => pure (rec.next, h.set p.addr (some { rec with next := none }))

/-- The loops `while let Some(link) = current { current = link.take_next(); }` where the `Box` is dropped (`dropBox`) at the end of each round.
Models: `Drop for Chain` chain.rs:203-208 and `Drop for Link` 213-217. `fuel` bounds the number of rounds. -/
def dropLoop (dropBox : LHeap → LPtr → Outcome LHeap) : Nat → LHeap → Option LPtr → Outcome LHeap
  | _, h, none => pure h
  | 0, _, some _ => .ub
  | fuel + 1, h, some link => do
    let (current, h) ← takeNext h link
    let h ← dropBox h link
    dropLoop dropBox fuel h current

/-- Drop of a `Box<Link>`: run `Drop for Link` (chain.rs:211-218), then free the memory. The first argument is the number of stack frames left. -/
def dropBox (t : Target) : Nat → Nat → LHeap → LPtr → Outcome LHeap
  | 0, _, _, _ => .ub
  | depth + 1, fuel, h, p => do
    let (current, h) ← takeNext h p
    let h ← dropLoop (dropBox t depth fuel) fuel h current
    free t h p

/-- `Link::set_next`, chain.rs:139-143. -/
def setNext (t : Target) (depth fuel : Nat) (h : LHeap) (p : LPtr) (next : Option LPtr) : Outcome LHeap :=
  match h.link p.addr with
  | none => .ub
  | some rec =>
    let h := h.set p.addr (some { rec with next := next })
    match rec.next with
    | none => pure h
    | some old => dropBox t depth fuel h old
end Link

/-- The machine: heap, byte memory, the `Chain` handles that exist with their `root`, number of link allocations so far, and (ghost) the blocks
that are borrowed from each handle. -/
structure CState where
  heap : LHeap
  mem : Mem
  roots : Nat → Option (Option LPtr)
  serials : Nat
  granted : List (Nat × Block)

/-- Not code of the repository: an auxiliary function of the machine. -/
def CState.setRoot (s : CState) (c : Nat) (r : Option (Option LPtr)) : CState :=
  { s with roots := fun x => if x = c then r else s.roots x }

/-- Number of stack frames that destructors may use. A recursion over the links would need more,
see static-alloc/src/unsync/chain.rs:200-218. -/
def chainDepth : Nat := 2

/-- Operations of users. `new` carries the answer of the heap. Not code of the repository: the
program of the user, any sequence of these. The methods are those of
static-alloc/src/unsync/chain.rs:54-120. -/
inductive COp where
  | new (c : Nat) (size : Nat) (heap : Option Nat)
  | bumpBox (c : Nat) (T : Layout)
  | chain (c d : Nat)
  | capacity (c : Nat)
  | remaining (c : Nat)
  | drop (c : Nat)
  | write (c : Nat) (b : Block) (off : Nat) (bytes : List Byte)
  deriving DecidableEq, Repr

/-- `RawAllocFailure`, chain.rs:127-131. -/
inductive RawAllocFailure where
  | exhausted | layout
  deriving DecidableEq, Repr
/-- `TryNewError`, chain.rs:20-24, with its field, the `RawAllocError` 122-125. -/
structure TryNewError where
  size : Nat
  kind : RawAllocFailure
  deriving DecidableEq, Repr
/-- `TryNewError::allocation_size`, chain.rs:26-32, 192-198. -/
def TryNewError.allocationSize (e : TryNewError) : Nat := e.size

/-- Results of these methods. -/
inductive CRet where
  | unit
  | errNew (e : TryNewError)
  | ptr (p : Nat)
  | err (f : Failure)
  | num (n : Nat)
  | panicked
  deriving DecidableEq, Repr

/-- `Chain::new`, chain.rs:57-62 with `Link::alloc` 171-183 and `alloc_raw` 163-168 (zeroed memory). -/
def chainNew (t : Target) (s : CState) (c size : Nat) (heap : Option Nat) : Outcome (CRet × CState) :=
  match linkLayoutFromSize t size with
  | none => pure (.errNew ⟨size, .layout⟩, s)
  | some layout =>
    match heap with
    | none => pure (.errNew ⟨layout.size, .exhausted⟩, s)
    | some a =>
      let s := { s with
        heap := s.heap.set a (some ⟨layout, none, s.serials⟩)
        mem := writeZeros s.mem a layout.size
        serials := s.serials + 1 }
      pure (.unit, s.setRoot c (some (some ⟨a, size⟩)))

/-- `Chain::bump_box`, chain.rs:65-70. A panic changes nothing, see `MemBump.tryAllocAt`. -/
def chainBumpBox (t : Target) (s : CState) (c : Nat) (T : Layout) : Outcome (CRet × CState) :=
  match s.roots c with
  | none => .ub
  | some none => pure (.err .exhausted, s)
  | some (some root) =>
    match s.heap.link root.addr with
    | none => .ub
    | some _ =>
      match (root.asBump t).bumpBox t s.mem T with
      | .ub => .ub
      | .panic => pure (.panicked, s)
      | .ret (.ok p, m) => pure (.ptr p, { s with mem := m, granted := (c, ⟨p, T⟩) :: s.granted })
      | .ret (.error f, m) => pure (.err f, { s with mem := m })

/-- `Chain::chain`, chain.rs:77-90; at the end `new` (number `d`) is dropped (200-209), its root is empty then. -/
def chainChain (t : Target) (s : CState) (c d : Nat) : Outcome (CRet × CState) :=
  match s.roots c, s.roots d with
  | some selfBump, some newRoot => do
    let s := s.setRoot c (some none)
    let s ← (match newRoot with
      | none => pure (s.setRoot c (some selfBump))
      | some root => do
        let h ← Link.setNext t chainDepth (s.serials + 1) s.heap root selfBump
        pure ((({ s with heap := h } : CState).setRoot c (some newRoot)).setRoot d (some none)))
    -- drop of `new`
    pure (.unit, { (s.setRoot d none) with granted := s.granted.filter fun g => g.1 ≠ d })
  | _, _ => .ub

/-- `Chain::capacity`, chain.rs:95-100. -/
def chainCapacity (s : CState) (c : Nat) : Outcome Nat :=
  match s.roots c with
  | none => .ub
  | some none => pure 0
  | some (some root) =>
    match s.heap.link root.addr with
    | none => .ub
    | some _ => pure root.cap

/-- `Chain::remaining_capacity`, chain.rs:105-110; the subtraction panics on underflow. -/
def chainRemaining (t : Target) (s : CState) (c : Nat) : Outcome Nat :=
  match s.roots c with
  | none => .ub
  | some none => pure 0
  | some (some root) =>
    match s.heap.link root.addr with
    | none => .ub
    | some _ => do
      let cap ← chainCapacity s c
      Outcome.unwrap (Usize.checkedSub cap ((root.asBump t).level t s.mem))

/-- `Drop for Chain`, chain.rs:200-209. -/
def chainDrop (t : Target) (s : CState) (c : Nat) : Outcome (CRet × CState) :=
  match s.roots c with
  | none => .ub
  | some root => do
    let h ← Link.dropLoop (Link.dropBox t chainDepth (s.serials + 1)) (s.serials + 1) s.heap root
    pure (.unit, { (({ s with heap := h } : CState).setRoot c none) with granted := s.granted.filter fun g => g.1 ≠ c })

/-- Execute one operation. Calls of the public methods; each case cites the method it runs.
(static-alloc/src/unsync/chain.rs:54-120, 200-218.) -/
def cexec (t : Target) (s : CState) : COp → Outcome (CRet × CState)
  | .new c size heap => chainNew t s c size heap
  | .bumpBox c T => chainBumpBox t s c T
  | .chain c d => chainChain t s c d
  | .capacity c => do let n ← chainCapacity s c; pure (.num n, s)
  | .remaining c =>
    match chainRemaining t s c with
    | .ub => .ub
    | .panic => pure (.panicked, s)
    | .ret n => pure (.num n, s)
  | .drop c => chainDrop t s c
  | .write _ b off bytes => pure (.unit, { s with mem := writeBytes s.mem (b.ptr + off) bytes })

/-- What the type system, the borrow checker and the heap guarantee. Moving or dropping a chain
ends the borrows from it (the blocks are no longer used).
The heap returns memory that is aligned, not wrapping and disjoint from the allocated links. Not
code of the repository: what the language, or the documented contract of the methods, demands of
callers. -/
def COp.Allowed (t : Target) (s : CState) : COp → Prop
  | .new c size heap => s.roots c = none ∧ size < t.W ∧ ∀ a L, heap = some a → linkLayoutFromSize t size = some L →
      0 < a ∧ L.align ∣ a ∧ a + L.size ≤ t.W ∧
      ∀ a' rec, s.heap.link a' = some rec → Region.Disjoint ⟨a, L.size⟩ ⟨a', rec.layout.size⟩
  | .bumpBox c T => s.roots c ≠ none ∧ T.ValidType t
  | .chain c d => s.roots c ≠ none ∧ s.roots d ≠ none ∧ c ≠ d
  | .capacity c | .remaining c | .drop c => s.roots c ≠ none
  | .write c b off bytes => (c, b) ∈ s.granted ∧ off + bytes.length ≤ b.layout.size

/-- The states that programs can reach. Not code of the repository: what programs can reach. -/
inductive CReach (t : Target) : CState → Prop
  | init {m : Mem} : CReach t ⟨⟨fun _ => none, []⟩, m, fun _ => none, 0, []⟩
  | step {s s' : CState} {op : COp} {r : CRet} (h : CReach t s) (ha : op.Allowed t s)
      (hx : cexec t s op = .ret (r, s')) : CReach t s'

end Verif.Unsync
