import Verif.Model.Chain
/-!
# Model of `static_alloc::unsync::Chain` on bytes (`/repo/static-alloc/src/unsync/chain.rs`)

The same calls as in `Model/Chain`, but the field `next` of a link is two words at the start of the link (a fat pointer), in the same memory as the level counter and the values of users. Only the bookkeeping of the
global allocator (which blocks are allocated, with which layout) is not in the bytes. `None` is a null address; the other word is not determined then (`pad`). Freed memory is overwritten by the allocator with arbitrary bytes (`poison`).
-/
namespace Verif.Unsync.ChainMem
open Verif

/-- The target, and what the code does not determine. Not code of the repository: the state that
the program of the user and the library have together. The fields: what the allocator of the
program answers. -/
structure Cfg where
  t : Target
  /-- the second word of a stored `None` -/
  pad : Nat
  /-- the contents of the memory after it was freed -/
  poison : Nat → Byte

/-- `Cell<LinkPtr>::get`, `LinkPtr = Option<NonNull<Link>>`, chain.rs:34-43: a null address is `None`. -/
def loadNext (c : Cfg) (m : Mem) (a : Nat) : Option LPtr :=
  if loadUsize c.t m a = 0 then none else some ⟨loadUsize c.t m a, loadUsize c.t m (a + c.t.wordBytes)⟩
/-- `Cell<LinkPtr>::set`, chain.rs:34-43. -/
def storeNext (c : Cfg) (m : Mem) (a : Nat) : Option LPtr → Mem
  | none => storeUsize c.t (storeUsize c.t m a 0) (a + c.t.wordBytes) c.pad
  | some p => storeUsize c.t (storeUsize c.t m a p.addr) (a + c.t.wordBytes) p.cap

/-- What the global allocator knows: for the allocated blocks the layout and (ghost) the number of the allocation; (ghost) the numbers of the freed allocations. And all the bytes of the memory. -/
structure BHeap where
  block : Nat → Option (Layout × Nat)
  freed : List Nat
  mem : Mem

/-- The memory, with the bytes of a block overwritten. Not code of the repository: freed memory has
any contents. -/
def scribble (c : Cfg) (m : Mem) (a n : Nat) : Mem := fun x => if a ≤ x ∧ x < a + n then c.poison x else m x

namespace Link
/-- Deallocation of a `Box<Link>` (after its destructor). static-alloc/src/unsync/chain.rs:200-218;
Not code of the repository: the library alloc, as documented. -/
def free (c : Cfg) (h : BHeap) (p : LPtr) : Outcome BHeap :=
  match h.block p.addr with
  | none => .ub
  | some (layout, serial) =>
    if linkLayoutForValue c.t p ≠ layout then .ub
    else pure ⟨fun x => if x = p.addr then none else h.block x, serial :: h.freed, scribble c h.mem p.addr layout.size⟩

/-- `Link::take_next`, chain.rs:146-151, and `link.next.take()`. -/
def takeNext (c : Cfg) (h : BHeap) (p : LPtr) : Outcome (Option LPtr × BHeap) :=
  match h.block p.addr with
  | none => .ub
  | some _ => pure (loadNext c h.mem p.addr, { h with mem := storeNext c h.mem p.addr none })

/-- The loops of `Drop for Chain` chain.rs:203-208 and `Drop for Link` 213-217. `fuel` bounds the number of rounds. -/
def dropLoop (c : Cfg) (dropBox : BHeap → LPtr → Outcome BHeap) : Nat → BHeap → Option LPtr → Outcome BHeap
  | _, h, none => pure h
  | 0, _, some _ => .ub
  | fuel + 1, h, some link => do
    let (current, h) ← takeNext c h link
    let h ← dropBox h link
    dropLoop c dropBox fuel h current

/-- Drop of a `Box<Link>`: run `Drop for Link` (chain.rs:211-218), then free the memory. The second argument is the number of stack frames left. -/
def dropBox (c : Cfg) : Nat → Nat → BHeap → LPtr → Outcome BHeap
  | 0, _, _, _ => .ub
  | depth + 1, fuel, h, p => do
    let (current, h) ← takeNext c h p
    let h ← dropLoop c (dropBox c depth fuel) fuel h current
    free c h p

/-- `Link::set_next`, chain.rs:139-143. -/
def setNext (c : Cfg) (depth fuel : Nat) (h : BHeap) (p : LPtr) (next : Option LPtr) : Outcome BHeap :=
  match h.block p.addr with
  | none => .ub
  | some _ =>
    let old := loadNext c h.mem p.addr
    let h := { h with mem := storeNext c h.mem p.addr next }
    match old with
    | none => pure h
    | some old => dropBox c depth fuel h old
end Link

/-- The machine: as `CState`, with one byte memory (in `heap`). Not code of the repository: the
state that the program of the user and the library have together. -/
structure BState where
  heap : BHeap
  roots : Nat → Option (Option LPtr)
  serials : Nat
  granted : List (Nat × Block)

/-- Not code of the repository: an auxiliary function of the machine. -/
def BState.setRoot (s : BState) (c : Nat) (r : Option (Option LPtr)) : BState :=
  { s with roots := fun x => if x = c then r else s.roots x }

/-- The calls and writes of `COp`; or some other code writes to memory that does not belong to an
allocated link. Not code of the repository: the program of the user, any sequence of these. The
methods are those of static-alloc/src/unsync/chain.rs:54-120. -/
inductive BOp where
  | call (op : COp)
  | elsewhere (a : Nat) (bytes : List Byte)
  deriving DecidableEq, Repr

/-- `Chain::new`, chain.rs:57-62 with `Link::alloc` 171-183 and `alloc_raw` 163-168 (zeroed memory): nothing is written after the allocation, the zeros are `None` and level 0. -/
def bNew (c : Cfg) (s : BState) (h size : Nat) (heap : Option Nat) : Outcome (CRet × BState) :=
  match linkLayoutFromSize c.t size with
  | none => pure (.errNew ⟨size, .layout⟩, s)
  | some layout =>
    match heap with
    | none => pure (.errNew ⟨layout.size, .exhausted⟩, s)
    | some a =>
      let s := { s with
        heap := ⟨fun x => if x = a then some (layout, s.serials) else s.heap.block x, s.heap.freed, writeZeros s.heap.mem a layout.size⟩
        serials := s.serials + 1 }
      pure (.unit, s.setRoot h (some (some ⟨a, size⟩)))

/-- `Chain::bump_box`, chain.rs:65-70. -/
def bBumpBox (c : Cfg) (s : BState) (h : Nat) (T : Layout) : Outcome (CRet × BState) :=
  match s.roots h with
  | none => .ub
  | some none => pure (.err .exhausted, s)
  | some (some root) =>
    match s.heap.block root.addr with
    | none => .ub
    | some _ =>
      match (root.asBump c.t).bumpBox c.t s.heap.mem T with
      | .ub => .ub
      | .panic => pure (.panicked, s)
      | .ret (.ok p, m) => pure (.ptr p, { s with heap := { s.heap with mem := m }, granted := (h, ⟨p, T⟩) :: s.granted })
      | .ret (.error f, m) => pure (.err f, { s with heap := { s.heap with mem := m } })

/-- `Chain::chain`, chain.rs:77-90; at the end `new` (number `d`) is dropped (200-209), its root is empty then. -/
def bChain (c : Cfg) (s : BState) (h d : Nat) : Outcome (CRet × BState) :=
  match s.roots h, s.roots d with
  | some selfBump, some newRoot => do
    let s := s.setRoot h (some none)
    let s ← (match newRoot with
      | none => pure (s.setRoot h (some selfBump))
      | some root => do
        let hp ← Link.setNext c chainDepth (s.serials + 1) s.heap root selfBump
        pure ((({ s with heap := hp } : BState).setRoot h (some newRoot)).setRoot d (some none)))
    -- drop of `new`
    pure (.unit, { (s.setRoot d none) with granted := s.granted.filter fun g => g.1 ≠ d })
  | _, _ => .ub

/-- `Chain::capacity`, chain.rs:95-100. -/
def bCapacity (s : BState) (h : Nat) : Outcome Nat :=
  match s.roots h with
  | none => .ub
  | some none => pure 0
  | some (some root) =>
    match s.heap.block root.addr with
    | none => .ub
    | some _ => pure root.cap

/-- `Chain::remaining_capacity`, chain.rs:105-110; the subtraction panics on underflow. -/
def bRemaining (c : Cfg) (s : BState) (h : Nat) : Outcome Nat :=
  match s.roots h with
  | none => .ub
  | some none => pure 0
  | some (some root) =>
    match s.heap.block root.addr with
    | none => .ub
    | some _ => do
      let cap ← bCapacity s h
      Outcome.unwrap (Usize.checkedSub cap ((root.asBump c.t).level c.t s.heap.mem))

/-- `Drop for Chain`, chain.rs:200-209. -/
def bDrop (c : Cfg) (s : BState) (h : Nat) : Outcome (CRet × BState) :=
  match s.roots h with
  | none => .ub
  | some root => do
    let hp ← Link.dropLoop c (Link.dropBox c chainDepth (s.serials + 1)) (s.serials + 1) s.heap root
    pure (.unit, { (({ s with heap := hp } : BState).setRoot h none) with granted := s.granted.filter fun g => g.1 ≠ h })

/-- Execute one operation. Calls of the public methods; each case cites the method it runs.
(static-alloc/src/unsync/chain.rs:54-120, 200-218.) -/
def bexec (c : Cfg) (s : BState) : BOp → Outcome (CRet × BState)
  | .elsewhere a bytes => pure (.unit, { s with heap := { s.heap with mem := writeBytes s.heap.mem a bytes } })
  | .call op => match op with
    | .new h size heap => bNew c s h size heap
    | .bumpBox h T => bBumpBox c s h T
    | .chain h d => bChain c s h d
    | .capacity h => do let n ← bCapacity s h; pure (.num n, s)
    | .remaining h =>
      match bRemaining c s h with
      | .ub => .ub
      | .panic => pure (.panicked, s)
      | .ret n => pure (.num n, s)
    | .drop h => bDrop c s h
    | .write _ b off bytes => pure (.unit, { s with heap := { s.heap with mem := writeBytes s.heap.mem (b.ptr + off) bytes } })

/-- What the type system, the borrow checker and the heap guarantee, as `COp.Allowed`. Other code
writes only to memory that is not of an allocated link. Not code of the repository: what the
language, or the documented contract of the methods, demands of callers. -/
def BOp.Allowed (c : Cfg) (s : BState) : BOp → Prop
  | .elsewhere a bytes => ∀ a' L n, s.heap.block a' = some (L, n) → Region.Disjoint ⟨a, bytes.length⟩ ⟨a', L.size⟩
  | .call (.new h size heap) => s.roots h = none ∧ size < c.t.W ∧ ∀ a L, heap = some a → linkLayoutFromSize c.t size = some L →
      0 < a ∧ L.align ∣ a ∧ a + L.size ≤ c.t.W ∧
      ∀ a' L' n, s.heap.block a' = some (L', n) → Region.Disjoint ⟨a, L.size⟩ ⟨a', L'.size⟩
  | .call (.bumpBox h T) => s.roots h ≠ none ∧ T.ValidType c.t
  | .call (.chain h d) => s.roots h ≠ none ∧ s.roots d ≠ none ∧ h ≠ d
  | .call (.capacity h) | .call (.remaining h) | .call (.drop h) => s.roots h ≠ none
  | .call (.write h b off bytes) => (h, b) ∈ s.granted ∧ off + bytes.length ≤ b.layout.size

/-- Before the first call: no link is allocated, the memory has any contents. Not code of the
repository: the state that the program of the user and the library have together. -/
def BState.init (m : Mem) : BState := ⟨⟨fun _ => none, [], m⟩, fun _ => none, 0, []⟩

end Verif.Unsync.ChainMem
