import Verif.Model.Uninit
/-!
# Model of `without_alloc::FixedVec` (`/repo/without-alloc/src/fixed_vec.rs`)

The memory is modelled by the values that can be read at addresses. `ptr::read` copies the bits and leaves them, `drop_in_place` runs the
destructor of the value found (and leaves the bits); a write destroys everything it overlaps. So dropping twice or using elements of a wrong place is not prevented by the machine but shows in the results, the log of
destructors or as undefined behaviour. All vectors of one history have the same element type `V`, of layout `T`. `panics v`: the destructor of `v` unwinds. Unwinding panics are caught by the user, who goes on using
the vectors. The references to the parts of a vector (`&mut self.length` in `SetLenOnDrop` and `Drain`) are modelled by updating the vector.
-/
namespace Verif.FVec
open Verif Uninit

/-- What one can read at an address as a value of the element type, and the destructors run so far
(in order). Not code of the repository: the state that the program of the user and the library have
together. -/
structure Heap (V : Type) where
  mem : Nat → Option V
  log : List V

/-- How a piece of code ends that returns normally or unwinds. Not code of the repository: the
semantics of the Rust language. -/
inductive Ended where
  | ok | panic | abort
  deriving DecidableEq, Repr

section
variable {V : Type}

/-- Store bits of a value at `p`: what overlaps the written bytes is lost. Not code of the
repository: the semantics of the Rust language. -/
def writeBits (T : Layout) (m : Nat → Option V) (p : Nat) (b : Option V) : Nat → Option V := fun x =>
  if x = p then b else if x < p + T.size ∧ p < x + T.size then none else m x

/-- `core::ptr::write`. -/
def write (T : Layout) (h : Heap V) (p : Nat) (v : V) : Heap V := { h with mem := writeBits T h.mem p (some v) }
/-- `core::ptr::read`: reading uninitialised memory is undefined. -/
def read (h : Heap V) (p : Nat) : Outcome V :=
  match h.mem p with
  | none => .ub
  | some v => .ret v
/-- `core::ptr::drop_in_place` of one element, tells whether the destructor unwinds. -/
def dropInPlace (panics : V → Bool) (h : Heap V) (p : Nat) : Outcome (Bool × Heap V) :=
  match h.mem p with
  | none => .ub
  | some v => .ret (panics v, { h with log := h.log ++ [v] })
/-- Drop of a variable of the user. Not code of the repository: the semantics of the Rust language.
-/
def dropValue (panics : V → Bool) (h : Heap V) (v : V) : Bool × Heap V := (panics v, { h with log := h.log ++ [v] })
/-- `core::ptr::copy`: the source is read before anything is written. -/
def copy (T : Layout) (h : Heap V) (src dst n : Nat) : Heap V :=
  { h with mem := (List.range n).foldl (fun m i => writeBits T m (dst + i * T.size) (h.mem (src + i * T.size))) h.mem }
/-- `drop_in_place::<[T]>` (language): elements in order; after the first unwinding destructor the
rest is still dropped, a second one aborts the process. Not code of the repository: the semantics
of the Rust language. -/
def dropSlice (T : Layout) (panics : V → Bool) : Nat → Bool → Nat → Heap V → Outcome (Ended × Heap V)
  | _, unwinding, 0, h => .ret (if unwinding then .panic else .ok, h)
  | p, unwinding, n + 1, h => do
    let (pk, h) ← dropInPlace panics h p
    if pk && unwinding then pure (.abort, h)
    else dropSlice T panics (p + T.size) (unwinding || pk) n h
/-- Code of the user that writes values one after the other, beginning at `p`. Not code of the
repository: the program of the user, any sequence of these. -/
def writeAll (T : Layout) : Heap V → Nat → List V → Heap V
  | h, _, [] => h
  | h, p, v :: vs => writeAll T (write T h p v) (p + T.size) vs
/-- Read of `n` elements from `p` (through a slice reference). Not code of the repository: the
semantics of the Rust language. -/
def readSlice (T : Layout) (h : Heap V) : Nat → Nat → Outcome (List V)
  | _, 0 => .ret []
  | p, n + 1 => do
    let v ← read h p
    let vs ← readSlice T h (p + T.size) n
    pure (v :: vs)

/-- What an iterator answers: `poll k` is the answer to the `k`-th call of `next`; `pos` calls were
made. Any iterator whose answers do not depend on the vector is of this form, also infinite ones,
ones that
continue after `None` and ones that panic. Not code of the repository: the program of the user, any
sequence of these. -/
inductive Poll (V : Type) where
  | item (v : V) | done | panic
/-- Not code of the repository: an iterator of the user. -/
structure Iter (V : Type) where
  poll : Nat → Poll V
  pos : Nat

end

/-- `FixedVec`, fixed_vec.rs:91-94. -/
structure FixedVec where
  uninit : SliceView
  length : Nat
  deriving DecidableEq, Repr

/-- `Drain`, fixed_vec.rs:102-116. -/
structure Drain where
  start : Nat
  end_ : Nat
  tail : Nat
  tailLen : Nat
  elements : Nat
  deriving DecidableEq, Repr

/-- `core::ops::Bound<usize>`. -/
inductive Bound where
  | included (n : Nat) | excluded (n : Nat) | unbounded
  deriving DecidableEq, Repr

namespace FixedVec
variable {V : Type}

/-- `new`, fixed_vec.rs:440-445. -/
def new (u : SliceView) : FixedVec := ⟨u, 0⟩
/-- `from_unaligned`, fixed_vec.rs:457-461. -/
def fromUnaligned (t : Target) (T : Layout) (generic : View) : Outcome FixedVec := do
  let uninit := generic.decast
  let slice := match ← uninit.splitSlice t T with
    | some (_, s) => s
    | none => empty T
  pure (new slice)
/-- `capacity`, fixed_vec.rs:214-216. -/
def capacity (t : Target) (f : FixedVec) : Nat := f.uninit.capacity t
/-- `len`, fixed_vec.rs:200-202. -/
def len (f : FixedVec) : Nat := f.length
/-- `is_empty`, fixed_vec.rs:219-221. -/
def isEmpty (f : FixedVec) : Bool := f.length = 0
/-- `as_mut_ptr`, `as_ptr`, fixed_vec.rs:421-429. -/
def asMutPtr (f : FixedVec) : Nat := f.uninit.addr
/-- `end_mut_ptr`, fixed_vec.rs:431-433. -/
def endMutPtr (f : FixedVec) : Nat := f.asMutPtr + f.length * f.uninit.T.size

/-- `as_slice`, `as_mut_slice`, `deref`, `borrow`, `as_ref` (fixed_vec.rs:173-188, 509-521, 598-620): address and length. Reading all of it: -/
def asSlice (h : Heap V) (f : FixedVec) : Outcome (List V) := readSlice f.uninit.T h f.uninit.addr f.length

/-- The loop of `truncate`, fixed_vec.rs:162-169: `n` rounds left; gives whether a destructor unwound and the local length, which `SetLenOnDrop` writes back in both cases. -/
def truncateLoop (T : Layout) (panics : V → Bool) : Nat → Nat → Nat → Heap V → Outcome (Bool × Nat × Heap V)
  | 0, _, localLen, h => .ret (false, localLen, h)
  | n + 1, ptr, localLen, h => do
    let localLen := localLen - 1
    let ptr := ptr - T.size
    let (pk, h) ← dropInPlace panics h ptr
    if pk then pure (true, localLen, h)
    else truncateLoop T panics n ptr localLen h

/-- `truncate`, fixed_vec.rs:146-170. -/
def truncate (panics : V → Bool) (f : FixedVec) (h : Heap V) (len : Nat) : Outcome (Bool × FixedVec × Heap V) := do
  let (pk, localLen, h) ← truncateLoop f.uninit.T panics (f.length - len) f.endMutPtr f.length h
  pure (pk, { f with length := localLen }, h)
/-- `clear`, fixed_vec.rs:195-197. -/
def clear (panics : V → Bool) (f : FixedVec) (h : Heap V) : Outcome (Bool × FixedVec × Heap V) := f.truncate panics h 0

/-- `head_tail_mut`, fixed_vec.rs:411-417. -/
def headTailMut (t : Target) (f : FixedVec) : Outcome (SliceView × SliceView) := do
  match ← f.uninit.splitAt t f.length with
  | none => .panic
  | some (all, tail) => pure (all, tail)

/-- `set_len`, fixed_vec.rs:209-211. -/
def setLen (f : FixedVec) (newLen : Nat) : FixedVec := { f with length := newLen }

/-- `push`, fixed_vec.rs:242-257. `Err` contains the value. -/
def push (t : Target) (f : FixedVec) (h : Heap V) (v : V) : Outcome (Except V Unit × FixedVec × Heap V) :=
  if f.length = t.usizeMax then .ret (.error v, f, h)
  else do
    let (_, tail) ← f.headTailMut t
    match ← tail.splitFirst t with
    | none => pure (.error v, f, h)
    | some (_, init) => pure (.ok (), { f with length := f.length + 1 }, write f.uninit.T h init.addr v)

/-- `pop`, fixed_vec.rs:260-273. -/
def pop (t : Target) (f : FixedVec) (h : Heap V) : Outcome (Option V × FixedVec) :=
  if f.length = 0 then .ret (none, f)
  else do
    let (head, _) ← f.headTailMut t
    match ← head.splitLast t with
    | none => .panic
    | some (_, last) =>
      let v ← read h last.addr
      pure (some v, { f with length := f.length - 1 })

/-- `split_borrowed`, fixed_vec.rs:309-318: `self` (whose memory is only borrowed) and the new vector. -/
def splitBorrowed (t : Target) (f : FixedVec) (at_ : Nat) : Outcome (FixedVec × FixedVec) := do
  Outcome.assert (at_ ≤ f.capacity t)
  match ← f.uninit.splitAt t at_ with
  | none => .panic
  | some (_, newUninit) =>
    let newLen := Usize.saturatingSub f.length at_
    pure ({ f with length := f.length - newLen }, ⟨newUninit, newLen⟩)

/-- `split_and_shrink_to`, fixed_vec.rs:326-337. -/
def splitAndShrinkTo (t : Target) (f : FixedVec) (at_ : Nat) : Outcome (FixedVec × FixedVec) := do
  Outcome.assert (at_ ≤ f.capacity t)
  match ← f.uninit.splitAt t at_ with
  | none => .panic
  | some (uninit, newUninit) =>
    let newLen := Usize.saturatingSub f.length at_
    pure (⟨uninit, f.length - newLen⟩, ⟨newUninit, newLen⟩)

/-- `shrink_to_fit`, fixed_vec.rs:466-468. -/
def shrinkToFit (t : Target) (f : FixedVec) : Outcome (FixedVec × View) := do
  let (u, rest) ← f.uninit.shrinkToFit t
  pure ({ f with uninit := u }, rest)

/-- The loop of `fill`, fixed_vec.rs:347-358: `n` is the count of `Take`, which polls the iterator only while it is not zero. -/
def fillLoop (f : FixedVec) (h : Heap V) (it : Iter V) : Nat → Bool × FixedVec × Heap V × Iter V
  | 0 => (false, f, h, it)
  | n + 1 =>
    match it.poll it.pos with
    | .done => (false, f, h, { it with pos := it.pos + 1 })
    | .panic => (true, f, h, { it with pos := it.pos + 1 })
    | .item v => fillLoop { f with length := f.length + 1 } (write f.uninit.T h f.endMutPtr v) { it with pos := it.pos + 1 } n

/-- `fill`, fixed_vec.rs:342-360. The flag tells whether the iterator unwound. -/
def fill (t : Target) (f : FixedVec) (h : Heap V) (it : Iter V) : Bool × FixedVec × Heap V × Iter V :=
  fillLoop f h it (f.capacity t - f.len)

/-- `extend`, fixed_vec.rs:720-728: if the iterator still yields an item then `panic!`, whose unwinding drops the item. -/
def extend (t : Target) (panics : V → Bool) (f : FixedVec) (h : Heap V) (it : Iter V) : Ended × FixedVec × Heap V × Iter V :=
  match f.fill t h it with
  | (true, f, h, it) => (.panic, f, h, it)
  | (false, f, h, it) =>
    match it.poll it.pos with
    | .done => (.ok, f, h, { it with pos := it.pos + 1 })
    | .panic => (.panic, f, h, { it with pos := it.pos + 1 })
    | .item v =>
      let (pk, h) := dropValue panics h v
      (if pk then .abort else .panic, f, h, { it with pos := it.pos + 1 })

/-- `n + 1` on `usize`: with overflow checks a panic, else it wraps. Not code of the repository:
the semantics of the Rust language. -/
def addOne (t : Target) (checks : Bool) (n : Nat) : Outcome Nat :=
  if n + 1 < t.W then .ret (n + 1) else if checks then .panic else .ret ((n + 1) % t.W)

/-- `start` in `drain`, fixed_vec.rs:373-377. -/
def drainStart (t : Target) (checks : Bool) : Bound → Outcome Nat
  | .included n => .ret n
  | .excluded n => addOne t checks n
  | .unbounded => .ret 0
/-- `end` in `drain`, fixed_vec.rs:378-382. -/
def drainEnd (t : Target) (checks : Bool) (len : Nat) : Bound → Outcome Nat
  | .included n => addOne t checks n
  | .excluded n => .ret n
  | .unbounded => .ret len

/-- `drain`, fixed_vec.rs:369-409. -/
def drain (t : Target) (checks : Bool) (f : FixedVec) (lo hi : Bound) : Outcome (FixedVec × Drain) := do
  let len := f.length
  let start ← drainStart t checks lo
  let end_ ← drainEnd t checks len hi
  Outcome.assert (start ≤ end_)
  Outcome.assert (end_ ≤ len)
  let f := { f with length := start }
  let elements := f.asMutPtr + start * f.uninit.T.size
  pure (f, ⟨0, end_ - start, end_ - start, len - end_, elements⟩)

/-- `Drop for FixedVec`, fixed_vec.rs:523-529. -/
def drop (panics : V → Bool) (f : FixedVec) (h : Heap V) : Outcome (Ended × Heap V) :=
  dropSlice f.uninit.T panics f.uninit.addr false f.length h

/-- `Index::index` (fixed_vec.rs:531-539) with a `usize`. -/
def index (h : Heap V) (f : FixedVec) (i : Nat) : Outcome V :=
  if i < f.length then read h (f.uninit.addr + i * f.uninit.T.size) else .panic
/-- `core::mem::replace(&mut vec[i], v)`, through `IndexMut::index_mut` (fixed_vec.rs:541-547). -/
def replace (f : FixedVec) (h : Heap V) (i : Nat) (v : V) : Outcome (V × Heap V) :=
  if i < f.length then do
    let old ← read h (f.uninit.addr + i * f.uninit.T.size)
    pure (old, write f.uninit.T h (f.uninit.addr + i * f.uninit.T.size) v)
  else .panic

end FixedVec

namespace Drain
variable {V : Type}

/-- `is_empty`, fixed_vec.rs:504-506. -/
def isEmpty (d : Drain) : Bool := d.start = d.end_
/-- `len`, fixed_vec.rs:499-501. -/
def len (d : Drain) : Nat := d.end_ - d.start
/-- `as_slice`, `as_mut_slice`, fixed_vec.rs:476-496, reading all of it. -/
def asSlice (T : Layout) (h : Heap V) (d : Drain) : Outcome (List V) := readSlice T h (d.elements + d.start * T.size) d.len
/-- `core::mem::replace(&mut drain.as_mut_slice()[k], v)`, fixed_vec.rs:489-496. -/
def replace (T : Layout) (h : Heap V) (d : Drain) (k : Nat) (v : V) : Outcome (V × Heap V) :=
  if k < d.len then do
    let old ← read h (d.elements + d.start * T.size + k * T.size)
    pure (old, write T h (d.elements + d.start * T.size + k * T.size) v)
  else .panic
/-- `next`, fixed_vec.rs:625-637. -/
def next (T : Layout) (h : Heap V) (d : Drain) : Outcome (Option V × Drain) :=
  if d.isEmpty then .ret (none, d)
  else do
    let v ← read h (d.elements + d.start * T.size)
    pure (some v, { d with start := d.start + 1 })
/-- `next_back`, fixed_vec.rs:645-657. -/
def nextBack (T : Layout) (h : Heap V) (d : Drain) : Outcome (Option V × Drain) :=
  if d.isEmpty then .ret (none, d)
  else do
    let v ← read h (d.elements + (d.end_ - 1) * T.size)
    pure (some v, { d with end_ := d.end_ - 1 })
/-- `size_hint`, fixed_vec.rs:639-641: that of `core::ops::Range<usize>`. -/
def sizeHint (d : Drain) : Nat × Option Nat := if d.start < d.end_ then (d.end_ - d.start, some (d.end_ - d.start)) else (0, some 0)
/-- `ExactSizeIterator::len`, fixed_vec.rs:660-664. -/
def exactLen (d : Drain) : Nat := d.len
/-- `self.for_each(drop)`, fixed_vec.rs:670, until the iterator is empty (at most `n` items) or a destructor unwinds. -/
def dropItems (T : Layout) (panics : V → Bool) : Nat → Drain → Heap V → Outcome (Bool × Drain × Heap V)
  | 0, d, h => .ret (false, d, h)
  | n + 1, d, h => do
    match ← d.next T h with
    | (none, d) => pure (false, d, h)
    | (some v, d) =>
      let (pk, h) := dropValue panics h v
      if pk then pure (true, d, h) else dropItems T panics n d h
/-- `Drop for Drain`, fixed_vec.rs:668-681. `length` is the field of the vector. If a destructor unwinds the rest of `drop` is not executed. -/
def drop (T : Layout) (panics : V → Bool) (d : Drain) (length : Nat) (h : Heap V) : Outcome (Bool × Nat × Heap V) := do
  let (pk, d, h) ← dropItems T panics d.len d h
  if pk then pure (true, length, h)
  else if d.tailLen ≠ 0 then pure (false, length + d.tailLen, copy T h (d.elements + d.tail * T.size) d.elements d.tailLen)
  else pure (false, length, h)
end Drain

/-! ## Histories -/

/-- A vector: also the drain that borrows it, if any, and the vectors that this one (transitively)
borrows from. Not code of the repository: the state that the program of the user and the library
have together. -/
structure Entry where
  vec : FixedVec
  drain : Option Drain
  borrows : List Nat
  deriving DecidableEq, Repr

/-- All the vectors, numbered. Not code of the repository: the state that the program of the user
and the library have together. -/
structure World (V : Type) where
  heap : Heap V
  ents : Nat → Option Entry
  next : Nat

/-- Not code of the repository: the program of the user, any sequence of these. The methods are
those of without-alloc/src/fixed_vec.rs:118-508, 622-728. -/
inductive Op (V : Type) where
  | new (addr len : Nat)
  | push (i : Nat) (v : V) | pop (i : Nat) | truncate (i n : Nat) | clear (i : Nat)
  | fill (i : Nat) (it : Iter V) | extend (i : Nat) (it : Iter V)
  | len (i : Nat) | capacity (i : Nat) | isEmpty (i : Nat) | slice (i : Nat) | index (i k : Nat) | replace (i k : Nat) (v : V)
  | splitBorrowed (i n : Nat) | splitShrink (i n : Nat) | shrinkToFit (i : Nat)
  | drain (i : Nat) (lo hi : Bound) | next (i : Nat) | nextBack (i : Nat) | drainLen (i : Nat) | drainSlice (i : Nat) | drainReplace (i k : Nat) (v : V) | dropDrain (i : Nat) | forgetDrain (i : Nat)
  | drop (i : Nat) | forget (i : Nat)
  /-- the user writes values behind the elements, through `as_mut_ptr` (fixed_vec.rs:427-429), and then calls `set_len` -/
  | setLen (i : Nat) (vs : List V) (n : Nat)

/-- What the user sees. For `fill` and `extend` the number (also that of `panicAt` and `abort`) is
the count of calls made to the iterator. Results of these methods. -/
inductive Resp (V : Type) where
  | unit | val (v : V) | opt (v : Option V) | vals (vs : List V) | num (n : Nat) | bool (b : Bool)
  | pushed (r : Except V Unit) | panic | panicAt (n : Nat) | abort (n : Nat)

section
variable {V : Type}

/-- Not code of the repository: an auxiliary function of the machine. -/
def World.set (w : World V) (i : Nat) (e : Option Entry) : World V := { w with ents := fun x => if x = i then e else w.ents x }

/-- Not code of the repository: an auxiliary function of the machine. -/
def panicked (b : Bool) : Resp V := if b then .panic else .unit
/-- Not code of the repository: an auxiliary function of the machine. -/
def Ended.resp : Ended → Resp V
  | .ok => .unit | .panic => .panic | .abort => .abort 0
/-- Not code of the repository: an auxiliary function of the machine. -/
def Ended.respAt (n : Nat) : Ended → Resp V
  | .ok => .num n | .panic => .panicAt n | .abort => .abort n

/-- An operation on a vector that is not in use by a borrow. Calls of the public methods; each case
cites the method it runs. (without-alloc/src/fixed_vec.rs:118-469.) -/
def execVec (t : Target) (T : Layout) (checks : Bool) (panics : V → Bool) (w : World V) (i : Nat) (e : Entry) : Op V → Outcome (Resp V × World V)
  | .push _ v => do let (r, f, h) ← e.vec.push t w.heap v; pure (.pushed r, { w.set i (some { e with vec := f }) with heap := h })
  | .pop _ => do let (r, f) ← e.vec.pop t w.heap; pure (.opt r, w.set i (some { e with vec := f }))
  | .truncate _ n => do let (pk, f, h) ← e.vec.truncate panics w.heap n; pure (panicked pk, { w.set i (some { e with vec := f }) with heap := h })
  | .clear _ => do let (pk, f, h) ← e.vec.clear panics w.heap; pure (panicked pk, { w.set i (some { e with vec := f }) with heap := h })
  | .fill _ it =>
    let (pk, f, h, it') := e.vec.fill t w.heap it
    .ret (if pk then .panicAt (it'.pos - it.pos) else .num (it'.pos - it.pos), { w.set i (some { e with vec := f }) with heap := h })
  | .extend _ it =>
    let (end_, f, h, it') := e.vec.extend t panics w.heap it
    .ret (end_.respAt (it'.pos - it.pos), { w.set i (some { e with vec := f }) with heap := h })
  | .setLen _ vs n => .ret (.unit, { w.set i (some { e with vec := e.vec.setLen n }) with heap := writeAll T w.heap (e.vec.asMutPtr + e.vec.len * T.size) vs })
  | .len _ => .ret (.num e.vec.len, w)
  | .capacity _ => .ret (.num (e.vec.capacity t), w)
  | .isEmpty _ => .ret (.bool e.vec.isEmpty, w)
  | .slice _ => do let vs ← e.vec.asSlice w.heap; pure (.vals vs, w)
  | .index _ k => match e.vec.index w.heap k with | .ret v => .ret (.val v, w) | .panic => .ret (.panic, w) | .ub => .ub
  | .replace _ k v =>
    match e.vec.replace w.heap k v with
    | .ret (old, h) => .ret (.val old, { w with heap := h })
    | .panic => let (pk, h) := dropValue panics w.heap v; .ret (if pk then .abort 0 else .panic, { w with heap := h })
    | .ub => .ub
  | .splitBorrowed _ n =>
    match e.vec.splitBorrowed t n with
    | .ret (f, g) => .ret (.num w.next, { (w.set i (some { e with vec := f })).set w.next (some ⟨g, none, i :: e.borrows⟩) with next := w.next + 1 })
    | .panic => .ret (.panic, w)
    | .ub => .ub
  | .splitShrink _ n =>
    match e.vec.splitAndShrinkTo t n with
    | .ret (f, g) => .ret (.num w.next, { (w.set i (some { e with vec := f })).set w.next (some ⟨g, none, e.borrows⟩) with next := w.next + 1 })
    | .panic => .ret (.panic, w)
    | .ub => .ub
  | .shrinkToFit _ => do let (f, _) ← e.vec.shrinkToFit t; pure (.unit, w.set i (some { e with vec := f }))
  | .drain _ lo hi =>
    match e.vec.drain t checks lo hi with
    | .ret (f, d) => .ret (.unit, w.set i (some { e with vec := f, drain := some d }))
    | .panic => .ret (.panic, w)
    | .ub => .ub
  | .drop _ => do let (r, h) ← e.vec.drop panics w.heap; pure (r.resp, { w.set i none with heap := h })
  | .forget _ => .ret (.unit, w.set i none)
  | _ => .ub

/-- An operation on a drain. Calls of the public methods; each case cites the method it runs.
(without-alloc/src/fixed_vec.rs:471-508, 622-718.) -/
def execDrain (T : Layout) (panics : V → Bool) (w : World V) (i : Nat) (e : Entry) (d : Drain) : Op V → Outcome (Resp V × World V)
  | .next _ => do let (r, d) ← d.next T w.heap; pure (.opt r, w.set i (some { e with drain := some d }))
  | .nextBack _ => do let (r, d) ← d.nextBack T w.heap; pure (.opt r, w.set i (some { e with drain := some d }))
  | .drainLen _ => .ret (.num d.len, w)
  | .drainSlice _ => do let vs ← d.asSlice T w.heap; pure (.vals vs, w)
  | .drainReplace _ k v =>
    match d.replace T w.heap k v with
    | .ret (old, h) => .ret (.val old, { w with heap := h })
    | .panic => let (pk, h) := dropValue panics w.heap v; .ret (if pk then .abort 0 else .panic, { w with heap := h })
    | .ub => .ub
  | .dropDrain _ => do
    let (pk, length, h) ← d.drop T panics e.vec.length w.heap
    pure (panicked pk, { w.set i (some { e with vec := { e.vec with length := length }, drain := none }) with heap := h })
  | .forgetDrain _ => .ret (.unit, w.set i (some { e with drain := none }))
  | _ => .ub

/-- The vector which an operation is about. Not code of the repository: an auxiliary function of
the machine. -/
def Op.target : Op V → Option Nat
  | .new _ _ => none
  | .push i _ | .pop i | .truncate i _ | .clear i | .fill i _ | .extend i _ | .len i | .capacity i | .isEmpty i | .slice i | .index i _ | .replace i _ _
  | .splitBorrowed i _ | .splitShrink i _ | .shrinkToFit i | .drain i _ _ | .next i | .nextBack i | .drainLen i | .drainSlice i | .drainReplace i _ _ | .dropDrain i | .forgetDrain i | .setLen i _ _
  | .drop i | .forget i => some i

/-- One call. Calls of the public methods; each case cites the method it runs. -/
def exec (t : Target) (T : Layout) (checks : Bool) (panics : V → Bool) (w : World V) (op : Op V) : Outcome (Resp V × World V) :=
  match op with
  | .new addr len =>
    match (fromMemory addr len).castSlice t T with
    | .ok u => .ret (.num w.next, { w.set w.next (some ⟨FixedVec.new u, none, []⟩) with next := w.next + 1 })
    | .error _ => .ub
  | op =>
    match op.target with
    | none => .ub
    | some i =>
      match w.ents i with
      | none => .ub
      | some e =>
        match e.drain with
        | none => execVec t T checks panics w i e op
        | some d => execDrain T panics w i e d op

/-- A sequence of calls; it ends early if the process is aborted. Not code of the repository: the
program of the user, any sequence of these. -/
def run (t : Target) (T : Layout) (checks : Bool) (panics : V → Bool) : World V → List (Op V) → Outcome (List (Resp V) × World V)
  | w, [] => .ret ([], w)
  | w, op :: ops => do
    let (r, w) ← exec t T checks panics w op
    match r with
    | .abort n => pure ([.abort n], w)
    | r => do
      let (rs, w) ← run t T checks panics w ops
      pure (r :: rs, w)

/-- No vectors yet, memory with arbitrary contents. Not code of the repository: the state that the
program of the user and the library have together. -/
def World.init (mem : Nat → Option V) : World V := ⟨⟨mem, []⟩, fun _ => none, 0⟩

end
end Verif.FVec
