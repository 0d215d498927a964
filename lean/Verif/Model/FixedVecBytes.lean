import Verif.Model.FixedVec
/-!
# Model of `without_alloc::FixedVec` on bytes (`/repo/without-alloc/src/fixed_vec.rs`)

The same calls as in `Model/FixedVec`, but on the bytes of the memory: an element is stored as its `size_of::<T>()` bytes, `ptr::read` reads that many bytes, `ptr::copy` moves bytes. Nothing here tells whether bytes are initialised, of which
element they are, or whether they are still in use. The functions that do not access memory (`new`, `head_tail_mut`, `split_borrowed`, `split_and_shrink_to`, `shrink_to_fit`, `drain`, `capacity`, `len`, ...) are those of `Model/FixedVec`.
-/
namespace Verif.FVec
open Verif Uninit

/-- A value of the element type, as its bytes. Not code of the repository: the semantics of the
Rust language. -/
abbrev Bits (T : Layout) := {bs : List Byte // bs.length = T.size}

/-- All of the memory, and the destructors run so far (in order). Not code of the repository: the
state that the program of the user and the library have together. -/
structure BHeap (T : Layout) where
  mem : Mem
  log : List (Bits T)

namespace Bytes
variable {T : Layout}

/-- `core::ptr::read`: copies the bytes. -/
def read (b : BHeap T) (p : Nat) : Bits T := ⟨(List.range T.size).map fun i => b.mem (p + i), by simp⟩
/-- `core::ptr::write`. -/
def write (b : BHeap T) (p : Nat) (v : Bits T) : BHeap T := { b with mem := writeBytes b.mem p v.1 }
/-- Drop of a variable. Not code of the repository: the semantics of the Rust language. -/
def dropValue (panics : Bits T → Bool) (b : BHeap T) (v : Bits T) : Bool × BHeap T := (panics v, { b with log := b.log ++ [v] })
/-- `core::ptr::drop_in_place` of one element. -/
def dropInPlace (panics : Bits T → Bool) (b : BHeap T) (p : Nat) : Bool × BHeap T := dropValue panics b (read b p)
/-- `core::ptr::copy`, of `n` elements. -/
def copy (b : BHeap T) (src dst n : Nat) : BHeap T := { b with mem := writeBytes b.mem dst (readBytes b.mem src (n * T.size)) }
/-- Code of the user that writes values one after the other, beginning at `p`; see `FVec.writeAll`.
Not code of the repository: the program of the user, any sequence of these. -/
def writeAll : BHeap T → Nat → List (Bits T) → BHeap T
  | b, _, [] => b
  | b, p, v :: vs => writeAll (write b p v) (p + T.size) vs
/-- `drop_in_place::<[T]>`, see `FVec.dropSlice`. Not code of the repository: the semantics of the
Rust language. -/
def dropSlice (panics : Bits T → Bool) : Nat → Bool → Nat → BHeap T → Ended × BHeap T
  | _, unwinding, 0, b => (if unwinding then .panic else .ok, b)
  | p, unwinding, n + 1, b =>
    if (dropInPlace panics b p).1 && unwinding then (.abort, (dropInPlace panics b p).2)
    else dropSlice panics (p + T.size) (unwinding || (dropInPlace panics b p).1) n (dropInPlace panics b p).2
/-- Read of `n` elements from `p`. Not code of the repository: the semantics of the Rust language.
-/
def readSlice (b : BHeap T) : Nat → Nat → List (Bits T)
  | _, 0 => []
  | p, n + 1 => read b p :: readSlice b (p + T.size) n

/-- `as_slice` and the like, fixed_vec.rs:173-188, 509-521, 598-620. -/
def asSlice (b : BHeap T) (f : FixedVec) : List (Bits T) := readSlice b f.uninit.addr f.length

/-- The loop of `truncate`, fixed_vec.rs:162-169. -/
def truncateLoop (panics : Bits T → Bool) : Nat → Nat → Nat → BHeap T → Bool × Nat × BHeap T
  | 0, _, localLen, b => (false, localLen, b)
  | n + 1, ptr, localLen, b =>
    if (dropInPlace panics b (ptr - T.size)).1 then (true, localLen - 1, (dropInPlace panics b (ptr - T.size)).2)
    else truncateLoop panics n (ptr - T.size) (localLen - 1) (dropInPlace panics b (ptr - T.size)).2

/-- `truncate`, fixed_vec.rs:146-170. -/
def truncate (panics : Bits T → Bool) (f : FixedVec) (b : BHeap T) (len : Nat) : Bool × FixedVec × BHeap T :=
  let (pk, localLen, b) := truncateLoop panics (f.length - len) f.endMutPtr f.length b
  (pk, { f with length := localLen }, b)
/-- `clear`, fixed_vec.rs:195-197. -/
def clear (panics : Bits T → Bool) (f : FixedVec) (b : BHeap T) : Bool × FixedVec × BHeap T := truncate panics f b 0

/-- `push`, fixed_vec.rs:242-257. -/
def push (t : Target) (f : FixedVec) (b : BHeap T) (v : Bits T) : Outcome (Except (Bits T) Unit × FixedVec × BHeap T) :=
  if f.length = t.usizeMax then .ret (.error v, f, b)
  else do
    let (_, tail) ← f.headTailMut t
    match ← tail.splitFirst t with
    | none => pure (.error v, f, b)
    | some (_, init) => pure (.ok (), { f with length := f.length + 1 }, write b init.addr v)

/-- `pop`, fixed_vec.rs:260-273. -/
def pop (t : Target) (f : FixedVec) (b : BHeap T) : Outcome (Option (Bits T) × FixedVec) :=
  if f.length = 0 then .ret (none, f)
  else do
    let (head, _) ← f.headTailMut t
    match ← head.splitLast t with
    | none => .panic
    | some (_, last) => pure (some (read b last.addr), { f with length := f.length - 1 })

/-- The loop of `fill`, fixed_vec.rs:347-358. -/
def fillLoop (f : FixedVec) (b : BHeap T) (it : Iter (Bits T)) : Nat → Bool × FixedVec × BHeap T × Iter (Bits T)
  | 0 => (false, f, b, it)
  | n + 1 =>
    match it.poll it.pos with
    | .done => (false, f, b, { it with pos := it.pos + 1 })
    | .panic => (true, f, b, { it with pos := it.pos + 1 })
    | .item v => fillLoop { f with length := f.length + 1 } (write b f.endMutPtr v) { it with pos := it.pos + 1 } n
/-- `fill`, fixed_vec.rs:342-360. -/
def fill (t : Target) (f : FixedVec) (b : BHeap T) (it : Iter (Bits T)) : Bool × FixedVec × BHeap T × Iter (Bits T) :=
  fillLoop f b it (f.capacity t - f.len)
/-- `extend`, fixed_vec.rs:720-728. -/
def extend (t : Target) (panics : Bits T → Bool) (f : FixedVec) (b : BHeap T) (it : Iter (Bits T)) : Ended × FixedVec × BHeap T × Iter (Bits T) :=
  match fill t f b it with
  | (true, f, b, it) => (.panic, f, b, it)
  | (false, f, b, it) =>
    match it.poll it.pos with
    | .done => (.ok, f, b, { it with pos := it.pos + 1 })
    | .panic => (.panic, f, b, { it with pos := it.pos + 1 })
    | .item v =>
      let (pk, b) := dropValue panics b v
      (if pk then .abort else .panic, f, b, { it with pos := it.pos + 1 })

/-- `Drop for FixedVec`, fixed_vec.rs:523-529. -/
def drop (panics : Bits T → Bool) (f : FixedVec) (b : BHeap T) : Ended × BHeap T := dropSlice panics f.uninit.addr false f.length b
/-- `Index::index`, fixed_vec.rs:531-539. -/
def index (b : BHeap T) (f : FixedVec) (i : Nat) : Outcome (Bits T) := if i < f.length then .ret (read b (f.uninit.addr + i * T.size)) else .panic
/-- `core::mem::replace(&mut vec[i], v)`, fixed_vec.rs:541-547. -/
def replace (f : FixedVec) (b : BHeap T) (i : Nat) (v : Bits T) : Outcome (Bits T × BHeap T) :=
  if i < f.length then .ret (read b (f.uninit.addr + i * T.size), write b (f.uninit.addr + i * T.size) v) else .panic

/-- `Drain::as_slice`, `as_mut_slice`, fixed_vec.rs:476-496. -/
def drainSlice (b : BHeap T) (d : Drain) : List (Bits T) := readSlice b (d.elements + d.start * T.size) d.len
/-- `core::mem::replace(&mut drain.as_mut_slice()[k], v)`, fixed_vec.rs:489-496. -/
def drainReplace (b : BHeap T) (d : Drain) (k : Nat) (v : Bits T) : Outcome (Bits T × BHeap T) :=
  if k < d.len then .ret (read b (d.elements + d.start * T.size + k * T.size), write b (d.elements + d.start * T.size + k * T.size) v) else .panic
/-- `Drain::next`, fixed_vec.rs:625-637. -/
def next (b : BHeap T) (d : Drain) : Option (Bits T) × Drain :=
  if d.isEmpty then (none, d) else (some (read b (d.elements + d.start * T.size)), { d with start := d.start + 1 })
/-- `Drain::next_back`, fixed_vec.rs:645-657. -/
def nextBack (b : BHeap T) (d : Drain) : Option (Bits T) × Drain :=
  if d.isEmpty then (none, d) else (some (read b (d.elements + (d.end_ - 1) * T.size)), { d with end_ := d.end_ - 1 })
/-- `self.for_each(drop)`, fixed_vec.rs:670. -/
def dropItems (panics : Bits T → Bool) : Nat → Drain → BHeap T → Bool × Drain × BHeap T
  | 0, d, b => (false, d, b)
  | n + 1, d, b =>
    match next b d with
    | (none, d) => (false, d, b)
    | (some v, d) => if (dropValue panics b v).1 then (true, d, (dropValue panics b v).2) else dropItems panics n d (dropValue panics b v).2
/-- `Drop for Drain`, fixed_vec.rs:668-681. -/
def dropDrain (panics : Bits T → Bool) (d : Drain) (length : Nat) (b : BHeap T) : Bool × Nat × BHeap T :=
  match dropItems panics d.len d b with
  | (true, _, b) => (true, length, b)
  | (false, d, b) => if d.tailLen ≠ 0 then (false, length + d.tailLen, copy b (d.elements + d.tail * T.size) d.elements d.tailLen) else (false, length, b)

end Bytes

/-- As `World`, with the bytes of all of the memory. Not code of the repository: the state that the
program of the user and the library have together. -/
structure BWorld (T : Layout) where
  heap : BHeap T
  ents : Nat → Option Entry
  next : Nat

namespace Bytes
variable {T : Layout}

/-- Not code of the repository: an auxiliary function of the machine. -/
def set (w : BWorld T) (i : Nat) (e : Option Entry) : BWorld T := { w with ents := fun x => if x = i then e else w.ents x }

/-- An operation on a vector that is not in use by a borrow. Calls of the public methods; each case
cites the method it runs. (without-alloc/src/fixed_vec.rs:118-469.) -/
def execVec (t : Target) (checks : Bool) (panics : Bits T → Bool) (w : BWorld T) (i : Nat) (e : Entry) : Op (Bits T) → Outcome (Resp (Bits T) × BWorld T)
  | .push _ v => do let (r, f, h) ← push t e.vec w.heap v; pure (.pushed r, { set w i (some { e with vec := f }) with heap := h })
  | .pop _ => do let (r, f) ← pop t e.vec w.heap; pure (.opt r, set w i (some { e with vec := f }))
  | .truncate _ n => let (pk, f, h) := truncate panics e.vec w.heap n; .ret (panicked pk, { set w i (some { e with vec := f }) with heap := h })
  | .clear _ => let (pk, f, h) := clear panics e.vec w.heap; .ret (panicked pk, { set w i (some { e with vec := f }) with heap := h })
  | .fill _ it =>
    let (pk, f, h, it') := fill t e.vec w.heap it
    .ret (if pk then .panicAt (it'.pos - it.pos) else .num (it'.pos - it.pos), { set w i (some { e with vec := f }) with heap := h })
  | .extend _ it =>
    let (end_, f, h, it') := extend t panics e.vec w.heap it
    .ret (end_.respAt (it'.pos - it.pos), { set w i (some { e with vec := f }) with heap := h })
  | .setLen _ vs n => .ret (.unit, { set w i (some { e with vec := e.vec.setLen n }) with heap := writeAll w.heap (e.vec.asMutPtr + e.vec.len * T.size) vs })
  | .len _ => .ret (.num e.vec.len, w)
  | .capacity _ => .ret (.num (e.vec.capacity t), w)
  | .isEmpty _ => .ret (.bool e.vec.isEmpty, w)
  | .slice _ => .ret (.vals (asSlice w.heap e.vec), w)
  | .index _ k => match index w.heap e.vec k with | .ret v => .ret (.val v, w) | .panic => .ret (.panic, w) | .ub => .ub
  | .replace _ k v =>
    match replace e.vec w.heap k v with
    | .ret (old, h) => .ret (.val old, { w with heap := h })
    | .panic => let (pk, h) := dropValue panics w.heap v; .ret (if pk then .abort 0 else .panic, { w with heap := h })
    | .ub => .ub
  | .splitBorrowed _ n =>
    match e.vec.splitBorrowed t n with
    | .ret (f, g) => .ret (.num w.next, { set (set w i (some { e with vec := f })) w.next (some ⟨g, none, i :: e.borrows⟩) with next := w.next + 1 })
    | .panic => .ret (.panic, w)
    | .ub => .ub
  | .splitShrink _ n =>
    match e.vec.splitAndShrinkTo t n with
    | .ret (f, g) => .ret (.num w.next, { set (set w i (some { e with vec := f })) w.next (some ⟨g, none, e.borrows⟩) with next := w.next + 1 })
    | .panic => .ret (.panic, w)
    | .ub => .ub
  | .shrinkToFit _ => do let (f, _) ← e.vec.shrinkToFit t; pure (.unit, set w i (some { e with vec := f }))
  | .drain _ lo hi =>
    match e.vec.drain t checks lo hi with
    | .ret (f, d) => .ret (.unit, set w i (some { e with vec := f, drain := some d }))
    | .panic => .ret (.panic, w)
    | .ub => .ub
  | .drop _ => let (r, h) := drop panics e.vec w.heap; .ret (r.resp, { set w i none with heap := h })
  | .forget _ => .ret (.unit, set w i none)
  | _ => .ub

/-- An operation on a drain. Calls of the public methods; each case cites the method it runs.
(without-alloc/src/fixed_vec.rs:471-508, 622-718.) -/
def execDrain (panics : Bits T → Bool) (w : BWorld T) (i : Nat) (e : Entry) (d : Drain) : Op (Bits T) → Outcome (Resp (Bits T) × BWorld T)
  | .next _ => let (r, d) := next w.heap d; .ret (.opt r, set w i (some { e with drain := some d }))
  | .nextBack _ => let (r, d) := nextBack w.heap d; .ret (.opt r, set w i (some { e with drain := some d }))
  | .drainLen _ => .ret (.num d.len, w)
  | .drainSlice _ => .ret (.vals (drainSlice w.heap d), w)
  | .drainReplace _ k v =>
    match drainReplace w.heap d k v with
    | .ret (old, h) => .ret (.val old, { w with heap := h })
    | .panic => let (pk, h) := dropValue panics w.heap v; .ret (if pk then .abort 0 else .panic, { w with heap := h })
    | .ub => .ub
  | .dropDrain _ =>
    let (pk, length, h) := dropDrain panics d e.vec.length w.heap
    .ret (panicked pk, { set w i (some { e with vec := { e.vec with length := length }, drain := none }) with heap := h })
  | .forgetDrain _ => .ret (.unit, set w i (some { e with drain := none }))
  | _ => .ub

/-- One call. Calls of the public methods; each case cites the method it runs. -/
def exec (t : Target) (checks : Bool) (panics : Bits T → Bool) (w : BWorld T) (op : Op (Bits T)) : Outcome (Resp (Bits T) × BWorld T) :=
  match op with
  | .new addr len =>
    match (fromMemory addr len).castSlice t T with
    | .ok u => .ret (.num w.next, { set w w.next (some ⟨FixedVec.new u, none, []⟩) with next := w.next + 1 })
    | .error _ => .ub
  | op =>
    match op.target with
    | none => .ub
    | some i =>
      match w.ents i with
      | none => .ub
      | some e =>
        match e.drain with
        | none => execVec t checks panics w i e op
        | some d => execDrain panics w i e d op

/-- A sequence of calls; it ends early if the process is aborted. Not code of the repository: the
program of the user, any sequence of these. -/
def run (t : Target) (checks : Bool) (panics : Bits T → Bool) : BWorld T → List (Op (Bits T)) → Outcome (List (Resp (Bits T)) × BWorld T)
  | w, [] => .ret ([], w)
  | w, op :: ops => do
    let (r, w) ← exec t checks panics w op
    match r with
    | .abort n => pure ([.abort n], w)
    | r => do
      let (rs, w) ← run t checks panics w ops
      pure (r :: rs, w)

/-- No vectors yet. Not code of the repository: the state that the program of the user and the
library have together. -/
def init (mem : Mem) : BWorld T := ⟨⟨mem, []⟩, fun _ => none, 0⟩

end Bytes
end Verif.FVec
