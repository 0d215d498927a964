import Verif.Spec.Nested
import Verif.Model.AllocExt
import Verif.Model.BumpGlobal
/-!
# Vectors in values in vectors

`FixedVec` (`/repo/without-alloc/src/fixed_vec.rs`) of a type that contains such a vector itself, `struct Node<'a> { id: usize, kids: FixedVec<'a, Node<'a>> }`, with vectors from `fixed_vec` (`/repo/without-alloc/src/alloc.rs:94-108`) of a shared `Bump`. The
memory is that of the model of `FixedVec`: the values that can be read at addresses, a write destroys all it overlaps. The bits of a value contain those of the vector, that is address, length of the memory and number of elements. Moving a value copies its
bits and leaves them, and so does dropping it, so a double drop shows in the log. The calls are made by one thread, one after the other.

The methods are those of the model of `FixedVec`, except for the ones that run destructors, as these run further destructors here. The recursion of destructors has a bound, the number of values made so far, and is `ub` if that is exceeded, which is proved
not to happen. The code of the type itself is that of the user: its layout is any of nonzero size.
-/
set_option autoImplicit false
namespace Verif.Nested
open Linked (Ended var)
open FVec (FixedVec Drain Heap)

/-- The bits of a value. Not code of the repository: a value of a type of the user, with a vector as
field. -/
structure Node where
  id : Nat
  kids : FixedVec
  deriving DecidableEq, Repr

/-- `drop_in_place::<[T]>`: the elements in order; the language drops the remaining ones also if one
of them unwinds, and then aborts if another one does. `drop` is `drop_in_place` of an element. Not
code of the repository: the semantics of the Rust language. -/
def dropSlice (T : Layout) (mem : Nat → Option Node) (drop : Bool → List Nat → Node → Outcome (Ended × List Nat)) : Nat → Bool → Nat → List Nat → Outcome (Ended × List Nat)
  | _, unwinding, 0, log => .ret (if unwinding then .unwound else .ok, log)
  | p, unwinding, n + 1, log => match mem p with
    | none => .ub
    | some v => do
      match ← drop unwinding log v with
      | (.aborted, log) => pure (.aborted, log)
      | (.unwound, log) => dropSlice T mem drop (p + T.size) true n log
      | (.ok, log) => dropSlice T mem drop (p + T.size) false n log

/-- `drop_in_place` of a value with these bits: the destructor of the user, then that of the field,
`Drop for FixedVec`, fixed_vec.rs:523-529, which is `drop_in_place` of `as_mut_slice`, 173-178. A
panic while unwinding aborts the program. -/
def dropNode (panics : Nat → Bool) (mem : Nat → Option Node) : Nat → Bool → List Nat → Node → Outcome (Ended × List Nat)
  | 0, _, _, _ => .ub
  | depth + 1, unwinding, log, n =>
    if panics n.id && unwinding then .ret (.aborted, log ++ [n.id])
    else dropSlice n.kids.uninit.T mem (dropNode panics mem depth) n.kids.asMutPtr (unwinding || panics n.id) n.kids.length (log ++ [n.id])

/-- The loop of `truncate`, fixed_vec.rs:162-169: `n` rounds left; gives the local length, which `SetLenOnDrop` writes back also when a destructor unwinds. -/
def truncateLoop (T : Layout) (mem : Nat → Option Node) (drop : List Nat → Node → Outcome (Ended × List Nat)) : Nat → Nat → Nat → List Nat → Outcome (Ended × Nat × List Nat)
  | 0, _, localLen, log => .ret (.ok, localLen, log)
  | n + 1, ptr, localLen, log =>
    let localLen := localLen - 1
    let ptr := ptr - T.size
    match mem ptr with
    | none => .ub
    | some v => do
      match ← drop log v with
      | (.ok, log) => truncateLoop T mem drop n ptr localLen log
      | (r, log) => pure (r, localLen, log)

/-- `truncate`, fixed_vec.rs:146-170. -/
def truncate (mem : Nat → Option Node) (drop : List Nat → Node → Outcome (Ended × List Nat)) (f : FixedVec) (len : Nat) (log : List Nat) : Outcome (Ended × FixedVec × List Nat) := do
  let (r, localLen, log) ← truncateLoop f.uninit.T mem drop (f.length - len) f.endMutPtr f.length log
  pure (r, { f with length := localLen }, log)

/-- `n` calls of `Drain::next` (fixed_vec.rs:625-637), whose values go to variables. Not code of the
repository: the program of the user. -/
def takeFront (T : Layout) (h : Heap Node) : Nat → Drain → Outcome (List Node × Drain)
  | 0, d => .ret ([], d)
  | n + 1, d => do
    match ← d.next T h with
    | (none, d) => pure ([], d)
    | (some v, d) => do
      let (vs, d) ← takeFront T h n d
      pure (v :: vs, d)
/-- `n` calls of `Drain::next_back` (fixed_vec.rs:645-657). Not code of the repository: the program
of the user. -/
def takeBack (T : Layout) (h : Heap Node) : Nat → Drain → Outcome (List Node × Drain)
  | 0, d => .ret ([], d)
  | n + 1, d => do
    match ← d.nextBack T h with
    | (none, d) => pure ([], d)
    | (some v, d) => do
      let (vs, d) ← takeBack T h n d
      pure (v :: vs, d)

/-- `self.for_each(drop)`, fixed_vec.rs:670, until the iterator is empty (at most `n` items) or a destructor unwinds. -/
def dropItems (T : Layout) (h : Heap Node) (drop : List Nat → Node → Outcome (Ended × List Nat)) : Nat → Drain → List Nat → Outcome (Ended × Drain × List Nat)
  | 0, d, log => .ret (.ok, d, log)
  | n + 1, d, log => do
    match ← d.next T h with
    | (none, d) => pure (.ok, d, log)
    | (some v, d) => do
      match ← drop log v with
      | (.ok, log) => dropItems T h drop n d log
      | (r, log) => pure (r, d, log)
/-- `Drop for Drain`, fixed_vec.rs:668-681. `length` is the field of the vector. If a destructor unwinds the rest of `drop` is not executed. -/
def dropDrain (T : Layout) (h : Heap Node) (drop : List Nat → Node → Outcome (Ended × List Nat)) (d : Drain) (length : Nat) (log : List Nat) : Outcome (Ended × Nat × Heap Node × List Nat) := do
  let (r, d, log) ← dropItems T h drop d.len d log
  if r ≠ .ok then pure (r, length, h, log)
  else if d.tailLen ≠ 0 then pure (.ok, length + d.tailLen, FVec.copy T h (d.elements + d.tail * T.size) d.elements d.tailLen, log)
  else pure (.ok, length, h, log)

/-- Memory, the variables, the level `consumed` of the bump (static-alloc/src/bump.rs:152), the
number of values made, and the destructors that were run. Not code of the repository: the state that
the program of the user and the library have together. -/
structure World where
  mem : Nat → Option Node
  vals : List (Option Node)
  level : Nat
  made : Nat
  log : List Nat
  aborted : Bool

/-- Not code of the repository: the state in which the program starts. -/
def World.init (level : Nat) (mem : Nat → Option Node) : World := ⟨mem, [], level, 0, [], false⟩

/-- Memory as the methods of `FixedVec` use it; its own log is not used. Not code of the repository:
an auxiliary function of the machine. -/
def World.heap (w : World) : Heap Node := ⟨w.mem, []⟩

/-- Following the indices from the value `n` at this place (`none`: in the variable), with
`Index`/`IndexMut`, fixed_vec.rs:531-547: the place and the bits found there. The user checks with
`len` (fixed_vec.rs:200-202) that there is such an element. -/
def World.walk (w : World) (place : Option Nat) (n : Node) : List Nat → Outcome (Option (Option Nat × Node))
  | [] => .ret (some (place, n))
  | i :: path =>
    if i < n.kids.len then do
      let k ← n.kids.index w.heap i
      w.walk (some (n.kids.asMutPtr + i * n.kids.uninit.T.size)) k path
    else .ret none

/-- The value at this place, in variable `v` or in memory, is now `n`. Not code of the repository:
the semantics of the Rust language. -/
def World.store (L : Layout) (w : World) (v : Nat) (place : Option Nat) (n : Node) : World := match place with
  | none => { w with vals := w.vals.set v (some n) }
  | some p => { w with mem := FVec.writeBits L w.mem p (some n) }

/-- `drop` of a value. Not code of the repository: the semantics of the Rust language. -/
def World.dropOne (panics : Nat → Bool) (w : World) (log : List Nat) (n : Node) : Outcome (Ended × List Nat) := dropNode panics w.mem w.made false log n

/-- What is done with the value at a path. Not code of the repository: an auxiliary function of the
machine. -/
def World.onValue (w : World) (v : Nat) (path : List Nat) (f : Option Nat → Node → Outcome (Resp × World)) : Outcome (Resp × World) :=
  match var w.vals v with
  | none => pure (.absent, w)
  | some n => do
    match ← w.walk none n path with
    | none => pure (.absent, w)
    | some (place, x) => f place x

/-- One operation of the program. `make`: alloc.rs:94-108. `push`: fixed_vec.rs:242-257. `pop`: 260-273. `truncate`: 146-170. `drain`: 369-409, with `next`, `next_back` and `Drop for Drain`, 625-681. `split`: 326-337. `len`, `capacity`: 200-216. The other ones
are moves, which copy the bits. -/
def exec (e : Bump.Env) (L : Layout) (panics : Nat → Bool) (w : World) : Op → Outcome (Resp × World)
  | .make cap => do
    match ← AllocExt.fixedVec e.target (Bump.localAlloc e) w.level (fun _ => 0) L cap with
    | (none, c, _) => pure (.full, { w with level := c })
    | (some f, c, _) => pure (.var w.vals.length, { w with vals := w.vals ++ [some ⟨w.made, f⟩], level := c, made := w.made + 1 })
  | .alloc L' => do
    match ← Bump.tryAllocSeq e w.level L' with
    | (none, c) => pure (.full, { w with level := c })
    | (some _, c) => pure (.unit, { w with level := c })
  | .push v path u => w.onValue v path fun place x => match var (w.vals.set v none) u with
    | none => pure (.absent, w)
    | some y => do
      match ← x.kids.push e.target w.heap y with
      | (.error y, f, h) => pure (.full, { w with mem := h.mem, vals := w.vals.set u (some y) }.store L v place { x with kids := f })
      | (.ok (), f, h) => pure (.unit, { w with mem := h.mem, vals := w.vals.set u none }.store L v place { x with kids := f })
  | .pop v path => w.onValue v path fun place x => do
    match ← x.kids.pop e.target w.heap with
    | (none, f) => pure (.absent, w.store L v place { x with kids := f })
    | (some y, f) =>
      let w' := w.store L v place { x with kids := f }
      pure (.var w.vals.length, { w' with vals := w'.vals ++ [some y] })
  | .truncate v path n => w.onValue v path fun place x => do
    let (r, f, log) ← truncate w.mem (w.dropOne panics) x.kids n w.log
    pure (resp .unit r, { w with log := log, aborted := r = Ended.aborted }.store L v place { x with kids := f })
  | .drain v path a b front back => w.onValue v path fun place x =>
    match x.kids.drain e.target true (.included a) (.excluded b) with
    | .ub => .ub
    | .panic => .ret (.panicked, w)
    | .ret (f, d) => do
      let (first, d) ← takeFront L w.heap front d
      let (last, d) ← takeBack L w.heap back d
      let (r, length, h, log) ← dropDrain L w.heap (w.dropOne panics) d f.length w.log
      let w' := { w with mem := h.mem, log := log, aborted := r = Ended.aborted }.store L v place { x with kids := { f with length := length } }
      pure (resp (.num (first.length + last.length)) r, { w' with vals := w'.vals ++ (first ++ last).map some })
  | .drainForget v path a b => w.onValue v path fun place x =>
    match x.kids.drain e.target true (.included a) (.excluded b) with
    | .ub => .ub
    | .panic => .ret (.panicked, w)
    | .ret (f, _) => .ret (.unit, w.store L v place { x with kids := f })
  | .swap v path u => w.onValue v path fun place x => match var (w.vals.set v none) u with
    | none => pure (.absent, w)
    | some y => pure (.unit, { w with vals := w.vals.set u (some x) }.store L v place y)
  | .split v path n => w.onValue v path fun place x =>
    match x.kids.splitAndShrinkTo e.target n with
    | .ub => .ub
    | .panic => .ret (.panicked, w)
    | .ret (f, g) =>
      let w' := w.store L v place { x with kids := f }
      .ret (.var w.vals.length, { w' with vals := w'.vals ++ [some ⟨w.made, g⟩], made := w.made + 1 })
  | .read v path => w.onValue v path fun _ x => pure (.num x.id, w)
  | .len v path => w.onValue v path fun _ x => pure (.num x.kids.len, w)
  | .capacity v path => w.onValue v path fun _ x => pure (.num (x.kids.capacity e.target), w)
  | .drop v => match var w.vals v with
    | none => pure (.absent, w)
    | some n => do
      let (r, log) ← w.dropOne panics w.log n
      pure (resp .unit r, { w with vals := w.vals.set v none, log := log, aborted := r = .aborted })
  | .forget v => match var w.vals v with
    | none => pure (.absent, w)
    | some _ => pure (.unit, { w with vals := w.vals.set v none })

/-- A program; it ends when it is aborted. Not code of the repository: the program of the user, any
sequence of these. -/
def run (e : Bump.Env) (L : Layout) (panics : Nat → Bool) : World → List Op → Outcome (List Resp × World)
  | w, [] => .ret ([], w)
  | w, op :: ops => do
    let (r, w) ← exec e L panics w op
    if w.aborted then pure ([r], w) else do
    let (rs, w) ← run e L panics w ops
    pure (r :: rs, w)

/-- The layout in another allocation is valid, and not zero-sized. Not code of the repository: what
the language, or the documented contract of the methods, demands of callers. -/
def Op.Valid (t : Target) : Op → Prop
  | .alloc L => L.Valid t ∧ 0 < L.size
  | _ => True

end Verif.Nested
