import Verif.Model.VecBorrows
/-! # The pointers of `Rc` and `Weak`

`without-alloc/src/rc.rs` again, with the provenance of each pointer. All `Rc` and `Weak` to a value have the pointer of the memory which the first was
made in; which references they make of it differs: `Rc` makes references to the whole `RcBox`, `Weak` only to the counters. Memory is the bytes with
their borrow stacks (`Spec/Borrows`), and the numbers in the two counters. `none`: undefined behaviour. Simplified: the value contains no `UnsafeCell`;
the counters are natural numbers (their overflow: C57); `ptr_eq` accesses nothing. -/
set_option autoImplicit false
namespace Verif.RcBorrows
open Verif.Borrows
open Verif.VecBorrows (Ref keepRefs endRefs endMutRefs)

/-- `RcBox<T>` (rc.rs:48-64) in memory from `lo` below `hi`: the value from `lo` below `vhi`, then the counters; `tag` is that of the pointer to the memory (`Uninit`, uninit.rs:27-60). -/
structure Box where
  lo : Nat
  vhi : Nat
  slo : Nat
  shi : Nat
  wlo : Nat
  whi : Nat
  hi : Nat
  tag : Nat

/-- What a handle is: `Rc`, `Weak`, the `Uninit<T>` of `Rc::into_raw`, an `Uninit<()>`, an `Rc` whose destructor runs that of the value, or nothing any more. Not code of the repository. -/
inductive Kind where
  | rc
  | weak
  | raw
  | mem
  | dying
  | gone
  deriving DecidableEq, Repr

/-- A pointer (`Rc`, rc.rs:24-31, `Weak`, rc.rs:41-46, `Uninit`) to the box with the number `box`. -/
structure Handle where
  box : Nat
  kind : Kind
  deriving DecidableEq, Repr

/-- Stacks and counters, by number of the box. Not code of the repository. -/
structure Heap where
  mem : Mem
  strong : Nat → Nat
  weak : Nat → Nat

/-- Which bytes of a box are in `UnsafeCell`s: the counters (rc.rs:55-63). -/
def Box.cell (B : Box) (b : Nat) : Bool := decide (B.slo ≤ b ∧ b < B.shi) || decide (B.wlo ≤ b ∧ b < B.whi)

/-- `Rc::inner` (rc.rs:304-308): the tag of the `&RcBox`. -/
def inner (B : Box) (m : Mem) : Option (Nat × Mem) := m.retagShared B.cell B.tag B.lo B.hi

/-- Access to a counter through `Rc::inner`: `self.inner().strong.get()` and the like (rc.rs:250-257, 329-347). -/
def rcTouch (B : Box) (lo hi : Nat) (a : Access) (m : Mem) : Option Mem := do
  let (c, m) ← inner B m
  let (c, m) ← m.retagCell c lo hi
  m.access a c lo hi

/-- Access to a counter by `Weak::strong`, `Weak::weak` (rc.rs:466-478). -/
def weakTouch (B : Box) (lo hi : Nat) (a : Access) (m : Mem) : Option Mem := do
  let (c, m) ← m.retagCell B.tag lo hi
  m.access a c lo hi

/-- Write of a counter. Not code of the repository. -/
def upd (f : Nat → Nat) (k v : Nat) : Nat → Nat := fun i => if i = k then v else f i

/-- `Rc::strong_count` (rc.rs:255-257). -/
def rcStrong (B : Box) (k : Nat) (h : Heap) : Option (Nat × Heap) := do
  let m ← rcTouch B B.slo B.shi .read h.mem
  pure (h.strong k, { h with mem := m })

/-- `Rc::weak_count` (rc.rs:250-252). -/
def rcWeak (B : Box) (k : Nat) (h : Heap) : Option (Nat × Heap) := do
  let m ← rcTouch B B.wlo B.whi .read h.mem
  pure (h.weak k, { h with mem := m })

/-- `self.inner().strong.set` (rc.rs:331, 336). -/
def rcSetStrong (B : Box) (k v : Nat) (h : Heap) : Option Heap := do
  let m ← rcTouch B B.slo B.shi .write h.mem
  pure { h with mem := m, strong := upd h.strong k v }

/-- `self.inner().weak.set` (rc.rs:341, 346). -/
def rcSetWeak (B : Box) (k v : Nat) (h : Heap) : Option Heap := do
  let m ← rcTouch B B.wlo B.whi .write h.mem
  pure { h with mem := m, weak := upd h.weak k v }

/-- `Rc::inc_strong` (rc.rs:329-332). -/
def incStrong (B : Box) (k : Nat) (h : Heap) : Option Heap := do
  let (v, h) ← rcStrong B k h
  rcSetStrong B k (v + 1) h

/-- `Rc::dec_strong` (rc.rs:334-337). -/
def decStrong (B : Box) (k : Nat) (h : Heap) : Option Heap := do
  let (v, h) ← rcStrong B k h
  rcSetStrong B k (v - 1) h

/-- `Rc::inc_weak` (rc.rs:339-342). -/
def incWeak (B : Box) (k : Nat) (h : Heap) : Option Heap := do
  let (v, h) ← rcWeak B k h
  rcSetWeak B k (v + 1) h

/-- `Rc::dec_weak` (rc.rs:344-347). -/
def decWeak (B : Box) (k : Nat) (h : Heap) : Option Heap := do
  let (v, h) ← rcWeak B k h
  rcSetWeak B k (v - 1) h

/-- `Rc::is_unique` (rc.rs:310-312). -/
def isUnique (B : Box) (k : Nat) (h : Heap) : Option (Bool × Heap) := do
  let (v, h) ← rcStrong B k h
  if v = 1 then
    let (v, h) ← rcWeak B k h
    pure (v == 1, h)
  else pure (false, h)

/-- `Weak::strong_count` (rc.rs:436-438). -/
def weakStrong (B : Box) (k : Nat) (h : Heap) : Option (Nat × Heap) := do
  let m ← weakTouch B B.slo B.shi .read h.mem
  pure (h.strong k, { h with mem := m })

/-- `Weak::weak_count` (rc.rs:457-459). -/
def weakWeak (B : Box) (k : Nat) (h : Heap) : Option (Nat × Heap) := do
  let m ← weakTouch B B.wlo B.whi .read h.mem
  pure (h.weak k, { h with mem := m })

/-- `self.weak().set` (rc.rs:482, 487). -/
def weakSetWeak (B : Box) (k v : Nat) (h : Heap) : Option Heap := do
  let m ← weakTouch B B.wlo B.whi .write h.mem
  pure { h with mem := m, weak := upd h.weak k v }

/-- `Weak::inc_weak` (rc.rs:480-483). -/
def weakInc (B : Box) (k : Nat) (h : Heap) : Option Heap := do
  let (v, h) ← weakWeak B k h
  weakSetWeak B k (v + 1) h

/-- `Weak::dec_weak` (rc.rs:485-488), `Drop for Weak` (rc.rs:566-571). -/
def weakDec (B : Box) (k : Nat) (h : Heap) : Option Heap := do
  let (v, h) ← weakWeak B k h
  weakSetWeak B k (v - 1) h

/-- `Weak::is_unique_to_rc_memory` (rc.rs:461-463). -/
def isUniqueMem (B : Box) (k : Nat) (h : Heap) : Option (Bool × Heap) := do
  let (v, h) ← weakStrong B k h
  if v = 0 then
    let (v, h) ← weakWeak B k h
    pure (v == 1, h)
  else pure (false, h)

/-- `Rc::new` (rc.rs:101-114) with `Uninit::init` (uninit.rs:315-327): writes, makes a `&mut` (unused). -/
def new (B : Box) (k : Nat) (h : Heap) : Option Heap := do
  let m ← h.mem.access .write B.tag B.lo B.hi
  let (_, m) ← m.retag true B.tag B.lo B.hi
  pure ⟨m, upd h.strong k 1, upd h.weak k 1⟩

/-- `Rc::deref` (rc.rs:536-538): the tag of the reference. -/
def deref (B : Box) (h : Heap) : Option (Nat × Heap) := do
  let (c, m) ← inner B h.mem
  let (t, m) ← m.retag false c B.lo B.vhi
  pure (t, { h with mem := m })

/-- `Rc::get_mut` (rc.rs:264-270). -/
def getMut (B : Box) (k : Nat) (h : Heap) : Option (Option Nat × Heap) := do
  let (u, h) ← isUnique B k h
  if u then
    let (t, m) ← h.mem.retag true B.tag B.lo B.vhi
    pure (some t, { h with mem := m })
  else pure (none, h)

/-- `Drop for Rc` (rc.rs:520-530): the tag of the `&mut` for the destructor of the value, if that is run. -/
def dropRc (B : Box) (k : Nat) (h : Heap) : Option (Option Nat × Heap) := do
  let h ← decStrong B k h
  let (v, h) ← rcStrong B k h
  if v = 0 then
    let h ← decWeak B k h
    let (t, m) ← h.mem.retag true B.tag B.lo B.vhi
    pure (some t, { h with mem := m })
  else pure (none, h)

/-- `Rc::try_unwrap` (rc.rs:178-192). -/
def tryUnwrap (B : Box) (k : Nat) (h : Heap) : Option (Bool × Heap) := do
  let (v, h) ← rcStrong B k h
  if v = 1 then
    let h ← decStrong B k h
    let m ← h.mem.access .read B.tag B.lo B.vhi
    pure (true, { h with mem := m })
  else pure (false, h)

/-- `Weak::upgrade` (rc.rs:408-417). -/
def upgrade (B : Box) (k : Nat) (h : Heap) : Option (Bool × Heap) := do
  let (v, h) ← weakStrong B k h
  if v = 0 then pure (false, h)
  else
    let h ← incStrong B k h
    pure (true, h)

/-- `Weak::try_unwrap` (rc.rs:371-385); the `Weak` is dropped at its end. -/
def weakTryUnwrap (B : Box) (k : Nat) (h : Heap) : Option (Bool × Heap) := do
  let (u, h) ← isUniqueMem B k h
  if u then
    let h ← weakDec B k h
    pure (true, h)
  else pure (false, h)

/-- The heap, the handles and the references to values. Not code of the repository. `owner` in a reference is the number of the handle. -/
structure St where
  heap : Heap
  handles : List Handle
  refs : List Ref

/-- What a program can do. Not code of the repository. -/
inductive Act where
  | new (i : Nat)
  | clone (i : Nat)
  | downgrade (i : Nat)
  | strongCount (i : Nat)
  | weakCount (i : Nat)
  | deref (i : Nat)
  | getMut (i : Nat)
  | dropRc (i : Nat)
  | endDrop (i : Nat)
  | tryUnwrap (i : Nat)
  | intoRaw (i : Nat)
  | fromRaw (i : Nat)
  | forget (i : Nat)
  | useRaw (i : Nat) (a : Access) (lo hi : Nat)
  | upgrade (i : Nat)
  | cloneWeak (i : Nat)
  | strongCountWeak (i : Nat)
  | weakCountWeak (i : Nat)
  | dropWeak (i : Nat)
  | tryUnwrapWeak (i : Nat)
  | use (r : Ref) (a : Access) (lo hi : Nat)
  | reborrow (r : Ref) (mutable : Bool) (lo hi : Nat)
  deriving DecidableEq, Repr

/-- The handle becomes something else, its references end. Not code of the repository. -/
def St.turn (s : St) (i : Nat) (x : Handle) (kind : Kind) (h : Heap) : St :=
  ⟨h, s.handles.set i ⟨x.box, kind⟩, endRefs i s.refs⟩

/-- A method with `&self` of the handle: its mutable references end. Not code of the repository. -/
def St.look (s : St) (i : Nat) (h : Heap) : St := { s with heap := h, refs := endMutRefs i s.refs }

/-- One call on the handle `i`, which is `x`, to the box `B`. Handles and references are bookkeeping. -/
def call (B : Box) (s : St) (i : Nat) (x : Handle) : Act → Option St
  | .new _ => do
    let h ← new B x.box s.heap
    pure (s.turn i x .rc h)
  /- `Clone for Rc` (rc.rs:563-568) -/
  | .clone _ => do
    let h ← incStrong B x.box s.heap
    pure { s.look i h with handles := s.handles ++ [⟨x.box, .rc⟩] }
  /- `Rc::downgrade` (rc.rs:213-216) -/
  | .downgrade _ => do
    let h ← incWeak B x.box s.heap
    pure { s.look i h with handles := s.handles ++ [⟨x.box, .weak⟩] }
  | .strongCount _ => do
    let (_, h) ← rcStrong B x.box s.heap
    pure (s.look i h)
  | .weakCount _ => do
    let (_, h) ← rcWeak B x.box s.heap
    pure (s.look i h)
  | .deref _ => do
    let (t, h) ← deref B s.heap
    pure { s.look i h with refs := ⟨t, false, B.lo, B.vhi, i, []⟩ :: endMutRefs i s.refs }
  | .getMut _ => do
    let (t, h) ← getMut B x.box s.heap
    match t with
    | none => pure { s with heap := h, refs := endRefs i s.refs }
    | some t => pure { s with heap := h, refs := ⟨t, true, B.lo, B.vhi, i, []⟩ :: endRefs i s.refs }
  | .dropRc _ => do
    let (t, h) ← dropRc B x.box s.heap
    match t with
    | none => pure (s.turn i x .gone h)
    | some t => pure { s.turn i x .dying h with refs := ⟨t, true, B.lo, B.vhi, i, []⟩ :: endRefs i s.refs }
  | .endDrop _ => pure (s.turn i x .gone s.heap)
  | .tryUnwrap _ => do
    let (u, h) ← tryUnwrap B x.box s.heap
    pure (s.turn i x (if u then .weak else .rc) h)
  /- `Rc::into_raw` (rc.rs:156-171) -/
  | .intoRaw _ => do
    let (u, h) ← isUnique B x.box s.heap
    pure (s.turn i x (if u then .raw else .rc) h)
  /- `Rc::from_raw` (rc.rs:122-129) -/
  | .fromRaw _ => pure (s.turn i x .rc s.heap)
  | .forget _ => pure (s.turn i x .mem s.heap)
  | .useRaw _ a lo hi => do
    let m ← s.heap.mem.access a B.tag lo hi
    pure { s with heap := { s.heap with mem := m }, refs := endRefs i s.refs }
  | .upgrade _ => do
    let (u, h) ← upgrade B x.box s.heap
    pure { s.look i h with handles := if u then s.handles ++ [⟨x.box, .rc⟩] else s.handles }
  /- `Clone for Weak` (rc.rs:596-601) -/
  | .cloneWeak _ => do
    let h ← weakInc B x.box s.heap
    pure { s.look i h with handles := s.handles ++ [⟨x.box, .weak⟩] }
  | .strongCountWeak _ => do
    let (_, h) ← weakStrong B x.box s.heap
    pure (s.look i h)
  | .weakCountWeak _ => do
    let (_, h) ← weakWeak B x.box s.heap
    pure (s.look i h)
  | .dropWeak _ => do
    let h ← weakDec B x.box s.heap
    pure (s.turn i x .gone h)
  | .tryUnwrapWeak _ => do
    let (u, h) ← weakTryUnwrap B x.box s.heap
    pure (s.turn i x (if u then .mem else .weak) h)
  | .use .. | .reborrow .. => some s

/-- The handle whose method this is. Not code of the repository. -/
def Act.handle : Act → Nat
  | .new i | .clone i | .downgrade i | .strongCount i | .weakCount i | .deref i | .getMut i | .dropRc i | .endDrop i | .tryUnwrap i | .intoRaw i | .fromRaw i
  | .forget i | .useRaw i .. | .upgrade i | .cloneWeak i | .strongCountWeak i | .weakCountWeak i | .dropWeak i | .tryUnwrapWeak i => i
  | .use r .. | .reborrow r .. => r.owner

/-- One action. `none` is undefined behaviour. Not code of the repository. -/
def step (bs : List Box) (s : St) (a : Act) : Option St :=
  match a with
  | .use r a lo hi => do
    let m ← s.heap.mem.access a r.tag lo hi
    pure { s with heap := { s.heap with mem := m }, refs := keepRefs a r.tag r.from_ lo hi s.refs }
  | .reborrow r mutable lo hi => do
    let (t, m) ← s.heap.mem.retag mutable r.tag lo hi
    pure { s with heap := { s.heap with mem := m },
                  refs := ⟨t, mutable, lo, hi, r.owner, r.tag :: r.from_⟩ :: keepRefs (if mutable then .write else .read) r.tag r.from_ lo hi s.refs }
  | a =>
    match s.handles[a.handle]? with
    | none => some s
    | some x =>
      match bs[x.box]? with
      | none => some s
      | some B => call B s a.handle x a

end Verif.RcBorrows
