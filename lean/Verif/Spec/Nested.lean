import Verif.Spec.Linked
/-!
# Values that contain vectors of such values

What is expected: a value owns the elements of the vector it contains, so values are trees. A vector has a capacity that was fixed when it was made. Nothing is said of memory but whether there is room in the slab.
-/
set_option autoImplicit false
namespace Verif.Nested
open Linked (Ended destroy var)

/-- A value: its identity, the capacity of its vector, and the elements of this. -/
inductive Tree where
  | node (id cap : Nat) (kids : List Tree)

def Tree.id : Tree → Nat | .node id _ _ => id
def Tree.cap : Tree → Nat | .node _ cap _ => cap
def Tree.kids : Tree → List Tree | .node _ _ kids => kids

mutual
/-- The values in the order of their destructors: first the value, then the elements of its vector. -/
def Tree.ids : Tree → List Nat
  | .node id _ kids => id :: idsAll kids
def idsAll : List Tree → List Nat
  | [] => []
  | t :: ts => t.ids ++ idsAll ts
end

/-- The value reached by these indices: an element of the vector, of the vector in this element, and so on. -/
def Tree.at : Tree → List Nat → Option Tree
  | t, [] => some t
  | .node _ _ kids, i :: path => match kids[i]? with | some k => k.at path | none => none
/-- The tree in which another value is at the path. -/
def Tree.put : Tree → List Nat → Tree → Tree
  | _, [], new => new
  | .node id cap kids, i :: path, new => match kids[i]? with | some k => .node id cap (kids.set i (k.put path new)) | none => .node id cap kids

/-- What a program does. Its variables have values and are numbered; `v path` is the value at this path in the variable `v`, whose vector is used. -/
inductive Op where
  /-- a new value with an empty vector of this capacity, from the bump -/
  | make (cap : Nat)
  /-- another allocation -/
  | alloc (L : Layout)
  /-- the value of variable `u` is pushed to the vector; if this is full then `u` has it again -/
  | push (v : Nat) (path : List Nat) (u : Nat)
  | pop (v : Nat) (path : List Nat)
  | truncate (v : Nat) (path : List Nat) (n : Nat)
  /-- `drain(a..b)`: this many elements are taken from its front, then this many from its back, then it is dropped -/
  | drain (v : Nat) (path : List Nat) (a b front back : Nat)
  /-- `drain(a..b)` that is forgotten at once -/
  | drainForget (v : Nat) (path : List Nat) (a b : Nat)
  /-- `mem::swap` of the value and the one in variable `u` -/
  | swap (v : Nat) (path : List Nat) (u : Nat)
  /-- `split_and_shrink_to(n)`: the elements and the room from there on become the vector of a new value -/
  | split (v : Nat) (path : List Nat) (n : Nat)
  | read (v : Nat) (path : List Nat)
  | len (v : Nat) (path : List Nat)
  | capacity (v : Nat) (path : List Nat)
  | drop (v : Nat)
  | forget (v : Nat)

/-- Destructors of some values are not to be run. -/
def Op.forgets : Op → Bool
  | .forget _ | .drainForget .. => true
  | _ => false
def Op.drains : Op → Bool
  | .drain .. => true
  | _ => false

/-- `absent`: there is no such variable or value; the program does nothing. `var`: the number of a new variable. `panicked`: the call panics (not a destructor). -/
inductive Resp where
  | absent | var (n : Nat) | full | num (n : Nat) | unit | panicked | unwound | aborted
  deriving DecidableEq, Repr

/-- The response when destructors were run. -/
def resp (done : Resp) : Ended → Resp
  | .ok => done | .unwound => .unwound | .aborted => .aborted

/-- Dropping values one by one, until a destructor panics. How it ended, the destructors run, and the values that are left. -/
def dropEach (panics : Nat → Bool) : List Nat → List Tree → Ended × List Nat × List Tree
  | log, [] => (.ok, log, [])
  | log, t :: ts => match destroy panics false log t.ids with
    | (.ok, log) => dropEach panics log ts
    | (r, log) => (r, log, ts)

/-- Variables, the level of the slab, the number of values made, the destructors run in order, and the values that were forgotten. -/
structure Spec where
  vals : List (Option Tree)
  level : Nat
  made : Nat
  log : List Nat
  leaked : List Nat
  aborted : Bool

def Spec.init (level : Nat) : Spec := ⟨[], level, 0, [], [], false⟩

/-- All values that are in variables or owned by these. -/
def Spec.held (s : Spec) : List Nat := idsAll (s.vals.filterMap id)

/-- The level after a vector of this capacity was allocated. Without capacity it needs no memory. -/
def room (slab : Slab) (L : Layout) (level cap : Nat) : Option Nat :=
  if cap = 0 then some level else (slab.place ⟨L.size * cap, L.align⟩ level).map (·.level)

/-- What is done with the value at a path. -/
def Spec.onValue (s : Spec) (v : Nat) (path : List Nat) (f : Tree → Tree → Resp × Spec) : Resp × Spec :=
  match var s.vals v with
  | none => (.absent, s)
  | some t => match t.at path with
    | none => (.absent, s)
    | some u => f t u

/-- `L`: the layout of the type of the values. -/
def Spec.exec (slab : Slab) (L : Layout) (panics : Nat → Bool) (s : Spec) : Op → Resp × Spec
  | .make cap => match room slab L s.level cap with
    | none => (.full, s)
    | some l => (.var s.vals.length, { s with vals := s.vals ++ [some (.node s.made cap [])], level := l, made := s.made + 1 })
  | .alloc L' => match slab.place L' s.level with
    | some a => (.unit, { s with level := a.level })
    | none => (.full, s)
  | .push v path u => s.onValue v path fun t x => match var (s.vals.set v none) u with
    | none => (.absent, s)
    | some y =>
      if x.kids.length < x.cap then (.unit, { s with vals := (s.vals.set v (some (t.put path (.node x.id x.cap (x.kids ++ [y]))))).set u none })
      else (.full, s)
  | .pop v path => s.onValue v path fun t x => match x.kids.getLast? with
    | none => (.absent, s)
    | some y => (.var s.vals.length, { s with vals := s.vals.set v (some (t.put path (.node x.id x.cap x.kids.dropLast))) ++ [some y] })
  | .truncate v path n => s.onValue v path fun t x =>
    let (r, log, rest) := dropEach panics s.log (x.kids.drop n).reverse
    (resp .unit r, { s with vals := s.vals.set v (some (t.put path (.node x.id x.cap (x.kids.take n ++ rest.reverse)))), log := log, aborted := r = .aborted })
  | .drain v path a b front back => s.onValue v path fun t x =>
    if a ≤ b ∧ b ≤ x.kids.length then
      let mid := (x.kids.take b).drop a
      let first := mid.take front
      let last := (mid.drop front).reverse.take back
      let (r, log, rest) := dropEach panics s.log ((mid.drop front).reverse.drop back).reverse
      let kids := x.kids.take a ++ (if r = .ok then x.kids.drop b else [])
      (resp (.num (first.length + last.length)) r,
        { s with vals := s.vals.set v (some (t.put path (.node x.id x.cap kids))) ++ (first ++ last).map some, log := log,
                 leaked := s.leaked ++ (if r = .ok then [] else idsAll (rest ++ x.kids.drop b)), aborted := r = .aborted })
    else (.panicked, s)
  | .drainForget v path a b => s.onValue v path fun t x =>
    if a ≤ b ∧ b ≤ x.kids.length then
      (.unit, { s with vals := s.vals.set v (some (t.put path (.node x.id x.cap (x.kids.take a)))), leaked := s.leaked ++ idsAll (x.kids.drop a) })
    else (.panicked, s)
  | .swap v path u => s.onValue v path fun t x => match var (s.vals.set v none) u with
    | none => (.absent, s)
    | some y => (.unit, { s with vals := (s.vals.set v (some (t.put path y))).set u (some x) })
  | .split v path n => s.onValue v path fun t x =>
    if n ≤ x.cap then
      (.var s.vals.length, { s with vals := s.vals.set v (some (t.put path (.node x.id n (x.kids.take n)))) ++ [some (.node s.made (x.cap - n) (x.kids.drop n))], made := s.made + 1 })
    else (.panicked, s)
  | .read v path => s.onValue v path fun _ x => (.num x.id, s)
  | .len v path => s.onValue v path fun _ x => (.num x.kids.length, s)
  | .capacity v path => s.onValue v path fun _ x => (.num x.cap, s)
  | .drop v => match var s.vals v with
    | none => (.absent, s)
    | some t =>
      let (r, log) := destroy panics false s.log t.ids
      (resp .unit r, { s with vals := s.vals.set v none, log := log, aborted := r = .aborted })
  | .forget v => match var s.vals v with
    | none => (.absent, s)
    | some t => (.unit, { s with vals := s.vals.set v none, leaked := s.leaked ++ t.ids })

/-- A program; it ends when it is aborted. -/
def Spec.run (slab : Slab) (L : Layout) (panics : Nat → Bool) : Spec → List Op → List Resp × Spec
  | s, [] => ([], s)
  | s, op :: ops =>
    let (r, s) := s.exec slab L panics op
    if s.aborted then ([r], s) else
    let (rs, s) := Spec.run slab L panics s ops
    (r :: rs, s)

end Verif.Nested
