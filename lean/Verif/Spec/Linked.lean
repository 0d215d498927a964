import Verif.Spec.Slab
/-!
# Structures of values that are linked by boxes

What is expected: values own the values in the boxes that they contain, so they are trees. Dropping a value runs its destructor, then those of the values in its boxes, in order, each with all that it owns. Here nothing is said of memory but whether
there is room in the slab.
-/
set_option autoImplicit false
namespace Verif.Linked

/-- A value: its identity, and the values in the boxes it contains. -/
inductive Tree where
  | node (id : Nat) (kids : List Tree)

def Tree.id : Tree → Nat | .node id _ => id
def Tree.kids : Tree → List Tree | .node _ kids => kids

mutual
/-- The values in the order of their destructors: first the value, then what its boxes own. -/
def Tree.ids : Tree → List Nat
  | .node id kids => id :: idsAll kids
def idsAll : List Tree → List Nat
  | [] => []
  | t :: ts => t.ids ++ idsAll ts
end

/-- The value reached by following these boxes. -/
def Tree.at : Tree → List Nat → Option Tree
  | t, [] => some t
  | .node _ kids, i :: path => match kids[i]? with | some k => k.at path | none => none
/-- The tree in which another value is at the path. -/
def Tree.put : Tree → List Nat → Tree → Tree
  | _, [], new => new
  | .node id kids, i :: path, new => match kids[i]? with | some k => .node id (kids.set i (k.put path new)) | none => .node id kids

/-- What a program does. It has variables with values and with boxes, both are numbered. -/
inductive Op where
  /-- a new value without boxes -/
  | make
  /-- `bump.leak_box(v)` for a type of this layout -/
  | leakBox (v : Nat) (L : Layout)
  /-- another allocation -/
  | alloc (L : Layout)
  /-- the box becomes the last one of the value in the variable -/
  | attach (v b : Nat)
  /-- the box number `i` is taken out of the value in the variable -/
  | unpack (v i : Nat)
  /-- through a mutable reference: box `k` becomes the last one of the value at the path in box `b` -/
  | push (b : Nat) (path : List Nat) (k : Nat)
  /-- the box number `i` is removed from the value at the path -/
  | detach (b : Nat) (path : List Nat) (i : Nat)
  /-- `mem::replace` of the value at the path by the one in variable `v`, which then has the old one -/
  | replace (b : Nat) (path : List Nat) (v : Nat)
  | read (b : Nat) (path : List Nat)
  | take (b : Nat)
  | dropBox (b : Nat)
  | dropVal (v : Nat)
  /-- `LeakBox::leak`, `mem::forget` -/
  | forget (b : Nat)

/-- `absent`: there is no such variable, or no such box in the value; the program does nothing. `var`: the number of a new variable. -/
inductive Resp where
  | absent | var (n : Nat) | full | id (n : Nat) | unit | unwound | aborted
  deriving DecidableEq, Repr

/-- How dropping ends. -/
inductive Ended where | ok | unwound | aborted
  deriving DecidableEq, Repr

/-- Running these destructors one after the other. After one that panics the others are still run; another panic aborts the program. -/
def destroy (panics : Nat → Bool) : Bool → List Nat → List Nat → Ended × List Nat
  | unwinding, log, [] => (if unwinding then .unwound else .ok, log)
  | unwinding, log, i :: is =>
    if panics i then (if unwinding then (.aborted, log ++ [i]) else destroy panics true (log ++ [i]) is)
    else destroy panics unwinding (log ++ [i]) is

/-- The response, and whether the program continues. -/
def Ended.resp (done : Resp) : Ended → Resp
  | .ok => done | .unwound => .unwound | .aborted => .aborted

/-- Variables, the level of the slab, the number of values made, the destructors run in order, and the values that were forgotten. -/
structure Spec where
  vals : List (Option Tree)
  boxes : List (Option Tree)
  level : Nat
  made : Nat
  log : List Nat
  leaked : List Nat
  aborted : Bool

def Spec.init (level : Nat) : Spec := ⟨[], [], level, 0, [], [], false⟩

/-- The content of a variable. -/
def var {α : Type} (xs : List (Option α)) (i : Nat) : Option α := xs[i]?.join

/-- All values that are in variables or owned by these. -/
def Spec.held (s : Spec) : List Nat := idsAll (s.vals.filterMap id) ++ idsAll (s.boxes.filterMap id)

def Spec.drop (panics : Nat → Bool) (s : Spec) (t : Tree) (done : Resp) : Resp × Spec :=
  let (r, log) := destroy panics false s.log t.ids
  (r.resp done, { s with log := log, aborted := r = .aborted })

def Spec.exec (slab : Slab) (panics : Nat → Bool) (s : Spec) : Op → Resp × Spec
  | .make => (.var s.vals.length, { s with vals := s.vals ++ [some (.node s.made [])], made := s.made + 1 })
  | .leakBox v L => match var s.vals v with
    | none => (.absent, s)
    | some t => match slab.place L s.level with
      | some a => (.var s.boxes.length, { s with vals := s.vals.set v none, boxes := s.boxes ++ [some t], level := a.level })
      | none => { s with vals := s.vals.set v none }.drop panics t .full
  | .alloc L => match slab.place L s.level with
    | some a => (.unit, { s with level := a.level })
    | none => (.full, s)
  | .attach v b => match var s.vals v, var s.boxes b with
    | some t, some k => (.unit, { s with vals := s.vals.set v (some (.node t.id (t.kids ++ [k]))), boxes := s.boxes.set b none })
    | _, _ => (.absent, s)
  | .unpack v i => match var s.vals v with
    | none => (.absent, s)
    | some t => match t.kids[i]? with
      | none => (.absent, s)
      | some k => (.var s.boxes.length, { s with vals := s.vals.set v (some (.node t.id (t.kids.eraseIdx i))), boxes := s.boxes ++ [some k] })
  | .push b path k => match var s.boxes b with
    | none => (.absent, s)
    | some t => match t.at path, var (s.boxes.set b none) k with
      | some u, some t' => (.unit, { s with boxes := (s.boxes.set b (some (t.put path (.node u.id (u.kids ++ [t']))))).set k none })
      | _, _ => (.absent, s)
  | .detach b path i => match var s.boxes b with
    | none => (.absent, s)
    | some t => match t.at path with
      | none => (.absent, s)
      | some u => match u.kids[i]? with
        | none => (.absent, s)
        | some k => (.var s.boxes.length, { s with boxes := s.boxes.set b (some (t.put path (.node u.id (u.kids.eraseIdx i)))) ++ [some k] })
  | .replace b path v => match var s.boxes b with
    | none => (.absent, s)
    | some t => match t.at path, var s.vals v with
      | some u, some t' => (.unit, { s with boxes := s.boxes.set b (some (t.put path t')), vals := s.vals.set v (some u) })
      | _, _ => (.absent, s)
  | .read b path => match var s.boxes b with
    | none => (.absent, s)
    | some t => match t.at path with
      | none => (.absent, s)
      | some u => (.id u.id, s)
  | .take b => match var s.boxes b with
    | none => (.absent, s)
    | some t => (.var s.vals.length, { s with vals := s.vals ++ [some t], boxes := s.boxes.set b none })
  | .dropBox b => match var s.boxes b with
    | none => (.absent, s)
    | some t => { s with boxes := s.boxes.set b none }.drop panics t .unit
  | .dropVal v => match var s.vals v with
    | none => (.absent, s)
    | some t => { s with vals := s.vals.set v none }.drop panics t .unit
  | .forget b => match var s.boxes b with
    | none => (.absent, s)
    | some t => (.unit, { s with boxes := s.boxes.set b none, leaked := s.leaked ++ t.ids })

/-- A program; it ends when it is aborted. -/
def Spec.run (slab : Slab) (panics : Nat → Bool) : Spec → List Op → List Resp × Spec
  | s, [] => ([], s)
  | s, op :: ops =>
    let (r, s) := s.exec slab panics op
    if s.aborted then ([r], s) else
    let (rs, s) := Spec.run slab panics s ops
    (r :: rs, s)

end Verif.Linked
