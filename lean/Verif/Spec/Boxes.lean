import Verif.Model.WBox
/-!
# Specification of boxes

There is no memory here: what a place is for the user, with the value that belongs to it. Values are moved. Of the model the types of calls and answers are used.
-/
namespace Verif.Owned

inductive Cell where
  /-- no handle -/
  | free
  | boxed (v : Nat)
  /-- box of a `Copy` value -/
  | copy (v : Nat)
  /-- box of a `MaybeUninit`, or an `Uninit`, without a value -/
  | uninit
  /-- the same after it was initialised -/
  | uninitFull (v : Nat)
  /-- raw pointer, or leaked -/
  | raw (v : Nat)
  deriving DecidableEq, Repr

structure SBoxes where
  cells : Nat → Cell
  /-- values in variables of the user -/
  owned : List Nat
  /-- values dropped, the latest first -/
  dropped : List Nat
  next : Nat

namespace SBoxes
def set (s : SBoxes) (p : Nat) (c : Cell) : SBoxes := { s with cells := fun x => if x = p then c else s.cells x }
/-- A value of the user goes to the place. -/
def put (s : SBoxes) (p v : Nat) (c : Cell) : SBoxes := { s.set p c with owned := s.owned.erase v }
def init : SBoxes := ⟨fun _ => .free, [], [], 0⟩
/-- The value of a place. -/
def value (s : SBoxes) (p : Nat) : Nat :=
  match s.cells p with
  | .boxed v | .copy v | .uninitFull v | .raw v => v
  | _ => 0
end SBoxes

/-- One call on `LeakBox`es. -/
def lspec (panics : Nat → Bool) (s : SBoxes) (op : LOp) : LRet × SBoxes :=
  match op with
  | .make => (.val s.next, { s with owned := s.next :: s.owned, next := s.next + 1 })
  | .discard v => (unwoundRet (panics v), { s with owned := s.owned.erase v, dropped := v :: s.dropped })
  | .allocate p v => (.unit, s.put p v (.boxed v))
  | .fromMaybeUninit p => (.unit, s.set p .uninit)
  | .fromMut p bits => (.unit, s.set p (.copy bits))
  | .write p v => (.unit, s.put p v (.boxed v))
  | .fill p v => (.unit, s.put p v (.uninitFull v))
  | .assumeInit p => (.unit, s.set p (.boxed (s.value p)))
  | .deref p => (.val (s.value p), s)
  | .replace p v => (.val (s.value p), { s.put p v (.boxed v) with owned := s.value p :: s.owned.erase v })
  | .assign p v => (unwoundRet (panics (s.value p)), { s.put p v (.boxed v) with dropped := s.value p :: s.dropped })
  | .take p => (.val (s.value p), { s.set p .free with owned := s.value p :: s.owned })
  | .intoRaw p => (.unit, s.set p (.raw (s.value p)))
  | .fromRaw p => (.unit, s.set p (.boxed (s.value p)))
  | .leak p => (.unit, s.set p (.raw (s.value p)))
  | .dropRaw p => (unwoundRet (panics (s.value p)), { s.set p .free with dropped := s.value p :: s.dropped })
  | .drop p =>
    match s.cells p with
    | .boxed v => (unwoundRet (panics v), { s.set p .free with dropped := v :: s.dropped })
    -- a `MaybeUninit` does not drop the value in it
    | .uninitFull v => (.unit, s.set p (.raw v))
    | _ => (.unit, s.set p .free)

/-- One call on `Box`es. -/
def bspec (panics : Nat → Bool) (s : SBoxes) (op : BOp) : LRet × SBoxes :=
  match op with
  | .make => (.val s.next, { s with owned := s.next :: s.owned, next := s.next + 1 })
  | .discard v => (unwoundRet (panics v), { s with owned := s.owned.erase v, dropped := v :: s.dropped })
  | .memory p => (.unit, s.set p .uninit)
  | .release p => (.unit, s.set p .free)
  | .new v p => (.unit, s.put p v (.boxed v))
  | .deref p => (.val (s.value p), s)
  | .replace p v => (.val (s.value p), { s.put p v (.boxed v) with owned := s.value p :: s.owned.erase v })
  | .take p => (.val (s.value p), { s.set p .uninit with owned := s.value p :: s.owned })
  | .intoRaw p => (.unit, s.set p (.uninitFull (s.value p)))
  | .fromRaw p => (.unit, s.set p (.boxed (s.value p)))
  | .leak p => (.unit, s.set p (.raw (s.value p)))
  | .unsize _ => (.unit, s)
  | .drop p => (unwoundRet (panics (s.value p)), { s.set p .free with dropped := s.value p :: s.dropped })

def specRun {O : Type} (spec : SBoxes → O → LRet × SBoxes) : SBoxes → List O → List LRet × SBoxes
  | s, [] => ([], s)
  | s, op :: ops => ((spec s op).1 :: (specRun spec (spec s op).2 ops).1, (specRun spec (spec s op).2 ops).2)

/-- Every call is allowed when it is made. -/
def AllowedRun {O : Type} (exec : OState → O → Outcome (LRet × OState)) (allowed : OState → O → Prop) : OState → List O → Prop
  | _, [] => True
  | s, op :: ops => allowed s op ∧ ∀ r s', exec s op = .ret (r, s') → AllowedRun exec allowed s' ops

end Verif.Owned
