import Verif.Model.Rc
/-!
# Specification of reference counting

There are no counters here: the answers depend on which handles exist. Of the model the types of calls, answers and handles are used. `taken`, `handed` and `dropped` are the values that were moved in, moved out, and
dropped.
-/
namespace Verif.RcM
open Verif

/-- What there is in a block. -/
inductive Cell (V : Type) where
  /-- memory of the user -/
  | free
  | live (v : V)
  | raw (v : V)
  /-- the value was dropped or moved out -/
  | dead

structure SWorld (V : Type) where
  cells : Nat → Cell V
  hs : List (Option Handle)
  taken : List V
  handed : List V
  dropped : List V
  running : List Nat

/-- The handle is one of the kind for the block. Forgotten ones count. -/
def isFor (k : HKind) (a : Nat) : Option Handle → Bool
  | some ⟨k', a', _⟩ => k' = k ∧ a' = a
  | none => false
/-- How many handles of the kind exist for the block. -/
def handles (hs : List (Option Handle)) (k : HKind) (a : Nat) : Nat := hs.countP (isFor k a)

section
variable {V : Type}

def SWorld.set (w : SWorld V) (a : Nat) (c : Cell V) : SWorld V := { w with cells := fun x => if x = a then c else w.cells x }
def SWorld.kill (w : SWorld V) (h : Nat) : SWorld V := { w with hs := w.hs.set h none }
def SWorld.add (w : SWorld V) (k : HKind) (a : Nat) : SWorld V := { w with hs := w.hs ++ [some ⟨k, a, false⟩] }
def blockOf (hs : List (Option Handle)) (h : Nat) : Option Nat :=
  match hs[h]? with
  | some (some x) => some x.block
  | _ => none

/-- One call. -/
def sexec (w : SWorld V) (op : Op V) : Resp V × SWorld V :=
  match op with
  | .new a v => (.handle w.hs.length, { (w.set a (.live v)).add .strong a with taken := w.taken ++ [v] })
  | .clone h => match blockOf w.hs h with | none => (.unit, w) | some a => (.handle w.hs.length, w.add .strong a)
  | .downgrade h => match blockOf w.hs h with | none => (.unit, w) | some a => (.handle w.hs.length, w.add .weak a)
  | .cloneWeak h => match blockOf w.hs h with | none => (.unit, w) | some a => (.handle w.hs.length, w.add .weak a)
  | .upgrade h =>
    match blockOf w.hs h with
    | none => (.unit, w)
    | some a => if handles w.hs .strong a = 0 then (.none, w) else (.handle w.hs.length, w.add .strong a)
  | .dropRc h =>
    match blockOf w.hs h with
    | none => (.unit, w)
    | some a =>
      match w.cells a with
      | .live v =>
        -- the last strong handle takes the value with it
        if handles w.hs .strong a = 1 then (.unit, { (w.kill h).set a .dead with dropped := w.dropped ++ [v], running := a :: w.running })
        else (.unit, w.kill h)
      | _ => (.unit, w)
  | .dropWeak h => (.unit, w.kill h)
  | .tryUnwrap h =>
    match blockOf w.hs h with
    | none => (.unit, w)
    | some a =>
      match w.cells a with
      | .live v =>
        if handles w.hs .strong a = 1 then (.unwrapped v w.hs.length, { ((w.kill h).add .weak a).set a .dead with handed := w.handed ++ [v] })
        else (.err, w)
      | _ => (.unit, w)
  | .weakTryUnwrap h =>
    match blockOf w.hs h with
    | none => (.unit, w)
    | some a => if handles w.hs .strong a = 0 ∧ handles w.hs .weak a = 1 then (.memory a, (w.kill h).set a .free) else (.err, w)
  | .intoRaw h =>
    match blockOf w.hs h with
    | none => (.unit, w)
    | some a =>
      match w.cells a with
      | .live v => if handles w.hs .strong a = 1 ∧ handles w.hs .weak a = 0 then (.memory a, (w.kill h).set a (.raw v)) else (.err, w)
      | _ => (.unit, w)
  | .fromRaw a =>
    match w.cells a with
    | .raw v => (.handle w.hs.length, (w.set a (.live v)).add .strong a)
    | _ => (.unit, w)
  | .rawReplace a v =>
    match w.cells a with
    | .raw old => (.val old, { w.set a (.raw v) with taken := w.taken ++ [v], handed := w.handed ++ [old] })
    | _ => (.unit, w)
  | .rawTake a =>
    match w.cells a with
    | .raw old => (.val old, { w.set a .free with handed := w.handed ++ [old] })
    | _ => (.unit, w)
  | .replace h v =>
    match blockOf w.hs h with
    | none => (.unit, w)
    | some a =>
      match w.cells a with
      | .live old =>
        if handles w.hs .strong a = 1 ∧ handles w.hs .weak a = 0 then (.val old, { w.set a (.live v) with taken := w.taken ++ [v], handed := w.handed ++ [old] })
        else (.err, w)
      | _ => (.unit, w)
  | .deref h =>
    match blockOf w.hs h with
    | none => (.unit, w)
    | some a => match w.cells a with | .live v => (.val v, w) | _ => (.unit, w)
  | .strongCount h => match blockOf w.hs h with | none => (.unit, w) | some a => (.num (handles w.hs .strong a), w)
  -- all the strong handles count as one weak handle (documented)
  | .weakCount h => match blockOf w.hs h with | none => (.unit, w) | some a => (.num (handles w.hs .weak a + if handles w.hs .strong a = 0 then 0 else 1), w)
  | .ptrEq h h' => (.bool (blockOf w.hs h = blockOf w.hs h'), w)
  | .forget h =>
    match w.hs[h]? with
    | some (some x) => (.unit, { w with hs := w.hs.set h (some { x with forgotten := true }) })
    | _ => (.unit, w)
  | .scribble _ _ => (.unit, w)
  | .endDrop => (.unit, { w with running := w.running.tail })

def srun : SWorld V → List (Op V) → List (Resp V) × SWorld V
  | w, [] => ([], w)
  | w, op :: ops => ((sexec w op).1 :: (srun (sexec w op).2 ops).1, (srun (sexec w op).2 ops).2)

def SWorld.init : SWorld V := ⟨fun _ => .free, [], [], [], [], []⟩

/-! ## What safe code can do -/

/-- A handle of the kind that was not consumed or forgotten. -/
def Usable (hs : List (Option Handle)) (k : HKind) (h : Nat) : Prop := ∃ a, hs[h]? = some (some ⟨k, a, false⟩)

/-- The call is one the user can make: he has the handle, or the memory. -/
def Permitted (w : World V) : Op V → Prop
  | .new a _ | .scribble a _ => w.owner a = .user
  | .clone h | .downgrade h | .dropRc h | .tryUnwrap h | .intoRaw h | .replace h _ | .deref h => Usable w.hs .strong h
  | .upgrade h | .cloneWeak h | .dropWeak h | .weakTryUnwrap h => Usable w.hs .weak h
  | .strongCount h | .weakCount h | .forget h => Usable w.hs .strong h ∨ Usable w.hs .weak h
  | .ptrEq h h' => Usable w.hs .strong h ∧ Usable w.hs .strong h'
  | .fromRaw a | .rawReplace a _ | .rawTake a => w.owner a = .raw
  | .endDrop => w.running ≠ []

/-- The number of handles of a block stays below `usize::MAX`. -/
def NoOverflow (t : Target) (w : World V) : Op V → Prop
  | .clone h | .upgrade h => ∀ a, blockOf w.hs h = some a → handles w.hs .strong a < t.usizeMax
  | .downgrade h | .cloneWeak h => ∀ a, blockOf w.hs h = some a → handles w.hs .weak a + 1 < t.usizeMax
  | _ => True

def SafeRun (t : Target) (checks : Bool) : World V → List (Op V) → Prop
  | _, [] => True
  | w, op :: ops => Permitted w op ∧ NoOverflow t w op ∧ ∀ r w', exec t checks w op = .ret (r, w') → SafeRun t checks w' ops

/-- Without the bound on the number of handles. -/
def UserRun (t : Target) (checks : Bool) : World V → List (Op V) → Prop
  | _, [] => True
  | w, op :: ops => Permitted w op ∧ ∀ r w', exec t checks w op = .ret (r, w') → UserRun t checks w' ops

/-- States of safe programs, from any contents of the memory. -/
def Reach (t : Target) (checks : Bool) (w : World V) : Prop :=
  ∃ mem ops rs, SafeRun t checks (World.init mem) ops ∧ run t checks (World.init mem) ops = .ret (rs, w)

/-! ## Without a bound on the number of handles -/

/-- The number of strong handles for the block that are not forgotten. -/
def held (hs : List (Option Handle)) (a : Nat) : Nat := hs.countP fun x => x = some ⟨.strong, a, false⟩

/-- The user makes arbitrary calls and forgets arbitrarily many handles, only he does not keep `usize::MAX` handles at the same time (a handle has a size of at least 2 bytes, so they would not fit in the address space). -/
def HeldRun (t : Target) (checks : Bool) : World V → List (Op V) → Prop
  | _, [] => True
  | w, op :: ops => Permitted w op ∧ (∀ a, held w.hs a < t.usizeMax) ∧ ∀ r w', exec t checks w op = .ret (r, w') → HeldRun t checks w' ops

/-- States of such programs. -/
def HeldReach (t : Target) (checks : Bool) (w : World V) : Prop :=
  ∃ mem ops rs, HeldRun t checks (World.init mem) ops ∧ run t checks (World.init mem) ops = .ret (rs, w)

/-! ## What the user sees of the values -/

/-- Values a call moves to the blocks. -/
def inputs : Op V → Resp V → List V
  | .new _ v, _ => [v]
  | .rawReplace _ v, .val _ | .replace _ v, .val _ => [v]
  | _, _ => []
/-- Values a call moves to the user. -/
def outputs : Op V → Resp V → List V
  | .tryUnwrap _, .unwrapped v _ => [v]
  | .rawReplace _ _, .val v | .rawTake _, .val v | .replace _ _, .val v => [v]
  | _, _ => []
def inputsOf (ops : List (Op V)) (rs : List (Resp V)) : List V := (ops.zip rs).flatMap fun x => inputs x.1 x.2
def outputsOf (ops : List (Op V)) (rs : List (Resp V)) : List V := (ops.zip rs).flatMap fun x => outputs x.1 x.2

/-- The user reads `v` through the handle. -/
def Shows (t : Target) (checks : Bool) (w : World V) (h : Nat) (v : V) : Prop := exec t checks w (.deref h) = .ret (.val v, w)

end
end Verif.RcM
