import Verif.Spec.GlobalContents
/-!
# Executions as interleavings

What it means that the memory behaves as if there were one memory, to which the actions are applied one after the other; and how an execution is carried out by the machine of `Model/ConcGlobal`, which has such a memory.
-/
set_option autoImplicit false
namespace Verif.Bump.Conc
open MM
variable {n : Nat}

/-- `w` is the latest event with the property before `a`, in the order of the list. -/
def Latest (ord : List (MM.Ev n)) (P : MM.Ev n → Prop) (a w : MM.Ev n) : Prop := P w ∧ Earlier ord w a ∧ ∀ w', P w' → Earlier ord w' a → w' = w ∨ Earlier ord w' w

/-- Reading `consumed` gets what was written there latest, in this order, or the initial value; reading a byte (by the program, or by the allocator when it copies) gets what was written there latest. (If nothing was written, the byte is not initialised.) -/
def SequentiallyConsistent (X : Graph n GAct) (ord : List (MM.Ev n)) : Prop :=
  (∀ a v, X.Reads gKind a v → (∃ w, Latest ord (X.IsWrite gKind) a w ∧ X.Writes gKind w v) ∨ ((∀ w, X.IsWrite gKind w → ¬ Earlier ord w a) ∧ v = X.initial)) ∧
  ∀ a p v, X.At a (.userRead p v) ∨ X.At a (.read p v) → (∃ w, Latest ord (WritesByte X · p) a w ∧ StoresByte X w p v) ∨ ∀ w, WritesByte X w p → ¬ Earlier ord w a

/-- As `ReadsVisible`, for a storage that has contents `m` at the start: a read before which no write happens has the value from there. -/
def ReadsVisibleFrom (X : Graph n GAct) (m : Mem) : Prop := ∀ a p v, X.At a (.userRead p v) ∨ X.At a (.read p v) →
  (∃ w, StoresByte X w p v ∧ X.hb w a ∧ ∀ w', WritesByte X w' p → ¬ (X.hb w w' ∧ X.hb w' a)) ∨ ((∀ w, WritesByte X w p → ¬ X.hb w a) ∧ v = m p)

/-- The block that is given at this event. -/
def blockAt (X : Graph n GAct) (r : MM.Ev n) : Option Block :=
  match (X.acts r.1)[r.2]? with
  | some (.ret op res) => op.gives res
  | _ => none

/-- What the machine has to do for the action: the call is started; the program writes to its block; a step of the thread. The machine has no events for reading, and copies a byte in one step: that with which the byte is written. -/
def machineEvents (X : Graph n GAct) (src : MM.Ev n → MM.Ev n) (a : MM.Ev n) : List (Event n) :=
  match (X.acts a.1)[a.2]? with
  | some (.invoke op) => [.invoke a.1 op]
  | some (.userWrite p v) => match blockAt X (src a) with
    | some b => [.userWrite b (p - b.ptr) [v]]
    | none => []
  | some (.userRead _ _) | some (.read _ _) | some .other | none => []
  | some _ => [.step a.1]

/-- The state of the machine after these actions, in the order of the list. -/
def machineAfter (e : Env) (X : Graph n GAct) (src : MM.Ev n → MM.Ev n) (m : Mem) (P : List (MM.Ev n)) : State n := run e (init n X.initial m) (P.flatMap (machineEvents X src))

/-- The action is possible in the state `s` of the machine, and the machine does the same, with `s'` afterwards: the thread is not in a call, and the block that it passes is owned; the call returns, with the same result, and its block is
owned then; reading and writing `consumed` have the same values; the byte that is accessed is in a block that is owned; reading it gives the same value, and writing it stores the same value. Other bytes do not change. -/
structure Same (X : Graph n GAct) (s s' : State n) (a : MM.Ev n) : Prop where
  invoke : ∀ op, X.At a (.invoke op) → s.pc a.1 = .idle ∧ (∀ b ∈ op.takes, b ∈ s.live) ∧ s'.pc a.1 = .start op
  ret : ∀ op r, X.At a (.ret op r) → s.pc a.1 = .ret op r ∧ s'.pc a.1 = .idle ∧ ∀ b ∈ op.gives r, b ∈ s'.live
  load : ∀ v, X.Reads gKind a v → s.bump.consumed = v
  store : ∀ v, X.Writes gKind a v → s'.bump.consumed = v
  use : ∀ p, UserUses X a p → ∃ b ∈ s.live, b.region.Has p
  read : ∀ p v, X.At a (.userRead p v) ∨ X.At a (.read p v) → s.bump.mem p = v
  write : ∀ p v, StoresByte X a p v → s'.bump.mem p = v
  keep : ∀ p, ¬ WritesByte X a p → s'.bump.mem p = s.bump.mem p

/-! ### From the machine to executions -/

/-- What may happen next when the machine is used, and by which thread: a call is started; a thread in a call makes a step; a thread that is in no call writes a byte of a block, reads it, or does something else. (There is no `reset`: it needs exclusive access.) -/
inductive Doing (n : Nat) where
  | invoke (t : Fin n) (op : Op)
  | step (t : Fin n)
  | write (t : Fin n) (b : Block) (off : Nat) (v : Byte)
  | read (t : Fin n) (b : Block) (off : Nat)
  | other (t : Fin n)
  deriving DecidableEq, Repr

/-- What the machine does for that. -/
def Doing.events : Doing n → List (Event n)
  | .invoke t op => [.invoke t op]
  | .step t => [.step t]
  | .write _ b off v => [.userWrite b off [v]]
  | .read _ _ _ | .other _ => []

/-- It is possible: the thread is in a call or is not, as it must be; arguments exist; blocks are owned. -/
def Doing.Possible (e : Env) (s : State n) : Doing n → Prop
  | .invoke t op => s.pc t = .idle ∧ (∀ b ∈ op.takes, b ∈ s.live) ∧ op.Valid e.target
  | .step t => s.pc t ≠ .idle
  | .write t b off _ | .read t b off => s.pc t = .idle ∧ b ∈ s.live ∧ off < b.layout.size
  | .other t => s.pc t = .idle

/-- The actions of the thread at this. -/
def Doing.actions (e : Env) (s : State n) : Doing n → List (Fin n × GAct)
  | .invoke t op => [(t, .invoke op)]
  | .write t b off v => [(t, .userWrite (b.ptr + off) v)]
  | .read t b off => [(t, .userRead (b.ptr + off) (s.bump.mem (b.ptr + off)))]
  | .other t => [(t, .other)]
  | .step t => match s.pc t with
    | .idle => []
    | .start op => match start e op with
      | .ret (.inl call) => [(t, .bump (.invoke call))]
      | _ => [(t, .compute)]
    | .inner _ => [(t, .bump (actOf s.bump t))]
    | .zero l p i => if i < l.size then [(t, .write (p + i) 0)] else [(t, .compute)]
    | .copy b ns dst i => if i < min ns b.layout.size then [(t, .read (b.ptr + i) (s.bump.mem (b.ptr + i))), (t, .write (dst + i) (s.bump.mem (b.ptr + i)))] else [(t, .compute)]
    | .ret op r => [(t, .ret op r)]

/-- A sequence of these, each of them possible when it is its turn. -/
def AllPossible (e : Env) : State n → List (Doing n) → Prop
  | _, [] => True
  | s, d :: ds => d.Possible e s ∧ AllPossible e (run e s d.events) ds

/-- The actions of a sequence, in the order of time. -/
def actionsOf (e : Env) : State n → List (Doing n) → List (Fin n × GAct)
  | _, [] => []
  | s, d :: ds => d.actions e s ++ actionsOf e (run e s d.events) ds

end Verif.Bump.Conc
