import Verif.Model.Bump
import Verif.Spec.MemoryModel
/-!
# The code of `static_alloc::Bump<T>` as one thread executes it (`/repo/static-alloc/src/bump.rs`)

What a thread does depends on the values that its atomic operations on `consumed` return. Here that is written without a memory: any value may be returned. Which combinations of values are possible is told by the memory model (`Spec/MemoryModel`).
The parts of the methods are those of `Model/Bump`.
-/
namespace Verif.Bump
open MM

/-- An action of a thread: it calls a method; computes; loads `consumed` and gets `v`; executes
`consumed.compare_exchange(expect, new, ..)` and finds `seen` (so it succeeds if this is `expect`);
writes the value to its place; returns. The accesses to shared memory are
static-alloc/src/bump.rs:351-353, 557-580, 776-786. -/
inductive Act where
  | invoke (call : Call)
  | compute
  | load (v : Nat)
  | cas (expect new seen : Nat)
  | write (r : Region)
  | ret (call : Call) (r : Ret)
  deriving DecidableEq, Repr

/-- `AtomicUsize::load`, bump.rs:558, and `compare_exchange`, bump.rs:780-785 (the strong one: fails only if the value is another one). -/
def actKind : Kind Act where
  reads | .load v => some v | .cas _ _ seen => some seen | _ => none
  writes | .cas expect new seen => if seen = expect then some new else none | _ => none

/-- Where the thread is after the action; `none` if this is not what the code does next.
Models: the code cited at `enter`, `tryAllocAtPre`, `tryAllocAtPost`, `onOk`, `onErr`, `onLoad`, `afterWrite` in `Model/Bump`; loop of `try_alloc` 561-573; `bump` 776-786. -/
def lnext (e : Env) : Pc → Act → Option Pc
  | .idle, .invoke call => some (enter call)
  | .attempt call l retry guess, .compute =>
    match tryAllocAtPre e l guess with
    | .ret none => some (.ret call (onErr call .exhausted))
    | .ret (some (atAligned, new)) => some (.cas call l retry guess atAligned new)
    | _ => some (.ret call .panicked)
  | .cas call l retry expect atAligned new, .cas expect' new' seen =>
    if expect' = expect ∧ new' = new then
      if seen = expect then
        match tryAllocAtPost e atAligned new with
        | .ret a => some (onOk call a)
        | _ => some (.ret call .panicked)
      else if retry then some (.attempt call l retry seen)
      else some (.ret call (onErr call (.mismatch seen)))
    else none
  | .load call, .load v => some (onLoad e call v)
  | .write call a, .write r => if r = ⟨a.ptr, (storedValue call).length⟩ then some (.ret call (afterWrite call a)) else none
  | .ret call r, .ret call' r' => if call' = call ∧ r' = r then some .idle else none
  | _, _ => none

/-- A sequence of actions. Not code of the repository: the program of the user, any sequence of
these. -/
def lrun (e : Env) : Pc → List Act → Option Pc
  | p, [] => some p
  | p, x :: xs => (lnext e p x).bind fun p => lrun e p xs

/-- Threads that do nothing but call methods of one `Bump`, with arguments that exist. Not code of
the repository: what programs can reach. -/
def Executes {n : Nat} (e : Env) (X : Graph n Act) : Prop :=
  (∀ t, ∃ p, lrun e .idle (X.acts t) = some p) ∧ ∀ t call, Act.invoke call ∈ X.acts t → call.Valid e.target

/-- The action which thread `t` makes with its next step in the machine of `Model/Bump`, where
`consumed` is a variable in a common memory. Not code of the repository: an auxiliary function of
the machine. -/
def actOf {n : Nat} (s : State n) (t : Fin n) : Act :=
  match s.pc t with
  | .idle | .attempt .. => .compute
  | .cas _ _ _ expect _ new => .cas expect new s.consumed
  | .load _ => .load s.consumed
  | .write call a => .write ⟨a.ptr, (storedValue call).length⟩
  | .ret call r => .ret call r

/-- The actions of thread `t` in a run of this machine. Not code of the repository: an auxiliary
function of the machine. -/
def traceOf {n : Nat} (e : Env) (t : Fin n) : State n → List (Event n) → List Act
  | _, [] => []
  | s, ev :: evs =>
    (match ev with
      | .invoke u call => if u = t then [.invoke call] else []
      | .step u => if u = t then [actOf s t] else []
      | _ => []) ++ traceOf e t (exec e s ev) evs

/-- The event of the machine for the event `a` of the graph. Not code of the repository: an
auxiliary function of the machine. -/
def schedule {n : Nat} (X : Graph n Act) (a : MM.Ev n) : Event n :=
  match (X.acts a.1)[a.2]? with
  | some (.invoke call) => .invoke a.1 call
  | _ => .step a.1

/-- Every event of the schedule is an action: a thread that is not in a call starts one; a thread
in a call makes a step. Not code of the repository: what the language, or the documented contract
of the methods, demands of callers. -/
def Effective {n : Nat} (e : Env) : State n → List (Event n) → Prop
  | _, [] => True
  | s, ev :: evs => (match ev with
    | .invoke t call => s.pc t = .idle ∧ call.Valid e.target
    | .step t => s.pc t ≠ .idle
    | _ => False) ∧ Effective e (exec e s ev) evs

/-- What a user observes of an action. Not code of the repository: an auxiliary function of the
machine. -/
def obsOf {n : Nat} (t : Fin n) : Act → Option (Lin.HEv (Fin n) Call Ret)
  | .invoke call => some (.inv t call)
  | .ret call r => some (.resp t call r)
  | _ => none

/-- Memory that is handed out by an action. Not code of the repository: an auxiliary function of
the machine. -/
def grantOf : Act → Option Region
  | .ret call r => grant call r
  | _ => none

/-- The same for an event. Not code of the repository: an auxiliary function of the machine. -/
def obsAt {n : Nat} (X : Graph n Act) (a : MM.Ev n) : Option (Lin.HEv (Fin n) Call Ret) := ((X.acts a.1)[a.2]?).bind (obsOf a.1)
/-- Memory that is handed out by an event. Not code of the repository: an auxiliary function of the
machine. -/
def grantAt {n : Nat} (X : Graph n Act) (a : MM.Ev n) : Option Region := ((X.acts a.1)[a.2]?).bind grantOf

end Verif.Bump
