import Verif.Model.ConcGlobal
import Verif.Model.BumpLocal
/-!
# The code of the global allocator as one thread executes it (`/repo/static-alloc/src/bump.rs:871-974`)

As in `Model/BumpLocal` the values which loads and read-modify-writes of `consumed`, and here also reads of bytes, return are arbitrary: which are possible is told by the memory model. The methods are those of `Model/ConcGlobal`: zeroing and copying is
done byte by byte, in ascending order; copying a byte is a read and then a write. Between its calls a thread reads and writes bytes (`userRead`, `userWrite`) and does anything else (`other`: synchronisation, computation).
-/
set_option autoImplicit false
namespace Verif.Bump.Conc
open MM

/-- An action of a thread. `bump` are the actions inside of methods of `Bump`, `read` and `write`
those of the allocator on bytes. The methods are those of static-alloc/src/bump.rs:871-908. -/
inductive GAct where
  | invoke (op : Op)
  | compute
  | bump (a : Act)
  | read (p : Nat) (v : Byte)
  | write (p : Nat) (v : Byte)
  | ret (op : Op) (r : Res)
  | userRead (p : Nat) (v : Byte)
  | userWrite (p : Nat) (v : Byte)
  | other
  deriving DecidableEq, Repr

/-- The action on the bump. Not code of the repository: an auxiliary function of the machine. -/
def GAct.bump? : GAct → Option Act
  | .bump a => some a
  | _ => none

/-- The atomic operations on `consumed`. static-alloc/src/bump.rs:351-353, 557-580, 776-786. -/
def gKind : Kind GAct where
  reads x := x.bump?.bind actKind.reads
  writes x := x.bump?.bind actKind.writes

/-- Where a thread is: in the method of the allocator, in the method of `Bump` that this calls, and
the byte that is being copied. Program points in static-alloc/src/bump.rs:872-908. -/
structure Loc where
  pc : Pc
  inner : Bump.Pc
  held : Option Byte
  deriving DecidableEq, Repr

/-- A thread that is in no call. Not code of the repository: an auxiliary function of the machine.
-/
def Loc.start : Loc := ⟨.idle, .idle, none⟩

/-- Where the thread is after the action; `none` if this is not what the code does next.
Models: the code cited at `start` and `resume` in `Model/ConcGlobal`; `write_bytes` of core's `alloc_zeroed`; `copy_nonoverlapping` bump.rs:962-968. -/
def gnext (e : Env) (l : Loc) (x : GAct) : Option Loc :=
  match l.pc, x with
  | .idle, .invoke op => some { l with pc := .start op }
  | .idle, .userRead _ _ | .idle, .userWrite _ _ | .idle, .other => some l
  | .start op, .bump (.invoke call) =>
    if Conc.start e op = .ret (.inl call) then (lnext e l.inner (.invoke call)).map fun q => { l with pc := .inner op, inner := q } else none
  | .start op, .compute =>
    match Conc.start e op with
    | .ret (.inl _) => none
    | .ret (.inr r) => some { l with pc := .ret op r }
    | .panic => some { l with pc := .ret op .panicked }
    | .ub => some { l with pc := .ret op .ub }
  | .inner op, .bump (.ret call r) => (lnext e l.inner (.ret call r)).map fun q => { l with pc := resume op r, inner := q }
  | .inner _, .bump x => (lnext e l.inner x).map fun q => { l with inner := q }
  | .zero lay p i, .write q v => if i < lay.size ∧ q = p + i ∧ v = 0 then some { l with pc := .zero lay p (i + 1) } else none
  | .zero lay p i, .compute => if i < lay.size then none else some { l with pc := .ret (.allocZeroed lay) (.ptr p) }
  | .copy b ns _ i, .read q v => if l.held = none ∧ i < min ns b.layout.size ∧ q = b.ptr + i then some { l with held := some v } else none
  | .copy b ns dst i, .write q v => if l.held = some v ∧ q = dst + i then some { l with pc := .copy b ns dst (i + 1), held := none } else none
  | .copy b ns dst i, .compute => if l.held = none ∧ ¬ i < min ns b.layout.size then some { l with pc := .ret (.realloc b ns) (.ptr dst) } else none
  | .ret op r, .ret op' r' => if op' = op ∧ r' = r then some { l with pc := .idle } else none
  | _, _ => none

/-- A sequence of actions. Not code of the repository: the program of the user, any sequence of
these. -/
def grun (e : Env) : Loc → List GAct → Option Loc
  | l, [] => some l
  | l, x :: xs => (gnext e l x).bind fun l => grun e l xs

/-- Threads that use one `Bump` as global allocator, with arguments that exist. Not code of the
repository: what programs can reach. -/
def GExecutes {n : Nat} (e : Env) (X : Graph n GAct) : Prop :=
  (∀ t, ∃ l, grun e .start (X.acts t) = some l) ∧ ∀ t op, GAct.invoke op ∈ X.acts t → op.Valid e.target

end Verif.Bump.Conc
