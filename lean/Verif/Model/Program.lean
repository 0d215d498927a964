import Verif.Model.ConcGlobal
import Verif.Spec.Compose
/-!
# A multi-threaded program: data structures in memory of the global allocator

The global allocator is a `static` `Bump` (`Model/ConcGlobal`, whose citations apply), used by `n` threads. The program makes data structures (in the form of `Spec/Compose`) in blocks that it got from the allocator, calls them, and gives their blocks back
to the allocator. No code of the repository is modelled here, only what a program can do with it.

A call of a data structure is not a single step. It begins, then any number of steps of the allocator and of other structures follow, while the bytes in the structure's own blocks may change in any way, then it finishes: what was computed
from the memory that the call found is written to the blocks.
-/
namespace Verif.Program
open Verif Compose AllocTraits

/-- A data structure that exists. Not code of the repository: the state that the program of the
user and the library have together. -/
structure Use (M : Machine) where
  /-- The blocks that it is in. -/
  blocks : List Block
  vars : M.St
  /-- What its specification says about it when it was made. -/
  made : M.Sp
  /-- The calls that have returned, the first one first, and their answers. -/
  calls : List (M.Op × M.Resp)

/-- Not code of the repository: the state that the program of the user and the library have
together. -/
inductive Phase (M : Machine) where
  | off
  /-- between calls -/
  | rest (u : Use M)
  /-- inside of a call that found the memory `view` -/
  | busy (u : Use M) (op : M.Op) (view : Mem)

/-- Not code of the repository: an auxiliary function of the machine. -/
def Phase.use {M : Machine} : Phase M → Option (Use M)
  | .off => none
  | .rest u | .busy u _ _ => some u

section
variable {ι : Type} [DecidableEq ι]

/-- Not code of the repository: the state that the program of the user and the library have
together. -/
structure State (M : ι → Machine) (n : Nat) where
  /-- the allocator, and the memory -/
  al : Bump.Conc.State n
  part : ∀ i, Phase (M i)
  /-- the process was aborted by a call -/
  ended : Bool
  ub : Bool

variable {M : ι → Machine} {n : Nat}

/-- Not code of the repository: an auxiliary function of the machine. -/
def State.mem (s : State M n) : Mem := s.al.bump.mem

/-- Not code of the repository: an auxiliary function of the machine. -/
def setPart (p : ∀ i, Phase (M i)) (i : ι) (x : Phase (M i)) : ∀ i, Phase (M i) := fun j => if h : j = i then h ▸ x else p j

/-- Not code of the repository: the program of the user, any sequence of these. -/
inductive Event (M : ι → Machine) (n : Nat) where
  /-- a thread calls the allocator or makes a step in it, or the program writes to a block -/
  | al (ev : Bump.Conc.Event n)
  | make (i : ι) (blocks : List Block)
  | call (i : ι) (op : (M i).Op)
  /-- a call that has not returned writes to memory -/
  | write (i : ι) (b : Block) (off : Nat) (bytes : List Byte)
  | finish (i : ι)
  /-- the structure is not used any more, its blocks are free for other use -/
  | gone (i : ι)

/-- All bytes of the blocks become those of the memory `m`. Not code of the repository: an
auxiliary function of the machine. -/
def copyBack (e : Bump.Env) (s : Bump.Conc.State n) (blocks : List Block) (m : Mem) : Bump.Conc.State n :=
  Bump.Conc.run e s (blocks.map fun b => .userWrite b 0 (readBytes m b.ptr b.layout.size))

/-- A step of the allocator of `Model/ConcGlobal`, or of one of the structures: see there for the
code. -/
def exec (e : Bump.Env) (s : State M n) : Event M n → State M n
  | .al ev => { s with al := Bump.Conc.exec e s.al ev }
  | .make i blocks => { s with part := setPart s.part i (.rest ⟨blocks, (M i).start, (M i).sstart s.mem, []⟩) }
  | .call i op =>
    match s.part i with
    | .rest u => { s with part := setPart s.part i (.busy u op s.mem) }
    | _ => s
  | .write i b off bytes =>
    match s.part i with
    | .busy _ _ _ => { s with al := Bump.Conc.exec e s.al (.userWrite b off bytes) }
    | _ => s
  | .finish i =>
    match s.part i with
    | .busy u op view =>
      match (M i).exec u.vars view op with
      | none => { s with ub := true }
      | some (r, v, m) =>
        { s with
          al := copyBack e s.al u.blocks m
          part := setPart s.part i (.rest { u with vars := v, calls := u.calls ++ [(op, r)] })
          ended := (M i).halts r }
    | _ => s
  | .gone i => { s with part := setPart s.part i .off }

/-- A structure is in this block. Not code of the repository: an auxiliary function of the machine.
-/
def State.InUse (s : State M n) (b : Block) : Prop := ∃ i u, (s.part i).use = some u ∧ b ∈ u.blocks

/-- The block is given back to the allocator, or written to by the program itself. Not code of the
repository: an auxiliary function of the machine. -/
def Disturbs : Bump.Conc.Event n → Block → Prop
  | .invoke _ op, b => op.takes = some b
  | .step _, _ => False
  | .userWrite c _ _, b => c = b
  | .reset, _ => True

/-- What a program may do: call the allocator according to its contract, but not free or write to
blocks that structures are in; make a structure in blocks which it owns and in which no other is,
prepared as needed;
call a structure that is not just being called, as its contract says. Not code of the repository:
what the language, or the documented contract of the methods, demands of callers. -/
def Event.Permitted (e : Bump.Env) (s : State M n) : Event M n → Prop
  | .al ev => ev.Valid e.target ∧ ∀ b, Disturbs ev b → ¬ s.InUse b
  | .make i blocks => (s.part i).use = none ∧ (∀ b ∈ blocks, b ∈ s.al.live ∧ ¬ s.InUse b) ∧ (∀ x, (M i).own x → ∃ b ∈ blocks, b.region.Has x) ∧ (M i).ready s.mem
  | .call i op => ∃ u, s.part i = .rest u ∧ (M i).permitted u.vars s.mem op
  | .write i b _ _ => ∃ u op view, s.part i = .busy u op view ∧ b ∈ u.blocks
  | .finish i => ∃ u op view, s.part i = .busy u op view
  | .gone i => ∃ u, s.part i = .rest u

/-- At the start of the program. Not code of the repository: the state that the program of the user
and the library have together. -/
def initial (M : ι → Machine) (n c : Nat) (m : Mem) : State M n := ⟨Bump.Conc.init n c m, fun _ => .off, false, false⟩

/-- Not code of the repository: what programs can reach. -/
inductive Reach (M : ι → Machine) (n : Nat) (e : Bump.Env) : State M n → Prop where
  | init {c : Nat} {m : Mem} (h : c ≤ e.len) : Reach M n e (initial M n c m)
  | step {s : State M n} {ev : Event M n} (h : Reach M n e s) (hn : s.ended = false) (hp : ev.Permitted e s) : Reach M n e (exec e s ev)
end

end Verif.Program
