import Verif.Model.GlobalLocal
/-!
# Blocks of memory, their owners, and data races

An execution is a graph of actions with happens-before (`Spec/MemoryModel`). Blocks are given by returning calls and taken by calls of `realloc` and `dealloc`. What is asked of the program is what `GlobalAlloc` asks of callers: a block that is passed
is one that was received and not passed before, and accesses are to blocks that are owned. All of this in the sense of happens-before, as there is no time.
-/
set_option autoImplicit false
namespace Verif.Bump.Conc
open MM
variable {n : Nat}

/-- Executions that the memory model permits: the atomic operations are `SeqCst`, as in the code; or, weaker, of any ordering. -/
def GPossible (X : Graph n GAct) : Prop := X.WellFormed gKind ∧ (X.SeqCst gKind ∨ X.Coherent gKind)

/-- The call that returns here gives this block to its caller. -/
def Gives (X : Graph n GAct) (a : MM.Ev n) (b : Block) : Prop := ∃ op r, X.At a (.ret op r) ∧ op.gives r = some b
/-- The call that starts here takes this block. -/
def Takes (X : Graph n GAct) (a : MM.Ev n) (b : Block) : Prop := ∃ op, X.At a (.invoke op) ∧ op.takes = some b

/-- The program, not the allocator, reads or writes this byte. -/
def UserReads (X : Graph n GAct) (a : MM.Ev n) (p : Nat) : Prop := ∃ v, X.At a (.userRead p v)
def UserWrites (X : Graph n GAct) (a : MM.Ev n) (p : Nat) : Prop := ∃ v, X.At a (.userWrite p v)
def UserUses (X : Graph n GAct) (a : MM.Ev n) (p : Nat) : Prop := UserReads X a p ∨ UserWrites X a p

/-- The program or the allocator reads or writes this byte: zeroing, copying, moving a value to its place. -/
def WritesByte (X : Graph n GAct) (a : MM.Ev n) (p : Nat) : Prop := UserWrites X a p ∨ (∃ v, X.At a (.write p v)) ∨ ∃ r, X.At a (.bump (.write r)) ∧ r.Has p
def ReadsByte (X : Graph n GAct) (a : MM.Ev n) (p : Nat) : Prop := UserReads X a p ∨ ∃ v, X.At a (.read p v)
def Accesses (X : Graph n GAct) (a : MM.Ev n) (p : Nat) : Prop := ReadsByte X a p ∨ WritesByte X a p

/-- A data race ([intro.races]/21): two accesses to the same byte, at least one of which is a write, that are not ordered by happens-before. -/
def Race (X : Graph n GAct) (a b : MM.Ev n) : Prop :=
  a ≠ b ∧ ¬ X.hb a b ∧ ¬ X.hb b a ∧ ∃ p, Accesses X a p ∧ Accesses X b p ∧ (WritesByte X a p ∨ WritesByte X b p)

/-- The contract for the program. `src` tells for calls that take a block, and for accesses, by which return the block was received. -/
structure Disciplined (X : Graph n GAct) (src : MM.Ev n → MM.Ev n) : Prop where
  /-- a block that is passed was received before, -/
  taken : ∀ i b, Takes X i b → Gives X (src i) b ∧ X.hb (src i) i
  /-- and is not passed twice; -/
  once : ∀ i j b c, Takes X i b → Takes X j c → src i = src j → i = j
  /-- an access is within a block that was received before, -/
  used : ∀ u p, UserUses X u p → ∃ b, Gives X (src u) b ∧ b.region.Has p ∧ X.hb (src u) u
  /-- and if this is given up, then afterwards; -/
  before : ∀ u p i b, UserUses X u p → Takes X i b → src i = src u → X.hb u i
  /-- the program has no races of its own among its accesses to one block. -/
  own : ∀ u v p, UserUses X u p → UserUses X v p → UserWrites X u p ∨ UserWrites X v p → src u = src v → u = v ∨ X.hb u v ∨ X.hb v u

end Verif.Bump.Conc
