import Verif.Model.ExitMem
/-!
# An `ExitStack` that is moved (`/repo/exit-stack/src/lib.rs`)

`Model/ExitMem` has the stack at one address. Here programs can move it too: its bytes are copied to another place, the old place may be used for anything else. Nothing of the code is run by this, so the pointers in the stack
(`top`, and the links in the slots) stay what they were. The methods `slot`, `set` and `pop_all` take a `Pin` of the stack (lib.rs:109, 159, 173). The type of the stack is `Unpin` if `Mem` is (lib.rs:62-67, 89-92: there is no
`PhantomPinned` in it): then `Pin::new` is safe, and when the borrow of the `Pin` has ended the stack can be moved. Otherwise it can be moved only before the first `Pin` of it is made.
-/
namespace Verif.Exit.ExitMem
open Verif Unsync

/-- The stack, with its field `memory` at another address. lib.rs:62-67 -/
def Cfg.movedTo (c : Cfg) (dst : Nat) : Cfg := { c with addr := dst, topAddr := dst + c.topAddr - c.addr }

/-- The bytes of both fields at the new place, anything elsewhere. Not code of the repository: the semantics of the Rust language. -/
def Cfg.moveBytes (c : Cfg) (dst : Nat) (m others : Mem) : Mem := fun x =>
  if (dst ≤ x ∧ x < dst + (c.conf.memory.layout c.t).size) ∨ ((c.movedTo dst).topAddr ≤ x ∧ x < (c.movedTo dst).topAddr + 2 * c.t.wordBytes) then m (x + c.addr - dst) else others x

/-- The place of the stack, what `Model/ExitMem` has, and whether a `Pin` of the stack was made. Not code of the repository. -/
structure MState where
  c : Cfg
  b : BState
  used : Bool

inductive MOut where
  | ret (r : ERet) (s : MState)
  | unwound (s : MState)
  | abort
  | ub

/-- What programs can do. Not code of the repository. -/
inductive MOp where
  | op (o : BOp)
  | move (dst : Nat) (others : Mem)

/-- The method takes a `Pin` of the stack. lib.rs:109, 159, 173; `drop` (lib.rs:278-282) does not. -/
def BOp.takesPin : BOp → Bool
  | .slot _ => true
  | .set _ _ => true
  | .popAll => true
  | .pin _ _ _ => false
  | .write _ _ => false
  | .drop => false

/-- Calls as in `Model/ExitMem` (lib.rs:94-283). Moving: the values that were pinned are not where they were any more, no method has been told. -/
def mexec (s : MState) : MOp → MOut
  | .op o =>
    match bexec s.c s.b o with
    | .ret r b => .ret r { s with b := b, used := s.used || o.takesPin }
    | .unwound b => .unwound { s with b := b, used := s.used || o.takesPin }
    | .abort => .abort
    | .ub => .ub
  | .move dst others => .ret .unit { s with c := s.c.movedTo dst, b := { s.b with mem := s.c.moveBytes dst s.b.mem others, live := [], open_ := [] } }

/-- After `ExitStack::new`, lib.rs:98-103. -/
def MState.init (c : Cfg) (m : Mem) : MState := ⟨c, .init c m, false⟩

end Verif.Exit.ExitMem
