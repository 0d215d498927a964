import Verif.Model.ExitMove
import Verif.Spec.ExitMem
/-!
# Specification of an exit stack that is moved: a list of values, which does not change when it is moved
-/
namespace Verif.Exit.ExitMem
open Verif Unsync

/-- What types and borrows permit. `may` tells whether the stack may be moved in a state. -/
def MOp.Allowed (may : MState → Prop) (s : MState) : MOp → Prop
  | .op o => o.Allowed s.c s.b
  | .move dst _ => s.b.alive = true ∧ s.c.addr ≤ dst + s.c.topAddr ∧ (s.c.movedTo dst).Valid ∧ may s

/-- The rule of the language if `Mem` is `Unpin`: moving is always possible (references to pinned values end by it). -/
def MayUnpin (_ : MState) : Prop := True
/-- The rule of the language if `Mem` is not `Unpin`: until the stack is pinned. -/
def MayNotUnpin (s : MState) : Prop := s.used = false
/-- What a program would have to observe: not as long as a value is pinned. -/
def MayEmpty (s : MState) : Prop := s.b.live = []

/-- Each operation of the program is one that is possible when its turn comes. -/
def MSafeRun (may : MState → Prop) : MState → List MOp → Prop
  | _, [] => True
  | s, op :: ops => op.Allowed may s ∧ ∀ s', (mexec s op = .unwound s' ∨ ∃ r, mexec s op = .ret r s') → MSafeRun may s' ops

/-- A program on bytes; `none` if there is undefined behaviour. -/
def mrun : MState → List MOp → Option (List Seen × Option MState)
  | s, [] => some ([], some s)
  | s, op :: ops =>
    match mexec s op with
    | .ret r s => (mrun s ops).map fun (rs, s) => (.ret r :: rs, s)
    | .unwound s => (mrun s ops).map fun (rs, s) => (.unwound :: rs, s)
    | .abort => some ([.aborted], none)
    | .ub => none

/-- The same for the list of values. -/
def smrun : Cfg → SState → List MOp → List Seen × Option (Cfg × SState)
  | c, s, [] => ([], some (c, s))
  | c, s, .op o :: ops =>
    match sexec c s o with
    | .ret r s => let (rs, s) := smrun c s ops; (.ret r :: rs, s)
    | .unwound s => let (rs, s) := smrun c s ops; (.unwound :: rs, s)
    | .abort => ([.aborted], none)
  | c, s, .move dst _ :: ops => let (rs, s) := smrun (c.movedTo dst) { s with open_ := [] } ops; (.ret .unit :: rs, s)

/-- The stack is in state `s` after a program that is possible. -/
def MReached (may : MState → Prop) (c : Cfg) (m : Mem) (ops : List MOp) (s : MState) : Prop := MSafeRun may (.init c m) ops ∧ ∃ rs, mrun (.init c m) ops = some (rs, some s)

end Verif.Exit.ExitMem
