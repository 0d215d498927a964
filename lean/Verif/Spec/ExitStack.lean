import Verif.Model.ExitStack
/-! # Specification of an exit stack: a stack of values, cleared from the top -/
namespace Verif.Exit

/-- The live values, last pinned first, and the log of dropped values, last dropped first. -/
structure Lifo where
  live : List Nat
  dropped : List Nat
  deriving DecidableEq, Repr

/-- Drop values from the top until none is left. -/
def Lifo.clear : List Nat → List Nat → Lifo
  | [], d => ⟨[], d⟩
  | v :: vs, d => Lifo.clear vs (v :: d)

def Lifo.step (l : Lifo) : EEvent → Lifo
  | .pinned v => { l with live := v :: l.live }
  | .cleared => Lifo.clear l.live l.dropped

/-- What a LIFO stack would have dropped. -/
def Lifo.run (ev : List EEvent) : Lifo := ev.foldl Lifo.step ⟨[], []⟩

end Verif.Exit
