import Verif.Spec.BumpApi
import Verif.Spec.Linearizable
/-!
# Histories of a shared `Bump`

The vocabulary for statements about concurrent executions: what happened, in the order of time.
-/
namespace Verif.Bump

/-- Observable and ghost events, recorded in the order of time. `lin` marks the instant at which the
outcome of a call is decided (ghost), `retry` a failed compare-exchange in the loop. -/
inductive Ev (n : Nat) where
  | inv (t : Fin n) (call : Call)
  | lin (t : Fin n) (call : Call) (r : Ret)
  | retry (t : Fin n)
  | resp (t : Fin n) (call : Call) (r : Ret)
  | userWrite (r : Region)
  | reset
  deriving DecidableEq, Repr

/-- A history, newest event first. -/
abbrev Hist (n : Nat) := List (Ev n)

/-- The non-empty regions that were returned to callers since the last reset (newest first). -/
def handedOut {n : Nat} : Hist n → List Region
  | [] => []
  | .reset :: _ => []
  | .resp _ c r :: h => (grant c r).toList ++ handedOut h
  | _ :: h => handedOut h

/-- The part of the history since the last reset. -/
def sinceReset {n : Nat} : Hist n → Hist n
  | [] => []
  | .reset :: _ => []
  | e :: h => e :: sinceReset h

/-- The observable part of a history (invocations and responses), oldest first. -/
def observable {n : Nat} (h : Hist n) : List (Lin.HEv (Fin n) Call Ret) :=
  h.reverse.filterMap fun
    | .inv t c => some (.inv t c)
    | .resp t c r => some (.resp t c r)
    | _ => none

/-- Total weight of the responses / invocations / decisions in (a part of) a history. -/
def sumResp {n : Nat} (w : Call → Ret → Nat) (h : Hist n) : Nat :=
  (h.map fun | .resp _ c r => w c r | _ => 0).sum
def sumInv {n : Nat} (w : Call → Nat) (h : Hist n) : Nat :=
  (h.map fun | .inv _ c => w c | _ => 0).sum
def sumLin {n : Nat} (w : Call → Ret → Nat) (h : Hist n) : Nat :=
  (h.map fun | .lin _ c r => w c r | _ => 0).sum

/-- 1 if a call with this result got memory. -/
def granted (c : Call) (r : Ret) : Nat := if (grant c r).isSome then 1 else 0

/-- Bytes which a call with this result got. -/
def gotBytes (c : Call) (r : Ret) : Nat := match grant c r with | some reg => reg.size | none => 0

/-- Bytes which a request can use up in the worst case, that is with the largest alignment padding. -/
def worstBytes (c : Call) : Nat := match c.layout with
  | some l => if l.size = 0 then 0 else l.size + (l.align - 1)
  | none => 0

/-- The worst case bytes, of a call which was successful. -/
def gotWorst (c : Call) (r : Ret) : Nat := match grant c r with | some _ => worstBytes c | none => 0

/-- Successful decisions of other threads. -/
def othersSuccess {n : Nat} (t : Fin n) (h : Hist n) : Nat :=
  (h.map fun | .lin u c r => if u ≠ t ∧ (grant c r).isSome then 1 else 0 | _ => 0).sum

/-- Repetitions in the loop of thread `t`. -/
def retries {n : Nat} (t : Fin n) (h : Hist n) : Nat := h.count (.retry t)

end Verif.Bump
