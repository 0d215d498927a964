import Verif.Model.RcMem
import Verif.Spec.Rc
/-! # Specification: reference counting on bytes -/
namespace Verif.RcMem
open Verif RcM

/-- All the memory of a block. -/
def Cfg.region (c : Cfg) (a : Nat) : Region := ⟨c.addr a, (rcLayout c.t c.T).size⟩

/-- The type has a layout of a type, and different blocks do not overlap. -/
structure Cfg.Ok (c : Cfg) : Prop where
  type : c.T.ValidType c.t
  disjoint : ∀ a b, a ≠ b → (c.region a).Disjoint (c.region b)

/-- The block as record. -/
def Cfg.box (c : Cfg) (m : Mem) (a : Nat) : RcBox (List Byte) := ⟨some (c.value m a), c.strong m a, c.weak m a⟩
def BWorld.abs (c : Cfg) (w : BWorld) : World (List Byte) := ⟨c.box w.m, w.owner, w.hs, w.log, w.running⟩

/-- Values passed have the size of the type. -/
def Sized (c : Cfg) : Op (List Byte) → Prop
  | .new _ v | .rawReplace _ v | .replace _ v => v.length = c.T.size
  | .scribble _ _ => False
  | _ => True

/-- What the user can do: calls on handles and blocks that he has (as in `RcM.Permitted`), and arbitrary writes to memory that is his. -/
def Allowed (c : Cfg) (w : BWorld) : BOp → Prop
  | .call op => Sized c op ∧ Permitted (w.abs c) op ∧ NoOverflow c.t (w.abs c) op
  | .raw a off bytes => w.owner a = .user ∧ off + bytes.length ≤ (rcLayout c.t c.T).size

def SafeRun (c : Cfg) (checks : Bool) : BWorld → List BOp → Prop
  | _, [] => True
  | w, op :: ops => Allowed c w op ∧ ∀ r w', bexec c checks w op = .ret (r, w') → SafeRun c checks w' ops

/-- States of such programs, from any contents of the memory. -/
def Reach (c : Cfg) (checks : Bool) (w : BWorld) : Prop := ∃ m ops rs, SafeRun c checks (.initial m) ops ∧ brun c checks (.initial m) ops = .ret (rs, w)

/-- The calls for the specification, for which the contents of unused memory do not matter. -/
def specOp : BOp → Op (List Byte)
  | .call op => op
  | .raw a _ _ => .scribble a ⟨none, 0, 0⟩

/-- The block which a call is about. -/
def target (w : BWorld) : BOp → Option Nat
  | .raw a _ _ => some a
  | .call op => match op with
    | .new a _ | .fromRaw a | .rawReplace a _ | .rawTake a | .scribble a _ => some a
    | .clone h | .downgrade h | .upgrade h | .cloneWeak h | .dropRc h | .dropWeak h | .tryUnwrap h | .weakTryUnwrap h | .intoRaw h | .replace h _ | .deref h | .strongCount h | .weakCount h | .forget h => blockOf w.hs h
    | .ptrEq _ _ | .endDrop => none

end Verif.RcMem
