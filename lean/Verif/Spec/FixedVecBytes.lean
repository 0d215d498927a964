import Verif.Model.FixedVecBytes
import Verif.Spec.FixedVec
/-! # What safe code can do with vectors on bytes -/
namespace Verif.FVec.Bytes
open Verif

variable {T : Layout}

/-- As `FVec.Permitted`: the borrow checker accepts the call; new vectors are made from aligned memory that no other vector has. -/
def Permitted (t : Target) (w : BWorld T) : Op (Bits T) → Prop
  | .new addr len => T.align ∣ addr ∧ Uninit.MemOk t ⟨addr, len⟩ ∧ ∀ j e, w.ents j = some e → Region.Disjoint ⟨addr, len⟩ e.region
  | .setLen i vs n => ∃ e, w.ents i = some e ∧ (∀ j e', w.ents j = some e' → i ∉ e'.borrows) ∧ e.drain = none ∧ e.vec.len + vs.length ≤ e.vec.capacity t ∧ n ≤ e.vec.len + vs.length
  | op => ∃ i e, op.target = some i ∧ w.ents i = some e ∧ (∀ j e', w.ents j = some e' → i ∉ e'.borrows) ∧ (op.OnDrain ↔ e.drain.isSome)

/-- All operations of the history are permitted when they are executed. -/
def SafeRun (t : Target) (checks : Bool) (panics : Bits T → Bool) : BWorld T → List (Op (Bits T)) → Prop
  | _, [] => True
  | w, op :: ops => Permitted t w op ∧ NoWrap t checks op ∧ ∀ r w', exec t checks panics w op = .ret (r, w') → SafeRun t checks panics w' ops

/-- The bytes of a list of values, one after the other. -/
def flat (xs : List (Bits T)) : List Byte := xs.flatMap (·.1)

end Verif.FVec.Bytes
