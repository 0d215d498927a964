import Verif.Model.Arena
import Verif.Spec.Uninit
import Verif.Spec.LocalAllocContract
/-! # Specification: objects of one allocator do not interfere -/
namespace Verif.Arena
open Verif AllocTraits Uninit

section
variable {σ : Type}

/-- What safe code can ask for: layouts of types, values of their type, sources and targets inside of objects it has. -/
def Allowed (t : Target) (objs : List Region) : Op → Prop
  | .layout l => l.Valid t
  | .uninit V => V.ValidType t
  | .boxed V bytes => V.ValidType t ∧ bytes.length = V.size
  | .rc V bytes => V.ValidType t ∧ (RcM.rcLayout t V).ValidType t ∧ bytes.length = V.size
  | .vec V n => V.ValidType t ∧ n < t.W
  | .copy T k off n => T.ValidType t ∧ (⟨n * T.size, T.align⟩ : Layout).Valid t ∧ ∃ o, objs[k]? = some o ∧ off + n * T.size ≤ o.size
  | .write k off bytes => ∃ o, objs[k]? = some o ∧ off + bytes.length ≤ o.size

/-- Every call of the history is allowed when it is made. -/
def SafeRun (t : Target) (A : LocalAlloc σ) : World σ → List Op → Prop
  | _, [] => True
  | w, op :: ops => Allowed t w.objs op ∧ ∀ r w', exec t A w op = .ret (r, w') → SafeRun t A w' ops

/-- The contents of a region. -/
def contents (m : Mem) (r : Region) : List Byte := readBytes m r.start r.size

/-- What the new object starts with, where the call determines it. -/
def initial (w : World σ) : Op → List Byte
  | .boxed _ bytes | .rc _ bytes => bytes
  | .copy T k off n => readBytes w.m ((w.objs.getD k ⟨0, 0⟩).start + off) (n * T.size)
  | _ => []

/-- The history does not write to the `k`-th object. -/
def NotWritten (k : Nat) (ops : List Op) : Prop := ∀ off bytes, Op.write k off bytes ∉ ops

/-- Whether a program can get memory for the layout. -/
def needs (t : Target) : Op → Option Layout
  | .layout l => if l.size = 0 then none else some l
  | .uninit V | .boxed V _ => some V
  | .rc V _ => some (RcM.rcLayout t V)
  | .vec V n => if V.size * n + (V.align - 1) ≤ t.isizeMax then some ⟨V.size * n, V.align⟩ else none
  | .copy T _ _ n => some ⟨n * T.size, T.align⟩
  | .write .. => none

end
end Verif.Arena
