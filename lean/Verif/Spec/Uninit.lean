import Verif.Model.Uninit
/-! # Specification for views of uninitialised memory -/
namespace Verif.Uninit
open Verif

namespace AnyView
/-- The bytes that a view stands for. -/
def region : AnyView → Region
  | .sized v => ⟨v.addr, v.len⟩
  | .slice v => ⟨v.addr, v.len⟩
end AnyView

/-- A piece of memory of the program: not at null, not wrapping around, not larger than allocations can be. -/
structure MemOk (t : Target) (r : Region) : Prop where
  pos : 0 < r.start
  no_wrap : r.start + r.size ≤ t.W
  size : r.size ≤ t.isizeMax

/-- Regions `a`, `b` are adjacent and together are `r`. -/
def SplitsInto (r a b : Region) : Prop := a.start = r.start ∧ b.start = a.start + a.size ∧ a.size + b.size = r.size

/-- The region can hold a value of the layout at its start. -/
def CanHold (r : Region) (l : Layout) : Prop := l.align ∣ r.start ∧ l.size ≤ r.size

/-- The uses of `split_at_byte` which are correct. -/
def ByteOk : AnyView → VOp → Prop
  | .sized v, .splitAtByte n => n = 0 ∨ v.T.size = 1
  | .sized v, .splitToFit => v.T.size ≤ 1
  | _, _ => True

end Verif.Uninit
