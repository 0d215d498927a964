import Verif.Model.Chain
/-! # Vocabulary for the properties of `Chain` -/
namespace Verif.Unsync
open Verif

/-- The link is one of the links of the chain `c`: its front, or the successor of another link of it. -/
inductive CState.LinkOf (s : CState) (c : Nat) : LPtr → Prop
  | front {p : LPtr} (h : s.roots c = some (some p)) : LinkOf s c p
  | next {p q : LPtr} {rec : LinkRec} (h : LinkOf s c p) (hl : s.heap.link p.addr = some rec) (hn : rec.next = some q) : LinkOf s c q

/-- The bytes of a link that values are placed in: behind the fields `next` (2 words) and `index` (1 word), `cap` bytes. -/
def LPtr.dataRegion (t : Target) (p : LPtr) : Region := ⟨p.addr + 3 * t.wordBytes, p.cap⟩
/-- The value of the level counter of the link. -/
def LPtr.used (t : Target) (m : Mem) (p : LPtr) : Nat := loadUsize t m (p.addr + 2 * t.wordBytes)

/-- The operation ends the life of what was allocated from chain `c`. -/
def COp.Ends (c : Nat) : COp → Prop
  | .drop d => d = c
  | .chain _ d => d = c
  | _ => False

end Verif.Unsync
