import Verif.Spec.ConcBoxes
import Verif.Spec.BumpBoxes
/-!
# What can be done with a pinned box

`LeakBox::into_pin` (`/repo/static-alloc/src/leaked.rs:387-393`) wraps the box, of which the lifetime is `'static`, in a `Pin`: the pointer stays the same. Through a `Pin` the value can be looked at, replaced in place by `Pin::set` (which drops the old value there), and dropped;
it can not be moved out. As the bump is borrowed for `'static` it can not be reset any more. Forgetting the box is not an event: it is not used again.
-/
namespace Verif

/-- One use of the pinned variable `k` that is not its end. -/
def ConcBoxes.PinUse (k : Nat) (u : ConcBoxes.Use) : Prop := u = .deref k ∨ ∃ v, u = .assign k v

/-- After thread `t` has pinned its box `k`: no reset, and the box is used as a pinned one only. -/
def ConcBoxes.Pinned {n : Nat} (t : Fin n) (k : Nat) (ev : ConcBoxes.Event n) : Prop := ev ≠ .reset ∧ ∀ u, ev = .use t u → u.var = k → ConcBoxes.PinUse k u

/-- The same for boxes in an `unsync` bump. -/
def Unsync.BumpBoxes.Pinned (k : Nat) (op : Unsync.BumpBoxes.Op) : Prop :=
  op ≠ .reset ∧ (∀ v, op ≠ .write k v ∧ op ≠ .replace k v) ∧ op ≠ .take k ∧ op ≠ .leak k ∧ op ≠ .intoRaw k ∧ op ≠ .fromRaw k ∧ op ≠ .drop k

end Verif
