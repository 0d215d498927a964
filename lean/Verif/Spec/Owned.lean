import Verif.Model.Owned
/-! # Where a value can be -/
namespace Verif.Owned

inductive Loc where
  /-- A variable of the user. -/
  | user
  /-- Its destructor was run. -/
  | dropped
  /-- In the memory at a place, owned by the handle of that place. -/
  | at (p : Nat)
  deriving DecidableEq, Repr

/-- The value is there. -/
def OState.Where (s : OState) (v : Nat) : Loc → Prop
  | .user => v ∈ s.owned
  | .dropped => v ∈ s.st.dropped
  | .at p => s.st.mem p = some v ∧ (s.kind p = some .boxed ∨ s.kind p = some .uninitFull ∨ s.kind p = some .raw)

/-- Every value is at one and only one place and no destructor was run twice. -/
def OState.Conserved (s : OState) : Prop :=
  s.st.dropped.Nodup ∧ s.owned.Nodup ∧ ∀ v, v < s.next ↔ ∃ l, s.Where v l ∧ ∀ l', s.Where v l' → l' = l

end Verif.Owned
