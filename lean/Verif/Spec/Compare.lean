import Verif.Model.Compare
/-! # Specification of comparison and hashing of sequences -/
namespace Verif.Cmp

/-- Same length and equal elements at all positions. -/
def EqualLists {V : Type} (eq : V → V → Bool) (xs ys : List V) : Prop :=
  xs.length = ys.length ∧ ∀ (k : Nat) (x y : V), xs[k]? = some x → ys[k]? = some y → eq x y = true

/-- `r` is the lexicographic comparison by `c`: the first position where `c` does not say "equal" decides; if there is none then the shorter list is less. -/
def Lexicographic {V : Type} (c : V → V → Option Ordering) (xs ys : List V) (r : Option Ordering) : Prop :=
  (∃ (k : Nat) (x y : V), xs[k]? = some x ∧ ys[k]? = some y ∧ c x y = r ∧ r ≠ some .eq ∧ ∀ j : Nat, j < k → ∀ x' y', xs[j]? = some x' → ys[j]? = some y' → c x' y' = some .eq) ∨
  ((∀ (j : Nat) (x' y' : V), xs[j]? = some x' → ys[j]? = some y' → c x' y' = some .eq) ∧ r = some (compare xs.length ys.length))

/-- The methods agree with each other and with a linear order of the type, as the documentation of `Ord` demands; equal values have the same hash. -/
structure Lawful {V : Type} [LT V] (d : Traits V) : Prop where
  eq_iff : ∀ a b, d.eq a b = true ↔ a = b
  cmp_lt : ∀ a b, d.cmp a b = .lt ↔ a < b
  cmp_eq : ∀ a b, d.cmp a b = .eq ↔ a = b
  cmp_gt : ∀ a b, d.cmp a b = .gt ↔ b < a
  partial_cmp : ∀ a b, d.partialCmp a b = some (d.cmp a b)

/-- Equal values feed the same to the hasher (`k1 == k2 -> hash(k1) == hash(k2)`, documentation of `Hash`). -/
def HashLaw {V : Type} (d : Traits V) : Prop := ∀ a b, d.eq a b = true → d.hash a = d.hash b

end Verif.Cmp
