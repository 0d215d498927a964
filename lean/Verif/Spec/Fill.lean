import Verif.Model.Fill
/-! # Specification of filling -/
namespace Verif.Fill
open Verif FVec

section
variable {α ι C : Type}

/-- The iterator after `n` calls of `next`. -/
def after (next : Next ι α) (i : ι) : Nat → ι
  | 0 => i
  | n + 1 => after next (next i).2 n
/-- What the first `n` calls of `next` answer. -/
def answers (next : Next ι α) (i : ι) : Nat → List (Poll α)
  | 0 => []
  | n + 1 => (next i).1 :: answers next (next i).2 n

/-- The container with this room (`none`: unlimited) got these answers, and stored `new`: it asks until it is full or the iterator ends or panics, and not further; all items it got are stored. -/
inductive WellFilled : Option Nat → List (Poll α) → List α → Bool → Prop
  | full (new : List α) : WellFilled (some new.length) (new.map .item) new false
  | ended {room : Option Nat} (new : List α) (h : ∀ r, room = some r → new.length < r) : WellFilled room (new.map .item ++ [.done]) new false
  | panicked {room : Option Nat} (new : List α) (h : ∀ r, room = some r → new.length < r) : WellFilled room (new.map .item ++ [.panic]) new true

/-- A well-behaved container: `room` tells how many items can be added, `Stored c new c'` that `c'` is `c` with these items added.
For every iterator, when filling returns (or unwinds), some number of calls to the iterator was made, of which all items were stored. Filling does return if the room is finite or the iterator ends at some time. -/
structure Lawful (F : FillImpl C α) (room : C → Option Nat) (Stored : C → List α → C → Prop) : Prop where
  fills : ∀ {ι : Type} {next : Next ι α} {fuel : Nat} {c c' : C} {i i' : ι} {unwound : Bool}, F.fill fuel next c i = some (unwound, c', i') →
    ∃ n new, i' = after next i n ∧ WellFilled (room c) (answers next i n) new unwound ∧ Stored c new c'
  returns : ∀ {ι : Type} {next : Next ι α} {fuel : Nat} {c : C} {i : ι}, (∃ k, k < fuel ∧ (room c = some k ∨ ∀ a, (next (after next i k)).1 ≠ .item a)) →
    ∃ r, F.fill fuel next c i = some r

end
end Verif.Fill
