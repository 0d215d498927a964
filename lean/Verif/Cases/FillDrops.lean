import Verif.Props.FillDrops
/-!
# Concrete cases for C101

Values are numbers; items contain one value, or several; the destructors of the multiples of ten panic.
-/
set_option autoImplicit false
namespace Verif.CasesFillDrops
open Verif Fill FVec FillDrops

/-- The destructors of 10, 20, ... panic. -/
def bad (v : Nat) : Bool := v % 10 = 0
/-- The numbers below 12, then `None`. -/
def upTo : Next Nat Nat := fun k => if k < 12 then (.item k, k + 1) else (.done, k + 1)
/-- `Ok` of the numbers below 12, then `Err(100)`. -/
def oks : Next Nat (Except Nat Nat) := fun k => if k < 12 then (.item (.ok k), k + 1) else (.item (.error 100), k + 1)
/-- One value in each item. -/
def one (v : Nat) : List Nat := [v]

/-- A `Vec` and an `Option`. -/
example := (C101_nothing (α := Nat) (V := Nat)).1 (next := upTo) (fuel := 9) (c := ⟨4, [7]⟩) (c' := ⟨4, [7, 5, 6, 7]⟩) (i := 5) (i' := 8) (e := .ok) (d := []) rfl
example := (C101_conserves one).1 (next := upTo) (fuel := 9) (c := ⟨4, [7]⟩) (c' := ⟨4, [7, 10, 11]⟩) (i := 10) (i' := 13) (e := .ok) (d := []) rfl
example := (C101_conserves one).2.2.2 (next := upTo) (fuel := 9) (c := none) (c' := some 10) (i := 10) (i' := 11) (e := .ok) (d := []) rfl

/-- A slice of which two elements are overwritten; then one where the second element panics when it is overwritten; then one where the first has two values that panic. -/
example := C101_slice bad one (next := upTo) (fuel := 9) (c := ⟨[1, 2, 3], 1⟩) (c' := ⟨[1, 5, 6], 3⟩) (i := 5) (i' := 7) (e := .ok) (d := [2, 3]) (by decide +kernel)
example := C101_slice bad one (next := upTo) (fuel := 9) (c := ⟨[1, 20, 3], 0⟩) (c' := ⟨[5, 6, 3], 2⟩) (i := 5) (i' := 7) (e := .panic) (d := [1, 20]) (by decide +kernel)
example := C101_slice_exact (panics := bad) (vals := one) (next := upTo) (fuel := 9) (c := ⟨[1, 20, 3], 0⟩) (c' := ⟨[5, 6, 3], 2⟩) (i := 5) (i' := 7) (e := .panic) (d := [1, 20]) (by decide +kernel)
example := C101_slice_exact (panics := bad) (vals := fun v => [v, v + 1, v + 10, v + 2]) (next := upTo) (fuel := 9) (c := ⟨[20, 3], 0⟩) (c' := ⟨[5, 3], 1⟩) (i := 5) (i' := 6) (e := .abort) (d := [20, 21, 30]) (by decide +kernel)

/-- Elements 1 and 2 of the slice swapped with the variables 5 and 6. -/
example := C101_swap (V := Nat) one (next := upTo) (xs := [4, 5, 6]) (by decide) (fuel := 9) (s := ⟨⟨[1, 2, 3], 1⟩, fun x => 100 + x⟩) (i := 5) (i' := 7) (e := .ok) (d := []) rfl

/-- A `Result` with an `Option`: 9 is stored, 10 and 11 are for nothing; the destructor of 10 panics, and 11 stays in the iterator. -/
example := C101_result (C101_conserves one).2.2.2 one bad (next := oks) (fuel := 9) (c := .ok none) (c' := .ok (some 9)) (i := 9) (i' := 11) (e := .panic) (d := [10]) (by rfl)
/-- Without panics: 10 and 11 are destroyed, then the container with the 9, which the error replaces. -/
example := C101_result (C101_conserves one).2.2.2 one (fun _ => false) (next := oks) (fuel := 9) (c := .ok none) (c' := .error 100) (i := 9) (i' := 13) (e := .ok) (d := [10, 11, 9]) (by rfl)
/-- A container with two values that panic is replaced: the process is aborted. -/
example := C101_result (C101_conserves one).1 one bad (next := oks) (fuel := 9) (c := .ok ⟨4, [1, 20, 30, 2]⟩) (c' := .error 100) (i := 12) (i' := 13) (e := .abort) (d := [1, 20, 30]) (by rfl)
/-- A `Result` in a `Result`: `Err(11)` of an inner item replaces the inner container with 5 and 6. -/
example := C101_result (E := Nat) (C101_result (E := Nat) (C101_conserves one).1 one bad) one bad
  (next := fun k : Nat => if k < 11 then (.item (.ok (.ok k)), k + 1) else if k = 11 then (.item (.ok (.error 11)), 12) else (.done, k + 1)) (fuel := 9)
  (c := .ok (.ok ⟨8, [5, 6]⟩)) (c' := .ok (.error 11)) (i := 9) (i' := 12) (e := .panic) (d := [5, 6, 9, 10]) (by rfl)
/-- Exactly. -/
example := C101_result_exact (E := Nat) option_agrees option_nothing option_oneByOne (C101_conserves one).2.2.2
  (fun {c a c'} h => by unfold optionVals; rw [show c'.toList = c.toList ++ [a] from h]; simp) (panics := fun _ => false) (fun _ => rfl) (next := oks) (good := [9, 10, 11]) (c := none) (i := 9) (fuel := 9) rfl (fun a h => by cases h) (by decide)

example := C101_keep_tail (C101_slice bad one) (next := upTo) (fuel := 9) (c := ⟨[1, 20, 3], 0⟩) (c' := ⟨[5, 6, 3], 2⟩) (i := 5) (i' := 7) (e := .panic) (d := [1, 20]) (by decide +kernel)
example := C101_checked (C101_slice bad one) (next := upTo) (fuel := 9) (c := ⟨[1, 2, 3], 1⟩) (c' := ⟨[1, 5, 6], 3⟩) (i := 5) (i' := 7) (e := .ok) (r := some (some 7)) (d := [2, 3]) (by decide +kernel)
example := C101_checked (C101_slice bad one) (next := upTo) (fuel := 9) (c := ⟨[1, 2, 3], 1⟩) (c' := ⟨[1, 11, 3], 2⟩) (i := 11) (i' := 13) (e := .ok) (r := some none) (d := [2]) (by decide +kernel)
example := (C101_agrees (E := Nat) (panics := fun _ : Nat => false) (fun _ => rfl) one).2.2.2.2.1 (next := upTo) (fuel := 9) (c := ⟨[1, 2, 3], 1⟩) (i := 5)

end Verif.CasesFillDrops
