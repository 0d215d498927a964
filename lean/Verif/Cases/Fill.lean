import Verif.Props.Fill
/-!
# Concrete cases for C63–C66

Each theorem is applied to concrete containers and iterators: the numbers from some start on, ending after a given one.
-/
namespace Verif.CasesFill
open Verif Fill FVec

/-- The numbers below 12, then `None`. -/
def upTo : Next Nat Nat := fun k => if k < 12 then (.item k, k + 1) else (.done, k + 1)
/-- The same, wrapped in `Ok`. -/
def oks : Next Nat (Except Nat Nat) := fun k => if k < 12 then (.item (.ok k), k + 1) else (.done, k + 1)

/-- C63: a `Vec` with room for three, and one with room for more than the iterator has. -/
example := C63_keep_tail (C63_vec (α := Nat)).1 (next := upTo) (fuel := 9) (c := ⟨4, [7]⟩) (c' := ⟨4, [7, 5, 6, 7]⟩) (i := 5) (i' := 8) (by decide)
example := C63_keep_tail (C63_vec (α := Nat)).1 (next := upTo) (fuel := 9) (c := ⟨4, [7]⟩) (c' := ⟨4, [7, 10, 11]⟩) (i := 10) (i' := 13) (by decide)
example := C63_fill_count (C63_vec (α := Nat)).1 (next := upTo) (t := .w64) (checks := true) (fuel := 9) (c := ⟨4, [7]⟩) (c' := ⟨4, [7, 10, 11]⟩) (i := 10) (i' := 13) (cnt := 2) (by decide +kernel)
example := C63_fill_count C63_option (next := upTo) (t := .w64) (checks := true) (fuel := 9) (c := none) (c' := some 10) (i := 10) (i' := 11) (cnt := 1) (by decide +kernel)
example := C63_fill_count C63_unit (c := ()) (c' := ()) (next := fun k : Nat => if k < 12 then (.item (), k + 1) else (.done, k + 1)) (t := .w64) (checks := true) (fuel := 9) (i := 10) (i' := 13) (cnt := 2) (by decide +kernel)
example := C63_full (C63_vec (α := Nat)).1 (next := upTo) (fuel := 9) (c := ⟨1, [7]⟩) (c' := ⟨1, [7]⟩) (i := 5) (i' := 5) (u := false) rfl (by decide)

/-- C64. -/
example := C64_checked_fill (C63_vec (α := Nat)).1 (next := upTo) (fuel := 9) (c := ⟨4, [7]⟩) (c' := ⟨4, [7, 5, 6, 7]⟩) (i := 5) (i' := 8) (r := some 8) (by decide)
example := C64_checked_fill (C63_vec (α := Nat)).1 (next := upTo) (fuel := 9) (c := ⟨4, [7]⟩) (c' := ⟨4, [7, 10, 11]⟩) (i := 10) (i' := 13) (r := none) (by decide)
example := C64_full C63_option (next := upTo) (fuel := 9) (c := some 3) (c' := some 3) (i := 5) (i' := 5) (r := some 5) rfl (by decide)
example : ∃ r, checkedFill (vecFill (α := Nat)) 9 upTo ⟨4, [7]⟩ 5 = some r := C64_returns (C63_vec (α := Nat)).1 (k := 3) (.inl rfl) (by decide)

/-- C65. -/
example := C65_option (next := upTo) (c := none) (c' := some 5) (i := 5) (i' := 6) (fuel := 1) (u := false) rfl
example := C65_option (next := upTo) (c := some 3) (c' := some 3) (i := 5) (i' := 5) (fuel := 1) (u := false) rfl
example : (resultFill (E := Nat) (optionFill (α := Nat))).fill 9 oks (.error 8) 5 = some (false, .error 8, 5) := C65_err
/-- Of the items 9, 10, 11 an `Option` stores only the first, and the others are lost. -/
example : ∃ c', optStored none ([9] : List Nat) c' ∧ (resultFill (E := Nat) optionFill).fill 9 oks (.ok none) 9 = some (false, .ok c', 13) :=
  C65_violated (E := Nat) option_oneByOne (next := oks) (good := [9, 10, 11]) (c := none) (i := 9) (fuel := 9) (r := 1) rfl rfl (by decide) rfl
example := C65_result_exact (E := Nat) option_oneByOne (next := oks) (good := [9, 10, 11]) (c := none) (i := 9) (fuel := 9) rfl (fun a h => by cases h) (by decide)

/-- C66. -/
example := C63_keep_tail C66_iter_mut (next := upTo) (fuel := 9) (c := ⟨[1, 2, 3], 1⟩) (c' := ⟨[1, 5, 6], 3⟩) (i := 5) (i' := 7) (by decide)
example := C63_keep_tail C66_iter_mut_swap (next := upTo) (fuel := 9) (c := ⟨⟨[1, 2, 3], 1⟩, fun x => 100 + x⟩) (i := 5) (i' := 7) rfl
example := C66_slice (slice := [1, 2, 3]) (items := [7, 8]) 9 (by decide)

end Verif.CasesFill
