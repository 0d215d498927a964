import Verif.Props.Unsize
/-!
# Concrete cases for C67 and C69

A `&mut [u32; 1]`-like pointer and a `Pin<Box>` become a trait object and a slice.
-/
namespace Verif.CasesUnsize
open Verif Unsize

def arr : Ty := .array 5 ⟨2, 2⟩ 2
theorem ref_valid : Handle.Valid exW ⟨.mutRef, ⟨64, 1, []⟩, 0⟩ := ⟨_, rfl⟩
theorem box_valid : Handle.Valid exW ⟨.wbox, ⟨64, 0, []⟩, 16⟩ := trivial
example : ∃ h' w', unsize true exW exT ⟨.mutRef, ⟨64, 1, []⟩, 0⟩ (toDyn exT 3) = .ret (h', w') ∧ Unsized exW w' ⟨.mutRef, ⟨64, 1, []⟩, 0⟩ h' (.vtable exT 3) :=
  C67_unsize exW_wf ref_valid (C67_to_dyn exT 3).1
example : ∃ h' w', unsize false exW arr ⟨.wbox, ⟨64, 0, []⟩, 16⟩ (toSlice 5 ⟨2, 2⟩ 2) = .ret (h', w') ∧ Unsized exW w' ⟨.wbox, ⟨64, 0, []⟩, 16⟩ h' (.len 5 ⟨2, 2⟩ 2) :=
  C67_unsize exW_wf box_valid (C67_to_slice 5 ⟨2, 2⟩ 2).1
example : (Meta.len 5 ⟨2, 2⟩ 2).layout = arr.layout := (C67_to_slice 5 ⟨2, 2⟩ 2).2.1
example : ∃ h' w', unsize true exW exT ⟨.mutRef, ⟨64, 1, []⟩, 0⟩ (toDyn exT 3) = .ret (h', w') ∧ Provenance exW w' exT ⟨.mutRef, ⟨64, 1, []⟩, 0⟩ h' :=
  C69_provenance_partial exW_wf ref_valid (C67_to_dyn exT 3).1
end Verif.CasesUnsize
