import Verif.Props.Uninit
/-!
# Concrete cases for C38–C43

Each theorem is applied to concrete views: 64 bytes at address 4096 as a slice of `u32`, split into the first 4 elements, one more and the others.
-/
namespace Verif.CasesUninit
open Verif Uninit

theorem mem_ok : MemOk .w64 ⟨4096, 66⟩ := ⟨by decide, by decide, by decide⟩
theorem u64_valid : (⟨8, 8⟩ : Layout).ValidType .w64 := ⟨⟨⟨3, rfl⟩, by decide⟩, by decide⟩
theorem zst_valid : (⟨0, 8⟩ : Layout).ValidType .w64 := ⟨⟨⟨3, rfl⟩, by decide⟩, by decide⟩

/-- The bytes: an empty rest, four `u32`, one `u32`, and eleven more with two spare bytes. -/
def pool : List AnyView := [.sized ⟨4096, 0, unit⟩, .slice ⟨4096, 16, ⟨4, 4⟩, 16⟩, .slice ⟨4116, 46, ⟨4, 4⟩, 11⟩, .sized ⟨4112, 4, ⟨4, 4⟩⟩]
theorem pool_derived {P : AnyView → VOp → Prop} (h1 : P (.sized (fromMemory 4096 66)) (.splitSlice ⟨4, 4⟩)) (h2 : P (.slice ⟨4096, 66, ⟨4, 4⟩, 16⟩) (.splitAt 4))
    (h3 : P (.slice ⟨4112, 50, ⟨4, 4⟩, 12⟩) .splitFirst) : Derived .w64 ⟨4096, 66⟩ P pool :=
  have d0 : Derived .w64 ⟨4096, 66⟩ P [.sized (fromMemory 4096 66)] := .init
  have d1 : Derived .w64 ⟨4096, 66⟩ P [.sized ⟨4096, 0, unit⟩, .slice ⟨4096, 66, ⟨4, 4⟩, 16⟩] :=
    .step (pre := []) (post := []) (v := .sized (fromMemory 4096 66)) (op := .splitSlice ⟨4, 4⟩) d0 ⟨rfl, u32_valid⟩ h1 rfl
  have d2 : Derived .w64 ⟨4096, 66⟩ P [.sized ⟨4096, 0, unit⟩, .slice ⟨4096, 16, ⟨4, 4⟩, 16⟩, .slice ⟨4112, 50, ⟨4, 4⟩, 12⟩] :=
    .step (pre := [.sized ⟨4096, 0, unit⟩]) (post := []) (v := .slice ⟨4096, 66, ⟨4, 4⟩, 16⟩) (op := .splitAt 4) d1 (show (4 : Nat) < Target.w64.W by decide) h2 rfl
  .step (pre := [.sized ⟨4096, 0, unit⟩, .slice ⟨4096, 16, ⟨4, 4⟩, 16⟩]) (post := []) (v := .slice ⟨4112, 50, ⟨4, 4⟩, 12⟩) (op := .splitFirst) d2 trivial h3 rfl
theorem pool_small : Derived .w64 ⟨4096, 66⟩ SmallSplit pool := pool_derived trivial trivial trivial
theorem pool_byte : Derived .w64 ⟨4096, 66⟩ ByteOk pool := pool_derived trivial trivial trivial

/-- C38. -/
example : ∀ v ∈ pool, v.region.Within ⟨4096, 66⟩ := C38_within_partial mem_ok pool_small
example : ∃ vs, VOp.splitLast.apply .w64 (.slice ⟨4116, 46, ⟨4, 4⟩, 11⟩) = .ret vs := C38_no_panic mem_ok pool_small (by decide) trivial trivial
example : ∃ a b, View.splitAtByte ⟨4096, 64, ⟨4, 4⟩⟩ 8 = some (a, b) ∧ ∃ x, (AnyView.sized b).region.Has x ∧ ¬ (AnyView.sized ⟨4096, 64, ⟨4, 4⟩⟩).region.Has x :=
  C38_violated (by decide) (by decide) (by decide)
example : ∃ a b, View.splitToFit ⟨4096, 64, ⟨4, 4⟩⟩ = .ret (a, b) ∧ ∃ x, (AnyView.sized b).region.Has x ∧ ¬ (AnyView.sized ⟨4096, 64, ⟨4, 4⟩⟩).region.Has x :=
  C38_violated_split_to_fit (by decide) (by decide)

/-- C39: the slice of 16 `u32` and 2 spare bytes. -/
def sl : SliceView := ⟨4096, 66, ⟨4, 4⟩, 16⟩
example := C39_split_at (t := .w64) (v := sl) u32_valid (by decide) (by decide) (n := 4) (by decide)
example := C39_split_at (t := .w64) (v := sl) u32_valid (by decide) (by decide) (n := 17) (by decide)
example : sl.splitAt .w64 4 = .ret (some (⟨4096, 16, ⟨4, 4⟩, 16⟩, ⟨4112, 50, ⟨4, 4⟩, 12⟩)) ∧ sl.splitAt .w64 17 = .ret none := by decide
example := C39_split_first (t := .w64) (v := sl) u32_valid (by decide) (by decide)
example : sl.splitFirst .w64 = .ret (some (⟨4100, 62, ⟨4, 4⟩, 15⟩, ⟨4096, 4, ⟨4, 4⟩⟩)) := by decide
example := C39_split_last (t := .w64) (v := sl) u32_valid (by decide) (by decide)
example : sl.splitLast .w64 = .ret (some (⟨4096, 60, ⟨4, 4⟩, 16⟩, ⟨4156, 6, ⟨4, 4⟩⟩)) := by decide
example : (pool.map AnyView.region).Pairwise Region.Disjoint ∧ (∀ v ∈ pool, v.region.Within ⟨4096, 66⟩) ∧ (pool.map fun v => v.region.size).sum = 66 := C39_disjoint_partial mem_ok pool_byte
example := C39_split_at_byte_iff (v := ⟨4096, 64, ⟨1, 1⟩⟩) (n := 5)

/-- C40: a `u64` in 16 bytes at 4096 and at 4100. -/
example := C40_cast (t := .w64) (v := fromMemory 4096 16) u64_valid
example : (fromMemory 4096 16).cast ⟨8, 8⟩ = .ok ⟨4096, 16, ⟨8, 8⟩⟩ ∧ (fromMemory 4100 16).cast ⟨8, 8⟩ = .error (fromMemory 4100 16) := ⟨rfl, rfl⟩
example : (fromMemory 4100 16).fits ⟨8, 8⟩ = true ↔ CanHold ⟨4100, 16⟩ ⟨8, 8⟩ := C40_fits (t := .w64) u64_valid
example : sl.fits ⟨8, 8⟩ = true ↔ CanHold ⟨4096, 66⟩ ⟨8, 8⟩ := C40_fits_slice (t := .w64) u64_valid
example := C40_cast_slice (t := .w64) (v := fromMemory 4096 66) u32_valid
example := C40_cast_slice (t := .w64) (v := fromMemory 4096 66) zst_valid
example : (∀ v, .sized v ∈ pool → CanHold (AnyView.sized v).region v.T) ∧ (∀ v, .slice v ∈ pool → v.T.align ∣ v.addr) := C40_views_fit mem_ok pool_small
example := C40_init (v := ⟨4112, 4, ⟨4, 4⟩⟩) (by simp [CanHold, AnyView.region]) (fun _ => 0) (bytes := [1, 2, 3, 4]) rfl
/-- Initialising the one element does not change the four before it. -/
example : readBytes (View.init ⟨4112, 4, ⟨4, 4⟩⟩ (fun _ => 9) [1, 2, 3, 4]).1 4096 16 = readBytes (fun _ => 9) 4096 16 :=
  C40_init_isolated mem_ok (pre := pool.take 3) (post := []) pool_byte (fun _ => 9) (bytes := [1, 2, 3, 4]) rfl (w := .slice ⟨4096, 16, ⟨4, 4⟩, 16⟩) (by decide)

/-- C41. -/
example := C41_split_layout_partial (t := .w64) (v := fromMemory 4096 66) rfl (by decide) u64_valid.1 (by decide)
example := C41_split_layout_sound (t := .w64) (v := fromMemory 4100 66) rfl (by decide) u64_valid.1
example := C41_split_layout_iff (t := .w64) (v := fromMemory 4096 66) rfl (by decide) u64_valid.1
example : (fromMemory 4100 66).splitLayout .w64 ⟨8, 8⟩ = .ret none := C41_violated rfl (by decide) u64_valid.1 (by decide)
example := C41_violated_cast (t := .w64) (v := fromMemory 4100 66) rfl (by decide) u64_valid (by decide)

/-- C42. -/
example : ∀ v, .slice v ∈ [AnyView.sized ⟨4096, 0, unit⟩, .slice ⟨4096, 66, ⟨4, 4⟩, 16⟩] → v.count ≤ v.capacity .w64 ∧ v.referent.Within (AnyView.slice v).region :=
  C42_slice_matches_partial mem_ok (.step (pre := []) (post := []) (v := .sized (fromMemory 4096 66)) (op := .splitSlice ⟨4, 4⟩) .init ⟨rfl, u32_valid⟩ trivial rfl)
example : Region.Within ⟨4096, 16 * 4⟩ ⟨4096, 66⟩ := C42_maybe_uninit_slice .w64 sl
example := C42_violated (t := .w64) (w := fromMemory 4096 66) (v := sl) u32_valid (by decide) rfl (by decide) (n := 4) (by decide)
example := C42_sized_referent mem_ok pool_small
example := C42_empty (t := .w64) u32_valid

/-- C43. -/
example := C43_maybe_uninit (t := .w64) u32_valid (addr := 4096) (by decide)
example := C43_back_and_forth (t := .w64) (v := ⟨4156, 6, ⟨4, 4⟩⟩) u32_valid (by simp [CanHold, AnyView.region])
example := C43_maybe_uninit_slice_partial (t := .w64) u32_valid (by decide) (addr := 4096) (n := 3) (by decide)
example := C43_violated_zst (t := .w64) zst_valid rfl (addr := 4096) (n := 3) (by decide)
example := C43_shrink_to_fit (t := .w64) (v := sl) u32_valid (by decide) (by decide)
example : sl.shrinkToFit .w64 = .ret (⟨4096, 64, ⟨4, 4⟩, 16⟩, ⟨4160, 2, unit⟩) := by decide
example := C43_invent_for_zst (t := .w64) zst_valid
example := C43_invent_for_zst (t := .w64) u32_valid

end Verif.CasesUninit
