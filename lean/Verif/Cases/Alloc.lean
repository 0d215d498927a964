import Verif.Props.Exact
import Verif.Props.BumpGlobal
import Verif.Props.AllocTraits
import Verif.Props.AllocExt
import Verif.Props.Arena
import Verif.Props.Zeroed
/-!
# Concrete cases for C17–C19, C58–C62, C68, C79, C80

The allocator is a `Bump` of 32 bytes at 4096 with a block of 4 bytes at its start that is in use, level 8.
-/
namespace Verif.CasesAlloc
open Verif Bump AllocExt AllocTraits Uninit

theorem exG_valid : exG.Valid := by refine ⟨?_, ?_, ?_, fun a h => ⟨h.pos, Nat.dvd_refl a⟩⟩ <;> decide
def blk : Block := ⟨4096, ⟨4, 4⟩⟩
theorem inv : LInv exG 8 [blk] := ⟨by decide, by intro b hb; cases List.mem_singleton.mp hb; decide, by simp⟩
theorem contract : Contract .w64 (localAlloc exG) (fun c _ live => LInv exG c live) := C61_contract_fulfilled_by_bump exG_valid
def mem : Mem := fun x => UInt8.ofNat x
theorem l44 : (⟨4, 4⟩ : Layout).Valid .w64 := ⟨⟨2, rfl⟩, by decide⟩
theorem l84 : (⟨8, 4⟩ : Layout).Valid .w64 := ⟨⟨2, rfl⟩, by decide⟩
theorem t44 : (⟨4, 4⟩ : Layout).ValidType .w64 := ⟨l44, by decide⟩
theorem t22 : (⟨2, 2⟩ : Layout).ValidType .w64 := ⟨⟨⟨1, rfl⟩, by decide⟩, by decide⟩

/-! C17–C19: a history of the global allocator. -/
def g0 : GState := ⟨0, fun _ => 9, []⟩
def next (s : GState) (op : GOp) : GState := match gexec exG s op with | .ret (_, s') => s' | _ => s
def g1 : GState := next g0 (.alloc ⟨4, 4⟩)
def g2 : GState := next g1 (.write blk 0 [1, 2, 3, 4])
def g3 : GState := next g2 (.allocZeroed ⟨2, 2⟩)
def g4 : GState := next g3 (.realloc blk 8)
theorem r1 : GReach exG g1 := .step (op := .alloc ⟨4, 4⟩) (p := 4096) (s := g0) (.init (by decide)) ⟨l44, by decide⟩ rfl
theorem r2 : GReach exG g2 := .step (op := .write blk 0 [1, 2, 3, 4]) (p := 0) r1 ⟨by decide, by decide⟩ rfl
theorem r3 : GReach exG g3 := .step (op := .allocZeroed ⟨2, 2⟩) (p := 4100) r2 ⟨t22.1, by decide⟩ rfl
theorem r4 : GReach exG g4 := .step (op := .realloc blk 8) (p := 4104) r3 ⟨by decide, by decide⟩ rfl
example : g4.live = [⟨4104, ⟨8, 4⟩⟩, ⟨4100, ⟨2, 2⟩⟩] := by decide
example := C17_local_realloc exG_valid (m := mem) inv (old := blk) (by decide) l84 (by decide)
example := C17_global_realloc exG_valid r3 (old := blk) (by decide) (newSize := 8) (by decide)
example := C17_global_realloc exG_valid r4 (old := ⟨4104, ⟨8, 4⟩⟩) (by decide) (newSize := 40) (by decide)
example : Region.Disjoint ⟨4104, 8⟩ ⟨4100, 2⟩ := by
  have := (C18_live_disjoint exG_valid r4).1
  rw [show g4.live = [⟨4104, ⟨8, 4⟩⟩, ⟨4100, ⟨2, 2⟩⟩] by decide] at this
  simpa [Block.region] using this
example := C18_no_panic exG_valid r4 (op := .dealloc ⟨4100, ⟨2, 2⟩⟩) (show _ ∈ _ by decide)
example : 4104 ≠ 0 ∧ Region.Within ⟨4104, 4⟩ ⟨4096, 32⟩ :=
  ⟨by decide, ((C18_alloc exG_valid r3 l44 (by decide) (p := 4104) (s' := next g3 (.alloc ⟨4, 4⟩)) rfl).2.2.2 (by decide)).2.1⟩
example := C18_alloc_zeroed (e := exG) (s := g3) (l := ⟨4, 4⟩) (p := 4104) (q := 4104) (s' := next g3 (.alloc ⟨4, 4⟩)) (s'' := next g3 (.allocZeroed ⟨4, 4⟩)) rfl rfl
example := C18_dealloc_noop (e := exG) (s := g4) (s' := next g4 (.dealloc ⟨4100, ⟨2, 2⟩⟩)) (b := ⟨4100, ⟨2, 2⟩⟩) (p := 0) rfl
/-- The bytes of the other block stay while the first moves. -/
example : ∀ x, Region.Has ⟨4100, 2⟩ x → g4.mem x = g3.mem x :=
  C18_bytes_kept exG_valid r3 (op := .realloc blk 8) ⟨by decide, by decide⟩ (p := 4104) rfl (b := ⟨4100, ⟨2, 2⟩⟩) (by decide) nofun
example : ∀ x, Region.Has ⟨4100, 2⟩ x → g3.mem x = 0 := (C19_alloc_zeroed exG_valid r2 t22.1 (by decide) (p := 4100) (s' := g3) rfl (by decide)).1
example := C19_local_alloc_zeroed exG_valid (c := 8) (by decide) (m := mem) l44 (by decide)

/-! C61: the default methods with this allocator. -/
example := C61_default_realloc contract (s := 8) (m := mem) inv (old := blk) (by decide) (by decide) l84 (by decide)
example := C61_default_alloc_zeroed contract (s := 8) (m := mem) inv l44 (by decide)

/-! C58–C60, C68. -/
theorem outside : InUse .w64 (localAlloc exG) 8 mem ⟨16, 4⟩ := inUse_bump exG_valid (by decide) (by rw [Region.disjoint_iff]; decide)
/-- The bytes 16, 17, 18, 19 are copied, as slice, string and value. -/
def answer {α β : Type} (o : Outcome (Option α × Nat × β)) : Option (Option α × Nat) := match o with | .ret (r, c, _) => some (r, c) | _ => none
example : ∃ k, NonZeroLayout.fromLayout ⟨4, 4⟩ = some k ∧ ∃ r s' m', allocLayout (localAlloc exG) 8 mem k = .ret (r, s', m') :=
  let ⟨k, hk⟩ := Option.isSome_iff_exists.mp (show (NonZeroLayout.fromLayout ⟨4, 4⟩).isSome = true by decide)
  have e : k.toLayout = ⟨4, 4⟩ := ((C62_nonZeroLayout ⟨4, 4⟩).2.2 k hk).2.2.1
  let ⟨r, s', m', h, _⟩ := C58_alloc_layout contract (s := 8) (m := mem) inv (k := k) (by rw [e]; exact l44) (by rw [e]; decide)
  ⟨k, hk, r, s', m', h⟩
example := C58_alloc_t contract (s := 8) (m := mem) inv t44
example := C58_boxed contract (s := 8) (m := mem) inv t44 (bytes := [1, 2, 3, 4]) rfl
example := C58_rc contract (s := 8) (m := mem) inv t22 ⟨⟨⟨3, by decide⟩, by decide⟩, by decide⟩ (bytes := [1, 2]) rfl
example := (C60_fixed_vec contract (s := 8) (m := mem) inv t44 (n := 5) (by decide)).2 ⟨⟨2, rfl⟩, by decide⟩
example := (C60_fixed_vec contract (s := 8) (m := mem) inv t44 (n := 2 ^ 62) (by decide)).1 (by intro h; exact absurd h.2 (by decide))
example := C58_fixed_vec contract (s := 8) (m := mem) inv t44 (n := 7) (by decide)
example := C58_copy_slice contract (s := 8) (m := mem) inv t22 (src := 16) (n := 2) ⟨⟨1, rfl⟩, by decide⟩
example := C58_copy_str contract (s := 8) (m := mem) inv (src := 16) (n := 4) (by decide)
theorem copied : ∃ m', copySlice .w64 (localAlloc exG) 8 mem ⟨2, 2⟩ 16 2 = .ret (some (4104, 2), 12, m') := ⟨_, rfl⟩
example : ∃ m', elements m' 4104 2 2 = elements mem 16 2 2 := let ⟨m', h⟩ := copied; ⟨m', (C59_copy_slice_prefix contract inv t22 ⟨⟨1, rfl⟩, by decide⟩ outside (.inl (by decide)) h).2.1⟩
example : ∃ m', elements m' 4104 2 2 = elements mem 16 2 2 ∧ Region.Disjoint ⟨4104, 4⟩ ⟨16, 4⟩ :=
  let ⟨m', h⟩ := copied; let hh := C59_copy_slice_partial contract (exact_bump exG) inv t22 ⟨⟨1, rfl⟩, by decide⟩ outside (.inl (by decide)) h; ⟨m', hh.1, hh.2.2 (by decide)⟩
example : ∃ m', readBytes m' 4104 4 = readBytes mem 16 4 :=
  ⟨_, (C59_copy_str_partial contract (exact_bump exG) inv (src := 16) (n := 4) (by decide) outside (a := 4104) (cnt := 4) (s' := 12) rfl).2.1⟩
example : ∃ m', elements m' 4104 2 2 = elements mem 16 2 2 := let ⟨m', h⟩ := copied; ⟨m', (C59_copy_slice_iff contract inv t22 ⟨⟨1, rfl⟩, by decide⟩ outside h).mpr rfl⟩
example := C68_copy_dst_partial contract (s := 8) (m := mem) inv l44 (by decide) (src := 16) (metadata := 77) outside
example := (C59_copy_slice_bump exG_valid (m := mem) inv t22 (src := 16) (n := 2) ⟨⟨1, rfl⟩, by decide⟩ (by decide) (.inr (by rw [Region.disjoint_iff]; decide))).1 ⟨4104, by decide, by decide, by decide⟩
/-- The source is the block in use; there is no room for 13 copies. -/
example := (C59_copy_slice_bump exG_valid (m := mem) inv t22 (src := 4096) (n := 2) ⟨⟨1, rfl⟩, by decide⟩ (by decide) (.inl ⟨blk, by decide, by decide⟩)).1 ⟨4104, by decide, by decide, by decide⟩
example := (C59_copy_slice_bump exG_valid (m := mem) inv t22 (src := 16) (n := 13) ⟨⟨1, rfl⟩, by decide⟩ (by decide) (.inr (by rw [Region.disjoint_iff]; decide))).2 (by
    rintro ⟨p, h1, _, h3⟩
    have h1 : 4096 + 8 ≤ p := h1
    have h3 : p + 13 * 2 ≤ 4096 + 32 := h3
    omega)

/-! C79: one block is in use and not zero, the next is zero. -/
section
open Unsync
def z0 : UState := ⟨fun _ => 0, []⟩
def z1 : UState := (uexec .w64 ⟨4096, 16⟩ z0 (.call (.alloc ⟨1, 1⟩))).elim z0 (·.2)
def z2 : UState := (uexec .w64 ⟨4096, 16⟩ z1 (.write ⟨4104, ⟨1, 1⟩⟩ 0 [7])).elim z0 (·.2)
def z3 : UState := (uexec .w64 ⟨4096, 16⟩ z2 (.call (.alloc ⟨4, 4⟩))).elim z0 (·.2)
theorem z_reach : NoReset .w64 ⟨4096, 16⟩ z0 z2 :=
  have h1 : NoReset .w64 ⟨4096, 16⟩ z0 z1 := .step (s' := z0) (op := .call (.alloc ⟨1, 1⟩)) (r := .ptr 4104) .refl ⟨⟨0, rfl⟩, by decide⟩ (by simp) rfl
  .step (s' := z1) (op := .write ⟨4104, ⟨1, 1⟩⟩ 0 [7]) h1 ⟨by decide, by decide⟩ (by simp) rfl
example : z2.mem 4104 = 7 ∧ readBytes z3.mem 4108 4 = List.replicate 4 0 :=
  ⟨rfl, C79_unsync_zeroed (t := .w64) (b := ⟨4096, 16⟩) ⟨by decide, by decide, by decide, by decide⟩ (m := fun _ => 0) rfl (fun _ _ => rfl) z_reach (c := .alloc ⟨4, 4⟩) l44 (r := .ptr 4108) (s' := z3) rfl (l := ⟨4, 4⟩) (p := 4108) rfl rfl⟩
end

/-! C80. -/
section
open Arena
theorem exA_valid : exA.Valid := by refine ⟨?_, ?_, ?_, fun a h => ⟨h.pos, Nat.dvd_refl a⟩⟩ <;> decide
theorem contractA : Contract .w64 (localAlloc exA) (fun c _ live => LInv exA c live) := C61_contract_fulfilled_by_bump exA_valid
theorem invA : LInv exA 0 [] := ⟨by decide, nofun, by simp⟩
abbrev m0 : Mem := fun _ => 0
def worldA (ops : List Op) : Arena.World Nat := match run .w64 (localAlloc exA) ⟨0, m0, []⟩ ops with | .ret (_, w) => w | _ => ⟨0, m0, []⟩
theorem run_worldA {ops : List Op} (h : safeB .w64 (localAlloc exA) ⟨0, m0, []⟩ ops = true) : ∃ rs, run .w64 (localAlloc exA) ⟨0, m0, []⟩ ops = .ret (rs, worldA ops) := by
  obtain ⟨rs, w, e, _⟩ := C80_disjoint contractA invA (safeB_sound h)
  exact ⟨rs, by rw [worldA, e]⟩
example := C80_disjoint contractA (m := m0) invA demo_safe
/-- The `Rc` made by the second call keeps its contents during the rest. -/
example : ∃ rs' w', run .w64 (localAlloc exA) (worldA (demo.take 2)) (demo.drop 2) = .ret (rs', w') ∧ contents w'.m ⟨4104, 24⟩ = contents (worldA (demo.take 2)).m ⟨4104, 24⟩ := by
  obtain ⟨rs, e⟩ := run_worldA (ops := demo.take 2) (by decide +kernel)
  obtain ⟨rs', w', h1, _, h3⟩ := C80_contents_kept contractA invA (before := demo.take 2) (after := demo.drop 2) demo_safe e (k := 1) (o := ⟨4104, 24⟩) (by decide +kernel)
    (by intro off bytes; simp [demo])
  exact ⟨rs', w', h1, h3⟩
example : ∃ r w', exec .w64 (localAlloc exA) (worldA (demo.take 3)) (.copy ⟨2, 2⟩ 0 0 2) = .ret (r, w') := by
  obtain ⟨rs, e⟩ := run_worldA (ops := demo.take 3) (by decide +kernel)
  obtain ⟨r, w', h, _⟩ := C80_new_object contractA invA (before := demo.take 3) (op := .copy ⟨2, 2⟩ 0 0 2) (safeB_sound (by decide +kernel)) nofun e
  exact ⟨r, w', h⟩
example : ∃ w', exec .w64 (localAlloc exA) (worldA (demo.take 4)) (.write 2 4 [7, 7, 7, 7]) = .ret (true, w') ∧ readBytes w'.m (4128 + 4) 4 = [7, 7, 7, 7] := by
  obtain ⟨rs, e⟩ := run_worldA (ops := demo.take 4) (by decide +kernel)
  obtain ⟨w', h, _, h3, _⟩ := C80_write contractA invA (before := demo.take 4) (k := 2) (off := 4) (bytes := [7, 7, 7, 7]) (safeB_sound (by decide +kernel)) e (o := ⟨4128, 8⟩) (by decide +kernel)
  exact ⟨w', h, h3⟩
end
end Verif.CasesAlloc
