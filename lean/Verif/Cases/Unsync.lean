import Verif.Props.Unsync
import Verif.Props.UnsyncMem
import Verif.Props.Exact
/-!
# Concrete cases for C21–C29

Each theorem is applied to a concrete `MemBump` of 32 bytes, in which a `u16` and three `u32` were allocated, so all hypotheses are met.
-/
namespace Verif.CasesUnsync
open Verif Unsync

/-- The state after some operations. -/
def go (s : UState) (ops : List UOp) : UState := ops.foldl (fun s op => match uexec .w64 exB s op with | some (_, s') => s' | none => s) s
/-- Checks the operations: layouts are from a list, writes stay inside of a block. -/
def okLayouts : List Layout := [⟨0, 1⟩, ⟨2, 2⟩, ⟨4, 4⟩, ⟨8, 8⟩, ⟨12, 4⟩, ⟨17, 1⟩]
theorem okLayouts_valid : ∀ l ∈ okLayouts, l.ValidType .w64 := by
  simp only [okLayouts, List.mem_cons, List.not_mem_nil, or_false]
  rintro l (rfl | rfl | rfl | rfl | rfl | rfl)
  · exact ⟨⟨⟨0, rfl⟩, by decide⟩, by decide⟩
  · exact ⟨⟨⟨1, rfl⟩, by decide⟩, by decide⟩
  · exact ⟨⟨⟨2, rfl⟩, by decide⟩, by decide⟩
  · exact ⟨⟨⟨3, rfl⟩, by decide⟩, by decide⟩
  · exact ⟨⟨⟨2, rfl⟩, by decide⟩, by decide⟩
  · exact ⟨⟨⟨0, rfl⟩, by decide⟩, by decide⟩
def okCall : UCall → Bool
  | .alloc l | .allocAt l _ | .get l | .getAt l _ | .bumpBox l | .bumpArray l _ => decide (l ∈ okLayouts)
  | .level => true
theorem okCall_valid {c : UCall} (h : okCall c = true) : c.Valid .w64 := by
  cases c with
  | level => trivial
  | alloc l => exact (okLayouts_valid _ (of_decide_eq_true h)).1
  | allocAt l n => exact (okLayouts_valid _ (of_decide_eq_true h)).1
  | get l => exact okLayouts_valid _ (of_decide_eq_true h)
  | getAt l n => exact okLayouts_valid _ (of_decide_eq_true h)
  | bumpBox l => exact okLayouts_valid _ (of_decide_eq_true h)
  | bumpArray l n => exact okLayouts_valid _ (of_decide_eq_true h)
def okOp (s : UState) : UOp → Bool
  | .call c => okCall c
  | .reset => true
  | .write blk off bytes => decide (blk ∈ s.granted ∧ off + bytes.length ≤ blk.layout.size)
theorem okOp_allowed {s : UState} {op : UOp} (h : okOp s op = true) : op.Allowed .w64 s := by
  cases op with
  | call c => exact okCall_valid h
  | reset => trivial
  | write blk off bytes => exact of_decide_eq_true (p := blk ∈ s.granted ∧ off + bytes.length ≤ blk.layout.size) h
def okOps (s : UState) : List UOp → Bool
  | [] => true
  | op :: ops => okOp s op && (uexec .w64 exB s op).isSome && okOps (go s [op]) ops
theorem reach {s : UState} (hs : UReach .w64 exB s) {ops : List UOp} (h : okOps s ops = true) : UReach .w64 exB (go s ops) := by
  induction ops generalizing s with
  | nil => exact hs
  | cons op ops ih =>
    simp only [okOps, Bool.and_eq_true, Option.isSome_iff_exists] at h
    obtain ⟨⟨h1, ⟨⟨r, s'⟩, h2⟩⟩, h3⟩ := h
    have e : go s [op] = s' := by simp [go, h2]
    refine ih (s := go s [op]) ?_ h3
    rw [e]
    exact .step hs (okOp_allowed h1) h2

/-- A `u16` at 4104, three `u32` at 4108 to 4120, of which three bytes were written; level 16 of 32. -/
def s₁ : UState := go ⟨fun _ => 0, []⟩ [.call (.get ⟨2, 2⟩), .call (.bumpArray ⟨4, 4⟩ 3), .write ⟨4108, ⟨12, 4⟩⟩ 0 [7, 7, 7]]
theorem s₁_reach : UReach .w64 exB s₁ := reach (.init (by decide)) (by decide)
example : s₁.granted = [⟨4108, ⟨12, 4⟩⟩, ⟨4104, ⟨2, 2⟩⟩] ∧ exB.level .w64 s₁.mem = 16 := by decide

/-- C21. -/
example : (s₁.granted.map Block.region).Pairwise Region.Disjoint ∧
    (∀ g ∈ s₁.granted, g.region.Within (MemBumpData .w64 exB) ∧ g.layout.align ∣ g.ptr ∧ g.ptr ≠ 0 ∧ 0 < g.layout.size) ∧ exB.level .w64 s₁.mem ≤ exB.cap :=
  C21_disjoint_in_bounds_aligned exB_valid s₁_reach
example : (go s₁ [.call (.get ⟨8, 8⟩)]).granted = ⟨4120, ⟨8, 8⟩⟩ :: s₁.granted :=
  C21_results_are_granted (t := .w64) (b := exB) (c := .get ⟨8, 8⟩) (r := .allocation ⟨4120, 24⟩) rfl rfl rfl
example : ∃ r s', uexec .w64 exB s₁ (.call (.alloc ⟨8, 8⟩)) = some (r, s') ∧ (UOp.call (.alloc ⟨8, 8⟩) ≠ .reset → exB.level .w64 s₁.mem ≤ exB.level .w64 s'.mem) ∧
      (UOp.call (.alloc ⟨8, 8⟩) = .reset → exB.level .w64 s'.mem = 0) :=
  C21_level_monotone exB_valid s₁_reach (okOp_allowed (by decide))
example := C21_level_monotone exB_valid s₁_reach (op := .reset) trivial
/-- The bytes 7, 7, 7 stay while the `u16` is written. -/
example : ∀ x, Region.Has ⟨4108, 12⟩ x → (go s₁ [.write ⟨4104, ⟨2, 2⟩⟩ 1 [9]]).mem x = s₁.mem x :=
  C21_bytes_isolated exB_valid s₁_reach (op := .write ⟨4104, ⟨2, 2⟩⟩ 1 [9]) (okOp_allowed (by decide)) (r := .none) rfl (g := ⟨4108, ⟨12, 4⟩⟩) (by decide) (by simp)

/-- C23: 8 bytes fit, 17 bytes not, and the level 2 is not the current one. -/
example : ∃ r s', uexec .w64 exB s₁ (.call (.getAt ⟨8, 8⟩ 16)) = some (r, s') ∧
      (r, exB.level .w64 s'.mem) = uSpecApply .w64 ⟨4104, 32⟩ 16 (.getAt ⟨8, 8⟩ 16) ∧ ∀ x, ¬ Region.Has ⟨4096, 8⟩ x → s'.mem x = s₁.mem x :=
  C23_refines_spec exB_valid s₁_reach (okCall_valid (by decide))
example : (Ret.ptr 4120 = .none ∨ ∃ p, Ret.ptr 4120 = .ptr p) ∧ ((∃ p, Ret.ptr 4120 = .ptr p) ↔ Slab.Fits ⟨4104, 32⟩ ⟨8, 8⟩ 16) :=
  C23_alloc_iff_fits exB_valid s₁_reach (okCall_valid (c := .alloc ⟨8, 8⟩) (by decide)) (by decide) rfl
example : (Ret.none = .none ∨ ∃ p, Ret.none = .ptr p) ∧ ((∃ p, Ret.none = .ptr p) ↔ Slab.Fits ⟨4104, 32⟩ ⟨17, 1⟩ 16) :=
  C23_alloc_iff_fits exB_valid s₁_reach (okCall_valid (c := .alloc ⟨17, 1⟩) (by decide)) (by decide) rfl
example : Ret.err (.mismatch 16) = .err (.mismatch 16) ↔ (Slab.Fits ⟨4104, 32⟩ ⟨4, 4⟩ 2 ∧ 2 ≠ 16 ∧ 16 = 16) :=
  C23_mismatch_iff exB_valid s₁_reach (l := ⟨4, 4⟩) (okCall_valid (c := .alloc ⟨4, 4⟩) (by decide)) (by decide) (n := 2) (by decide) rfl 16
/-- The sync bump with the same 32 bytes. -/
def syncEnv : Bump.Env := ⟨.w64, 4104, 32, id⟩
theorem syncEnv_valid : syncEnv.Valid := ⟨by decide, by decide, by decide, fun a ha => ⟨ha.pos, Nat.dvd_refl a⟩⟩
example := C23_agrees_with_sync exB_valid (m := s₁.mem) (by decide) syncEnv_valid rfl rfl rfl (l := ⟨8, 8⟩) (okCall_valid (c := .alloc ⟨8, 8⟩) (by decide)) 2

/-- C22: the level 33 is outside of the 32 bytes: `get_at` panics; so does an empty layout, and 17 bytes do not. -/
example : (Ret.panicked = .panicked ↔ ∃ l, (UCall.getAt ⟨8, 8⟩ 33).layout = some l ∧ l.size + (l.align - 1) ≤ Target.w64.isizeMax ∧ (l.size = 0 ∨ ∃ n, (UCall.getAt ⟨8, 8⟩ 33).atLevel = some n ∧ 32 < n)) ∧
    (Ret.panicked = .panicked → s₁ = s₁) :=
  C22_panics_iff exB_valid s₁_reach (c := .getAt ⟨8, 8⟩ 33) (okCall_valid (by decide)) rfl
example := C22_panics_iff exB_valid s₁_reach (c := .alloc ⟨0, 1⟩) (okCall_valid (by decide)) (r := .panicked) (s' := s₁) rfl
example := C22_panics_iff exB_valid s₁_reach (c := .alloc ⟨17, 1⟩) (okCall_valid (by decide)) (r := .none) (s' := s₁) rfl

/-- C28: an array of three `u32` fits at level 16, of five it does not; the box; empty arrays. -/
example := C28_bump_array_partial exB_valid s₁_reach (T := ⟨4, 4⟩) (okLayouts_valid _ (by decide)) (by decide) (n := 3) (by decide) (r := .ptr 4120) rfl
example := C28_bump_array_partial exB_valid s₁_reach (T := ⟨4, 4⟩) (okLayouts_valid _ (by decide)) (by decide) (n := 5) (by decide) (r := .err .exhausted) (s' := s₁) rfl
example := C28_bump_box_partial exB_valid s₁_reach (T := ⟨8, 8⟩) (okLayouts_valid _ (by decide)) (by decide) (r := .ptr 4120) rfl
example := C28_bump_box_partial exB_valid s₁_reach (T := ⟨17, 1⟩) (okLayouts_valid _ (by decide)) (by decide) (r := .err .exhausted) rfl
example : uexec .w64 exB s₁ (.call (.bumpArray ⟨4, 4⟩ 0)) = some (.panicked, s₁) := C28_empty_array_panics s₁ (okLayouts_valid _ (by decide)) (.inr rfl)
example : uexec .w64 exB s₁ (.call (.bumpBox ⟨0, 1⟩)) = some (.panicked, s₁) := C28_zst_box_panics s₁ rfl

/-- C24: 30 bytes at 4101. -/
example := C24_from_mem (t := .w64) (mem := ⟨4101, 30⟩) (by decide) (by decide) (by decide) (fun _ => 255)

/-- C25: capacity 100, the heap gives the address 4096; one capacity is too large. -/
example := C25_new_partial (t := .w64) (capacity := 100) (by decide) (fun _ => 4096)
example : MemBump.new .w64 (2 ^ 63) (fun _ => 4096) = .panic := (C25_new_panics_iff (t := .w64) _).1.mpr (by decide)
example : ∃ m, (MemBump.mk 4096 100).level .w64 m = 12345 := C25_new_level_arbitrary (t := .w64) (capacity := 100) (heap := fun _ => 4096) rfl (by decide)
example : ∃ m, (MemBump.mk 4096 100).alloc .w64 m ⟨4, 4⟩ = .panic := C25_new_first_alloc_may_panic (t := .w64) (capacity := 100) (heap := fun _ => 4096) rfl (by decide) _

/-- C26: at level 16 of the bump above a `u64` needs no padding, at level 2 a `u32` does. -/
example : ∃ a', exB.getUnchecked .w64 16 = .ret a' ∧ (a'.ptr = 4120 ↔ 8 ∣ 4096 + 8 + 16) ∧ a'.ptr ≤ 4120 ∧ a'.level = 16 ∧ a'.level < 24 :=
  C26_get_unchecked_iff exB_valid (m := s₁.mem) (V := ⟨8, 8⟩) (okLayouts_valid _ (by decide)) (a := ⟨4120, 24⟩) rfl
example : ∃ a', exB.getUnchecked .w64 2 = .ret a' ∧ (a'.ptr = 4108 ↔ 4 ∣ 4096 + 8 + 2) ∧ a'.ptr ≤ 4108 ∧ a'.level = 2 ∧ a'.level < 8 :=
  C26_get_unchecked_iff exB_valid (m := (go ⟨fun _ => 0, []⟩ [.call (.get ⟨2, 2⟩)]).mem) (V := ⟨4, 4⟩) (okLayouts_valid _ (by decide)) (a := ⟨4108, 8⟩) rfl
example : ∃ a', exB.getUnchecked .w64 16 = .ret a' ∧ a'.ptr = 4120 :=
  C26_get_unchecked_partial exB_valid (m := s₁.mem) (V := ⟨8, 8⟩) (okLayouts_valid _ (by decide)) (a := ⟨4120, 24⟩) rfl (by decide)

/-- C27: `Bump<[u64; 3]>`, and `Bump<T>` for a `T` of alignment 16. -/
def tb : TBump := ⟨4096, ⟨24, 8⟩⟩
theorem tb_valid : tb.Valid .w64 := ⟨⟨⟨⟨3, rfl⟩, by decide⟩, by decide⟩, by decide, by decide, by decide⟩
def tb16 : TBump := ⟨4096, ⟨32, 16⟩⟩
theorem tb16_valid : tb16.Valid .w64 := ⟨⟨⟨⟨4, rfl⟩, by decide⟩, by decide⟩, by decide, by decide, by decide⟩
example : 4096 = 4096 ∧ 24 = 24 ∧ Region.Within ⟨4104, 24⟩ ⟨4096, 32⟩ := C27_data_inside_object (t := .w64) (b := tb) ⟨⟨⟨3, rfl⟩, by decide⟩, by decide⟩ (debug := true) (mb := ⟨4096, 24⟩) rfl
example := C27_typed_bump_partial tb_valid (by decide) true
example : tb16.deref .w64 true = .panic := C27_overaligned_debug_panics (by decide)
example := C27_overaligned_no_room tb16_valid (by decide) (by decide) (fun _ => 0)
example := C27_field_iff tb16_valid

/-- C29: five `u32` on the stack; too many; none. -/
example : ∃ a p k, Alloca.new .w64 true ⟨4, 4⟩ 5 = .ret (some a) ∧ a.run .w64 true 8 (fun _ => 4096) (fun _ => 9) = .ret (p, 5) ∧ 4 ∣ p ∧
      (k = 1 ∨ 4 * k < 4 * 6) ∧ Region.Within ⟨p, 4 * 5⟩ ⟨4096, (SlotObject .w64 8 k).size⟩ :=
  C29_alloca_partial (fun _ => 9) (okLayouts_valid ⟨4, 4⟩ (by decide)) (by decide) (by decide) (by decide) (by decide) (by decide)
    frameOk_const
example := C29_closure_slice_safe (t := .w64) (debug := true) (u64Align := 8) (frame := fun _ => 4096) (m := fun _ => 9) (okLayouts_valid ⟨4, 4⟩ (by decide)) (len := 5)
  frameOk_const (a := ⟨⟨4, 4⟩, 5⟩) (p := 4104) (n := 5) rfl rfl
example := C29_too_large (t := .w64) (debug := false) (u64Align := 8) (frame := fun _ => 4096) (m := fun _ => 9) (okLayouts_valid ⟨4, 4⟩ (by decide)) (len := 2 ^ 18) (by decide)
example : Alloca.run .w64 true 8 (fun _ => 4096) (fun _ => 9) ⟨⟨4, 4⟩, 0⟩ = .panic := C29_empty_panics (okLayouts_valid ⟨4, 4⟩ (by decide)) (.inr rfl)
example : (Alloca.mk ⟨4, 4⟩ 5).runWith .w32 true 8 (fun _ => 4096) (fun _ => 9) 4 = .panic := C29_debug_panics (by decide)
/-- Five elements do, 2^18 do not. -/
example : ∃ p, Alloca.run .w64 true 8 (fun _ => 4096) (fun _ => 9) ⟨⟨4, 4⟩, 5⟩ = .ret (p, 5) :=
  ((C29_runs_iff (t := .w64) (debug := true) (u64Align := 8) (frame := fun _ => 4096) (fun _ => 9) (okLayouts_valid ⟨4, 4⟩ (by decide)) (len := 5) (by decide) frameOk_const).2 ⟨⟨4, 4⟩, 5⟩ rfl).1.mpr
    ⟨by decide, by decide, by decide, by decide⟩
example : Alloca.run .w64 true 8 (fun _ => 4096) (fun _ => 9) ⟨⟨4, 4⟩, 2 ^ 18⟩ = .panic :=
  ((C29_runs_iff (t := .w64) (debug := true) (u64Align := 8) (frame := fun _ => 4096) (fun _ => 9) (okLayouts_valid ⟨4, 4⟩ (by decide)) (len := 2 ^ 18) (by decide) frameOk_const).2 ⟨⟨4, 4⟩, 2 ^ 18⟩ rfl).2
    (fun h => absurd h.2.2.1 (by decide))
example := C29_overflow (t := .w64) (u64Align := 8) (frame := fun _ => 4096) (fun _ => 9) (okLayouts_valid ⟨4, 4⟩ (by decide)) frameOk_const

end Verif.CasesUnsync
