import Verif.Props.Unsync
import Verif.Props.UnsyncMem
import Verif.Props.Uninit
import Verif.Props.AllocExt
/-!
# Exactly when the claims that the code does not always keep hold: C28, C29, C38, C42, C43, C59
-/
namespace Verif
section C28
open Unsync

/-- **C28** What `bump_array` does in every state, for every type and number: it panics exactly for zero sizes; it gives an array exactly if the size is not zero, a layout exists and it fits; it answers `Exhausted` in all other cases. -/
theorem C28_bump_array_iff {t : Target} {b : MemBump} (hv : b.Valid t) {s : UState} (hs : UReach t b s) {T : Layout} (hT : T.ValidType t) (n : Nat) :
    ∃ r s', uexec t b s (.call (.bumpArray T n)) = some (r, s') ∧ (r = .panicked ↔ T.size * n = 0) ∧
      ((∃ p, r = .ptr p) ↔ 0 < T.size * n ∧ T.size * n + (T.align - 1) ≤ t.isizeMax ∧ Slab.Fits ⟨b.addr + t.wordBytes, b.cap⟩ ⟨T.size * n, T.align⟩ (b.level t s.mem)) ∧
      (r = .panicked ∨ (∃ p, r = .ptr p) ∨ r = .err .exhausted) := by
  have hap := hT.1.1.pos
  obtain ⟨r, s', h1, h2, _⟩ := C23_refines_spec hv hs (c := .bumpArray T n) hT
  refine ⟨r, s', h1, ?_⟩
  rcases Nat.eq_zero_or_pos (T.size * n) with hz | hmul
  · rw [C28_empty_array_panics s hT (Nat.mul_eq_zero.mp hz)] at h1
    cases h1
    simp [hz]
  · have hz : ¬ T.size * n = 0 := by omega
    simp only [uSpecApply, UCall.layout, UCall.atLevel, specPlace, hz, if_false] at h2
    by_cases hbig : t.isizeMax < T.size * n + (T.align - 1)
    · rw [if_pos hbig] at h2
      rw [Prod.mk.injEq] at h2
      rw [h2.1]
      refine ⟨by simp [UCall.failure, hz], ⟨(fun ⟨_, h⟩ => by cases h), (fun h => by omega)⟩, .inr (.inr rfl)⟩
    · rw [if_neg hbig] at h2
      cases hp : Slab.place ⟨b.addr + t.wordBytes, b.cap⟩ ⟨T.size * n, T.align⟩ (b.level t s.mem) with
      | none =>
        rw [hp] at h2
        rw [Prod.mk.injEq] at h2
        rw [h2.1]
        have hnf := (Slab.place_none_iff_not_fits (l := ⟨T.size * n, T.align⟩) hap).mp hp
        refine ⟨by simp [UCall.failure, hz], ⟨(fun ⟨_, h⟩ => by cases h), fun h => absurd h.2.2 hnf⟩, .inr (.inr rfl)⟩
      | some a =>
        have hfit : Slab.Fits ⟨b.addr + t.wordBytes, b.cap⟩ ⟨T.size * n, T.align⟩ (b.level t s.mem) := by
          refine Classical.byContradiction fun h => ?_
          rw [(Slab.place_none_iff_not_fits (l := ⟨T.size * n, T.align⟩) hap).mpr h] at hp
          cases hp
        rw [hp] at h2
        simp only [UCall.success, Prod.mk.injEq] at h2
        rw [h2.1]
        exact ⟨by simp [hz], ⟨fun _ => ⟨hmul, by omega, hfit⟩, fun _ => ⟨_, rfl⟩⟩, .inr (.inl ⟨_, rfl⟩)⟩

/-- **C28** The same for `bump_box`. -/
theorem C28_bump_box_iff {t : Target} {b : MemBump} (hv : b.Valid t) {s : UState} (hs : UReach t b s) {T : Layout} (hT : T.ValidType t) :
    ∃ r s', uexec t b s (.call (.bumpBox T)) = some (r, s') ∧ (r = .panicked ↔ T.size = 0) ∧
      ((∃ p, r = .ptr p) ↔ 0 < T.size ∧ Slab.Fits ⟨b.addr + t.wordBytes, b.cap⟩ T (b.level t s.mem)) ∧ (r = .panicked ∨ (∃ p, r = .ptr p) ∨ r = .err .exhausted) := by
  have hap := hT.1.1.pos
  obtain ⟨r, s', h1, h2, _⟩ := C23_refines_spec hv hs (c := .bumpBox T) hT
  refine ⟨r, s', h1, ?_⟩
  rcases Nat.eq_zero_or_pos T.size with hz | hmul
  · rw [C28_zst_box_panics s hz] at h1
    cases h1
    simp [hz]
  · have hz : ¬ T.size = 0 := by omega
    have hbig : ¬ t.isizeMax < T.size + (T.align - 1) := by have := hT.1.2; omega
    simp only [uSpecApply, UCall.layout, UCall.atLevel, specPlace, hz, hbig, if_false] at h2
    cases hp : Slab.place ⟨b.addr + t.wordBytes, b.cap⟩ T (b.level t s.mem) with
    | none =>
      rw [hp] at h2
      rw [Prod.mk.injEq] at h2
      rw [h2.1]
      have hnf := (Slab.place_none_iff_not_fits hap).mp hp
      refine ⟨by simp [UCall.failure, hz], ⟨(fun ⟨_, h⟩ => by cases h), fun h => absurd h.2 hnf⟩, .inr (.inr rfl)⟩
    | some a =>
      have hfit : Slab.Fits ⟨b.addr + t.wordBytes, b.cap⟩ T (b.level t s.mem) := by
        refine Classical.byContradiction fun h => ?_
        rw [(Slab.place_none_iff_not_fits hap).mpr h] at hp
        cases hp
      rw [hp] at h2
      simp only [UCall.success, Prod.mk.injEq] at h2
      rw [h2.1]
      exact ⟨by simp [hz], ⟨fun _ => ⟨hmul, hfit⟩, fun _ => ⟨_, rfl⟩⟩, .inr (.inl ⟨_, rfl⟩)⟩

example := C28_bump_array_iff exB_valid (s := ⟨fun _ => 0, []⟩) (.init (by decide)) (T := ⟨8, 8⟩) ⟨⟨⟨3, rfl⟩, by decide⟩, by decide⟩ 3
example := C28_bump_box_iff exB_valid (s := ⟨fun _ => 0, []⟩) (.init (by decide)) (T := ⟨8, 8⟩) ⟨⟨⟨3, rfl⟩, by decide⟩, by decide⟩

/-- **C29** Exactly when the closure is called, for lengths below `usize::MAX`: `new` succeeds if a layout for one element more exists; `run` then calls the closure if the size is not zero, this padded size is at most 2^20 bytes and, in builds with
debug assertions, `u64` is aligned to at most a word; it panics (before the closure is called) in all other cases. -/
theorem C29_runs_iff {t : Target} {debug : Bool} {u64Align : Nat} {frame : Layout → Nat} (m : Mem) {T : Layout} {len : Nat} (hT : T.ValidType t) (hlen : len + 1 < t.W)
    (hf : FrameOk t u64Align frame) :
    ((∃ a, Alloca.new t debug T len = .ret (some a)) ↔ T.size * (len + 1) + (T.align - 1) ≤ t.isizeMax) ∧
    ∀ a, Alloca.new t debug T len = .ret (some a) →
      ((∃ p, a.run t debug u64Align frame m = .ret (p, len)) ↔ 0 < T.size ∧ 0 < len ∧ T.size * (len + 1) ≤ 2 ^ 20 ∧ (debug = true → u64Align ≤ t.wordBytes)) ∧
      (¬ (0 < T.size ∧ 0 < len ∧ T.size * (len + 1) ≤ 2 ^ 20 ∧ (debug = true → u64Align ≤ t.wordBytes)) → a.run t debug u64Align frame m = .panic) := by
  have hbig := C29_too_large (debug := debug) (u64Align := u64Align) (frame := frame) (m := m) hT hlen
  by_cases hfits : T.size * (len + 1) + (T.align - 1) ≤ t.isizeMax
  · have hnew : Alloca.new t debug T len = .ret (some ⟨T, len⟩) := by
      simp only [Alloca.new, Alloca.plusOne, hlen, if_true, bind, Outcome.bind, pure, layoutArray_eq hT.1.1.pos, if_neg (Nat.not_lt.mpr hfits)]
    refine ⟨⟨fun _ => hfits, fun _ => ⟨_, hnew⟩⟩, fun a ha => ?_⟩
    rw [hnew] at ha
    cases ha
    have hno : ¬ (0 < T.size ∧ 0 < len ∧ T.size * (len + 1) ≤ 2 ^ 20 ∧ (debug = true → u64Align ≤ t.wordBytes)) → Alloca.run t debug u64Align frame m ⟨T, len⟩ = .panic := by
      intro h
      by_cases hz : T.size = 0 ∨ len = 0
      · exact C29_empty_panics hT hz
      · by_cases hs : T.size * (len + 1) ≤ 2 ^ 20
        · have hd : ¬ (debug = true → u64Align ≤ t.wordBytes) := fun hd => h ⟨by omega, by omega, hs, hd⟩
          obtain ⟨rfl, hal⟩ : debug = true ∧ t.wordBytes < u64Align := by
            cases debug with
            | false => exact absurd (fun h => by cases h) hd
            | true => exact ⟨rfl, Nat.lt_of_not_le fun h => hd fun _ => h⟩
          obtain ⟨k, hk⟩ := words_iff.mpr hs
          simp only [Alloca.run, Alloca.paddedLayout, Alloca.plusOne, hlen, if_true, bind, Outcome.bind, pure, layoutArray_eq hT.1.1.pos, if_neg (Nat.not_lt.mpr hfits), Outcome.unwrap, hk]
          exact C29_debug_panics hal
        · obtain ⟨a, ha, hr⟩ := hbig.2 hfits (by omega)
          rw [hnew] at ha
          cases ha
          exact hr
    refine ⟨⟨?_, fun ⟨h0, h1, h2, h3⟩ => ?_⟩, hno⟩
    · rintro ⟨p, hp⟩
      refine Classical.byContradiction fun h => ?_
      rw [hno h] at hp
      cases hp
    · obtain ⟨a, p, _, ha, hr, -⟩ := C29_alloca_partial (frame := frame) m hT h0 h1 hfits h2 h3 hf
      rw [hnew] at ha
      cases ha
      exact ⟨p, hr⟩
  · have hnone := hbig.1 (by omega)
    refine ⟨⟨(fun ⟨a, h⟩ => by rw [hnone] at h; cases h), fun h => absurd h hfits⟩, fun a h => by rw [hnone] at h; cases h⟩
/-- **C29** The one length for which `len + 1` is no `usize`: with overflow checks `new` panics; without them `new` succeeds (for every type), but `run` panics before the closure is called. -/
theorem C29_overflow {t : Target} {u64Align : Nat} {frame : Layout → Nat} (m : Mem) {T : Layout} (hT : T.ValidType t) (hf : FrameOk t u64Align frame) :
    Alloca.new t true T (t.W - 1) = .panic ∧ ∃ a, Alloca.new t false T (t.W - 1) = .ret (some a) ∧ a.run t false u64Align frame m = .panic := by
  have hap := hT.1.1.pos
  have hW := Bump.isizeMax_lt t
  have hA := hT.1.2
  have hno : ¬ t.W - 1 + 1 < t.W := by omega
  have hmod : (t.W - 1 + 1) % t.W = 0 := by rw [Nat.sub_add_cancel (by omega)]; exact Nat.mod_self _
  have hn : Alloca.new t false T (t.W - 1) = .ret (some ⟨T, t.W - 1⟩) := by
    simp [Alloca.new, Alloca.plusOne, hno, hmod, bind, Outcome.bind, pure, layoutArray_eq hap, show ¬ t.isizeMax < T.align - 1 by omega]
  refine ⟨by simp [Alloca.new, Alloca.plusOne, hno, bind, Outcome.bind], _, hn, ?_⟩
  by_cases h0 : T.size = 0
  · exact C29_empty_panics hT (.inl h0)
  have hpad : Alloca.paddedLayout t false ⟨T, t.W - 1⟩ = .ret ⟨0, T.align⟩ := by
    simp [Alloca.paddedLayout, Alloca.plusOne, hno, hmod, bind, Outcome.bind, pure, layoutArray_eq hap, show ¬ t.isizeMax < T.align - 1 by omega, Outcome.unwrap]
  have hbig : t.isizeMax < T.size * (t.W - 1) + (T.align - 1) := by
    have : 1 * (t.W - 1) ≤ T.size * (t.W - 1) := Nat.mul_le_mul_right _ (by omega)
    have : t.isizeMax < t.W - 1 := by cases t <;> decide
    omega
  have hw : Alloca.words 0 = some 1 := rfl
  obtain ⟨mb, hmb⟩ : ∃ mb, (Alloca.slot t u64Align 1 frame).deref t false = .ret mb := ⟨_, by simp [TBump.deref, pure]; rfl⟩
  simp only [Alloca.run, hpad, bind, Outcome.bind, hw, Alloca.runWith, hmb, MemBump.bumpArray, layoutArray_eq hap, hbig, if_true]
  rfl
end C28

section Uninit
open Uninit
/-- **C38** Exactly when the parts of `split_at_byte` stay within the bytes of the view: the first one always does, the second one if the type has at most one byte or nothing is left for it. -/
theorem C38_split_at_byte_iff {v a b : View} {n : Nat} (h : v.splitAtByte n = some (a, b)) :
    (∀ x, (AnyView.sized a).region.Has x → (AnyView.sized v).region.Has x) ∧
    ((∀ x, (AnyView.sized b).region.Has x → (AnyView.sized v).region.Has x) ↔ v.T.size ≤ 1 ∨ n = v.len) := by
  simp only [View.splitAtByte] at h
  split at h
  · cases h
  · rename_i hn
    cases h
    simp only [AnyView.region, fromMemory, Region.Has]
    refine ⟨fun x hx => by omega, ⟨fun hx => ?_, fun hx x h => ?_⟩⟩
    · refine Classical.byContradiction fun hc => ?_
      have hm : n * 2 ≤ n * v.T.size := Nat.mul_le_mul_left _ (by omega)
      have := hx (v.addr + n * v.T.size + (v.len - n) - 1) (by omega)
      omega
    · rcases hx with hx | hx
      · have : n * v.T.size ≤ n * 1 := Nat.mul_le_mul_left _ hx
        omega
      · omega
example : (∀ x, (AnyView.sized ⟨4096, 4, ⟨4, 4⟩⟩).region.Has x → (AnyView.sized ⟨4096, 64, ⟨4, 4⟩⟩).region.Has x) ∧ ¬ ∀ x, (AnyView.sized ⟨4112, 60, unit⟩).region.Has x → (AnyView.sized ⟨4096, 64, ⟨4, 4⟩⟩).region.Has x :=
  let h := C38_split_at_byte_iff (v := ⟨4096, 64, ⟨4, 4⟩⟩) (n := 4) (a := ⟨4096, 4, ⟨4, 4⟩⟩) (b := ⟨4112, 60, unit⟩) rfl; ⟨h.1, fun k => absurd (h.2.mp k) (by decide)⟩

/-- **C42** What `split_at` makes of the slices seen through its parts, for every view of a type with a size: the front part's has as many elements as that of the original view, so it matches the capacity only if this had at most `n`; the back
part's always matches. -/
theorem C42_split_at_iff {t : Target} {v a b : SliceView} (hT : v.T.ValidType t) (h0 : 0 < v.T.size) (hal : v.T.align ∣ v.addr) (hlen : v.len ≤ t.isizeMax) {n : Nat} (h : v.splitAt t n = .ret (some (a, b))) :
    a.capacity t = n ∧ a.count = v.count ∧ (a.referent.Within (AnyView.slice a).region ↔ v.count ≤ n) ∧ b.count = b.capacity t ∧ b.referent.Within (AnyView.slice b).region := by
  have e := splitAt_eq (t := t) (v := v) hT hal hlen (n := n)
  rw [h] at e
  have hne : v.T.size ≠ 0 := by omega
  split at e
  · cases e
    rename_i hle
    refine ⟨?_, rfl, ?_, ?_, ?_⟩
    · simp only [SliceView.capacity, hne, if_false]
      exact Nat.mul_div_cancel _ h0
    · simp only [Region.Within, SliceView.referent, AnyView.region]
      constructor
      · intro hx
        have hx2 : v.count * v.T.size ≤ n * v.T.size := by omega
        exact Nat.le_of_mul_le_mul_right hx2 h0
      · intro hx
        have := Nat.mul_le_mul_right v.T.size hx
        omega
    · simp only [SliceView.capacity, sliceCap, hne, if_false]
    · simp only [Region.Within, SliceView.referent, AnyView.region, sliceCap, hne, if_false]
      have := Nat.div_mul_le_self (v.len - n * v.T.size) v.T.size
      omega
  · cases e
example : ¬ (SliceView.referent ⟨4096, 4, ⟨4, 4⟩, 4⟩).Within ⟨4096, 4⟩ :=
  let h := C42_split_at_iff (t := .w64) (v := ⟨4096, 16, ⟨4, 4⟩, 4⟩) (a := ⟨4096, 4, ⟨4, 4⟩, 4⟩) (b := ⟨4100, 12, ⟨4, 4⟩, 3⟩) u32_valid (by decide) (by decide) (by decide) (n := 1) (by decide)
  fun k => absurd (h.2.2.1.mp k) (by decide)

/-- **C43** Exactly when the conversion of a slice to a view and back keeps it: always, but for zero-sized elements only if there are `usize::MAX` of them. -/
theorem C43_slice_iff {t : Target} {T : Layout} (hT : T.ValidType t) {addr n : Nat} (hal : T.align ∣ addr) :
    ∃ v, fromMaybeUninitSlice t T addr n = .ret v ∧ (v.intoMaybeUninitSlice t = (addr, n) ↔ 0 < T.size ∨ n = t.usizeMax) := by
  rcases Nat.eq_zero_or_pos T.size with h0 | h0
  · obtain ⟨v, h1, h2⟩ := C43_violated_zst hT h0 (n := n) hal
    refine ⟨v, h1, ?_⟩
    rw [h2]
    simp only [Prod.mk.injEq, true_and]
    omega
  · obtain ⟨v, h1, -, -, -, h2, -⟩ := C43_maybe_uninit_slice_partial hT h0 (n := n) hal
    exact ⟨v, h1, by simp [h2, h0]⟩
example := C43_slice_iff u32_valid (addr := 4096) (n := 3) (by decide)
end Uninit

section C59
open AllocTraits AllocExt
variable {σ : Type} {t : Target} {A : LocalAlloc σ} {Inv : σ → Mem → List Block → Prop} {s : σ} {m : Mem} {live : List Block}
/-- **C59** For every allocator and all elements: `copy_slice` returns a slice equal to the source exactly if it has the same length. -/
theorem C59_copy_slice_iff (hA : Contract t A Inv) (hi : Inv s m live) {T : Layout} (hT : T.ValidType t) {src n : Nat} (hl : (⟨n * T.size, T.align⟩ : Layout).Valid t)
    (hu : InUse t A s m ⟨src, n * T.size⟩) {a cnt : Nat} {s' : σ} {m' : Mem} (h : copySlice t A s m T src n = .ret (some (a, cnt), s', m')) :
    elements m' a T.size cnt = elements m src T.size n ↔ cnt = n := by
  constructor
  · intro he
    have := congrArg List.length he
    simpa [elements] using this
  · rintro rfl
    by_cases hz : 0 < T.size ∨ cnt = 0
    · exact (C59_copy_slice_prefix hA hi hT hl hu hz h).2.1
    · have h0 : T.size = 0 := by omega
      simp only [elements, h0, readBytes, List.range_zero, List.map_nil]
end C59
end Verif
