import Mathlib.Data.List.Pairwise
import Mathlib.Tactic.Ring
import Verif.Proofs.Uninit
/-! # C38–C43: views of uninitialised memory -/
namespace Verif
open Uninit

/-! ## C38 -/

/-- Uses of `split_at_byte` (also by `split_to_fit`) only on views of types of size at most one, or at position 0. -/
def Uninit.SmallSplit : AnyView → VOp → Prop
  | .sized v, .splitAtByte n => n = 0 ∨ v.T.size ≤ 1
  | .sized v, .splitToFit => v.T.size ≤ 1
  | _, _ => True

theorem apply_within {t : Target} {v : AnyView} (h : v.Ok t) (hsz : v.region.size ≤ t.isizeMax) {op : VOp} (ha : op.Applies t v) (hp : SmallSplit v op) :
    ∃ vs, op.apply t v = .ret vs ∧ ∀ w ∈ vs, w.Ok t ∧ w.region.Within v.region := by
  have fin : ByteOk v op → ∃ vs, op.apply t v = .ret vs ∧ ∀ w ∈ vs, w.Ok t ∧ w.region.Within v.region := by
    intro hb
    obtain ⟨vs, h1, h2, h3⟩ := apply_spec h hsz ha hb
    refine ⟨vs, h1, fun w hw => ⟨h2 w hw, ?_⟩⟩
    rcases h3 with ⟨x, rfl, hx⟩ | ⟨a, b, rfl, hs⟩
    · simp only [List.mem_singleton] at hw
      subst hw
      rw [hx]
      exact ⟨Nat.le_refl _, Nat.le_refl _⟩
    · simp only [List.mem_cons, List.not_mem_nil, or_false] at hw
      simp only [SplitsInto] at hs
      simp only [Region.Within]
      rcases hw with rfl | rfl <;> rcases hs with hs | hs <;> omega
  by_cases hb : ByteOk v op
  · exact fin hb
  · cases v with
    | slice v => cases op <;> exact absurd trivial hb
    | sized v =>
      cases op with
      | splitAtByte n =>
        simp only [ByteOk, SmallSplit] at hb hp
        have h0 : v.T.size = 0 := by omega
        obtain ⟨h1, h2, h3⟩ := h
        by_cases hlt : v.len < n
        · exact ⟨[.sized v], by simp [VOp.apply, View.splitAtByte, hlt], by simpa [AnyView.Ok] using ⟨⟨h1, h2, h3⟩, Nat.le_refl _, Nat.le_refl _⟩⟩
        · refine ⟨[.sized ⟨v.addr, n, v.T⟩, .sized ⟨v.addr, v.len - n, unit⟩], by simp [VOp.apply, View.splitAtByte, hlt, h0, fromMemory], ?_⟩
          simp only [List.mem_cons, List.not_mem_nil, or_false, forall_eq_or_imp, forall_eq, AnyView.Ok, AnyView.region, Region.Within]
          exact ⟨⟨⟨h1, h2, by simp only; omega⟩, by omega, by omega⟩, ⟨unit_valid t, Nat.one_dvd _, Nat.zero_le _⟩, by omega, by omega⟩
      | splitToFit => exact absurd hp hb
      | _ => exact absurd trivial hb

/-- All views of a derivation are fine and within. -/
theorem derived_within {t : Target} {mem : Region} (hm : MemOk t mem) {pool : List AnyView} (h : Derived t mem SmallSplit pool) :
    ∀ v ∈ pool, v.Ok t ∧ v.region.Within mem := by
  induction h with
  | init =>
    simp only [List.mem_singleton, forall_eq, AnyView.Ok, fromMemory, AnyView.region]
    exact ⟨⟨unit_valid t, Nat.one_dvd _, Nat.zero_le _⟩, ⟨Nat.le_refl _, Nat.le_refl _⟩⟩
  | step _ ha hp hx ih =>
    rename_i pre post vs v op _
    obtain ⟨hok, hw⟩ := ih v (by simp)
    have hsz : v.region.size ≤ t.isizeMax := by
      have := hm.size
      simp only [Region.Within] at hw
      omega
    obtain ⟨vs', hx', hall⟩ := apply_within hok hsz ha hp
    rw [hx] at hx'
    cases hx'
    intro w hw'
    simp only [List.mem_append] at hw'
    rcases hw' with (hw' | hw') | hw'
    · exact ih w (by simp [hw'])
    · refine ⟨(hall w hw').1, ?_⟩
      have := (hall w hw').2
      simp only [Region.Within] at *
      omega
    · exact ih w (by simp [hw'])

/-- **C38** (missing: `split_at_byte` and `split_to_fit` on views of types larger than one byte, for which it is false, see `C38_violated`.) Every view derived by any sequence of
operations lies within the original memory; -/
theorem C38_within_partial {t : Target} {mem : Region} (hm : MemOk t mem) {pool : List AnyView} (h : Derived t mem SmallSplit pool) :
    ∀ v ∈ pool, v.region.Within mem := fun v hv => (derived_within hm h v hv).2

/-- **C38** and no operation on such a view panics (all the `unwrap`s and `assert`s hold). -/
theorem C38_no_panic {t : Target} {mem : Region} (hm : MemOk t mem) {pool : List AnyView} (h : Derived t mem SmallSplit pool)
    {v : AnyView} (hv : v ∈ pool) {op : VOp} (ha : op.Applies t v) (hp : SmallSplit v op) : ∃ vs, op.apply t v = .ret vs := by
  obtain ⟨hok, hw⟩ := derived_within hm h v hv
  have := hm.size
  obtain ⟨vs, hx, _⟩ := apply_within hok (by simp only [Region.Within] at hw; omega) ha hp
  exact ⟨vs, hx⟩

/-- **C38 is violated** by `split_at_byte` for every type of at least two bytes: if the split is in the interior the second part contains bytes which are not in the original view. -/
theorem C38_violated {v : View} (hT : 2 ≤ v.T.size) {n : Nat} (h1 : v.T.size ≤ n) (h2 : n < v.len) :
    ∃ a b, v.splitAtByte n = some (a, b) ∧ ∃ x, (AnyView.sized b).region.Has x ∧ ¬ (AnyView.sized v).region.Has x := by
  have hm : n * 2 ≤ n * v.T.size := Nat.mul_le_mul_left _ hT
  refine ⟨_, _, by simp only [View.splitAtByte]; rw [if_neg (by omega)], v.addr + n * v.T.size + (v.len - n) - 1, ?_, ?_⟩
  · simp only [AnyView.region, fromMemory, Region.Has]; omega
  · simp only [AnyView.region, Region.Has]; omega

/-- The same for `split_to_fit`, e.g. the example in the documentation of `Uninit`. -/
theorem C38_violated_split_to_fit {v : View} (hT : 2 ≤ v.T.size) (h2 : v.T.size < v.len) :
    ∃ a b, v.splitToFit = .ret (a, b) ∧ ∃ x, (AnyView.sized b).region.Has x ∧ ¬ (AnyView.sized v).region.Has x := by
  obtain ⟨a, b, h, hx⟩ := C38_violated hT (Nat.le_refl _) h2
  exact ⟨a, b, by simp [View.splitToFit, h, Outcome.unwrap], hx⟩

theorem u32_valid : Layout.ValidType .w64 ⟨4, 4⟩ := ⟨⟨⟨2, rfl⟩, by decide⟩, by decide⟩

/-- A derivation that leaves its memory of 64 bytes: cast to `u32` and `split_to_fit`. -/
theorem C38_violated_run : ∃ pool, Derived .w64 ⟨4096, 64⟩ (fun _ _ => True) pool ∧ ∃ v ∈ pool, ¬ v.region.Within ⟨4096, 64⟩ := by
  have s1 : Derived .w64 ⟨4096, 64⟩ (fun _ _ => True) [.sized ⟨4096, 64, ⟨4, 4⟩⟩] :=
    .step (pre := []) (post := []) (v := .sized (fromMemory 4096 64)) (op := .cast ⟨4, 4⟩) .init u32_valid trivial rfl
  have s2 : Derived .w64 ⟨4096, 64⟩ (fun _ _ => True) [.sized ⟨4096, 4, ⟨4, 4⟩⟩, .sized ⟨4112, 60, unit⟩] :=
    .step (pre := []) (post := []) (v := .sized ⟨4096, 64, ⟨4, 4⟩⟩) (op := .splitToFit) s1 trivial trivial rfl
  exact ⟨_, s2, .sized ⟨4112, 60, unit⟩, by decide, by decide⟩

/-- A derivation within the theorem: slices of `u32`, an element, and bytes. -/
theorem derived_example : Derived .w64 ⟨4096, 66⟩ ByteOk
    [.sized ⟨4096, 0, unit⟩, .slice ⟨4100, 8, ⟨4, 4⟩, 15⟩, .slice ⟨4108, 52, ⟨4, 4⟩, 13⟩, .sized ⟨4160, 2, unit⟩, .sized ⟨4096, 4, ⟨4, 4⟩⟩] := by
  have s1 : Derived .w64 ⟨4096, 66⟩ ByteOk [.sized ⟨4096, 0, unit⟩, .slice ⟨4096, 66, ⟨4, 4⟩, 16⟩] :=
    .step (pre := []) (post := []) (v := .sized (fromMemory 4096 66)) (op := .splitSlice ⟨4, 4⟩) .init ⟨rfl, u32_valid⟩ trivial rfl
  have s2 : Derived .w64 ⟨4096, 66⟩ ByteOk [.sized ⟨4096, 0, unit⟩, .slice ⟨4100, 62, ⟨4, 4⟩, 15⟩, .sized ⟨4096, 4, ⟨4, 4⟩⟩] :=
    .step (pre := [.sized ⟨4096, 0, unit⟩]) (post := []) (v := .slice ⟨4096, 66, ⟨4, 4⟩, 16⟩) (op := .splitFirst) s1 trivial trivial rfl
  have s3 : Derived .w64 ⟨4096, 66⟩ ByteOk [.sized ⟨4096, 0, unit⟩, .slice ⟨4100, 8, ⟨4, 4⟩, 15⟩, .slice ⟨4108, 54, ⟨4, 4⟩, 13⟩, .sized ⟨4096, 4, ⟨4, 4⟩⟩] :=
    .step (pre := [.sized ⟨4096, 0, unit⟩]) (post := [.sized ⟨4096, 4, ⟨4, 4⟩⟩]) (v := .slice ⟨4100, 62, ⟨4, 4⟩, 15⟩) (op := .splitAt 2) s2
      (show 2 < 2 ^ 64 by decide) trivial rfl
  exact .step (pre := [.sized ⟨4096, 0, unit⟩, .slice ⟨4100, 8, ⟨4, 4⟩, 15⟩]) (post := [.sized ⟨4096, 4, ⟨4, 4⟩⟩]) (v := .slice ⟨4108, 54, ⟨4, 4⟩, 13⟩)
    (op := .shrinkToFit) s3 trivial trivial rfl
example : MemOk .w64 ⟨4096, 66⟩ := ⟨by decide, by decide, by decide⟩
example : SmallSplit (.sized (fromMemory 4096 66)) (.splitAtByte 5) := .inr (by decide)

/-! ## C39 -/

theorem cap_iff {t : Target} {v : SliceView} {n : Nat} (hn : n < t.W) : n ≤ v.capacity t ↔ n * v.T.size ≤ v.len := by
  simp only [SliceView.capacity]
  split
  · rename_i h; simp [h, Target.usizeMax]; omega
  · rename_i h; exact Nat.le_div_iff_mul_le (by omega)

/-- **C39** `split_at(n)` (for all `n`, views of types) succeeds iff `n` is at most the capacity. Then the parts are adjacent, together are the whole (in this order), of the same element type, and (unless the type is
zero-sized, when every capacity is maximal) the first has capacity exactly `n` and the second the remaining. If it fails nothing changes. -/
theorem C39_split_at {t : Target} {v : SliceView} (hT : v.T.ValidType t) (hal : v.T.align ∣ v.addr) (hlen : v.len ≤ t.isizeMax) {n : Nat} (hn : n < t.W) :
    (n ≤ v.capacity t → ∃ a b, v.splitAt t n = .ret (some (a, b)) ∧ SplitsInto (AnyView.slice v).region (AnyView.slice a).region (AnyView.slice b).region ∧
      (AnyView.slice a).region.Disjoint (AnyView.slice b).region ∧
      a.T = v.T ∧ b.T = v.T ∧ (0 < v.T.size → a.capacity t = n ∧ b.capacity t = v.capacity t - n) ∧
      (v.T.size = 0 → a.capacity t = t.usizeMax ∧ b.capacity t = t.usizeMax)) ∧
    (v.capacity t < n → v.splitAt t n = .ret none) := by
  have hiff := cap_iff (v := v) hn
  have e := splitAt_eq (t := t) hT hal hlen (n := n)
  constructor
  · intro h
    have h' := hiff.mp h
    rw [if_pos h'] at e
    refine ⟨_, _, e, ⟨rfl, rfl, by simp only [AnyView.region]; omega⟩, Region.disjoint_of_le (Nat.le_refl _), rfl, rfl, fun h0 => ?_, fun h0 => ?_⟩
    · have hne : v.T.size ≠ 0 := by omega
      simp only [SliceView.capacity, hne, if_false]
      exact ⟨Nat.mul_div_cancel _ h0, by rw [Nat.mul_comm n]; exact Nat.sub_mul_div _ _ _⟩
    · simp only [SliceView.capacity, h0, if_true, and_self]
  · intro h
    rw [if_neg (fun h' => by have := hiff.mpr h'; omega)] at e
    exact e

/-- **C39** `split_first`: succeeds iff there is an element; gives exactly the first element, leaving the rest. -/
theorem C39_split_first {t : Target} {v : SliceView} (hT : v.T.ValidType t) (hal : v.T.align ∣ v.addr) (hlen : v.len ≤ t.isizeMax) :
    (0 < v.capacity t → ∃ rest first, v.splitFirst t = .ret (some (rest, first)) ∧
      SplitsInto (AnyView.slice v).region (AnyView.sized first).region (AnyView.slice rest).region ∧
      first.len = v.T.size ∧ first.T = v.T ∧ rest.T = v.T ∧ (0 < v.T.size → rest.capacity t = v.capacity t - 1)) ∧
    (v.capacity t = 0 → v.splitFirst t = .ret none) := by
  have hW := Bump.isizeMax_lt t
  have hone : 1 < t.W := by cases t <;> decide
  have hiff := cap_iff (v := v) hone
  rw [Nat.one_mul] at hiff
  have e := splitFirst_eq (t := t) hT hal hlen
  constructor
  · intro h
    have h' := hiff.mp h
    rw [if_pos h'] at e
    refine ⟨_, _, e, ⟨rfl, rfl, by simp only [AnyView.region]; omega⟩, rfl, rfl, rfl, fun h0 => ?_⟩
    have hne : v.T.size ≠ 0 := by omega
    simp only [SliceView.capacity, hne, if_false]
    have := Nat.sub_mul_div v.len v.T.size 1
    rwa [Nat.mul_one] at this
  · intro h
    rw [if_neg (fun h' => by have := hiff.mpr h'; omega)] at e
    exact e

/-- **C39** `split_last`: succeeds iff there is an element; gives the last element (with the bytes behind it that are not usable for the slice), leaving the others. -/
theorem C39_split_last {t : Target} {v : SliceView} (hT : v.T.ValidType t) (hal : v.T.align ∣ v.addr) (hlen : v.len ≤ t.isizeMax) :
    (0 < v.capacity t → ∃ rest last, v.splitLast t = .ret (some (rest, last)) ∧
      SplitsInto (AnyView.slice v).region (AnyView.slice rest).region (AnyView.sized last).region ∧
      last.T = v.T ∧ rest.T = v.T ∧ (0 < v.T.size → rest.capacity t = v.capacity t - 1 ∧ v.T.size ≤ last.len ∧ last.len < 2 * v.T.size)) ∧
    (v.capacity t = 0 → v.splitLast t = .ret none) := by
  have hone : 1 < t.W := by cases t <;> decide
  have hiff := cap_iff (v := v) hone
  rw [Nat.one_mul] at hiff
  have e := splitLast_eq (t := t) hT hal hlen
  constructor
  · intro h
    have h' := hiff.mp h
    rw [if_pos h'] at e
    have hcap : v.capacity t * v.T.size ≤ v.len := cap_mul_le
    have hle : (v.capacity t - 1) * v.T.size + v.T.size = v.capacity t * v.T.size := by
      rw [← Nat.succ_mul, Nat.succ_eq_add_one, Nat.sub_add_cancel h]
    refine ⟨_, _, e, ⟨rfl, rfl, by simp only [AnyView.region]; omega⟩, rfl, rfl, fun h0 => ⟨?_, by simp only; omega, ?_⟩⟩
    · have hne : v.T.size ≠ 0 := by omega
      have hd : ∀ w : SliceView, w.T.size = v.T.size → w.capacity t = w.len / v.T.size := fun w hw => by simp [SliceView.capacity, hw, hne]
      rw [hd { v with len := (v.capacity t - 1) * v.T.size } rfl]
      exact Nat.mul_div_cancel _ h0
    · have hne : v.T.size ≠ 0 := by omega
      have : v.len < v.capacity t * v.T.size + v.T.size := by
        simp only [SliceView.capacity, hne, if_false]
        have := Nat.div_add_mod v.len v.T.size
        have := Nat.mod_lt v.len h0
        rw [Nat.mul_comm]; omega
      simp only
      omega
  · intro h
    rw [if_neg (fun h' => by have := hiff.mpr h'; omega)] at e
    exact e

/-- **C39** (missing: `split_at_byte` at positive positions for types of sizes other than one, which is wrong, see `C39_violated` and `C38_violated`.) The views one holds after any sequence of operations are pairwise disjoint, inside of the memory,
and together have the size of the memory: nothing is lost. -/
theorem C39_disjoint_partial {t : Target} {mem : Region} (hm : MemOk t mem) {pool : List AnyView} (h : Derived t mem ByteOk pool) :
    (pool.map AnyView.region).Pairwise Region.Disjoint ∧ (∀ v ∈ pool, v.region.Within mem) ∧ (pool.map fun v => v.region.size).sum = mem.size := by
  suffices hs : (pool.map AnyView.region).Pairwise Region.Disjoint ∧ (∀ v ∈ pool, v.Ok t ∧ v.region.Within mem) ∧ (pool.map fun v => v.region.size).sum = mem.size from
    ⟨hs.1, fun v hv => (hs.2.1 v hv).2, hs.2.2⟩
  induction h with
  | init =>
    simp only [List.map_cons, List.map_nil, List.pairwise_cons, List.not_mem_nil, false_implies, implies_true, List.Pairwise.nil, and_self, true_and,
      List.mem_singleton, forall_eq, AnyView.Ok, fromMemory, AnyView.region, List.sum_cons, List.sum_nil, Nat.add_zero, and_true]
    exact ⟨⟨unit_valid t, Nat.one_dvd _, Nat.zero_le _⟩, ⟨Nat.le_refl _, Nat.le_refl _⟩⟩
  | step _ ha hp hx ih =>
    rename_i pre post vs v op _
    obtain ⟨ihd, ihw, ihs⟩ := ih
    obtain ⟨hok, hw⟩ := ihw v (by simp)
    have hsz : v.region.size ≤ t.isizeMax := by
      have := hm.size
      simp only [Region.Within] at hw
      omega
    obtain ⟨vs', hx', hoks, hshape⟩ := apply_spec hok hsz ha hp
    rw [hx] at hx'
    cases hx'
    have hsub : ∀ w ∈ vs, w.region.Within v.region := by
      intro w hw
      rcases hshape with ⟨x, rfl, he⟩ | ⟨a, b, rfl, hs⟩
      · simp only [List.mem_singleton] at hw; subst hw; rw [he]; exact ⟨Nat.le_refl _, Nat.le_refl _⟩
      · simp only [List.mem_cons, List.not_mem_nil, or_false] at hw
        simp only [SplitsInto] at hs
        simp only [Region.Within]
        rcases hw with rfl | rfl <;> rcases hs with hs | hs <;> omega
    have hvs : (vs.map AnyView.region).Pairwise Region.Disjoint := by
      rcases hshape with ⟨x, rfl, he⟩ | ⟨a, b, rfl, hs⟩
      · simp
      · simp only [List.map_cons, List.map_nil, List.pairwise_cons, List.mem_singleton, forall_eq, List.not_mem_nil, false_implies, implies_true, List.Pairwise.nil, and_self, and_true]
        simp only [SplitsInto] at hs
        rcases hs with hs | hs
        · exact Region.disjoint_of_le (by omega)
        · exact (Region.disjoint_of_le (by omega)).symm
    have hsum : (vs.map fun v => v.region.size).sum = v.region.size := by
      rcases hshape with ⟨x, rfl, he⟩ | ⟨a, b, rfl, hs⟩
      · simp [he]
      · simp only [SplitsInto] at hs
        simp only [List.map_cons, List.map_nil, List.sum_cons, List.sum_nil]
        omega
    have hmono : ∀ {r : Region}, r.Disjoint v.region → ∀ w ∈ vs, r.Disjoint w.region := fun hd w hw x hx => hd x ⟨hx.1, (hsub w hw).has hx.2⟩
    refine ⟨?_, ?_, ?_⟩
    · simp only [List.map_append, List.map_cons] at ihd ⊢
      obtain ⟨d1, d2, d3⟩ := List.pairwise_append.mp ihd
      obtain ⟨d4, d5⟩ := List.pairwise_cons.mp d2
      rw [List.append_assoc]
      refine List.pairwise_append.mpr ⟨d1, List.pairwise_append.mpr ⟨hvs, d5, ?_⟩, ?_⟩
      · intro a ha' b hb
        obtain ⟨w, hw', rfl⟩ := List.mem_map.mp ha'
        exact (hmono (d4 b hb).symm w hw').symm
      · intro a ha' b hb
        rcases List.mem_append.mp hb with hb | hb
        · obtain ⟨w, hw', rfl⟩ := List.mem_map.mp hb
          exact hmono (d3 a ha' _ (by simp)) w hw'
        · exact d3 a ha' b (by simp [hb])
    · intro w hw'
      simp only [List.mem_append] at hw'
      rcases hw' with (hw' | hw') | hw'
      · exact ihw w (by simp [hw'])
      · refine ⟨hoks w hw', ?_⟩
        have := hsub w hw'
        simp only [Region.Within] at *
        omega
      · exact ihw w (by simp [hw'])
    · simp only [List.map_append, List.map_cons, List.sum_append, List.sum_cons, hsum] at ihs ⊢
      omega

/-- **C39 is violated** by `split_at_byte` on untyped memory (and every view of a zero-sized type): the two parts of a split in the interior both start at the start, they overlap. -/
theorem C39_violated {v : View} (hT : v.T.size = 0) {n : Nat} (h1 : 0 < n) (h2 : n < v.len) :
    ∃ a b, v.splitAtByte n = some (a, b) ∧ ¬ (AnyView.sized a).region.Disjoint (AnyView.sized b).region := by
  refine ⟨_, _, by simp only [View.splitAtByte]; rw [if_neg (by omega)], fun h => h v.addr ?_⟩
  simp only [AnyView.region, fromMemory, Region.Has, hT]
  omega

/-- **C39** When `split_at_byte` succeeds, and exactly when its parts are adjacent and together the whole: only if nothing is split off, or the type has one byte. -/
theorem C39_split_at_byte_iff {v : View} {n : Nat} :
    ((∃ a b, v.splitAtByte n = some (a, b)) ↔ v.T.size ≤ n ∧ n ≤ v.len) ∧
    ∀ a b, v.splitAtByte n = some (a, b) → (SplitsInto (AnyView.sized v).region (AnyView.sized a).region (AnyView.sized b).region ↔ n = 0 ∨ v.T.size = 1) := by
  unfold View.splitAtByte
  by_cases h : v.len < n ∨ n < v.T.size
  · rw [if_pos h]
    exact ⟨⟨(fun ⟨_, _, h'⟩ => by cases h'), (fun h' => by omega)⟩, (fun _ _ h' => by cases h')⟩
  · rw [if_neg h]
    refine ⟨⟨(fun _ => by omega), fun _ => ⟨_, _, rfl⟩⟩, fun a b hab => ?_⟩
    cases hab
    simp only [SplitsInto, AnyView.region, fromMemory, true_and]
    constructor
    · rintro ⟨h1, -⟩
      rcases Nat.eq_zero_or_pos n with h0 | h0
      · exact .inl h0
      · right
        have : n * v.T.size = n * 1 := by omega
        exact Nat.eq_of_mul_eq_mul_left h0 this
    · rintro (h0 | h0)
      · subst h0; simp
      · rw [h0]; omega

example : ∃ a b, (fromMemory 4096 16).splitAtByte 8 = some (a, b) ∧ ¬ (AnyView.sized a).region.Disjoint (AnyView.sized b).region :=
  C39_violated rfl (by decide) (by decide)
example : ∃ v : SliceView, v.T.ValidType .w64 ∧ v.T.align ∣ v.addr ∧ v.len ≤ Target.isizeMax .w64 ∧ 0 < v.capacity .w64 :=
  ⟨⟨4096, 66, ⟨4, 4⟩, 16⟩, u32_valid, by decide, by decide, by decide⟩

/-! ## C40 -/

/-- **C40** `cast` succeeds exactly if the region is aligned and large enough for the type; it keeps the region. On failure the view is handed back. -/
theorem C40_cast {t : Target} {v : View} {U : Layout} (hU : U.ValidType t) :
    (CanHold (AnyView.sized v).region U → v.cast U = .ok ⟨v.addr, v.len, U⟩) ∧ (¬ CanHold (AnyView.sized v).region U → v.cast U = .error v) := by
  rcases cast_eq (v := v) hU.1.1.pos with ⟨h, e⟩ | ⟨h, e⟩
  · exact ⟨fun _ => e, fun h' => absurd h h'⟩
  · exact ⟨fun h' => absurd h' h, fun _ => e⟩

/-- **C40** `fits` tells exactly whether `cast` succeeds. -/
theorem C40_fits {t : Target} {v : View} {U : Layout} (hU : U.ValidType t) : v.fits U = true ↔ CanHold (AnyView.sized v).region U :=
  fitsAt_iff hU.1.1.pos

/-- **C40** The same for slice views. -/
theorem C40_fits_slice {t : Target} {v : SliceView} {U : Layout} (hU : U.ValidType t) : v.fits U = true ↔ CanHold (AnyView.slice v).region U :=
  fitsAt_iff hU.1.1.pos

/-- **C40** `cast_slice` succeeds exactly if the region is aligned; the capacity is the number of elements that fit. -/
theorem C40_cast_slice {t : Target} {v : View} {U : Layout} (hU : U.ValidType t) :
    (U.align ∣ v.addr → ∃ w, v.castSlice t U = .ok w ∧ (AnyView.slice w).region = (AnyView.sized v).region ∧ w.T = U ∧
      (0 < U.size → (∀ n, n ≤ w.capacity t ↔ n * U.size ≤ v.len) ∧ w.referent = ⟨v.addr, w.capacity t * U.size⟩) ∧ (U.size = 0 → w.capacity t = t.usizeMax)) ∧
    (¬ U.align ∣ v.addr → v.castSlice t U = .error v) := by
  rcases castSlice_eq (t := t) (v := v) hU.1.1.pos with ⟨h, e⟩ | ⟨h, e⟩
  · refine ⟨fun _ => ⟨_, e, rfl, rfl, fun h0 => ⟨fun n => ?_, rfl⟩, fun h0 => ?_⟩, fun h' => absurd h h'⟩
    · have hne : U.size ≠ 0 := by omega
      simp only [SliceView.capacity, hne, if_false]
      exact Nat.le_div_iff_mul_le h0
    · simp only [SliceView.capacity, h0, if_true]
  · exact ⟨fun h' => absurd h' h, fun _ => e⟩

/-- **C40** Every sized view one can get (by any derivation without the wrong uses of `split_at_byte`) is aligned and large enough for its type, so that `init` writes only bytes of the view (and the value can be read back). -/
theorem C40_views_fit {t : Target} {mem : Region} (hm : MemOk t mem) {pool : List AnyView} (h : Derived t mem SmallSplit pool) :
    (∀ v, .sized v ∈ pool → CanHold (AnyView.sized v).region v.T) ∧ (∀ v, .slice v ∈ pool → v.T.align ∣ v.addr) :=
  ⟨fun v hv => (derived_within hm h _ hv).1.2, fun v hv => (derived_within hm h _ hv).1.2⟩

/-- **C40** Initialising a view leaves all bytes outside of it alone, returns its address; reading gives the value. -/
theorem C40_init {v : View} (hv : CanHold (AnyView.sized v).region v.T) (m : Mem) {bytes : List Byte} (hb : bytes.length = v.T.size) :
    (v.init m bytes).2 = v.addr ∧ v.read (v.init m bytes).1 = bytes ∧ ∀ x, ¬ (AnyView.sized v).region.Has x → (v.init m bytes).1 x = m x := by
  refine ⟨rfl, ?_, fun x hx => writeBytes_of_not_mem fun h => hx ?_⟩
  · simp only [View.read, View.init, ← hb]
    exact readBytes_writeBytes_self _ _ _
  · have := hv.2
    simp only [AnyView.region, Region.Has] at *
    omega

/-- **C40** After initialising one of the views held (any derivation with sound splits) the contents of all others are as before. -/
theorem C40_init_isolated {t : Target} {mem : Region} (hm : MemOk t mem) {pre post : List AnyView} {v : View} (h : Derived t mem ByteOk (pre ++ .sized v :: post))
    (m : Mem) {bytes : List Byte} (hb : bytes.length = v.T.size) {w : AnyView} (hw : w ∈ pre ++ post) :
    readBytes (v.init m bytes).1 w.region.start w.region.size = readBytes m w.region.start w.region.size := by
  have hd := (C39_disjoint_partial hm h).1
  have hsmall : Derived t mem SmallSplit (pre ++ .sized v :: post) := by
    have mono : ∀ {pool}, Derived t mem ByteOk pool → Derived t mem SmallSplit pool := by
      intro pool h
      induction h with
      | init => exact .init
      | step _ ha hp hx ih =>
        refine ih.step ha ?_ hx
        rename_i v op _
        cases v with
        | slice v => cases op <;> trivial
        | sized v =>
          cases op with
          | splitAtByte n => simp only [ByteOk, SmallSplit] at *; omega
          | splitToFit => exact hp
          | _ => trivial
    exact mono h
  have hv := (C40_views_fit hm hsmall).1 v (by simp)
  have hdis : (AnyView.sized v).region.Disjoint w.region := by
    simp only [List.map_append, List.map_cons] at hd
    obtain ⟨_, d2, d3⟩ := List.pairwise_append.mp hd
    obtain ⟨d4, _⟩ := List.pairwise_cons.mp d2
    rcases List.mem_append.mp hw with hw | hw
    · exact (d3 _ (List.mem_map_of_mem hw) _ (by simp)).symm
    · exact d4 _ (List.mem_map_of_mem hw)
  refine readBytes_congr fun x h1 h2 => (C40_init hv m hb).2.2 x fun hx => hdis x ⟨hx, ?_⟩
  exact ⟨h1, h2⟩

example : CanHold (AnyView.sized (fromMemory 4096 16)).region ⟨8, 8⟩ ∧ ¬ CanHold (AnyView.sized (fromMemory 4100 16)).region ⟨8, 8⟩ := by
  simp [CanHold, AnyView.region, fromMemory]

/-! ## C41 -/

/-- **C41** (missing: memory that does not start aligned, for which it is false, see `C41_violated`.) If the memory starts aligned, `split_layout` succeeds iff it is large enough;
the part returned is aligned and large enough, and with what is left is the whole. -/
theorem C41_split_layout_partial {t : Target} {v : View} (hv : v.T = unit) (hlen : v.len ≤ t.isizeMax) {l : Layout} (hl : l.Valid t) (hal : l.align ∣ v.addr) :
    (l.size ≤ v.len → ∃ a b, v.splitLayout t l = .ret (some (a, b)) ∧ CanHold (AnyView.sized b).region l ∧
      SplitsInto (AnyView.sized v).region (AnyView.sized a).region (AnyView.sized b).region) ∧
    (v.len < l.size → v.splitLayout t l = .ret none) := by
  have e := splitLayout_eq (t := t) hv hlen hl.1.pos
  constructor
  · intro h
    rw [if_pos ⟨hal, h⟩] at e
    exact ⟨_, _, e, ⟨hal, h⟩, rfl, rfl, by simp [AnyView.region, fromMemory]⟩
  · intro h
    rw [if_neg (fun h' => by omega)] at e
    exact e

/-- **C41** It never returns something unfit (for all addresses), and never panics. -/
theorem C41_split_layout_sound {t : Target} {v : View} (hv : v.T = unit) (hlen : v.len ≤ t.isizeMax) {l : Layout} (hl : l.Valid t) :
    v.splitLayout t l = .ret none ∨ ∃ a b, v.splitLayout t l = .ret (some (a, b)) ∧ CanHold (AnyView.sized b).region l ∧
      SplitsInto (AnyView.sized v).region (AnyView.sized a).region (AnyView.sized b).region := by
  by_cases hal : l.align ∣ v.addr ∧ l.size ≤ v.len
  · exact .inr ((C41_split_layout_partial hv hlen hl hal.1).1 hal.2)
  · have e := splitLayout_eq (t := t) hv hlen hl.1.pos
    rw [if_neg hal] at e
    exact .inl e

/-- **C41** Exactly when it succeeds: the start of the memory itself has to be aligned. -/
theorem C41_split_layout_iff {t : Target} {v : View} (hv : v.T = unit) (hlen : v.len ≤ t.isizeMax) {l : Layout} (hl : l.Valid t) :
    (∃ a b, v.splitLayout t l = .ret (some (a, b))) ↔ CanHold (AnyView.sized v).region l := by
  constructor
  · rintro ⟨a, b, h⟩
    have e := splitLayout_eq (t := t) hv hlen hl.1.pos
    by_cases hal : l.align ∣ v.addr ∧ l.size ≤ v.len
    · exact hal
    · rw [if_neg hal, h] at e
      cases e
  · rintro ⟨h1, h2⟩
    obtain ⟨a, b, h, _⟩ := (C41_split_layout_partial hv hlen hl h1).1 h2
    exact ⟨a, b, h⟩

/-- **C41 is violated** whenever the memory does not start aligned: `split_layout` (and `split_cast`, `split_slice`) always fail, although there may be plenty of room. -/
theorem C41_violated {t : Target} {v : View} (hv : v.T = unit) (hlen : v.len ≤ t.isizeMax) {l : Layout} (hl : l.Valid t) (hal : ¬ l.align ∣ v.addr) :
    v.splitLayout t l = .ret none := by
  have e := splitLayout_eq (t := t) hv hlen hl.1.pos
  rw [if_neg (fun h => hal h.1)] at e
  exact e
theorem C41_violated_cast {t : Target} {v : View} (hv : v.T = unit) (hlen : v.len ≤ t.isizeMax) {U : Layout} (hU : U.ValidType t) (hal : ¬ U.align ∣ v.addr) :
    v.splitCast t U = .ret none ∧ v.splitSlice t U = .ret none := by
  constructor
  · simp only [View.splitCast, C41_violated hv hlen hU.1 hal, bind, Outcome.bind]; rfl
  · have := C41_violated (l := ⟨0, U.align⟩) hv hlen ⟨hU.1.1, by have := hU.1.2; simp only; omega⟩ hal
    simp only [View.splitSlice, this, bind, Outcome.bind]; rfl
/-- e.g. with a kilobyte for one `u64` -/
example : (fromMemory 4100 1024).splitCast .w64 ⟨8, 8⟩ = .ret none := by decide
example : (fromMemory 4096 1024).splitCast .w64 ⟨8, 8⟩ = .ret (some (fromMemory 4096 0, ⟨4096, 1024, ⟨8, 8⟩⟩)) := by decide

/-! ## C42 -/

/-- Derivations in which the remaining front part of `split_at` or `split_last` is not used. -/
def Uninit.NoStale : AnyView → VOp → Prop
  | .slice _, .splitAt _ => False
  | .slice _, .splitLast => False
  | v, op => ByteOk v op

/-- The pointer of a slice view has at most as many elements as the capacity. -/
def Uninit.Honest (t : Target) : AnyView → Prop
  | .sized _ => True
  | .slice v => v.count ≤ v.capacity t

theorem sliceView_cap (t : Target) (addr len n : Nat) (T : Layout) : (⟨addr, len, T, n⟩ : SliceView).capacity t = sliceCap t len T := rfl

theorem apply_honest {t : Target} {v : AnyView} (h : v.Ok t) (hh : Honest t v) (hsz : v.region.size ≤ t.isizeMax) {op : VOp} (ha : op.Applies t v)
    (hp : NoStale v op) {vs : List AnyView} (hx : op.apply t v = .ret vs) : ∀ w ∈ vs, Honest t w := by
  cases v with
  | sized v =>
    cases op with
    | castSlice U =>
      rcases castSlice_eq (t := t) (v := v) (U := U) (show U.ValidType t from ha).1.1.pos with ⟨_, e⟩ | ⟨_, e⟩ <;>
      · simp only [VOp.apply, e] at hx
        cases hx
        simp only [List.mem_singleton, forall_eq, Honest, sliceView_cap, Nat.le_refl]
    | unsize U n =>
      cases hx
      obtain ⟨hU, hT, hn⟩ := ha
      simp only [List.mem_singleton, forall_eq, Honest, View.unsize]
      rw [cap_iff hn]
      have := h.2.2
      rw [hT] at this
      exact this
    | splitSlice U =>
      obtain ⟨hT, hU⟩ := ha
      have e := splitLayout_eq (t := t) hT hsz (l := ⟨0, U.align⟩) hU.1.1.pos
      by_cases hc : U.align ∣ v.addr ∧ 0 ≤ v.len
      · rw [if_pos hc] at e
        rcases castSlice_eq (t := t) (v := fromMemory v.addr v.len) (U := U) hU.1.1.pos with ⟨_, e2⟩ | ⟨hn, _⟩
        · simp only [VOp.apply, View.splitSlice, e, e2, bind, Outcome.bind, pure] at hx
          cases hx
          simp only [List.mem_cons, List.not_mem_nil, or_false, forall_eq_or_imp, forall_eq, Honest, sliceView_cap, true_and]
          exact Nat.le_refl _
        · exact absurd hc.1 hn
      · rw [if_neg hc] at e
        simp only [VOp.apply, View.splitSlice, e, bind, Outcome.bind, pure] at hx
        cases hx
        simp only [List.mem_singleton, forall_eq, Honest]
    | cast U =>
      simp only [VOp.apply] at hx
      split at hx <;> cases hx <;> simp only [List.mem_singleton, forall_eq, Honest]
    | splitAtByte n =>
      simp only [VOp.apply] at hx
      split at hx <;> cases hx <;> simp [Honest]
    | splitToFit =>
      simp only [VOp.apply, bind] at hx
      cases hs : v.splitToFit with
      | ret x => simp only [hs, Outcome.bind, pure] at hx; cases hx; simp [Honest]
      | panic => simp [hs, Outcome.bind] at hx
      | ub => simp [hs, Outcome.bind] at hx
    | asMemory => cases hx; simp [Honest]
    | splitLayout l =>
      simp only [VOp.apply, bind] at hx
      cases hs : v.splitLayout t l with
      | ret x => rcases x with _ | ⟨a, b⟩ <;> simp only [hs, Outcome.bind, pure] at hx <;> cases hx <;> simp [Honest]
      | panic => simp [hs, Outcome.bind] at hx
      | ub => simp [hs, Outcome.bind] at hx
    | splitCast l =>
      simp only [VOp.apply, bind] at hx
      cases hs : v.splitCast t l with
      | ret x => rcases x with _ | ⟨a, b⟩ <;> simp only [hs, Outcome.bind, pure] at hx <;> cases hx <;> simp [Honest]
      | panic => simp [hs, Outcome.bind] at hx
      | ub => simp [hs, Outcome.bind] at hx
    | _ => exact ha.elim
  | slice v =>
    obtain ⟨h1, h2⟩ := h
    cases op with
    | asMemory => cases hx; simp [Honest]
    | splitAt n => exact hp.elim
    | splitLast => exact hp.elim
    | shrinkToFit =>
      have e := shrinkToFit_eq (t := t) h1 h2 hsz
      simp only [VOp.apply, e, bind, Outcome.bind, pure] at hx
      cases hx
      simp only [List.mem_cons, List.not_mem_nil, or_false, forall_eq_or_imp, forall_eq, Honest, and_true]
      have : (⟨v.addr, v.capacity t * v.T.size, v.T, v.count⟩ : SliceView).capacity t = v.capacity t := by
        simp only [sliceView_cap, sliceCap]
        split
        · rename_i h0; simp [SliceView.capacity, h0]
        · rename_i h0; exact Nat.mul_div_cancel _ (by omega)
      rw [this]
      exact hh
    | splitFirst =>
      have e := splitFirst_eq (t := t) h1 h2 hsz
      by_cases hc : v.T.size ≤ v.len
      · rw [if_pos hc] at e
        simp only [VOp.apply, e, bind, Outcome.bind, pure] at hx
        cases hx
        simp only [List.mem_cons, List.not_mem_nil, or_false, forall_eq_or_imp, forall_eq, Honest, sliceView_cap, and_true, Nat.le_refl]
      · rw [if_neg hc] at e
        simp only [VOp.apply, e, bind, Outcome.bind, pure] at hx
        cases hx
        simpa only [List.mem_singleton, forall_eq] using hh
    | _ => exact ha.elim

/-- **C42** (missing: the front part left by `split_at` and `split_last`, for which it is false, see `C42_violated`.) In all other derivations the slice seen through a view has at most as many elements as its capacity, and so
lies within the bytes of the view. -/
theorem C42_slice_matches_partial {t : Target} {mem : Region} (hm : MemOk t mem) {pool : List AnyView} (h : Derived t mem NoStale pool) :
    ∀ v, .slice v ∈ pool → v.count ≤ v.capacity t ∧ v.referent.Within (AnyView.slice v).region := by
  have key : ∀ v ∈ pool, v.Ok t ∧ v.region.Within mem ∧ Honest t v := by
    induction h with
    | init =>
      simp only [List.mem_singleton, forall_eq, AnyView.Ok, fromMemory, AnyView.region, Honest, and_true]
      exact ⟨⟨unit_valid t, Nat.one_dvd _, Nat.zero_le _⟩, ⟨Nat.le_refl _, Nat.le_refl _⟩⟩
    | step _ ha hp hx ih =>
      rename_i pre post vs v op _
      obtain ⟨hok, hw, hh⟩ := ih v (by simp)
      have hsz : v.region.size ≤ t.isizeMax := by
        have := hm.size
        simp only [Region.Within] at hw
        omega
      have hsm : SmallSplit v op := by
        cases v with
        | slice v => cases op <;> trivial
        | sized v =>
          cases op with
          | splitAtByte n => simp only [NoStale, ByteOk, SmallSplit] at *; omega
          | splitToFit => exact hp
          | _ => trivial
      obtain ⟨vs', hx', hall⟩ := apply_within hok hsz ha hsm
      have hhon := apply_honest hok hh hsz ha hp hx
      rw [hx] at hx'
      cases hx'
      intro w hw'
      simp only [List.mem_append] at hw'
      rcases hw' with (hw' | hw') | hw'
      · exact ih w (by simp [hw'])
      · refine ⟨(hall w hw').1, ?_, hhon w hw'⟩
        have := (hall w hw').2
        simp only [Region.Within] at *
        omega
      · exact ih w (by simp [hw'])
  intro v hv
  have hh := (key _ hv).2.2
  simp only [Honest] at hh
  refine ⟨hh, ?_⟩
  have h1 : v.count * v.T.size ≤ v.capacity t * v.T.size := Nat.mul_le_mul_right _ hh
  have h2 : v.capacity t * v.T.size ≤ v.len := cap_mul_le
  simp only [Region.Within, SliceView.referent, AnyView.region]
  omega

/-- **C42** The `MaybeUninit` slice of any slice view is within its bytes, also after splitting. -/
theorem C42_maybe_uninit_slice (t : Target) (v : SliceView) :
    Region.Within ⟨(v.intoMaybeUninitSlice t).1, (v.intoMaybeUninitSlice t).2 * v.T.size⟩ (AnyView.slice v).region := by
  have : v.capacity t * v.T.size ≤ v.len := cap_mul_le
  simp only [Region.Within, SliceView.intoMaybeUninitSlice, AnyView.region]
  omega

/-- **C42 is violated** by every interior `split_at` of a freshly cast slice view: the pointer of the front part still covers all elements, in particular bytes of the back part. -/
theorem C42_violated {t : Target} {w : View} {v : SliceView} {U : Layout} (hU : U.ValidType t) (h0 : 0 < U.size) (hw : w.castSlice t U = .ok v) (hlen : w.len ≤ t.isizeMax)
    {n : Nat} (hn : n < v.capacity t) :
    ∃ a b, v.splitAt t n = .ret (some (a, b)) ∧ a.capacity t = n ∧ n < a.count ∧ ¬ a.referent.Disjoint (AnyView.slice b).region := by
  rcases castSlice_eq (t := t) (v := w) hU.1.1.pos with ⟨hal, e⟩ | ⟨_, e⟩
  · rw [e] at hw
    cases hw
    have hcap : (⟨w.addr, w.len, U, sliceCap t w.len U⟩ : SliceView).capacity t = w.len / U.size := by
      have : U.size ≠ 0 := by omega
      simp [SliceView.capacity, this]
    rw [hcap] at hn
    have hle : w.len / U.size * U.size ≤ w.len := Nat.div_mul_le_self _ _
    have hne : U.size ≠ 0 := by omega
    have hn1 : (n + 1) * U.size ≤ w.len := Nat.le_trans (Nat.mul_le_mul_right _ hn) hle
    rw [Nat.succ_mul] at hn1
    have e2 := splitAt_eq (t := t) (v := ⟨w.addr, w.len, U, sliceCap t w.len U⟩) hU hal hlen (n := n)
    rw [if_pos (by simp only; omega)] at e2
    have hcount : sliceCap t w.len U = w.len / U.size := by simp [sliceCap, hne]
    refine ⟨_, _, e2, ?_, ?_, fun hd => hd (w.addr + n * U.size) ⟨?_, ?_⟩⟩
    · simp only [SliceView.capacity, hne, if_false]
      exact Nat.mul_div_cancel _ h0
    · simp only [hcount]; exact hn
    · simp only [SliceView.referent, Region.Has, hcount]
      have := Nat.mul_lt_mul_of_pos_right hn h0
      omega
    · simp only [AnyView.region, Region.Has]
      omega
  · rw [e] at hw; cases hw

/-- A concrete one: after `split_at(1)` of four `u32`, the front part's pointer covers all four. -/
example : ∃ v, (fromMemory 4096 16).castSlice .w64 ⟨4, 4⟩ = .ok v ∧ v.splitAt .w64 1 = .ret (some (⟨4096, 4, ⟨4, 4⟩, 4⟩, ⟨4100, 12, ⟨4, 4⟩, 3⟩)) :=
  ⟨_, rfl, by decide⟩
example : Derived .w64 ⟨4096, 64⟩ NoStale [.sized ⟨4096, 0, unit⟩, .slice ⟨4096, 64, ⟨4, 4⟩, 16⟩] :=
  .step (pre := []) (post := []) (v := .sized (fromMemory 4096 64)) (op := .splitSlice ⟨4, 4⟩) .init ⟨rfl, u32_valid⟩ trivial rfl

/-! ## C43 -/

/-- **C43** A view of a `MaybeUninit<T>` (at any valid address) covers exactly its bytes, and turning it back gives a reference to exactly the same memory. -/
theorem C43_maybe_uninit {t : Target} {T : Layout} (hT : T.ValidType t) {addr : Nat} (hal : T.align ∣ addr) :
    ∃ v, fromMaybeUninit T addr = .ret v ∧ v.T = T ∧ (AnyView.sized v).region = ⟨addr, T.size⟩ ∧ v.intoMaybeUninit = ⟨addr, T.size⟩ := by
  rcases cast_eq (v := fromMemory addr T.size) hT.1.1.pos with ⟨_, e⟩ | ⟨h, _⟩
  · exact ⟨⟨addr, T.size, T⟩, by simp only [fromMaybeUninit, e]; rfl, rfl, rfl, rfl⟩
  · exact absurd ⟨hal, Nat.le_refl _⟩ h

/-- **C42** The pointer and references that a sized view gives out (any that one can get, without the wrong uses of `split_at_byte`) cover exactly one value of the type, from the start of the view, within the view and aligned. -/
theorem C42_sized_referent {t : Target} {mem : Region} (hm : MemOk t mem) {pool : List AnyView} (h : Derived t mem SmallSplit pool) :
    ∀ v, .sized v ∈ pool → v.referent.start = (AnyView.sized v).region.start ∧ v.referent.size = v.T.size ∧ v.referent.Within (AnyView.sized v).region ∧
      v.T.align ∣ v.referent.start := by
  intro v hv
  obtain ⟨h1, h2⟩ := (C40_views_fit hm h).1 v hv
  refine ⟨rfl, rfl, ?_, h1⟩
  simp only [View.referent, Region.Within, AnyView.region] at *
  omega

/-- **C42** The view made by `empty` has no bytes, a pointer that is aligned and not null, and its pointer covers no element; for element types with a size it has capacity 0 and nothing can be split off. -/
theorem C42_empty {t : Target} {T : Layout} (hT : T.ValidType t) :
    (AnyView.slice (empty T)).region.size = 0 ∧ (empty T).T = T ∧ T.align ∣ (empty T).addr ∧ (empty T).addr ≠ 0 ∧ (empty T).count = 0 ∧ (empty T).referent.size = 0 ∧
    (0 < T.size → (empty T).capacity t = 0 ∧ (empty T).splitFirst t = .ret none ∧ (empty T).splitLast t = .ret none) := by
  refine ⟨rfl, rfl, Nat.dvd_refl _, Nat.pos_iff_ne_zero.mp hT.1.1.pos, rfl, by simp [empty, SliceView.referent], fun h0 => ?_⟩
  have hne : T.size ≠ 0 := by omega
  have hcap : (empty T).capacity t = 0 := by simp [SliceView.capacity, empty, hne]
  have hs : ∀ n, 0 < n → (empty T).splitAt t n = .ret none := by
    intro n hn
    unfold SliceView.splitAt
    cases hc : Usize.checkedMul t n (empty T).T.size with
    | none => rfl
    | some b =>
      have : 0 < b := by
        unfold Usize.checkedMul at hc
        split at hc
        · cases hc; exact Nat.mul_pos hn h0
        · cases hc
      have hb : b > (empty T).len := this
      simp only [hb, if_true]
  refine ⟨hcap, ?_, ?_⟩
  · simp only [SliceView.splitFirst, hs 1 (by omega)]; rfl
  · simp only [SliceView.splitLast, hcap]
    rw [hs _ (by cases t <;> decide)]; rfl

example : (empty ⟨4, 4⟩).addr = 4 ∧ (empty ⟨4, 4⟩).capacity .w64 = 0 := by decide

/-- **C43** In the other direction: a reference made from any view (as they are, `C40_views_fit`) starts at the same address and covers the bytes needed for the type; the view made from it has the same address and type, only
spare bytes are lost. -/
theorem C43_back_and_forth {t : Target} {v : View} (hT : v.T.ValidType t) (hv : CanHold (AnyView.sized v).region v.T) :
    v.intoMaybeUninit.start = (AnyView.sized v).region.start ∧ v.intoMaybeUninit.size = v.T.size ∧ v.intoMaybeUninit.Within (AnyView.sized v).region ∧ fromMaybeUninit v.T v.intoMaybeUninit.start = .ret ⟨v.addr, v.T.size, v.T⟩ := by
  refine ⟨rfl, rfl, ?_, ?_⟩
  · have := hv.2
    simp only [View.intoMaybeUninit, Region.Within, AnyView.region] at *
    omega
  · rcases cast_eq (v := fromMemory v.addr v.T.size) hT.1.1.pos with ⟨_, e⟩ | ⟨h, _⟩
    · simp only [fromMaybeUninit, View.intoMaybeUninit, e]; rfl
    · exact absurd ⟨hv.1, Nat.le_refl _⟩ h

/-- **C43** (missing: zero-sized element types, for which the length is not kept, see `C43_violated_zst`.) The same for slices: same address, same number of elements. -/
theorem C43_maybe_uninit_slice_partial {t : Target} {T : Layout} (hT : T.ValidType t) (h0 : 0 < T.size) {addr n : Nat} (hal : T.align ∣ addr) :
    ∃ v, fromMaybeUninitSlice t T addr n = .ret v ∧ v.T = T ∧ (AnyView.slice v).region = ⟨addr, n * T.size⟩ ∧ v.capacity t = n ∧
      v.intoMaybeUninitSlice t = (addr, n) ∧ v.referent = ⟨addr, n * T.size⟩ := by
  have hne : T.size ≠ 0 := by omega
  have hcap : sliceCap t (n * T.size) T = n := by simp only [sliceCap, hne, if_false]; exact Nat.mul_div_cancel _ h0
  rcases castSlice_eq (t := t) (v := fromMemory addr (n * T.size)) hT.1.1.pos with ⟨_, e⟩ | ⟨h, _⟩
  · refine ⟨⟨addr, n * T.size, T, sliceCap t (n * T.size) T⟩, by simp only [fromMaybeUninitSlice, e]; rfl, rfl, rfl, ?_, ?_, ?_⟩
    · exact hcap
    · simp only [SliceView.intoMaybeUninitSlice, sliceView_cap, hcap]
    · simp only [SliceView.referent, hcap]
  · exact absurd hal h

/-- **C43 is violated** for zero-sized elements: any slice of `n` of them, converted to a view and back, has `usize::MAX` elements. (The documentation says that this sequence is a no-op.) -/
theorem C43_violated_zst {t : Target} {T : Layout} (hT : T.ValidType t) (h0 : T.size = 0) {addr n : Nat} (hal : T.align ∣ addr) :
    ∃ v, fromMaybeUninitSlice t T addr n = .ret v ∧ v.intoMaybeUninitSlice t = (addr, t.usizeMax) := by
  rcases castSlice_eq (t := t) (v := fromMemory addr (n * T.size)) hT.1.1.pos with ⟨_, e⟩ | ⟨h, _⟩
  · refine ⟨⟨addr, n * T.size, T, sliceCap t (n * T.size) T⟩, by simp only [fromMaybeUninitSlice, e]; rfl, ?_⟩
    simp only [SliceView.intoMaybeUninitSlice, sliceView_cap, sliceCap, h0, if_true]
  · exact absurd hal h

/-- **C43** `shrink_to_fit` removes exactly the bytes that are not usable for an element, keeping the capacity; a second call removes nothing. -/
theorem C43_shrink_to_fit {t : Target} {v : SliceView} (hT : v.T.ValidType t) (hal : v.T.align ∣ v.addr) (hlen : v.len ≤ t.isizeMax) :
    ∃ a b, v.shrinkToFit t = .ret (a, b) ∧ SplitsInto (AnyView.slice v).region (AnyView.slice a).region (AnyView.sized b).region ∧
      a.capacity t = v.capacity t ∧ (0 < v.T.size → b.len = v.len % v.T.size) ∧
      ∃ b', a.shrinkToFit t = .ret (a, b') ∧ b'.len = 0 := by
  have hle : v.capacity t * v.T.size ≤ v.len := cap_mul_le
  have hcap : (⟨v.addr, v.capacity t * v.T.size, v.T, v.count⟩ : SliceView).capacity t = v.capacity t := by
    simp only [sliceView_cap, sliceCap]
    split
    · rename_i h0; simp [SliceView.capacity, h0]
    · rename_i h0; exact Nat.mul_div_cancel _ (by omega)
  refine ⟨_, _, shrinkToFit_eq hT hal hlen, ⟨rfl, rfl, by simp only [AnyView.region]; omega⟩, hcap, fun h0 => ?_, ?_⟩
  · have hne : v.T.size ≠ 0 := by omega
    simp only [SliceView.capacity, hne, if_false]
    have := Nat.div_add_mod v.len v.T.size
    rw [Nat.mul_comm] at this
    omega
  · have e := shrinkToFit_eq (t := t) (v := ⟨v.addr, v.capacity t * v.T.size, v.T, v.count⟩) hT hal (by simp only; omega)
    rw [hcap] at e
    exact ⟨_, e, by simp⟩

/-- **C43** `invent_for_zst` gives a valid view of a zero-sized type, and panics for all others. -/
theorem C43_invent_for_zst {t : Target} {T : Layout} (hT : T.ValidType t) :
    (T.size = 0 → inventForZst T = .ret ⟨T.align, 0, T⟩) ∧ (0 < T.size → inventForZst T = .panic) := by
  constructor
  · intro h0
    rcases cast_eq (v := fromMemory T.align 0) hT.1.1.pos with ⟨_, e⟩ | ⟨h, _⟩
    · simp only [inventForZst, Outcome.assert, h0, if_true, bind, Outcome.bind, e]; rfl
    · exact absurd ⟨Nat.dvd_refl _, by simp [fromMemory, h0]⟩ h
  · intro h0
    have : T.size ≠ 0 := by omega
    simp [inventForZst, Outcome.assert, this, bind, Outcome.bind]

example : fromMaybeUninitSlice .w64 ⟨4, 4⟩ 4096 3 = .ret ⟨4096, 12, ⟨4, 4⟩, 3⟩ := by decide
example : (⟨4096, 14, ⟨4, 4⟩, 3⟩ : SliceView).shrinkToFit .w64 = .ret (⟨4096, 12, ⟨4, 4⟩, 3⟩, ⟨4108, 2, unit⟩) := by decide

end Verif
