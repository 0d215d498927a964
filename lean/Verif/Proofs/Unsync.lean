import Verif.Proofs.BumpPre
import Verif.Model.Unsync
import Verif.Model.BumpGlobal
/-! Proofs about `unsync::MemBump`. -/
namespace Verif

theorem length_leBytes (k n : Nat) : (leBytes k n).length = k := by
  induction k generalizing n with
  | zero => rfl
  | succ k ih => simp [leBytes, ih]

theorem leNat_leBytes (k n : Nat) : leNat (leBytes k n) = n % 256 ^ k := by
  induction k generalizing n with
  | zero => simp [leBytes, leNat, Nat.mod_one]
  | succ k ih =>
    simp only [leBytes, leNat, ih, UInt8.toNat_ofNat']
    rw [show 256 ^ (k + 1) = 256 * 256 ^ k by rw [Nat.pow_succ, Nat.mul_comm], Nat.mod_mul]

theorem leNat_replicate_zero (k : Nat) : leNat (List.replicate k 0) = 0 := by
  induction k with
  | zero => rfl
  | succ k ih => simp [List.replicate_succ, leNat, ih]

theorem Target.W_eq (t : Target) : 256 ^ t.wordBytes = t.W := by cases t <;> decide
theorem Target.wordBytes_pos (t : Target) : 0 < t.wordBytes := by cases t <;> decide

theorem loadUsize_storeUsize (t : Target) (m : Mem) (a : Nat) {v : Nat} (h : v < t.W) :
    loadUsize t (storeUsize t m a v) a = v := by
  unfold loadUsize storeUsize
  have := readBytes_writeBytes_self m a (leBytes t.wordBytes v)
  rw [length_leBytes] at this
  rw [this, leNat_leBytes, t.W_eq, Nat.mod_eq_of_lt h]

theorem loadUsize_congr {t : Target} {m m' : Mem} {a : Nat} (h : ∀ x, a ≤ x → x < a + t.wordBytes → m' x = m x) :
    loadUsize t m' a = loadUsize t m a := by
  unfold loadUsize; rw [readBytes_congr h]

theorem storeUsize_of_not_mem {t : Target} {m : Mem} {a v x : Nat} (h : ¬ (a ≤ x ∧ x < a + t.wordBytes)) :
    storeUsize t m a v x = m x := by
  apply writeBytes_of_not_mem; rw [length_leBytes]; exact h

namespace Unsync
open Bump (isizeMax_lt)

theorem alignUp_one (x : Nat) : alignUp 1 x = x := by simp [alignUp]

theorem MemBump.dataPtr_eq (t : Target) (b : MemBump) : b.dataPtr t = b.addr + t.wordBytes := by
  rw [MemBump.dataPtr, alignUp_one]

/-- The data of the bump as a slab of the specification. -/
def MemBump.slab (t : Target) (b : MemBump) : Slab := ⟨b.addr + t.wordBytes, b.cap⟩

/-- What a computed allocation amounts to. -/
def atResult (t : Target) (b : MemBump) (m : Mem) (g : Nat) : Option Alloc → Outcome (Except Failure Alloc × Mem)
  | none => .ret (.error .exhausted, m)
  | some a => if b.level t m = g then .ret (.ok a, storeUsize t m b.addr a.level)
      else .ret (.error (.mismatch (b.level t m)), m)

theorem tryAllocAt_zero (t : Target) (b : MemBump) (m : Mem) {l : Layout} (h : l.size = 0) (g : Nat) :
    b.tryAllocAt t m l g = .panic := by
  simp [MemBump.tryAllocAt, Outcome.assert, h, bind, Outcome.bind]

theorem tryAllocAt_foreign (t : Target) (b : MemBump) (m : Mem) {l : Layout} {g : Nat} (h : b.cap < g) :
    b.tryAllocAt t m l g = .panic := by
  have : ¬ g ≤ b.cap := by omega
  by_cases h0 : l.size > 0 <;>
  simp [MemBump.tryAllocAt, Outcome.assert, h0, this, bind, Outcome.bind]

theorem tryAllocAt_spec {t : Target} {b : MemBump} (hv : b.Valid t) (m : Mem) {l : Layout} (hs : 0 < l.size) (ha : 0 < l.align)
    {g : Nat} (hg : g ≤ b.cap) :
    b.tryAllocAt t m l g = atResult t b m g ((b.slab t).place l g) := by
  have hW := isizeMax_lt t
  have hlen := hv.cap_le
  have hnw := hv.no_wrap
  have hpos := hv.addr_pos
  have hd := b.dataPtr_eq t
  have h1 : alignUp l.align (b.addr + t.wordBytes + g) = b.addr + t.wordBytes + g + alignOffsetU8 (b.addr + t.wordBytes + g) l.align := by
    rw [alignUp_eq_add_mod ha]; rfl
  have hbase : (b.slab t).base = b.addr + t.wordBytes := rfl
  have hcap : (b.slab t).len = b.cap := rfl
  simp only [MemBump.tryAllocAt, hd, Outcome.assert, hs, hg, bind, Outcome.bind, Usize.checkedSub, Outcome.unwrap,
    if_true, gt_iff_lt]
  by_cases hw : b.addr + t.wordBytes + g = t.W
  · have hz : b.cap - g = 0 := by omega
    have hp : (b.slab t).place l g = none := by
      rw [Slab.place_eq_none, hbase, hcap]
      have := le_alignUp ha (b.addr + t.wordBytes + g)
      omega
    rw [hp]
    generalize alignOffsetU8 (Usize.wrappingAdd t (b.addr + t.wordBytes) g) l.align = o
    by_cases ho : o ≤ b.cap - g
    · have : b.cap - g - o < l.size := by omega
      simp only [ho, if_true, this, decide_true]
      rfl
    · simp only [ho, if_false, if_true]
      rfl
  · have hwrap : Usize.wrappingAdd t (b.addr + t.wordBytes) g = b.addr + t.wordBytes + g :=
      Nat.mod_eq_of_lt (show b.addr + t.wordBytes + g < t.W by omega)
    simp only [hwrap]
    generalize ho : alignOffsetU8 (b.addr + t.wordBytes + g) l.align = o at *
    by_cases hoa : o ≤ b.cap - g
    · simp only [hoa, if_true]
      by_cases hex : b.cap - g - o < l.size
      · have hp : (b.slab t).place l g = none := by
          rw [Slab.place_eq_none, hbase, hcap]
          omega
        rw [hp]
        simp only [hex, decide_true, if_true]
        rfl
      · have hp : (b.slab t).place l g = some ⟨b.addr + t.wordBytes + (g + o), g + o + l.size⟩ := by
          rw [Slab.place_eq_some, hbase, hcap]
          simp only
          omega
        rw [hp]
        have t1 : o < b.cap - g := by omega
        have t2 : g + o < t.W := by omega
        have t3 : g + o + l.size < t.W := by omega
        have t4 : g + o + l.size ≤ b.cap := by omega
        have t5 : g + o < b.cap := by omega
        have t6 : g ≤ g + o + l.size := by omega
        have t7 : b.addr + t.wordBytes + (g + o) ≠ 0 := by omega
        simp only [hex, decide_false, Bool.false_eq_true, if_false, t1, if_true, Usize.checkedAdd, t2, t3, t4, t5,
          MemBump.bump, MemBump.capacity, Outcome.assert, t6, bind, Outcome.bind, atResult]
        generalize b.addr + t.wordBytes + (g + o) = q at t7
        by_cases hm : b.level t m = g
        · simp [hm, t7, pure]
        · simp [hm, pure]
    · have hp : (b.slab t).place l g = none := by
        rw [Slab.place_eq_none, hbase, hcap]
        omega
      rw [hp]
      simp only [hoa, if_false, if_true]
      rfl

/-- `try_alloc` in terms of the specification. -/
def allocResult (t : Target) (b : MemBump) (m : Mem) : Option Alloc → Outcome (Option Alloc × Mem)
  | none => .ret (none, m)
  | some a => .ret (some a, storeUsize t m b.addr a.level)

theorem tryAlloc_zero (t : Target) (b : MemBump) (m : Mem) {l : Layout} (h : l.size = 0) :
    b.tryAlloc t m l = .panic := by
  simp only [MemBump.tryAlloc, tryAllocAt_zero t b m h, bind, Outcome.bind]

theorem tryAlloc_spec {t : Target} {b : MemBump} (hv : b.Valid t) {m : Mem} (hc : b.level t m ≤ b.cap)
    {l : Layout} (hs : 0 < l.size) (ha : 0 < l.align) :
    b.tryAlloc t m l = allocResult t b m ((b.slab t).place l (b.level t m)) := by
  unfold MemBump.tryAlloc
  simp only [tryAllocAt_spec hv m hs ha hc]
  cases (b.slab t).place l (b.level t m) with
  | none => rfl
  | some a => simp [atResult, allocResult, bind, Outcome.bind, pure]

theorem place_level {s : Slab} {l : Layout} {c : Nat} {a : Alloc} (ha : 0 < l.align) (h : s.place l c = some a) :
    c ≤ a.level ∧ a.level ≤ s.len ∧ s.base + c ≤ a.ptr ∧ a.ptr + l.size = s.base + a.level ∧ l.align ∣ a.ptr := by
  rw [Slab.place_eq_some] at h
  obtain ⟨h1, h2, h3⟩ := h
  have := le_alignUp ha (s.base + c)
  refine ⟨by omega, by omega, by omega, by omega, by rw [h1]; exact dvd_alignUp _ _⟩

/-- The memory in which the level is set to `n`; unchanged if it is `n` already. -/
def SetsLevel (t : Target) (b : MemBump) (m m' : Mem) (n : Nat) : Prop :=
  (m' = m ∧ b.level t m = n) ∨ m' = storeUsize t m b.addr n

theorem SetsLevel.level {t : Target} {b : MemBump} {m m' : Mem} {n : Nat} (h : SetsLevel t b m m' n) (hn : n < t.W) :
    b.level t m' = n := by
  rcases h with ⟨rfl, h⟩ | rfl
  · exact h
  · exact loadUsize_storeUsize _ _ _ hn

theorem SetsLevel.other {t : Target} {b : MemBump} {m m' : Mem} {n : Nat} (h : SetsLevel t b m m' n) {x : Nat}
    (hx : ¬ (b.addr ≤ x ∧ x < b.addr + t.wordBytes)) : m' x = m x := by
  rcases h with ⟨rfl, h⟩ | rfl
  · rfl
  · exact storeUsize_of_not_mem hx

theorem layoutArray_eq {t : Target} {T : Layout} {n : Nat} (ha : 0 < T.align) :
    layoutArray t T n = if t.isizeMax < T.size * n + (T.align - 1) then none else some ⟨T.size * n, T.align⟩ := by
  have := isizeMax_lt t
  unfold layoutArray Usize.checkedMul layoutFromSizeAlign
  by_cases h1 : T.size * n < t.W
  · rw [if_pos h1]
    simp only
    by_cases h2 : T.size * n + (T.align - 1) ≤ t.isizeMax
    · rw [if_pos h2, if_neg (by omega)]
    · rw [if_neg h2, if_pos (by omega)]
  · rw [if_neg h1, if_pos (by omega)]

/-- What `runCall` does, in terms of the specification. -/
theorem runCall_spec {t : Target} {b : MemBump} (hv : b.Valid t) {m : Mem} (hc : b.level t m ≤ b.cap) {c : UCall} (hcv : c.Valid t) :
    ((uSpecApply t (b.slab t) (b.level t m) c).1 = .panicked ∧ runCall t b m c = .panic ∧
      (uSpecApply t (b.slab t) (b.level t m) c).2 = b.level t m) ∨
    (∃ m', (uSpecApply t (b.slab t) (b.level t m) c).1 ≠ .panicked ∧
      runCall t b m c = .ret ((uSpecApply t (b.slab t) (b.level t m) c).1, m') ∧
      SetsLevel t b m m' (uSpecApply t (b.slab t) (b.level t m) c).2) := by
  have hlen : (b.slab t).len = b.cap := rfl
  cases c with
  | alloc l =>
    have hl : ¬ t.isizeMax < l.size + (l.align - 1) := by have := hcv.2; omega
    simp only [uSpecApply, UCall.layout, hl, if_false, UCall.atLevel, specPlace, runCall, MemBump.alloc]
    by_cases h0 : l.size = 0
    · left; simp [h0, tryAlloc_zero t b m h0, bind, Outcome.bind]
    · right
      simp only [h0, if_false, tryAlloc_spec hv hc (show 0 < l.size by omega) hcv.1.pos]
      cases (b.slab t).place l (b.level t m) with
      | none => exact ⟨m, by simp [UCall.failure], rfl, .inl ⟨rfl, rfl⟩⟩
      | some a => exact ⟨_, by simp [UCall.success], rfl, .inr rfl⟩
  | allocAt l n =>
    have hl : ¬ t.isizeMax < l.size + (l.align - 1) := by have := hcv.2; omega
    simp only [uSpecApply, UCall.layout, hl, if_false, UCall.atLevel, specPlace, runCall, MemBump.allocAt, hlen]
    by_cases h0 : l.size = 0
    · left; simp [h0, tryAllocAt_zero t b m h0, bind, Outcome.bind]
    · by_cases hn : b.cap < n
      · left; simp [h0, hn, tryAllocAt_foreign t b m hn, bind, Outcome.bind]
      · right
        simp only [h0, hn, if_false, tryAllocAt_spec hv m (show 0 < l.size by omega) hcv.1.pos (show n ≤ b.cap by omega)]
        cases (b.slab t).place l n with
        | none => exact ⟨m, by simp [UCall.failure], rfl, .inl ⟨rfl, rfl⟩⟩
        | some a =>
          by_cases he : b.level t m = n
          · simp only [he, if_true, atResult]
            exact ⟨_, by simp [UCall.success], rfl, .inr rfl⟩
          · simp only [he, if_false, atResult]
            exact ⟨m, by simp [UCall.failure], rfl, .inl ⟨rfl, rfl⟩⟩
  | get l =>
    have hl : ¬ t.isizeMax < l.size + (l.align - 1) := by have := hcv.1.2; omega
    simp only [uSpecApply, UCall.layout, hl, if_false, UCall.atLevel, specPlace, runCall, MemBump.get]
    by_cases h0 : l.size = 0
    · left; simp [h0, tryAlloc_zero t b m h0, bind, Outcome.bind]
    · right
      simp only [h0, if_false, tryAlloc_spec hv hc (show 0 < l.size by omega) hcv.1.1.pos]
      cases (b.slab t).place l (b.level t m) with
      | none => exact ⟨m, by simp [UCall.failure], rfl, .inl ⟨rfl, rfl⟩⟩
      | some a => exact ⟨_, by simp [UCall.success], rfl, .inr rfl⟩
  | getAt l n =>
    have hl : ¬ t.isizeMax < l.size + (l.align - 1) := by have := hcv.1.2; omega
    simp only [uSpecApply, UCall.layout, hl, if_false, UCall.atLevel, specPlace, runCall, MemBump.getAt, hlen]
    by_cases h0 : l.size = 0
    · left; simp [h0, tryAllocAt_zero t b m h0, bind, Outcome.bind]
    · by_cases hn : b.cap < n
      · left; simp [h0, hn, tryAllocAt_foreign t b m hn, bind, Outcome.bind]
      · right
        simp only [h0, hn, if_false, tryAllocAt_spec hv m (show 0 < l.size by omega) hcv.1.1.pos (show n ≤ b.cap by omega)]
        cases (b.slab t).place l n with
        | none => exact ⟨m, by simp [UCall.failure], rfl, .inl ⟨rfl, rfl⟩⟩
        | some a =>
          by_cases he : b.level t m = n
          · simp only [he, if_true, atResult]
            exact ⟨_, by simp [UCall.success], rfl, .inr rfl⟩
          · simp only [he, if_false, atResult]
            exact ⟨m, by simp [UCall.failure], rfl, .inl ⟨rfl, rfl⟩⟩
  | bumpBox l =>
    have hl : ¬ t.isizeMax < l.size + (l.align - 1) := by have := hcv.1.2; omega
    simp only [uSpecApply, UCall.layout, hl, if_false, UCall.atLevel, specPlace, runCall, MemBump.bumpBox, MemBump.getAt]
    by_cases h0 : l.size = 0
    · left; simp [h0, tryAllocAt_zero t b m h0, bind, Outcome.bind]
    · right
      simp only [h0, if_false, tryAllocAt_spec hv m (show 0 < l.size by omega) hcv.1.1.pos hc]
      cases (b.slab t).place l (b.level t m) with
      | none => exact ⟨m, by simp [UCall.failure], rfl, .inl ⟨rfl, rfl⟩⟩
      | some a =>
        simp only [if_true, atResult]
        exact ⟨_, by simp [UCall.success], rfl, .inr rfl⟩
  | bumpArray V n =>
    simp only [uSpecApply, UCall.layout, UCall.atLevel, specPlace, runCall, MemBump.bumpArray, layoutArray_eq hcv.1.1.pos]
    by_cases hl : t.isizeMax < V.size * n + (V.align - 1)
    · simp only [hl, if_true]
      right
      exact ⟨m, by simp [UCall.failure], rfl, .inl ⟨rfl, rfl⟩⟩
    · simp only [hl, if_false, MemBump.alloc]
      by_cases h0 : V.size * n = 0
      · left; simp [h0, tryAlloc_zero t b m (l := ⟨0, V.align⟩) rfl, bind, Outcome.bind]
      · right
        rw [tryAlloc_spec hv hc (l := ⟨V.size * n, V.align⟩) (show 0 < V.size * n by omega) hcv.1.1.pos]
        simp only [h0, if_false]
        cases (b.slab t).place ⟨V.size * n, V.align⟩ (b.level t m) with
        | none => exact ⟨m, by simp [UCall.failure], rfl, .inl ⟨rfl, rfl⟩⟩
        | some a => exact ⟨_, by simp [UCall.success], rfl, .inr rfl⟩
  | level =>
    right
    exact ⟨m, by simp [uSpecApply, UCall.layout], rfl, .inl ⟨rfl, rfl⟩⟩

end Unsync
end Verif
