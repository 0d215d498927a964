import Verif.Proofs.Unsync
import Verif.Proofs.BumpGlobal
/-! # C21–C23, C28: allocation in `unsync::MemBump`

`b` is a `MemBump` at address `b.addr`, its data are the `b.cap` bytes behind the header of one word. Reachable
states are those of any history of calls, resets and writes of owners into their blocks, from any memory with a level in bounds. -/
namespace Verif
open Unsync

/-- The data region of a `MemBump`. -/
def MemBumpData (t : Target) (b : MemBump) : Region := ⟨b.addr + t.wordBytes, b.cap⟩

/-! ## Invariant -/

structure UInv (t : Target) (b : MemBump) (s : UState) : Prop where
  le : b.level t s.mem ≤ b.cap
  within : ∀ g ∈ s.granted, b.addr + t.wordBytes ≤ g.ptr ∧ g.ptr + g.layout.size ≤ b.addr + t.wordBytes + b.level t s.mem ∧
    0 < g.layout.size ∧ g.layout.align ∣ g.ptr
  disj : (s.granted.map Block.region).Pairwise Region.Disjoint

/-- Facts about the results of the specification. -/
theorem uSpecApply_facts {t : Target} {b : MemBump} {c : UCall} (hcv : c.Valid t) {n : Nat} (hn : n ≤ b.cap) :
    n ≤ (uSpecApply t (b.slab t) n c).2 ∧ (uSpecApply t (b.slab t) n c).2 ≤ b.cap ∧
    ∀ l p, c.layout = some l → (uSpecApply t (b.slab t) n c).1.ptr? = some p →
      b.addr + t.wordBytes + n ≤ p ∧ p + l.size ≤ b.addr + t.wordBytes + (uSpecApply t (b.slab t) n c).2 ∧ 0 < l.size ∧ l.align ∣ p := by
  have hbase : (b.slab t).base = b.addr + t.wordBytes := rfl
  have hlen : (b.slab t).len = b.cap := rfl
  unfold uSpecApply
  cases hl : c.layout with
  | none => exact ⟨Nat.le_refl _, hn, fun l p h => by cases h⟩
  | some l =>
    have hap : 0 < l.align := by
      cases c <;> simp only [UCall.layout, Option.some.injEq, reduceCtorEq] at hl <;> subst hl
      · exact hcv.1.pos
      · exact hcv.1.pos
      · exact hcv.1.1.pos
      · exact hcv.1.1.pos
      · exact hcv.1.1.pos
      · exact hcv.1.1.pos
    have fail : ∀ f, (c.failure f).ptr? = none := by intro f; cases c <;> rfl
    have succ : ∀ a, (c.success a).ptr? = some a.ptr := by intro a; cases c <;> rfl
    have ok : ∀ a, (b.slab t).place l n = some a → l.size ≠ 0 → n ≤ a.level ∧ a.level ≤ b.cap ∧
        ∀ l' p, some l = some l' → (c.success a).ptr? = some p →
        b.addr + t.wordBytes + n ≤ p ∧ p + l'.size ≤ b.addr + t.wordBytes + a.level ∧ 0 < l'.size ∧ l'.align ∣ p := by
      intro a ha h0
      obtain ⟨h1, h2, h3, h4, h5⟩ := place_level hap ha
      refine ⟨h1, h2, fun l' p hl' hp => ?_⟩
      cases hl'
      rw [succ] at hp
      cases hp
      exact ⟨by omega, by omega, by omega, h5⟩
    have bad : ∀ f, n ≤ n ∧ n ≤ b.cap ∧ ∀ l' p, some l = some l' → (c.failure f).ptr? = some p →
        b.addr + t.wordBytes + n ≤ p ∧ p + l'.size ≤ b.addr + t.wordBytes + n ∧ 0 < l'.size ∧ l'.align ∣ p := by
      intro f
      refine ⟨Nat.le_refl _, hn, fun l' p _ hp => ?_⟩
      rw [fail] at hp; cases hp
    simp only
    by_cases hbig : t.isizeMax < l.size + (l.align - 1)
    · rw [if_pos hbig]; exact bad _
    · rw [if_neg hbig]
      unfold specPlace
      by_cases h0 : l.size = 0
      · simp only [h0, if_true]
        exact ⟨Nat.le_refl _, hn, fun l p _ h => by simp [Ret.ptr?] at h⟩
      · simp only [h0, if_false]
        cases c.atLevel with
        | none =>
          simp only
          cases hp : (b.slab t).place l n with
          | none => exact bad _
          | some a => exact ok a hp h0
        | some k =>
          simp only
          by_cases hk : (b.slab t).len < k
          · rw [if_pos hk]
            exact ⟨Nat.le_refl _, hn, fun l p _ h => by simp [Ret.ptr?] at h⟩
          · rw [if_neg hk]
            cases hp : (b.slab t).place l k with
            | none => exact bad _
            | some a =>
              simp only
              by_cases hnk : n = k
              · subst hnk; rw [if_pos rfl]; exact ok a hp h0
              · rw [if_neg hnk]; exact bad _

theorem uexec_spec {t : Target} {b : MemBump} (hv : b.Valid t) {s : UState} (hi : UInv t b s) {op : UOp} (ha : op.Allowed t s) :
    ∃ r s', uexec t b s op = some (r, s') ∧ UInv t b s' ∧
      (∀ c, op = .call c → (r, b.level t s'.mem) = uSpecApply t (b.slab t) (b.level t s.mem) c ∧
        (∀ x, ¬ (b.addr ≤ x ∧ x < b.addr + t.wordBytes) → s'.mem x = s.mem x) ∧ (r = .panicked → s' = s)) ∧
      (∀ g off bytes, op = .write g off bytes → b.level t s'.mem = b.level t s.mem) := by
  have hW := Bump.isizeMax_lt t
  have hcap := hv.cap_le
  cases op with
  | call c =>
    obtain ⟨f1, f2, f3⟩ := uSpecApply_facts (b := b) (t := t) ha hi.le
    rcases runCall_spec hv hi.le (c := c) ha with ⟨h1, h2, h3⟩ | ⟨m', h1, h2, h3⟩
    · refine ⟨.panicked, s, by simp only [uexec, h2], hi, ?_, by simp⟩
      rintro c' ⟨⟩
      exact ⟨by rw [← h1]; exact Prod.ext rfl h3.symm, fun _ _ => rfl, fun _ => rfl⟩
    · have hl := h3.level (by omega)
      generalize hr : (uSpecApply t (b.slab t) (b.level t s.mem) c).1 = r at *
      generalize hn : (uSpecApply t (b.slab t) (b.level t s.mem) c).2 = n at *
      have mk : ∀ gr, (gr = s.granted ∨ ∃ l p, c.layout = some l ∧ r.ptr? = some p ∧ gr = ⟨p, l⟩ :: s.granted) →
          UInv t b ⟨m', gr⟩ := by
        rintro gr (rfl | ⟨l, p, hl', hp', rfl⟩)
        · refine ⟨by rw [hl]; exact f2, fun g hg => ?_, hi.disj⟩
          have := hi.within g hg
          simp only [hl]
          refine ⟨this.1, by omega, this.2.2⟩
        · obtain ⟨k1, k2, k3, k4⟩ := f3 l p hl' hp'
          refine ⟨by rw [hl]; exact f2, ?_, ?_⟩
          · intro g hg
            simp only [hl]
            rcases List.mem_cons.mp hg with rfl | hg
            · exact ⟨by show _ ≤ p; omega, k2, k3, k4⟩
            · have := hi.within g hg
              exact ⟨this.1, by omega, this.2.2⟩
          · rw [List.map_cons, List.pairwise_cons]
            refine ⟨fun q hq => ?_, hi.disj⟩
            obtain ⟨g, hg, rfl⟩ := List.mem_map.mp hq
            have := hi.within g hg
            apply Region.Disjoint.symm
            apply Region.disjoint_of_le
            simp only [Block.region]; omega
      have main : ∀ gr, (gr = s.granted ∨ ∃ l p, c.layout = some l ∧ r.ptr? = some p ∧ gr = ⟨p, l⟩ :: s.granted) →
          uexec t b s (.call c) = some (r, ⟨m', gr⟩) →
          ∃ r' s', uexec t b s (.call c) = some (r', s') ∧ UInv t b s' ∧
            (∀ c', UOp.call c = .call c' → (r', b.level t s'.mem) = uSpecApply t (b.slab t) (b.level t s.mem) c' ∧
              (∀ x, ¬ (b.addr ≤ x ∧ x < b.addr + t.wordBytes) → s'.mem x = s.mem x) ∧ (r' = .panicked → s' = s)) ∧
            (∀ g off bytes, UOp.call c = .write g off bytes → b.level t s'.mem = b.level t s.mem) := by
        intro gr hgr hex
        refine ⟨r, ⟨m', gr⟩, hex, mk gr hgr, ?_, by simp⟩
        rintro c' ⟨⟩
        exact ⟨Prod.ext hr.symm (by show b.level t m' = _; rw [hl, hn]), fun x hx => h3.other hx, fun h => absurd h h1⟩
      cases hcl : c.layout with
      | none => exact main s.granted (.inl rfl) (by simp only [uexec, h2, hcl])
      | some l =>
        cases hp : r.ptr? with
        | none => exact main s.granted (.inl rfl) (by simp only [uexec, h2, hcl, hp])
        | some p => exact main (⟨p, l⟩ :: s.granted) (.inr ⟨l, p, hcl, hp, rfl⟩) (by simp only [uexec, h2, hcl, hp])
  | reset =>
    refine ⟨.none, ⟨b.reset t s.mem, []⟩, rfl, ⟨?_, by simp, by simp⟩, by simp, by simp⟩
    have : b.level t (b.reset t s.mem) = 0 := loadUsize_storeUsize _ _ _ (by omega)
    show b.level t (b.reset t s.mem) ≤ b.cap
    rw [this]; omega
  | write g off bytes =>
    obtain ⟨hg, hb⟩ := ha
    have hw := hi.within g hg
    have hlev : b.level t (writeBytes s.mem (g.ptr + off) bytes) = b.level t s.mem := by
      apply loadUsize_congr
      intro x h1 h2
      apply writeBytes_of_not_mem
      omega
    refine ⟨.none, _, rfl, ⟨by show b.level t _ ≤ _; rw [hlev]; exact hi.le, fun q hq => ?_, hi.disj⟩, by simp, ?_⟩
    · show _ ∧ _ ≤ _ + b.level t (writeBytes s.mem (g.ptr + off) bytes) ∧ _
      rw [hlev]; exact hi.within q hq
    · intro _ _ _ _; exact hlev

theorem Unsync.UReach.inv {t : Target} {b : MemBump} (hv : b.Valid t) {s : UState} (h : UReach t b s) : UInv t b s := by
  induction h with
  | init h => exact ⟨h, by simp, by simp⟩
  | step h ha hx ih =>
    obtain ⟨r, s', h1, h2, _⟩ := uexec_spec hv ih ha
    rw [h1] at hx
    cases hx
    exact h2

/-! ## C21 -/

/-- **C21** In every reachable state the blocks handed out since the last reset are pairwise disjoint, non-empty, aligned as requested,
inside of the data region, and the level is at most the capacity. -/
theorem C21_disjoint_in_bounds_aligned {t : Target} {b : MemBump} (hv : b.Valid t) {s : UState} (hs : UReach t b s) :
    (s.granted.map Block.region).Pairwise Region.Disjoint ∧
    (∀ g ∈ s.granted, g.region.Within (MemBumpData t b) ∧ g.layout.align ∣ g.ptr ∧ g.ptr ≠ 0 ∧ 0 < g.layout.size) ∧
    b.level t s.mem ≤ b.cap := by
  have hi := hs.inv hv
  have hp := hv.addr_pos
  refine ⟨hi.disj, fun g hg => ?_, hi.le⟩
  have := hi.within g hg
  have hle := hi.le
  exact ⟨⟨this.1, by simp only [Block.region, MemBumpData]; omega⟩, this.2.2.2, by omega, this.2.2.1⟩

/-- **C21** What a call hands out is recorded: after a call of a layout that returned a pointer, exactly that block is added to the blocks handed out.
(Links the histories above to the results of calls.) -/
theorem C21_results_are_granted {t : Target} {b : MemBump} {s s' : UState} {c : UCall} {r : Ret} {l : Layout} {p : Nat}
    (hx : uexec t b s (.call c) = some (r, s')) (hl : c.layout = some l) (hp : r.ptr? = some p) : s'.granted = ⟨p, l⟩ :: s.granted := by
  simp only [uexec] at hx
  cases h : runCall t b s.mem c with
  | ub => rw [h] at hx; cases hx
  | panic => rw [h] at hx; cases hx; cases hp
  | ret x =>
    rw [h] at hx
    cases hx
    simp only [hl, hp]

/-- **C21** No operation has undefined behaviour, and no operation but reset decreases the level. -/
theorem C21_level_monotone {t : Target} {b : MemBump} (hv : b.Valid t) {s : UState} (hs : UReach t b s) {op : UOp} (ha : op.Allowed t s) :
    ∃ r s', uexec t b s op = some (r, s') ∧ (op ≠ .reset → b.level t s.mem ≤ b.level t s'.mem) ∧
      (op = .reset → b.level t s'.mem = 0) := by
  have hi := hs.inv hv
  obtain ⟨r, s', h1, h2, h3, h4⟩ := uexec_spec hv hi ha
  refine ⟨r, s', h1, ?_, ?_⟩
  · intro hne
    cases op with
    | call c =>
      have := (h3 c rfl).1
      have hf := (uSpecApply_facts (b := b) (t := t) (c := c) ha hi.le).1
      rw [← this] at hf
      exact hf
    | reset => exact absurd rfl hne
    | write g off bytes => rw [h4 g off bytes rfl]; exact Nat.le_refl _
  · rintro rfl
    cases h1
    have hW := Bump.isizeMax_lt t
    have hcap := hv.cap_le
    exact loadUsize_storeUsize _ _ _ (by omega)

/-- **C21** The bytes of a block handed out change only by writes into that block. -/
theorem C21_bytes_isolated {t : Target} {b : MemBump} (hv : b.Valid t) {s : UState} (hs : UReach t b s) {op : UOp} (ha : op.Allowed t s)
    {r : Ret} {s' : UState} (hx : uexec t b s op = some (r, s')) {g : Block} (hg : g ∈ s.granted)
    (hne : ∀ off bytes, op ≠ .write g off bytes) : ∀ x, g.region.Has x → s'.mem x = s.mem x := by
  have hi := hs.inv hv
  have hw := hi.within g hg
  intro x hxg
  simp only [Block.region, Region.Has] at hxg
  obtain ⟨r', s'', h1, h2, h3, h4⟩ := uexec_spec hv hi ha
  rw [h1] at hx
  cases hx
  cases op with
  | call c => exact (h3 c rfl).2.1 x (by omega)
  | reset =>
    cases h1
    exact storeUsize_of_not_mem (by omega)
  | write g' off bytes =>
    have hgg : g' ≠ g := fun h => hne off bytes (by rw [h])
    cases h1
    apply writeBytes_of_not_mem
    intro hw'
    have hd : Region.Disjoint g'.region g.region := by
      have hp := List.perm_cons_erase ha.1
      have hdd : ((g' :: s.granted.erase g').map Block.region).Pairwise Region.Disjoint :=
        (List.Perm.pairwise_iff (fun {x y} (h : Region.Disjoint x y) => h.symm) (hp.map Block.region)).mp hi.disj
      rw [List.map_cons, List.pairwise_cons] at hdd
      exact hdd.1 _ (List.mem_map.mpr ⟨g, (List.mem_erase_of_ne (fun h => hgg h.symm)).mpr hg, rfl⟩)
    have hb := ha.2
    exact hd x ⟨by simp only [Block.region, Region.Has]; omega, by simpa [Block.region, Region.Has] using hxg⟩

/-! ## C23, C22 -/

/-- **C23** Every call returns what the sequential specification of a bump pointer on the data region says and sets the level accordingly, and changes
no byte but those of the level. -/
theorem C23_refines_spec {t : Target} {b : MemBump} (hv : b.Valid t) {s : UState} (hs : UReach t b s) {c : UCall} (hc : c.Valid t) :
    ∃ r s', uexec t b s (.call c) = some (r, s') ∧
      (r, b.level t s'.mem) = uSpecApply t ⟨b.addr + t.wordBytes, b.cap⟩ (b.level t s.mem) c ∧
      ∀ x, ¬ Region.Has ⟨b.addr, t.wordBytes⟩ x → s'.mem x = s.mem x := by
  obtain ⟨r, s', h1, _, h3, _⟩ := uexec_spec hv (hs.inv hv) (op := .call c) hc
  exact ⟨r, s', h1, (h3 c rfl).1, (h3 c rfl).2.1⟩

/-- **C23** `alloc` succeeds exactly if the request fits behind the level. -/
theorem C23_alloc_iff_fits {t : Target} {b : MemBump} (hv : b.Valid t) {s : UState} (hs : UReach t b s) {l : Layout}
    (hl : l.Valid t) (h0 : 0 < l.size) {r : Ret} {s' : UState} (hx : uexec t b s (.call (.alloc l)) = some (r, s')) :
    (r = .none ∨ ∃ p, r = .ptr p) ∧
    ((∃ p, r = .ptr p) ↔ Slab.Fits ⟨b.addr + t.wordBytes, b.cap⟩ l (b.level t s.mem)) := by
  obtain ⟨r', s'', h1, h2, _⟩ := C23_refines_spec hv hs (c := .alloc l) hl
  rw [h1] at hx
  cases hx
  have hbig : ¬ t.isizeMax < l.size + (l.align - 1) := by have := hl.2; omega
  have hz : ¬ l.size = 0 := by omega
  simp only [uSpecApply, UCall.layout, hbig, if_false, UCall.atLevel, specPlace, hz] at h2
  have hnf := Slab.place_none_iff_not_fits (s := ⟨b.addr + t.wordBytes, b.cap⟩) (l := l) (c := b.level t s.mem) hl.1.pos
  cases hp : Slab.place ⟨b.addr + t.wordBytes, b.cap⟩ l (b.level t s.mem) with
  | none =>
    rw [hp] at h2
    simp only [UCall.failure, Prod.mk.injEq] at h2
    obtain ⟨rfl, _⟩ := h2
    exact ⟨.inl rfl, by simp, fun h => absurd h (hnf.mp hp)⟩
  | some a =>
    rw [hp] at h2
    simp only [UCall.success, Prod.mk.injEq] at h2
    obtain ⟨rfl, _⟩ := h2
    exact ⟨.inr ⟨_, rfl⟩, fun _ => Classical.byContradiction (fun h => by rw [hnf.mpr h] at hp; cases hp), fun _ => ⟨_, rfl⟩⟩

/-- **C23** `alloc_at(level)` (level not foreign) fails with `Mismatch` exactly if the request fits behind the given level, but that is not
the current level, which is reported. -/
theorem C23_mismatch_iff {t : Target} {b : MemBump} (hv : b.Valid t) {s : UState} (hs : UReach t b s) {l : Layout}
    (hl : l.Valid t) (h0 : 0 < l.size) {n : Nat} (hn : n ≤ b.cap) {r : Ret} {s' : UState}
    (hx : uexec t b s (.call (.allocAt l n)) = some (r, s')) (k : Nat) :
    r = .err (.mismatch k) ↔ (Slab.Fits ⟨b.addr + t.wordBytes, b.cap⟩ l n ∧ n ≠ b.level t s.mem ∧ k = b.level t s.mem) := by
  obtain ⟨r', s'', h1, h2, _⟩ := C23_refines_spec hv hs (c := .allocAt l n) hl
  rw [h1] at hx
  cases hx
  have hbig : ¬ t.isizeMax < l.size + (l.align - 1) := by have := hl.2; omega
  have hz : ¬ l.size = 0 := by omega
  have hk : ¬ b.cap < n := by omega
  simp only [uSpecApply, UCall.layout, hbig, if_false, UCall.atLevel, specPlace, hz, hk] at h2
  have hnf := Slab.place_none_iff_not_fits (s := ⟨b.addr + t.wordBytes, b.cap⟩) (l := l) (c := n) hl.1.pos
  cases hp : Slab.place ⟨b.addr + t.wordBytes, b.cap⟩ l n with
  | none =>
    rw [hp] at h2
    simp only [UCall.failure, Prod.mk.injEq] at h2
    obtain ⟨rfl, _⟩ := h2
    simp [hnf.mp hp]
  | some a =>
    rw [hp] at h2
    have hfit : Slab.Fits ⟨b.addr + t.wordBytes, b.cap⟩ l n :=
      Classical.byContradiction (fun h => by rw [hnf.mpr h] at hp; cases hp)
    by_cases hcn : b.level t s.mem = n
    · simp only [hcn, if_true, UCall.success, Prod.mk.injEq] at h2
      obtain ⟨rfl, _⟩ := h2
      simp [hcn]
    · simp only [hcn, if_false, UCall.failure, Prod.mk.injEq] at h2
      obtain ⟨rfl, _⟩ := h2
      simp only [Ret.err.injEq, Failure.mismatch.injEq]
      exact ⟨fun h => ⟨hfit, fun h => hcn h.symm, h.symm⟩, fun h => h.2.2.symm⟩

/-- **C23** An unsync bump and a sync `Bump` used by one thread, whose storage is at the same address with the same size, give the same results
and levels for raw allocation, for all layouts (including panics) and levels. -/
theorem C23_agrees_with_sync {t : Target} {b : MemBump} (hv : b.Valid t) {m : Mem} (hc : b.level t m ≤ b.cap)
    {e : Bump.Env} (he : e.Valid) (ht : e.target = t) (hbase : e.base = b.addr + t.wordBytes) (hlen : e.len = b.cap)
    {l : Layout} (hl : l.Valid t) (n : Nat) :
    (match b.tryAlloc t m l, Bump.tryAllocSeq e (b.level t m) l with
      | .ret (r, m'), .ret (r', c') => r = r' ∧ b.level t m' = c'
      | .panic, .panic => True
      | _, _ => False) ∧
    (match b.tryAllocAt t m l n, Bump.tryAllocAtSeq e (b.level t m) l n with
      | .ret (r, m'), .ret (r', c') => r = r' ∧ b.level t m' = c'
      | .panic, .panic => True
      | _, _ => False) := by
  have hW := Bump.isizeMax_lt t
  have hcap := hv.cap_le
  have hslab : e.slab = b.slab t := by simp [Bump.Env.slab, MemBump.slab, hbase, hlen]
  have hlenlevel : ∀ {a : Alloc} {k}, (b.slab t).place l k = some a → a.level < t.W := by
    intro a k hp
    have h2 := (place_level hl.1.pos hp).2.1
    have : (b.slab t).len = b.cap := rfl
    omega
  by_cases h0 : l.size = 0
  · constructor
    · rw [tryAlloc_zero t b m h0]
      simp [Bump.tryAllocSeq, Bump.tryAllocLoop, Bump.tryAllocAtSeq, Bump.tryAllocAtPre_zero e h0, bind, Outcome.bind]
    · rw [tryAllocAt_zero t b m h0]
      simp [Bump.tryAllocAtSeq, Bump.tryAllocAtPre_zero e h0, bind, Outcome.bind]
  · constructor
    · rw [tryAlloc_spec hv hc (by omega) hl.1.pos, Bump.tryAllocSeq_spec he (by omega) (by omega) hl.1.pos, hslab]
      cases hp : (b.slab t).place l (b.level t m) with
      | none => exact ⟨rfl, rfl⟩
      | some a => exact ⟨rfl, loadUsize_storeUsize _ _ _ (hlenlevel hp)⟩
    · by_cases hn : n ≤ b.cap
      · rw [tryAllocAt_spec hv m (by omega) hl.1.pos hn, Bump.tryAllocAtSeq_spec he (by omega) hl.1.pos (by omega), hslab]
        cases hp : (b.slab t).place l n with
        | none => exact ⟨rfl, rfl⟩
        | some a =>
          simp only [atResult]
          by_cases hcn : b.level t m = n
          · simp only [hcn, if_true]
            exact ⟨trivial, loadUsize_storeUsize _ _ _ (hlenlevel hp)⟩
          · simp only [hcn, if_false]; exact ⟨trivial, trivial⟩
      · rw [tryAllocAt_foreign t b m (by omega)]
        simp [Bump.tryAllocAtSeq, Bump.tryAllocAtPre_foreign e (l := l) (show e.len < n by omega), bind, Outcome.bind]

/-- **C22** A call panics exactly if it allocates a layout of size zero or a level beyond the capacity is passed; then it changes
nothing. (For arrays whose layout does not exist the result is `Exhausted`.) -/
theorem C22_panics_iff {t : Target} {b : MemBump} (hv : b.Valid t) {s : UState} (hs : UReach t b s) {c : UCall} (hc : c.Valid t)
    {r : Ret} {s' : UState} (hx : uexec t b s (.call c) = some (r, s')) :
    (r = .panicked ↔ ∃ l, c.layout = some l ∧ l.size + (l.align - 1) ≤ t.isizeMax ∧
      (l.size = 0 ∨ ∃ n, c.atLevel = some n ∧ b.cap < n)) ∧ (r = .panicked → s' = s) := by
  obtain ⟨r', s'', h1, _, h3, _⟩ := uexec_spec hv (hs.inv hv) (op := .call c) hc
  rw [h1] at hx
  cases hx
  refine ⟨?_, (h3 c rfl).2.2⟩
  have h2 := (h3 c rfl).1
  have hlen : (b.slab t).len = b.cap := rfl
  have fail : ∀ f, c.failure f ≠ .panicked := by intro f; cases c <;> simp [UCall.failure]
  have succ : ∀ a, c.success a ≠ .panicked := by intro a; cases c <;> simp [UCall.success]
  have h2' : r = (uSpecApply t (b.slab t) (b.level t s.mem) c).1 := by rw [← h2]
  rw [h2']
  unfold uSpecApply
  cases hcl : c.layout with
  | none => simp
  | some l =>
    simp only [Option.some.injEq, exists_eq_left']
    by_cases hbig : t.isizeMax < l.size + (l.align - 1)
    · rw [if_pos hbig]
      exact ⟨fun h => absurd h (fail _), fun h => by omega⟩
    · rw [if_neg hbig]
      unfold specPlace
      by_cases h0 : l.size = 0
      · simp only [h0, if_true]
        exact ⟨fun _ => ⟨by omega, by simp⟩, fun _ => trivial⟩
      · simp only [h0, if_false, false_or]
        cases c.atLevel with
        | none =>
          simp only
          cases (b.slab t).place l (b.level t s.mem) with
          | none => exact ⟨fun h => absurd h (fail _), fun h => by simp at h⟩
          | some a => exact ⟨fun h => absurd h (succ _), fun h => by simp at h⟩
        | some k =>
          simp only [hlen, Option.some.injEq, exists_eq_left']
          by_cases hk : b.cap < k
          · simp only [hk, if_true]
            exact ⟨fun _ => ⟨by omega, trivial⟩, fun _ => trivial⟩
          · simp only [hk, if_false]
            cases (b.slab t).place l k with
            | none => exact ⟨fun h => absurd h (fail _), fun h => by simp at h⟩
            | some a =>
              simp only
              by_cases hnk : b.level t s.mem = k
              · simp only [hnk, if_true]; exact ⟨fun h => absurd h (succ _), fun h => by simp at h⟩
              · simp only [hnk, if_false]; exact ⟨fun h => absurd h (fail _), fun h => by simp at h⟩

/-! ## C28 -/

/-- **C28** (missing: zero-sized elements and empty arrays, which panic, see `C28_empty_array_panics`) -/
theorem C28_bump_array_partial {t : Target} {b : MemBump} (hv : b.Valid t) {s : UState} (hs : UReach t b s) {T : Layout}
    (hT : T.ValidType t) (h0 : 0 < T.size) {n : Nat} (hn : 0 < n) {r : Ret} {s' : UState}
    (hx : uexec t b s (.call (.bumpArray T n)) = some (r, s')) :
    (r = .err .exhausted ∧ s'.mem = s.mem ∧
      (¬ Slab.Fits ⟨b.addr + t.wordBytes, b.cap⟩ ⟨T.size * n, T.align⟩ (b.level t s.mem) ∨
        t.isizeMax < T.size * n + (T.align - 1))) ∨
    (∃ p, r = .ptr p ∧ T.align ∣ p ∧ Region.Within ⟨p, T.size * n⟩ (MemBumpData t b) ∧
      IsFirstAligned T.align (b.addr + t.wordBytes + b.level t s.mem) p ∧
      b.addr + t.wordBytes + b.level t s'.mem = p + T.size * n) := by
  have hi := hs.inv hv
  have hmul : 0 < T.size * n := Nat.mul_pos h0 hn
  have hz : ¬ T.size * n = 0 := by omega
  have hap := hT.1.1.pos
  simp only [uexec, runCall, MemBump.bumpArray, layoutArray_eq hap] at hx
  by_cases hbig : t.isizeMax < T.size * n + (T.align - 1)
  · rw [if_pos hbig] at hx
    simp only [bind, Outcome.bind, pure] at hx
    cases hx
    exact .inl ⟨rfl, rfl, .inr hbig⟩
  · rw [if_neg hbig] at hx
    simp only [MemBump.alloc] at hx
    rw [tryAlloc_spec hv hi.le (l := ⟨T.size * n, T.align⟩) hmul hap] at hx
    cases hp : (b.slab t).place ⟨T.size * n, T.align⟩ (b.level t s.mem) with
    | none =>
      rw [hp] at hx
      simp only [allocResult, bind, Outcome.bind, pure, Option.map] at hx
      cases hx
      exact .inl ⟨rfl, rfl, .inl ((Slab.place_none_iff_not_fits (l := ⟨T.size * n, T.align⟩) hap).mp hp)⟩
    | some a =>
      rw [hp] at hx
      simp only [allocResult, bind, Outcome.bind, pure, Option.map] at hx
      cases hx
      obtain ⟨k1, k2, k3, k4, k5⟩ := place_level (l := ⟨T.size * n, T.align⟩) hap hp
      have hW := Bump.isizeMax_lt t
      have hcap := hv.cap_le
      have hbase : (b.slab t).base = b.addr + t.wordBytes := rfl
      have hlen : (b.slab t).len = b.cap := rfl
      simp only at k4
      refine .inr ⟨a.ptr, rfl, k5, ⟨by show b.addr + t.wordBytes ≤ a.ptr; omega, by show a.ptr + T.size * n ≤ b.addr + t.wordBytes + b.cap; omega⟩, ?_, ?_⟩
      · rw [Slab.place_eq_some] at hp
        rw [hp.1]; exact alignUp_isFirstAligned hap _
      · have : b.level t (storeUsize t s.mem b.addr a.level) = a.level := loadUsize_storeUsize _ _ _ (by omega)
        show b.addr + t.wordBytes + b.level t (storeUsize t s.mem b.addr a.level) = _
        rw [this]; omega

/-- **C28** `bump_box` of a sized type allocates at the current level, fails only with `Exhausted`, exactly if the value does not fit, and does not
panic (missing: zero-sized types, which panic, see `C28_zst_box_panics`). -/
theorem C28_bump_box_partial {t : Target} {b : MemBump} (hv : b.Valid t) {s : UState} (hs : UReach t b s) {T : Layout}
    (hT : T.ValidType t) (h0 : 0 < T.size) {r : Ret} {s' : UState} (hx : uexec t b s (.call (.bumpBox T)) = some (r, s')) :
    (r = .err .exhausted ∧ b.level t s'.mem = b.level t s.mem ∧ ¬ Slab.Fits ⟨b.addr + t.wordBytes, b.cap⟩ T (b.level t s.mem)) ∨
    (∃ p, r = .ptr p ∧ IsFirstAligned T.align (b.addr + t.wordBytes + b.level t s.mem) p ∧
      b.addr + t.wordBytes + b.level t s'.mem = p + T.size) := by
  obtain ⟨r', s'', h1, h2, _⟩ := C23_refines_spec hv hs (c := .bumpBox T) hT
  rw [h1] at hx
  cases hx
  have hap := hT.1.1.pos
  have hbig : ¬ t.isizeMax < T.size + (T.align - 1) := by have := hT.1.2; omega
  have hz : ¬ T.size = 0 := by omega
  simp only [uSpecApply, UCall.layout, hbig, if_false, UCall.atLevel, specPlace, hz] at h2
  cases hp : Slab.place ⟨b.addr + t.wordBytes, b.cap⟩ T (b.level t s.mem) with
  | none =>
    rw [hp] at h2
    simp only [UCall.failure, Prod.mk.injEq] at h2
    exact .inl ⟨h2.1, h2.2, (Slab.place_none_iff_not_fits hap).mp hp⟩
  | some a =>
    rw [hp] at h2
    simp only [UCall.success, Prod.mk.injEq] at h2
    have hk := (place_level hap hp).2.2.2.1
    rw [Slab.place_eq_some] at hp
    refine .inr ⟨a.ptr, h2.1, by rw [hp.1]; exact alignUp_isFirstAligned hap _, ?_⟩
    rw [h2.2]
    simp only at hk
    omega

/-- **C28 is violated**: an array of zero elements, or of elements of size zero, panics although it needs no memory, in every state. -/
theorem C28_empty_array_panics {t : Target} {b : MemBump} (s : UState) {T : Layout} (hT : T.ValidType t) {n : Nat}
    (h : T.size = 0 ∨ n = 0) : uexec t b s (.call (.bumpArray T n)) = some (.panicked, s) := by
  have hz : T.size * n = 0 := by rcases h with h | h <;> simp [h]
  have hb : ¬ t.isizeMax < 0 + (T.align - 1) := by have := hT.1.2; omega
  simp only [uexec, runCall, MemBump.bumpArray, layoutArray_eq hT.1.1.pos, hz, hb, if_false, MemBump.alloc,
    tryAlloc_zero t b s.mem (l := ⟨0, T.align⟩) rfl, bind, Outcome.bind]

/-- **C28 is violated**: a box of a zero-sized type panics. -/
theorem C28_zst_box_panics {t : Target} {b : MemBump} (s : UState) {T : Layout} (h : T.size = 0) :
    uexec t b s (.call (.bumpBox T)) = some (.panicked, s) := by
  simp only [uexec, runCall, MemBump.bumpBox, MemBump.getAt, tryAllocAt_zero t b s.mem h, bind, Outcome.bind]

/-! Concrete cases -/

/-- A bump with 32 bytes at address 4096 (data at 4104): a u16, an array of three u32, and a failing and a foreign request. -/
def exB : MemBump := ⟨4096, 32⟩
theorem exB_valid : exB.Valid .w64 := ⟨by decide, by decide, by decide, by decide⟩
example : UReach .w64 exB ⟨fun _ => 0, []⟩ := .init (by decide)
example :
    ((do let (r1, s) ← uexec .w64 exB ⟨fun _ => 0, []⟩ (.call (.get ⟨2, 2⟩))
         let (r2, s) ← uexec .w64 exB s (.call (.bumpArray ⟨4, 4⟩ 3))
         let (r3, s) ← uexec .w64 exB s (.write ⟨4108, ⟨12, 4⟩⟩ 0 [7, 7, 7])
         let (r4, s) ← uexec .w64 exB s (.call (.allocAt ⟨4, 4⟩ 2))
         let (r5, s) ← uexec .w64 exB s (.call (.alloc ⟨17, 1⟩))
         let (r6, s) ← uexec .w64 exB s (.call (.getAt ⟨8, 8⟩ 33))
         let (r7, s) ← uexec .w64 exB s (.call .level)
         pure ([r1, r2, r3, r4, r5, r6, r7], s.granted)) : Option (List Ret × List Block)) =
    some ([.allocation ⟨4104, 2⟩, .ptr 4108, .none, .err (.mismatch 16), .none, .panicked, .level 16],
      [⟨4108, ⟨12, 4⟩⟩, ⟨4104, ⟨2, 2⟩⟩]) := by decide

end Verif
