import Verif.Proofs.BumpGlobal
/-! # C17–C19: `Bump` as a `LocalAlloc` and as global allocator -/
namespace Verif
open Bump AllocTraits

/-! ## Invariant of histories -/

theorem globalAlloc_spec {e : Env} (hv : e.Valid) {c : Nat} (hc : c ≤ e.len) (m : Mem) {l : Layout} (hs : 0 < l.size)
    (ha : 0 < l.align) :
    globalAlloc e c m l = match e.slab.place l c with
      | none => .ret (0, c, m)
      | some a => .ret (a.ptr, a.level, m) := by
  unfold globalAlloc
  rw [tryAllocSeq_spec hv hc hs ha]
  cases e.slab.place l c <;> rfl

/-- Live blocks have layouts that exist. -/
def GInv (e : Env) (s : GState) : Prop := LInv e s.level s.live ∧ ∀ b ∈ s.live, b.layout.Valid e.target ∧ b.layout.align ∣ b.ptr

theorem layoutFromSizeAlign_of_valid {t : Target} {size align : Nat} (h : (⟨size, align⟩ : Layout).Valid t) :
    layoutFromSizeAlign t size align = some ⟨size, align⟩ := by
  unfold layoutFromSizeAlign
  rw [if_pos h.2]

theorem layoutFromSizeAlign_of_not_valid {t : Target} {size align : Nat} (ha : IsPow2 align)
    (h : ¬ (⟨size, align⟩ : Layout).Valid t) : layoutFromSizeAlign t size align = none := by
  unfold layoutFromSizeAlign
  rw [if_neg (fun hh => h ⟨ha, hh⟩)]

/-- What an operation does, in terms of the specification. -/
def GStep (e : Env) (s : GState) (op : GOp) (p : Nat) (s' : GState) : Prop :=
  match op with
  | .alloc l =>
    (p = 0 ∧ s' = s ∧ ¬ e.slab.Fits l s.level) ∨
    (p ≠ 0 ∧ (⟨p, l⟩ : Block).Serves l ∧ Region.Within ⟨p, l.size⟩ ⟨e.base, e.len⟩ ∧
      (∀ b ∈ s.live, Region.Disjoint ⟨p, l.size⟩ b.region) ∧ s'.live = ⟨p, l⟩ :: s.live ∧ s'.mem = s.mem)
  | .allocZeroed l =>
    (p = 0 ∧ s' = s ∧ ¬ e.slab.Fits l s.level) ∨
    (p ≠ 0 ∧ (⟨p, l⟩ : Block).Serves l ∧ Region.Within ⟨p, l.size⟩ ⟨e.base, e.len⟩ ∧
      (∀ b ∈ s.live, Region.Disjoint ⟨p, l.size⟩ b.region) ∧ s'.live = ⟨p, l⟩ :: s.live ∧
      (∀ x, Region.Has ⟨p, l.size⟩ x → s'.mem x = 0) ∧ OnlyIn ⟨p, l.size⟩ s.mem s'.mem)
  | .realloc old newSize =>
    (p = 0 ∧ s' = s ∧ (¬ (⟨newSize, old.layout.align⟩ : Layout).Valid e.target ∨
        (¬ e.slab.Fits ⟨newSize, old.layout.align⟩ s.level ∧ old.layout.size < newSize))) ∨
    (p ≠ 0 ∧ (⟨p, ⟨newSize, old.layout.align⟩⟩ : Block).Serves ⟨newSize, old.layout.align⟩ ∧
      Region.Within ⟨p, newSize⟩ ⟨e.base, e.len⟩ ∧
      ((newSize ≤ old.layout.size ∧ p = old.ptr ∧ s'.level = s.level ∧ s'.mem = s.mem) ∨
        (old.layout.size < newSize ∧ (⟨newSize, old.layout.align⟩ : Layout).Valid e.target ∧
          e.slab.Fits ⟨newSize, old.layout.align⟩ s.level ∧ ∀ b ∈ s.live, Region.Disjoint ⟨p, newSize⟩ b.region)) ∧
      readBytes s'.mem p (min newSize old.layout.size) = readBytes s.mem old.ptr (min newSize old.layout.size) ∧
      Kept s.live s.mem s'.mem ∧ s'.live = ⟨p, ⟨newSize, old.layout.align⟩⟩ :: s.live.erase old)
  | .dealloc b => s'.level = s.level ∧ s'.mem = s.mem ∧ s'.live = s.live.erase b
  | .write b off bytes => s' = { s with mem := writeBytes s.mem (b.ptr + off) bytes }

theorem gexec_spec {e : Env} (hv : e.Valid) {s : GState} (hi : GInv e s) {op : GOp} (ha : op.Allowed e.target s) :
    ∃ p s', gexec e s op = .ret (p, s') ∧ GStep e s op p s' ∧ GInv e s' := by
  obtain ⟨hi, hval⟩ := hi
  have allocCase : ∀ l : Layout, l.Valid e.target → 0 < l.size → ∀ a, e.slab.place l s.level = some a →
      a.ptr ≠ 0 ∧ (⟨a.ptr, l⟩ : Block).Serves l ∧ Region.Within ⟨a.ptr, l.size⟩ ⟨e.base, e.len⟩ ∧
      (∀ b ∈ s.live, Region.Disjoint ⟨a.ptr, l.size⟩ b.region) ∧
      ∀ m, GInv e ⟨a.level, m, ⟨a.ptr, l⟩ :: s.live⟩ := by
    intro l hl h0 a hp
    obtain ⟨h1, h2, h3, h4⟩ := place_block hv hl.1.pos h0 hp hi
    have hw := h3.within ⟨a.ptr, l⟩ (by simp)
    have hle := h3.le
    simp only at hw
    refine ⟨h1.1, h1, ⟨hw.1, by show a.ptr + l.size ≤ e.base + e.len; omega⟩, h2, fun m => ⟨h3, ?_⟩⟩
    intro b hb
    rcases List.mem_cons.mp hb with rfl | hb
    · exact ⟨hl, h1.2.1⟩
    · exact hval b hb
  cases op with
  | alloc l =>
    obtain ⟨hl, h0⟩ := ha
    simp only [gexec]
    rw [globalAlloc_spec hv hi.le s.mem h0 hl.1.pos]
    cases hp : e.slab.place l s.level with
    | none =>
      refine ⟨0, s, by simp [bind, Outcome.bind, pure], .inl ⟨rfl, rfl, ?_⟩, hi, hval⟩
      rw [← Slab.place_none_iff_not_fits hl.1.pos]; exact hp
    | some a =>
      obtain ⟨k0, k1, k2, k3, k4⟩ := allocCase l hl h0 a hp
      exact ⟨a.ptr, ⟨a.level, s.mem, ⟨a.ptr, l⟩ :: s.live⟩, by simp [bind, Outcome.bind, pure, k0],
        .inr ⟨k0, k1, k2, k3, rfl, rfl⟩, k4 _⟩
  | allocZeroed l =>
    obtain ⟨hl, h0⟩ := ha
    simp only [gexec, globalAllocZeroed]
    rw [globalAlloc_spec hv hi.le s.mem h0 hl.1.pos]
    cases hp : e.slab.place l s.level with
    | none =>
      refine ⟨0, s, by simp [bind, Outcome.bind, pure], .inl ⟨rfl, rfl, ?_⟩, hi, hval⟩
      rw [← Slab.place_none_iff_not_fits hl.1.pos]; exact hp
    | some a =>
      obtain ⟨k0, k1, k2, k3, k4⟩ := allocCase l hl h0 a hp
      refine ⟨a.ptr, ⟨a.level, writeZeros s.mem a.ptr l.size, ⟨a.ptr, l⟩ :: s.live⟩,
        by simp [bind, Outcome.bind, pure, k0],
        .inr ⟨k0, k1, k2, k3, rfl, ?_, ?_⟩, k4 _⟩
      · intro x ⟨hx1, hx2⟩
        obtain ⟨i, rfl⟩ : ∃ i, x = a.ptr + i := ⟨x - a.ptr, by simp only at hx1; omega⟩
        show writeZeros s.mem a.ptr l.size (a.ptr + i) = 0
        unfold writeZeros
        rw [writeBytes_of_mem (by rw [List.length_replicate]; simp only at hx2; omega), List.getElem_replicate]
      · intro x hx
        apply writeBytes_of_not_mem
        rw [List.length_replicate]; exact hx
  | realloc b newSize =>
    obtain ⟨hb, h0⟩ := ha
    have hbv := hval b hb
    have hbp := (hi.within b hb).2.2
    have hz : NonZeroLayout.fromLayout b.layout = some ((NonZeroLayout.fromLayout b.layout).get (by
        unfold NonZeroLayout.fromLayout; rw [if_neg (by omega)]; rfl)) := by simp
    generalize hzz : (NonZeroLayout.fromLayout b.layout).get _ = z at hz
    have hzl : z.toLayout = b.layout ∧ z.align = b.layout.align := by
      have := (C62_nonZeroLayout b.layout).2.2 z hz
      exact ⟨this.2.2.1, this.2.1⟩
    simp only [gexec, globalRealloc, hz, Outcome.unwrap, bind, Outcome.bind, hzl.2, layoutReallocated]
    by_cases hnv : (⟨newSize, b.layout.align⟩ : Layout).Valid e.target
    · simp only [layoutFromSizeAlign_of_valid hnv]
      have hz2 : ∃ z2, NonZeroLayout.fromLayout (⟨newSize, b.layout.align⟩ : Layout) = some z2 ∧ z2.toLayout = ⟨newSize, b.layout.align⟩ := by
        have h62 := C62_nonZeroLayout ⟨newSize, b.layout.align⟩
        cases hf : NonZeroLayout.fromLayout (⟨newSize, b.layout.align⟩ : Layout) with
        | none => have := h62.1.mp hf; simp only at this; omega
        | some z2 => exact ⟨z2, rfl, (h62.2.2 z2 hf).2.2.1⟩
      obtain ⟨z2, hz2, hz2l⟩ := hz2
      simp only [hz2, bind, Outcome.bind, pure, hz2l, hzl.1]
      obtain ⟨r, c', m', hr, hspec⟩ := localRealloc_spec hv (m := s.mem) hi hb hnv h0
      rw [show (⟨b.ptr, b.layout⟩ : Block) = b from rfl, hr]
      cases r with
      | none =>
        obtain ⟨rfl, rfl, hnf, hns⟩ := hspec
        refine ⟨0, s, by simp, .inl ⟨rfl, rfl, .inr ⟨hnf, ?_⟩⟩, hi, hval⟩
        exact Nat.lt_of_not_le fun h => hns ⟨hbv.2, h⟩
      | some b' =>
        obtain ⟨q1, q2, q3, q4, q5, q6, q7, q8⟩ := hspec
        have hb' : b' = ⟨b'.ptr, ⟨newSize, b.layout.align⟩⟩ := by cases b'; simp_all
        have hreg : b'.region = ⟨b'.ptr, newSize⟩ := by rw [hb']; rfl
        refine ⟨b'.ptr, ⟨c', m', b' :: s.live.erase b⟩, ?_, .inr ⟨q2.1, ?_, ⟨q3, q4⟩, ?_, q6, q7, ?_⟩, q8, ?_⟩
        · simp [q2.1, ← hb']
        · rw [← hb']; exact q2
        · rcases q5 with ⟨_, k2, k3, k4, k5⟩ | ⟨k1, k2, k3⟩
          · exact .inl ⟨k2, k3, k4, k5⟩
          · exact .inr ⟨Nat.lt_of_not_le fun h => k1 ⟨hbv.2, h⟩, hnv, k2, by rw [← hreg]; exact k3⟩
        · simp only; rw [← hb']
        · intro d hd
          rcases List.mem_cons.mp hd with rfl | hd
          · rw [q1]; exact ⟨hnv, q2.2.1⟩
          · exact hval d (List.mem_of_mem_erase hd)
    · simp only [layoutFromSizeAlign_of_not_valid hbv.1.1 hnv, pure]
      exact ⟨0, s, by simp, .inl ⟨rfl, rfl, .inl hnv⟩, hi, hval⟩
  | dealloc b =>
    exact ⟨0, ⟨s.level, s.mem, s.live.erase b⟩, rfl, ⟨rfl, rfl, rfl⟩, hi.erase b, fun d hd => hval d (List.mem_of_mem_erase hd)⟩
  | write b off bytes =>
    exact ⟨0, _, rfl, rfl, hi, hval⟩

theorem Bump.GReach.inv {e : Env} (hv : e.Valid) {s : GState} (h : GReach e s) : GInv e s := by
  induction h with
  | init hc => exact ⟨⟨hc, by simp, by simp⟩, by simp⟩
  | step h ha hx ih =>
    obtain ⟨p, s', h1, _, h3⟩ := gexec_spec hv ih ha
    rw [h1] at hx
    cases hx
    exact h3

/-! ## C17 -/

/-- **C17** `LocalAlloc::realloc` of a live block, with any new layout: it returns. On failure (only if the new layout
does not fit, neither in place nor behind the level) nothing changes. On success the block has the new layout,
is aligned, in bounds, starts with the old bytes, is in place or disjoint from all live blocks, and the bytes
of all live blocks are kept. `LInv` says: the level is at most the size, live blocks are non-empty, before the level, pairwise disjoint. -/
theorem C17_local_realloc {e : Env} (hv : e.Valid) {c : Nat} {m : Mem} {live : List Block} (hi : LInv e c live)
    {old : Block} (hold : old ∈ live) {l : Layout} (hl : l.Valid e.target) (h0 : 0 < l.size) :
    ∃ r c' m', localRealloc e c m old l = .ret (r, c', m') ∧
      match r with
      | none => c' = c ∧ m' = m ∧ ¬ e.slab.Fits l c ∧ ¬ (l.align ∣ old.ptr ∧ l.size ≤ old.layout.size)
      | some b => b.layout = l ∧ b.Serves l ∧ e.base ≤ b.ptr ∧ b.ptr + l.size ≤ e.base + e.len ∧
          ((l.align ∣ old.ptr ∧ l.size ≤ old.layout.size ∧ b.ptr = old.ptr ∧ c' = c ∧ m' = m) ∨
            (¬ (l.align ∣ old.ptr ∧ l.size ≤ old.layout.size) ∧ e.slab.Fits l c ∧ ∀ d ∈ live, b.region.Disjoint d.region)) ∧
          readBytes m' b.ptr (min l.size old.layout.size) = readBytes m old.ptr (min l.size old.layout.size) ∧
          Kept live m m' ∧ LInv e c' (b :: live.erase old) :=
  localRealloc_spec hv hi hold hl h0

/-- **C17** `GlobalAlloc::realloc` in every history conforming to the contract: it returns (no panic, no
overlapping copy); null exactly if the new layout does not exist or does not fit, then nothing changes; otherwise
the block is aligned, in bounds, in place (exactly if the block does not grow, and then no byte changes and no
memory is consumed) or disjoint from all live blocks, keeps the common
prefix of bytes, and no byte of a live block changes. -/
theorem C17_global_realloc {e : Env} (hv : e.Valid) {s : GState} (hs : GReach e s) {old : Block} (hold : old ∈ s.live)
    {newSize : Nat} (h0 : 0 < newSize) :
    ∃ p s', gexec e s (.realloc old newSize) = .ret (p, s') ∧
    ((p = 0 ∧ s' = s ∧ (¬ (⟨newSize, old.layout.align⟩ : Layout).Valid e.target ∨
        (¬ e.slab.Fits ⟨newSize, old.layout.align⟩ s.level ∧ old.layout.size < newSize))) ∨
     (p ≠ 0 ∧ old.layout.align ∣ p ∧ Region.Within ⟨p, newSize⟩ ⟨e.base, e.len⟩ ∧
      ((newSize ≤ old.layout.size ∧ p = old.ptr ∧ s'.level = s.level ∧ s'.mem = s.mem) ∨
        (old.layout.size < newSize ∧ (⟨newSize, old.layout.align⟩ : Layout).Valid e.target ∧
          e.slab.Fits ⟨newSize, old.layout.align⟩ s.level ∧ ∀ b ∈ s.live, Region.Disjoint ⟨p, newSize⟩ b.region)) ∧
      readBytes s'.mem p (min newSize old.layout.size) = readBytes s.mem old.ptr (min newSize old.layout.size) ∧
      Kept s.live s.mem s'.mem ∧ s'.live = ⟨p, ⟨newSize, old.layout.align⟩⟩ :: s.live.erase old)) := by
  obtain ⟨p, s', h1, h2, _⟩ := gexec_spec hv (hs.inv hv) (op := .realloc old newSize) ⟨hold, h0⟩
  refine ⟨p, s', h1, ?_⟩
  rcases h2 with h | ⟨q1, q2, q3⟩
  · exact .inl h
  · exact .inr ⟨q1, q2.2.1, q3⟩

/-! ## C18 -/

/-- **C18** In every state reachable through the global-allocator interface, live blocks are pairwise disjoint, inside
of the storage and aligned. -/
theorem C18_live_disjoint {e : Env} (hv : e.Valid) {s : GState} (hs : GReach e s) :
    (s.live.map Block.region).Pairwise Region.Disjoint ∧
    ∀ b ∈ s.live, b.region.Within ⟨e.base, e.len⟩ ∧ b.layout.align ∣ b.ptr ∧ b.ptr ≠ 0 := by
  obtain ⟨h1, h2⟩ := hs.inv hv
  refine ⟨h1.disj, fun b hb => ⟨?_, (h2 b hb).2, ?_⟩⟩
  · have := h1.within b hb
    have := h1.le
    exact ⟨by show e.base ≤ b.ptr; omega, by show b.ptr + b.layout.size ≤ e.base + e.len; omega⟩
  · have := h1.within b hb
    have := hv.base_pos
    omega

/-- **C18** Every operation conforming to the contract returns (no panic, no undefined behaviour). -/
theorem C18_no_panic {e : Env} (hv : e.Valid) {s : GState} (hs : GReach e s) {op : GOp} (ha : op.Allowed e.target s) :
    ∃ p s', gexec e s op = .ret (p, s') := by
  obtain ⟨p, s', h, _⟩ := gexec_spec hv (hs.inv hv) ha
  exact ⟨p, s', h⟩

/-- **C18** `alloc` returns null exactly if the layout does not fit, and then changes nothing; otherwise an aligned block in bounds, disjoint
from all live blocks. No byte changes. -/
theorem C18_alloc {e : Env} (hv : e.Valid) {s : GState} (hs : GReach e s) {l : Layout} (hl : l.Valid e.target) (h0 : 0 < l.size)
    {p : Nat} {s' : GState} (hx : gexec e s (.alloc l) = .ret (p, s')) :
    (p = 0 ↔ ¬ e.slab.Fits l s.level) ∧ (p = 0 → s' = s) ∧ s'.mem = s.mem ∧
    (p ≠ 0 → l.align ∣ p ∧ Region.Within ⟨p, l.size⟩ ⟨e.base, e.len⟩ ∧
      (∀ b ∈ s.live, Region.Disjoint ⟨p, l.size⟩ b.region)) := by
  have hi := hs.inv hv
  have hle := hi.1.le
  obtain ⟨p', s'', h1, h2, _⟩ := gexec_spec hv hi (op := .alloc l) ⟨hl, h0⟩
  rw [h1] at hx
  cases hx
  have hfit : p = 0 ↔ ¬ e.slab.Fits l s.level := by
    rw [← Slab.place_none_iff_not_fits hl.1.pos]
    simp only [gexec] at h1
    rw [globalAlloc_spec hv hle s.mem h0 hl.1.pos] at h1
    cases hp : e.slab.place l s.level with
    | none => rw [hp] at h1; simp [bind, Outcome.bind, pure] at h1; simp [h1.1.symm]
    | some a =>
      have ha0 := (place_block hv hl.1.pos h0 hp hi.1).1.1
      rw [hp] at h1
      simp [bind, Outcome.bind, pure] at h1
      rw [← h1.1]
      constructor
      · intro h; exact absurd h ha0
      · intro h; cases h
  rcases h2 with ⟨q1, q2, q3⟩ | ⟨q1, q2, q3, q4, q5, q6⟩
  · exact ⟨hfit, fun _ => q2, by rw [q2], fun h => absurd q1 h⟩
  · exact ⟨hfit, fun h => absurd h q1, q6, fun _ => ⟨q2.2.1, q3, q4⟩⟩

/-- **C18** `alloc_zeroed` gives null in exactly the cases in which `alloc` does, and otherwise the same block; level and live blocks are the same after both. -/
theorem C18_alloc_zeroed {e : Env} {s : GState} {l : Layout} {p q : Nat} {s' s'' : GState} (hx : gexec e s (.alloc l) = .ret (p, s'))
    (hz : gexec e s (.allocZeroed l) = .ret (q, s'')) : q = p ∧ s''.level = s'.level ∧ s''.live = s'.live ∧ (p = 0 → s'' = s') := by
  simp only [gexec, globalAllocZeroed, bind] at hx hz
  cases ha : globalAlloc e s.level s.mem l with
  | panic => rw [ha] at hx; cases hx
  | ub => rw [ha] at hx; cases hx
  | ret x =>
    obtain ⟨a, c, m⟩ := x
    rw [ha] at hx hz
    by_cases h0 : a = 0 <;> simp [Outcome.bind, pure, h0] at hx hz <;> obtain ⟨rfl, rfl⟩ := hx <;> obtain ⟨rfl, rfl⟩ := hz <;> simp [h0]

/-- **C18** `dealloc` changes neither the level nor any byte. -/
theorem C18_dealloc_noop {e : Env} {s s' : GState} {b : Block} {p : Nat}
    (hx : gexec e s (.dealloc b) = .ret (p, s')) : s'.level = s.level ∧ s'.mem = s.mem := by
  simp [gexec, globalDealloc, bind, Outcome.bind, pure] at hx
  rw [← hx.2]
  exact ⟨rfl, rfl⟩

/-- **C18** The bytes of a live block are changed only by writes to it (or reallocation of it): any other operation keeps them. -/
theorem C18_bytes_kept {e : Env} (hv : e.Valid) {s : GState} (hs : GReach e s) {op : GOp} (ha : op.Allowed e.target s)
    {p : Nat} {s' : GState} (hx : gexec e s op = .ret (p, s')) {b : Block} (hb : b ∈ s.live)
    (hne : ∀ off bytes, op ≠ .write b off bytes) : ∀ x, b.region.Has x → s'.mem x = s.mem x := by
  have hi := hs.inv hv
  obtain ⟨p', s'', h1, h2, _⟩ := gexec_spec hv hi ha
  rw [h1] at hx
  cases hx
  intro x hxb
  cases op with
  | alloc l =>
    rcases h2 with ⟨_, q, _⟩ | ⟨_, _, _, _, _, q⟩ <;> rw [q]
  | allocZeroed l =>
    rcases h2 with ⟨_, q, _⟩ | ⟨_, _, _, q4, _, _, q⟩
    · rw [q]
    · exact q x (fun h => q4 b hb x ⟨h, hxb⟩)
  | realloc old newSize =>
    rcases h2 with ⟨_, q, _⟩ | ⟨_, _, _, _, _, q, _⟩
    · rw [q]
    · exact q b hb x hxb
  | dealloc b' => rw [h2.2.1]
  | write b' off bytes =>
    have hbb : b' ≠ b := fun h => hne off bytes (by rw [h])
    rw [h2]
    apply writeBytes_of_not_mem
    intro hw
    have hmem : b ∈ s.live.erase b' := (List.mem_erase_of_ne (fun h => hbb h.symm)).mpr hb
    refine mem_erase_disjoint hi.1 ha.1 b hmem x ⟨?_, hxb⟩
    have := ha.2
    simp only [Block.region, Region.Has]
    omega

/-! ## C19 -/

/-- **C19** `GlobalAlloc::alloc_zeroed` in every history: if it succeeds all bytes of the block are zero, whatever
the memory contained before, and no byte outside changes. -/
theorem C19_alloc_zeroed {e : Env} (hv : e.Valid) {s : GState} (hs : GReach e s) {l : Layout} (hl : l.Valid e.target) (h0 : 0 < l.size)
    {p : Nat} {s' : GState} (hx : gexec e s (.allocZeroed l) = .ret (p, s')) (hp : p ≠ 0) :
    (∀ x, Region.Has ⟨p, l.size⟩ x → s'.mem x = 0) ∧ OnlyIn ⟨p, l.size⟩ s.mem s'.mem := by
  obtain ⟨p', s'', h1, h2, _⟩ := gexec_spec hv (hs.inv hv) (op := .allocZeroed l) ⟨hl, h0⟩
  rw [h1] at hx
  cases hx
  rcases h2 with ⟨q1, _⟩ | ⟨_, _, _, _, _, q6, q7⟩
  · exact absurd q1 hp
  · exact ⟨q6, q7⟩

/-- **C19** The same for `LocalAlloc::alloc_zeroed` of `Bump` (the default method). -/
theorem C19_local_alloc_zeroed {e : Env} (hv : e.Valid) {c : Nat} (hc : c ≤ e.len) {m : Mem} {l : Layout}
    (hl : l.Valid e.target) (h0 : 0 < l.size) :
    ∃ r c' m', defaultAllocZeroed (localAlloc e) c m l = .ret (r, c', m') ∧
      ∀ b, r = some b → b.Serves l ∧ (∀ x, b.region.Has x → m' x = 0) ∧ OnlyIn b.region m m' := by
  obtain ⟨r, c', m', h1, _, h3⟩ := C61_default_alloc_zeroed (localAlloc_contract hv) (s := c) (m := m) (live := [])
    ⟨hc, by simp, by simp⟩ hl h0
  refine ⟨r, c', m', h1, fun b hb => ?_⟩
  subst hb
  obtain ⟨k1, _, _, k2, m1, k3, k4⟩ := h3
  rw [localAlloc_spec hv hc m h0 hl.1.pos] at k3
  have : m1 = m := by
    cases hp : e.slab.place l c <;> rw [hp] at k3 <;> cases k3
    rfl
  subst this
  exact ⟨k1, k2, k4⟩

/-- The contract of `LocalAlloc` is fulfilled by `Bump`, so the hypotheses of the theorems C61 can be met. -/
theorem C61_contract_fulfilled_by_bump {e : Env} (hv : e.Valid) :
    Contract e.target (localAlloc e) (fun c _ live => LInv e c live) := localAlloc_contract hv

/-- A history: allocate 4 bytes, write, allocate another block, grow the first one (it moves), with its bytes. -/
def exG : Env := ⟨.w64, 4096, 32, id⟩
example :
    (do let (_, s) ← gexec exG ⟨0, fun _ => 9, []⟩ (.alloc ⟨4, 4⟩)
        let (_, s) ← gexec exG s (.write ⟨4096, ⟨4, 4⟩⟩ 0 [1, 2, 3, 4])
        let (q, s) ← gexec exG s (.allocZeroed ⟨2, 2⟩)
        let (p, s) ← gexec exG s (.realloc ⟨4096, ⟨4, 4⟩⟩ 8)
        let (n, s) ← gexec exG s (.realloc ⟨4104, ⟨8, 4⟩⟩ 40)
        pure ([q, p, n], [readBytes s.mem 4100 3, readBytes s.mem p 8], s.live)) =
      (.ret ([4100, 4104, 0], [[0, 0, 9], [1, 2, 3, 4, 9, 9, 9, 9]], [⟨4104, ⟨8, 4⟩⟩, ⟨4100, ⟨2, 2⟩⟩]) :
        Outcome (List Nat × List (List Byte) × List Block)) := by decide

end Verif
