import Verif.Props.Unsync
import Verif.Model.Alloca
/-! # C24–C27, C29: memory of `MemBump`, `unsync::Bump<T>` and `Alloca` -/
namespace Verif
open Unsync

/-! ## Arithmetic of words -/

theorem Target.word_dvd_half (t : Target) : t.wordBytes ∣ t.isizeMax + 1 := by cases t <;> decide

/-- A multiple of the word size that is at most `isize::MAX` leaves room for rounding up. -/
theorem round_room {t : Target} {x : Nat} (h : t.wordBytes ∣ x) (hx : x ≤ t.isizeMax) : x + (t.wordBytes - 1) ≤ t.isizeMax := by
  have hw := t.wordBytes_pos
  obtain ⟨k, hk⟩ := t.word_dvd_half
  obtain ⟨j, rfl⟩ := h
  have : t.wordBytes * j < t.wordBytes * k := by omega
  have hjk : j + 1 ≤ k := Nat.lt_of_mul_lt_mul_left this
  have := Nat.mul_le_mul_left t.wordBytes hjk
  rw [Nat.mul_add] at this
  omega

theorem word_isPow2 (t : Target) : IsPow2 t.wordBytes := by
  cases t
  · exact ⟨1, rfl⟩
  · exact ⟨2, rfl⟩
  · exact ⟨3, rfl⟩

theorem dataLayout_eq {t : Target} {k : Nat} :
    dataLayout t k = if t.isizeMax < k then none else some ⟨k, 1⟩ := by
  unfold dataLayout
  rw [layoutArray_eq (by decide : 0 < (⟨1, 1⟩ : Layout).align)]
  simp

theorem layoutFromSize_eq {t : Target} {k : Nat} :
    layoutFromSize t k = if t.isizeMax < t.wordBytes + k + (t.wordBytes - 1) then none
      else some ⟨alignUp t.wordBytes (t.wordBytes + k), t.wordBytes⟩ := by
  have hw := t.wordBytes_pos
  unfold layoutFromSize
  rw [dataLayout_eq]
  by_cases h1 : t.isizeMax < k
  · rw [if_pos h1, if_pos (by omega)]
  · rw [if_neg h1]
    have hmax : max t.wordBytes 1 = t.wordBytes := by omega
    simp only [layoutExtend, headerLayout, alignUp_one, layoutFromSizeAlign, hmax]
    by_cases h2 : t.wordBytes + k + (t.wordBytes - 1) ≤ t.isizeMax
    · rw [if_pos h2, if_neg (by omega)]; rfl
    · rw [if_neg h2, if_pos (by omega)]

theorem fromAlignedMem_eq {t : Target} {mem : Region} (hs : mem.size ≤ t.isizeMax) (hw : t.wordBytes ≤ mem.size) :
    MemBump.fromAlignedMem t mem = .ret ⟨mem.start, (mem.size - t.wordBytes) / t.wordBytes * t.wordBytes⟩ := by
  have hpos := t.wordBytes_pos
  have hdiv : mem.size - t.wordBytes - (mem.size - t.wordBytes) % t.wordBytes = (mem.size - t.wordBytes) / t.wordBytes * t.wordBytes := by
    have := Nat.div_add_mod (mem.size - t.wordBytes) t.wordBytes
    rw [Nat.mul_comm] at this
    omega
  have hle : (mem.size - t.wordBytes) / t.wordBytes * t.wordBytes ≤ mem.size - t.wordBytes := Nat.div_mul_le_self _ _
  have hdvd : t.wordBytes ∣ t.wordBytes + (mem.size - t.wordBytes) / t.wordBytes * t.wordBytes :=
    Nat.dvd_add (Nat.dvd_refl _) (Nat.dvd_mul_left _ _)
  have hroom := round_room hdvd (by omega)
  unfold MemBump.fromAlignedMem
  simp only [headerLayout, Usize.checkedSub, hw, if_true, Outcome.unwrap, bind, Outcome.bind, hdiv]
  rw [layoutFromSize_eq, if_neg (by omega)]
  have hsz : alignUp t.wordBytes (t.wordBytes + (mem.size - t.wordBytes) / t.wordBytes * t.wordBytes) ≤ mem.size := by
    rw [alignUp_of_dvd hpos hdvd]; omega
  simp only [Option.map, hsz, decide_true, Outcome.assert, if_true]
  rfl

/-! ## C24 -/

/-- **C24** `from_mem` on any slice (any address, size, contents): it returns (no panic); it fails exactly if no aligned word lies within the slice; otherwise
the bump has level 0, sits at the first aligned address, header and data lie within the slice leaving fewer than one word unused at the end,
and only the header has been written. Whatever is done with the bump then, `into_mem` gives back exactly header and data (thus a part of the
slice), and `from_mem_unchecked` of that is the same bump again. -/
theorem C24_from_mem {t : Target} {mem : Region} (h0 : 0 < mem.start) (hwrap : mem.start + mem.size ≤ t.W) (hsz : mem.size ≤ t.isizeMax) (m : Mem) :
    ∃ r m', MemBump.fromMem t m mem = .ret (r, m') ∧
      (r = none ↔ ¬ ∃ p, t.wordBytes ∣ p ∧ Region.Within ⟨p, t.wordBytes⟩ mem) ∧
      (r = none → m' = m) ∧
      ∀ b, r = some b → b.Valid t ∧ b.level t m' = 0 ∧ IsFirstAligned t.wordBytes mem.start b.addr ∧
        Region.Within (MemBumpData t b) mem ∧ mem.start + mem.size < b.addr + t.wordBytes + b.capacity + t.wordBytes ∧
        OnlyIn ⟨b.addr, t.wordBytes⟩ m m' ∧
        b.intoMem t = ⟨b.addr, t.wordBytes + b.capacity⟩ ∧ (b.intoMem t).Within mem ∧
        MemBump.fromMemUnchecked t (b.intoMem t) = .ret b := by
  have hpos := t.wordBytes_pos
  have hup := alignUp_isFirstAligned hpos mem.start
  have hoff : alignUp t.wordBytes mem.start = mem.start + alignOffsetU8 mem.start t.wordBytes := alignUp_eq_add_mod hpos _
  unfold MemBump.fromMem
  simp only [headerLayout]
  obtain ⟨o, ho⟩ : ∃ o, alignOffsetU8 mem.start t.wordBytes = o := ⟨_, rfl⟩
  simp only [ho] at hoff ⊢
  have hno : ∀ (_ : mem.size < o + t.wordBytes), ¬ ∃ p, t.wordBytes ∣ p ∧ Region.Within ⟨p, t.wordBytes⟩ mem := by
    rintro hlt ⟨p, hp, hw1, hw2⟩
    have := hup.2.2 p hw1 hp
    simp only at hw1 hw2
    omega
  by_cases h1 : mem.size < o
  · rw [if_pos h1]
    exact ⟨none, m, rfl, ⟨fun _ => hno (by omega), fun _ => rfl⟩, fun _ => rfl, fun b hb => by cases hb⟩
  rw [if_neg h1]
  by_cases h2 : mem.size - o < t.wordBytes
  · rw [if_pos h2]
    exact ⟨none, m, rfl, ⟨fun _ => hno (by omega), fun _ => rfl⟩, fun _ => rfl, fun b hb => by cases hb⟩
  rw [if_neg h2]
  simp only [MemBump.fromMemUnchecked]
  rw [fromAlignedMem_eq (by simp only; omega) (by simp only; omega)]
  refine ⟨_, _, rfl, ⟨fun h => (by cases h), fun h => absurd ⟨mem.start + o, hoff ▸ hup.2.1, ⟨by simp only; omega, by simp only; omega⟩⟩ h⟩, fun h => (by cases h), ?_⟩
  · rintro b ⟨⟩
    have hle : (mem.size - o - t.wordBytes) / t.wordBytes * t.wordBytes ≤ mem.size - o - t.wordBytes := Nat.div_mul_le_self _ _
    have hgt : mem.size - o - t.wordBytes < (mem.size - o - t.wordBytes) / t.wordBytes * t.wordBytes + t.wordBytes := by
      have h1 := Nat.div_add_mod (mem.size - o - t.wordBytes) t.wordBytes
      have h2 := Nat.mod_lt (mem.size - o - t.wordBytes) hpos
      rw [Nat.mul_comm] at h1
      omega
    have hdvd : t.wordBytes ∣ t.wordBytes + (mem.size - o - t.wordBytes) / t.wordBytes * t.wordBytes :=
      Nat.dvd_add (Nat.dvd_refl _) (Nat.dvd_mul_left _ _)
    generalize hd : (mem.size - o - t.wordBytes) / t.wordBytes * t.wordBytes = d at *
    have hinto : MemBump.intoMem t ⟨mem.start + o, d⟩ = ⟨mem.start + o, t.wordBytes + d⟩ := by
      simp only [MemBump.intoMem, MemBump.layoutForValue, alignUp_of_dvd hpos hdvd]
    refine ⟨⟨by simp only; omega, by rw [← hoff]; exact hup.2.1, by simp only; omega, by simp only; omega⟩, ?_, by rw [← hoff]; exact hup,
      ⟨by simp only [MemBumpData]; omega, by simp only [MemBumpData]; omega⟩, by simp only [MemBump.capacity]; omega, ?_, hinto, ?_, ?_⟩
    · show loadUsize t (writeZeros m (mem.start + o) t.wordBytes) (mem.start + o) = 0
      unfold loadUsize writeZeros
      have := readBytes_writeBytes_self m (mem.start + o) (List.replicate t.wordBytes 0)
      rw [List.length_replicate] at this
      rw [this, leNat_replicate_zero]
    · intro x hx
      apply writeBytes_of_not_mem
      rw [List.length_replicate]; exact hx
    · rw [hinto]; exact ⟨by simp only; omega, by simp only; omega⟩
    · rw [hinto, fromAlignedMem_eq (by simp only; omega) (by simp only; omega)]
      simp only [Nat.add_sub_cancel_left]
      have hd' : t.wordBytes ∣ d := ⟨_, by rw [← hd, Nat.mul_comm]⟩
      rw [Nat.div_mul_cancel hd']

/-- An unaligned slice of 30 bytes full of garbage: 3 bytes are skipped, one word for the header, 16 of 19 bytes usable. -/
example : MemBump.fromMem .w64 (fun _ => 255) ⟨4101, 30⟩ = .ret (some ⟨4104, 16⟩, writeZeros (fun _ => 255) 4104 8) := by rfl
example : MemBump.fromMem .w64 (fun _ => 255) ⟨4101, 10⟩ = .ret (none, fun _ => 255) := by rfl

/-! ## C25 -/

/-- **C25** (missing: the level is 0 only if the heap happens to provide zeroed memory, see `C25_new_level_arbitrary`.) `MemBump::new` returns if the layout exists; the capacity is the requested one;
header and data lie in the heap block. -/
theorem C25_new_partial {t : Target} {capacity : Nat} (hcap : t.wordBytes + capacity + (t.wordBytes - 1) ≤ t.isizeMax) (heap : Layout → Nat) :
    ∃ L b, MemBump.new t capacity heap = .ret b ∧ L.Valid t ∧ b.addr = heap L ∧ b.capacity = capacity ∧
      t.wordBytes + capacity ≤ L.size ∧ t.wordBytes = L.align ∧ b.layoutForValue t = L ∧
      ∀ m, (∀ x, Region.Has ⟨heap L, t.wordBytes⟩ x → m x = 0) → b.level t m = 0 := by
  have hpos := t.wordBytes_pos
  unfold MemBump.new
  rw [layoutFromSize_eq, if_neg (by omega)]
  have hup := le_alignUp hpos (t.wordBytes + capacity)
  have hdv := dvd_alignUp t.wordBytes (t.wordBytes + capacity)
  have hlt := alignUp_lt hpos (t.wordBytes + capacity)
  refine ⟨⟨alignUp t.wordBytes (t.wordBytes + capacity), t.wordBytes⟩, _, rfl, ⟨?_, ?_⟩, rfl, rfl, hup, rfl, rfl, ?_⟩
  · exact word_isPow2 t
  · exact round_room hdv (by simp only; omega)
  · intro m hm
    show loadUsize t m _ = 0
    have : loadUsize t m (heap ⟨alignUp t.wordBytes (t.wordBytes + capacity), t.wordBytes⟩) = loadUsize t (fun _ => 0) (heap ⟨alignUp t.wordBytes (t.wordBytes + capacity), t.wordBytes⟩) := by
      apply loadUsize_congr
      intro x h1 h2
      exact hm x ⟨h1, h2⟩
    rw [this]
    cases t <;> rfl

/-- **C25** `MemBump::new` panics exactly for the capacities for which no layout of header and data exists; otherwise the capacity is the requested one. -/
theorem C25_new_panics_iff {t : Target} {capacity : Nat} (heap : Layout → Nat) :
    (MemBump.new t capacity heap = .panic ↔ t.isizeMax < t.wordBytes + capacity + (t.wordBytes - 1)) ∧ ∀ b, MemBump.new t capacity heap = .ret b → b.capacity = capacity := by
  by_cases hc : t.wordBytes + capacity + (t.wordBytes - 1) ≤ t.isizeMax
  · obtain ⟨_, b, e, _, _, hb, _⟩ := C25_new_partial hc heap
    rw [e]
    exact ⟨⟨(fun h => by cases h), fun h => by omega⟩, fun b' h => by cases h; exact hb⟩
  · have : MemBump.new t capacity heap = .panic := by
      unfold MemBump.new
      rw [layoutFromSize_eq, if_pos (by omega)]
      rfl
    rw [this]
    exact ⟨⟨fun _ => by omega, fun _ => rfl⟩, fun b' h => by cases h⟩

/-- **C25 is violated**: the level of a new heap bump can be any number, as neither `MemBump::new` nor the heap initialises the memory. -/
theorem C25_new_level_arbitrary {t : Target} {capacity : Nat} {heap : Layout → Nat} {b : MemBump}
    (_ : MemBump.new t capacity heap = .ret b) {v : Nat} (hv : v < t.W) : ∃ m, b.level t m = v :=
  ⟨storeUsize t (fun _ => 0) b.addr v, loadUsize_storeUsize _ _ _ hv⟩

/-- **C25 is violated**, consequence: the first allocation of a new heap bump may panic. -/
theorem C25_new_first_alloc_may_panic {t : Target} {capacity : Nat} {heap : Layout → Nat} {b : MemBump}
    (hn : MemBump.new t capacity heap = .ret b) (hcap : capacity ≤ t.isizeMax) (l : Layout) : ∃ m, b.alloc t m l = .panic := by
  have hW := Bump.isizeMax_lt t
  have hbc : b.cap = capacity := by
    unfold MemBump.new at hn
    cases hf : layoutFromSize t capacity with
    | none => rw [hf] at hn; cases hn
    | some L => rw [hf] at hn; cases hn; rfl
  obtain ⟨m, hm⟩ := C25_new_level_arbitrary hn (v := capacity + 1) (by have := Nat.lt_of_le_of_lt hcap hW; have : t.isizeMax + 1 < t.W := by (cases t <;> decide)
                                                                       omega)
  refine ⟨m, ?_⟩
  have : b.tryAllocAt t m l (b.level t m) = .panic := tryAllocAt_foreign t b m (by omega)
  simp only [MemBump.alloc, MemBump.tryAlloc, this, bind, Outcome.bind]

example : MemBump.new .w64 100 (fun _ => 4096) = .ret ⟨4096, 100⟩ := by rfl

/-! ## C26 -/

/-- **C26** Exactly when: if `get_at::<V>(L)` succeeded in some memory, then `get_unchecked::<V>(L)` returns, and the pointer is the one of that allocation if and only if no padding was needed: `base+L` is aligned for `V`.
The level in its result is `L`, and thus never the level after the allocation. -/
theorem C26_get_unchecked_iff {t : Target} {b : MemBump} (hv : b.Valid t) {m m' : Mem} {V : Layout} (hV : V.ValidType t)
    {L : Nat} {a : Alloc} (hget : b.getAt t m V L = .ret (.ok a, m')) :
    ∃ a', b.getUnchecked t L = .ret a' ∧ (a'.ptr = a.ptr ↔ V.align ∣ b.addr + t.wordBytes + L) ∧ a'.ptr ≤ a.ptr ∧ a'.level = L ∧ a'.level < a.level := by
  have hap := hV.1.1.pos
  by_cases h0 : V.size = 0
  · rw [MemBump.getAt, tryAllocAt_zero t b m h0] at hget; cases hget
  by_cases hL : L ≤ b.cap
  · rw [MemBump.getAt, tryAllocAt_spec hv m (by omega) hap hL] at hget
    cases hp : (b.slab t).place V L with
    | none => rw [hp] at hget; cases hget
    | some a0 =>
      rw [hp] at hget
      simp only [atResult] at hget
      by_cases hl : b.level t m = L
      · rw [if_pos hl] at hget
        cases hget
        have hk := place_level hap hp
        have hbase : (b.slab t).base = b.addr + t.wordBytes := rfl
        have hlen : (b.slab t).len = b.cap := rfl
        rw [Slab.place_eq_some, hbase] at hp
        have hptr : a.ptr = alignUp V.align (b.addr + t.wordBytes + L) := hp.1
        have hle := le_alignUp hap (b.addr + t.wordBytes + L)
        refine ⟨⟨b.dataPtr t + L, L⟩, ?_, ?_, ?_, rfl, ?_⟩
        · unfold MemBump.getUnchecked
          have : L < b.capacity := by show L < b.cap; omega
          simp [Outcome.assert, this, bind, Outcome.bind, pure]
        · show b.dataPtr t + L = a.ptr ↔ _
          rw [MemBump.dataPtr_eq, hptr]
          constructor
          · intro h; rw [h]; exact dvd_alignUp _ _
          · intro h; rw [alignUp_of_dvd hap h]
        · show b.dataPtr t + L ≤ a.ptr
          rw [MemBump.dataPtr_eq, hptr]; exact hle
        · show L < a.level
          omega
      · rw [if_neg hl] at hget; cases hget
  · rw [MemBump.getAt, tryAllocAt_foreign t b m (by omega)] at hget; cases hget

/-- **C26** (missing: levels which need padding, for these it is false, see `C26_get_unchecked_iff`.) If `get_at::<V>(L)` succeeded in some memory, and `base+L` is aligned for `V`, then `get_unchecked::<V>(L)`
gives the same pointer, and it does not depend on or change the state. -/
theorem C26_get_unchecked_partial {t : Target} {b : MemBump} (hv : b.Valid t) {m m' : Mem} {V : Layout} (hV : V.ValidType t)
    {L : Nat} {a : Alloc} (hget : b.getAt t m V L = .ret (.ok a, m')) (hal : V.align ∣ b.addr + t.wordBytes + L) :
    ∃ a', b.getUnchecked t L = .ret a' ∧ a'.ptr = a.ptr := by
  obtain ⟨a', h1, h2, _⟩ := C26_get_unchecked_iff hv hV hget
  exact ⟨a', h1, h2.mpr hal⟩

/-- **C26 is violated**: after allocating one byte, `get_at::<u32>(1)` returns the aligned address 4108, but reacquiring it with `get_unchecked::<u32>(1)`
gives 4105, which is neither that allocation nor aligned. -/
theorem C26_unaligned_wrong_pointer :
    ∃ (b : MemBump) (m m' : Mem) (a a' : Alloc), b.Valid .w64 ∧ b.level .w64 m = 1 ∧ b.getAt .w64 m ⟨4, 4⟩ 1 = .ret (.ok a, m') ∧
      b.getUnchecked .w64 1 = .ret a' ∧ a'.ptr ≠ a.ptr ∧ ¬ 4 ∣ a'.ptr :=
  ⟨⟨4096, 32⟩, storeUsize .w64 (fun _ => 0) 4096 1, _, ⟨4108, 8⟩, ⟨4105, 1⟩, ⟨by decide, by decide, by decide, by decide⟩, by decide, rfl, rfl, by decide, by decide⟩

/-! ## C27 -/

theorem IsPow2.dvd_of_le {a b : Nat} (ha : IsPow2 a) (hb : IsPow2 b) (h : a ≤ b) : a ∣ b := by
  obtain ⟨i, rfl⟩ := ha
  obtain ⟨j, rfl⟩ := hb
  exact Nat.pow_dvd_pow 2 ((Nat.pow_le_pow_iff_right (by decide)).mp h)

/-- A `Bump<T>` placed somewhere: aligned, not wrapping. -/
structure Unsync.TBump.Valid (t : Target) (b : TBump) : Prop where
  type_ok : b.T.ValidType t
  addr_pos : 0 < b.addr
  aligned : (b.layout t).align ∣ b.addr
  no_wrap : b.addr + (b.layout t).size ≤ t.W

/-- **C27** For every type, also over-aligned ones: what the dereferenced `Bump<T>` treats as its memory is inside of the object. -/
theorem C27_data_inside_object {t : Target} {b : TBump} (hb : b.T.ValidType t) {debug : Bool} {mb : MemBump}
    (h : b.deref t debug = .ret mb) :
    mb.addr = b.addr ∧ mb.capacity = b.T.size ∧ Region.Within (MemBumpData t mb) ⟨b.addr, (b.layout t).size⟩ := by
  have hap := hb.1.1.pos
  have hmb : mb = ⟨b.addr, b.T.size⟩ := by
    simp only [TBump.deref] at h
    split at h <;> cases h
    rfl
  subst hmb
  have h1 := le_alignUp hap t.wordBytes
  have h2 := le_alignUp (a := max t.wordBytes b.T.align) (by omega) (alignUp b.T.align t.wordBytes + b.T.size)
  exact ⟨rfl, rfl, ⟨by simp only [MemBumpData]; omega, by simp only [MemBumpData, TBump.layout]; omega⟩⟩

/-- **C27** (missing: alignments larger than the word, see `C27_overaligned`.) Then dereferencing succeeds (also with debug assertions), the memory of the `MemBump` is exactly the field `_data`, aligned for `T`,
and a fresh bump provides room for a `T`, at the start of the field. -/
theorem C27_typed_bump_partial {t : Target} {b : TBump} (hb : b.Valid t) (hal : b.T.align ≤ t.wordBytes) (debug : Bool) :
    ∃ mb, b.deref t debug = .ret mb ∧ mb.Valid t ∧ MemBumpData t mb = b.dataField t ∧ b.T.align ∣ (b.dataField t).start ∧
      (b.layout t = mb.layoutForValue t) ∧
      ∀ m, mb.level t (b.init t m) = 0 ∧
        (0 < b.T.size → ∃ m', mb.get t (b.init t m) b.T = .ret (some ⟨(b.dataField t).start, b.T.size⟩, m')) := by
  have hap := hb.type_ok.1.1.pos
  have hpos := t.wordBytes_pos
  have hdv : b.T.align ∣ t.wordBytes := hb.type_ok.1.1.dvd_of_le (word_isPow2 t) hal
  have hmax : max t.wordBytes b.T.align = t.wordBytes := by omega
  have hlay : b.layout t = (⟨b.addr, b.T.size⟩ : MemBump).layoutForValue t := by
    simp only [TBump.layout, MemBump.layoutForValue, hmax, alignUp_of_dvd hap hdv]
  have hadv : t.wordBytes ∣ b.addr := by
    have := hb.aligned
    simp only [TBump.layout, hmax] at this
    exact this
  have hsize := le_alignUp hpos (t.wordBytes + b.T.size)
  have hnw := hb.no_wrap
  rw [hlay] at hnw
  simp only [MemBump.layoutForValue] at hnw
  have hcap : b.T.size ≤ t.isizeMax := by have := hb.type_ok.1.2; omega
  have hv : (⟨b.addr, b.T.size⟩ : MemBump).Valid t := ⟨hb.addr_pos, hadv, by simp only; omega, hcap⟩
  have hfield : b.dataField t = ⟨b.addr + t.wordBytes, b.T.size⟩ := by
    simp only [TBump.dataField, alignUp_of_dvd hap hdv]
  have hstart : b.T.align ∣ b.addr + t.wordBytes := Nat.dvd_add (Nat.dvd_trans hdv hadv) hdv
  have hW := Bump.isizeMax_lt t
  refine ⟨⟨b.addr, b.T.size⟩, ?_, hv, hfield.symm, by rw [hfield]; exact hstart, hlay, fun m => ?_⟩
  · simp only [TBump.deref, hlay, ne_eq, not_true_eq_false, and_false, if_false]; rfl
  · have hlev : (⟨b.addr, b.T.size⟩ : MemBump).level t (b.init t m) = 0 := loadUsize_storeUsize _ _ _ (by omega)
    refine ⟨hlev, fun h0 => ?_⟩
    rw [MemBump.get, tryAlloc_spec hv (by rw [hlev]; omega) h0 hap, hlev]
    have : Slab.place (MemBump.slab t ⟨b.addr, b.T.size⟩) b.T 0 = some ⟨b.addr + t.wordBytes, b.T.size⟩ := by
      rw [Slab.place_eq_some]
      simp only [MemBump.slab, Nat.add_zero, alignUp_of_dvd hap hstart]
      exact ⟨trivial, Nat.le_refl _, by omega⟩
    rw [this, hfield]
    exact ⟨_, rfl⟩

/-- **C27 is violated** for every type with an alignment larger than the word: dereferencing panics with debug assertions; -/
theorem C27_overaligned_debug_panics {t : Target} {b : TBump} (hal : t.wordBytes < b.T.align) : b.deref t true = .panic := by
  have : b.layout t ≠ (⟨b.addr, b.T.size⟩ : MemBump).layoutForValue t := by
    intro h
    have := congrArg Layout.align h
    simp only [TBump.layout, MemBump.layoutForValue] at this
    omega
  simp [TBump.deref, this]

/-- and without debug assertions a fresh `Bump<T>` can not provide memory for one non-zero-sized `T`. -/
theorem C27_overaligned_no_room {t : Target} {b : TBump} (hb : b.Valid t) (hal : t.wordBytes < b.T.align) (h0 : 0 < b.T.size) (m : Mem) :
    ∃ mb, b.deref t false = .ret mb ∧ mb.get t (b.init t m) b.T = .ret (none, b.init t m) := by
  have hap := hb.type_ok.1.1.pos
  have hpos := t.wordBytes_pos
  have hwd : t.wordBytes ∣ b.T.align := (word_isPow2 t).dvd_of_le hb.type_ok.1.1 (by omega)
  have hmax : max t.wordBytes b.T.align = b.T.align := by omega
  have haT : b.T.align ∣ b.addr := by
    have := hb.aligned
    simp only [TBump.layout, hmax] at this
    exact this
  have hup : alignUp b.T.align t.wordBytes = b.T.align := by
    apply Nat.le_antisymm
    · exact alignUp_le hap (by omega) (Nat.dvd_refl _)
    · obtain ⟨k, hk⟩ := dvd_alignUp b.T.align t.wordBytes
      have := le_alignUp hap t.wordBytes
      rw [hk] at this ⊢
      have : k ≠ 0 := by rintro rfl; omega
      exact Nat.le_mul_of_pos_right _ (by omega)
  have hsize := le_alignUp (a := b.T.align) hap (b.T.align + b.T.size)
  have hnw := hb.no_wrap
  simp only [TBump.layout, hmax, hup] at hnw
  have hcap : b.T.size ≤ t.isizeMax := by have := hb.type_ok.1.2; omega
  have hv : (⟨b.addr, b.T.size⟩ : MemBump).Valid t := ⟨hb.addr_pos, Nat.dvd_trans hwd haT, by simp only; omega, hcap⟩
  have hW := Bump.isizeMax_lt t
  refine ⟨⟨b.addr, b.T.size⟩, by simp [TBump.deref, pure], ?_⟩
  have hlev : (⟨b.addr, b.T.size⟩ : MemBump).level t (b.init t m) = 0 := loadUsize_storeUsize _ _ _ (by omega)
  rw [MemBump.get, tryAlloc_spec hv (by rw [hlev]; omega) h0 hap, hlev]
  have : Slab.place (MemBump.slab t ⟨b.addr, b.T.size⟩) b.T 0 = none := by
    rw [Slab.place_eq_none]
    simp only [MemBump.slab, Nat.add_zero]
    rw [alignUp_add_of_dvd hap haT, hup]
    omega
  rw [this]
  rfl

/-- **C27** The field `_data` is aligned for `T`, inside of the object and behind the counter; the dereferenced `MemBump` uses exactly these bytes if and only if the alignment of `T` is at most that of the word
(for larger ones it uses bytes starting before the field). -/
theorem C27_field_iff {t : Target} {b : TBump} (hb : b.Valid t) :
    b.T.align ∣ (b.dataField t).start ∧ Region.Within (b.dataField t) ⟨b.addr + t.wordBytes, (b.layout t).size - t.wordBytes⟩ ∧
    ∀ mb debug, b.deref t debug = .ret mb → (MemBumpData t mb = b.dataField t ↔ b.T.align ≤ t.wordBytes) := by
  have hap := hb.type_ok.1.1.pos
  have hpos := t.wordBytes_pos
  have h1 := le_alignUp hap t.wordBytes
  have h2 := le_alignUp (a := max t.wordBytes b.T.align) (by omega) (alignUp b.T.align t.wordBytes + b.T.size)
  refine ⟨?_, ?_, ?_⟩
  · have hal : max t.wordBytes b.T.align ∣ b.addr := hb.aligned
    have hdv : b.T.align ∣ max t.wordBytes b.T.align := by
      rcases Nat.le_total t.wordBytes b.T.align with h | h
      · rw [Nat.max_eq_right h]; exact Nat.dvd_refl _
      · rw [Nat.max_eq_left h]; exact hb.type_ok.1.1.dvd_of_le (word_isPow2 t) h
    exact Nat.dvd_add (Nat.dvd_trans hdv hal) (dvd_alignUp _ _)
  · simp only [Region.Within, TBump.dataField, TBump.layout]
    omega
  · intro mb debug h
    obtain ⟨ha, hc, -⟩ := C27_data_inside_object hb.type_ok h
    obtain ⟨a, c⟩ := mb
    simp only at ha hc
    subst ha hc
    simp only [MemBumpData, TBump.dataField, Region.mk.injEq, and_true]
    constructor
    · intro h
      refine Nat.le_of_not_lt fun hlt => ?_
      obtain ⟨k, hk⟩ := dvd_alignUp b.T.align t.wordBytes
      have hk0 : k ≠ 0 := by rintro rfl; omega
      have := Nat.le_mul_of_pos_right b.T.align (Nat.pos_of_ne_zero hk0)
      omega
    · intro h
      rw [alignUp_of_dvd hap (hb.type_ok.1.1.dvd_of_le (word_isPow2 t) h)]

example : TBump.Valid .w64 ⟨4096, ⟨24, 8⟩⟩ :=
  ⟨⟨⟨⟨3, rfl⟩, by decide⟩, by decide⟩, by decide, by decide, by decide⟩
example : TBump.Valid .w64 ⟨4096, ⟨32, 16⟩⟩ :=
  ⟨⟨⟨⟨4, rfl⟩, by decide⟩, by decide⟩, by decide, by decide, by decide⟩

/-! ## C29 -/

/-- `required` bytes are covered by the chosen entry of the table. -/
theorem words_some {required k : Nat} (h : Alloca.words required = some k) : required ≤ 8 * k := by
  unfold Alloca.words at h
  cases hf : Alloca.table.find? (fun e => decide (required ≤ e.1)) with
  | none => rw [hf] at h; cases h
  | some e =>
    rw [hf] at h
    cases h
    have h1 := List.find?_some hf
    have h2 := List.mem_of_find?_eq_some hf
    have h3 : ∀ e ∈ Alloca.table, e.1 = 8 * e.2 := by decide
    have := h3 e h2
    simp only [decide_eq_true_eq] at h1
    show required ≤ 8 * e.2
    omega

theorem words_iff {required : Nat} : (∃ k, Alloca.words required = some k) ↔ required ≤ 2 ^ 20 := by
  unfold Alloca.words
  constructor
  · rintro ⟨k, h⟩
    cases hf : Alloca.table.find? (fun e => decide (required ≤ e.1)) with
    | none => rw [hf] at h; cases h
    | some e =>
      have h1 := List.find?_some hf
      have h2 := List.mem_of_find?_eq_some hf
      have h3 : ∀ e ∈ Alloca.table, e.1 ≤ 2 ^ 20 := by decide
      have := h3 e h2
      simp only [decide_eq_true_eq] at h1
      omega
  · intro h
    cases hf : Alloca.table.find? (fun e => decide (required ≤ e.1)) with
    | none =>
      rw [List.find?_eq_none] at hf
      have := hf (2 ^ 20, 2 ^ 17) (by decide)
      simp only [decide_eq_true_eq] at this
      exact absurd h this
    | some e => exact ⟨e.2, rfl⟩

/-- The layout of the local variable of `run`, an object with a `usize` followed by `k` words of type `u64` (`repr(C)`). -/
def SlotObject (t : Target) (u64Align k : Nat) : Layout :=
  ⟨alignUp (max t.wordBytes u64Align) (alignUp u64Align t.wordBytes + 8 * k), max t.wordBytes u64Align⟩

/-- Assumptions about the compiler: `u64` has an alignment that is a power of two and divides its size; for all `k` up to `2^17` there is the type of such an object (otherwise the program does not compile),
and the frame has memory for it, `frame L` for the layout `L`, at an aligned address within the address space. -/
def FrameOk (t : Target) (u64Align : Nat) (frame : Layout → Nat) : Prop :=
  IsPow2 u64Align ∧ u64Align ∣ 8 ∧ ∀ k, 0 < k → k ≤ 2 ^ 17 → (SlotObject t u64Align k).ValidType t ∧
    0 < frame (SlotObject t u64Align k) ∧ (SlotObject t u64Align k).align ∣ frame (SlotObject t u64Align k) ∧ frame (SlotObject t u64Align k) + (SlotObject t u64Align k).size ≤ t.W

/-- The local variable is a valid object. -/
def SlotOk (t : Target) (u64Align : Nat) (frame : Layout → Nat) (k : Nat) : Prop :=
  (Alloca.slot t u64Align k frame).Valid t

/-- The chosen entry of the table is not more than `2^17`, and not more than needed but for rounding up to a power of two. -/
theorem words_bound {required k : Nat} (h : Alloca.words required = some k) : 0 < k ∧ k ≤ 2 ^ 17 ∧ (k = 1 ∨ 4 * k < required) := by
  unfold Alloca.words at h
  cases hf : Alloca.table.find? (fun e => decide (required ≤ e.1)) with
  | none => rw [hf] at h; cases h
  | some e =>
    rw [hf] at h
    cases h
    have hm := List.mem_of_find?_eq_some hf
    refine ⟨(by decide : ∀ e ∈ Alloca.table, 0 < e.2) e hm, (by decide : ∀ e ∈ Alloca.table, e.2 ≤ 2 ^ 17) e hm, ?_⟩
    rcases (by decide : ∀ e ∈ Alloca.table, e.2 = 1 ∨ ∃ e' ∈ Alloca.table, e'.1 = 4 * e.2 ∧ e'.1 < e.1) e hm with h1 | ⟨e', h1, h2, h3⟩
    · exact .inl h1
    · refine .inr ?_
      obtain ⟨-, as, bs, h4, h5⟩ := List.find?_eq_some_iff_append.mp hf
      have hp : Alloca.table.Pairwise fun a b => a.1 < b.1 := by decide
      rw [h4] at h1 hp
      rcases List.mem_append.mp h1 with h1 | h1
      · have := h5 e' h1
        simp only [Bool.not_eq_true', decide_eq_false_iff_not] at this
        show 4 * e.2 < required
        omega
      · rcases List.mem_cons.mp h1 with rfl | h1
        · omega
        · have := (List.pairwise_cons.mp (List.pairwise_append.mp hp).2.1).1 e' h1
          omega

theorem FrameOk.slot {t : Target} {u64Align : Nat} {frame : Layout → Nat} (hf : FrameOk t u64Align frame) {required k : Nat} (hk : Alloca.words required = some k) : SlotOk t u64Align frame k := by
  obtain ⟨h0, h1, -⟩ := words_bound hk
  obtain ⟨h2, h3, h4⟩ := hf
  obtain ⟨⟨⟨-, h5⟩, -⟩, h6, h7, h8⟩ := h4 k h0 h1
  refine ⟨⟨⟨h2, ?_⟩, Nat.dvd_trans h3 (Nat.dvd_mul_right _ _)⟩, h6, h7, h8⟩
  have hp := h2.pos
  have a1 := le_alignUp hp t.wordBytes
  have a2 := le_alignUp (Nat.lt_of_lt_of_le hp (Nat.le_max_right t.wordBytes u64Align)) (alignUp u64Align t.wordBytes + 8 * k)
  have a3 := Nat.le_max_right t.wordBytes u64Align
  simp only [SlotObject] at h5
  show 8 * k + (u64Align - 1) ≤ _
  omega

theorem mul_valid {T : Layout} {t : Target} (hT : T.ValidType t) (h0 : 0 < T.size) : T.align ≤ T.size :=
  Nat.le_of_dvd h0 hT.2

theorem runWith_spec {t : Target} {debug : Bool} {u64Align : Nat} {frame : Layout → Nat} {m : Mem} {a : Alloca} {k : Nat}
    (hT : a.T.ValidType t) (h0 : 0 < a.T.size) (hn : 0 < a.len) (hk : a.T.size * (a.len + 1) ≤ 8 * k)
    (hdeb : debug = true → u64Align ≤ t.wordBytes) (hf : SlotOk t u64Align frame k) :
    ∃ p, a.runWith t debug u64Align frame m k = .ret (p, a.len) ∧ a.T.align ∣ p ∧
      Region.Within ⟨p, a.T.size * a.len⟩ ⟨(Alloca.slot t u64Align k frame).addr, ((Alloca.slot t u64Align k frame).layout t).size⟩ := by
  have hap := hT.1.1.pos
  have hpos := t.wordBytes_pos
  have hW := Bump.isizeMax_lt t
  have halT := mul_valid hT h0
  generalize hsl : Alloca.slot t u64Align k frame = sl at *
  have hslT : sl.T = ⟨8 * k, u64Align⟩ := by rw [← hsl]; rfl
  unfold SlotOk at hf
  rw [hsl] at hf
  obtain ⟨mb, hmb⟩ : ∃ mb, sl.deref t debug = .ret mb := by
    cases debug with
    | false => exact ⟨_, by simp [TBump.deref, pure]; rfl⟩
    | true =>
      obtain ⟨mb, h, _⟩ := C27_typed_bump_partial hf (by rw [hslT]; exact hdeb rfl) true
      exact ⟨mb, h⟩
  obtain ⟨e1, e2, e3⟩ := C27_data_inside_object hf.type_ok hmb
  have e2' : mb.cap = 8 * k := by rw [show mb.cap = mb.capacity from rfl, e2, hslT]
  simp only [Region.Within, MemBumpData] at e3
  have hnw := hf.no_wrap
  have hcap : 8 * k ≤ t.isizeMax := by have := hf.type_ok.1.2; rw [hslT] at this; simp only at this; omega
  have halign : t.wordBytes ∣ sl.addr := by
    refine Nat.dvd_trans ?_ hf.aligned
    simp only [TBump.layout]
    apply (word_isPow2 t).dvd_of_le
    · by_cases h : t.wordBytes ≤ sl.T.align
      · rw [Nat.max_eq_right h]; exact hf.type_ok.1.1
      · rw [Nat.max_eq_left (by omega)]; exact word_isPow2 t
    · omega
  have hv : mb.Valid t := ⟨by rw [e1]; exact hf.addr_pos, by rw [e1]; exact halign, by omega, by omega⟩
  have hlev : mb.level t (sl.init t m) = 0 := by
    unfold MemBump.level TBump.init
    rw [e1]
    exact loadUsize_storeUsize _ _ _ (by omega)
  rw [Nat.mul_add, Nat.mul_one] at hk
  have hbig : ¬ t.isizeMax < a.T.size * a.len + (a.T.align - 1) := by omega
  have hmul : 0 < a.T.size * a.len := Nat.mul_pos h0 hn
  have hplace : (mb.slab t).place ⟨a.T.size * a.len, a.T.align⟩ 0 =
      some ⟨alignUp a.T.align (mb.addr + t.wordBytes), alignUp a.T.align (mb.addr + t.wordBytes) + a.T.size * a.len - (mb.addr + t.wordBytes)⟩ := by
    rw [Slab.place_eq_some]
    have := alignUp_lt hap (mb.addr + t.wordBytes)
    simp only [MemBump.slab, Nat.add_zero]
    exact ⟨trivial, by omega, trivial⟩
  have hlt := alignUp_lt hap (mb.addr + t.wordBytes)
  have hge := le_alignUp hap (mb.addr + t.wordBytes)
  refine ⟨alignUp a.T.align (mb.addr + t.wordBytes), ?_, dvd_alignUp _ _, ⟨by simp only; omega, by simp only; omega⟩⟩
  simp only [Alloca.runWith, hsl, hmb, bind, Outcome.bind, MemBump.bumpArray, layoutArray_eq hap, hbig, if_false, MemBump.alloc]
  rw [tryAlloc_spec hv (by omega) (l := ⟨a.T.size * a.len, a.T.align⟩) hmul hap, hlev, hplace]
  rfl

/-- **C29** (missing: empty slices and zero-sized elements, see `C29_empty_panics`; in builds with debug assertions, targets on which `u64` is aligned to more than
a word, see `C29_debug_panics`.) If the padded size is at most 2^20 bytes, `new` succeeds and `run` calls the closure with a slice of exactly `len` elements, aligned, within the local variable of the frame, which is less than twice as large as the padded size (or has one word). -/
theorem C29_alloca_partial {t : Target} {debug : Bool} {u64Align : Nat} {frame : Layout → Nat} (m : Mem) {T : Layout} {len : Nat}
    (hT : T.ValidType t) (h0 : 0 < T.size) (hn : 0 < len)
    (hfits : T.size * (len + 1) + (T.align - 1) ≤ t.isizeMax) (hsmall : T.size * (len + 1) ≤ 2 ^ 20)
    (hdeb : debug = true → u64Align ≤ t.wordBytes)
    (hf : FrameOk t u64Align frame) :
    ∃ a p k, Alloca.new t debug T len = .ret (some a) ∧ a.run t debug u64Align frame m = .ret (p, len) ∧ T.align ∣ p ∧
      (k = 1 ∨ 4 * k < T.size * (len + 1)) ∧ Region.Within ⟨p, T.size * len⟩ ⟨frame (SlotObject t u64Align k), (SlotObject t u64Align k).size⟩ := by
  have hap := hT.1.1.pos
  have hW := Bump.isizeMax_lt t
  have hlen : len + 1 < t.W := by
    have : 1 * (len + 1) ≤ T.size * (len + 1) := Nat.mul_le_mul_right _ h0
    omega
  obtain ⟨k, hk⟩ := words_iff.mpr hsmall
  have hbig : ¬ t.isizeMax < T.size * (len + 1) + (T.align - 1) := by omega
  obtain ⟨p, hp, h1, h2⟩ := runWith_spec (a := ⟨T, len⟩) (m := m) hT h0 hn (words_some hk) hdeb (hf.slot hk)
  refine ⟨⟨T, len⟩, p, k, ?_, ?_, h1, (words_bound hk).2.2, h2⟩
  · simp only [Alloca.new, Alloca.plusOne, hlen, if_true, bind, Outcome.bind, pure, layoutArray_eq hap, hbig, if_false]
  · simp only [Alloca.run, Alloca.paddedLayout, Alloca.plusOne, hlen, if_true, bind, Outcome.bind, pure, layoutArray_eq hap, hbig, if_false,
      Outcome.unwrap, hk]
    exact hp

/-- **C29** Safety for all lengths (also with overflow of `len + 1` in builds without overflow checks): whenever the closure runs, it gets exactly `len` elements, aligned, inside of the local variable. -/
theorem C29_closure_slice_safe {t : Target} {debug : Bool} {u64Align : Nat} {frame : Layout → Nat} {m : Mem} {T : Layout} {len : Nat}
    (hT : T.ValidType t) (hf : FrameOk t u64Align frame)
    {a : Alloca} {p n : Nat} (hnew : Alloca.new t debug T len = .ret (some a)) (hrun : a.run t debug u64Align frame m = .ret (p, n)) :
    n = len ∧ T.align ∣ p ∧ ∃ k, k ≤ 2 ^ 17 ∧ Region.Within ⟨p, T.size * len⟩ ⟨frame (SlotObject t u64Align k), (SlotObject t u64Align k).size⟩ := by
  have hap := hT.1.1.pos
  have hW := Bump.isizeMax_lt t
  have ha : a = ⟨T, len⟩ := by
    simp only [Alloca.new, bind, Outcome.bind] at hnew
    split at hnew
    · split at hnew <;> cases hnew; rfl
    · cases hnew
    · cases hnew
  subst ha
  -- the closure only runs if `bump_array` succeeded
  simp only [Alloca.run, bind, Outcome.bind] at hrun
  split at hrun
  case h_2 => cases hrun
  case h_3 => cases hrun
  case h_1 padded hpad =>
  cases hk : Alloca.words padded.size with
  | none => rw [hk] at hrun; cases hrun
  | some k =>
    rw [hk] at hrun
    have hfk := hf.slot hk
    simp only [Alloca.runWith, bind, Outcome.bind] at hrun
    generalize hsl : Alloca.slot t u64Align k frame = sl at *
    have hslT : sl.T = ⟨8 * k, u64Align⟩ := by rw [← hsl]; rfl
    unfold SlotOk at hfk
    rw [hsl] at hfk
    cases hd : sl.deref t debug with
    | panic => rw [hd] at hrun; cases hrun
    | ub => rw [hd] at hrun; cases hrun
    | ret mb =>
      rw [hd] at hrun
      simp only at hrun
      obtain ⟨e1, e2, e3⟩ := C27_data_inside_object hfk.type_ok hd
      have e2' : mb.cap = 8 * k := by rw [show mb.cap = mb.capacity from rfl, e2, hslT]
      simp only [Region.Within, MemBumpData] at e3
      have hnw := hfk.no_wrap
      have hcap : 8 * k ≤ t.isizeMax := by have := hfk.type_ok.1.2; rw [hslT] at this; simp only at this; omega
      have halign : t.wordBytes ∣ sl.addr := by
        refine Nat.dvd_trans ?_ hfk.aligned
        simp only [TBump.layout]
        apply (word_isPow2 t).dvd_of_le
        · by_cases h : t.wordBytes ≤ sl.T.align
          · rw [Nat.max_eq_right h]; exact hfk.type_ok.1.1
          · rw [Nat.max_eq_left (by omega)]; exact word_isPow2 t
        · omega
      have hv : mb.Valid t := ⟨by rw [e1]; exact hfk.addr_pos, by rw [e1]; exact halign, by omega, by omega⟩
      have hlev : mb.level t (sl.init t m) = 0 := by
        unfold MemBump.level TBump.init
        rw [e1]
        exact loadUsize_storeUsize _ _ _ (by omega)
      simp only [MemBump.bumpArray, layoutArray_eq hap] at hrun
      by_cases hbig : t.isizeMax < T.size * len + (T.align - 1)
      · rw [if_pos hbig] at hrun; cases hrun
      · rw [if_neg hbig] at hrun
        simp only [MemBump.alloc] at hrun
        by_cases hz : T.size * len = 0
        · rw [tryAlloc_zero t mb _ (l := ⟨T.size * len, T.align⟩) hz] at hrun; cases hrun
        · rw [tryAlloc_spec hv (by omega) (l := ⟨T.size * len, T.align⟩) (by simp only; omega) hap, hlev] at hrun
          cases hp : (mb.slab t).place ⟨T.size * len, T.align⟩ 0 with
          | none => rw [hp] at hrun; cases hrun
          | some al =>
            rw [hp] at hrun
            simp only [allocResult, bind, Outcome.bind, pure, Option.map] at hrun
            cases hrun
            obtain ⟨k1, k2, k3, k4, k5⟩ := place_level (l := ⟨T.size * len, T.align⟩) hap hp
            have hb : (mb.slab t).base = mb.addr + t.wordBytes := rfl
            have hl : (mb.slab t).len = mb.cap := rfl
            refine ⟨rfl, k5, k, (words_bound hk).2.1, ?_⟩
            have hob : frame (SlotObject t u64Align k) = sl.addr ∧ SlotObject t u64Align k = sl.layout t := by rw [← hsl]; exact ⟨rfl, rfl⟩
            rw [hob.1, hob.2]
            simp only at k4
            exact ⟨by simp only; omega, by simp only; omega⟩

/-- **C29** For lengths whose padded layout does not exist, `new` returns `None`; if it is too large for the table, `run` panics (before the closure is called). -/
theorem C29_too_large {t : Target} {debug : Bool} {u64Align : Nat} {frame : Layout → Nat} {m : Mem} {T : Layout} {len : Nat}
    (hT : T.ValidType t) (hlen : len + 1 < t.W) :
    (t.isizeMax < T.size * (len + 1) + (T.align - 1) → Alloca.new t debug T len = .ret none) ∧
    (T.size * (len + 1) + (T.align - 1) ≤ t.isizeMax → 2 ^ 20 < T.size * (len + 1) →
      ∃ a, Alloca.new t debug T len = .ret (some a) ∧ a.run t debug u64Align frame m = .panic) := by
  have hap := hT.1.1.pos
  constructor
  · intro h
    simp only [Alloca.new, Alloca.plusOne, hlen, if_true, bind, Outcome.bind, pure, layoutArray_eq hap, h]
  · intro h hbig
    have hb : ¬ t.isizeMax < T.size * (len + 1) + (T.align - 1) := by omega
    have hw : Alloca.words (T.size * (len + 1)) = none := by
      cases hw : Alloca.words (T.size * (len + 1)) with
      | none => rfl
      | some k => have := words_iff.mp ⟨k, hw⟩; omega
    refine ⟨⟨T, len⟩, ?_, ?_⟩
    · simp only [Alloca.new, Alloca.plusOne, hlen, if_true, bind, Outcome.bind, pure, layoutArray_eq hap, hb, if_false]
    · simp only [Alloca.run, Alloca.paddedLayout, Alloca.plusOne, hlen, if_true, bind, Outcome.bind, pure, layoutArray_eq hap, hb, if_false,
        Outcome.unwrap, hw]

/-- **C29 is violated** for empty slices and zero-sized elements: `run` panics although nothing is needed. -/
theorem C29_empty_panics {t : Target} {debug : Bool} {u64Align : Nat} {frame : Layout → Nat} {m : Mem} {T : Layout} {len : Nat}
    (hT : T.ValidType t) (h : T.size = 0 ∨ len = 0) : (Alloca.run t debug u64Align frame m ⟨T, len⟩) = .panic := by
  have hap := hT.1.1.pos
  have hz : T.size * len = 0 := by rcases h with h | h <;> simp [h]
  have hb : ¬ t.isizeMax < 0 + (T.align - 1) := by have := hT.1.2; omega
  simp only [Alloca.run, bind, Outcome.bind]
  split
  · rename_i padded hpad
    cases Alloca.words padded.size with
    | none => rfl
    | some k =>
      simp only [Alloca.runWith, bind, Outcome.bind]
      cases hd : (Alloca.slot t u64Align k frame).deref t debug with
      | panic => rfl
      | ub => simp only [TBump.deref] at hd; split at hd <;> cases hd
      | ret mb =>
        simp only [MemBump.bumpArray, layoutArray_eq hap, hz, hb, if_false, MemBump.alloc, tryAlloc_zero t mb _ (l := ⟨0, T.align⟩) rfl,
          bind, Outcome.bind]
  · rfl
  · rename_i h
    simp only [Alloca.paddedLayout, Alloca.plusOne, bind, Outcome.bind, Outcome.unwrap] at h
    split at h
    · split at h <;> cases h
    · cases h
    · rename_i h2
      split at h2
      · cases h2
      · split at h2 <;> cases h2

/-- **C29 is violated** in builds with debug assertions on targets where `u64` is aligned to more than a word (some 32-bit targets): `run` panics for every length. -/
theorem C29_debug_panics {t : Target} {u64Align : Nat} (hal : t.wordBytes < u64Align) {frame : Layout → Nat} {m : Mem} {a : Alloca} {k : Nat} :
    a.runWith t true u64Align frame m k = .panic := by
  have : (Alloca.slot t u64Align k frame).deref t true = .panic := C27_overaligned_debug_panics (by exact hal)
  simp only [Alloca.runWith, this, bind, Outcome.bind]

/-- Five `u32` in the frame at 4096. -/
example : Alloca.run .w64 true 8 (fun _ => 4096) (fun _ => 9) ⟨⟨4, 4⟩, 5⟩ = .ret (4104, 5) := by rfl
/-- All variables at 4096: 2^20 bytes fit below 2^64. -/
theorem frameOk_const : FrameOk .w64 8 (fun _ => 4096) := by
  refine ⟨⟨3, rfl⟩, ⟨1, rfl⟩, fun k h0 h1 => ⟨⟨⟨⟨3, rfl⟩, ?_⟩, dvd_alignUp _ _⟩, by show 0 < 4096; decide, by show 8 ∣ 4096; decide, ?_⟩⟩ <;>
    simp [SlotObject, Target.wordBytes, Target.isizeMax, Target.W, alignUp] <;> omega

end Verif
