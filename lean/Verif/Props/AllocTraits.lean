import Verif.Proofs.Basic
import Verif.Spec.LocalAllocContract
/-! # C61, C62: the crate `alloc-traits` -/
namespace Verif
open AllocTraits

theorem copyNonoverlapping_ret {m : Mem} {src dst n : Nat} (h : n = 0 ∨ src + n ≤ dst ∨ dst + n ≤ src) :
    copyNonoverlapping m src dst n = .ret (writeBytes m dst (readBytes m src n)) := if_pos h

theorem Kept.trans {L : List Block} {a b c : Mem} (h1 : Kept L a b) (h2 : Kept L b c) : Kept L a c :=
  fun d hd x hx => (h2 d hd x hx).trans (h1 d hd x hx)

theorem Kept.sub {L L' : List Block} {a b : Mem} (h : Kept L a b) (hs : ∀ d ∈ L', d ∈ L) : Kept L' a b :=
  fun d hd x hx => h d (hs d hd) x hx

/-- Writing inside of one block keeps disjoint ones. -/
theorem kept_writeBytes {L : List Block} {m : Mem} {p : Nat} {bs : List Byte} {r : Region}
    (hin : r.start ≤ p ∧ p + bs.length ≤ r.start + r.size) (hd : ∀ c ∈ L, r.Disjoint c.region) :
    Kept L m (writeBytes m p bs) := by
  intro b hb x hx
  apply writeBytes_of_not_mem
  intro hw
  exact hd b hb x ⟨by unfold Region.Has; omega, hx⟩

theorem readBytes_kept {L : List Block} {m m' : Mem} (h : Kept L m m') {b : Block} (hb : b ∈ L) {n : Nat}
    (hn : n ≤ b.layout.size) : readBytes m' b.ptr n = readBytes m b.ptr n := by
  apply readBytes_congr
  intro x h1 h2
  exact h b hb x ⟨h1, by show x < b.ptr + b.layout.size; omega⟩

theorem disjoint_pos {a b : Region} (h : a.Disjoint b) (ha : 0 < a.size) (hb : 0 < b.size) :
    a.start + a.size ≤ b.start ∨ b.start + b.size ≤ a.start := by
  rw [Region.disjoint_iff] at h
  omega

/-- **C61** The default `realloc`, for every allocator fulfilling the contract of `alloc`/`dealloc`: it returns; on failure the
old block is still live and no live block changed; on success the new block serves the new layout, starts with
the bytes of the old one, is disjoint from all live blocks, which (other than the old one) are unchanged, and
replaces the old one in the set of live blocks. -/
theorem C61_default_realloc {σ : Type} {t : Target} {A : LocalAlloc σ} {Inv : σ → Mem → List Block → Prop}
    (hA : Contract t A Inv) {s : σ} {m : Mem} {live : List Block} (hinv : Inv s m live)
    {old : Block} (hold : old ∈ live) (hpos : 0 < old.layout.size) {l : Layout} (hl : l.Valid t) (h0 : 0 < l.size) :
    ∃ r s' m', defaultRealloc A s m old l = .ret (r, s', m') ∧
      match r with
      | none => Inv s' m' live ∧ Kept live m m'
      | some b => b.Serves l ∧ (∀ c ∈ live, b.region.Disjoint c.region) ∧
          readBytes m' b.ptr (min l.size old.layout.size) = readBytes m old.ptr (min l.size old.layout.size) ∧
          Kept (live.erase old) m m' ∧ Inv s' m' (b :: live.erase old) := by
  obtain ⟨r, s1, m1, h1, hk1, hr⟩ := hA.alloc hinv hl h0
  cases r with
  | none =>
    refine ⟨none, s1, m1, ?_, hr, hk1⟩
    simp [defaultRealloc, h1, bind, Outcome.bind, pure]
  | some b =>
    obtain ⟨hserve, hdis, hinv1⟩ := hr
    have hdo := hdis old hold
    have hbpos : 0 < b.layout.size := by have := hserve.2.2; omega
    have hsep := disjoint_pos hdo (show 0 < b.region.size from hbpos) (show 0 < old.region.size from hpos)
    simp only [Block.region] at hsep
    have hcopy := copyNonoverlapping_ret (m := m1) (src := old.ptr) (dst := b.ptr) (n := min l.size old.layout.size) (by
      have := hserve.2.2; omega)
    let m2 := writeBytes m1 b.ptr (readBytes m1 old.ptr (min l.size old.layout.size))
    have hlen : (readBytes m1 old.ptr (min l.size old.layout.size)).length = min l.size old.layout.size := length_readBytes _ _ _
    have hin : b.region.start ≤ b.ptr ∧ b.ptr + (readBytes m1 old.ptr (min l.size old.layout.size)).length ≤ b.region.start + b.region.size := by
      rw [hlen]; have := hserve.2.2; simp only [Block.region]; omega
    have hk2 : Kept live m1 m2 := kept_writeBytes hin hdis
    have hinv2 : Inv s1 m2 (b :: live) := by
      refine hA.frame hinv1 fun x hx => writeBytes_of_not_mem fun hw => ?_
      refine hx b (by simp) ?_
      unfold Region.Has; omega
    have hne : b ≠ old := by
      rintro rfl
      exact hdo b.ptr ⟨⟨Nat.le_refl _, by show b.ptr < b.ptr + b.layout.size; omega⟩,
        ⟨Nat.le_refl _, by show b.ptr < b.ptr + b.layout.size; omega⟩⟩
    obtain ⟨s3, m3, h3, hk3, hinv3⟩ := hA.dealloc hinv2 (b := old) (by simp [hold])
    have herase : (b :: live).erase old = b :: live.erase old := by
      rw [List.erase_cons_tail (by simpa using hne)]
    rw [herase] at hk3 hinv3
    refine ⟨some b, s3, m3, ?_, hserve, hdis, ?_, ?_, hinv3⟩
    · simp only [defaultRealloc, h1, bind, Outcome.bind, hcopy, pure]
      rw [show writeBytes m1 b.ptr (readBytes m1 old.ptr (min l.size old.layout.size)) = m2 from rfl, h3]
    · rw [readBytes_kept hk3 (by simp) (by have := hserve.2.2; omega)]
      have : readBytes m2 b.ptr (min l.size old.layout.size) = readBytes m1 old.ptr (min l.size old.layout.size) := by
        have := readBytes_writeBytes_self m1 b.ptr (readBytes m1 old.ptr (min l.size old.layout.size))
        rw [hlen] at this; exact this
      rw [this, readBytes_kept hk1 hold (by omega)]
    · have hsub : ∀ d ∈ live.erase old, d ∈ live := fun d hd => List.mem_of_mem_erase hd
      exact ((hk1.sub hsub).trans (hk2.sub hsub)).trans (hk3.sub (fun d hd => by simp [hd]))

/-- **C61** The default `alloc_zeroed`: exactly like `alloc`, but all bytes of the returned block are zero. -/
theorem C61_default_alloc_zeroed {σ : Type} {t : Target} {A : LocalAlloc σ} {Inv : σ → Mem → List Block → Prop}
    (hA : Contract t A Inv) {s : σ} {m : Mem} {live : List Block} (hinv : Inv s m live)
    {l : Layout} (hl : l.Valid t) (h0 : 0 < l.size) :
    ∃ r s' m', defaultAllocZeroed A s m l = .ret (r, s', m') ∧ Kept live m m' ∧
      match r with
      | none => Inv s' m' live
      | some b => b.Serves l ∧ (∀ c ∈ live, b.region.Disjoint c.region) ∧ Inv s' m' (b :: live) ∧
          (∀ x, b.region.Has x → m' x = 0) ∧
          -- apart from what `alloc` itself does, only the block is written
          ∃ m₁, A.alloc s m l = .ret (some b, s', m₁) ∧ OnlyIn b.region m₁ m' := by
  obtain ⟨r, s1, m1, h1, hk1, hr⟩ := hA.alloc hinv hl h0
  cases r with
  | none =>
    refine ⟨none, s1, m1, ?_, hk1, hr⟩
    simp [defaultAllocZeroed, h1, bind, Outcome.bind, pure]
  | some b =>
    obtain ⟨hserve, hdis, hinv1⟩ := hr
    refine ⟨some b, s1, writeZeros m1 b.ptr b.layout.size, ?_, ?_, hserve, hdis, ?_, ?_, m1, h1, ?_⟩
    · simp [defaultAllocZeroed, h1, bind, Outcome.bind, pure]
    · exact hk1.trans (kept_writeBytes (r := b.region) (by simp [Block.region]) hdis)
    · refine hA.frame hinv1 fun x hx => writeBytes_of_not_mem fun hw => ?_
      rw [List.length_replicate] at hw
      exact hx b (by simp) hw
    · intro x hx
      obtain ⟨h2, h3⟩ := hx
      obtain ⟨i, rfl⟩ : ∃ i, x = b.ptr + i := ⟨x - b.ptr, by simp only [Block.region] at h2; omega⟩
      unfold writeZeros
      rw [writeBytes_of_mem (by rw [List.length_replicate]; simp only [Block.region] at h3; omega), List.getElem_replicate]
    · intro x hx
      apply writeBytes_of_not_mem
      rw [List.length_replicate]
      exact hx

/-! ## C62 -/

/-- **C62** `from_layout`/`new` succeed exactly for non-empty layouts; the result has the same size and
alignment, `size()` does not panic, and converting back gives the layout. -/
theorem C62_nonZeroLayout (l : Layout) :
    (NonZeroLayout.fromLayout l = none ↔ l.size = 0) ∧
    NonZeroLayout.new l = NonZeroLayout.fromLayout l ∧
    ∀ z, NonZeroLayout.fromLayout l = some z →
      z.size = .ret l.size ∧ z.align = l.align ∧ z.toLayout = l ∧ NonZeroLayout.fromLayout z.toLayout = some z := by
  unfold NonZeroLayout.fromLayout
  refine ⟨by split <;> simp_all, rfl, fun z hz => ?_⟩
  split at hz
  · cases hz
  · rename_i h
    cases hz
    simp [NonZeroLayout.size, NonZeroLayout.align, NonZeroLayout.toLayout, h, Outcome.unwrap]

example : NonZeroLayout.fromLayout ⟨0, 8⟩ = none ∧ (NonZeroLayout.fromLayout ⟨8, 8⟩).isSome := by decide

end Verif
