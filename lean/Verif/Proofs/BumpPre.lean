import Verif.Proofs.Basic
import Verif.Model.Bump
/-! The local computation of `try_alloc_at` agrees with `Slab.place`. -/
namespace Verif

theorem Slab.place_eq_some {s : Slab} {l : Layout} {c : Nat} {a : Alloc} :
    s.place l c = some a ↔ a.ptr = alignUp l.align (s.base + c) ∧ a.ptr + l.size ≤ s.base + s.len ∧
      a.level = a.ptr + l.size - s.base := by
  unfold Slab.place
  cases a
  simp only
  split <;> simp_all
  · constructor <;> rintro ⟨rfl, h⟩ <;> simp_all
  · rintro rfl h; omega

theorem Slab.place_eq_none {s : Slab} {l : Layout} {c : Nat} :
    s.place l c = none ↔ s.base + s.len < alignUp l.align (s.base + c) + l.size := by
  unfold Slab.place
  simp only
  split <;> simp <;> omega

theorem Slab.place_none_iff_not_fits {s : Slab} {l : Layout} {c : Nat} (ha : 0 < l.align) :
    s.place l c = none ↔ ¬ s.Fits l c := by
  rw [Slab.place_eq_none]
  constructor
  · rintro h ⟨p, h1, h2, h3⟩
    have := alignUp_le ha h1 h2
    omega
  · intro h
    apply Nat.lt_of_not_le
    intro h2
    exact h ⟨_, le_alignUp ha _, dvd_alignUp _ _, h2⟩

theorem Slab.place_none_mono {s : Slab} {l : Layout} {c d : Nat} (ha : 0 < l.align)
    (hcd : c ≤ d) (h : s.place l c = none) : s.place l d = none := by
  rw [Slab.place_eq_none] at *
  have := alignUp_mono (a := l.align) ha (x := s.base + c) (y := s.base + d) (by omega)
  omega

namespace Bump

theorem tryAllocAtPre_zero (e : Env) {l : Layout} (h : l.size = 0) (g : Nat) :
    tryAllocAtPre e l g = .panic := by
  simp [tryAllocAtPre, Outcome.assert, h, bind, Outcome.bind]

theorem tryAllocAtPre_foreign (e : Env) {l : Layout} {g : Nat} (h : e.len < g) :
    tryAllocAtPre e l g = .panic := by
  have : ¬ g ≤ e.len := by omega
  by_cases h0 : l.size > 0 <;>
  simp [tryAllocAtPre, Outcome.assert, h0, this, bind, Outcome.bind]

theorem isizeMax_lt (t : Target) : t.isizeMax < t.W := by
  cases t <;> decide

theorem tryAllocAtPre_spec {e : Env} (hv : e.Valid) {l : Layout} (hs : 0 < l.size) (ha : 0 < l.align)
    {g : Nat} (hg : g ≤ e.len) :
    tryAllocAtPre e l g =
      match e.slab.place l g with
      | none => .ret none
      | some a => .ret (some (a.ptr - e.base, a.level)) := by
  have hW := isizeMax_lt e.target
  have hlen := hv.len_le
  have hnw := hv.no_wrap
  have h1 : alignUp l.align (e.base + g) = e.base + g + alignOffsetU8 (e.base + g) l.align := by
    rw [alignUp_eq_add_mod ha]; rfl
  simp only [tryAllocAtPre, Outcome.assert, hs, hg, bind, Outcome.bind, Usize.checkedSub, Outcome.unwrap,
    if_true, gt_iff_lt, Usize.saturatingSub]
  by_cases hw : e.base + g = e.target.W
  · -- address wraps: only possible at the very end of the slab
    have hz : e.len - g = 0 := by omega
    have hp : e.slab.place l g = none := by
      rw [Slab.place_eq_none]
      have := le_alignUp ha (e.base + g)
      show e.base + e.len < alignUp l.align (e.base + g) + l.size
      omega
    rw [hp]
    have : e.len - g - alignOffsetU8 (Usize.wrappingAdd e.target e.base g) l.align < l.size := by omega
    simp only [this, if_true]
    rfl
  · have hwrap : Usize.wrappingAdd e.target e.base g = e.base + g :=
      Nat.mod_eq_of_lt (show e.base + g < e.target.W by omega)
    simp only [hwrap]
    generalize ho : alignOffsetU8 (e.base + g) l.align = o at *
    by_cases hex : e.len - g - o < l.size
    · have hp : e.slab.place l g = none := by
        rw [Slab.place_eq_none]
        show e.base + e.len < alignUp l.align (e.base + g) + l.size
        omega
      rw [hp]
      simp only [hex, if_true]
      rfl
    · have hp : e.slab.place l g = some ⟨e.base + (g + o), g + o + l.size⟩ := by
        rw [Slab.place_eq_some]
        show e.base + (g + o) = alignUp l.align (e.base + g) ∧ e.base + (g + o) + l.size ≤ e.base + e.len ∧
          g + o + l.size = e.base + (g + o) + l.size - e.base
        omega
      rw [hp]
      have t1 : o < e.len - g := by omega
      have t2 : g + o < e.target.W := by omega
      have t3 : g + o + l.size < e.target.W := by omega
      have t4 : g + o + l.size ≤ e.len := by omega
      have t5 : g + o < e.len := by omega
      have t6 : g ≤ g + o + l.size := by omega
      simp only [hex, if_false, t1, if_true, Usize.checkedAdd, t2, t3, t4, t5, bumpAsserts, Outcome.assert,
        t6, bind, Outcome.bind]
      simp only [pure, Nat.add_sub_cancel_left]

/-- Everything that the invariant needs to know about a computed attempt. -/
theorem tryAllocAtPre_some {e : Env} (hv : e.Valid) {l : Layout} (ha : 0 < l.align)
    {g at' new : Nat} (h : tryAllocAtPre e l g = .ret (some (at', new))) :
    0 < l.size ∧ g ≤ e.len ∧ e.slab.place l g = some ⟨e.base + at', new⟩ ∧ g ≤ at' ∧ new = at' + l.size ∧
      new ≤ e.len := by
  by_cases h0 : l.size = 0
  · rw [tryAllocAtPre_zero e h0] at h; cases h
  by_cases hg : g ≤ e.len
  · rw [tryAllocAtPre_spec hv (by omega) ha hg] at h
    have hpos := hv.base_pos
    split at h
    · cases h
    · rename_i a hp
      have hp' := hp
      rw [Slab.place_eq_some] at hp'
      injection h with h
      injection h with h
      injection h with h1 h2
      obtain ⟨q1, q2, q3⟩ := hp'
      have := le_alignUp ha (e.base + g)
      have q1' : a.ptr = alignUp l.align (e.base + g) := q1
      have q2' : a.ptr + l.size ≤ e.base + e.len := q2
      have q3' : a.level = a.ptr + l.size - e.base := q3
      refine ⟨by omega, hg, ?_, by omega, by omega, by omega⟩
      rw [hp]
      have e1 : a.ptr = e.base + at' := by omega
      cases a
      simp_all
  · rw [tryAllocAtPre_foreign e (by omega)] at h; cases h

end Bump
end Verif
