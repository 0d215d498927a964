import Verif.Spec.Basic
/-! Lemmas about the basic vocabulary. -/
namespace Verif

theorem IsPow2.pos {n : Nat} (h : IsPow2 n) : 0 < n := by
  obtain ⟨k, rfl⟩ := h; exact Nat.two_pow_pos k

theorem le_alignUp {a : Nat} (ha : 0 < a) (x : Nat) : x ≤ alignUp a x := by
  unfold alignUp
  have h := Nat.div_add_mod (x + (a - 1)) a
  have h2 := Nat.mod_lt (x + (a - 1)) ha
  rw [Nat.mul_comm] at h
  omega

theorem dvd_alignUp (a x : Nat) : a ∣ alignUp a x := ⟨_, Nat.mul_comm _ _⟩

theorem alignUp_lt {a : Nat} (ha : 0 < a) (x : Nat) : alignUp a x < x + a := by
  unfold alignUp
  have := Nat.div_mul_le_self (x + (a - 1)) a
  omega

theorem alignUp_le {a x z : Nat} (ha : 0 < a) (hxz : x ≤ z) (hz : a ∣ z) : alignUp a x ≤ z := by
  obtain ⟨k, rfl⟩ := hz
  have h1 := alignUp_lt ha x
  obtain ⟨j, hj⟩ := dvd_alignUp a x
  rw [hj] at h1 ⊢
  have : a * j < a * (k + 1) := by rw [Nat.mul_add]; omega
  have := Nat.lt_of_mul_lt_mul_left this
  exact Nat.mul_le_mul_left a (by omega)

/-- `alignUp` computes what its documentation says. -/
theorem alignUp_isFirstAligned {a : Nat} (ha : 0 < a) (x : Nat) : IsFirstAligned a x (alignUp a x) :=
  ⟨le_alignUp ha x, dvd_alignUp a x, fun _ h1 h2 => alignUp_le ha h1 h2⟩

theorem IsFirstAligned.eq_alignUp {a x y : Nat} (ha : 0 < a) (h : IsFirstAligned a x y) :
    y = alignUp a x :=
  Nat.le_antisymm (h.2.2 _ (le_alignUp ha x) (dvd_alignUp a x)) (alignUp_le ha h.1 h.2.1)

theorem alignUp_mono {a x y : Nat} (ha : 0 < a) (h : x ≤ y) : alignUp a x ≤ alignUp a y :=
  alignUp_le ha (Nat.le_trans h (le_alignUp ha y)) (dvd_alignUp a y)

theorem alignUp_of_dvd {a x : Nat} (ha : 0 < a) (h : a ∣ x) : alignUp a x = x :=
  Nat.le_antisymm (alignUp_le ha (Nat.le_refl x) h) (le_alignUp ha x)

theorem alignUp_add_of_dvd {a b : Nat} (ha : 0 < a) (h : a ∣ b) (x : Nat) :
    alignUp a (b + x) = b + alignUp a x := by
  have hb := alignUp_isFirstAligned ha x
  refine (IsFirstAligned.eq_alignUp ha ⟨?_, ?_, ?_⟩).symm
  · have := hb.1; omega
  · exact Nat.dvd_add h hb.2.1
  · intro z hz hd
    have hbz : b ≤ z := by omega
    have := hb.2.2 (z - b) (by omega) (Nat.dvd_sub hd h)
    omega

/-- The distance to the next multiple, in the form computed by `align_offset`. -/
theorem alignUp_eq_add_mod {a : Nat} (ha : 0 < a) (x : Nat) :
    alignUp a x = x + (a - x % a) % a := by
  refine (IsFirstAligned.eq_alignUp ha ?_).symm
  have hm := Nat.mod_lt x ha
  have hd := Nat.div_add_mod x a
  refine ⟨by omega, ?_, ?_⟩
  · by_cases h0 : x % a = 0
    · rw [h0, Nat.sub_zero, Nat.mod_self, Nat.add_zero]; exact Nat.dvd_of_mod_eq_zero h0
    · rw [Nat.mod_eq_of_lt (by omega)]
      have : x + (a - x % a) = a * (x / a + 1) := by rw [Nat.mul_add]; omega
      rw [this]; exact ⟨_, rfl⟩
  · intro z hz hdz
    by_cases h0 : x % a = 0
    · rw [h0, Nat.sub_zero, Nat.mod_self]; omega
    · rw [Nat.mod_eq_of_lt (by omega)]
      obtain ⟨k, rfl⟩ := hdz
      have : a * (x / a) < a * k := by omega
      have := Nat.lt_of_mul_lt_mul_left this
      have h3 : a * (x / a + 1) ≤ a * k := Nat.mul_le_mul_left a this
      rw [Nat.mul_add] at h3
      omega

namespace Region
theorem disjoint_of_le {r s : Region} (h : r.start + r.size ≤ s.start) : r.Disjoint s := by
  intro x ⟨h1, h2⟩; unfold Has at *; omega
theorem Disjoint.symm {r s : Region} (h : r.Disjoint s) : s.Disjoint r :=
  fun x ⟨h1, h2⟩ => h x ⟨h2, h1⟩
theorem disjoint_iff {r s : Region} :
    r.Disjoint s ↔ r.size = 0 ∨ s.size = 0 ∨ r.start + r.size ≤ s.start ∨ s.start + s.size ≤ r.start := by
  constructor
  · intro h
    have h1 := h r.start
    have h2 := h s.start
    unfold Has at *
    omega
  · rintro h x ⟨h1, h2⟩
    unfold Has at *
    omega
theorem Within.has {r s : Region} (h : r.Within s) {x : Nat} (hx : r.Has x) : s.Has x := by
  unfold Within Has at *; omega
end Region

theorem writeBytes_of_not_mem {m : Mem} {p : Nat} {bs : List Byte} {x : Nat}
    (h : ¬ (p ≤ x ∧ x < p + bs.length)) : writeBytes m p bs x = m x := by
  simp [writeBytes, h]

theorem writeBytes_of_mem {m : Mem} {p : Nat} {bs : List Byte} {i : Nat}
    (h : i < bs.length) : writeBytes m p bs (p + i) = bs[i] := by
  have : p ≤ p + i ∧ p + i < p + bs.length := by omega
  simp [writeBytes, this, h]

@[simp] theorem length_readBytes (m : Mem) (p n : Nat) : (readBytes m p n).length = n := by
  simp [readBytes]

theorem readBytes_writeBytes_self (m : Mem) (p : Nat) (bs : List Byte) :
    readBytes (writeBytes m p bs) p bs.length = bs := by
  apply List.ext_getElem
  · simp
  · intro i h1 h2
    simp only [readBytes, List.getElem_map, List.getElem_range]
    exact writeBytes_of_mem h2

theorem readBytes_congr {m m' : Mem} {p n : Nat} (h : ∀ x, p ≤ x → x < p + n → m' x = m x) :
    readBytes m' p n = readBytes m p n := by
  apply List.ext_getElem
  · simp
  · intro i h1 h2
    simp only [readBytes, List.getElem_map, List.getElem_range]
    simp at h1
    exact h _ (by omega) (by omega)

@[simp] theorem writeBytes_nil (m : Mem) (p : Nat) : writeBytes m p [] = m := by
  funext x; simp [writeBytes]; omega

end Verif
