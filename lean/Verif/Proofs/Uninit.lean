import Verif.Spec.Uninit
import Verif.Proofs.Basic
import Verif.Proofs.BumpPre
import Verif.Proofs.Unsync
/-! # What the operations on views do -/
namespace Verif.Uninit
open Verif

theorem unit_valid (t : Target) : unit.ValidType t := ⟨⟨⟨0, rfl⟩, Nat.zero_le _⟩, ⟨0, rfl⟩⟩

theorem fitsAt_iff {addr len : Nat} {l : Layout} (ha : 0 < l.align) : fitsAt addr len l = true ↔ CanHold ⟨addr, len⟩ l := by
  simp only [fitsAt, Bool.and_eq_true, decide_eq_true_eq, alignOffsetU8, CanHold]
  refine and_congr_left fun _ => ?_
  rw [Nat.dvd_iff_mod_eq_zero]
  have := Nat.mod_lt addr ha
  constructor
  · intro h
    rcases Nat.eq_zero_or_pos (addr % l.align) with h0 | h0
    · exact h0
    · have h' := of_decide_eq_true h
      rw [Nat.mod_eq_of_lt (by omega)] at h'
      omega
  · intro h
    exact decide_eq_true (by rw [h, Nat.sub_zero, Nat.mod_self])

theorem alignOffsetUnit_eq {t : Target} {addr align : Nat} : alignOffsetUnit t addr align = if align ∣ addr then 0 else t.usizeMax := by
  simp only [alignOffsetUnit, Nat.dvd_iff_mod_eq_zero]

theorem isizeMax_lt_usizeMax (t : Target) : t.isizeMax < t.W - 1 := by cases t <;> decide

/-- What is true of the views one can get. -/
def AnyView.Ok (t : Target) : AnyView → Prop
  | .sized v => v.T.ValidType t ∧ CanHold ⟨v.addr, v.len⟩ v.T
  | .slice v => v.T.ValidType t ∧ v.T.align ∣ v.addr

theorem usizeMax_eq (t : Target) : t.usizeMax = t.W - 1 := rfl

theorem cast_eq {v : View} {U : Layout} (hU : 0 < U.align) :
    (CanHold ⟨v.addr, v.len⟩ U ∧ v.cast U = .ok ⟨v.addr, v.len, U⟩) ∨ (¬ CanHold ⟨v.addr, v.len⟩ U ∧ v.cast U = .error v) := by
  by_cases h : CanHold ⟨v.addr, v.len⟩ U
  · refine .inl ⟨h, ?_⟩
    simp [View.cast, View.fits, (fitsAt_iff hU).mpr h]
  · refine .inr ⟨h, ?_⟩
    have : fitsAt v.addr v.len U = false := by
      rw [Bool.eq_false_iff]; exact fun h' => h ((fitsAt_iff hU).mp h')
    simp [View.cast, View.fits, this]

/-- Number of elements in the pointer made by `cast_slice`, and capacity. -/
def sliceCap (t : Target) (len : Nat) (U : Layout) : Nat := if U.size = 0 then t.usizeMax else len / U.size

theorem castSlice_eq {t : Target} {v : View} {U : Layout} (hU : 0 < U.align) :
    (U.align ∣ v.addr ∧ v.castSlice t U = .ok ⟨v.addr, v.len, U, sliceCap t v.len U⟩) ∨ (¬ U.align ∣ v.addr ∧ v.castSlice t U = .error v) := by
  have hf := fitsAt_iff (addr := v.addr) (len := v.len) (l := ⟨0, U.align⟩) hU
  simp only [CanHold, Nat.zero_le, and_true] at hf
  by_cases h : U.align ∣ v.addr
  · refine .inl ⟨h, ?_⟩
    simp [View.castSlice, View.fits, hf.mpr h, sliceCap]
  · refine .inr ⟨h, ?_⟩
    have : fitsAt v.addr v.len ⟨0, U.align⟩ = false := by
      rw [Bool.eq_false_iff]; exact fun h' => h (hf.mp h')
    simp [View.castSlice, View.fits, this]

theorem capacity_eq (t : Target) (v : SliceView) : v.capacity t = sliceCap t v.len v.T := rfl

/-- `split_layout`: everything if the start is aligned, else nothing. -/
theorem splitLayout_eq {t : Target} {v : View} (hT : v.T = unit) (hlen : v.len ≤ t.isizeMax) {l : Layout} (hl : 0 < l.align) :
    v.splitLayout t l = if l.align ∣ v.addr ∧ l.size ≤ v.len then .ret (some (⟨v.addr, 0, unit⟩, fromMemory v.addr v.len)) else .ret none := by
  have hW := Bump.isizeMax_lt t
  have hM := usizeMax_eq t
  have hWM := isizeMax_lt_usizeMax t
  simp only [View.splitLayout, alignOffsetUnit_eq]
  by_cases ha : l.align ∣ v.addr
  · by_cases hs : l.size ≤ v.len
    · have h1 : View.splitAtByte v 0 = some (⟨v.addr, 0, unit⟩, fromMemory v.addr v.len) := by
        simp [View.splitAtByte, hT, unit]
      have h2 : (fromMemory v.addr v.len).fits l = true := (fitsAt_iff hl).mpr ⟨ha, hs⟩
      simp [ha, hs, Usize.checkedSub, h1, h2]
    · simp [ha, hs, Usize.checkedSub]
  · have hlt : ¬ t.usizeMax ≤ v.len := by omega
    simp [ha, hlt, Usize.checkedSub]

/-- `split_at`: by bytes. -/
theorem splitAt_eq {t : Target} {v : SliceView} (hT : v.T.ValidType t) (hal : v.T.align ∣ v.addr) (hlen : v.len ≤ t.isizeMax) {n : Nat} :
    v.splitAt t n = if n * v.T.size ≤ v.len then
      .ret (some ({ v with len := n * v.T.size }, ⟨v.addr + n * v.T.size, v.len - n * v.T.size, v.T, sliceCap t (v.len - n * v.T.size) v.T⟩)) else .ret none := by
  have hW := Bump.isizeMax_lt t
  simp only [SliceView.splitAt, Usize.checkedMul]
  by_cases h : n * v.T.size ≤ v.len
  · have h1 : n * v.T.size < t.W := by omega
    have h2 : ¬ n * v.T.size > v.len := by omega
    simp only [h1, if_true, h2, if_false, h]
    have hd : v.T.align ∣ v.addr + n * v.T.size := Nat.dvd_add hal (Nat.dvd_trans hT.2 (Nat.dvd_mul_left _ _))
    rcases castSlice_eq (t := t) (v := fromMemory (v.addr + n * v.T.size) (v.len - n * v.T.size)) hT.1.1.pos with ⟨_, h3⟩ | ⟨h3, _⟩
    · rw [h3]; rfl
    · exact absurd hd h3
  · simp only [h, if_false]
    by_cases h1 : n * v.T.size < t.W
    · simp only [h1, if_true]
      rw [if_pos (by omega)]
    · simp only [h1, if_false]

theorem cap_mul_le {t : Target} {len : Nat} {U : Layout} : sliceCap t len U * U.size ≤ len := by
  simp only [sliceCap]
  split
  · rename_i h; simp [h]
  · exact Nat.div_mul_le_self _ _

theorem shrinkToFit_eq {t : Target} {v : SliceView} (hT : v.T.ValidType t) (hal : v.T.align ∣ v.addr) (hlen : v.len ≤ t.isizeMax) :
    v.shrinkToFit t = .ret ({ v with len := v.capacity t * v.T.size }, ⟨v.addr + v.capacity t * v.T.size, v.len - v.capacity t * v.T.size, unit⟩) := by
  have h : v.capacity t * v.T.size ≤ v.len := cap_mul_le
  simp only [SliceView.shrinkToFit, splitAt_eq hT hal hlen, h, if_true, bind, Outcome.bind]
  rfl

theorem splitFirst_eq {t : Target} {v : SliceView} (hT : v.T.ValidType t) (hal : v.T.align ∣ v.addr) (hlen : v.len ≤ t.isizeMax) :
    v.splitFirst t = if v.T.size ≤ v.len then
      .ret (some (⟨v.addr + v.T.size, v.len - v.T.size, v.T, sliceCap t (v.len - v.T.size) v.T⟩, ⟨v.addr, v.T.size, v.T⟩)) else .ret none := by
  simp only [SliceView.splitFirst, splitAt_eq hT hal hlen, Nat.one_mul]
  split
  · simp only [bind, Outcome.bind, SliceView.decast]
    rcases cast_eq (v := ⟨v.addr, v.T.size, unit⟩) hT.1.1.pos with ⟨_, h3⟩ | ⟨h3, _⟩
    · rw [h3]; rfl
    · exact absurd ⟨hal, Nat.le_refl _⟩ h3
  · rfl

/-- The position at which `split_last` splits. -/
theorem splitLast_eq {t : Target} {v : SliceView} (hT : v.T.ValidType t) (hal : v.T.align ∣ v.addr) (hlen : v.len ≤ t.isizeMax) :
    v.splitLast t = if v.T.size ≤ v.len then
      .ret (some ({ v with len := (v.capacity t - 1) * v.T.size }, ⟨v.addr + (v.capacity t - 1) * v.T.size, v.len - (v.capacity t - 1) * v.T.size, v.T⟩))
      else .ret none := by
  have hW := Bump.isizeMax_lt t
  have hM := usizeMax_eq t
  have hWM := isizeMax_lt_usizeMax t
  simp only [SliceView.splitLast, splitAt_eq hT hal hlen]
  by_cases hz : v.T.size = 0
  · have hc : v.capacity t = t.W - 1 := by simp [SliceView.capacity, hz, hM]
    have hm : v.T.size ≤ v.len := by omega
    simp only [hz, Nat.mul_zero, Nat.zero_le, if_true, bind, Outcome.bind, SliceView.decast, Nat.add_zero, Nat.sub_zero]
    rcases cast_eq (v := ⟨v.addr, v.len, unit⟩) hT.1.1.pos with ⟨_, h3⟩ | ⟨h3, _⟩
    · rw [h3]; rfl
    · exact absurd ⟨hal, hm⟩ h3
  · have hpos : 0 < v.T.size := by omega
    have hcap : v.capacity t = v.len / v.T.size := by simp [SliceView.capacity, hz]
    have hcap_le : v.len / v.T.size ≤ v.len := Nat.div_le_self _ _
    by_cases hs : v.T.size ≤ v.len
    · have h1 : 1 ≤ v.len / v.T.size := (Nat.le_div_iff_mul_le hpos).mpr (by omega)
      have hw : Usize.wrappingSub t (v.capacity t) 1 = v.capacity t - 1 := by
        simp only [Usize.wrappingSub, hcap]
        rw [show v.len / v.T.size + t.W - 1 = (v.len / v.T.size - 1) + t.W by omega, Nat.add_mod_right, Nat.mod_eq_of_lt (by omega)]
      have hle : (v.capacity t - 1) * v.T.size + v.T.size ≤ v.len := by
        have h2 : v.capacity t * v.T.size ≤ v.len := cap_mul_le
        have : (v.capacity t - 1) * v.T.size + v.T.size = v.capacity t * v.T.size := by
          rw [← Nat.succ_mul, Nat.succ_eq_add_one, Nat.sub_add_cancel (by omega)]
        omega
      have hle' : (v.capacity t - 1) * v.T.size ≤ v.len := by omega
      simp only [hw, hle', if_true, hs, bind, Outcome.bind, SliceView.decast]
      rcases cast_eq (v := ⟨v.addr + (v.capacity t - 1) * v.T.size, v.len - (v.capacity t - 1) * v.T.size, unit⟩) hT.1.1.pos with ⟨_, h3⟩ | ⟨h3, _⟩
      · rw [h3]; rfl
      · exact absurd ⟨Nat.dvd_add hal (Nat.dvd_trans hT.2 (Nat.dvd_mul_left _ _)), by simp only; omega⟩ h3
    · have h0 : v.capacity t = 0 := by rw [hcap]; exact Nat.div_eq_of_lt (by omega)
      have hw : Usize.wrappingSub t (v.capacity t) 1 = t.W - 1 := by
        simp only [Usize.wrappingSub, h0, Nat.zero_add]
        exact Nat.mod_eq_of_lt (by omega)
      have hnle : ¬ Usize.wrappingSub t (v.capacity t) 1 * v.T.size ≤ v.len := by
        rw [hw]
        have : t.W - 1 ≤ (t.W - 1) * v.T.size := Nat.le_mul_of_pos_right _ hpos
        omega
      simp only [hnle, if_false, hs, bind, Outcome.bind]
      rfl

/-- A view replaced by views of the same memory, split in at most two. -/
def Shape (r : Region) (vs : List AnyView) : Prop :=
  (∃ w, vs = [w] ∧ w.region = r) ∨ (∃ a b, vs = [a, b] ∧ (SplitsInto r a.region b.region ∨ SplitsInto r b.region a.region))

theorem splitAtByte_ok {t : Target} {v : View} (h : AnyView.Ok t (.sized v)) {n : Nat} (hn : n = 0 ∨ v.T.size = 1) :
    (v.splitAtByte n = none ∧ (v.len < n ∨ n < v.T.size)) ∨ ∃ a b, v.splitAtByte n = some (a, b) ∧ AnyView.Ok t (.sized a) ∧ AnyView.Ok t (.sized b) ∧
      SplitsInto ⟨v.addr, v.len⟩ ⟨a.addr, a.len⟩ ⟨b.addr, b.len⟩ ∧ a.len = n ∧ v.T.size ≤ n ∧ n ≤ v.len ∧ a.T = v.T := by
  simp only [View.splitAtByte]
  split
  · rename_i h'; exact .inl ⟨rfl, h'⟩
  · rename_i h'
    have hm : n * v.T.size = n := by
      rcases hn with h0 | h1
      · simp [h0]
      · simp [h1]
    obtain ⟨h1, h2⟩ := h
    refine .inr ⟨_, _, rfl, ⟨h1, h2.1, by simp only; omega⟩, ⟨unit_valid t, ⟨Nat.one_dvd _, Nat.zero_le _⟩⟩, ⟨rfl, ?_, ?_⟩, rfl, by omega, by omega, rfl⟩
    · simp only [fromMemory, hm]
    · simp only [fromMemory]; omega

/-- Every operation, with the sound uses of `split_at_byte`: it does not panic and splits the memory of the view. -/
theorem apply_spec {t : Target} {v : AnyView} (h : v.Ok t) (hsz : v.region.size ≤ t.isizeMax) {op : VOp} (ha : op.Applies t v) (hp : ByteOk v op) :
    ∃ vs, op.apply t v = .ret vs ∧ (∀ w ∈ vs, w.Ok t) ∧ Shape v.region vs := by
  cases v with
  | sized v =>
    simp only [AnyView.region] at hsz
    obtain ⟨h1, h2, h3⟩ := h
    cases op with
    | cast U =>
      rcases cast_eq (v := v) (U := U) (show U.ValidType t from ha).1.1.pos with ⟨hc, e⟩ | ⟨hc, e⟩
      · exact ⟨[.sized ⟨v.addr, v.len, U⟩], by simp only [VOp.apply, e], by simpa [AnyView.Ok] using ⟨ha, hc⟩, .inl ⟨_, rfl, rfl⟩⟩
      · exact ⟨[.sized v], by simp only [VOp.apply, e], by simpa [AnyView.Ok] using ⟨h1, h2, h3⟩, .inl ⟨_, rfl, rfl⟩⟩
    | castSlice U =>
      rcases castSlice_eq (t := t) (v := v) (U := U) (show U.ValidType t from ha).1.1.pos with ⟨hc, e⟩ | ⟨hc, e⟩
      · exact ⟨[.slice ⟨v.addr, v.len, U, sliceCap t v.len U⟩], by simp only [VOp.apply, e], by simpa [AnyView.Ok] using ⟨ha, hc⟩, .inl ⟨_, rfl, rfl⟩⟩
      · exact ⟨[.sized v], by simp only [VOp.apply, e], by simpa [AnyView.Ok] using ⟨h1, h2, h3⟩, .inl ⟨_, rfl, rfl⟩⟩
    | splitAtByte n =>
      rcases splitAtByte_ok (t := t) (v := v) ⟨h1, h2, h3⟩ hp with ⟨e, _⟩ | ⟨a, b, e, ka, kb, hs, _⟩
      · exact ⟨[.sized v], by simp only [VOp.apply, e], by simpa [AnyView.Ok] using ⟨h1, h2, h3⟩, .inl ⟨_, rfl, rfl⟩⟩
      · exact ⟨[.sized a, .sized b], by simp only [VOp.apply, e], by simpa using ⟨ka, kb⟩, .inr ⟨_, _, rfl, .inl hs⟩⟩
    | splitToFit =>
      have hp' : v.T.size = 0 ∨ v.T.size = 1 := by simp only [ByteOk] at hp; omega
      rcases splitAtByte_ok (t := t) (v := v) ⟨h1, h2, h3⟩ (n := v.T.size) hp' with ⟨_, hne⟩ | ⟨a, b, e, ka, kb, hs, _⟩
      · simp only at h3; omega
      · exact ⟨[.sized a, .sized b], by simp only [VOp.apply, View.splitToFit, e, Outcome.unwrap, bind, Outcome.bind]; rfl, by simpa using ⟨ka, kb⟩, .inr ⟨_, _, rfl, .inl hs⟩⟩
    | asMemory => exact ⟨_, rfl, by simpa [AnyView.Ok, View.decast] using ⟨unit_valid t, Nat.one_dvd _, Nat.zero_le _⟩, .inl ⟨_, rfl, rfl⟩⟩
    | unsize U n =>
      obtain ⟨hU, hT, hn⟩ := ha
      refine ⟨_, rfl, ?_, .inl ⟨_, rfl, rfl⟩⟩
      simp only [List.mem_singleton, forall_eq, AnyView.Ok, View.unsize]
      rw [hT] at h2
      exact ⟨hU, h2⟩
    | splitLayout l =>
      obtain ⟨hT, hl⟩ := ha
      have e := splitLayout_eq (t := t) hT hsz hl.1.pos
      by_cases hc : l.align ∣ v.addr ∧ l.size ≤ v.len
      · rw [if_pos hc] at e
        refine ⟨[.sized ⟨v.addr, 0, unit⟩, .sized (fromMemory v.addr v.len)], by simp only [VOp.apply, e, bind, Outcome.bind]; rfl, ?_, .inr ⟨_, _, rfl, .inl ⟨rfl, rfl, by simp [AnyView.region, fromMemory]⟩⟩⟩
        simp only [List.mem_cons, List.not_mem_nil, or_false, forall_eq_or_imp, forall_eq, AnyView.Ok, fromMemory]
        exact ⟨⟨unit_valid t, Nat.one_dvd _, Nat.zero_le _⟩, ⟨unit_valid t, Nat.one_dvd _, Nat.zero_le _⟩⟩
      · rw [if_neg hc] at e
        exact ⟨[.sized v], by simp only [VOp.apply, e, bind, Outcome.bind]; rfl, by simpa [AnyView.Ok] using ⟨h1, h2, h3⟩, .inl ⟨_, rfl, rfl⟩⟩
    | splitCast U =>
      obtain ⟨hT, hU⟩ := ha
      have e := splitLayout_eq (t := t) hT hsz hU.1.1.pos
      by_cases hc : U.align ∣ v.addr ∧ U.size ≤ v.len
      · rw [if_pos hc] at e
        rcases cast_eq (v := fromMemory v.addr v.len) (U := U) hU.1.1.pos with ⟨_, e2⟩ | ⟨hn, _⟩
        · refine ⟨[.sized ⟨v.addr, 0, unit⟩, .sized ⟨v.addr, v.len, U⟩], by simp only [VOp.apply, View.splitCast, e, e2, bind, Outcome.bind]; rfl, ?_, .inr ⟨_, _, rfl, .inl ⟨rfl, rfl, by simp [AnyView.region]⟩⟩⟩
          simp only [List.mem_cons, List.not_mem_nil, or_false, forall_eq_or_imp, forall_eq, AnyView.Ok]
          exact ⟨⟨unit_valid t, Nat.one_dvd _, Nat.zero_le _⟩, ⟨hU, hc⟩⟩
        · exact absurd hc hn
      · rw [if_neg hc] at e
        exact ⟨_, by simp only [VOp.apply, View.splitCast, e, bind, Outcome.bind]; rfl, by simpa [AnyView.Ok] using ⟨h1, h2, h3⟩, .inl ⟨_, rfl, rfl⟩⟩
    | splitSlice U =>
      obtain ⟨hT, hU⟩ := ha
      have e := splitLayout_eq (t := t) hT hsz (l := ⟨0, U.align⟩) hU.1.1.pos
      by_cases hc : U.align ∣ v.addr ∧ 0 ≤ v.len
      · rw [if_pos hc] at e
        rcases castSlice_eq (t := t) (v := fromMemory v.addr v.len) (U := U) hU.1.1.pos with ⟨_, e2⟩ | ⟨hn, _⟩
        · refine ⟨[.sized ⟨v.addr, 0, unit⟩, .slice ⟨v.addr, v.len, U, sliceCap t v.len U⟩], by simp only [VOp.apply, View.splitSlice, e, e2, bind, Outcome.bind]; rfl, ?_, .inr ⟨_, _, rfl, .inl ⟨rfl, rfl, by simp [AnyView.region]⟩⟩⟩
          simp only [List.mem_cons, List.not_mem_nil, or_false, forall_eq_or_imp, forall_eq, AnyView.Ok]
          exact ⟨⟨unit_valid t, Nat.one_dvd _, Nat.zero_le _⟩, ⟨hU, hc.1⟩⟩
        · exact absurd hc.1 hn
      · rw [if_neg hc] at e
        exact ⟨_, by simp only [VOp.apply, View.splitSlice, e, bind, Outcome.bind]; rfl, by simpa [AnyView.Ok] using ⟨h1, h2, h3⟩, .inl ⟨_, rfl, rfl⟩⟩
    | splitAt n => exact ha.elim
    | shrinkToFit => exact ha.elim
    | splitFirst => exact ha.elim
    | splitLast => exact ha.elim
  | slice v =>
    simp only [AnyView.region] at hsz
    obtain ⟨h1, h2⟩ := h
    have hdv : ∀ k, v.T.align ∣ v.addr + k * v.T.size := fun k => Nat.dvd_add h2 (Nat.dvd_trans h1.2 (Nat.dvd_mul_left _ _))
    cases op with
    | asMemory => exact ⟨_, rfl, by simpa [AnyView.Ok, SliceView.decast] using ⟨unit_valid t, Nat.one_dvd _, Nat.zero_le _⟩, .inl ⟨_, rfl, rfl⟩⟩
    | splitAt n =>
      have e := splitAt_eq (t := t) h1 h2 hsz (n := n)
      by_cases hc : n * v.T.size ≤ v.len
      · rw [if_pos hc] at e
        refine ⟨[.slice { v with len := n * v.T.size }, .slice ⟨v.addr + n * v.T.size, v.len - n * v.T.size, v.T, sliceCap t (v.len - n * v.T.size) v.T⟩], by simp only [VOp.apply, e, bind, Outcome.bind]; rfl, ?_, .inr ⟨_, _, rfl, .inl ⟨rfl, rfl, by simp only [AnyView.region]; omega⟩⟩⟩
        simp only [List.mem_cons, List.not_mem_nil, or_false, forall_eq_or_imp, forall_eq, AnyView.Ok]
        exact ⟨⟨h1, h2⟩, ⟨h1, hdv n⟩⟩
      · rw [if_neg hc] at e
        exact ⟨[.slice v], by simp only [VOp.apply, e, bind, Outcome.bind]; rfl, by simpa [AnyView.Ok] using ⟨h1, h2⟩, .inl ⟨_, rfl, rfl⟩⟩
    | shrinkToFit =>
      have e := shrinkToFit_eq (t := t) h1 h2 hsz
      have hc : v.capacity t * v.T.size ≤ v.len := cap_mul_le
      refine ⟨[.slice { v with len := v.capacity t * v.T.size }, .sized ⟨v.addr + v.capacity t * v.T.size, v.len - v.capacity t * v.T.size, unit⟩], by simp only [VOp.apply, e, bind, Outcome.bind]; rfl, ?_, .inr ⟨_, _, rfl, .inl ⟨rfl, rfl, by simp only [AnyView.region]; omega⟩⟩⟩
      simp only [List.mem_cons, List.not_mem_nil, or_false, forall_eq_or_imp, forall_eq, AnyView.Ok]
      exact ⟨⟨h1, h2⟩, ⟨unit_valid t, Nat.one_dvd _, Nat.zero_le _⟩⟩
    | splitFirst =>
      have e := splitFirst_eq (t := t) h1 h2 hsz
      by_cases hc : v.T.size ≤ v.len
      · rw [if_pos hc] at e
        refine ⟨[.slice ⟨v.addr + v.T.size, v.len - v.T.size, v.T, sliceCap t (v.len - v.T.size) v.T⟩, .sized ⟨v.addr, v.T.size, v.T⟩], by simp only [VOp.apply, e, bind, Outcome.bind]; rfl, ?_, .inr ⟨_, _, rfl, .inr ⟨rfl, rfl, by simp only [AnyView.region]; omega⟩⟩⟩
        simp only [List.mem_cons, List.not_mem_nil, or_false, forall_eq_or_imp, forall_eq, AnyView.Ok]
        exact ⟨⟨h1, by simpa using hdv 1⟩, ⟨h1, h2, Nat.le_refl _⟩⟩
      · rw [if_neg hc] at e
        exact ⟨[.slice v], by simp only [VOp.apply, e, bind, Outcome.bind]; rfl, by simpa [AnyView.Ok] using ⟨h1, h2⟩, .inl ⟨_, rfl, rfl⟩⟩
    | splitLast =>
      have e := splitLast_eq (t := t) h1 h2 hsz
      by_cases hc : v.T.size ≤ v.len
      · rw [if_pos hc] at e
        have hle : (v.capacity t - 1) * v.T.size + v.T.size ≤ v.len := by
          have h2 : v.capacity t * v.T.size ≤ v.len := cap_mul_le
          rcases Nat.eq_zero_or_pos (v.capacity t) with h0 | h0
          · simp only [h0, Nat.zero_sub, Nat.zero_mul]; omega
          · rw [← Nat.succ_mul, Nat.succ_eq_add_one, Nat.sub_add_cancel h0]; exact h2
        refine ⟨[.slice { v with len := (v.capacity t - 1) * v.T.size }, .sized ⟨v.addr + (v.capacity t - 1) * v.T.size, v.len - (v.capacity t - 1) * v.T.size, v.T⟩], by simp only [VOp.apply, e, bind, Outcome.bind]; rfl, ?_, .inr ⟨_, _, rfl, .inl ⟨rfl, rfl, by simp only [AnyView.region]; omega⟩⟩⟩
        simp only [List.mem_cons, List.not_mem_nil, or_false, forall_eq_or_imp, forall_eq, AnyView.Ok]
        exact ⟨⟨h1, h2⟩, ⟨h1, hdv _, by simp only; omega⟩⟩
      · rw [if_neg hc] at e
        exact ⟨[.slice v], by simp only [VOp.apply, e, bind, Outcome.bind]; rfl, by simpa [AnyView.Ok] using ⟨h1, h2⟩, .inl ⟨_, rfl, rfl⟩⟩
    | cast U => exact ha.elim
    | castSlice U => exact ha.elim
    | splitAtByte n => exact ha.elim
    | splitToFit => exact ha.elim
    | unsize U n => exact ha.elim
    | splitLayout l => exact ha.elim
    | splitCast U => exact ha.elim
    | splitSlice U => exact ha.elim

end Verif.Uninit
