import Verif.Spec.Owned
/-! Transitions that conserve values. -/
namespace Verif.Owned

def Kind.Holds (k : Option Kind) : Prop := k = some .boxed ∨ k = some .uninitFull ∨ k = some .raw
def OState.Holds (s : OState) (p v : Nat) : Prop := s.st.mem p = some v ∧ Kind.Holds (s.kind p)

structure OInv (s : OState) : Prop where
  dropped : s.st.dropped.Nodup
  owned : s.owned.Nodup
  apart : ∀ v ∈ s.owned, v ∉ s.st.dropped
  held : ∀ p v, s.Holds p v → v ∉ s.owned ∧ v ∉ s.st.dropped
  unique : ∀ p q v, s.Holds p v → s.Holds q v → p = q
  all : ∀ v, v < s.next ↔ (v ∈ s.owned ∨ v ∈ s.st.dropped ∨ ∃ p, s.Holds p v)
  full : ∀ p, Kind.Holds (s.kind p) → ∃ v, s.st.mem p = some v
  copy : ∀ p, s.kind p = some .copy → ∃ v, s.st.mem p = some v

theorem OInv.conserved {s : OState} (h : OInv s) : s.Conserved := by
  refine ⟨h.dropped, h.owned, fun v => ?_⟩
  rw [h.all]
  constructor
  · rintro (h1 | h1 | ⟨p, h1⟩)
    · refine ⟨.user, h1, fun l hl => ?_⟩
      cases l with
      | user => rfl
      | dropped => exact absurd hl (h.apart v h1)
      | «at» q => exact absurd h1 (h.held q v hl).1
    · refine ⟨.dropped, h1, fun l hl => ?_⟩
      cases l with
      | user => exact absurd h1 (h.apart v hl)
      | dropped => rfl
      | «at» q => exact absurd h1 (h.held q v hl).2
    · refine ⟨.at p, h1, fun l hl => ?_⟩
      cases l with
      | user => exact absurd hl (h.held p v h1).1
      | dropped => exact absurd hl (h.held p v h1).2
      | «at» q => rw [h.unique q p v hl h1]
  · rintro ⟨l, hl, _⟩
    cases l with
    | user => exact .inl hl
    | dropped => exact .inr (.inl hl)
    | «at» q => exact .inr (.inr ⟨q, hl⟩)

theorem OInv.make {s : OState} (h : OInv s) : OInv { s with owned := s.next :: s.owned, next := s.next + 1 } := by
  have hn : ¬ (s.next ∈ s.owned ∨ s.next ∈ s.st.dropped ∨ ∃ p, s.Holds p s.next) := fun hh => by
    have := (h.all s.next).mpr hh; omega
  refine ⟨h.dropped, List.nodup_cons.mpr ⟨fun hh => hn (.inl hh), h.owned⟩, ?_, ?_, h.unique, ?_, h.full, h.copy⟩
  · intro v hv
    rcases List.mem_cons.mp hv with rfl | hv
    · exact fun hh => hn (.inr (.inl hh))
    · exact h.apart v hv
  · intro p v hp
    refine ⟨fun hv => ?_, (h.held p v hp).2⟩
    rcases List.mem_cons.mp hv with rfl | hv
    · exact hn (.inr (.inr ⟨p, hp⟩))
    · exact (h.held p v hp).1 hv
  · intro v
    show v < s.next + 1 ↔ (v ∈ s.next :: s.owned ∨ _)
    rw [List.mem_cons]
    constructor
    · intro hv
      by_cases he : v = s.next
      · exact .inl (.inl he)
      · rcases (h.all v).mp (by omega) with h1 | h1 | h1
        · exact .inl (.inr h1)
        · exact .inr (.inl h1)
        · exact .inr (.inr h1)
    · rintro ((rfl | h1) | h1 | h1)
      · omega
      · have := (h.all v).mpr (.inl h1); omega
      · have := (h.all v).mpr (.inr (.inl h1)); omega
      · have := (h.all v).mpr (.inr (.inr h1)); omega

/-- A value of the user is dropped. -/
theorem OInv.discard {s : OState} (h : OInv s) {v : Nat} (hv : v ∈ s.owned) :
    OInv { s with st := { s.st with dropped := v :: s.st.dropped }, owned := s.owned.erase v } := by
  have hme : ∀ w, w ∈ s.owned.erase v ↔ (w ≠ v ∧ w ∈ s.owned) := fun w => h.owned.mem_erase_iff
  refine ⟨List.nodup_cons.mpr ⟨h.apart v hv, h.dropped⟩, h.owned.erase v, ?_, ?_, h.unique, ?_, h.full, h.copy⟩
  · intro w hw hd
    obtain ⟨h1, h2⟩ := (hme w).mp hw
    rcases List.mem_cons.mp hd with rfl | hd
    · exact h1 rfl
    · exact h.apart w h2 hd
  · intro p w hp
    refine ⟨fun hw => (h.held p w hp).1 ((hme w).mp hw).2, fun hd => ?_⟩
    rcases List.mem_cons.mp hd with rfl | hd
    · exact (h.held p w hp).1 hv
    · exact (h.held p w hp).2 hd
  · intro w
    show w < s.next ↔ (w ∈ s.owned.erase v ∨ w ∈ v :: s.st.dropped ∨ ∃ p, s.Holds p w)
    rw [h.all w, hme, List.mem_cons]
    constructor
    · rintro (h1 | h1 | h1)
      · by_cases he : w = v
        · exact .inr (.inl (.inl he))
        · exact .inl ⟨he, h1⟩
      · exact .inr (.inl (.inr h1))
      · exact .inr (.inr h1)
    · rintro (h1 | (rfl | h1) | h1)
      · exact .inl h1.2
      · exact .inl hv
      · exact .inr (.inl h1)
      · exact .inr (.inr h1)

/-- Change memory and kind of one place. `stays` says what the other places see. -/
theorem OInv.place {s : OState} (h : OInv s) (p : Nat) {m : Option Nat} {k : Option Kind} {ow dr : List Nat} {pan : Nat → Bool}
    (hdr : dr.Nodup) (how : ow.Nodup)
    (hapart : ∀ v ∈ ow, v ∉ dr)
    (hheld : ∀ q v, q ≠ p → s.Holds q v → v ∉ ow ∧ v ∉ dr)
    (hnew : ∀ v, m = some v → Kind.Holds k → v ∉ ow ∧ v ∉ dr ∧ ∀ q, q ≠ p → ¬ s.Holds q v)
    (hall : ∀ v, v < s.next ↔ (v ∈ ow ∨ v ∈ dr ∨ (m = some v ∧ Kind.Holds k) ∨ ∃ q, q ≠ p ∧ s.Holds q v))
    (hfull : Kind.Holds k → ∃ v, m = some v) (hcopy : k = some .copy → ∃ v, m = some v) :
    OInv ⟨⟨fun x => if x = p then m else s.st.mem x, dr, pan⟩, fun x => if x = p then k else s.kind x, ow, s.next⟩ := by
  have hh : ∀ q v, OState.Holds ⟨⟨fun x => if x = p then m else s.st.mem x, dr, pan⟩, fun x => if x = p then k else s.kind x, ow, s.next⟩ q v ↔
      ((q = p ∧ m = some v ∧ Kind.Holds k) ∨ (q ≠ p ∧ s.Holds q v)) := by
    intro q v
    by_cases hq : q = p
    · subst hq; simp [OState.Holds]
    · simp [OState.Holds, hq]
  refine ⟨hdr, how, hapart, ?_, ?_, ?_, ?_, ?_⟩
  · intro q v hq
    rcases (hh q v).mp hq with ⟨_, h1, h2⟩ | ⟨h1, h2⟩
    · exact ⟨(hnew v h1 h2).1, (hnew v h1 h2).2.1⟩
    · exact hheld q v h1 h2
  · intro q q' v h1 h2
    rcases (hh q v).mp h1 with ⟨rfl, h1, k1⟩ | ⟨h1, k1⟩ <;> rcases (hh q' v).mp h2 with ⟨rfl, h2, k2⟩ | ⟨h2, k2⟩
    · rfl
    · exact absurd k2 ((hnew v h1 k1).2.2 q' h2)
    · exact absurd k1 ((hnew v h2 k2).2.2 q h1)
    · exact h.unique q q' v k1 k2
  · intro v
    rw [hall v]
    constructor
    · rintro (h1 | h1 | h1 | ⟨q, h1⟩)
      · exact .inl h1
      · exact .inr (.inl h1)
      · exact .inr (.inr ⟨p, (hh p v).mpr (.inl ⟨rfl, h1⟩)⟩)
      · exact .inr (.inr ⟨q, (hh q v).mpr (.inr h1)⟩)
    · rintro (h1 | h1 | ⟨q, h1⟩)
      · exact .inl h1
      · exact .inr (.inl h1)
      · rcases (hh q v).mp h1 with ⟨_, h1⟩ | h1
        · exact .inr (.inr (.inl h1))
        · exact .inr (.inr (.inr ⟨q, h1⟩))
  · intro q hq
    by_cases he : q = p
    · subst he; simpa using hfull (by simpa using hq)
    · simpa [he] using h.full q (by simpa [he] using hq)
  · intro q hq
    by_cases he : q = p
    · subst he; simpa using hcopy (by simpa using hq)
    · simpa [he] using h.copy q (by simpa [he] using hq)

/-- The handle of a place changes without changing whether it holds a value. -/
theorem OInv.rekind {s : OState} (h : OInv s) {p : Nat} {k : Option Kind} (hk : Kind.Holds k ↔ Kind.Holds (s.kind p)) (hc : k ≠ some .copy) :
    OInv (s.setKind p k) := by
  have hx := h.place p (m := s.st.mem p) (k := k) (ow := s.owned) (dr := s.st.dropped) (pan := s.st.panics) h.dropped h.owned h.apart
    (fun q v _ hq => h.held q v hq)
    (fun v hm hk' => ⟨(h.held p v ⟨hm, hk.mp hk'⟩).1, (h.held p v ⟨hm, hk.mp hk'⟩).2, fun q hq hh => hq (h.unique q p v hh ⟨hm, hk.mp hk'⟩)⟩)
    (fun v => by
      rw [h.all v]
      constructor
      · rintro (h1 | h1 | ⟨q, h1⟩)
        · exact .inl h1
        · exact .inr (.inl h1)
        · by_cases hq : q = p
          · subst hq; exact .inr (.inr (.inl ⟨h1.1, hk.mpr h1.2⟩))
          · exact .inr (.inr (.inr ⟨q, hq, h1⟩))
      · rintro (h1 | h1 | h1 | ⟨q, _, h1⟩)
        · exact .inl h1
        · exact .inr (.inl h1)
        · exact .inr (.inr ⟨p, h1.1, hk.mp h1.2⟩)
        · exact .inr (.inr ⟨q, h1⟩))
    (fun hk' => h.full p (hk.mp hk')) (fun hk' => absurd hk' hc)
  have e : (fun x => if x = p then s.st.mem p else s.st.mem x) = s.st.mem := by
    funext x; by_cases hx : x = p <;> simp [hx]
  rw [e] at hx
  exact hx

/-- A value of the user moves to a place that holds none. -/
theorem OInv.moveIn {s : OState} (h : OInv s) {p v : Nat} (hv : v ∈ s.owned) (hp : ¬ Kind.Holds (s.kind p)) {k : Option Kind} (hk : Kind.Holds k) :
    OInv { (s.setKind p k) with st := ptrWrite s.st p v, owned := s.owned.erase v } := by
  have hme : ∀ w, w ∈ s.owned.erase v ↔ (w ≠ v ∧ w ∈ s.owned) := fun w => h.owned.mem_erase_iff
  refine h.place p (m := some v) (k := k) h.dropped (h.owned.erase v) (fun w hw => h.apart w ((hme w).mp hw).2)
    (fun q w _ hq => ⟨fun hw => (h.held q w hq).1 ((hme w).mp hw).2, (h.held q w hq).2⟩) ?_ ?_ (fun _ => ⟨v, rfl⟩) (fun _ => ⟨v, rfl⟩)
  · rintro w ⟨⟩ _
    exact ⟨fun hw => ((hme v).mp hw).1 rfl, h.apart v hv, fun q _ hq => (h.held q v hq).1 hv⟩
  · intro w
    rw [h.all w, hme]
    constructor
    · rintro (h1 | h1 | ⟨q, h1⟩)
      · by_cases he : w = v
        · subst he; exact .inr (.inr (.inl ⟨rfl, hk⟩))
        · exact .inl ⟨he, h1⟩
      · exact .inr (.inl h1)
      · exact .inr (.inr (.inr ⟨q, fun hq => hp (hq ▸ h1.2), h1⟩))
    · rintro (h1 | h1 | ⟨h1, _⟩ | ⟨q, _, h1⟩)
      · exact .inl h1.2
      · exact .inr (.inl h1)
      · cases h1; exact .inl hv
      · exact .inr (.inr ⟨q, h1⟩)

/-- The value of a place moves to the user. -/
theorem OInv.moveOut {s : OState} (h : OInv s) {p v : Nat} (hp : s.Holds p v) {k : Option Kind} (hk : ¬ Kind.Holds k) (hc : k ≠ some .copy) :
    OInv { (s.setKind p k) with owned := v :: s.owned } := by
  have hh := h.held p v hp
  have hx := h.place p (m := s.st.mem p) (k := k) (ow := v :: s.owned) (dr := s.st.dropped) (pan := s.st.panics) h.dropped
    (List.nodup_cons.mpr ⟨hh.1, h.owned⟩)
    (fun w hw => by rcases List.mem_cons.mp hw with rfl | hw; exact hh.2; exact h.apart w hw)
    (fun q w hq hqw => ⟨fun hw => by
      rcases List.mem_cons.mp hw with rfl | hw
      · exact hq (h.unique q p _ hqw hp)
      · exact (h.held q w hqw).1 hw, (h.held q w hqw).2⟩)
    (fun w _ hk' => absurd hk' hk)
    (fun w => by
      rw [h.all w, List.mem_cons]
      constructor
      · rintro (h1 | h1 | ⟨q, h1⟩)
        · exact .inl (.inr h1)
        · exact .inr (.inl h1)
        · by_cases hq : q = p
          · subst hq
            have := h1.1.symm.trans hp.1
            cases this
            exact .inl (.inl rfl)
          · exact .inr (.inr (.inr ⟨q, hq, h1⟩))
      · rintro ((rfl | h1) | h1 | h1 | ⟨q, _, h1⟩)
        · exact .inr (.inr ⟨p, hp⟩)
        · exact .inl h1
        · exact .inr (.inl h1)
        · exact absurd h1.2 hk
        · exact .inr (.inr ⟨q, h1⟩))
    (fun hk' => absurd hk' hk) (fun hk' => absurd hk' hc)
  have e : (fun x => if x = p then s.st.mem p else s.st.mem x) = s.st.mem := by
    funext x; by_cases hx : x = p <;> simp [hx]
  rw [e] at hx
  exact hx

/-- The value of a place is dropped. -/
theorem OInv.dropAt {s : OState} (h : OInv s) {p v : Nat} (hp : s.Holds p v) {k : Option Kind} (hk : ¬ Kind.Holds k) (hc : k ≠ some .copy) :
    OInv { (s.setKind p k) with st := { s.st with dropped := v :: s.st.dropped } } := by
  have hh := h.held p v hp
  have hx := h.place p (m := s.st.mem p) (k := k) (ow := s.owned) (dr := v :: s.st.dropped) (pan := s.st.panics)
    (List.nodup_cons.mpr ⟨hh.2, h.dropped⟩) h.owned
    (fun w hw hd => by rcases List.mem_cons.mp hd with rfl | hd; exact hh.1 hw; exact h.apart w hw hd)
    (fun q w hq hqw => ⟨(h.held q w hqw).1, fun hw => by
      rcases List.mem_cons.mp hw with rfl | hw
      · exact hq (h.unique q p _ hqw hp)
      · exact (h.held q w hqw).2 hw⟩)
    (fun w _ hk' => absurd hk' hk)
    (fun w => by
      rw [h.all w, List.mem_cons]
      constructor
      · rintro (h1 | h1 | ⟨q, h1⟩)
        · exact .inl h1
        · exact .inr (.inl (.inr h1))
        · by_cases hq : q = p
          · subst hq
            have := h1.1.symm.trans hp.1
            cases this
            exact .inr (.inl (.inl rfl))
          · exact .inr (.inr (.inr ⟨q, hq, h1⟩))
      · rintro (h1 | (rfl | h1) | h1 | ⟨q, _, h1⟩)
        · exact .inl h1
        · exact .inr (.inr ⟨p, hp⟩)
        · exact .inr (.inl h1)
        · exact absurd h1.2 hk
        · exact .inr (.inr ⟨q, h1⟩))
    (fun hk' => absurd hk' hk) (fun hk' => absurd hk' hc)
  have e : (fun x => if x = p then s.st.mem p else s.st.mem x) = s.st.mem := by
    funext x; by_cases hx : x = p <;> simp [hx]
  rw [e] at hx
  exact hx

/-- Memory of a place without a value gets other bits. -/
theorem OInv.scribble {s : OState} (h : OInv s) {p bits : Nat} (hp : ¬ Kind.Holds (s.kind p)) {k : Option Kind} (hk : ¬ Kind.Holds k) :
    OInv { (s.setKind p k) with st := ptrWrite s.st p bits } := by
  refine h.place p (m := some bits) (k := k) h.dropped h.owned h.apart (fun q v _ hq => h.held q v hq) (fun v _ hk' => absurd hk' hk) ?_
    (fun hk' => absurd hk' hk) (fun _ => ⟨bits, rfl⟩)
  intro v
  rw [h.all v]
  constructor
  · rintro (h1 | h1 | ⟨q, h1⟩)
    · exact .inl h1
    · exact .inr (.inl h1)
    · exact .inr (.inr (.inr ⟨q, fun hq => hp (hq ▸ h1.2), h1⟩))
  · rintro (h1 | h1 | ⟨_, h1⟩ | ⟨q, _, h1⟩)
    · exact .inl h1
    · exact .inr (.inl h1)
    · exact absurd h1 hk
    · exact .inr (.inr ⟨q, h1⟩)

theorem OInv.init {mem : Nat → Option Nat} {panics : Nat → Bool} : OInv ⟨⟨mem, [], panics⟩, fun _ => none, [], 0⟩ := by
  constructor <;> simp [OState.Holds, Kind.Holds]

/-- Exchange: value `v` of the user goes to the place, the one that was there to the user. -/
theorem OInv.exchange {s : OState} (h : OInv s) {p v w : Nat} (hp : s.Holds p w) (hv : v ∈ s.owned) :
    OInv { s with st := ptrWrite s.st p v, owned := w :: s.owned.erase v } := by
  have hne : w ≠ v := fun he => (h.held p w hp).1 (he ▸ hv)
  have h1 := h.moveOut (k := none) hp (by simp [Kind.Holds]) (by simp)
  have h2 := h1.moveIn (p := p) (v := v) (k := s.kind p) (List.mem_cons_of_mem _ hv) (by simp [OState.setKind, Kind.Holds]) hp.2
  have e1 : (w :: s.owned).erase v = w :: s.owned.erase v := List.erase_cons_tail (by simpa using hne)
  simp only [OState.setKind, e1] at h2
  have e2 : (fun x => if x = p then s.kind p else if x = p then none else s.kind x) = s.kind := by
    funext x; by_cases hx : x = p <;> simp [hx]
  rw [e2] at h2
  exact h2

/-- The value of the place is dropped and replaced by a value of the user. -/
theorem OInv.overwrite {s : OState} (h : OInv s) {p v w : Nat} (hp : s.Holds p w) (hv : v ∈ s.owned) :
    OInv { s with st := ptrWrite { s.st with dropped := w :: s.st.dropped } p v, owned := s.owned.erase v } := by
  have h1 := h.dropAt (k := none) hp (by simp [Kind.Holds]) (by simp)
  have h2 := h1.moveIn (p := p) (v := v) (k := s.kind p) hv (by simp [OState.setKind, Kind.Holds]) hp.2
  simp only [OState.setKind] at h2
  have e2 : (fun x => if x = p then s.kind p else if x = p then none else s.kind x) = s.kind := by
    funext x; by_cases hx : x = p <;> simp [hx]
  rw [e2] at h2
  exact h2

end Verif.Owned
