import Verif.Proofs.Owned
import Verif.Model.WBox
/-! # C33, C51: `LeakBox` and `without_alloc::Box` -/
namespace Verif
open Owned

/-! ## C33 -/

theorem Owned.lexec_inv {s : OState} (h : OInv s) {op : LOp} (ha : op.Allowed s) : ∃ r s', lexec s op = .ret (r, s') ∧ OInv s' := by
  cases op with
  | make => exact ⟨_, _, rfl, h.make⟩
  | discard v => exact ⟨_, _, rfl, h.discard ha⟩
  | allocate p v => exact ⟨_, _, rfl, h.moveIn ha.1 (by rw [ha.2]; simp [Kind.Holds]) (.inl rfl)⟩
  | fromMaybeUninit p =>
    exact ⟨_, _, rfl, h.rekind (p := p) (k := some .uninit) (by rw [show s.kind p = none from ha]; simp [Kind.Holds]) (by simp)⟩
  | fromMut p bits =>
    exact ⟨_, _, rfl, h.scribble (by rw [show s.kind p = none from ha]; simp [Kind.Holds]) (by simp [Kind.Holds])⟩
  | write p v => exact ⟨_, _, rfl, h.moveIn ha.1 (by rw [ha.2]; simp [Kind.Holds]) (.inl rfl)⟩
  | fill p v => exact ⟨_, _, rfl, h.moveIn ha.1 (by rw [ha.2]; simp [Kind.Holds]) (.inr (.inl rfl))⟩
  | assumeInit p =>
    exact ⟨_, _, rfl, h.rekind (p := p) (k := some .boxed) (by rw [show s.kind p = _ from ha]; simp [Kind.Holds]) (by simp)⟩
  | deref p =>
    have : ∃ v, s.st.mem p = some v := by
      rcases ha with ha | ha
      · exact h.full p (.inl ha)
      · exact h.copy p ha
    obtain ⟨v, hv⟩ := this
    exact ⟨.val v, s, by simp only [lexec, LeakBox.deref, ptrRead, hv]; rfl, h⟩
  | replace p v =>
    obtain ⟨w, hw⟩ := h.full p (.inl ha.2)
    have hx : lexec s (.replace p v) = .ret (.val w, { s with st := ptrWrite s.st p v, owned := w :: s.owned.erase v }) := by
      simp only [lexec, LeakBox.replace, ptrRead, hw]; rfl
    exact ⟨_, _, hx, h.exchange ⟨hw, .inl ha.2⟩ ha.1⟩
  | assign p v =>
    obtain ⟨w, hw⟩ := h.full p (.inl ha.2)
    have hx : lexec s (.assign p v) = .ret (unwoundRet (s.st.panics w), { s with st := ptrWrite { s.st with dropped := w :: s.st.dropped } p v, owned := s.owned.erase v }) := by
      simp only [lexec, LeakBox.assign, dropInPlace, hw]; rfl
    exact ⟨_, _, hx, h.overwrite ⟨hw, .inl ha.2⟩ ha.1⟩
  | take p =>
    have hk : s.kind p = _ := ha
    obtain ⟨w, hw⟩ := h.full p (.inl hk)
    have hx : lexec s (.take p) = .ret (.val w, { (s.setKind p none) with owned := w :: s.owned }) := by
      simp only [lexec, LeakBox.take, ptrRead, hw]; rfl
    exact ⟨_, _, hx, h.moveOut ⟨hw, .inl hk⟩ (by simp [Kind.Holds]) (by simp)⟩
  | intoRaw p =>
    exact ⟨_, _, rfl, h.rekind (p := p) (k := some .raw) (by rw [show s.kind p = _ from ha]; simp [Kind.Holds]) (by simp)⟩
  | fromRaw p =>
    exact ⟨_, _, rfl, h.rekind (p := p) (k := some .boxed) (by rw [show s.kind p = _ from ha]; simp [Kind.Holds]) (by simp)⟩
  | leak p =>
    exact ⟨_, _, rfl, h.rekind (p := p) (k := some .raw) (by rw [show s.kind p = _ from ha]; simp [Kind.Holds]) (by simp)⟩
  | dropRaw p =>
    have hk : s.kind p = _ := ha
    obtain ⟨w, hw⟩ := h.full p (.inr (.inr hk))
    have hx : lexec s (.dropRaw p) = .ret (unwoundRet (s.st.panics w), { (s.setKind p none) with st := { s.st with dropped := w :: s.st.dropped } }) := by
      simp only [lexec, dropInPlace, hw]; rfl
    exact ⟨_, _, hx, h.dropAt ⟨hw, .inr (.inr hk)⟩ (by simp [Kind.Holds]) (by simp)⟩
  | drop p =>
    rcases ha with hk | hk | hk | hk
    · obtain ⟨w, hw⟩ := h.full p (.inl hk)
      have hx : lexec s (.drop p) = .ret (unwoundRet (s.st.panics w), { (s.setKind p none) with st := { s.st with dropped := w :: s.st.dropped } }) := by
        simp only [lexec, LeakBox.drop, hk, decide_true, dropInPlace, hw]; rfl
      exact ⟨_, _, hx, h.dropAt ⟨hw, .inl hk⟩ (by simp [Kind.Holds]) (by simp)⟩
    · have hx : lexec s (.drop p) = .ret (.unit, s.setKind p none) := by
        simp only [lexec, LeakBox.drop, hk]; rfl
      exact ⟨_, _, hx, h.rekind (by rw [hk]; simp [Kind.Holds]) (by simp)⟩
    · have hx : lexec s (.drop p) = .ret (.unit, s.setKind p none) := by
        simp only [lexec, LeakBox.drop, hk]; rfl
      exact ⟨_, _, hx, h.rekind (by rw [hk]; simp [Kind.Holds]) (by simp)⟩
    · have hx : lexec s (.drop p) = .ret (.unit, s.setKind p (some .raw)) := by
        simp only [lexec, LeakBox.drop, hk]; rfl
      exact ⟨_, _, hx, h.rekind (by rw [hk]; simp [Kind.Holds]) (by simp)⟩

theorem Owned.LReach.inv {s : OState} (h : LReach s) : OInv s := by
  induction h with
  | init => exact .init
  | step h ha hx ih =>
    obtain ⟨r, s', h1, h2⟩ := lexec_inv ih ha
    rw [h1] at hx; cases hx; exact h2

/-- **C33** In every history of `LeakBox`es every value is in exactly one of: a variable of the user (never moved in, or moved out), dropped — and then
dropped once — or in the memory of exactly one box, raw pointer or leaked reference. Values do not vanish. -/
theorem C33_conserved {s : OState} (h : LReach s) : s.Conserved := h.inv.conserved

/-- **C33** No operation reads uninitialised memory. -/
theorem C33_no_ub {s : OState} (h : LReach s) {op : LOp} (ha : op.Allowed s) : ∃ r s', lexec s op = .ret (r, s') :=
  let ⟨r, s', h1, _⟩ := lexec_inv h.inv ha; ⟨r, s', h1⟩

/-- **C33** A value that can be read through a box is neither dropped nor moved out. -/
theorem C33_readable_is_live {s : OState} (h : LReach s) {p : Nat} (hk : s.kind p = some .boxed) :
    ∃ v, lexec s (.deref p) = .ret (.val v, s) ∧ s.Where v (.at p) ∧ v ∉ s.st.dropped ∧ v ∉ s.owned := by
  obtain ⟨v, hv⟩ := h.inv.full p (.inl hk)
  have hh : s.Holds p v := ⟨hv, .inl hk⟩
  exact ⟨v, by simp only [lexec, LeakBox.deref, ptrRead, hv]; rfl, hh, (h.inv.held p v hh).2, (h.inv.held p v hh).1⟩

/-- **C33** What each way to get rid of a box does to the value `v` in it: `drop` runs its destructor, exactly that one; `take` moves it out and runs none;
`leak` and `into_raw` leave it in place and run none. In each case the box is gone. -/
theorem C33_ends {s : OState} {p v : Nat} (hk : s.kind p = some .boxed) (hv : s.st.mem p = some v) :
    (∃ r s', lexec s (.drop p) = .ret (r, s') ∧ s'.st.dropped = v :: s.st.dropped ∧ s'.owned = s.owned ∧ s'.kind p = none ∧
      (r = .unwound ↔ s.st.panics v)) ∧
    (∃ s', lexec s (.take p) = .ret (.val v, s') ∧ s'.st.dropped = s.st.dropped ∧ s'.owned = v :: s.owned ∧ s'.kind p = none) ∧
    (∃ s', lexec s (.leak p) = .ret (.unit, s') ∧ s'.st = s.st ∧ s'.owned = s.owned ∧ s'.kind p = some .raw) ∧
    (∃ s', lexec s (.intoRaw p) = .ret (.unit, s') ∧ s'.st = s.st ∧ s'.owned = s.owned ∧ s'.kind p = some .raw) := by
  have hd : lexec s (.drop p) = .ret (unwoundRet (s.st.panics v), { (s.setKind p none) with st := { s.st with dropped := v :: s.st.dropped } }) := by
    simp only [lexec, LeakBox.drop, hk, decide_true, dropInPlace, hv]; rfl
  have ht : lexec s (.take p) = .ret (.val v, { (s.setKind p none) with owned := v :: s.owned }) := by
    simp only [lexec, LeakBox.take, ptrRead, hv]; rfl
  refine ⟨⟨_, _, hd, rfl, rfl, if_pos rfl, ?_⟩, ⟨_, ht, rfl, rfl, if_pos rfl⟩, ⟨_, rfl, rfl, rfl, if_pos rfl⟩, ⟨_, rfl, rfl, rfl, if_pos rfl⟩⟩
  unfold unwoundRet
  cases s.st.panics v <;> simp

/-- **C33** If all boxes are gone, none was leaked, and the user's variables are gone too, each value has been dropped exactly once. -/
theorem C33_all_dropped {s : OState} (h : LReach s) (hb : ∀ p, s.kind p = none ∨ s.kind p = some .uninit ∨ s.kind p = some .copy)
    (ho : s.owned = []) : s.st.dropped.Perm (List.range s.next) := by
  rw [List.perm_ext_iff_of_nodup h.inv.dropped List.nodup_range]
  intro v
  rw [List.mem_range, h.inv.all v, ho]
  constructor
  · intro hv; exact .inr (.inl hv)
  · rintro (hv | hv | ⟨p, _, hk⟩)
    · cases hv
    · exact hv
    · rcases hb p with hb | hb | hb <;> rw [hb] at hk <;> simp [Kind.Holds] at hk

/-- A history: a value is boxed, replaced by another, the box goes through a raw pointer and is dropped. -/
example : ∃ s, LReach s ∧ s.st.dropped = [1] ∧ s.owned = [0] ∧ s.next = 2 := by
  let s0 : OState := ⟨⟨fun _ => none, [], fun _ => false⟩, fun _ => none, [], 0⟩
  have h0 : LReach s0 := .init
  have h1 := h0.step (op := .make) trivial rfl
  have h2 := h1.step (op := .make) trivial rfl
  have h3 := h2.step (op := .allocate 7 0) ⟨by decide, rfl⟩ rfl
  have h4 := h3.step (op := .replace 7 1) ⟨by decide, rfl⟩ rfl
  have h5 := h4.step (op := .intoRaw 7) rfl rfl
  have h6 := h5.step (op := .fromRaw 7) rfl rfl
  have h7 := h6.step (op := .drop 7) (.inl rfl) rfl
  exact ⟨_, h7, rfl, rfl, rfl⟩

/-! ## C51 -/

theorem Owned.bexec_inv {s : OState} (h : OInv s) {op : BOp} (ha : op.Allowed s) : ∃ r s', bexec s op = .ret (r, s') ∧ OInv s' := by
  cases op with
  | make => exact ⟨_, _, rfl, h.make⟩
  | discard v => exact ⟨_, _, rfl, h.discard ha⟩
  | memory p => exact ⟨_, _, rfl, h.rekind (p := p) (k := some .uninit) (by rw [show s.kind p = _ from ha]; simp [Kind.Holds]) (by simp)⟩
  | release p => exact ⟨_, _, rfl, h.rekind (p := p) (k := none) (by rw [show s.kind p = _ from ha]; simp [Kind.Holds]) (by simp)⟩
  | new v p => exact ⟨_, _, rfl, h.moveIn ha.1 (by rw [ha.2]; simp [Kind.Holds]) (.inl rfl)⟩
  | deref p =>
    obtain ⟨v, hv⟩ := h.full p (.inl ha)
    exact ⟨.val v, s, by simp only [bexec, WBox.deref, ptrRead, hv]; rfl, h⟩
  | replace p v =>
    obtain ⟨w, hw⟩ := h.full p (.inl ha.2)
    have hx : bexec s (.replace p v) = .ret (.val w, { s with st := ptrWrite s.st p v, owned := w :: s.owned.erase v }) := by
      simp only [bexec, WBox.replace, ptrRead, hw]; rfl
    exact ⟨_, _, hx, h.exchange ⟨hw, .inl ha.2⟩ ha.1⟩
  | take p =>
    have hk : s.kind p = _ := ha
    obtain ⟨w, hw⟩ := h.full p (.inl hk)
    have hx : bexec s (.take p) = .ret (.val w, { (s.setKind p (some .uninit)) with owned := w :: s.owned }) := by
      simp only [bexec, WBox.take, ptrRead, hw]; rfl
    exact ⟨_, _, hx, h.moveOut ⟨hw, .inl hk⟩ (by simp [Kind.Holds]) (by simp)⟩
  | intoRaw p =>
    exact ⟨_, _, rfl, h.rekind (p := p) (k := some .uninitFull) (by rw [show s.kind p = _ from ha]; simp [Kind.Holds]) (by simp)⟩
  | fromRaw p =>
    exact ⟨_, _, rfl, h.rekind (p := p) (k := some .boxed) (by rw [show s.kind p = _ from ha]; simp [Kind.Holds]) (by simp)⟩
  | leak p =>
    exact ⟨_, _, rfl, h.rekind (p := p) (k := some .raw) (by rw [show s.kind p = _ from ha]; simp [Kind.Holds]) (by simp)⟩
  | unsize p =>
    exact ⟨_, _, rfl, h.rekind (p := p) (k := some .boxed) (by rw [show s.kind p = _ from ha]) (by simp)⟩
  | drop p =>
    have hk : s.kind p = _ := ha
    obtain ⟨w, hw⟩ := h.full p (.inl hk)
    have hx : bexec s (.drop p) = .ret (unwoundRet (s.st.panics w), { (s.setKind p none) with st := { s.st with dropped := w :: s.st.dropped } }) := by
      simp only [bexec, WBox.drop, dropInPlace, hw]; rfl
    exact ⟨_, _, hx, h.dropAt ⟨hw, .inl hk⟩ (by simp [Kind.Holds]) (by simp)⟩

theorem Owned.BReach.inv {s : OState} (h : BReach s) : OInv s := by
  induction h with
  | init => exact .init
  | step h ha hx ih =>
    obtain ⟨r, s', h1, h2⟩ := bexec_inv ih ha
    rw [h1] at hx; cases hx; exact h2

/-- **C51** In every history of `Box`es every value is in exactly one of: a variable of the user, dropped (once), or in the memory of exactly one box, leaked reference
or memory gotten by `into_raw`. -/
theorem C51_conserved {s : OState} (h : BReach s) : s.Conserved := h.inv.conserved

/-- **C51** No operation reads uninitialised memory. -/
theorem C51_no_ub {s : OState} (h : BReach s) {op : BOp} (ha : op.Allowed s) : ∃ r s', bexec s op = .ret (r, s') :=
  let ⟨r, s', h1, _⟩ := bexec_inv h.inv ha; ⟨r, s', h1⟩

/-- **C51** What can be read through a box is neither dropped nor moved out. -/
theorem C51_readable_is_live {s : OState} (h : BReach s) {p : Nat} (hk : s.kind p = some .boxed) :
    ∃ v, bexec s (.deref p) = .ret (.val v, s) ∧ s.Where v (.at p) ∧ v ∉ s.st.dropped ∧ v ∉ s.owned := by
  obtain ⟨v, hv⟩ := h.inv.full p (.inl hk)
  have hh : s.Holds p v := ⟨hv, .inl hk⟩
  exact ⟨v, by simp only [bexec, WBox.deref, ptrRead, hv]; rfl, hh, (h.inv.held p v hh).2, (h.inv.held p v hh).1⟩

/-- **C51** What each way to end a box does to its value: `drop` runs exactly its destructor; `take` moves it out and gives the memory back; `leak`, `into_raw` leave it in place;
unsizing keeps box and value. -/
theorem C51_ends {s : OState} {p v : Nat} (hk : s.kind p = some .boxed) (hv : s.st.mem p = some v) :
    (∃ r s', bexec s (.drop p) = .ret (r, s') ∧ s'.st.dropped = v :: s.st.dropped ∧ s'.owned = s.owned ∧ s'.kind p = none ∧
      (r = .unwound ↔ s.st.panics v)) ∧
    (∃ s', bexec s (.take p) = .ret (.val v, s') ∧ s'.st.dropped = s.st.dropped ∧ s'.owned = v :: s.owned ∧ s'.kind p = some .uninit) ∧
    (∃ s', bexec s (.leak p) = .ret (.unit, s') ∧ s'.st = s.st ∧ s'.owned = s.owned ∧ s'.kind p = some .raw) ∧
    (∃ s', bexec s (.intoRaw p) = .ret (.unit, s') ∧ s'.st = s.st ∧ s'.owned = s.owned ∧ s'.kind p = some .uninitFull) ∧
    (∃ s', bexec s (.unsize p) = .ret (.unit, s') ∧ s'.st = s.st ∧ s'.owned = s.owned ∧ s'.kind = s.kind) := by
  have hd : bexec s (.drop p) = .ret (unwoundRet (s.st.panics v), { (s.setKind p none) with st := { s.st with dropped := v :: s.st.dropped } }) := by
    simp only [bexec, WBox.drop, dropInPlace, hv]; rfl
  have ht : bexec s (.take p) = .ret (.val v, { (s.setKind p (some .uninit)) with owned := v :: s.owned }) := by
    simp only [bexec, WBox.take, ptrRead, hv]; rfl
  refine ⟨⟨_, _, hd, rfl, rfl, if_pos rfl, ?_⟩, ⟨_, ht, rfl, rfl, if_pos rfl⟩, ⟨_, rfl, rfl, rfl, if_pos rfl⟩, ⟨_, rfl, rfl, rfl, if_pos rfl⟩,
    ⟨_, rfl, rfl, rfl, ?_⟩⟩
  · unfold unwoundRet
    cases s.st.panics v <;> simp
  · funext x
    by_cases hx : x = p
    · subst hx; simp [OState.setKind, WBox.replacePtr, WBox.fromRaw, WBox.asSizedPtr, hk]
    · simp [OState.setKind, WBox.replacePtr, WBox.fromRaw, WBox.asSizedPtr, hx]

/-- **C51** When everything is gone and nothing leaked, each value has been dropped exactly once. -/
theorem C51_all_dropped {s : OState} (h : BReach s) (hb : ∀ p, s.kind p = none ∨ s.kind p = some .uninit)
    (ho : s.owned = []) : s.st.dropped.Perm (List.range s.next) := by
  rw [List.perm_ext_iff_of_nodup h.inv.dropped List.nodup_range]
  intro v
  rw [List.mem_range, h.inv.all v, ho]
  constructor
  · intro hv; exact .inr (.inl hv)
  · rintro (hv | hv | ⟨p, _, hk⟩)
    · cases hv
    · exact hv
    · rcases hb p with hb | hb <;> rw [hb] at hk <;> simp [Kind.Holds] at hk

/-- A history: box, take (memory back), box again in the same memory, drop. -/
example : ∃ s, BReach s ∧ s.st.dropped = [1] ∧ s.owned = [0] ∧ s.next = 2 := by
  let s0 : OState := ⟨⟨fun _ => none, [], fun _ => false⟩, fun _ => none, [], 0⟩
  have h0 : BReach s0 := .init
  have h1 := h0.step (op := .make) trivial rfl
  have h2 := h1.step (op := .make) trivial rfl
  have h3 := h2.step (op := .memory 7) rfl rfl
  have h4 := h3.step (op := .new 0 7) ⟨by decide, rfl⟩ rfl
  have h5 := h4.step (op := .take 7) rfl rfl
  have h6 := h5.step (op := .new 1 7) ⟨by decide, rfl⟩ rfl
  have h7 := h6.step (op := .unsize 7) rfl rfl
  have h8 := h7.step (op := .drop 7) rfl rfl
  exact ⟨_, h8, rfl, rfl, rfl⟩

end Verif
