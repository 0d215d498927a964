import Verif.Props.Boxes
import Verif.Spec.Boxes
/-! # C33, C51: refinement of boxes -/
namespace Verif
open Owned

namespace Owned

/-- What the memory and the handle of a place have to be. -/
def CellRel (k : Option Kind) (m : Option Nat) : Cell → Prop
  | .free => k = none
  | .boxed v => k = some .boxed ∧ m = some v
  | .copy v => k = some .copy ∧ m = some v
  | .uninit => k = some .uninit
  | .uninitFull v => k = some .uninitFull ∧ m = some v
  | .raw v => k = some .raw ∧ m = some v

structure BRel (panics : Nat → Bool) (s : OState) (ss : SBoxes) : Prop where
  panics : s.st.panics = panics
  owned : s.owned = ss.owned
  dropped : s.st.dropped = ss.dropped
  next : s.next = ss.next
  cells : ∀ p, CellRel (s.kind p) (s.st.mem p) (ss.cells p)

variable {panics : Nat → Bool} {s : OState} {ss : SBoxes}

theorem BRel.boxed (r : BRel panics s ss) {p : Nat} (h : s.kind p = some .boxed) : s.st.mem p = some (ss.value p) ∧ ss.cells p = .boxed (ss.value p) := by
  have hc := r.cells p
  unfold SBoxes.value
  cases hx : ss.cells p <;> simp only [hx, CellRel, h] at hc ⊢ <;> simp_all
theorem BRel.full (r : BRel panics s ss) {p : Nat} (h : s.kind p = some .uninitFull) : s.st.mem p = some (ss.value p) ∧ ss.cells p = .uninitFull (ss.value p) := by
  have hc := r.cells p
  unfold SBoxes.value
  cases hx : ss.cells p <;> simp only [hx, CellRel, h] at hc ⊢ <;> simp_all
theorem BRel.copy (r : BRel panics s ss) {p : Nat} (h : s.kind p = some .copy) : s.st.mem p = some (ss.value p) ∧ ss.cells p = .copy (ss.value p) := by
  have hc := r.cells p
  unfold SBoxes.value
  cases hx : ss.cells p <;> simp only [hx, CellRel, h] at hc ⊢ <;> simp_all
theorem BRel.raw (r : BRel panics s ss) {p : Nat} (h : s.kind p = some .raw) : s.st.mem p = some (ss.value p) ∧ ss.cells p = .raw (ss.value p) := by
  have hc := r.cells p
  unfold SBoxes.value
  cases hx : ss.cells p <;> simp only [hx, CellRel, h] at hc ⊢ <;> simp_all
theorem BRel.uninit (r : BRel panics s ss) {p : Nat} (h : s.kind p = some .uninit) : ss.cells p = .uninit := by
  have hc := r.cells p
  cases hx : ss.cells p <;> simp only [hx, CellRel, h] at hc ⊢ <;> simp_all

/-- A change at one place. -/
theorem BRel.at (r : BRel panics s ss) {s' : OState} {ss' : SBoxes} (p : Nat) (h1 : s'.st.panics = s.st.panics) (h2 : s'.owned = ss'.owned) (h3 : s'.st.dropped = ss'.dropped) (h4 : s'.next = ss'.next)
    (hk : ∀ q, q ≠ p → s'.kind q = s.kind q) (hm : ∀ q, q ≠ p → s'.st.mem q = s.st.mem q) (hc : ∀ q, q ≠ p → ss'.cells q = ss.cells q) (hp : CellRel (s'.kind p) (s'.st.mem p) (ss'.cells p)) : BRel panics s' ss' where
  panics := h1.trans r.panics
  owned := h2
  dropped := h3
  next := h4
  cells := fun q => by
    by_cases hq : q = p
    · subst hq; exact hp
    · rw [hk q hq, hm q hq, hc q hq]; exact r.cells q

theorem lsim (r : BRel panics s ss) {op : LOp} (ha : op.Allowed s) : ∃ s', lexec s op = .ret ((lspec panics ss op).1, s') ∧ BRel panics s' (lspec panics ss op).2 := by
  cases op with
  | make => exact ⟨{ s with owned := s.next :: s.owned, next := s.next + 1 }, by simp only [lexec, lspec, r.next]; rfl, ⟨r.panics, by simp [lspec, r.owned, r.next], r.dropped, by simp [lspec, r.next], r.cells⟩⟩
  | discard v => exact ⟨{ s with st := { s.st with dropped := v :: s.st.dropped }, owned := s.owned.erase v }, by simp only [lexec, lspec, ← r.panics]; rfl, ⟨r.panics, by simp [lspec, r.owned], by simp [lspec, r.dropped], r.next, r.cells⟩⟩
  | allocate p v =>
    exact ⟨_, rfl, r.at p rfl (by simp [lspec, SBoxes.put, SBoxes.set, r.owned]) r.dropped r.next (fun q hq => if_neg hq) (fun q hq => if_neg hq) (fun q hq => if_neg hq) (by simp [lspec, SBoxes.put, SBoxes.set, CellRel, OState.setKind, LeakBox.newFromRawNonNull, ptrWrite])⟩
  | fromMaybeUninit p =>
    exact ⟨_, rfl, r.at p rfl r.owned r.dropped r.next (fun q hq => if_neg hq) (fun q hq => rfl) (fun q hq => if_neg hq) (by simp [lspec, SBoxes.set, CellRel, OState.setKind, LeakBox.fromRaw])⟩
  | fromMut p v =>
    exact ⟨_, rfl, r.at p rfl r.owned r.dropped r.next (fun q hq => if_neg hq) (fun q hq => if_neg hq) (fun q hq => if_neg hq) (by simp [lspec, SBoxes.set, CellRel, OState.setKind, LeakBox.fromRaw, ptrWrite])⟩
  | write p v =>
    exact ⟨_, rfl, r.at p rfl (by simp [lspec, SBoxes.put, SBoxes.set, r.owned]) r.dropped r.next (fun q hq => if_neg hq) (fun q hq => if_neg hq) (fun q hq => if_neg hq) (by simp [lspec, SBoxes.put, SBoxes.set, CellRel, OState.setKind, ptrWrite])⟩
  | fill p v =>
    exact ⟨_, rfl, r.at p rfl (by simp [lspec, SBoxes.put, SBoxes.set, r.owned]) r.dropped r.next (fun q hq => if_neg hq) (fun q hq => if_neg hq) (fun q hq => if_neg hq) (by simp [lspec, SBoxes.put, SBoxes.set, CellRel, OState.setKind, ptrWrite])⟩
  | assumeInit p =>
    obtain ⟨h1, h2⟩ := r.full ha
    exact ⟨_, rfl, r.at p rfl r.owned r.dropped r.next (fun q hq => if_neg hq) (fun q hq => rfl) (fun q hq => if_neg hq) (by simp [lspec, SBoxes.set, CellRel, OState.setKind, h1])⟩
  | deref p =>
    have h1 : s.st.mem p = some (ss.value p) := by
      rcases ha with ha | ha
      · exact (r.boxed ha).1
      · exact (r.copy ha).1
    exact ⟨s, by simp only [lexec, LeakBox.deref, ptrRead, h1]; rfl, r⟩
  | replace p v =>
    obtain ⟨h1, h2⟩ := r.boxed ha.2
    refine ⟨{ s with st := ptrWrite s.st p v, owned := ss.value p :: s.owned.erase v }, by simp only [lexec, LeakBox.replace, ptrRead, h1]; rfl, ?_⟩
    exact r.at p rfl (by simp [lspec, SBoxes.put, SBoxes.set, r.owned]) r.dropped r.next (fun q hq => rfl) (fun q hq => if_neg hq) (fun q hq => if_neg hq) (by simp [lspec, SBoxes.put, SBoxes.set, CellRel, ptrWrite, ha.2])
  | assign p v =>
    obtain ⟨h1, h2⟩ := r.boxed ha.2
    refine ⟨{ s with st := ptrWrite { s.st with dropped := ss.value p :: s.st.dropped } p v, owned := s.owned.erase v }, by simp only [lexec, LeakBox.assign, dropInPlace, h1, ← r.panics]; rfl, ?_⟩
    exact r.at p rfl (by simp [lspec, SBoxes.put, SBoxes.set, r.owned]) (by simp [lspec, ptrWrite, r.dropped]) r.next (fun q hq => rfl) (fun q hq => if_neg hq) (fun q hq => if_neg hq) (by simp [lspec, SBoxes.put, SBoxes.set, CellRel, ptrWrite, ha.2])
  | take p =>
    obtain ⟨h1, h2⟩ := r.boxed ha
    refine ⟨{ (s.setKind p none) with owned := ss.value p :: s.owned }, by simp only [lexec, LeakBox.take, ptrRead, h1]; rfl, ?_⟩
    exact r.at p rfl (by simp [lspec, r.owned]) r.dropped r.next (fun q hq => if_neg hq) (fun q hq => rfl) (fun q hq => if_neg hq) (by simp [lspec, SBoxes.set, CellRel, OState.setKind])
  | intoRaw p =>
    obtain ⟨h1, h2⟩ := r.boxed ha
    exact ⟨_, rfl, r.at p rfl r.owned r.dropped r.next (fun q hq => if_neg hq) (fun q hq => rfl) (fun q hq => if_neg hq) (by simp [lspec, SBoxes.set, CellRel, OState.setKind, LeakBox.intoRaw, h1])⟩
  | fromRaw p =>
    obtain ⟨h1, h2⟩ := r.raw ha
    exact ⟨_, rfl, r.at p rfl r.owned r.dropped r.next (fun q hq => if_neg hq) (fun q hq => rfl) (fun q hq => if_neg hq) (by simp [lspec, SBoxes.set, CellRel, OState.setKind, LeakBox.fromRaw, h1])⟩
  | leak p =>
    obtain ⟨h1, h2⟩ := r.boxed ha
    exact ⟨_, rfl, r.at p rfl r.owned r.dropped r.next (fun q hq => if_neg hq) (fun q hq => rfl) (fun q hq => if_neg hq) (by simp [lspec, SBoxes.set, CellRel, OState.setKind, LeakBox.leak, LeakBox.intoRaw, h1])⟩
  | dropRaw p =>
    obtain ⟨h1, h2⟩ := r.raw ha
    refine ⟨{ (s.setKind p none) with st := { s.st with dropped := ss.value p :: s.st.dropped } }, by simp only [lexec, dropInPlace, h1, ← r.panics]; rfl, ?_⟩
    exact r.at p rfl r.owned (by simp [lspec, r.dropped]) r.next (fun q hq => if_neg hq) (fun q hq => rfl) (fun q hq => if_neg hq) (by simp [lspec, SBoxes.set, CellRel, OState.setKind])
  | drop p =>
    rcases ha with hk | hk | hk | hk
    · obtain ⟨h1, h2⟩ := r.boxed hk
      have hs : lspec panics ss (.drop p) = (unwoundRet (panics (ss.value p)), { ss.set p .free with dropped := ss.value p :: ss.dropped }) := by simp only [lspec]; rw [h2]
      rw [hs]
      refine ⟨{ (s.setKind p none) with st := { s.st with dropped := ss.value p :: s.st.dropped } }, by simp only [lexec, LeakBox.drop, hk, decide_true, dropInPlace, h1, ← r.panics]; rfl, ?_⟩
      exact r.at p rfl r.owned (by simp [r.dropped]) r.next (fun q hq => if_neg hq) (fun q hq => rfl) (fun q hq => if_neg hq) (by simp [SBoxes.set, CellRel, OState.setKind])
    · obtain ⟨h1, h2⟩ := r.copy hk
      have hs : lspec panics ss (.drop p) = (.unit, ss.set p .free) := by simp only [lspec]; rw [h2]
      rw [hs]
      refine ⟨s.setKind p none, by simp only [lexec, LeakBox.drop, hk]; rfl, ?_⟩
      exact r.at p rfl r.owned r.dropped r.next (fun q hq => if_neg hq) (fun q hq => rfl) (fun q hq => if_neg hq) (by simp [SBoxes.set, CellRel, OState.setKind])
    · have h2 := r.uninit hk
      have hs : lspec panics ss (.drop p) = (.unit, ss.set p .free) := by simp only [lspec]; rw [h2]
      rw [hs]
      refine ⟨s.setKind p none, by simp only [lexec, LeakBox.drop, hk]; rfl, ?_⟩
      exact r.at p rfl r.owned r.dropped r.next (fun q hq => if_neg hq) (fun q hq => rfl) (fun q hq => if_neg hq) (by simp [SBoxes.set, CellRel, OState.setKind])
    · obtain ⟨h1, h2⟩ := r.full hk
      have hs : lspec panics ss (.drop p) = (.unit, ss.set p (.raw (ss.value p))) := by simp only [lspec]; rw [h2]
      rw [hs]
      refine ⟨s.setKind p (some .raw), by simp only [lexec, LeakBox.drop, hk]; rfl, ?_⟩
      exact r.at p rfl r.owned r.dropped r.next (fun q hq => if_neg hq) (fun q hq => rfl) (fun q hq => if_neg hq) (by simp [SBoxes.set, CellRel, OState.setKind, h1])

theorem bsim (r : BRel panics s ss) {op : BOp} (ha : op.Allowed s) : ∃ s', bexec s op = .ret ((bspec panics ss op).1, s') ∧ BRel panics s' (bspec panics ss op).2 := by
  cases op with
  | make => exact ⟨{ s with owned := s.next :: s.owned, next := s.next + 1 }, by simp only [bexec, bspec, r.next]; rfl, ⟨r.panics, by simp [bspec, r.owned, r.next], r.dropped, by simp [bspec, r.next], r.cells⟩⟩
  | discard v => exact ⟨{ s with st := { s.st with dropped := v :: s.st.dropped }, owned := s.owned.erase v }, by simp only [bexec, bspec, ← r.panics]; rfl, ⟨r.panics, by simp [bspec, r.owned], by simp [bspec, r.dropped], r.next, r.cells⟩⟩
  | memory p =>
    exact ⟨_, rfl, r.at p rfl r.owned r.dropped r.next (fun q hq => if_neg hq) (fun q hq => rfl) (fun q hq => if_neg hq) (by simp [bspec, SBoxes.set, CellRel, OState.setKind])⟩
  | release p =>
    exact ⟨_, rfl, r.at p rfl r.owned r.dropped r.next (fun q hq => if_neg hq) (fun q hq => rfl) (fun q hq => if_neg hq) (by simp [bspec, SBoxes.set, CellRel, OState.setKind])⟩
  | new v p =>
    exact ⟨_, rfl, r.at p rfl (by simp [bspec, SBoxes.put, SBoxes.set, r.owned]) r.dropped r.next (fun q hq => if_neg hq) (fun q hq => if_neg hq) (fun q hq => if_neg hq) (by simp [bspec, SBoxes.put, SBoxes.set, CellRel, OState.setKind, WBox.new, ptrWrite])⟩
  | deref p =>
    have h1 := (r.boxed ha).1
    exact ⟨s, by simp only [bexec, WBox.deref, ptrRead, h1]; rfl, r⟩
  | replace p v =>
    obtain ⟨h1, h2⟩ := r.boxed ha.2
    refine ⟨{ s with st := ptrWrite s.st p v, owned := ss.value p :: s.owned.erase v }, by simp only [bexec, WBox.replace, ptrRead, h1]; rfl, ?_⟩
    exact r.at p rfl (by simp [bspec, SBoxes.put, SBoxes.set, r.owned]) r.dropped r.next (fun q hq => rfl) (fun q hq => if_neg hq) (fun q hq => if_neg hq) (by simp [bspec, SBoxes.put, SBoxes.set, CellRel, ptrWrite, ha.2])
  | take p =>
    obtain ⟨h1, h2⟩ := r.boxed ha
    refine ⟨{ (s.setKind p (some .uninit)) with owned := ss.value p :: s.owned }, by simp only [bexec, WBox.take, ptrRead, h1]; rfl, ?_⟩
    exact r.at p rfl (by simp [bspec, r.owned]) r.dropped r.next (fun q hq => if_neg hq) (fun q hq => rfl) (fun q hq => if_neg hq) (by simp [bspec, SBoxes.set, CellRel, OState.setKind])
  | intoRaw p =>
    obtain ⟨h1, h2⟩ := r.boxed ha
    exact ⟨_, rfl, r.at p rfl r.owned r.dropped r.next (fun q hq => if_neg hq) (fun q hq => rfl) (fun q hq => if_neg hq) (by simp [bspec, SBoxes.set, CellRel, OState.setKind, WBox.intoRaw, h1])⟩
  | fromRaw p =>
    obtain ⟨h1, h2⟩ := r.full ha
    exact ⟨_, rfl, r.at p rfl r.owned r.dropped r.next (fun q hq => if_neg hq) (fun q hq => rfl) (fun q hq => if_neg hq) (by simp [bspec, SBoxes.set, CellRel, OState.setKind, WBox.fromRaw, h1])⟩
  | leak p =>
    obtain ⟨h1, h2⟩ := r.boxed ha
    exact ⟨_, rfl, r.at p rfl r.owned r.dropped r.next (fun q hq => if_neg hq) (fun q hq => rfl) (fun q hq => if_neg hq) (by simp [bspec, SBoxes.set, CellRel, OState.setKind, WBox.leak, WBox.intoRaw, h1])⟩
  | unsize p =>
    obtain ⟨h1, h2⟩ := r.boxed ha
    exact ⟨_, rfl, r.at p rfl r.owned r.dropped r.next (fun q hq => if_neg hq) (fun q hq => rfl) (fun q hq => rfl) (by simp only [bspec]; rw [h2]; simp [CellRel, OState.setKind, WBox.replacePtr, WBox.fromRaw, WBox.asSizedPtr, WBox.intoRaw, h1])⟩
  | drop p =>
    obtain ⟨h1, h2⟩ := r.boxed ha
    refine ⟨{ (s.setKind p none) with st := { s.st with dropped := ss.value p :: s.st.dropped } }, by simp only [bexec, WBox.drop, dropInPlace, h1, ← r.panics]; rfl, ?_⟩
    exact r.at p rfl r.owned (by simp [bspec, r.dropped]) r.next (fun q hq => if_neg hq) (fun q hq => rfl) (fun q hq => if_neg hq) (by simp [bspec, SBoxes.set, CellRel, OState.setKind])

theorem run_sim {O : Type} {exec : OState → O → Outcome (LRet × OState)} {allowed : OState → O → Prop} {spec : SBoxes → O → LRet × SBoxes}
    (step : ∀ {s ss op}, BRel panics s ss → allowed s op → ∃ s', exec s op = .ret ((spec ss op).1, s') ∧ BRel panics s' (spec ss op).2)
    (r : BRel panics s ss) {ops : List O} (h : AllowedRun exec allowed s ops) :
    ∃ s', boxRun exec s ops = .ret ((specRun spec ss ops).1, s') ∧ BRel panics s' (specRun spec ss ops).2 := by
  induction ops generalizing s ss with
  | nil => exact ⟨s, rfl, r⟩
  | cons op ops ih =>
    obtain ⟨s1, e1, r1⟩ := step r h.1
    obtain ⟨s2, e2, r2⟩ := ih r1 (h.2 _ _ e1)
    exact ⟨s2, by simp only [boxRun, specRun, e1, e2, bind, Outcome.bind, pure], r2⟩

theorem brel_init (mem : Nat → Option Nat) (panics : Nat → Bool) : BRel panics (.initial mem panics) .init := ⟨rfl, rfl, rfl, rfl, fun _ => rfl⟩

end Owned

/-- **C33** Every history of calls on `LeakBox`es answers as the specification in which values are moved between places: what is read or moved out of a box is the value that was last put in it, whatever happens to other boxes; and the
destructors run are the same ones in the same order. -/
theorem C33_refines {mem : Nat → Option Nat} {panics : Nat → Bool} {ops : List LOp} (h : AllowedRun lexec (fun s op => op.Allowed s) (.initial mem panics) ops) :
    ∃ s', boxRun lexec (.initial mem panics) ops = .ret ((specRun (lspec panics) .init ops).1, s') ∧
      s'.st.dropped = (specRun (lspec panics) .init ops).2.dropped ∧ s'.owned = (specRun (lspec panics) .init ops).2.owned := by
  obtain ⟨s', e, r⟩ := run_sim (exec := lexec) (allowed := fun s op => op.Allowed s) (spec := lspec panics) (fun r ha => lsim r ha) (brel_init mem panics) h
  exact ⟨s', e, r.dropped, r.owned⟩

/-- **C51** The same for `Box`. -/
theorem C51_refines {mem : Nat → Option Nat} {panics : Nat → Bool} {ops : List Owned.BOp} (h : AllowedRun bexec (fun s op => op.Allowed s) (.initial mem panics) ops) :
    ∃ s', boxRun bexec (.initial mem panics) ops = .ret ((specRun (bspec panics) .init ops).1, s') ∧
      s'.st.dropped = (specRun (bspec panics) .init ops).2.dropped ∧ s'.owned = (specRun (bspec panics) .init ops).2.owned := by
  obtain ⟨s', e, r⟩ := run_sim (exec := bexec) (allowed := fun s op => op.Allowed s) (spec := bspec panics) (fun r ha => bsim r ha) (brel_init mem panics) h
  exact ⟨s', e, r.dropped, r.owned⟩

/-! ## Concrete histories -/
namespace Owned

def lallowedB (s : OState) : LOp → Bool
  | .make => true
  | .discard v => v ∈ s.owned
  | .allocate p v => v ∈ s.owned && s.kind p = none
  | .fromMaybeUninit p => s.kind p = none
  | .fromMut p _ => s.kind p = none
  | .write p v => v ∈ s.owned && s.kind p = some .uninit
  | .fill p v => v ∈ s.owned && s.kind p = some .uninit
  | .assumeInit p => s.kind p = some .uninitFull
  | .deref p => s.kind p = some .boxed || s.kind p = some .copy
  | .replace p v => v ∈ s.owned && s.kind p = some .boxed
  | .assign p v => v ∈ s.owned && s.kind p = some .boxed
  | .take p | .intoRaw p | .leak p => s.kind p = some .boxed
  | .fromRaw p | .dropRaw p => s.kind p = some .raw
  | .drop p => s.kind p = some .boxed || s.kind p = some .copy || s.kind p = some .uninit || s.kind p = some .uninitFull
theorem lallowedB_sound {s : OState} {op : LOp} (h : lallowedB s op = true) : op.Allowed s := by
  cases op <;> simp only [lallowedB, LOp.Allowed, Bool.and_eq_true, Bool.or_eq_true, decide_eq_true_eq, or_assoc] at * <;> exact h
def ballowedB (s : OState) : BOp → Bool
  | .make => true
  | .discard v => v ∈ s.owned
  | .memory p => s.kind p = none
  | .release p => s.kind p = some .uninit
  | .new v p => v ∈ s.owned && s.kind p = some .uninit
  | .deref p | .take p | .intoRaw p | .leak p | .unsize p | .drop p => s.kind p = some .boxed
  | .replace p v => v ∈ s.owned && s.kind p = some .boxed
  | .fromRaw p => s.kind p = some .uninitFull
theorem ballowedB_sound {s : OState} {op : BOp} (h : ballowedB s op = true) : op.Allowed s := by
  cases op <;> simp only [ballowedB, BOp.Allowed, Bool.and_eq_true, decide_eq_true_eq] at * <;> exact h
def runB {O : Type} (exec : OState → O → Outcome (LRet × OState)) (b : OState → O → Bool) : OState → List O → Bool
  | _, [] => true
  | s, op :: ops => b s op && match exec s op with | .ret (_, s') => runB exec b s' ops | _ => true
theorem runB_sound {O : Type} {exec : OState → O → Outcome (LRet × OState)} {b : OState → O → Bool} {allowed : OState → O → Prop} (hb : ∀ {s op}, b s op = true → allowed s op) {s : OState} {ops : List O} (h : runB exec b s ops = true) : AllowedRun exec allowed s ops := by
  induction ops generalizing s with
  | nil => trivial
  | cons op ops ih =>
    simp only [runB, Bool.and_eq_true] at h
    refine ⟨hb h.1, fun r s' e => ih ?_⟩
    have h2 := h.2
    rw [e] at h2
    exact h2

end Owned

/-- Two boxes; one value is replaced, its destructor unwinds at the end; memory with arbitrary contents before. -/
example : ∃ s, boxRun lexec (.initial (fun _ => some 9) (· == 1)) [.make, .make, .make, .allocate 7 0, .fromMaybeUninit 8, .fill 8 2, .replace 7 1, .deref 7, .assumeInit 8, .take 8, .discard 0, .drop 7, .fromMut 7 5, .deref 7, .drop 7] =
    .ret ([.val 0, .val 1, .val 2, .unit, .unit, .unit, .val 0, .val 1, .unit, .val 2, .unit, .unwound, .unit, .val 5, .unit], s) ∧ s.st.dropped = [1, 0] ∧ s.owned = [2] := by
  obtain ⟨s, e, h1, h2⟩ := C33_refines (runB_sound lallowedB_sound (show runB lexec lallowedB (.initial (fun _ => some 9) (· == 1)) [.make, .make, .make, .allocate 7 0, .fromMaybeUninit 8, .fill 8 2, .replace 7 1, .deref 7, .assumeInit 8, .take 8, .discard 0, .drop 7, .fromMut 7 5, .deref 7, .drop 7] = true by decide +kernel))
  exact ⟨s, e, h1, h2⟩
example : ∃ s, boxRun bexec (.initial (fun _ => none) (fun _ => false)) [.make, .make, .memory 3, .new 0 3, .memory 4, .new 1 4, .unsize 3, .deref 3, .intoRaw 4, .fromRaw 4, .take 3, .drop 4, .new 0 3, .deref 3] =
    .ret ([.val 0, .val 1, .unit, .unit, .unit, .unit, .unit, .val 0, .unit, .unit, .val 0, .unit, .unit, .val 0], s) ∧ s.st.dropped = [1] ∧ s.owned = [] := by
  obtain ⟨s, e, h1, h2⟩ := C51_refines (runB_sound ballowedB_sound (show runB bexec ballowedB (.initial (fun _ => none) (fun _ => false)) [.make, .make, .memory 3, .new 0 3, .memory 4, .new 1 4, .unsize 3, .deref 3, .intoRaw 4, .fromRaw 4, .take 3, .drop 4, .new 0 3, .deref 3] = true by decide +kernel))
  exact ⟨s, e, h1, h2⟩

end Verif
