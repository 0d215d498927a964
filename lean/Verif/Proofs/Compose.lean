import Verif.Spec.Compose
/-! # Non-interference, in general -/
namespace Verif.Compose
open Verif

/-- There is a relation between states and those of the specification that depends on the machine's own bytes only, and which every permitted call keeps, with the answer specified and writing to the machine's own bytes only. -/
def Machine.SoundBy (M : Machine) (Rel : M.St → Mem → M.Sp → Prop) : Prop :=
    (∀ m, M.ready m → Rel M.start m (M.sstart m)) ∧
    (∀ s m sp op, Rel s m sp → M.permitted s m op →
      ∃ s' m', M.exec s m op = some ((M.sexec sp op).1, s', m') ∧ (M.halts (M.sexec sp op).1 = false → Rel s' m' (M.sexec sp op).2) ∧ ∀ x, ¬ M.own x → m' x = m x) ∧
    (∀ s m m' sp, Rel s m sp → (∀ x, M.own x → m' x = m x) → Rel s m' sp)
def Machine.Sound (M : Machine) : Prop := ∃ Rel : M.St → Mem → M.Sp → Prop, M.SoundBy Rel

theorem Machine.Sound.run_srun {M : Machine} (h : M.Sound) {m : Mem} (hm : M.ready m) {ops : List M.Op} (hs : M.SafeRun M.start m ops) :
    ∃ s' m', M.run M.start m ops = some (M.srun (M.sstart m) ops, s', m') ∧ ∀ x, ¬ M.own x → m' x = m x := by
  obtain ⟨Rel, h1, h2, _⟩ := h
  have key : ∀ (ops : List M.Op) (s : M.St) (m : Mem) (sp : M.Sp), Rel s m sp → M.SafeRun s m ops →
      ∃ s' m', M.run s m ops = some (M.srun sp ops, s', m') ∧ ∀ x, ¬ M.own x → m' x = m x := by
    intro ops
    induction ops with
    | nil => intro s m sp _ _; exact ⟨s, m, rfl, fun _ _ => rfl⟩
    | cons op ops ih =>
      intro s m sp hr ⟨hp, hs⟩
      obtain ⟨s', m', e, hr', ho⟩ := h2 s m sp op hr hp
      simp only [Machine.run, Machine.srun, e]
      cases hh : M.halts (M.sexec sp op).1 with
      | true => exact ⟨s', m', by simp, ho⟩
      | false =>
        obtain ⟨s2, m2, e2, ho2⟩ := ih s' m' _ (hr' hh) (hs _ _ _ e hh)
        exact ⟨s2, m2, by simp [e2], fun x hx => (ho2 x hx).trans (ho x hx)⟩
  exact key ops _ m _ (h1 m hm) hs

section
variable {ι : Type} [DecidableEq ι] {M : ι → Machine}

theorem Vars.set_self (v : Vars M) (i : ι) (s : (M i).St) : v.set i s i = s := by simp [Vars.set]
theorem Vars.set_other (v : Vars M) {i j : ι} (s : (M i).St) (h : j ≠ i) : v.set i s j = v j := by simp [Vars.set, h]

theorem only_cons_self {F : ι → Type} {i : ι} {x : F i} {xs : List (Σ i, F i)} : only i (⟨i, x⟩ :: xs) = x :: only i xs := by simp [only]
theorem only_cons_other {F : ι → Type} {i j : ι} (h : j ≠ i) {x : F j} {xs : List (Σ i, F i)} : only i (⟨j, x⟩ :: xs) = only i xs := by simp [only, h]

/-- The answers of each are those of its specification, on its own calls up to where the program ended. -/
theorem run_each (hM : ∀ i, (M i).Sound) (ha : Apart M) {m : Mem} (hm : ∀ i, (M i).ready m) {ops : List (Σ i, (M i).Op)} (hs : SafeRun M (start M) m ops) :
    ∃ rs v' m', run M (start M) m ops = some (rs, v', m') ∧ rs.length ≤ ops.length ∧
      (∀ i, only i rs = (M i).srun ((M i).sstart m) (only i (ops.take rs.length))) ∧
      (rs.length < ops.length → ∃ x ∈ rs.getLast?, (M x.1).halts x.2 = true) ∧
      ∀ x, (∀ o ∈ ops, ¬ (M o.1).own x) → m' x = m x := by
  have hM : ∀ i, ∃ Rel : (M i).St → Mem → (M i).Sp → Prop, _ := hM
  let Rel := fun i => Classical.choose (hM i)
  have h1 := fun i => (Classical.choose_spec (hM i)).1
  have h2 := fun i => (Classical.choose_spec (hM i)).2.1
  have h3 := fun i => (Classical.choose_spec (hM i)).2.2
  have key : ∀ (ops : List (Σ i, (M i).Op)) (v : Vars M) (m : Mem) (sp : ∀ i, (M i).Sp), (∀ i, Rel i (v i) m (sp i)) → SafeRun M v m ops →
      ∃ rs v' m', run M v m ops = some (rs, v', m') ∧ rs.length ≤ ops.length ∧
        (∀ i, only i rs = (M i).srun (sp i) (only i (ops.take rs.length))) ∧
        (rs.length < ops.length → ∃ x ∈ rs.getLast?, (M x.1).halts x.2 = true) ∧
        ∀ x, (∀ o ∈ ops, ¬ (M o.1).own x) → m' x = m x := by
    intro ops
    induction ops with
    | nil => intro v m sp _ _; exact ⟨[], v, m, rfl, Nat.le_refl _, fun i => rfl, fun h => absurd h (Nat.lt_irrefl _), fun _ _ => rfl⟩
    | cons o ops ih =>
      obtain ⟨i, op⟩ := o
      intro v m sp hr ⟨hp, hs⟩
      obtain ⟨s', m', e, hr', ho⟩ := h2 i (v i) m (sp i) op (hr i) hp
      simp only [run, e]
      cases hh : (M i).halts ((M i).sexec (sp i) op).1 with
      | true =>
        refine ⟨[⟨i, ((M i).sexec (sp i) op).1⟩], v.set i s', m', by simp, by simp only [List.length_cons, List.length_nil]; omega, fun j => ?_, fun _ => ⟨⟨i, ((M i).sexec (sp i) op).1⟩, by simp, hh⟩, fun x hx => ho x (hx ⟨i, op⟩ (by simp))⟩
        by_cases hj : i = j
        · subst hj
          simp only [List.length_singleton, List.take_succ_cons, List.take_zero, only_cons_self]
          simp [only, Machine.srun, hh]
        · simp only [List.length_singleton, List.take_succ_cons, List.take_zero, only_cons_other hj]
          simp [only, Machine.srun]
      | false =>
        let sp' : ∀ j, (M j).Sp := fun j => if h : j = i then h ▸ ((M i).sexec (sp i) op).2 else sp j
        have hsp1 : sp' i = ((M i).sexec (sp i) op).2 := by simp [sp']
        have hsp2 : ∀ j, j ≠ i → sp' j = sp j := fun j h => by simp [sp', h]
        obtain ⟨rs, v2, m2, e2, hlen, hon, hlast, ho2⟩ := ih (v.set i s') m' sp' (fun j => by
          by_cases hj : j = i
          · subst hj
            rw [Vars.set_self, hsp1]
            exact hr' hh
          · rw [Vars.set_other _ _ hj, hsp2 j hj]
            exact h3 j _ m m' _ (hr j) fun x hx => ho x fun hx' => ha j i hj x ⟨hx, hx'⟩) (hs _ _ _ e hh)
        refine ⟨⟨i, ((M i).sexec (sp i) op).1⟩ :: rs, v2, m2, by simp [e2], by simpa using hlen, fun j => ?_, fun h => ?_, fun x hx => (ho2 x fun o h => hx o (by simp [h])).trans (ho x (hx ⟨i, op⟩ (by simp)))⟩
        · have := hon j
          by_cases hj : i = j
          · subst hj
            simp only [List.length_cons, List.take_succ_cons, only_cons_self, Machine.srun, hh]
            rw [this, hsp1]
            simp
          · simp only [List.length_cons, List.take_succ_cons, only_cons_other hj]
            rw [this, hsp2 j (Ne.symm hj)]
        · obtain ⟨x, hx, hx'⟩ := hlast (by simpa using h)
          refine ⟨x, ?_, hx'⟩
          cases rs with
          | nil => simp at hx
          | cons r rs => simpa using hx
  exact key ops _ m _ (fun i => h1 i m (hm i)) hs

/-- A program is one that is permitted if a check says so for each call. -/
def checkRun (check : ∀ i, (M i).St → Mem → (M i).Op → Bool) : Vars M → Mem → List (Σ i, (M i).Op) → Bool
  | _, _, [] => true
  | v, m, ⟨i, op⟩ :: ops => check i (v i) m op && match (M i).exec (v i) m op with | some (_, s, m') => checkRun check (v.set i s) m' ops | none => false

theorem safe_of_check {Rel : ∀ i, (M i).St → Mem → (M i).Sp → Prop} (hM : ∀ i, (M i).SoundBy (Rel i)) (ha : Apart M) {check : ∀ i, (M i).St → Mem → (M i).Op → Bool}
    (hc : ∀ i s m sp op, Rel i s m sp → check i s m op = true → (M i).permitted s m op) {m : Mem} (hm : ∀ i, (M i).ready m) {ops : List (Σ i, (M i).Op)}
    (h : checkRun check (start M) m ops = true) : SafeRun M (start M) m ops := by
  have key : ∀ (ops : List (Σ i, (M i).Op)) (v : Vars M) (m : Mem) (sp : ∀ i, (M i).Sp), (∀ i, Rel i (v i) m (sp i)) → checkRun check v m ops = true → SafeRun M v m ops := by
    intro ops
    induction ops with
    | nil => intro _ _ _ _ _; trivial
    | cons o ops ih =>
      obtain ⟨i, op⟩ := o
      intro v m sp hr h
      simp only [checkRun, Bool.and_eq_true] at h
      have hp := hc i _ _ _ _ (hr i) h.1
      refine ⟨hp, fun r s m1 e1 hh => ?_⟩
      obtain ⟨s', m', e, hr', ho⟩ := (hM i).2.1 (v i) m (sp i) op (hr i) hp
      rw [e1] at e
      cases e
      have h2 := h.2
      rw [e1] at h2
      let sp' : ∀ j, (M j).Sp := fun j => if h : j = i then h ▸ ((M i).sexec (sp i) op).2 else sp j
      have hsp1 : sp' i = ((M i).sexec (sp i) op).2 := by simp [sp']
      have hsp2 : ∀ j, j ≠ i → sp' j = sp j := fun j h => by simp [sp', h]
      refine ih (v.set i s) m1 sp' (fun j => ?_) h2
      by_cases hj : j = i
      · subst hj
        rw [Vars.set_self, hsp1]
        exact hr' hh
      · rw [Vars.set_other _ _ hj, hsp2 j hj]
        exact (hM j).2.2 _ m m1 _ (hr j) fun x hx => ho x fun hx' => ha j i hj x ⟨hx, hx'⟩
  exact key ops _ m _ (fun i => (hM i).1 m (hm i)) h
end

end Verif.Compose
