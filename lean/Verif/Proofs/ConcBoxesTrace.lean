import Verif.Proofs.ConcBoxes
/-!
# Observations and events of the machine of `Model/ConcBoxes`
-/
set_option autoImplicit false
namespace Verif.ConcBoxes
open Verif Bump Unsync.BumpBoxes
variable {n : Nat} {e : Env} {panics : List Byte → Bool}

/-- What a thread is in the middle of. -/
def pendingCall (w : World n) (t : Fin n) : List (Call × Bool) := ((w.st.pc t).call.map fun c => (c, w.flag t)).toList

theorem onOk_call (call : Call) (a : Alloc) : (onOk call a).call = some call := by
  cases call <;> rfl

theorem onLoad_call (e : Env) (call : Call) (v : Nat) : (onLoad e call v).call = some call := by
  cases call <;> simp only [onLoad, onZst] <;> (try split) <;> (try split) <;> rfl

theorem enter_call (call : Call) : (enter call).call = some call := by
  cases call <;> simp only [enter] <;> (try split) <;> rfl

theorem step_other (s : State n) {t u : Fin n} (hu : u ≠ t) : (Bump.step e s t).pc u = s.pc u := by
  simp only [Bump.step, State.decide]
  split <;> (try split) <;> (try split) <;> simp [setPc, hu]

/-- A step of a thread does not change what it is doing, until it returns. -/
theorem step_same (s : State n) (t : Fin n) (h : ∀ c r, s.pc t ≠ .ret c r) : ((Bump.step e s t).pc t).call = (s.pc t).call := by
  cases hpc : s.pc t with
  | idle => simp [Bump.step, hpc]
  | ret c r => exact absurd hpc (h c r)
  | attempt c l retry g =>
    simp only [Bump.step, hpc, State.decide]
    split <;> simp [setPc, Pc.call]
  | cas c l retry x a new =>
    simp only [Bump.step, hpc, State.decide]
    split
    · split <;> (simp only [setPc, if_true, onOk_call]; rfl)
    · split <;> simp [setPc, Pc.call]
  | load c => simp only [Bump.step, hpc, State.decide, setPc, if_true, onLoad_call]; rfl
  | write c a => simp [Bump.step, hpc, setPc, Pc.call]

theorem useVar_keeps {w : World n} {t : Fin n} {u : Use} {a : Ans} {w' : World n} (h : useVar panics w t u = .ret (a, w')) :
    w'.aborted = w.aborted ∧ w'.flag = w.flag ∧ w'.st.pc = w.st.pc := by
  have hpoke : ∀ (h : Handle) (b : List Byte), (poke w.st h b).pc = w.st.pc := fun h b => by simp only [poke]; split <;> rfl
  cases u <;> simp only [useVar] at h <;> split at h <;> first | (cases h; done) | (cases h; exact ⟨rfl, rfl, by first | rfl | exact hpoke _ _⟩)

/-- One event and its observation. -/
theorem exec_observed {w w' : World n} {ev : Event n} {o : Option (Obs n)} (hx : exec e panics w ev = .ret (o, w')) :
    (w.aborted = false → o.toList.filterMap Obs.event = [ev].filterMap Event.direct) ∧
    (w.aborted = true → o = none ∧ w' = w) ∧
    (w'.aborted = true ↔ w.aborted = true ∨ ∃ ob ∈ o.toList, Fatal panics ob) ∧
    ∀ t, (o.toList.filterMap (Obs.callOf t) ++ pendingCall w' t).Sublist (pendingCall w t ++ [ev].filterMap (Event.callOf t)) := by
  cases hab : w.aborted with
  | true =>
    have : o = none ∧ w' = w := by cases ev <;> simp only [exec, hab, if_true] at hx <;> cases hx <;> exact ⟨rfl, rfl⟩
    obtain ⟨rfl, rfl⟩ := this
    exact ⟨fun h => (by cases h), fun _ => ⟨rfl, rfl⟩, by simp [hab], fun t => by simp⟩
  | false =>
    refine ⟨fun _ => ?_, fun h => (by cases h), ?_⟩
    · cases ev with
      | call t call nd => simp only [exec, hab] at hx; cases hx; rfl
      | step t =>
        simp only [exec, hab, Bool.false_eq_true, if_false] at hx
        split at hx <;> cases hx <;> rfl
      | use t u =>
        simp only [exec, hab, Bool.false_eq_true, if_false] at hx
        cases h1 : useVar panics w t u with
        | ret p => rw [h1] at hx; cases hx; rfl
        | panic => rw [h1] at hx; cases hx
        | ub => rw [h1] at hx; cases hx
      | send t u k =>
        simp only [exec, hab, Bool.false_eq_true, if_false] at hx
        split at hx <;> cases hx; rfl
      | reset => simp only [exec, hab] at hx; cases hx; rfl
    · cases ev with
      | call t call nd =>
        simp only [exec, hab, Bool.false_eq_true, if_false] at hx
        cases hx
        refine ⟨?_, fun u => ?_⟩
        · split <;> simp [hab]
        · by_cases hi : w.st.pc t = .idle
          · rw [if_pos hi]
            by_cases hu : t = u
            · subst hu
              have hc : (w.st.pc t).call = none := by rw [hi]; rfl
              have hp : pendingCall w t = [] := by rw [pendingCall, hc]; rfl
              have hq : pendingCall { w with st := Bump.exec e w.st (.invoke t call), flag := upd w.flag t nd, aborted := false } t = [(call, nd)] := by
                simp [pendingCall, Bump.exec, hi, setPc, enter_call, upd]
              rw [hp, hq]
              simp [Event.callOf]
            · have hu' : u ≠ t := fun h => hu h.symm
              simp [pendingCall, Bump.exec, hi, setPc, upd, hu']
          · rw [if_neg hi]; simp
      | step t =>
        simp only [exec, hab, Bool.false_eq_true, if_false] at hx
        split at hx
        · rename_i call r hpc
          cases hx
          refine ⟨?_, fun u => ?_⟩
          · simp only [Bool.false_eq_true, false_or, Option.toList, List.mem_singleton, exists_eq_left, Fatal, Obs.returned.injEq, afterReturn]
            constructor
            · intro h
              split at h
              · rename_i v hv
                simp only [Bool.and_eq_true, decide_eq_true_eq] at h
                refine ⟨t, call, v, ⟨rfl, rfl, h.1.1, h.2⟩, ?_, h.1.2⟩
                rw [h.2] at hv
                cases call <;> cases hv <;> rfl
              · cases h
            · rintro ⟨_, _, v, ⟨rfl, rfl, h1, rfl⟩, h2, h3⟩
              have : droppedArg call .panicked = some v := by cases call <;> simp only [Call.value, Option.some.injEq, reduceCtorEq] at h2 <;> (subst h2; rfl)
              simp [this, h1, h3]
          · by_cases hu : t = u
            · subst hu
              simp [Option.toList, Obs.callOf, pendingCall, afterReturn, Bump.step, hpc, setPc, Pc.call]
            · have hu' : u ≠ t := fun h => hu h.symm
              simp [Option.toList, Obs.callOf, pendingCall, afterReturn, step_other _ hu', hu]
        · rename_i hne
          cases hx
          refine ⟨by simp, fun u => ?_⟩
          simp only [Option.toList, List.filterMap_nil, List.nil_append, Event.callOf, List.filterMap_cons, List.append_nil, pendingCall]
          by_cases hu : u = t
          · subst hu; rw [step_same _ _ hne]; exact List.Sublist.refl _
          · rw [step_other _ hu]; exact List.Sublist.refl _
      | use t u =>
        simp only [exec, hab, Bool.false_eq_true, if_false] at hx
        cases h1 : useVar panics w t u with
        | ret p =>
          obtain ⟨a, w1⟩ := p
          rw [h1] at hx; cases hx
          obtain ⟨k1, k2, k3⟩ := useVar_keeps h1
          exact ⟨by simp [k1, hab, Option.toList, Fatal], fun v => by simp [Option.toList, Obs.callOf, pendingCall, k2, k3]⟩
        | panic => rw [h1] at hx; cases hx
        | ub => rw [h1] at hx; cases hx
      | send t u k =>
        simp only [exec, hab, Bool.false_eq_true, if_false] at hx
        split at hx <;> cases hx
        exact ⟨by simp [Option.toList, Fatal], fun v => by simp [Option.toList, Obs.callOf, pendingCall]⟩
      | reset =>
        simp only [exec, hab, Bool.false_eq_true, if_false] at hx
        cases hx
        refine ⟨by simp [Option.toList, Fatal], fun v => ?_⟩
        have : (Bump.exec e w.st .reset).pc = w.st.pc := by simp only [Bump.exec]; split <;> rfl
        simp [Option.toList, Obs.callOf, pendingCall, this]

theorem run_aborted {w w' : World n} {evs : List (Event n)} {os : List (Obs n)} (ha : w.aborted = true) (hx : run e panics w evs = .ret (os, w')) : os = [] ∧ w' = w := by
  induction evs generalizing os with
  | nil => cases hx; exact ⟨rfl, rfl⟩
  | cons ev evs ih =>
    rw [run] at hx
    cases h1 : exec e panics w ev with
    | panic => rw [h1] at hx; cases hx
    | ub => rw [h1] at hx; cases hx
    | ret p =>
      obtain ⟨o, w1⟩ := p
      obtain ⟨rfl, rfl⟩ := (exec_observed h1).2.1 ha
      rw [h1] at hx
      cases h2 : run e panics w1 evs with
      | panic => simp only [bind, Outcome.bind, h2] at hx; cases hx
      | ub => simp only [bind, Outcome.bind, h2] at hx; cases hx
      | ret q =>
        obtain ⟨os2, w2⟩ := q
        simp only [bind, Outcome.bind, h2] at hx
        cases hx
        exact ih h2

/-- A run and its observations. -/
theorem run_observed {w w' : World n} {evs : List (Event n)} {os : List (Obs n)} (hx : run e panics w evs = .ret (os, w')) :
    (w'.aborted = false → os.filterMap Obs.event = evs.filterMap Event.direct) ∧
    (w'.aborted = true ↔ w.aborted = true ∨ ∃ o ∈ os, Fatal panics o) ∧
    ∀ t, (os.filterMap (Obs.callOf t) ++ pendingCall w' t).Sublist (pendingCall w t ++ evs.filterMap (Event.callOf t)) := by
  induction evs generalizing w os with
  | nil => cases hx; exact ⟨fun _ => rfl, by simp, fun t => by simp⟩
  | cons ev evs ih =>
    rw [run] at hx
    cases h1 : exec e panics w ev with
    | panic => rw [h1] at hx; cases hx
    | ub => rw [h1] at hx; cases hx
    | ret p =>
      obtain ⟨o, w1⟩ := p
      rw [h1] at hx
      cases h2 : run e panics w1 evs with
      | panic => simp only [bind, Outcome.bind, h2] at hx; cases hx
      | ub => simp only [bind, Outcome.bind, h2] at hx; cases hx
      | ret q =>
        obtain ⟨os2, w2⟩ := q
        simp only [bind, Outcome.bind, h2] at hx
        cases hx
        obtain ⟨a1, a2, a3, a4⟩ := exec_observed h1
        obtain ⟨b1, b2, b3⟩ := ih h2
        refine ⟨fun h => ?_, ?_, fun t => ?_⟩
        · have hw : w.aborted = false := by
            cases hw : w.aborted with
            | false => rfl
            | true => rw [b2.mpr (.inl (a3.mpr (.inl hw)))] at h; cases h
          rw [List.filterMap_append, b1 h, a1 hw, ← List.filterMap_append]; rfl
        · rw [b2, a3]
          simp only [List.mem_append, or_and_right, exists_or, or_assoc]
        · rw [List.filterMap_append, List.append_assoc]
          refine ((b3 t).append_left _).trans ?_
          rw [← List.append_assoc, show ev :: evs = [ev] ++ evs from rfl, List.filterMap_append, ← List.append_assoc]
          exact (a4 t).append_right _

end Verif.ConcBoxes
