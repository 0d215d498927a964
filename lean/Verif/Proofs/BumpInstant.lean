import Verif.Proofs.BumpProgress
import Mathlib.Data.List.Induction
/-! Every response was decided in one step of its thread, between the call and the response. -/
namespace Verif.Bump
open Verif
variable {n : Nat}

theorem run_snoc (e : Env) (s : State n) (evs : List (Event n)) (ev : Event n) :
    run e s (evs ++ [ev]) = exec e (run e s evs) ev := by rw [run_append]; rfl

theorem inv_run {e : Env} (hv : e.Valid) {s : State n} (hi : Inv e s) {evs : List (Event n)}
    (hev : ∀ ev ∈ evs, Event.Valid e.target ev) : Inv e (run e s evs) :=
  (run_induction hv (P := fun _ => True) hi trivial (fun _ _ _ _ _ _ => trivial) evs hev).2

/-- The call of `t` with this result was decided in some step of the schedule. -/
def DecidedIn (e : Env) (s : State n) (evs : List (Event n)) (t : Fin n) (call : Call) (r : Ret) : Prop :=
  ∃ pre post, evs = pre ++ .step t :: post ∧ (step e (run e s pre) t).hist = .lin t call r :: (run e s pre).hist

theorem DecidedIn.snoc {e : Env} {s : State n} {evs : List (Event n)} {t : Fin n} {call : Call} {r : Ret}
    (h : DecidedIn e s evs t call r) (ev : Event n) : DecidedIn e s (evs ++ [ev]) t call r := by
  obtain ⟨pre, post, rfl, h⟩ := h
  exact ⟨pre, post ++ [ev], by simp, h⟩

theorem decided_in {e : Env} (hv : e.Valid) {s : State n} (hi : Inv e s) (t : Fin n) (hidle : s.pc t = .idle)
    (evs : List (Event n)) : (∀ ev ∈ evs, Event.Valid e.target ev) →
    ∃ new, (run e s evs).hist = new ++ s.hist ∧ ∀ call r,
      (Ev.resp t call r ∈ new ∨ (((run e s evs).pc t).call = some call ∧ ((run e s evs).pc t).decided = some r)) →
      DecidedIn e s evs t call r := by
  induction evs using List.reverseRecOn with
  | nil =>
    intro _
    refine ⟨[], rfl, fun call r h => ?_⟩
    rcases h with h | h
    · cases h
    · have h1 := h.1
      simp only [run, List.foldl_nil, hidle] at h1
      cases h1
  | append_singleton evs ev ih =>
    intro hev
    obtain ⟨new, hnew, ih⟩ := ih fun ev' h => hev ev' (by simp [h])
    have hi' : Inv e (run e s evs) := inv_run hv hi fun ev' h => hev ev' (by simp [h])
    have ht := trans_exec hv hi' ev (hev ev (by simp))
    rw [run_snoc]
    generalize hs1 : run e s evs = s₁ at *
    generalize hs2 : exec e s₁ ev = s₂ at *
    have pcsame : ∀ (u : Fin n) (p : Pc) (call : Call) (r : Ret),
        (p.decided = some r → p.call = some call → DecidedIn e s evs t call r) →
        (setPc s₁.pc u p t).call = some call → (setPc s₁.pc u p t).decided = some r → DecidedIn e s evs t call r := by
      intro u p call r h1 h2 h3
      by_cases hu : t = u
      · subst hu; rw [setPc_self] at h2 h3; exact h1 h3 h2
      · rw [setPc_ne _ _ hu] at h2 h3; exact ih call r (.inr ⟨h2, h3⟩)
    cases ht with
    | stutter hs => rw [hs]; exact ⟨new, hnew, fun c r h => (ih c r h).snoc ev⟩
    | invoke u call hp _ hs =>
      subst hs
      refine ⟨.inv u call :: new, by simp [hnew], fun c r h => ?_⟩
      rcases h with h | ⟨h2, h3⟩
      · exact (ih c r (.inl (by simpa using h))).snoc ev
      · exact (pcsame u _ c r (fun hd _ => by rw [decided_enter] at hd; cases hd) h2 h3).snoc ev
    | prepare u call l retry g at' new' hp hs =>
      subst hs
      refine ⟨new, hnew, fun c r h => ?_⟩
      rcases h with h | ⟨h2, h3⟩
      · exact (ih c r (.inl h)).snoc ev
      · exact (pcsame u _ c r (fun hd _ => by cases hd) h2 h3).snoc ev
    | retry u call l x at' new' hp hx hlt hs =>
      subst hs
      refine ⟨.retry u :: new, by simp [hnew], fun c r h => ?_⟩
      rcases h with h | ⟨h2, h3⟩
      · exact (ih c r (.inl (by simpa using h))).snoc ev
      · exact (pcsame u _ c r (fun hd _ => by cases hd) h2 h3).snoc ev
    | decide u call p r c' hn hc hr hpc hsp hw hs =>
      refine ⟨.lin u call r :: new, by simp [hs, hnew], fun c q h => ?_⟩
      rcases h with h | ⟨h2, h3⟩
      · exact (ih c q (.inl (by simpa using h))).snoc ev
      · by_cases hut : t = u
        · subst hut
          have hpt : s₂.pc t = p := by rw [hs]; simp [setPc_self]
          rw [hpt, hpc] at h2
          rw [hpt, hr] at h3
          cases h2; cases h3
          have hne : s₁.pc t ≠ .idle := by intro h; rw [h] at hc; cases hc
          have hstep : ev = .step t := Decidable.byContradiction fun hne' => by
            have := exec_other (e := e) s₁ ev hne hne'
            rw [hs2, hpt] at this
            rw [← this, hr] at hn
            cases hn
          subst hstep
          refine ⟨evs, [], rfl, ?_⟩
          rw [hs1]
          have : step e s₁ t = s₂ := hs2
          rw [this, hs]
        · rw [hs] at h2 h3
          simp only [setPc_ne _ _ hut] at h2 h3
          exact (ih c q (.inr ⟨h2, h3⟩)).snoc ev
    | write u call a hp hs =>
      subst hs
      refine ⟨new, hnew, fun c r h => ?_⟩
      rcases h with h | ⟨h2, h3⟩
      · exact (ih c r (.inl h)).snoc ev
      · refine (pcsame u _ c r (fun hd hc => ?_) h2 h3).snoc ev
        by_cases hut : t = u
        · subst hut
          exact ih c r (.inr ⟨by rw [hp]; exact hc, by rw [hp]; exact hd⟩)
        · simp only [setPc_ne _ _ hut] at h2 h3
          exact ih c r (.inr ⟨h2, h3⟩)
    | resp u call r hp hs =>
      subst hs
      refine ⟨.resp u call r :: new, by simp [hnew], fun c q h => ?_⟩
      rcases h with h | ⟨h2, h3⟩
      · simp only [List.mem_cons, Ev.resp.injEq] at h
        rcases h with ⟨rfl, rfl, rfl⟩ | h
        · exact (ih c q (.inr ⟨by rw [hp]; rfl, by rw [hp]; rfl⟩)).snoc ev
        · exact (ih c q (.inl h)).snoc ev
      · exact (pcsame u _ c q (fun hd _ => by cases hd) h2 h3).snoc ev
    | userWrite r off bs hr ho hs =>
      subst hs
      refine ⟨.userWrite r :: new, by simp [hnew], fun c q h => ?_⟩
      rcases h with h | h
      · exact (ih c q (.inl (by simpa using h))).snoc ev
      · exact (ih c q (.inr h)).snoc ev
    | reset hidle' hs =>
      subst hs
      refine ⟨.reset :: new, by simp [hnew], fun c q h => ?_⟩
      rcases h with h | h
      · exact (ih c q (.inl (by simpa using h))).snoc ev
      · exact (ih c q (.inr h)).snoc ev

/-- Every response to a call started after `s` was decided in a step of the thread. -/
theorem resp_decided {e : Env} (hv : e.Valid) {s : State n} (hi : Inv e s) {t : Fin n} (hidle : s.pc t = .idle)
    {evs : List (Event n)} (hev : ∀ ev ∈ evs, Event.Valid e.target ev) {new : Hist n} (hn : (run e s evs).hist = new ++ s.hist)
    {call : Call} {r : Ret} (hr : Ev.resp t call r ∈ new) : DecidedIn e s evs t call r := by
  obtain ⟨new', h1, h2⟩ := decided_in hv hi t hidle evs hev
  have : new' = new := List.append_cancel_right (h1.symm.trans hn)
  subst this
  exact h2 call r (.inl hr)

end Verif.Bump
