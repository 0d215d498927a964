import Verif.Proofs.BumpProgress
/-! Completion of calls and the number of retries. -/
namespace Verif.Bump
open Verif
variable {n : Nat}

theorem call_of_trans {e : Env} {s s' : State n} (ht : Trans e s s') {t : Fin n} {call : Call}
    (h : (s.pc t).call = some call) :
    (s'.pc t).call = some call ∨ (s'.pc t = .idle ∧ ∃ r, s'.hist = .resp t call r :: s.hist) := by
  have hne : s.pc t ≠ .idle := by intro h'; rw [h'] at h; cases h
  have aux : ∀ (u : Fin n) (p : Pc), (u = t → p.call = (s.pc t).call) → (setPc s.pc u p t).call = some call := by
    intro u p hu
    by_cases hh : t = u
    · subst hh; rw [setPc_self, hu rfl, h]
    · rw [setPc_ne _ _ hh, h]
  cases ht with
  | stutter hs => subst hs; exact .inl h
  | invoke u c hp hv hs =>
    subst hs; left
    exact aux u _ (fun hu => by subst hu; exact absurd hp hne)
  | prepare u c l retry g at' new hp hs =>
    subst hs; left; exact aux u _ (fun hu => by subst hu; rw [hp]; rfl)
  | retry u c l x at' new hp hx hlt hs =>
    subst hs; left; exact aux u _ (fun hu => by subst hu; rw [hp]; rfl)
  | decide u c p r c' hn hc hr hpc hsp hw hs =>
    subst hs; left; exact aux u _ (fun hu => by subst hu; rw [hpc, hc])
  | write u c a hp hs => subst hs; left; exact aux u _ (fun hu => by subst hu; rw [hp]; rfl)
  | resp u c r hp hs =>
    subst hs
    by_cases hu : u = t
    · subst hu
      right
      rw [hp] at h; cases h
      exact ⟨setPc_self _ _ _, r, rfl⟩
    · left; exact aux u _ (fun h => absurd h hu)
  | userWrite r' off bs hr ho hs => subst hs; exact .inl h
  | reset hidle hs => subst hs; exact absurd (hidle t) hne

theorem progress_resp {e : Env} (hv : e.Valid) (t : Fin n) (call : Call) : ∀ (evs : List (Event n)) (s : State n), Inv e s →
    (∀ ev ∈ evs, Event.Valid e.target ev) → (s.pc t).call = some call → rank e (s.pc t) ≤ evs.count (.step t) →
    ∃ pre post r h, evs = pre ++ post ∧ (run e s pre).hist = .resp t call r :: h := by
  intro evs
  induction evs with
  | nil =>
    intro s hi _ hc hr
    simp only [List.count_nil, Nat.le_zero] at hr
    cases hp : s.pc t <;> rw [hp] at hr hc <;> simp [rank, Pc.call] at hr hc
  | cons ev evs ih =>
    intro s hi hev hc hr
    have hidle : s.pc t ≠ .idle := by intro h; rw [h] at hc; cases hc
    have hi' := inv_exec hv hi ev (hev ev (by simp))
    have hrank : rank e ((exec e s ev).pc t) ≤ evs.count (.step t) := by
      by_cases hst : ev = .step t
      · subst hst
        have h1 : rank e ((exec e s (.step t)).pc t) < rank e (s.pc t) := rank_step hv hi t hidle
        simp only [List.count_cons_self] at hr
        omega
      · rw [exec_other s ev hidle hst]
        rw [List.count_cons_of_ne (by simpa using hst)] at hr
        exact hr
    rcases call_of_trans (trans_exec hv hi ev (hev ev (by simp))) hc with h | ⟨_, r, h⟩
    · obtain ⟨pre, post, r, hh, h1, h2⟩ := ih _ hi' (fun ev' h => hev ev' (by simp [h])) h hrank
      exact ⟨ev :: pre, post, r, hh, by simp [h1], h2⟩
    · exact ⟨[ev], evs, r, _, rfl, h⟩

/-- The current guess of the retry loop. -/
def Pc.guess : Pc → Option Nat
  | .attempt _ _ true g => some g
  | .cas _ _ true x _ _ => some x
  | _ => none

theorem guess_decided {p : Pc} {r : Ret} (h : p.decided = some r) : p.guess = none := by
  cases p <;> simp [Pc.decided] at h <;> rfl

/-- Retries are paid for by successes of others. -/
def RetryInv (t : Fin n) (h0 : Hist n) (s : State n) : Prop :=
  ∃ new, s.hist = new ++ h0 ∧ ((∀ call r, Ev.resp t call r ∉ new) → s.pc t ≠ .idle ∧
    retries t new ≤ othersSuccess t new + 1 ∧
    (∀ g, (s.pc t).guess = some g → g ≠ s.consumed → retries t new ≤ othersSuccess t new))

theorem retryInv_trans {e : Env} {t : Fin n} {h0 : Hist n} {s s' : State n} (hi : Inv e s) (h : RetryInv t h0 s)
    (ht : Trans e s s') : RetryInv t h0 s' := by
  obtain ⟨new, h1, h2⟩ := h
  -- a step that changes neither the thread nor the level, recording something irrelevant
  have keep : ∀ (ev : Ev n) (s'' : State n), s''.hist = ev :: s.hist → s''.consumed = s.consumed →
      s''.pc t = s.pc t → ev ≠ .retry t → (∀ u c r, ev = .lin u c r → u ≠ t) → RetryInv t h0 s'' := by
    intro ev s'' k1 k2 k3 k4 k5
    refine ⟨ev :: new, by rw [k1, h1]; rfl, fun hr => ?_⟩
    obtain ⟨q1, q2, q3⟩ := h2 (fun c r hm => hr c r (by simp [hm]))
    have e1 : retries t (ev :: new) = retries t new := by
      unfold retries; rw [List.count_cons_of_ne (by simpa using k4)]
    have e2 : othersSuccess t new ≤ othersSuccess t (ev :: new) := by
      simp [othersSuccess]
    refine ⟨by rw [k3]; exact q1, by omega, fun g hg hne => ?_⟩
    rw [k3] at hg
    have := q3 g hg (by rw [← k2]; exact hne)
    omega
  have spc : ∀ (u : Fin n) (p : Pc), u ≠ t → setPc s.pc u p t = s.pc t := fun u p hu => setPc_ne _ _ (fun h => hu h.symm)
  cases ht with
  | stutter hs => subst hs; exact ⟨new, h1, h2⟩
  | invoke u c hp hv hs =>
    subst hs
    by_cases hu : u = t
    · subst hu
      refine ⟨_ :: new, by rw [h1]; rfl, fun hr => ?_⟩
      exact absurd hp (h2 (fun c r hm => hr c r (by simp [hm]))).1
    · exact keep _ _ rfl rfl (spc u _ hu) (by simp) (by simp)
  | prepare u c l retry g at' new' hp hs =>
    subst hs
    refine ⟨new, h1, fun hr => ?_⟩
    obtain ⟨q1, q2, q3⟩ := h2 hr
    by_cases hu : u = t
    · subst hu
      refine ⟨by simp [setPc_self], q2, fun g' hg => q3 g' ?_⟩
      simp only [setPc_self] at hg
      rw [hp]; cases retry <;> simp_all [Pc.guess]
    · simp only [spc u _ hu]; exact ⟨q1, q2, q3⟩
  | retry u c l x at' new' hp hx hlt hs =>
    subst hs
    by_cases hu : u = t
    · subst hu
      refine ⟨_ :: new, by rw [h1]; rfl, fun hr => ?_⟩
      obtain ⟨q1, q2, q3⟩ := h2 (fun c r hm => hr c r (by simp [hm]))
      have := q3 x (by rw [hp]; rfl) (fun h => hx h.symm)
      have e1 : retries u (.retry u :: new) = retries u new + 1 := by simp [retries]
      have e2 : othersSuccess u (.retry u :: new) = othersSuccess u new := by simp [othersSuccess]
      refine ⟨by simp [setPc_self], by omega, fun g hg hne => ?_⟩
      simp only [setPc_self, Pc.guess] at hg
      cases hg; exact absurd rfl hne
    · exact keep _ _ rfl rfl (spc u _ hu) (by simpa using hu) (by simp)
  | decide u c p r c' hn hc hr hpc hsp hw hs =>
    subst hs
    by_cases hu : u = t
    · subst hu
      refine ⟨_ :: new, by rw [h1]; rfl, fun hr' => ?_⟩
      obtain ⟨q1, q2, q3⟩ := h2 (fun c r hm => hr' c r (by simp [hm]))
      have e1 : retries u (.lin u c r :: new) = retries u new := by simp [retries]
      have e2 : othersSuccess u (.lin u c r :: new) = othersSuccess u new := by simp [othersSuccess]
      refine ⟨?_, by omega, fun g hg => ?_⟩
      · simp only [setPc_self]; intro hp; rw [hp] at hpc; cases hpc
      · simp only [setPc_self] at hg; rw [guess_decided hr] at hg; cases hg
    · refine ⟨_ :: new, by rw [h1]; rfl, fun hr' => ?_⟩
      obtain ⟨q1, q2, q3⟩ := h2 (fun c r hm => hr' c r (by simp [hm]))
      have hval := (hi.pcs u).1 c hc
      have f := specApply_facts e.zst hval (s := e.slab) hi.le hsp
      have e1 : retries t (.lin u c r :: new) = retries t new := by simp [retries]
      simp only [spc u _ hu]
      refine ⟨q1, ?_, fun g hg hne => ?_⟩
      · have : othersSuccess t new ≤ othersSuccess t (.lin u c r :: new) := by simp [othersSuccess]
        omega
      · cases hgr : grant c r with
        | none =>
          have e2 : othersSuccess t (.lin u c r :: new) = othersSuccess t new := by simp [othersSuccess, hgr]
          have := f.2.2.1 hgr
          have := q3 g hg (by omega)
          omega
        | some reg =>
          have e2 : othersSuccess t (.lin u c r :: new) = othersSuccess t new + 1 := by
            simp [othersSuccess, hgr, hu]; omega
          omega
  | write u c a hp hs =>
    subst hs
    refine ⟨new, h1, fun hr => ?_⟩
    obtain ⟨q1, q2, q3⟩ := h2 hr
    by_cases hu : u = t
    · subst hu
      refine ⟨by simp [setPc_self], q2, fun g' hg => ?_⟩
      simp only [setPc_self, Pc.guess] at hg; cases hg
    · simp only [spc u _ hu]; exact ⟨q1, q2, q3⟩
  | resp u c r hp hs =>
    subst hs
    by_cases hu : u = t
    · subst hu
      exact ⟨_ :: new, by rw [h1]; rfl, fun hr => absurd (by simp) (hr c r)⟩
    · exact keep _ _ rfl rfl (spc u _ hu) (by simp) (by simp)
  | userWrite r' off bs hr ho hs => subst hs; exact keep _ _ rfl rfl rfl (by simp) (by simp)
  | reset hidle hs =>
    subst hs
    refine ⟨_ :: new, by rw [h1]; rfl, fun hr => ?_⟩
    exact absurd (hidle t) (h2 (fun c r hm => hr c r (by simp [hm]))).1

theorem retryInv_run {e : Env} (he : e.Valid) {s : State n} (hi : Inv e s) {t : Fin n} (hidle : s.pc t = .idle)
    {call : Call} (hcall : call.Valid e.target) {evs : List (Event n)} (hev : ∀ ev ∈ evs, Event.Valid e.target ev) :
    RetryInv t (exec e s (.invoke t call)).hist (run e (exec e s (.invoke t call)) evs) := by
  refine (run_induction he (P := RetryInv t (exec e s (.invoke t call)).hist) (inv_exec he hi (.invoke t call) hcall)
    ⟨[], rfl, fun _ => ⟨?_, by simp [retries], fun g _ _ => by simp [retries]⟩⟩
    (fun _ _ hi _ h ht => retryInv_trans hi h ht) evs hev).1
  simp only [exec, hidle, if_true, setPc_self]
  intro h
  have := call_enter call
  rw [h] at this; cases this

end Verif.Bump
