import Verif.Proofs.BumpCount
/-! Slabs used for values of one layout only; equivalence of reset and fresh slabs; chains of levels. -/
namespace Verif.Bump
open Verif
variable {n : Nat}

theorem sumLin_cons_lin (w : Call → Ret → Nat) (t : Fin n) (c : Call) (r : Ret) (h : Hist n) :
    sumLin w (.lin t c r :: h) = w c r + sumLin w h := by simp [sumLin]

/-- Only values of layout `V` are requested. -/
def OnlyV (V : Layout) (c : Call) : Prop := c.layout = some V ∨ c.layout = none

def UniformInv (e : Env) (V : Layout) (h0 : Hist n) (s : State n) : Prop :=
  ∃ new, s.hist = new ++ h0 ∧ (Ev.reset ∉ new → (∀ t c, Ev.inv t c ∈ new → OnlyV V c) →
    s.consumed = V.size * sumLin granted new ∧ ∀ t c, (s.pc t).call = some c → OnlyV V c)

theorem uniform_trans {e : Env} {V : Layout} (hdv : V.align ∣ V.size) (hdb : V.align ∣ e.base)
    {h0 : Hist n} {s s' : State n} (hi : Inv e s) (h : UniformInv e V h0 s) (ht : Trans e s s') :
    UniformInv e V h0 s' := by
  obtain ⟨new, h1, h2⟩ := h
  have keep : ∀ (ev : Ev n) (s'' : State n), s''.hist = ev :: s.hist → s''.consumed = s.consumed →
      (∀ t c r, ev ≠ .lin t c r) →
      (∀ t c, (s''.pc t).call = some c → (s.pc t).call = some c ∨ ev = .inv t c) → UniformInv e V h0 s'' := by
    intro ev s'' k1 k2 k3 k4
    refine ⟨ev :: new, by rw [k1, h1]; rfl, fun hr hinv => ?_⟩
    obtain ⟨q1, q2⟩ := h2 (by simp_all) (fun t c hm => hinv t c (by simp [hm]))
    refine ⟨?_, fun t c hc => ?_⟩
    · rw [k2, q1]; congr 1; cases ev <;> simp_all [sumLin]
    · rcases k4 t c hc with h | h
      · exact q2 t c h
      · exact hinv t c (by simp [h])
  have spc : ∀ (u : Fin n) (p : Pc), (∀ c, p.call = some c → (s.pc u).call = some c) → ∀ t c,
      (setPc s.pc u p t).call = some c → (s.pc t).call = some c := by
    intro u p hp t c hc
    by_cases hu : t = u
    · subst hu; rw [setPc_self] at hc; exact hp c hc
    · rw [setPc_ne _ _ hu] at hc; exact hc
  cases ht with
  | stutter hs => subst hs; exact ⟨new, h1, h2⟩
  | invoke u c hp hv hs =>
    subst hs
    refine keep _ _ rfl rfl (by simp) (fun t c' hc => ?_)
    by_cases hu : t = u
    · subst hu; simp only [setPc_self, call_enter] at hc; cases hc; exact .inr rfl
    · simp only [setPc_ne _ _ hu] at hc; exact .inl hc
  | prepare u c l retry g at' new' hp hs =>
    subst hs
    refine ⟨new, h1, fun hr hinv => ?_⟩
    obtain ⟨q1, q2⟩ := h2 hr hinv
    exact ⟨q1, fun t c' hc => q2 t c' (spc u _ (fun c hc => by rw [hp]; exact hc) t c' hc)⟩
  | retry u c l x at' new' hp hx hlt hs =>
    subst hs
    exact keep _ _ rfl rfl (by simp) (fun t c' hc => .inl (spc u _ (fun c hc => by rw [hp]; exact hc) t c' hc))
  | decide u c p r c' hn hc hr hpc hsp hw hs =>
    subst hs
    refine ⟨_ :: new, by rw [h1]; rfl, fun hr' hinv => ?_⟩
    obtain ⟨q1, q2⟩ := h2 (by simp_all) (fun t c hm => hinv t c (by simp [hm]))
    refine ⟨?_, fun t c' hc' => q2 t c' (spc u _ (fun c1 h => by rw [hc, ← hpc]; exact h) t c' hc')⟩
    have hval := (hi.pcs u).1 c hc
    obtain ⟨f1, f2, f3, f4⟩ := specApply_facts e.zst hval (s := e.slab) hi.le hsp
    rw [sumLin_cons_lin]
    cases hg : grant c r with
    | none =>
      have e1 : granted c r = 0 := by simp [granted, hg]
      rw [e1, f3 hg, q1]; simp
    | some reg =>
      obtain ⟨l, hl, h0', hsz, hst, hend⟩ := f4 reg hg
      have hlV : l = V := by
        rcases q2 u c hc with h | h
        · rw [hl] at h; cases h; rfl
        · rw [hl] at h; cases h
      subst hlV
      have ha := Call.Valid.align_pos hval hl
      have hd : l.align ∣ e.slab.base + s.consumed := by
        refine Nat.dvd_add hdb ?_
        rw [q1]; exact Nat.dvd_trans hdv (Nat.dvd_mul_right _ _)
      rw [alignUp_of_dvd ha hd] at hst
      have e1 : granted c r = 1 := by simp [granted, hg]
      rw [e1, Nat.mul_add, Nat.mul_one]
      show c' = _
      omega
  | write u c a hp hs =>
    subst hs
    refine ⟨new, h1, fun hr hinv => ?_⟩
    obtain ⟨q1, q2⟩ := h2 hr hinv
    exact ⟨q1, fun t c' hc => q2 t c' (spc u _ (fun c hc => by rw [hp]; exact hc) t c' hc)⟩
  | resp u c r hp hs =>
    subst hs
    exact keep _ _ rfl rfl (by simp) (fun t c' hc => .inl (spc u _ (fun c hc => by cases hc) t c' hc))
  | userWrite r' off bs hr ho hs => subst hs; exact keep _ _ rfl rfl (by simp) (fun t c h => .inl h)
  | reset hidle hs => subst hs; exact ⟨_ :: new, by rw [h1]; rfl, fun hr => by simp at hr⟩

theorem uniform_run {e : Env} (he : e.Valid) {V : Layout} (hdv : V.align ∣ V.size) (hdb : V.align ∣ e.base)
    {s : State n} (hi : Inv e s) (hidle : ∀ t, s.pc t = .idle) (hc : s.consumed = 0)
    {evs : List (Event n)} (hev : ∀ ev ∈ evs, Event.Valid e.target ev) : UniformInv e V s.hist (run e s evs) := by
  refine (run_induction he (P := UniformInv e V s.hist) hi ⟨[], rfl, fun _ _ => ⟨by simp [hc, sumLin], fun t c h => ?_⟩⟩
    (fun _ _ hi _ h ht => uniform_trans hdv hdb hi h ht) evs hev).1
  rw [hidle t] at h; cases h

/-! Reset -/

theorem handedOut_append_reset (a h : Hist n) : handedOut (a ++ .reset :: h) = handedOut a := by
  induction a with
  | nil => rfl
  | cons ev a ih => cases ev <;> simp [handedOut, ih]

/-- Same state, but with more history before a reset. -/
def SameBut (h : Hist n) (s₁ s₂ : State n) : Prop :=
  s₁.consumed = s₂.consumed ∧ s₁.mem = s₂.mem ∧ s₁.pc = s₂.pc ∧ s₁.hist = s₂.hist ++ .reset :: h

theorem sameBut_step (e : Env) {h : Hist n} {s₁ s₂ : State n} (hs : SameBut h s₁ s₂) (t : Fin n) :
    SameBut h (step e s₁ t) (step e s₂ t) := by
  obtain ⟨c, m, p, hh⟩ := s₁
  obtain ⟨c', m', p', hh'⟩ := s₂
  obtain ⟨h1, h2, h3, h4⟩ := hs
  simp only at h1 h2 h3 h4
  subst h1; subst h2; subst h3; subst h4
  unfold step
  simp only
  split
  · exact ⟨rfl, rfl, rfl, rfl⟩
  · split <;> exact ⟨rfl, rfl, rfl, rfl⟩
  · split
    · split <;> exact ⟨rfl, rfl, rfl, rfl⟩
    · split <;> exact ⟨rfl, rfl, rfl, rfl⟩
  · exact ⟨rfl, rfl, rfl, rfl⟩
  · exact ⟨rfl, rfl, rfl, rfl⟩
  · exact ⟨rfl, rfl, rfl, rfl⟩

theorem sameBut_exec (e : Env) {h : Hist n} {s₁ s₂ : State n} (hs : SameBut h s₁ s₂) (ev : Event n) :
    SameBut h (exec e s₁ ev) (exec e s₂ ev) := by
  cases ev with
  | step t => exact sameBut_step e hs t
  | invoke t call =>
    obtain ⟨h1, h2, h3, h4⟩ := hs
    simp only [exec, h3]
    split
    · exact ⟨h1, h2, rfl, by simp [h4]⟩
    · exact ⟨h1, h2, h3, h4⟩
  | userWrite r off bs =>
    obtain ⟨h1, h2, h3, h4⟩ := hs
    simp only [exec, h4, handedOut_append_reset]
    split
    · exact ⟨h1, by simp [h2], h3, by simp⟩
    · exact ⟨h1, h2, h3, h4⟩
  | reset =>
    obtain ⟨h1, h2, h3, h4⟩ := hs
    simp only [exec, h3]
    split
    · exact ⟨rfl, h2, rfl, by simp [h4]⟩
    · exact ⟨h1, h2, h3, h4⟩

theorem sameBut_run (e : Env) {h : Hist n} : ∀ (evs : List (Event n)) (s₁ s₂ : State n), SameBut h s₁ s₂ →
    SameBut h (run e s₁ evs) (run e s₂ evs) := by
  intro evs
  induction evs with
  | nil => intro s₁ s₂ h; exact h
  | cons ev evs ih => intro s₁ s₂ h; exact ih _ _ (sameBut_exec e h ev)

end Verif.Bump
