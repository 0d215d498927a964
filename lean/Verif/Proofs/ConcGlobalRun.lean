import Verif.Proofs.ConcGlobal
/-! Runs of the concurrent global allocator: tracking one call, number of steps. -/
namespace Verif.Bump.Conc
open Verif Verif.Bump AllocTraits
variable {n : Nat}

theorem step_pc_other {e : Env} (s : State n) {t u : Fin n} (h : u ≠ t) : (step e s t).pc u = s.pc u := by
  unfold step
  split <;> try rfl
  all_goals (try split) <;> simp only [State.goto, State.poke] <;> (try rfl) <;> exact setPc_ne _ _ h

/-- Other events do not move a thread inside of a call. -/
theorem exec_pc_other {e : Env} (s : State n) {t : Fin n} (ev : Event n) (hne : s.pc t ≠ .idle) (h : ev ≠ .step t) :
    (exec e s ev).pc t = s.pc t := by
  cases ev with
  | invoke u op =>
    simp only [exec]
    split
    · rename_i hu
      have : t ≠ u := by rintro rfl; exact hne hu.1
      exact setPc_ne _ _ this
    · rfl
  | step u =>
    have : t ≠ u := by rintro rfl; exact h rfl
    exact step_pc_other s this
  | userWrite b off bs => simp only [exec]; split <;> rfl
  | reset => simp only [exec]; split <;> rfl

theorem exec_bump_pc_other {e : Env} {s : State n} (hi : CInv e s) {t : Fin n} (ev : Event n) (hne : s.pc t ≠ .idle) (h : ev ≠ .step t) :
    (exec e s ev).bump.pc t = s.bump.pc t := by
  cases ev with
  | invoke u op => simp only [exec]; split <;> rfl
  | step u =>
    have htu : t ≠ u := by rintro rfl; exact h rfl
    simp only [exec, step]
    split <;> try rfl
    · split <;> try rfl
      simp only [Bump.exec]
      split
      · exact Bump.setPc_ne _ _ htu
      · rfl
    · split <;> exact step_other _ htu
    · split <;> rfl
    · split <;> rfl
  | userWrite b off bs => simp only [exec]; split <;> rfl
  | reset =>
    simp only [exec]
    split
    · simp only [Bump.exec]; split <;> rfl
    · rfl

/-! ## Following a `realloc` -/

/-- The bytes of the old block are still those of `m0`; at the end they are where they belong. -/
def Follow (m0 : Mem) (b : Block) (ns : Nat) (m : Mem) : Pc → Prop
  | .start op | .inner op => op = .realloc b ns ∧ ∀ x, b.region.Has x → m x = m0 x
  | .copy b' ns' _ _ => b' = b ∧ ns' = ns ∧ ∀ x, b.region.Has x → m x = m0 x
  | .ret op r => op = .realloc b ns ∧ ∀ p, r = .ptr p →
      (p = 0 → ∀ x, b.region.Has x → m x = m0 x) ∧
      (p ≠ 0 → ∀ j, j < min ns b.layout.size → m (p + j) = m0 (b.ptr + j))
  | .idle | .zero _ _ _ => False

theorem Follow.frame {m0 m m' : Mem} {b : Block} {ns : Nat} {p : Pc} (h : Follow m0 b ns m p)
    (hm : ∀ c ∈ p.owns, ∀ x, c.region.Has x → m' x = m x) : Follow m0 b ns m' p := by
  cases p with
  | idle => exact h
  | zero l p i => exact h
  | start op =>
    obtain ⟨rfl, h⟩ := h
    exact ⟨rfl, fun x hx => (hm b (by simp [Pc.owns, Op.takes]) x hx).trans (h x hx)⟩
  | inner op =>
    obtain ⟨rfl, h⟩ := h
    exact ⟨rfl, fun x hx => (hm b (by simp [Pc.owns, Op.takes]) x hx).trans (h x hx)⟩
  | copy b' ns' dst i =>
    obtain ⟨rfl, rfl, h⟩ := h
    exact ⟨rfl, rfl, fun x hx => (hm b' (by simp [Pc.owns]) x hx).trans (h x hx)⟩
  | ret op r =>
    obtain ⟨rfl, h⟩ := h
    refine ⟨rfl, fun p hp => ⟨fun h0 x hx => ?_, fun h0 j hj => ?_⟩⟩
    · rw [hm b (by simp [Pc.owns, hp, Op.gives, h0]) x hx]; exact (h p hp).1 h0 x hx
    · rw [hm ⟨p, ⟨ns, b.layout.align⟩⟩ (by simp [Pc.owns, hp, Op.gives, h0]) _
        (has_of (b := ⟨p, ⟨ns, b.layout.align⟩⟩) (by simp only; omega))]
      exact (h p hp).2 h0 j hj

theorem follow_exec {e : Env} {s : State n} (hi : CInv e s) {t : Fin n} {m0 : Mem} {b : Block} {ns : Nat}
    (h : Follow m0 b ns s.bump.mem (s.pc t)) {ev : Event n}
    (hne : (exec e s ev).pc t ≠ .idle) : Follow m0 b ns (exec e s ev).bump.mem ((exec e s ev).pc t) := by
  have hni : s.pc t ≠ .idle := by intro hh; rw [hh] at h; exact h
  by_cases hst : ev = .step t
  · subst hst
    have hkeep : ∀ c ∈ (s.pc t).owns, (s.pc t).target ≠ some c → ∀ x, c.region.Has x →
        (exec e s (.step t)).bump.mem x = s.bump.mem x := fun c hc htg x hx =>
      frame_exec hi (.step t) (i := some t) hc (by simp) (fun u hu _ => by cases hu; exact htg) hx
    have hpo := hi.pcs t
    cases hp : s.pc t with
    | idle => exact absurd hp hni
    | zero l p i => rw [hp] at h; exact h.elim
    | ret op r =>
      refine absurd ?_ hne
      simp [exec, step, hp, State.goto, setPc_self]
    | start op =>
      rw [hp] at h hpo hkeep
      obtain ⟨rfl, h⟩ := h
      have hbm : ∀ x, b.region.Has x → (exec e s (.step t)).bump.mem x = m0 x := fun x hx =>
        (hkeep b (by simp [Pc.owns, Op.takes]) (by simp [Pc.target]) x hx).trans (h x hx)
      have hbk := hi.ok (some t) b (by simp [State.holds, hp, Pc.owns, Op.takes])
      rcases start_realloc hbk.pos hbk.valid hbk.aligned (show 0 < ns from hpo.2) with ⟨_, hs⟩ | ⟨_, hle, hs⟩ | ⟨_, _, hs⟩
      · have hpc : (exec e s (.step t)).pc t = .ret (.realloc b ns) (.ptr 0) := by
          simp [exec, step, hp, hs, State.goto, setPc_self]
        rw [hpc]
        refine ⟨rfl, fun p hpp => ?_⟩
        cases hpp
        exact ⟨fun _ => hbm, fun hh => absurd rfl hh⟩
      · have hpc : (exec e s (.step t)).pc t = .ret (.realloc b ns) (.ptr b.ptr) := by
          simp [exec, step, hp, hs, State.goto, setPc_self]
        rw [hpc]
        refine ⟨rfl, fun p hpp => ?_⟩
        cases hpp
        exact ⟨fun _ => hbm, fun _ j hj => hbm _ (has_of (by omega))⟩
      · have hpc : (exec e s (.step t)).pc t = .inner (.realloc b ns) := by
          simp [exec, step, hp, hs, State.goto, setPc_self]
        rw [hpc]
        exact ⟨rfl, hbm⟩
    | inner op =>
      rw [hp] at h hpo hkeep
      obtain ⟨rfl, h⟩ := h
      have hbm : ∀ x, b.region.Has x → (exec e s (.step t)).bump.mem x = m0 x := fun x hx =>
        (hkeep b (by simp [Pc.owns, Op.takes]) (by simp [Pc.target]) x hx).trans (h x hx)
      cases hq : s.bump.pc t with
      | ret c r =>
        have hpc : (exec e s (.step t)).pc t = resume (.realloc b ns) r := by
          simp [exec, step, hp, hq, State.goto, setPc_self]
        rw [hpc]
        have hempty : ∀ r', Follow m0 b ns (exec e s (.step t)).bump.mem (.ret (.realloc b ns) r') ∨ ∃ p, p ≠ 0 ∧ r' = .ptr p := by
          intro r'
          by_cases hr : ∃ p, p ≠ 0 ∧ r' = .ptr p
          · exact .inr hr
          · refine .inl ⟨rfl, fun p hpp => ⟨fun _ => hbm, fun h0 => absurd ⟨p, h0, hpp⟩ hr⟩⟩
        cases r with
        | allocation a =>
          simp only [resume]
          split
          · exact ⟨rfl, rfl, hbm⟩
          · rcases hempty .ub with h | ⟨p, _, hh⟩
            · exact h
            · cases hh
        | none =>
          rcases hempty (.ptr 0) with h | ⟨p, h0, hh⟩
          · exact h
          · cases hh; exact absurd rfl h0
        | panicked => rcases hempty .panicked with h | ⟨p, _, hh⟩; exact h; cases hh
        | err f => rcases hempty .panicked with h | ⟨p, _, hh⟩; exact h; cases hh
        | leakErr v f => rcases hempty .panicked with h | ⟨p, _, hh⟩; exact h; cases hh
        | ptr q => rcases hempty .panicked with h | ⟨p, _, hh⟩; exact h; cases hh
        | level k => rcases hempty .panicked with h | ⟨p, _, hh⟩; exact h; cases hh
      | _ =>
        have hpc : (exec e s (.step t)).pc t = .inner (.realloc b ns) := by simp [exec, step, hp, hq]
        rw [hpc]
        exact ⟨rfl, hbm⟩
    | copy b' ns' dst i =>
      rw [hp] at h hpo hkeep
      obtain ⟨rfl, rfl, h⟩ := h
      obtain ⟨_, h2, h3, h4, h5⟩ := hpo
      by_cases hlt : i < min ns' b'.layout.size
      · have hpc : (exec e s (.step t)).pc t = .copy b' ns' dst (i + 1) := by
          simp only [exec, step, hp, hlt, if_true, State.goto, setPc_self]
        rw [hpc]
        refine ⟨rfl, rfl, fun x hx => (hkeep b' (by simp [Pc.owns]) ?_ x hx).trans (h x hx)⟩
        simp only [Pc.target, ne_eq, Option.some.injEq]
        intro hh
        have hsz : ns' = b'.layout.size := by rw [← hh]
        omega
      · have hpc : (exec e s (.step t)).pc t = .ret (.realloc b' ns') (.ptr dst) := by
          simp only [exec, step, hp, hlt, if_false, State.goto, setPc_self]
        have hmm : (exec e s (.step t)).bump.mem = s.bump.mem := by
          simp only [exec, step, hp, hlt, if_false, State.goto]
        rw [hpc, hmm]
        refine ⟨rfl, fun p hpp => ?_⟩
        cases hpp
        refine ⟨fun h0 => absurd h0 h4, fun _ j hj => ?_⟩
        rw [h5 j (by omega)]
        exact h _ (has_of (by omega))
  · rw [exec_pc_other s ev hni hst]
    refine h.frame fun c hc x hx => frame_exec hi ev (i := some t) hc (fun hh => by cases hh) (fun u hu hut => ?_) hx
    cases hut; exact absurd hu hst

/-! ## Number of steps -/

/-- Upper bound on the number of further own steps. -/
def crank (e : Env) (q : Bump.Pc) : Pc → Nat
  | .idle => 0
  | .ret _ _ => 1
  | .zero l _ i => (l.size - i) + 2
  | .copy b ns _ i => (min ns b.layout.size - i) + 2
  | .inner op => rank e q + op.work + 2
  | .start op => 2 * e.len + 6 + op.work + 3

theorem crank_step {e : Env} (hv : e.Valid) {s : State n} (hi : CInv e s) {t : Fin n} (hne : s.pc t ≠ .idle) :
    crank e ((step e s t).bump.pc t) ((step e s t).pc t) < crank e (s.bump.pc t) (s.pc t) := by
  have hpo := hi.pcs t
  cases hp : s.pc t with
  | idle => exact absurd hp hne
  | ret op r => simp [step, hp, State.goto, setPc_self, crank]
  | zero l p i =>
    simp only [step, hp]
    split
    · simp only [State.goto, setPc_self, crank]; omega
    · simp only [State.goto, setPc_self, crank]; omega
  | copy b ns dst i =>
    simp only [step, hp]
    split
    · simp only [State.goto, setPc_self, crank]; omega
    · simp only [State.goto, setPc_self, crank]; omega
  | start op =>
    rw [hp] at hpo
    simp only [step, hp]
    split
    · rename_i call hs
      have hidle : s.bump.pc t = .idle := hpo.1
      simp only [State.goto, setPc_self, crank, Bump.exec, hidle, if_true, Bump.setPc_self]
      have := rank_enter e call
      omega
    · simp only [State.goto, setPc_self, crank]; omega
    · simp only [State.goto, setPc_self, crank]; omega
    · simp only [State.goto, setPc_self, crank]; omega
  | inner op =>
    rw [hp] at hpo
    obtain ⟨hop, call, hs, hcall⟩ := hpo
    have hbn : s.bump.pc t ≠ .idle := by intro hh; rw [hh] at hcall; cases hcall
    have hrk := rank_step hv hi.bump.one t hbn
    have hres : ∀ r q, crank e q (resume op r) ≤ op.work + 2 := by
      intro r q
      cases op <;> cases r <;> simp only [resume] <;> (try split) <;> simp only [crank, Op.work] <;> omega
    cases hq : s.bump.pc t with
    | ret c r =>
      simp only [step, hp, hq, State.goto, setPc_self]
      have := hres r ((Bump.step e s.bump t).pc t)
      have h2 : crank e (.ret c r) (.inner op) = 1 + op.work + 2 := rfl
      omega
    | _ =>
      simp only [step, hp, hq]
      rw [hq] at hrk
      simp only [crank]
      omega

theorem progress {e : Env} (hv : e.Valid) (t : Fin n) : ∀ (evs : List (Event n)) (s : State n), CInv e s →
    (∀ ev ∈ evs, Event.Valid e.target ev) → crank e (s.bump.pc t) (s.pc t) ≤ evs.count (.step t) →
    ∃ pre post, evs = pre ++ post ∧ (run e s pre).pc t = .idle := by
  intro evs
  induction evs with
  | nil =>
    intro s hi _ hr
    refine ⟨[], [], rfl, ?_⟩
    simp only [List.count_nil, Nat.le_zero] at hr
    show s.pc t = .idle
    cases hp : s.pc t <;> rw [hp] at hr <;> simp [crank] at hr
  | cons ev evs ih =>
    intro s hi hev hr
    by_cases hidle : s.pc t = .idle
    · exact ⟨[], ev :: evs, rfl, hidle⟩
    · have hi' := cinv_exec hv hi (hev ev (by simp))
      have : crank e ((exec e s ev).bump.pc t) ((exec e s ev).pc t) ≤ evs.count (.step t) := by
        by_cases hst : ev = .step t
        · subst hst
          have h1 := crank_step hv hi hidle
          simp only [List.count_cons_self] at hr
          simp only [exec]
          omega
        · rw [exec_pc_other s ev hidle hst, exec_bump_pc_other hi ev hidle hst]
          rw [List.count_cons_of_ne (by simpa using hst)] at hr
          exact hr
      obtain ⟨pre, post, h1, h2⟩ := ih _ hi' (fun ev' h => hev ev' (by simp [h])) this
      exact ⟨ev :: pre, post, by simp [h1], h2⟩

end Verif.Bump.Conc
