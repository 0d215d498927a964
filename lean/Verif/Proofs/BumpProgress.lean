import Verif.Proofs.BumpLin
/-! Progress, solo runs, and calls without effect. -/
namespace Verif.Bump
open Verif
variable {n : Nat}

/-- Upper bound on the number of further own steps. -/
def rank (e : Env) : Pc → Nat
  | .idle => 0
  | .ret _ _ => 1
  | .write _ _ => 2
  | .load _ => 3
  | .attempt _ _ _ g => 2 * (e.len - g) + 6
  | .cas _ _ _ x _ _ => 2 * (e.len - x) + 5

theorem decided_rank {e : Env} {p : Pc} {r : Ret} (h : p.decided = some r) : rank e p ≤ 2 := by
  cases p <;> simp [Pc.decided, rank] at *

theorem rank_enter (e : Env) (call : Call) : rank e (enter call) ≤ 2 * e.len + 6 := by
  cases call <;> simp only [enter] <;> (try split) <;> simp only [rank] <;> omega

/-- A machine step of thread `t` does not move other threads. -/
theorem step_other {e : Env} (s : State n) {t u : Fin n} (h : u ≠ t) : (step e s t).pc u = s.pc u := by
  unfold step
  split <;> try rfl
  all_goals (try split) <;> (try split) <;> simp only [State.decide, setPc_ne _ _ h]

/-- A step decreases the rank of the stepping thread. -/
theorem rank_step {e : Env} (hv : e.Valid) {s : State n} (hi : Inv e s) (t : Fin n) (hne : s.pc t ≠ .idle) :
    rank e ((step e s t).pc t) < rank e (s.pc t) := by
  have hok := hi.pcs t
  have hle := hi.le
  cases hp : s.pc t with
  | idle => exact absurd hp hne
  | attempt call l retry g =>
    have : ∀ p, (∃ r, p.decided = some r) → rank e p < 2 * (e.len - g) + 6 := by
      rintro p ⟨r, h⟩; have := decided_rank (e := e) h; omega
    simp only [step, hp]
    split <;> simp only [State.decide, setPc_self]
    · exact this _ ⟨_, rfl⟩
    · exact this _ ⟨_, rfl⟩
    · exact this _ ⟨_, rfl⟩
    · simp [rank]
  | cas call l retry x at' new =>
    rw [hp] at hok
    obtain ⟨hval, ⟨hl, hz, hr1, hr2⟩, hpre⟩ := hok
    have this : ∀ p, (∃ r, p.decided = some r) → rank e p < 2 * (e.len - x) + 5 := by
      rintro p ⟨r, h⟩; have := decided_rank (e := e) h; omega
    simp only [step, hp]
    split
    · split <;> simp only [State.decide, setPc_self]
      · exact this _ ⟨_, (decided_onOk call _ (layout_ne_level hl)).1⟩
      · exact this _ ⟨_, rfl⟩
    · split
      · rename_i hcx hret
        have := (hr1 hret).2
        simp only [setPc_self, rank]
        omega
      · simp only [State.decide, setPc_self]; exact this _ ⟨_, rfl⟩
  | load call =>
    have ht := trans_step hv hi t
    have key : ∃ r, (onLoad e call s.consumed).decided = some r := by
      rw [hp] at hok
      rcases hok.2 with hlev | ⟨ht, l, hl, hz⟩
      · subst hlev; exact ⟨_, rfl⟩
      · have hol : onLoad e call s.consumed = onZst e call l call.atLevel s.consumed := by
          cases call <;> simp [Call.typed, Call.layout] at ht hl <;> subst hl <;> rfl
        obtain ⟨r, h1, _⟩ := onZst_spec (e := e) s.consumed hl hz ht
        exact ⟨r, by rw [hol]; exact h1⟩
    obtain ⟨r, hr⟩ := key
    have := decided_rank (e := e) hr
    simp only [step, hp, State.decide, setPc_self]
    simp only [rank] at *; omega
  | write call a => simp [step, hp, setPc_self, rank]
  | ret call r => simp [step, hp, setPc_self, rank]

/-- Other events do not move a thread inside of a call. -/
theorem exec_other {e : Env} (s : State n) {t : Fin n} (ev : Event n) (hne : s.pc t ≠ .idle) (h : ev ≠ .step t) :
    (exec e s ev).pc t = s.pc t := by
  cases ev with
  | invoke u call =>
    simp only [exec]
    split
    · rename_i hu
      have : t ≠ u := by rintro rfl; exact hne hu
      simp [setPc_ne _ _ this]
    · rfl
  | step u =>
    have : t ≠ u := by rintro rfl; exact h rfl
    exact step_other s this
  | userWrite r off bs => simp only [exec]; split <;> rfl
  | reset => simp only [exec]; split <;> rfl

theorem progress {e : Env} (hv : e.Valid) (t : Fin n) : ∀ (evs : List (Event n)) (s : State n), Inv e s →
    (∀ ev ∈ evs, Event.Valid e.target ev) → rank e (s.pc t) ≤ evs.count (.step t) →
    ∃ pre post, evs = pre ++ post ∧ (run e s pre).pc t = .idle := by
  intro evs
  induction evs with
  | nil =>
    intro s hi _ hr
    refine ⟨[], [], rfl, ?_⟩
    simp only [List.count_nil, Nat.le_zero] at hr
    show s.pc t = .idle
    cases hp : s.pc t <;> rw [hp] at hr <;> simp [rank] at hr
  | cons ev evs ih =>
    intro s hi hev hr
    by_cases hidle : s.pc t = .idle
    · exact ⟨[], ev :: evs, rfl, hidle⟩
    · have hi' := inv_exec hv hi ev (hev ev (by simp))
      have : rank e ((exec e s ev).pc t) ≤ evs.count (.step t) := by
        by_cases hst : ev = .step t
        · subst hst
          have h1 : rank e ((exec e s (.step t)).pc t) < rank e (s.pc t) := rank_step hv hi t hidle
          simp only [List.count_cons_self] at hr
          omega
        · rw [exec_other s ev hidle hst]
          rw [List.count_cons_of_ne (by simpa using hst)] at hr
          exact hr
      obtain ⟨pre, post, h1, h2⟩ := ih _ hi' (fun ev' h => hev ev' (by simp [h])) this
      exact ⟨ev :: pre, post, by simp [h1], h2⟩

/-! Solo runs. -/

/-- State of a call running alone since `s`. -/
def Solo (e : Env) (s : State n) (t : Fin n) (call : Call) (s' : State n) : Prop :=
  (∀ u, u ≠ t → s'.pc u = s.pc u) ∧
  (((s'.pc t).decided = none ∧ (s'.pc t).call = some call ∧ s'.consumed = s.consumed) ∨
   (∃ r, (s'.pc t).decided = some r ∧ (s'.pc t).call = some call ∧
      specApply e.zst e.slab s.consumed call = (r, s'.consumed)) ∨
   (s'.pc t = .idle ∧ ∃ r h, s'.hist = .resp t call r :: h ∧
      specApply e.zst e.slab s.consumed call = (r, s'.consumed)))

theorem solo_step {e : Env} (hv : e.Valid) {s s' : State n} {t : Fin n} {call : Call} (hi : Inv e s')
    (h : Solo e s t call s') : Solo e s t call (step e s' t) := by
  obtain ⟨h0, h⟩ := h
  refine ⟨fun u hu => by rw [step_other s' hu]; exact h0 u hu, ?_⟩
  rcases h with ⟨h1, h2, h3⟩ | ⟨r, h1, h2, h3⟩ | ⟨h1, h2⟩
  · have ht := trans_step hv hi t
    cases hp : s'.pc t with
    | idle => rw [hp] at h2; cases h2
    | write c a => rw [hp] at h1; cases h1
    | ret c r => rw [hp] at h1; cases h1
    | attempt c l retry g =>
      rw [hp] at h2
      have h2 : c = call := by simpa [Pc.call] using h2
      subst h2
      have hh : (∃ r, (step e s' t).hist = .lin t c r :: s'.hist ∧ ((step e s' t).pc t).decided = some r ∧
          ((step e s' t).pc t).call = some c) ∨
          (((step e s' t).pc t).decided = none ∧ ((step e s' t).pc t).call = some c ∧
            (step e s' t).consumed = s'.consumed) := by
        simp only [step, hp]
        split <;> simp only [State.decide, setPc_self]
        · exact .inl ⟨_, rfl, rfl, rfl⟩
        · exact .inl ⟨_, rfl, rfl, rfl⟩
        · exact .inl ⟨_, rfl, rfl, rfl⟩
        ·· exact .inr ⟨rfl, rfl, trivial⟩
      rcases hh with ⟨r, k1, k2, k3⟩ | ⟨k1, k2, k3⟩
      · right; left
        have := (lin_of_trans ht k1).2.2.2
        exact ⟨r, k2, k3, by rw [← h3]; exact this⟩
      · left; exact ⟨k1, k2, by rw [k3, h3]⟩
    | cas c l retry x at' new =>
      have hok := hi.pcs t
      rw [hp] at h2
      have h2 : c = call := by simpa [Pc.call] using h2
      subst h2
      rw [hp] at hok
      obtain ⟨hval, ⟨hl, hz, hr1, hr2⟩, hpre⟩ := hok
      have hh : (∃ r, (step e s' t).hist = .lin t c r :: s'.hist ∧ ((step e s' t).pc t).decided = some r ∧
          ((step e s' t).pc t).call = some c) ∨
          (((step e s' t).pc t).decided = none ∧ ((step e s' t).pc t).call = some c ∧
            (step e s' t).consumed = s'.consumed) := by
        simp only [step, hp]
        split
        · split <;> simp only [State.decide, setPc_self]
          · obtain ⟨k1, k2, _⟩ := decided_onOk c _ (layout_ne_level hl)
            exact .inl ⟨_, rfl, by rw [k1]; rfl, k2⟩
          · exact .inl ⟨_, rfl, rfl, rfl⟩
        · split
          · exact .inr ⟨by simp only [setPc_self]; rfl, by simp only [setPc_self]; rfl, rfl⟩
          · simp only [State.decide, setPc_self]; exact .inl ⟨_, rfl, rfl, rfl⟩
      rcases hh with ⟨r, k1, k2, k3⟩ | ⟨k1, k2, k3⟩
      · right; left
        have := (lin_of_trans ht k1).2.2.2
        exact ⟨r, k2, k3, by rw [← h3]; exact this⟩
      · left; exact ⟨k1, k2, by rw [k3, h3]⟩
    | load c =>
      have hok := hi.pcs t
      rw [hp] at h2
      have h2 : c = call := by simpa [Pc.call] using h2
      subst h2
      rw [hp] at hok
      right; left
      have key : ∃ r, (onLoad e c s'.consumed).decided = some r ∧ (onLoad e c s'.consumed).call = some c := by
        rcases hok.2 with hlev | ⟨ht, l, hl, hz⟩
        · subst hlev; exact ⟨_, rfl, rfl⟩
        · have hol : onLoad e c s'.consumed = onZst e c l c.atLevel s'.consumed := by
            cases c <;> simp [Call.typed, Call.layout] at ht hl <;> subst hl <;> rfl
          obtain ⟨r, h1, h2, _⟩ := onZst_spec (e := e) s'.consumed hl hz ht
          exact ⟨r, by rw [hol]; exact h1, by rw [hol]; exact h2⟩
      obtain ⟨r, k1, k2⟩ := key
      have hh : (step e s' t).hist = .lin t c r :: s'.hist ∧ (step e s' t).pc t = onLoad e c s'.consumed := by
        simp [step, hp, State.decide, setPc_self, k1]
      have := (lin_of_trans ht hh.1).2.2.2
      exact ⟨r, by rw [hh.2]; exact k1, by rw [hh.2]; exact k2, by rw [← h3]; exact this⟩
  · cases hp : s'.pc t with
    | idle => rw [hp] at h2; cases h2
    | attempt c l retry g => rw [hp] at h1; cases h1
    | cas c l retry x at' new => rw [hp] at h1; cases h1
    | load c => rw [hp] at h1; cases h1
    | write c a =>
      rw [hp] at h1 h2; cases h1; cases h2
      right; left
      exact ⟨_, by simp [step, hp, setPc_self, Pc.decided]; rfl, by simp [step, hp, setPc_self, Pc.call],
        by simp only [step, hp]; exact h3⟩
    | ret c q =>
      rw [hp] at h1 h2; cases h1; cases h2
      right; right
      exact ⟨by simp [step, hp, setPc_self], r, s'.hist, by simp [step, hp], by simp only [step, hp]; exact h3⟩
  · right; right
    have : step e s' t = s' := by simp [step, h1]
    rw [this]; exact ⟨h1, h2⟩

theorem solo_run {e : Env} (hv : e.Valid) {s : State n} {t : Fin n} {call : Call} : ∀ (k : Nat) (s' : State n),
    Inv e s' → Solo e s t call s' → Solo e s t call (run e s' (List.replicate k (.step t))) := by
  intro k
  induction k with
  | zero => intro s' _ h; exact h
  | succ k ih =>
    intro s' hi h
    rw [List.replicate_succ]
    exact ih _ (inv_exec hv hi _ trivial) (solo_step hv hi h)

theorem run_replicate_idle {e : Env} {t : Fin n} : ∀ (k : Nat) (s : State n), s.pc t = .idle →
    run e s (List.replicate k (.step t)) = s := by
  intro k
  induction k with
  | zero => intro s _; rfl
  | succ k ih =>
    intro s h
    rw [List.replicate_succ]
    have : exec e s (.step t) = s := by simp [exec, step, h]
    show run e (exec e s (.step t)) _ = s
    rw [this]; exact ih s h

theorem solo_complete {e : Env} (hv : e.Valid) {s : State n} (hi : Inv e s) {t : Fin n} (ht : s.pc t = .idle)
    {call : Call} (hcall : call.Valid e.target) {k : Nat} (hk : 2 * e.len + 6 ≤ k) :
    ∃ r h, (run e s (.invoke t call :: List.replicate k (.step t))).hist = .resp t call r :: h ∧
      specApply e.zst e.slab s.consumed call =
        (r, (run e s (.invoke t call :: List.replicate k (.step t))).consumed) ∧
      (run e s (.invoke t call :: List.replicate k (.step t))).pc = s.pc := by
  have hi1 : Inv e (exec e s (.invoke t call)) := inv_exec hv hi _ hcall
  have hs1 : Solo e s t call (exec e s (.invoke t call)) := by
    simp only [exec, ht, if_true]
    refine ⟨fun u hu => by simp [setPc_ne _ _ hu], .inl ⟨?_, ?_, rfl⟩⟩
    · simp [setPc_self, decided_enter]
    · simp [setPc_self, call_enter]
  have hfin := solo_run hv k _ hi1 hs1
  have hrank : rank e ((exec e s (.invoke t call)).pc t) ≤ (List.replicate k (Event.step t)).count (.step t) := by
    rw [List.count_replicate_self]
    simp only [exec, ht, if_true, setPc_self]
    have := rank_enter e call
    omega
  have hval : ∀ ev ∈ List.replicate k (Event.step t), Event.Valid e.target ev := by
    intro ev h; rw [List.eq_of_mem_replicate h]; trivial
  obtain ⟨pre, post, h1, h2⟩ := progress hv t _ _ hi1 hval hrank
  have hidle : (run e (exec e s (.invoke t call)) (List.replicate k (.step t))).pc t = .idle := by
    rw [h1, run_append]
    have : post = List.replicate post.length (.step t) := by
      apply List.eq_replicate_of_mem
      intro b hb
      have : b ∈ List.replicate k (Event.step t) := by rw [h1]; exact List.mem_append_right _ hb
      exact List.eq_of_mem_replicate this
    rw [this, run_replicate_idle _ _ h2]; exact h2
  show ∃ r h, (run e (exec e s (.invoke t call)) (List.replicate k (.step t))).hist = .resp t call r :: h ∧
      specApply e.zst e.slab s.consumed call =
        (r, (run e (exec e s (.invoke t call)) (List.replicate k (.step t))).consumed) ∧
      (run e (exec e s (.invoke t call)) (List.replicate k (.step t))).pc = s.pc
  obtain ⟨q1, q2⟩ := hfin
  rcases q2 with ⟨_, q2, _⟩ | ⟨r, _, q2, _⟩ | ⟨_, r, h, q3, q4⟩
  · rw [hidle] at q2; cases q2
  · rw [hidle] at q2; cases q2
  · refine ⟨r, h, q3, q4, ?_⟩
    funext u
    by_cases hu : u = t
    · subst hu; rw [hidle, ht]
    · exact q1 u hu

/-! Calls without success have no effect. -/

theorem decided_persists {e : Env} {s : State n} {t : Fin n} {call : Call} {r : Ret}
    (h1 : (s.pc t).call = some call) (h2 : (s.pc t).decided = some r) (ev : Event n) :
    (exec e s ev).pc t = .idle ∨ (((exec e s ev).pc t).call = some call ∧ ((exec e s ev).pc t).decided = some r) := by
  have hne : s.pc t ≠ .idle := by intro h; rw [h] at h1; cases h1
  by_cases hst : ev = .step t
  · subst hst
    cases hp : s.pc t with
    | idle => exact absurd hp hne
    | attempt c l retry g => rw [hp] at h2; cases h2
    | cas c l retry x at' new => rw [hp] at h2; cases h2
    | load c => rw [hp] at h2; cases h2
    | write c a =>
      right
      rw [hp] at h1 h2; cases h1; cases h2
      simp [exec, step, hp, setPc_self, Pc.call, Pc.decided]
    | ret c q => left; simp [exec, step, hp, setPc_self]
  · rw [exec_other s ev hne hst]; exact .inr ⟨h1, h2⟩

theorem decided_persists_run {e : Env} {t : Fin n} {call : Call} {r : Ret} : ∀ (evs : List (Event n)) (s : State n),
    (s.pc t).call = some call → (s.pc t).decided = some r →
    (∀ pre post, evs = pre ++ post → (run e s pre).pc t ≠ .idle) →
    ((run e s evs).pc t).call = some call ∧ ((run e s evs).pc t).decided = some r := by
  intro evs
  induction evs with
  | nil => intro s h1 h2 _; exact ⟨h1, h2⟩
  | cons ev evs ih =>
    intro s h1 h2 hn
    have hne := hn [ev] evs rfl
    rcases decided_persists (e := e) h1 h2 ev with h | ⟨h3, h4⟩
    · exact absurd h hne
    · exact ih _ h3 h4 (fun pre post h => hn (ev :: pre) post (by simp [h]))

theorem no_success_no_effect {e : Env} (hv : e.Valid) {s : State n} (hi : Inv e s) {t : Fin n} {call : Call}
    {r : Ret} (hr : r.ptr? = none) {evs : List (Event n)} (hev : ∀ ev ∈ evs, Event.Valid e.target ev)
    (hin : ∀ pre post, evs = pre ++ post → (run e s pre).pc t ≠ .idle)
    (hend : (run e s evs).pc t = .ret call r) {pre post : List (Event n)} (hsplit : evs = pre ++ .step t :: post) :
    (step e (run e s pre) t).consumed = (run e s pre).consumed ∧ (step e (run e s pre) t).mem = (run e s pre).mem := by
  have hi2 : Inv e (run e s pre) :=
    (run_induction hv (P := fun _ => True) hi trivial (fun _ _ _ _ _ _ => trivial) pre
      (fun ev h => hev ev (by rw [hsplit]; simp [h]))).2
  have ht := trans_step hv hi2 t
  have hrest : run e s evs = run e (step e (run e s pre) t) post := by
    rw [hsplit, run_append]; rfl
  have hin3 : ∀ p q, post = p ++ q → (run e (step e (run e s pre) t) p).pc t ≠ .idle := by
    intro p q hpq
    have := hin (pre ++ .step t :: p) q (by rw [hsplit, hpq]; simp)
    rwa [run_append] at this
  -- once decided, the result is the final one
  have hfinal : ∀ c q, ((step e (run e s pre) t).pc t).call = some c →
      ((step e (run e s pre) t).pc t).decided = some q → c = call ∧ q = r := by
    intro c q h1 h2
    have := decided_persists_run post _ h1 h2 hin3
    rw [← hrest, hend] at this
    simp only [Pc.call, Pc.decided, Option.some.injEq] at this
    exact ⟨this.1.symm, this.2.symm⟩
  have hne := hin pre (.step t :: post) hsplit
  revert ht hfinal
  generalize hS : step e (run e s pre) t = S
  intro ht hfinal
  cases ht with
  | stutter h => rw [h]; exact ⟨rfl, rfl⟩
  | invoke t' call' hp hv h => rw [h]; exact ⟨rfl, rfl⟩
  | prepare t' call' l retry g at' new hp h => rw [h]; exact ⟨rfl, rfl⟩
  | retry t' call' l x at' new hp hx hlt h => rw [h]; exact ⟨rfl, rfl⟩
  | decide t' call' p r' c' hn hc hr' hpc hsp hw h =>
    subst h
    refine ⟨?_, rfl⟩
    by_cases htt : t' = t
    · subst htt
      obtain ⟨rfl, rfl⟩ := hfinal call' r' (by simp [setPc_self, hpc]) (by simp [setPc_self, hr'])
      have hval := (hi2.pcs t').1 call' hc
      have hf := specApply_facts e.zst hval (s := e.slab) hi2.le hsp
      apply hf.2.2.1
      unfold grant
      split
      · rfl
      · split
        · rfl
        · cases r' <;> simp [Ret.ptr?] at hr ⊢
    · -- a step of `t` does not decide for another thread
      exfalso
      have hne' : t' ≠ t := htt
      have := step_other (e := e) (run e s pre) hne'
      rw [hS] at this
      simp only [setPc_self] at this
      rw [this, hn] at hr'
      cases hr'
  | write t' call' a hp h =>
    by_cases htt : t' = t
    · subst htt
      subst h
      obtain ⟨rfl, rfl⟩ := hfinal call' (afterWrite call' a) (by simp [setPc_self, Pc.call]) (by simp [setPc_self, Pc.decided])
      cases call' <;> simp [afterWrite, Ret.ptr?] at hr
    · exfalso
      have := step_other (e := e) (run e s pre) htt
      rw [hS, h] at this
      simp only [setPc_self, hp] at this
      cases this
  | resp t' call' r' hp h => rw [h]; exact ⟨rfl, rfl⟩
  | userWrite r' off bs hr' ho h =>
    exfalso
    have hlen : S.hist.length = (run e s pre).hist.length + 1 := by rw [h]; simp
    have hh : S.hist = .userWrite r' :: (run e s pre).hist := by rw [h]
    rw [← hS] at hh
    unfold step at hh
    split at hh
    · exact absurd hh cons_ne_self'
    · split at hh <;> simp [State.decide] at hh
    · split at hh
      · split at hh <;> simp [State.decide] at hh
      · split at hh <;> simp [State.decide] at hh
    · simp [State.decide] at hh
    · exact absurd hh cons_ne_self'
    · simp at hh
  | reset hidle h => exact absurd (hidle t) hne

end Verif.Bump
