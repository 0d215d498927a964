import Verif.Proofs.BumpProgress
import Mathlib.Algebra.BigOperators.Fin
/-! Counting invocations, decisions and responses. -/
namespace Verif.Bump
open Verif
variable {n : Nat}

theorem sum_setPc (w : Pc → Nat) (pc : Fin n → Pc) (t : Fin n) (p : Pc) :
    (∑ u, w (setPc pc t p u)) + w (pc t) = (∑ u, w (pc u)) + w p := by
  have h1 := Finset.add_sum_erase Finset.univ (fun u => w (setPc pc t p u)) (Finset.mem_univ t)
  have h2 := Finset.add_sum_erase Finset.univ (fun u => w (pc u)) (Finset.mem_univ t)
  have h3 : ∑ u ∈ Finset.univ.erase t, w (setPc pc t p u) = ∑ u ∈ Finset.univ.erase t, w (pc u) := by
    apply Finset.sum_congr rfl
    intro u hu
    rw [setPc_ne _ _ (Finset.ne_of_mem_erase hu)]
  simp only [setPc_self] at h1
  omega

/-- Weight of a thread whose call is decided. -/
def decW (w : Call → Ret → Nat) (p : Pc) : Nat :=
  match p.call, p.decided with
  | some c, some r => w c r
  | _, _ => 0

/-- Weight of a thread whose call is not decided. -/
def undW (v : Call → Nat) (p : Pc) : Nat :=
  match p.call, p.decided with
  | some c, none => v c
  | _, _ => 0

/-- Conservation of calls. -/
def Conserved (w : Call → Ret → Nat) (v : Call → Nat) (s0 s : State n) : Prop :=
  ∃ new, s.hist = new ++ s0.hist ∧
    sumResp w new + ∑ t, decW w (s.pc t) = sumLin w new + ∑ t, decW w (s0.pc t) ∧
    sumLin (fun c _ => v c) new + ∑ t, undW v (s.pc t) = sumInv v new + ∑ t, undW v (s0.pc t)

theorem conserved_trans {e : Env} {w : Call → Ret → Nat} {v : Call → Nat} {s0 s s' : State n}
    (h : Conserved w v s0 s) (ht : Trans e s s') : Conserved w v s0 s' := by
  obtain ⟨new, h1, h2, h3⟩ := h
  cases ht with
  | stutter hs => subst hs; exact ⟨new, h1, h2, h3⟩
  | invoke t call hp hv hs =>
    subst hs
    refine ⟨_ :: new, by rw [h1]; rfl, ?_, ?_⟩
    · have := sum_setPc (decW w) s.pc t (enter call)
      simp only [hp] at this
      have e1 : decW w .idle = 0 := rfl
      have e2 : decW w (enter call) = 0 := by simp only [decW, call_enter, decided_enter]
      simp only [sumResp, sumLin, List.map_cons, List.sum_cons] at h2 ⊢; omega
    · have := sum_setPc (undW v) s.pc t (enter call)
      simp only [hp] at this
      have e1 : undW v .idle = 0 := rfl
      have e2 : undW v (enter call) = v call := by simp only [undW, call_enter, decided_enter]
      simp only [sumInv, sumLin, List.map_cons, List.sum_cons] at h3 ⊢; omega
  | prepare t call l retry g at' new' hp hs =>
    subst hs
    refine ⟨new, h1, ?_, ?_⟩
    · have := sum_setPc (decW w) s.pc t (.cas call l retry g at' new')
      simp only [hp] at this
      have e1 : decW w (.cas call l retry g at' new') = 0 := rfl
      have e2 : decW w (.attempt call l retry g) = 0 := rfl
      simp only; omega
    · have := sum_setPc (undW v) s.pc t (.cas call l retry g at' new')
      simp only [hp] at this
      have e1 : undW v (.cas call l retry g at' new') = v call := rfl
      have e2 : undW v (.attempt call l retry g) = v call := rfl
      simp only; omega
  | retry t call l x at' new' hp hx hlt hs =>
    subst hs
    refine ⟨_ :: new, by rw [h1]; rfl, ?_, ?_⟩
    · have := sum_setPc (decW w) s.pc t (.attempt call l true s.consumed)
      simp only [hp] at this
      have e1 : decW w (.cas call l true x at' new') = 0 := rfl
      have e2 : decW w (.attempt call l true s.consumed) = 0 := rfl
      simp only [sumResp, sumLin, List.map_cons, List.sum_cons] at h2 ⊢; omega
    · have := sum_setPc (undW v) s.pc t (.attempt call l true s.consumed)
      simp only [hp] at this
      have e1 : undW v (.cas call l true x at' new') = v call := rfl
      have e2 : undW v (.attempt call l true s.consumed) = v call := rfl
      simp only [sumInv, sumLin, List.map_cons, List.sum_cons] at h3 ⊢; omega
  | decide t call p r c' hn hc hr hpc hsp hw hs =>
    subst hs
    refine ⟨_ :: new, by rw [h1]; rfl, ?_, ?_⟩
    · have := sum_setPc (decW w) s.pc t p
      have e1 : decW w p = w call r := by simp [decW, hpc, hr]
      have e2 : decW w (s.pc t) = 0 := by simp [decW, hc, hn]
      simp only [sumResp, sumLin, List.map_cons, List.sum_cons] at h2 ⊢; omega
    · have := sum_setPc (undW v) s.pc t p
      have e1 : undW v p = 0 := by simp [undW, hpc, hr]
      have e2 : undW v (s.pc t) = v call := by simp [undW, hc, hn]
      simp only [sumInv, sumLin, List.map_cons, List.sum_cons] at h3 ⊢; omega
  | write t call a hp hs =>
    subst hs
    refine ⟨new, h1, ?_, ?_⟩
    · have := sum_setPc (decW w) s.pc t (.ret call (afterWrite call a))
      simp only [hp] at this
      have e1 : decW w (.write call a) = w call (afterWrite call a) := rfl
      have e2 : decW w (.ret call (afterWrite call a)) = w call (afterWrite call a) := rfl
      simp only; omega
    · have := sum_setPc (undW v) s.pc t (.ret call (afterWrite call a))
      simp only [hp] at this
      have e1 : undW v (.write call a) = 0 := rfl
      have e2 : undW v (.ret call (afterWrite call a)) = 0 := rfl
      simp only; omega
  | resp t call r hp hs =>
    subst hs
    refine ⟨_ :: new, by rw [h1]; rfl, ?_, ?_⟩
    · have := sum_setPc (decW w) s.pc t .idle
      simp only [hp] at this
      have e1 : decW w .idle = 0 := rfl
      have e2 : decW w (.ret call r) = w call r := rfl
      simp only [sumResp, sumLin, List.map_cons, List.sum_cons] at h2 ⊢; omega
    · have := sum_setPc (undW v) s.pc t .idle
      simp only [hp] at this
      have e1 : undW v .idle = 0 := rfl
      have e2 : undW v (.ret call r) = 0 := rfl
      simp only [sumInv, sumLin, List.map_cons, List.sum_cons] at h3 ⊢; omega
  | userWrite r' off bs hr ho hs =>
    subst hs
    refine ⟨_ :: new, by rw [h1]; rfl, ?_, ?_⟩
    · simp only [sumResp, sumLin, List.map_cons, List.sum_cons] at h2 ⊢; omega
    · simp only [sumInv, sumLin, List.map_cons, List.sum_cons] at h3 ⊢; omega
  | reset hidle hs =>
    subst hs
    refine ⟨_ :: new, by rw [h1]; rfl, ?_, ?_⟩
    · simp only [sumResp, sumLin, List.map_cons, List.sum_cons] at h2 ⊢; omega
    · simp only [sumInv, sumLin, List.map_cons, List.sum_cons] at h3 ⊢; omega

theorem conserved_run {e : Env} (he : e.Valid) (w : Call → Ret → Nat) (v : Call → Nat) {s : State n} (hi : Inv e s)
    {evs : List (Event n)} (hev : ∀ ev ∈ evs, Event.Valid e.target ev) : Conserved w v s (run e s evs) :=
  (run_induction he (P := Conserved w v s) hi ⟨[], rfl, by simp [sumResp, sumLin], by simp [sumInv, sumLin]⟩
    (fun _ _ _ _ h ht => conserved_trans h ht) evs hev).1

theorem sum_idle {w : Pc → Nat} (hw : w .idle = 0) {pc : Fin n → Pc} (h : ∀ t, pc t = .idle) : ∑ t, w (pc t) = 0 := by
  simp [h, hw]

/-- Level versus decisions. -/
def LevelSum (s0 s : State n) : Prop :=
  ∃ new, s.hist = new ++ s0.hist ∧ (Ev.reset ∉ new →
    s0.consumed + sumLin gotBytes new ≤ s.consumed ∧ s.consumed ≤ s0.consumed + sumLin gotWorst new)

theorem levelSum_trans {e : Env} {s0 s s' : State n} (hi : Inv e s) (h : LevelSum s0 s) (ht : Trans e s s') :
    LevelSum s0 s' := by
  obtain ⟨new, h1, h2⟩ := h
  have keep : ∀ (ev : Ev n) (s'' : State n), s''.hist = ev :: s.hist → s''.consumed = s.consumed → ev ≠ .reset →
      (∀ t c r, ev ≠ .lin t c r) → LevelSum s0 s'' := by
    intro ev s'' k1 k2 k3 k4
    refine ⟨ev :: new, by rw [k1, h1]; rfl, fun hr => ?_⟩
    have := h2 (by simp_all)
    rw [k2]
    cases ev <;> simp_all [sumLin]
  cases ht with
  | stutter hs => subst hs; exact ⟨new, h1, h2⟩
  | invoke t call hp hv hs => subst hs; exact keep _ _ rfl rfl (by simp) (by simp)
  | prepare t call l retry g at' new' hp hs => subst hs; exact ⟨new, h1, h2⟩
  | retry t call l x at' new' hp hx hlt hs => subst hs; exact keep _ _ rfl rfl (by simp) (by simp)
  | decide t call p r c' hn hc hr hpc hsp hw hs =>
    subst hs
    have hval := (hi.pcs t).1 call hc
    obtain ⟨f1, f2, f3, f4⟩ := specApply_facts e.zst hval (s := e.slab) hi.le hsp
    refine ⟨_ :: new, by rw [h1]; rfl, fun hr => ?_⟩
    have h2' := h2 (by simp_all)
    simp only [sumLin, List.map_cons, List.sum_cons] at h2' ⊢
    cases hg : grant call r with
    | none =>
      have := f3 hg
      simp only [gotBytes, gotWorst, hg] at h2' ⊢
      omega
    | some reg =>
      obtain ⟨l, hl, h0, hsz, hst, hend⟩ := f4 reg hg
      have ha := Call.Valid.align_pos hval hl
      have k1 := le_alignUp ha (e.slab.base + s.consumed)
      have k2 := alignUp_lt ha (e.slab.base + s.consumed)
      have h0' : l.size ≠ 0 := by omega
      have e1 : gotBytes call r = l.size := by simp [gotBytes, hg, hsz]
      have e2 : gotWorst call r = l.size + (l.align - 1) := by simp [gotWorst, hg, worstBytes, hl, h0']
      rw [e1, e2]
      omega
  | write t call a hp hs => subst hs; exact ⟨new, h1, h2⟩
  | resp t call r hp hs => subst hs; exact keep _ _ rfl rfl (by simp) (by simp)
  | userWrite r' off bs hr ho hs => subst hs; exact keep _ _ rfl rfl (by simp) (by simp)
  | reset hidle hs => subst hs; exact ⟨_ :: new, by rw [h1]; rfl, fun h => by simp at h⟩

theorem levelSum_run {e : Env} (he : e.Valid) {s : State n} (hi : Inv e s) {evs : List (Event n)}
    (hev : ∀ ev ∈ evs, Event.Valid e.target ev) : LevelSum s (run e s evs) :=
  (run_induction he (P := LevelSum s) hi ⟨[], rfl, fun _ => by simp [sumLin]⟩
    (fun _ _ hi _ h ht => levelSum_trans hi h ht) evs hev).1

end Verif.Bump
