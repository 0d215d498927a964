import Verif.Proofs.BumpRegions
/-! Consequences of one decided call, in explicit terms. -/
namespace Verif.Bump
open Verif
variable {n : Nat}

theorem cons_ne_self' {α : Type} {a : α} {l : List α} : l ≠ a :: l := by
  intro h; have := congrArg List.length h; simp at this

/-- A transition that decides a call, seen from the history. -/
theorem lin_of_trans {e : Env} {s s' : State n} (ht : Trans e s s') {t : Fin n} {call : Call} {r : Ret}
    (h : s'.hist = .lin t call r :: s.hist) :
    (s.pc t).decided = none ∧ (s.pc t).call = some call ∧ s'.mem = s.mem ∧
      specApply e.zst e.slab s.consumed call = (r, s'.consumed) := by
  cases ht with
  | decide t' call' p r' c' hn hc hr hpc hsp hw hs =>
    subst hs
    simp only [List.cons.injEq, Ev.lin.injEq, and_true] at h
    obtain ⟨rfl, rfl, rfl⟩ := h
    exact ⟨hn, hc, rfl, hsp⟩
  | stutter hs => subst hs; exact absurd h cons_ne_self'
  | prepare t' call' l retry g at' new hp hs => subst hs; exact absurd h cons_ne_self'
  | write t' call' a hp hs => subst hs; exact absurd h cons_ne_self'
  | invoke t' call' hp hv hs => subst hs; simp at h
  | retry t' call' l x at' new hp hx hlt hs => subst hs; simp at h
  | resp t' call' r' hp hs => subst hs; simp at h
  | userWrite r' off bs hr ho hs => subst hs; simp at h
  | reset hi hs => subst hs; simp at h

theorem specPlace_cases {s : Slab} {c : Nat} {l : Layout} {at? : Option Nat} (hs : 0 < l.size) :
    (specPlace s c l at? = none ∧ ∃ L, at? = some L ∧ s.len < L) ∨
    (∃ a, specPlace s c l at? = some (.ok a) ∧ s.place l c = some a ∧ (∀ L, at? = some L → c = L ∧ L ≤ s.len)) ∨
    (specPlace s c l at? = some (.error .exhausted) ∧
      ((at? = none ∧ s.place l c = none) ∨ ∃ L, at? = some L ∧ L ≤ s.len ∧ s.place l L = none)) ∨
    (∃ L, specPlace s c l at? = some (.error (.mismatch c)) ∧ at? = some L ∧ c ≠ L ∧ L ≤ s.len ∧
      (s.place l L).isSome) := by
  unfold specPlace
  have hs0 : l.size ≠ 0 := by omega
  simp only [hs0, if_false]
  cases at? with
  | none =>
    simp only
    cases hp : s.place l c with
    | none => right; right; left; simp
    | some a => right; left; exact ⟨a, rfl, rfl, by simp⟩
  | some L =>
    simp only
    by_cases hL : s.len < L
    · left; simp [hL]
    · simp only [hL, if_false]
      cases hp : s.place l L with
      | none => right; right; left; refine ⟨rfl, .inr ⟨L, rfl, by omega, hp⟩⟩
      | some a =>
        by_cases hc : c = L
        · right; left; refine ⟨a, by simp [hc], by rw [hc]; exact hp, ?_⟩
          intro L' h; cases h; exact ⟨hc, by omega⟩
        · right; right; right; refine ⟨L, by simp [hc], rfl, hc, by omega, ?_⟩
          rw [hp]; rfl

theorem success_ptr (call : Call) (a : Alloc) : (call.success a).ptr? = some a.ptr := by
  cases call <;> rfl
theorem failure_ptr (call : Call) (f : Failure) : (call.failure f).ptr? = none := by
  cases call <;> rfl
theorem success_not_exhausted (call : Call) (a : Alloc) : ¬ (call.success a).IsExhausted := by
  cases call <;> simp [Call.success, Ret.IsExhausted]
theorem success_mismatch (call : Call) (a : Alloc) : (call.success a).mismatch? = none := by
  cases call <;> rfl
theorem failure_ne_panicked (call : Call) (f : Failure) : call.failure f ≠ .panicked := by
  cases call <;> simp [Call.failure]
theorem success_ne_panicked (call : Call) (a : Alloc) : call.success a ≠ .panicked := by
  cases call <;> simp [Call.success]
theorem success_allocation {call : Call} {a b : Alloc} (h : call.success a = .allocation b) : a = b := by
  cases call <;> simp [Call.success] at h <;> exact h

/-- Classification of the result of one call. -/
theorem specApply_cases {zst : ZstAddr} {s : Slab} {c : Nat} {call : Call} {r : Ret} {c' : Nat}
    (h : specApply zst s c call = (r, c')) :
    (call = .level ∧ r = .level c ∧ c' = c) ∨
    ∃ l, call.layout = some l ∧
      ((call.typed = true ∧ l.size = 0 ∧ c' = c ∧
          ((∀ L, call.atLevel = some L → c = L) ∧ r = call.success ⟨zst l.align, c⟩ ∨
           (∃ L, call.atLevel = some L ∧ c ≠ L) ∧ r = call.failure (.mismatch c))) ∨
       (call.typed = false ∧ l.size = 0 ∧ c' = c ∧ r = .panicked) ∨
       (0 < l.size ∧
          ((r = .panicked ∧ c' = c ∧ ∃ L, call.atLevel = some L ∧ s.len < L) ∨
           (∃ a, r = call.success a ∧ c' = a.level ∧ s.place l c = some a ∧
              ∀ L, call.atLevel = some L → c = L ∧ L ≤ s.len) ∨
           (r = call.failure .exhausted ∧ c' = c ∧ ((call.atLevel = none ∧ s.place l c = none) ∨
              ∃ L, call.atLevel = some L ∧ L ≤ s.len ∧ s.place l L = none)) ∨
           (∃ L, r = call.failure (.mismatch c) ∧ c' = c ∧ call.atLevel = some L ∧ c ≠ L ∧ L ≤ s.len ∧
              (s.place l L).isSome)))) := by
  cases hl : call.layout with
  | none =>
    left
    cases call <;> simp [Call.layout] at hl
    simp [specApply, Call.layout] at h
    exact ⟨rfl, h.1.symm, h.2.symm⟩
  | some l =>
    right
    refine ⟨l, rfl, ?_⟩
    by_cases hz : call.typed = true ∧ l.size = 0
    · left
      refine ⟨hz.1, hz.2, ?_⟩
      unfold specApply at h
      simp only [hl, hz, and_self, if_true] at h
      cases hat : call.atLevel with
      | none =>
        simp only [hat] at h; cases h
        refine ⟨rfl, .inl ⟨by simp, rfl⟩⟩
      | some L =>
        simp only [hat] at h
        by_cases hcL : c = L
        · simp only [hcL, if_true] at h; cases h
          exact ⟨by simp [hcL], .inl ⟨by intro L' h'; cases h'; exact hcL, by simp [hcL]⟩⟩
        · simp only [hcL, if_false] at h; cases h
          exact ⟨rfl, .inr ⟨⟨L, rfl, hcL⟩, rfl⟩⟩
    · right
      rw [specApply_alloc hl hz] at h
      by_cases hs : l.size = 0
      · left
        have ht : call.typed = false := by
          cases ht : call.typed with
          | true => exact absurd ⟨ht, hs⟩ hz
          | false => rfl
        simp [specPlace, hs] at h
        exact ⟨ht, hs, h.2.symm, h.1.symm⟩
      · right
        refine ⟨by omega, ?_⟩
        rcases specPlace_cases (s := s) (c := c) (l := l) (at? := call.atLevel) (by omega) with
          ⟨hp, hL⟩ | ⟨a, hp, ha, hL⟩ | ⟨hp, hL⟩ | ⟨L, hp, hL, hcL, hle, hps⟩
        · rw [hp] at h; simp only [Prod.mk.injEq] at h
          exact .inl ⟨h.1.symm, h.2.symm, hL⟩
        · rw [hp] at h; simp only [Prod.mk.injEq] at h
          exact .inr (.inl ⟨a, h.1.symm, h.2.symm, ha, hL⟩)
        · rw [hp] at h; simp only [Prod.mk.injEq] at h
          exact .inr (.inr (.inl ⟨h.1.symm, h.2.symm, hL⟩))
        · rw [hp] at h; simp only [Prod.mk.injEq] at h
          exact .inr (.inr (.inr ⟨L, h.1.symm, h.2.symm, hL, hcL, hle, hps⟩))

end Verif.Bump
