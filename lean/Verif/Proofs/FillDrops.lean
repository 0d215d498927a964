import Verif.Spec.FillDrops
import Verif.Props.Fill
/-! # Filling with destructors: proofs -/
set_option autoImplicit false
namespace Verif.FillDrops
open Verif Fill FVec

variable {C α E V : Type}

theorem perm_of {l r : List V} (h : ∀ [DecidableEq V] (v : V), l.count v = r.count v) : l.Perm r := by
  classical
  exact List.perm_iff_count.mpr fun v => h v
theorem count_of {l r : List V} (h : l.Perm r) [DecidableEq V] (v : V) : l.count v = r.count v := h.count_eq v

/-! ## Destroying -/
section
variable {panics : V → Bool}

theorem destroy_unwinding (vs : List V) : (vs.countP panics = 0 ∧ destroy panics true vs = (.panic, vs)) ∨
    ∃ d v, d ++ [v] <+: vs ∧ d.countP panics = 0 ∧ panics v = true ∧ 0 < vs.countP panics ∧ destroy panics true vs = (.abort, d ++ [v]) := by
  induction vs with
  | nil => exact .inl ⟨rfl, rfl⟩
  | cons v vs ih =>
    cases hv : panics v with
    | true => exact .inr ⟨[], v, by simp, rfl, hv, by simp [hv], by simp [destroy, hv]⟩
    | false =>
      rcases ih with ⟨h, hd⟩ | ⟨d, w, h1, h2, h3, h4, hd⟩
      · exact .inl ⟨by simp [hv, h], by simp [destroy, hv, hd]⟩
      · exact .inr ⟨v :: d, w, by simpa using h1, by simp [hv, h2], h3, by simp [hv, h4], by simp [destroy, hv, hd]⟩

theorem destroy_normal (vs : List V) : (vs.countP panics = 0 ∧ destroy panics false vs = (.ok, vs)) ∨ (vs.countP panics = 1 ∧ destroy panics false vs = (.panic, vs)) ∨
    ∃ d v, d ++ [v] <+: vs ∧ d.countP panics = 1 ∧ panics v = true ∧ destroy panics false vs = (.abort, d ++ [v]) := by
  induction vs with
  | nil => exact .inl ⟨rfl, rfl⟩
  | cons v vs ih =>
    cases hv : panics v with
    | true =>
      rcases destroy_unwinding (panics := panics) vs with ⟨h, hd⟩ | ⟨d, w, h1, h2, h3, -, hd⟩
      · exact .inr (.inl ⟨by simp [hv, h], by simp [destroy, hv, hd]⟩)
      · exact .inr (.inr ⟨v :: d, w, by simpa using h1, by simp [hv, h2], h3, by simp [destroy, hv, hd]⟩)
    | false =>
      rcases ih with ⟨h, hd⟩ | ⟨h, hd⟩ | ⟨d, w, h1, h2, h3, hd⟩
      · exact .inl ⟨by simp [hv, h], by simp [destroy, hv, hd]⟩
      · exact .inr (.inl ⟨by simp [hv, h], by simp [destroy, hv, hd]⟩)
      · exact .inr (.inr ⟨v :: d, w, by simpa using h1, by simp [hv, h2], h3, by simp [destroy, hv, hd]⟩)

theorem destroy_rest (u : Bool) (vs : List V) : ∃ rest, vs.Perm (rest ++ (destroy panics u vs).2) ∧ ((destroy panics u vs).1 ≠ .abort → rest = []) := by
  have pre : ∀ {d : List V}, d <+: vs → ∃ rest, vs.Perm (rest ++ d) := by
    rintro d ⟨r, rfl⟩
    exact ⟨r, List.perm_append_comm⟩
  cases u with
  | true =>
    rcases destroy_unwinding (panics := panics) vs with ⟨_, hd⟩ | ⟨d, w, h1, _, _, _, hd⟩
    · exact ⟨[], by simp [hd], fun _ => rfl⟩
    · obtain ⟨r, hr⟩ := pre h1
      exact ⟨r, by simpa [hd] using hr, by simp [hd]⟩
  | false =>
    rcases destroy_normal (panics := panics) vs with ⟨_, hd⟩ | ⟨_, hd⟩ | ⟨d, w, h1, _, _, hd⟩
    · exact ⟨[], by simp [hd], fun _ => rfl⟩
    · exact ⟨[], by simp [hd], fun _ => rfl⟩
    · obtain ⟨r, hr⟩ := pre h1
      exact ⟨r, by simpa [hd] using hr, by simp [hd]⟩

theorem destroy_quiet (hp : ∀ v, panics v = false) (u : Bool) (vs : List V) : destroy panics u vs = (if u then .panic else .ok, vs) := by
  induction vs with
  | nil => rfl
  | cons v vs ih => simp [destroy, hp v, ih]
end

/-! ## What was taken -/

theorem taken_append (vals : α → List V) (l r : List (Poll α)) : taken vals (l ++ r) = taken vals l ++ taken vals r := by
  induction l with
  | nil => rfl
  | cons p l ih => cases p <;> simp [taken, ih]
theorem taken_items (vals : α → List V) (new : List α) : taken vals (new.map .item) = new.flatMap vals := by
  induction new with
  | nil => rfl
  | cons a new ih => simp [taken, ih]
theorem taken_wellFilled {vals : α → List V} {r : Option Nat} {log : List (Poll α)} {new : List α} {u : Bool} (h : WellFilled r log new u) : taken vals log = new.flatMap vals := by
  cases h with
  | full => exact taken_items ..
  | ended => simp [taken_append, taken_items, taken]
  | panicked => simp [taken_append, taken_items, taken]

theorem conserves_of_lawful {F : FillImpl C α V} {G : Fill.FillImpl C α} {room : C → Option Nat} {Stored : C → List α → C → Prop} {cvals : C → List V} {vals : α → List V}
    (ha : Agrees F G) (hd : DestroysNothing F) (hG : Lawful G room Stored) (hs : ∀ {c new c'}, Stored c new c' → (cvals c').Perm (cvals c ++ new.flatMap vals)) : Conserves F cvals vals := by
  intro ι next fuel c c' i i' e d h
  obtain ⟨rfl, -⟩ := hd h
  rcases ha (next := next) (fuel := fuel) (c := c) (i := i) with ⟨h1, -⟩ | ⟨u, c1, i1, d1, h1, h2⟩
  · rw [h] at h1; cases h1
  · rw [h] at h1; cases h1
    obtain ⟨n, new, k1, k2, k3⟩ := hG.fills h2
    exact ⟨n, cvals c', k1, by rw [taken_wellFilled k2, List.append_nil]; exact (hs k3).symm, fun _ => rfl⟩

theorem vec_agrees : Agrees (vecFill (α := α) (V := V)) Fill.vecFill := fun {_ _ _ _ _} => .inr ⟨_, _, _, _, rfl, rfl⟩
theorem vecDeque_agrees : Agrees (vecDequeFill (α := α) (V := V)) Fill.vecDequeFill := fun {_ _ _ _ _} => .inr ⟨_, _, _, _, rfl, rfl⟩
theorem unit_agrees : Agrees (unitFill (V := V)) Fill.unitFill := by
  intro ι next fuel c i
  simp only [unitFill, Fill.unitFill]
  rcases unitLoop next fuel i with _ | ⟨u, ⟨⟩, i'⟩
  · exact .inl ⟨rfl, rfl⟩
  · exact .inr ⟨u, (), i', [], rfl, rfl⟩
theorem option_agrees : Agrees (optionFill (α := α) (V := V)) Fill.optionFill := by
  intro ι next fuel c i
  cases c with
  | some a => exact .inr ⟨false, _, _, _, rfl, rfl⟩
  | none =>
    simp only [optionFill, Fill.optionFill]
    rcases next i with ⟨p, j⟩
    cases p with
    | item a => exact .inr ⟨false, _, _, _, rfl, rfl⟩
    | done => exact .inr ⟨false, _, _, _, rfl, rfl⟩
    | panic => exact .inr ⟨true, _, _, _, rfl, rfl⟩
theorem swap_agrees : Agrees (swapFill (α := α) (V := V)) Fill.swapFill := by
  intro ι next fuel c i
  simp only [swapFill, Fill.swapFill]
  rcases swapLoop next fuel c i with _ | ⟨u, c', i'⟩
  · exact .inl ⟨rfl, rfl⟩
  · exact .inr ⟨u, c', i', [], rfl, rfl⟩

theorem ended_ne (u : Bool) : ended u ≠ .abort := by cases u <;> simp [ended]

theorem vec_nothing : DestroysNothing (vecFill (α := α) (V := V)) := by
  intro ι next fuel c c' i i' e d h
  simp only [vecFill, Option.some.injEq, Prod.mk.injEq] at h
  exact ⟨h.2.2.2.symm, h.1 ▸ ended_ne _⟩
theorem vecDeque_nothing : DestroysNothing (vecDequeFill (α := α) (V := V)) := by
  intro ι next fuel c c' i i' e d h
  simp only [vecDequeFill, Option.some.injEq, Prod.mk.injEq] at h
  exact ⟨h.2.2.2.symm, h.1 ▸ ended_ne _⟩
theorem unit_nothing : DestroysNothing (unitFill (V := V)) := by
  intro ι next fuel c c' i i' e d h
  simp only [unitFill] at h
  split at h
  · cases h
  · cases h; exact ⟨rfl, ended_ne _⟩
theorem swap_nothing : DestroysNothing (swapFill (α := α) (V := V)) := by
  intro ι next fuel c c' i i' e d h
  simp only [swapFill] at h
  split at h
  · cases h
  · cases h; exact ⟨rfl, ended_ne _⟩
theorem option_nothing : DestroysNothing (optionFill (α := α) (V := V)) := by
  intro ι next fuel c c' i i' e d h
  cases c with
  | some a => cases h; exact ⟨rfl, by decide⟩
  | none =>
    simp only [optionFill] at h
    split at h <;> cases h <;> exact ⟨rfl, by decide⟩

/-! ## Slices -/

theorem iterMut_exact {panics : V → Bool} {vals : α → List V} {ι : Type} {next : Next ι α} (fuel : Nat) : ∀ {c c' : IterMut α} {i i' : ι} {e : Ended} {d : List V},
    iterMutLoop panics vals next fuel c i = some (e, c', i', d) →
    ∃ n new, i' = after next i n ∧ Overwrites panics vals (c.slice.drop c.pos) (answers next i n) new d e ∧
      c'.slice = c.slice.take c.pos ++ new ++ c.slice.drop (c.pos + new.length) ∧ c'.pos = c.pos + new.length := by
  induction fuel with
  | zero => intro c c' i i' e d h; cases h
  | succ fuel ih =>
    intro c c' i i' e d h
    unfold iterMutLoop at h
    by_cases hl : c.len ≠ 0
    · rw [if_pos hl] at h
      have hlt : c.pos < c.slice.length := by simp only [IterMut.len] at hl; omega
      have hdrop : c.slice.drop c.pos = c.slice[c.pos] :: c.slice.drop (c.pos + 1) := List.drop_eq_getElem_cons hlt
      rcases hx : next i with ⟨p, j⟩
      rw [hx] at h
      cases p with
      | done =>
        cases h
        exact ⟨1, [], by simp [after, hx], by rw [hdrop]; simp only [answers, hx]; exact .done _ _, by simp, by simp⟩
      | panic =>
        cases h
        exact ⟨1, [], by simp [after, hx], by rw [hdrop]; simp only [answers, hx]; exact .panicked _ _, by simp, by simp⟩
      | item a =>
        simp only [List.getElem?_eq_getElem hlt] at h
        have hset : (c.slice.set c.pos a).drop (c.pos + 1) = c.slice.drop (c.pos + 1) := by
          rw [List.drop_set_of_lt (by omega)]
        have hset' : (c.slice.set c.pos a).take (c.pos + 1) = c.slice.take c.pos ++ [a] := by
          apply List.ext_getElem?
          intro k
          simp only [List.getElem?_take, List.getElem?_append, List.length_take, List.getElem?_set]
          rcases Nat.lt_trichotomy k c.pos with hk | hk | hk
          · rw [if_pos (by omega), if_neg (by omega), if_pos (by omega), if_pos hk]
          · subst hk; rw [if_pos (by omega), if_pos rfl, if_pos hlt, if_neg (by omega)]; simp [Nat.min_eq_left (Nat.le_of_lt hlt)]
          · rw [if_neg (by omega), if_neg (by omega)]
            symm; rw [List.getElem?_eq_none]; simp; omega
        have hone : (c.slice.set c.pos a) = c.slice.take c.pos ++ [a] ++ c.slice.drop (c.pos + [a].length) := by
          conv => lhs; rw [← List.take_append_drop (c.pos + 1) (c.slice.set c.pos a)]
          rw [hset, hset']; rfl
        rcases destroy_normal (panics := panics) (vals c.slice[c.pos]) with ⟨k0, hd⟩ | ⟨k0, hd⟩ | ⟨d0, v, k0, k1, k2, hd⟩
        · simp only [hd, if_pos] at h
          split at h
          · cases h
          · rename_i e1 c1 i1 d1 hrec
            cases h
            obtain ⟨n, new, r1, r2, r3, r4⟩ := ih hrec
            simp only [hset] at r2
            refine ⟨n + 1, a :: new, by simp [after, hx, r1], ?_, ?_, by simp only [r4, List.length_cons]; omega⟩
            · rw [hdrop]; simp only [answers, hx]; exact .next k0 r2
            · rw [r3]; simp only [hset']
              rw [← List.drop_drop, hset, List.drop_drop]
              simp [Nat.add_comm, Nat.add_left_comm]
        · simp only [hd] at h
          cases h
          exact ⟨1, [a], by simp [after, hx], by rw [hdrop]; simp only [answers, hx]; exact .dropPanics _ _ k0, hone, rfl⟩
        · simp only [hd] at h
          cases h
          exact ⟨1, [a], by simp [after, hx], by rw [hdrop]; simp only [answers, hx]; exact .dropAborts _ _ k0 k1 k2, hone, rfl⟩
    · rw [if_neg hl] at h
      cases h
      have : c.slice.drop c.pos = [] := by simp only [IterMut.len] at hl; simp; omega
      exact ⟨0, [], rfl, by rw [this]; exact .full, by simp, by simp⟩

theorem overwrites_conserves {panics : V → Bool} {vals : α → List V} {old : List α} {log : List (Poll α)} {new : List α} {d : List V} {e : Ended} (h : Overwrites panics vals old log new d e) :
    ∃ rest, (old.flatMap vals ++ taken vals log).Perm (rest ++ d) ∧ (e ≠ .abort → rest = (new ++ old.drop new.length).flatMap vals) := by
  induction h with
  | full => exact ⟨[], by simp [taken], fun _ => rfl⟩
  | done x xs => exact ⟨_, by simp [taken], fun _ => rfl⟩
  | panicked x xs => exact ⟨_, by simp [taken], fun _ => rfl⟩
  | @next x xs a log new d e _ _ ih =>
    obtain ⟨rest, h1, h2⟩ := ih
    refine ⟨vals a ++ rest, perm_of fun v => ?_, fun he => by simp [h2 he]⟩
    have := count_of h1 v
    simp only [List.flatMap_cons, taken, List.count_append] at this ⊢
    omega
  | dropPanics xs a _ =>
    refine ⟨_, perm_of fun v => ?_, fun _ => rfl⟩
    simp [taken, List.count_append]
    omega
  | @dropAborts x xs a d v hd _ _ =>
    obtain ⟨r, hr⟩ := hd
    refine ⟨r ++ (xs.flatMap vals ++ vals a), perm_of fun w => ?_, fun h => absurd rfl h⟩
    simp only [List.flatMap_cons, taken, ← hr, List.count_append, List.count_nil]
    omega

theorem iterMut_conserves (panics : V → Bool) (vals : α → List V) : Conserves (iterMutFill panics vals) (sliceVals vals) vals := by
  intro ι next fuel c c' i i' e d h
  obtain ⟨n, new, h1, h2, h3, h4⟩ := iterMut_exact fuel h
  obtain ⟨rest, k1, k2⟩ := overwrites_conserves h2
  refine ⟨n, (c.slice.take c.pos).flatMap vals ++ rest, h1, ?_, fun he => by unfold sliceVals; rw [k2 he, h3]; simp [List.drop_drop]⟩
  unfold sliceVals
  have : c.slice.flatMap vals = (c.slice.take c.pos).flatMap vals ++ (c.slice.drop c.pos).flatMap vals := by rw [← List.flatMap_append, List.take_append_drop]
  rw [this]
  refine perm_of fun v => ?_
  have := count_of k1 v
  simp only [List.count_append] at this ⊢
  omega

theorem iterMut_agrees {panics : V → Bool} (hp : ∀ v, panics v = false) (vals : α → List V) : Agrees (iterMutFill panics vals) Fill.iterMutFill := by
  intro ι next fuel
  simp only [iterMutFill, Fill.iterMutFill]
  induction fuel with
  | zero => intro c i; exact .inl ⟨rfl, rfl⟩
  | succ fuel ih =>
    intro c i
    unfold iterMutLoop Fill.iterMutLoop
    by_cases hl : c.len ≠ 0
    · rw [if_pos hl, if_pos hl]
      have hlt : c.pos < c.slice.length := by simp only [IterMut.len] at hl; omega
      rcases next i with ⟨p, j⟩
      cases p with
      | done => exact .inr ⟨false, _, _, _, rfl, rfl⟩
      | panic => exact .inr ⟨true, _, _, _, rfl, rfl⟩
      | item a =>
        simp only [List.getElem?_eq_getElem hlt, destroy_quiet hp, Bool.false_eq_true, if_false, if_true]
        rcases ih (c := ⟨c.slice.set c.pos a, c.pos + 1⟩) (i := j) with ⟨h1, h2⟩ | ⟨u, c', i', d, h1, h2⟩
        · exact .inl ⟨by rw [h1], h2⟩
        · exact .inr ⟨u, c', i', vals c.slice[c.pos] ++ d, by rw [h1], h2⟩
    · rw [if_neg hl, if_neg hl]
      exact .inr ⟨false, _, _, _, rfl, rfl⟩

/-! ## Results -/

theorem once_after (a : α) (n : Nat) (vals : α → List V) : (after onceNext (some a) n = some a ∧ taken vals (answers onceNext (some a) n) = []) ∨
    (after onceNext (some a) n = none ∧ taken vals (answers onceNext (some a) n) = vals a) := by
  have hd : ∀ n, after onceNext (none : Option α) n = none ∧ taken vals (answers onceNext (none : Option α) n) = [] := by
    intro n
    induction n with
    | zero => exact ⟨rfl, rfl⟩
    | succ n ih => exact ⟨ih.1, ih.2⟩
  cases n with
  | zero => exact .inl ⟨rfl, rfl⟩
  | succ n => exact .inr ⟨(hd n).1, by simp [answers, onceNext, taken, (hd n).2]⟩

theorem fillOnce_conserves {F : FillImpl C α V} {cvals : C → List V} {vals : α → List V} (hF : Conserves F cvals vals) {panics : V → Bool} {fuel : Nat} {c c' : C} {a : α} {e : Ended} {d : List V}
    (h : fillOnce panics vals F fuel c a = some (e, c', d)) : ∃ rest, (cvals c ++ vals a).Perm (rest ++ d) ∧ (e ≠ .abort → rest = cvals c') := by
  unfold fillOnce at h
  split at h
  · cases h
  · rename_i e1 c1 rest1 d1 hf
    obtain ⟨n, rest, h1, h2, h3⟩ := hF hf
    have key : (cvals c ++ vals a).Perm (rest ++ (d1 ++ onceVals vals rest1)) := by
      refine perm_of fun v => ?_
      have := count_of h2 v
      rcases once_after a n vals with ⟨k1, k2⟩ | ⟨k1, k2⟩ <;> rw [k2] at this <;> rw [h1, k1] <;> simp only [onceVals, List.count_append, List.count_nil] at this ⊢ <;> omega
    split at h
    · rename_i he
      cases h
      refine ⟨rest ++ onceVals vals rest1, perm_of fun v => ?_, fun h => absurd rfl h⟩
      have := count_of key v
      simp only [List.count_append] at this ⊢
      omega
    · rename_i he
      obtain ⟨r, k1, k2⟩ := destroy_rest (panics := panics) (decide (e1 = .panic)) (onceVals vals rest1)
      simp only [Option.some.injEq, Prod.mk.injEq] at h
      obtain ⟨rfl, rfl, rfl⟩ := h
      refine ⟨rest ++ r, perm_of fun v => ?_, fun h => by rw [k2 h, h3 he, List.append_nil]⟩
      have := count_of key v
      have := count_of k1 v
      simp only [List.count_append] at *
      omega

theorem resultLoop_conserves {F : FillImpl C α V} {cvals : C → List V} {vals : α → List V} (hF : Conserves F cvals vals) (evals : E → List V) {panics : V → Bool} {ι : Type} {next : Next ι (Except E α)} (fuel : Nat) :
    ∀ {c c' : C} {i i' : ι} {l : LoopEnd E} {d : List V}, resultLoop panics vals F next fuel c i = some (l, c', i', d) →
    ∃ n rest, i' = after next i n ∧ (cvals c ++ taken (resultVals vals evals) (answers next i n)).Perm (rest ++ d) ∧
      ((∀ e, l ≠ .err e) → l ≠ .aborted → rest = cvals c') ∧ (∀ e, l = .err e → rest = cvals c' ++ evals e) := by
  induction fuel with
  | zero => intro c c' i i' l d h; cases h
  | succ fuel ih =>
    intro c c' i i' l d h
    unfold resultLoop at h
    rcases hx : next i with ⟨p, j⟩
    rw [hx] at h
    cases p with
    | done => cases h; exact ⟨1, cvals c, by simp [after, hx], by simp [answers, hx, taken], fun _ _ => rfl, fun e he => by cases he⟩
    | panic => cases h; exact ⟨1, cvals c, by simp [after, hx], by simp [answers, hx, taken], fun _ _ => rfl, fun e he => by cases he⟩
    | item x =>
      cases x with
      | error err =>
        cases h
        exact ⟨1, cvals c ++ evals err, by simp [after, hx], by simp [answers, hx, taken, resultVals], fun h => absurd rfl (h err), fun e he => by cases he; rfl⟩
      | ok a =>
        simp only at h
        have hans : taken (resultVals vals evals) (answers next i 1) = vals a := by simp [answers, hx, taken, resultVals]
        split at h
        · cases h
        · rename_i c1 d1 hf
          cases h
          obtain ⟨rest, h1, -⟩ := fillOnce_conserves hF hf
          exact ⟨1, rest, by simp [after, hx], by rw [hans]; exact h1, fun _ h => absurd rfl h, fun e he => by cases he⟩
        · rename_i c1 d1 hf
          cases h
          obtain ⟨rest, h1, h2⟩ := fillOnce_conserves hF hf
          exact ⟨1, rest, by simp [after, hx], by rw [hans]; exact h1, fun _ _ => h2 (by decide), fun e he => by cases he⟩
        · rename_i c1 d1 hf
          obtain ⟨rest, h1, h2⟩ := fillOnce_conserves hF hf
          cases h2 (by decide)
          split at h
          · cases h
          · rename_i l1 c2 i2 d2 hrec
            cases h
            obtain ⟨n, rest, k1, k2, k3, k4⟩ := ih hrec
            refine ⟨n + 1, rest, by simp [after, hx, k1], perm_of fun v => ?_, k3, k4⟩
            have := count_of h1 v
            have := count_of k2 v
            simp only [answers, hx, taken, resultVals, List.count_append] at *
            omega

theorem result_conserves {F : FillImpl C α V} {cvals : C → List V} {vals : α → List V} (hF : Conserves F cvals vals) (evals : E → List V) (panics : V → Bool) :
    Conserves (resultFill (E := E) panics cvals vals F) (resultVals cvals evals) (resultVals vals evals) := by
  intro ι next fuel c c' i i' e d h
  cases c with
  | error err => cases h; exact ⟨0, _, rfl, by simp [answers, taken], fun _ => rfl⟩
  | ok c =>
    simp only [resultFill] at h
    split at h
    · cases h
    · rename_i c1 i1 d1 hl
      cases h
      obtain ⟨n, rest, h1, h2, h3, -⟩ := resultLoop_conserves hF evals fuel hl
      exact ⟨n, rest, h1, h2, fun _ => h3 (fun _ h => by cases h) (fun h => by cases h)⟩
    · rename_i c1 i1 d1 hl
      cases h
      obtain ⟨n, rest, h1, h2, h3, -⟩ := resultLoop_conserves hF evals fuel hl
      exact ⟨n, rest, h1, h2, fun _ => h3 (fun _ h => by cases h) (fun h => by cases h)⟩
    · rename_i c1 i1 d1 hl
      cases h
      obtain ⟨n, rest, h1, h2, -, -⟩ := resultLoop_conserves hF evals fuel hl
      exact ⟨n, rest, h1, h2, fun h => absurd rfl h⟩
    · rename_i err c1 i1 d1 hl
      obtain ⟨n, rest, h1, h2, -, h4⟩ := resultLoop_conserves hF evals fuel hl
      cases h4 err rfl
      obtain ⟨r, k1, k2⟩ := destroy_rest (panics := panics) false (cvals c1)
      simp only [Option.some.injEq, Prod.mk.injEq] at h
      obtain ⟨rfl, rfl, rfl, rfl⟩ := h
      refine ⟨n, r ++ evals err, h1, perm_of fun v => ?_, fun he => by rw [k2 he]; rfl⟩
      have := count_of h2 v
      have := count_of k1 v
      simp only [resultVals, List.count_append] at *
      omega

theorem result_agrees {F : FillImpl C α V} {G : Fill.FillImpl C α} (ha : Agrees F G) {panics : V → Bool} (hp : ∀ v, panics v = false) (cvals : C → List V) (vals : α → List V) :
    Agrees (resultFill (E := E) panics cvals vals F) (Fill.resultFill G) := by
  have once : ∀ (fuel : Nat) (c : C) (a : α), (fillOnce panics vals F fuel c a = none ∧ G.fill fuel onceNext c (some a) = none) ∨
      ∃ u c' r d, fillOnce panics vals F fuel c a = some (if u then .panic else .ok, c', d) ∧ G.fill fuel onceNext c (some a) = some (u, c', r) := by
    intro fuel c a
    unfold fillOnce
    rcases ha (next := onceNext) (fuel := fuel) (c := c) (i := some a) with ⟨h1, h2⟩ | ⟨u, c', r, d, h1, h2⟩
    · exact .inl ⟨by rw [h1], h2⟩
    · refine .inr ⟨u, c', r, d ++ onceVals vals r, ?_, h2⟩
      rw [h1]
      cases u <;> simp [destroy_quiet hp]
  have loop : ∀ {ι : Type} {next : Next ι (Except E α)} (fuel : Nat) (c : C) (i : ι), (resultLoop panics vals F next fuel c i = none ∧ Fill.resultLoop G next fuel c i = none) ∨
      ∃ l l' c' i' d, resultLoop panics vals F next fuel c i = some (l, c', i', d) ∧ Fill.resultLoop G next fuel c i = some (l', c', i') ∧
        ((l = .ret ∧ l' = .ret) ∨ (l = .unwound ∧ l' = .unwound) ∨ ∃ e, l = .err e ∧ l' = .err e) := by
    intro ι next fuel
    induction fuel with
    | zero => intro c i; exact .inl ⟨rfl, rfl⟩
    | succ fuel ih =>
      intro c i
      unfold resultLoop Fill.resultLoop
      rcases next i with ⟨p, j⟩
      cases p with
      | done => exact .inr ⟨_, _, _, _, _, rfl, rfl, .inl ⟨rfl, rfl⟩⟩
      | panic => exact .inr ⟨_, _, _, _, _, rfl, rfl, .inr (.inl ⟨rfl, rfl⟩)⟩
      | item x =>
        cases x with
        | error err => exact .inr ⟨_, _, _, _, _, rfl, rfl, .inr (.inr ⟨err, rfl, rfl⟩)⟩
        | ok a =>
          simp only
          rcases once (fuel + 2) c a with ⟨h1, h2⟩ | ⟨u, c', r, d, h1, h2⟩
          · exact .inl ⟨by rw [h1], by rw [h2]⟩
          · cases u with
            | true => exact .inr ⟨.unwound, .unwound, c', j, d, by rw [h1]; rfl, by rw [h2], .inr (.inl ⟨rfl, rfl⟩)⟩
            | false =>
              rcases ih c' j with ⟨k1, k2⟩ | ⟨l, l', c2, i2, d2, k1, k2, k3⟩
              · exact .inl ⟨by rw [h1]; simp only [Bool.false_eq_true, if_false]; rw [k1], by rw [h2]; exact k2⟩
              · exact .inr ⟨l, l', c2, i2, d ++ d2, by rw [h1]; simp only [Bool.false_eq_true, if_false]; rw [k1], by rw [h2]; exact k2, k3⟩
  intro ι next fuel c i
  cases c with
  | error err => exact .inr ⟨false, _, _, _, rfl, rfl⟩
  | ok c =>
    simp only [resultFill, Fill.resultFill]
    rcases loop (next := next) fuel c i with ⟨h1, h2⟩ | ⟨l, l', c', i', d, h1, h2, h3⟩
    · exact .inl ⟨by rw [h1], by rw [h2]⟩
    · rcases h3 with ⟨rfl, rfl⟩ | ⟨rfl, rfl⟩ | ⟨e, rfl, rfl⟩
      · exact .inr ⟨false, .ok c', i', d, by rw [h1]; rfl, by rw [h2]⟩
      · exact .inr ⟨true, .ok c', i', d, by rw [h1]; rfl, by rw [h2]⟩
      · exact .inr ⟨false, .error e, i', d ++ cvals c', by rw [h1]; simp [destroy_quiet hp], by rw [h2]⟩

/-- Exactly what is destroyed when no destructor panics: the items for which there is no room, and the container if there is an error. -/
theorem resultLoop_exact {F : FillImpl C α V} {G : Fill.FillImpl C α} {room : C → Option Nat} {Stored : C → List α → C → Prop} (ha : Agrees F G) (hd : DestroysNothing F) (hG : OneByOne G room Stored)
    {cvals : C → List V} {vals : α → List V} (hc : Conserves F cvals vals) (hs : ∀ {c a c'}, Stored c [a] c' → (cvals c').Perm (cvals c ++ vals a))
    {panics : V → Bool} (hp : ∀ v, panics v = false) {ι : Type} {next : Next ι (Except E α)} (good : List α) :
    ∀ (c : C) (i : ι) (fuel : Nat), answers next i good.length = good.map (fun a => .item (.ok a)) → (∀ a, (next (after next i good.length)).1 ≠ .item (.ok a)) → good.length < fuel →
    ∃ c' l, Stored c (match room c with | none => good | some r => good.take r) c' ∧
      resultLoop panics vals F next fuel c i = some (l, c', after next i (good.length + 1), match room c with | none => [] | some r => (good.drop r).flatMap vals) ∧
      (match (next (after next i good.length)).1 with | .item (.error e) => l = .err e | .panic => l = .unwound | _ => l = .ret) := by
  induction good with
  | nil =>
    intro c i fuel _ hstop hf
    obtain ⟨fuel, rfl⟩ : ∃ k, fuel = k + 1 := ⟨fuel - 1, by simp at hf; omega⟩
    have hst : Stored c (match room c with | none => [] | some r => ([] : List α).take r) c := by
      cases room c <;> simp [hG.nil]
    have hdv : (match room c with | none => [] | some r => (([] : List α).drop r).flatMap vals) = [] := by cases room c <;> simp
    rw [hdv]
    unfold resultLoop
    simp only [List.length_nil, after] at hstop ⊢
    rcases hx : next i with ⟨p, j⟩
    rw [hx] at hstop
    cases p with
    | done => exact ⟨c, _, hst, rfl, rfl⟩
    | panic => exact ⟨c, _, hst, rfl, rfl⟩
    | item x =>
      cases x with
      | error err => exact ⟨c, _, hst, rfl, rfl⟩
      | ok a => exact absurd rfl (hstop a)
  | cons a good ih =>
    intro c i fuel hans hstop hf
    obtain ⟨fuel, rfl⟩ : ∃ k, fuel = k + 1 := ⟨fuel - 1, by simp at hf; omega⟩
    simp only [List.length_cons, answers, List.map_cons, List.cons.injEq] at hans
    obtain ⟨h0, hans⟩ := hans
    rcases hx : next i with ⟨p, j⟩
    rw [hx] at h0 hans
    simp only at h0 hans
    subst h0
    have haft : ∀ n, after next i (n + 1) = after next j n := by intro n; simp [after, hx]
    simp only [List.length_cons, haft] at hstop ⊢
    unfold resultLoop
    rw [hx]
    simp only
    -- the call for the container
    have hone : ∃ c1, fillOnce panics vals F (fuel + 2) c a = some (.ok, c1, if room c = some 0 then vals a else []) ∧ (room c ≠ some 0 → Stored c [a] c1) ∧ (room c = some 0 → c1 = c) := by
      obtain ⟨c1, r, h1, h2, h3⟩ := fill_once hG fuel c a
      rcases ha (next := onceNext) (fuel := fuel + 2) (c := c) (i := some a) with ⟨k1, k2⟩ | ⟨u, c2, r2, d2, k1, k2⟩
      · rw [h1] at k2; cases k2
      · rw [h1] at k2; cases k2
        obtain ⟨rfl, -⟩ := hd k1
        obtain ⟨n, rest, m1, m2, m3⟩ := hc k1
        cases m3 (by decide)
        refine ⟨c1, ?_, h2, h3⟩
        unfold fillOnce
        rw [k1]
        simp only [Bool.false_eq_true, if_false, destroy_quiet hp, List.nil_append]
        rw [List.append_nil] at m2
        have hv : onceVals vals r = if room c = some 0 then vals a else [] := by
          rcases once_after a n vals with ⟨q1, q2⟩ | ⟨q1, q2⟩
          · rw [m1, q1]
            by_cases h0 : room c = some 0
            · rw [if_pos h0]; rfl
            · rw [if_neg h0]
              rw [q2] at m2
              have m4 := hs (h2 h0)
              have l1 := m2.length_eq
              have l2 := m4.length_eq
              simp only [List.length_append, List.length_nil] at l1 l2
              exact List.length_eq_zero_iff.mp (show (vals a).length = 0 by omega)
          · rw [m1, q1]
            by_cases h0 : room c = some 0
            · rw [if_pos h0]
              rw [q2] at m2
              cases h3 h0
              have l1 := m2.length_eq
              simp only [List.length_append] at l1
              exact (List.length_eq_zero_iff.mp (show (vals a).length = 0 by omega)).symm
            · rw [if_neg h0]; rfl
        rw [hv]
        simp
    obtain ⟨c1, h1, h2, h3⟩ := hone
    rw [h1]
    simp only
    obtain ⟨c', l, k1, k2, k3⟩ := ih c1 j fuel hans hstop (by simp at hf; omega)
    rw [k2]
    refine ⟨c', l, ?_, ?_, k3⟩
    · rcases hr : room c with _ | r
      · rw [hG.unlimited (h2 (by rw [hr]; simp)) hr] at k1
        exact hG.append (h2 (by rw [hr]; simp)) k1
      · cases r with
        | zero =>
          cases h3 hr
          rw [hr] at k1
          simpa using k1
        | succ r =>
          rw [hG.less (h2 (by rw [hr]; simp)) hr] at k1
          exact hG.append (h2 (by rw [hr]; simp)) k1
    · simp only
      congr 4
      rcases hr : room c with _ | r
      · rw [hG.unlimited (h2 (by rw [hr]; simp)) hr]
        simp
      · cases r with
        | zero => cases h3 hr; rw [hr]; simp
        | succ r => rw [hG.less (h2 (by rw [hr]; simp)) hr]; simp

/-! ## `checked_fill`, and swapping -/

theorem overflow_ended {ι : Type} {next : Next ι α} (vals : α → List V) (n : Nat) (i : ι) :
    after (overflowNext (fuseNext next)) ((i, true), false) n = ((i, true), false) ∧ taken vals (answers (overflowNext (fuseNext next)) ((i, true), false) n) = [] := by
  induction n with
  | zero => exact ⟨rfl, rfl⟩
  | succ n ih => exact ⟨by simpa [after, overflowNext, fuseNext] using ih.1, by simpa [answers, overflowNext, fuseNext, taken] using ih.2⟩

theorem overflow_taken {ι : Type} {next : Next ι α} (vals : α → List V) (n : Nat) : ∀ (i : ι), ∃ m b o,
    after (overflowNext (fuseNext next)) ((i, false), true) n = ((after next i m, b), o) ∧ taken vals (answers (overflowNext (fuseNext next)) ((i, false), true) n) = taken vals (answers next i m) ∧
    (o = true ↔ .done ∉ answers next i m) := by
  induction n with
  | zero => intro i; exact ⟨0, false, true, rfl, rfl, by simp [answers]⟩
  | succ n ih =>
    intro i
    rcases hx : next i with ⟨p, j⟩
    cases p with
    | item a =>
      obtain ⟨m, b, o, h1, h2, h3⟩ := ih j
      exact ⟨m + 1, b, o, by simpa [after, overflowNext, fuseNext, hx] using h1, by simpa [answers, overflowNext, fuseNext, taken, hx] using h2, by simpa [answers, hx] using h3⟩
    | done =>
      obtain ⟨h1, h2⟩ := overflow_ended (next := next) vals n j
      exact ⟨1, true, false, by simpa [after, overflowNext, fuseNext, hx] using h1, by simpa [answers, overflowNext, fuseNext, taken, hx] using h2, by simp [answers, hx]⟩
    | panic =>
      obtain ⟨m, b, o, h1, h2, h3⟩ := ih j
      exact ⟨m + 1, b, o, by simpa [after, overflowNext, fuseNext, hx] using h1, by simpa [answers, overflowNext, fuseNext, taken, hx] using h2, by simpa [answers, hx] using h3⟩

theorem swap_perm (s : SwapState α) {x : Nat} {xs : List Nat} (hn : xs.Nodup) (hx : x ∈ xs) (vals : α → List V) :
    (sliceVals vals (s.swap x).it ++ (xs.map (s.swap x).vars).flatMap vals).Perm (sliceVals vals s.it ++ (xs.map s.vars).flatMap vals) := by
  unfold SwapState.swap
  split
  · exact .refl _
  · rename_i old ho
    obtain ⟨hlt, rfl⟩ := List.getElem?_eq_some_iff.mp ho
    obtain ⟨a, b, rfl⟩ := List.append_of_mem hx
    have hd := (List.perm_middle.nodup_iff).mp hn
    simp only [List.nodup_cons, List.mem_append, not_or] at hd
    have ha : a.map (fun y => if y = x then s.it.slice[s.it.pos] else s.vars y) = a.map s.vars := List.map_congr_left fun y hy => if_neg fun (h : y = x) => hd.1.1 (h ▸ hy)
    have hb : b.map (fun y => if y = x then s.it.slice[s.it.pos] else s.vars y) = b.map s.vars := List.map_congr_left fun y hy => if_neg fun (h : y = x) => hd.1.2 (h ▸ hy)
    have e1 : s.it.slice = s.it.slice.take s.it.pos ++ s.it.slice[s.it.pos] :: s.it.slice.drop (s.it.pos + 1) := by rw [← List.drop_eq_getElem_cons hlt, List.take_append_drop]
    have e2 : s.it.slice.set s.it.pos (s.vars x) = s.it.slice.take s.it.pos ++ s.vars x :: s.it.slice.drop (s.it.pos + 1) := by rw [List.set_eq_take_cons_drop _ hlt]
    unfold sliceVals
    refine perm_of fun v => ?_
    simp only [List.map_append, List.map_cons, ha, hb, if_true, e2]
    conv => rhs; rw [e1]
    simp only [List.flatMap_append, List.flatMap_cons, List.count_append]
    omega

theorem swapLoop_perm {ι : Type} {next : Next ι Nat} (vals : α → List V) {xs : List Nat} (hn : xs.Nodup) (fuel : Nat) : ∀ {s s' : SwapState α} {i i' : ι} {u : Bool}, swapLoop next fuel s i = some (u, s', i') →
    ∃ n, i' = after next i n ∧ ((∀ x, .item x ∈ answers next i n → x ∈ xs) →
      (sliceVals vals s'.it ++ (xs.map s'.vars).flatMap vals).Perm (sliceVals vals s.it ++ (xs.map s.vars).flatMap vals)) := by
  induction fuel with
  | zero => intro s s' i i' u h; cases h
  | succ fuel ih =>
    intro s s' i i' u h
    unfold swapLoop at h
    split at h
    · rcases hx : next i with ⟨p, j⟩
      rw [hx] at h
      cases p with
      | item x =>
        obtain ⟨n, h1, h2⟩ := ih h
        refine ⟨n + 1, by simp [after, hx, h1], fun hxs => (h2 fun y hy => hxs y (by simp [answers, hx, hy])).trans (swap_perm s hn (hxs x (by simp [answers, hx])) vals)⟩
      | done => cases h; exact ⟨1, by simp [after, hx], fun _ => .refl _⟩
      | panic => cases h; exact ⟨1, by simp [after, hx], fun _ => .refl _⟩
    · cases h; exact ⟨0, rfl, fun _ => .refl _⟩

end Verif.FillDrops
