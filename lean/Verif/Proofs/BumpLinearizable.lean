import Verif.Spec.Linearizable
import Verif.Proofs.BumpProgress
/-! Linearizability of the machine. -/
namespace Verif.Bump
open Verif Lin
variable {n : Nat}

/-- The events of the machine with linearization points. -/
def toTEv : Ev n → Option (TEv (Fin n) Call Ret)
  | .inv t c => some (.inv t c)
  | .lin t c r => some (.lin t c r)
  | .resp t c r => some (.resp t c r)
  | _ => none

/-- Final state of replaying. -/
def finalState {T Op Res S : Type} (apply : S → Op → Res × S) : S → List (TEv T Op Res) → S
  | s, [] => s
  | s, .lin _ op _ :: tr => finalState apply (apply s op).2 tr
  | s, .inv _ _ :: tr => finalState apply s tr
  | s, .resp _ _ _ :: tr => finalState apply s tr

theorem legal_append {T Op Res S : Type} (apply : S → Op → Res × S) : ∀ (a b : List (TEv T Op Res)) (s : S),
    Legal apply s (a ++ b) ↔ Legal apply s a ∧ Legal apply (finalState apply s a) b := by
  intro a
  induction a with
  | nil => intro b s; simp [Legal, finalState]
  | cons x a ih =>
    intro b s
    cases x <;> simp [Legal, finalState, ih, and_assoc]

theorem finalState_append {T Op Res S : Type} (apply : S → Op → Res × S) : ∀ (a b : List (TEv T Op Res)) (s : S),
    finalState apply s (a ++ b) = finalState apply (finalState apply s a) b := by
  intro a
  induction a with
  | nil => intro b s; rfl
  | cons x a ih =>
    intro b s
    cases x <;> simp [finalState, ih]

/-- State of a thread after its events. -/
def finalTS {T Op Res : Type} [DecidableEq T] (t : T) : TS Op Res → List (TEv T Op Res) → TS Op Res
  | st, [] => st
  | st, .inv u op :: tr => finalTS t (if u = t then .called op else st) tr
  | st, .lin u op r :: tr => finalTS t (if u = t then .decided op r else st) tr
  | st, .resp u _ _ :: tr => finalTS t (if u = t then .idle else st) tr

theorem threadWf_append {T Op Res : Type} [DecidableEq T] (t : T) : ∀ (a b : List (TEv T Op Res)) (st : TS Op Res),
    ThreadWf t st (a ++ b) ↔ ThreadWf t st a ∧ ThreadWf t (finalTS t st a) b := by
  intro a
  induction a with
  | nil => intro b st; simp [ThreadWf, finalTS]
  | cons x a ih =>
    intro b st
    cases x with
    | inv u op => by_cases hu : u = t <;> simp [ThreadWf, finalTS, hu, ih, and_assoc]
    | lin u op r => by_cases hu : u = t <;> simp [ThreadWf, finalTS, hu, ih, and_assoc]
    | resp u op r => by_cases hu : u = t <;> simp [ThreadWf, finalTS, hu, ih, and_assoc]

theorem finalTS_append {T Op Res : Type} [DecidableEq T] (t : T) : ∀ (a b : List (TEv T Op Res)) (st : TS Op Res),
    finalTS t st (a ++ b) = finalTS t (finalTS t st a) b := by
  intro a
  induction a with
  | nil => intro b st; rfl
  | cons x a ih => intro b st; cases x <;> simp [finalTS, ih]

/-- The abstract state of a program point. -/
def tsOf (p : Pc) : TS Call Ret :=
  match p.call, p.decided with
  | none, _ => .idle
  | some c, none => .called c
  | some c, some r => .decided c r

def trace (h : Hist n) : List (TEv (Fin n) Call Ret) := h.reverse.filterMap toTEv

theorem trace_cons (ev : Ev n) (h : Hist n) : trace (ev :: h) = trace h ++ (toTEv ev).toList := by
  unfold trace
  rw [List.reverse_cons, List.filterMap_append]
  cases hh : toTEv ev <;> simp [List.filterMap, hh]

/-- Simulation invariant, since the history `h0`. -/
def Sim (e : Env) (c : Nat) (h0 : Hist n) (s : State n) : Prop :=
  ∃ new, s.hist = new ++ h0 ∧ (Ev.reset ∉ new →
    Legal (specApply e.zst e.slab) c (trace new) ∧
    finalState (specApply e.zst e.slab) c (trace new) = s.consumed ∧
    ∀ t, ThreadWf t .idle (trace new) ∧ finalTS t .idle (trace new) = tsOf (s.pc t))

theorem tsOf_setPc (pc : Fin n → Pc) (t u : Fin n) (p : Pc) :
    tsOf (setPc pc t p u) = if u = t then tsOf p else tsOf (pc u) := by
  unfold setPc; split <;> rfl

theorem sim_trans {e : Env} {c : Nat} {h0 : Hist n} {s s' : State n} (hs : Sim e c h0 s) (ht : Trans e s s') :
    Sim e c h0 s' := by
  obtain ⟨new, hnew, hs⟩ := hs
  cases ht with
  | stutter h => rw [h]; exact ⟨new, hnew, hs⟩
  | invoke t call hp hv h =>
    subst h
    refine ⟨_ :: new, by rw [hnew]; rfl, fun hr => ?_⟩
    obtain ⟨h1, h2, h3⟩ := hs (by simpa using hr)
    simp only [trace_cons, toTEv, Option.toList]
    refine ⟨?_, ?_, fun u => ?_⟩
    · rw [legal_append]; exact ⟨h1, by simp [Legal]⟩
    · rw [finalState_append, h2]; simp [finalState]
    · obtain ⟨k1, k2⟩ := h3 u
      rw [threadWf_append, finalTS_append, k2, tsOf_setPc]
      by_cases hu : t = u
      · subst hu
        rw [hp]
        simp only [tsOf, call_enter, decided_enter]
        simp [k1, ThreadWf, finalTS, Pc.call]
      · have hu' : ¬ u = t := fun h => hu h.symm
        simp [k1, ThreadWf, finalTS, hu, hu']
  | prepare t call l retry g at' new' hp h =>
    subst h
    refine ⟨new, hnew, fun hr => ?_⟩
    obtain ⟨h1, h2, h3⟩ := hs hr
    refine ⟨h1, h2, fun u => ⟨(h3 u).1, ?_⟩⟩
    rw [(h3 u).2, tsOf_setPc]
    split
    · rename_i hu; subst hu; rw [hp]; rfl
    · rfl
  | retry t call l x at' new' hp hx hlt h =>
    subst h
    refine ⟨_ :: new, by rw [hnew]; rfl, fun hr => ?_⟩
    obtain ⟨h1, h2, h3⟩ := hs (by simpa using hr)
    simp only [trace_cons, toTEv, Option.toList, List.append_nil]
    refine ⟨h1, h2, fun u => ⟨(h3 u).1, ?_⟩⟩
    rw [(h3 u).2, tsOf_setPc]
    split
    · rename_i hu; subst hu; rw [hp]; rfl
    · rfl
  | decide t call p r c' hn hc hr hpc hsp hw h =>
    subst h
    refine ⟨_ :: new, by rw [hnew]; rfl, fun hr' => ?_⟩
    obtain ⟨h1, h2, h3⟩ := hs (by simpa using hr')
    simp only [trace_cons, toTEv, Option.toList]
    refine ⟨?_, ?_, fun u => ?_⟩
    · rw [legal_append, h2]; exact ⟨h1, by simp [Legal, hsp]⟩
    · rw [finalState_append, h2]; simp [finalState, hsp]
    · obtain ⟨k1, k2⟩ := h3 u
      rw [threadWf_append, finalTS_append, k2, tsOf_setPc]
      by_cases hu : t = u
      · subst hu
        simp [k1, ThreadWf, finalTS, tsOf, hc, hn, hpc, hr]
      · have hu' : ¬ u = t := fun h => hu h.symm
        simp [k1, ThreadWf, finalTS, hu, hu']
  | write t call a hp h =>
    subst h
    refine ⟨new, hnew, fun hr => ?_⟩
    obtain ⟨h1, h2, h3⟩ := hs hr
    refine ⟨h1, h2, fun u => ⟨(h3 u).1, ?_⟩⟩
    rw [(h3 u).2, tsOf_setPc]
    split
    · rename_i hu; subst hu; rw [hp]; rfl
    · rfl
  | resp t call r hp h =>
    subst h
    refine ⟨_ :: new, by rw [hnew]; rfl, fun hr => ?_⟩
    obtain ⟨h1, h2, h3⟩ := hs (by simpa using hr)
    simp only [trace_cons, toTEv, Option.toList]
    refine ⟨?_, ?_, fun u => ?_⟩
    · rw [legal_append]; exact ⟨h1, by simp [Legal]⟩
    · rw [finalState_append, h2]; simp [finalState]
    · obtain ⟨k1, k2⟩ := h3 u
      rw [threadWf_append, finalTS_append, k2, tsOf_setPc]
      by_cases hu : t = u
      · subst hu
        rw [hp]
        simp [k1, ThreadWf, finalTS, tsOf, Pc.call, Pc.decided]
      · have hu' : ¬ u = t := fun h => hu h.symm
        simp [k1, ThreadWf, finalTS, hu, hu']
  | userWrite r off bs hr ho h =>
    subst h
    refine ⟨_ :: new, by rw [hnew]; rfl, fun hr => ?_⟩
    obtain ⟨h1, h2, h3⟩ := hs (by simpa using hr)
    simp only [trace_cons, toTEv, Option.toList, List.append_nil]
    exact ⟨h1, h2, h3⟩
  | reset hi h => subst h; exact ⟨_ :: new, by rw [hnew]; rfl, fun hr => by simp at hr⟩

theorem sim_run {e : Env} (he : e.Valid) {s : State n} (hi : Inv e s) (hidle : ∀ t, s.pc t = .idle)
    {evs : List (Event n)} (hev : ∀ ev ∈ evs, Event.Valid e.target ev) :
    Sim e s.consumed s.hist (run e s evs) := by
  refine (run_induction he (P := Sim e s.consumed s.hist) hi ?_ (fun _ _ _ _ h ht => sim_trans h ht) evs hev).1
  refine ⟨[], rfl, fun _ => ⟨trivial, rfl, fun t => ⟨trivial, ?_⟩⟩⟩
  rw [hidle t]; rfl

theorem linearizable_run {e : Env} (he : e.Valid) {s : State n} (hi : Inv e s) (hidle : ∀ t, s.pc t = .idle)
    {evs : List (Event n)} (hev : ∀ ev ∈ evs, Event.Valid e.target ev) {new : Hist n}
    (hnew : (run e s evs).hist = new ++ s.hist) (hr : Ev.reset ∉ new) :
    Linearizable (specApply e.zst e.slab) s.consumed (observable new) := by
  obtain ⟨new', h1, h2⟩ := sim_run he hi hidle hev
  have : new' = new := List.append_cancel_right (h1.symm.trans hnew)
  subst this
  obtain ⟨k1, _, k3⟩ := h2 hr
  refine ⟨trace new', ?_, k1, fun t => (k3 t).1⟩
  unfold trace observable
  rw [List.filterMap_filterMap]
  congr 1
  funext ev
  cases ev <;> rfl

end Verif.Bump
