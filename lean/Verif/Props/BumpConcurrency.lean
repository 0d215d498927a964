import Verif.Props.BumpSafety
import Verif.Proofs.BumpRetry
import Verif.Proofs.BumpLinearizable
import Verif.Proofs.BumpIsolation
import Verif.Proofs.BumpArray
import Mathlib.Algebra.Order.BigOperators.Group.Finset
/-!
# C08–C11, C14–C16, C20: progress, linearizability, isolation and capacity of the shared `Bump`
-/
namespace Verif
open Bump Lin
variable {n : Nat}

/-! ## C08 -/

/-- **C08** A call which thread `t` starts in a reachable state returns before the thread has made
`2*len + 6` steps, whatever happens in between (`evs` is any schedule with so many steps of `t`). -/
theorem C08_wait_free {e : Env} (he : e.Valid) {s : State n} (hs : Reachable e s)
    {t : Fin n} (hidle : s.pc t = .idle) {call : Call} (hcall : call.Valid e.target)
    {evs : List (Event n)} (hev : ∀ ev ∈ evs, Event.Valid e.target ev)
    (hcount : 2 * e.len + 6 ≤ evs.count (.step t)) :
    ∃ pre post r h, evs = pre ++ post ∧ (run e s (.invoke t call :: pre)).hist = .resp t call r :: h := by
  have hi := inv_exec he (hs.inv he) (.invoke t call) hcall
  have hpc : (exec e s (.invoke t call)).pc t = enter call := by simp [exec, hidle, setPc_self]
  obtain ⟨pre, post, r, h, h1, h2⟩ := progress_resp he t call evs (exec e s (.invoke t call)) hi hev
    (by rw [hpc, call_enter]) (by rw [hpc]; have := rank_enter e call; omega)
  exact ⟨pre, post, r, h, h1, h2⟩

/-- **C08** for infinite schedules `f`: if the thread is scheduled again and again, its call returns. -/
theorem C08_wait_free_infinite {e : Env} (he : e.Valid) {s : State n} (hs : Reachable e s)
    {t : Fin n} (hidle : s.pc t = .idle) {call : Call} (hcall : call.Valid e.target)
    (f : Nat → Event n) (hev : ∀ k, Event.Valid e.target (f k)) (hfair : ∀ k, ∃ j, k ≤ j ∧ f j = .step t) :
    ∃ k r h, (run e s (.invoke t call :: (List.range k).map f)).hist = .resp t call r :: h := by
  have key : ∀ N, ∃ k, N ≤ ((List.range k).map f).count (.step t) := by
    intro N
    induction N with
    | zero => exact ⟨0, Nat.zero_le _⟩
    | succ N ih =>
      obtain ⟨k, hk⟩ := ih
      obtain ⟨j, hj, hf⟩ := hfair k
      refine ⟨j + 1, ?_⟩
      have hsplit : (List.range (j+1)).map f = (List.range j).map f ++ [f j] := by
        rw [List.range_succ, List.map_append]; rfl
      have hmono : ((List.range k).map f).count (.step t) ≤ ((List.range j).map f).count (.step t) := by
        have : (List.range k).Sublist (List.range j) := by
          rw [List.range_sublist]; exact hj
        exact (this.map f).count_le _
      rw [hsplit, List.count_append, hf]
      simp only [List.count_singleton_self]
      omega
  obtain ⟨k, hk⟩ := key (2 * e.len + 6)
  obtain ⟨pre, post, r, h, h1, h2⟩ := C08_wait_free he hs hidle hcall
    (evs := (List.range k).map f) (by intro ev hm; obtain ⟨i, _, rfl⟩ := List.mem_map.mp hm; exact hev i) hk
  have hpre : pre = (List.range pre.length).map f := by
    have hlen : pre.length ≤ k := by
      have := congrArg List.length h1; simp at this; omega
    have h3 : ((List.range k).map f).take pre.length = pre := by rw [h1]; simp
    rw [← List.map_take, List.take_range, Nat.min_eq_left hlen] at h3
    exact h3.symm
  exact ⟨pre.length, r, h, by rw [← hpre]; exact h2⟩

/-- The hypotheses are met: a call in the initial state of the example slab, stepped often enough. -/
example : ∃ pre post r h, List.replicate 134 (Event.step 0) = pre ++ post ∧
    (run exEnv (init 2 0 fun _ => 0) (.invoke 0 (.get u64L) :: pre)).hist = .resp 0 (.get u64L) r :: h :=
  C08_wait_free exEnv_valid ⟨0, _, [], by decide, by simp, rfl⟩ rfl
    ⟨fun l hl => by cases hl; exact u64L_valid, fun l v _ hv => by cases hv⟩
    (fun ev h => by rw [List.eq_of_mem_replicate h]; trivial) (by rw [List.count_replicate_self]; decide)

/-! ## C09 -/

/-- **C09** While a call of thread `t` is running, the number of repetitions of its allocation loop is at most one
more than the number of successful allocations of other threads since the call was started. -/
theorem C09_retries_bounded {e : Env} (he : e.Valid) {s : State n} (hs : Reachable e s)
    {t : Fin n} (hidle : s.pc t = .idle) {call : Call} (hcall : call.Valid e.target)
    {evs : List (Event n)} (hev : ∀ ev ∈ evs, Event.Valid e.target ev) {new : Hist n}
    (hnew : (run e s (.invoke t call :: evs)).hist = new ++ (exec e s (.invoke t call)).hist)
    (hrunning : ∀ c r, Ev.resp t c r ∉ new) :
    retries t new ≤ othersSuccess t new + 1 := by
  obtain ⟨new', h1, h2⟩ := retryInv_run he (hs.inv he) hidle hcall hev
  have : new' = new := List.append_cancel_right (h1.symm.trans hnew)
  subst this
  exact (h2 hrunning).2.1

/-- **C09** A repetition happens only because the level is, at this moment, larger than the level which the
attempt was based on. -/
theorem C09_retry_means_progress {e : Env} (he : e.Valid) {s : State n} (hs : Reachable e s) {t : Fin n}
    (hretry : (step e s t).hist = .retry t :: s.hist) :
    ∃ call l x at' new, s.pc t = .cas call l true x at' new ∧ x < s.consumed ∧
      (step e s t).pc t = .attempt call l true s.consumed := by
  have hi := hs.inv he
  cases trans_step he hi t with
  | stutter h => rw [h] at hretry; exact absurd hretry cons_ne_self'
  | invoke u c hp hv h => rw [h] at hretry; simp at hretry
  | prepare u c l retry g at' new hp h => rw [h] at hretry; exact absurd hretry cons_ne_self'
  | retry u c l x at' new hp hx hlt h =>
    rw [h] at hretry
    simp only [List.cons.injEq, Ev.retry.injEq, and_true] at hretry
    subst hretry
    exact ⟨c, l, x, at', new, hp, hlt, by rw [h]; simp [setPc_self]⟩
  | decide u c p r c' hn hc hr hpc hsp hw h => rw [h] at hretry; simp at hretry
  | write u c a hp h => rw [h] at hretry; exact absurd hretry cons_ne_self'
  | resp u c r hp h => rw [h] at hretry; simp at hretry
  | userWrite r' off bs hr ho h => rw [h] at hretry; simp at hretry
  | reset hidle h => rw [h] at hretry; simp at hretry

/-- In the example, thread 1 repeats once because thread 0 succeeded. -/
example : retries 1 (run exEnv (init 2 0 fun _ => 0) exSched).hist = 1 ∧
    othersSuccess 1 (run exEnv (init 2 0 fun _ => 0) exSched).hist = 1 := by decide

/-! ## C10 -/

/-- **C10** From any reachable state without running calls (for example a fresh slab, or after a reset), the
observable history of every schedule is linearizable with respect to the sequential specification `specApply`, started with
the level of that state. -/
theorem C10_linearizable {e : Env} (he : e.Valid) {s : State n} (hs : Reachable e s)
    (hidle : ∀ t, s.pc t = .idle) {evs : List (Event n)} (hev : ∀ ev ∈ evs, Event.Valid e.target ev)
    {new : Hist n} (hnew : (run e s evs).hist = new ++ s.hist) (hreset : Ev.reset ∉ new) :
    Linearizable (specApply e.zst e.slab) s.consumed (observable new) :=
  linearizable_run he (hs.inv he) hidle hev hnew hreset

/-- The example with overlapping calls. -/
example : (observable (run exEnv (init 2 0 fun _ => 0) exSched).hist).length = 4 ∧
    Linearizable (specApply exEnv.zst exEnv.slab) 0 (observable (run exEnv (init 2 0 fun _ => 0) exSched).hist) :=
  ⟨by decide, C10_linearizable (s := init 2 0 fun _ => 0) exEnv_valid ⟨0, _, [], by decide, by simp, rfl⟩ (fun _ => rfl)
    exSched_valid (by rw [show (init 2 0 fun _ => 0).hist = [] from rfl, List.append_nil]) (by decide)⟩

/-- The specification is not satisfied by arbitrary results: a second `u64` at the place of the first one
is not linearizable. -/
example : ¬ Linearizable (specApply exEnv.zst exEnv.slab) 0
    ([.inv 0 (.alloc u64L), .resp 0 (.alloc u64L) (.ptr 4104), .inv 0 (.alloc u64L), .resp 0 (.alloc u64L) (.ptr 4104)] :
      List (HEv (Fin 1) Call Ret)) := by
  rintro ⟨tr, h1, h2, h3⟩
  have h3 := h3 0
  -- peel the trace: it must be inv, lin, resp, inv, lin, resp
  have peelInv : ∀ (tr : List (TEv (Fin 1) Call Ret)) (op : Call) (c : Nat) (rest : List (HEv (Fin 1) Call Ret)),
      tr.filterMap TEv.erase = .inv 0 op :: rest → Legal (specApply exEnv.zst exEnv.slab) c tr → ThreadWf 0 .idle tr →
      ∃ tr', tr'.filterMap TEv.erase = rest ∧ Legal (specApply exEnv.zst exEnv.slab) c tr' ∧ ThreadWf 0 (.called op) tr' := by
    intro tr op c rest h1 h2 h3
    cases tr with
    | nil => simp at h1
    | cons ev tr =>
      cases ev with
      | inv t o =>
        simp [TEv.erase] at h1
        obtain ⟨⟨h, rfl⟩, h1⟩ := h1
        rcases h3 with ⟨_, _, h3⟩ | ⟨h', _⟩
        · exact ⟨tr, h1, h2, h3⟩
        · exact absurd h h'
      | lin t o r =>
        rcases h3 with ⟨_, h, _⟩ | ⟨h', _⟩
        · cases h
        · exact absurd (Subsingleton.elim _ _) h'
      | resp t o r => simp [TEv.erase] at h1
  have peelResp : ∀ (tr : List (TEv (Fin 1) Call Ret)) (op : Call) (r : Ret) (c : Nat) (rest : List (HEv (Fin 1) Call Ret)),
      tr.filterMap TEv.erase = .resp 0 op r :: rest → Legal (specApply exEnv.zst exEnv.slab) c tr → ThreadWf 0 (.called op) tr →
      (specApply exEnv.zst exEnv.slab c op).1 = r ∧ ∃ tr', tr'.filterMap TEv.erase = rest ∧
        Legal (specApply exEnv.zst exEnv.slab) (specApply exEnv.zst exEnv.slab c op).2 tr' ∧ ThreadWf 0 .idle tr' := by
    intro tr op r c rest h1 h2 h3
    cases tr with
    | nil => simp at h1
    | cons ev tr =>
      cases ev with
      | inv t o => simp [TEv.erase] at h1
      | resp t o r =>
        rcases h3 with ⟨_, h, _⟩ | ⟨h', _⟩
        · cases h
        · exact absurd (Subsingleton.elim _ _) h'
      | lin t o r' =>
        rcases h3 with ⟨_, h, h3⟩ | ⟨h', _⟩
        · cases h
          rw [List.filterMap_cons_none rfl] at h1
          cases tr with
          | nil => simp at h1
          | cons ev tr =>
            cases ev with
            | inv t o => simp [TEv.erase] at h1
            | lin t o r' =>
              rcases h3 with ⟨_, h, _⟩ | ⟨h', _⟩
              · cases h
              · exact absurd (Subsingleton.elim _ _) h'
            | resp t o r'' =>
              simp [TEv.erase] at h1
              obtain ⟨⟨_, rfl, rfl⟩, h1⟩ := h1
              rcases h3 with ⟨_, h, h3⟩ | ⟨h', _⟩
              · cases h
                exact ⟨h2.1, tr, h1, h2.2, h3⟩
              · exact absurd (Subsingleton.elim _ _) h'
        · exact absurd (Subsingleton.elim _ _) h'
  obtain ⟨tr, h1, h2, h3⟩ := peelInv _ _ _ _ h1 h2 h3
  obtain ⟨_, tr, h1, h2, h3⟩ := peelResp _ _ _ _ _ h1 h2 h3
  obtain ⟨tr, h1, h2, h3⟩ := peelInv _ _ _ _ h1 h2 h3
  obtain ⟨h, _⟩ := peelResp _ _ _ _ _ h1 h2 h3
  revert h; decide

/-! ## C11 -/

/-- **C11** The bytes of a region handed out stay the same, whatever calls, failures and writes of
other owners happen, as long as its owner does not write to it and the slab is not reset. -/
theorem C11_isolation {e : Env} (he : e.Valid) {s : State n} (hs : Reachable e s)
    {r : Region} (hr : r ∈ handedOut s.hist)
    {evs : List (Event n)} (hev : ∀ ev ∈ evs, Event.Valid e.target ev)
    {new : Hist n} (hnew : (run e s evs).hist = new ++ s.hist) (hreset : Ev.reset ∉ new)
    (hown : Ev.userWrite r ∉ new) :
    ∀ x, r.Has x → (run e s evs).mem x = s.mem x := by
  obtain ⟨_, new', h1, h2⟩ := isolated_run he hs hr hev
  have : new' = new := List.append_cancel_right (h1.symm.trans hnew)
  subst this
  exact (h2 hreset hown).2

/-- **C11** A value placed with `leak`, `leak_at`, `leak_box` or `leak_box_at` is found in memory at the returned
pointer, from the moment of the response (the step after state `s`) until its owner writes or the slab is reset. -/
theorem C11_leaked_value_readable {e : Env} (he : e.Valid) {s : State n} (hs : Reachable e s)
    {t : Fin n} {call : Call} {r : Ret} (hresp : (step e s t).hist = .resp t call r :: s.hist)
    {v : List Byte} (hv : call.value = some v) {p : Nat} (hp : r.ptr? = some p)
    {evs : List (Event n)} (hev : ∀ ev ∈ evs, Event.Valid e.target ev)
    {new : Hist n} (hnew : (run e (step e s t) evs).hist = new ++ (step e s t).hist) (hreset : Ev.reset ∉ new)
    (hown : Ev.userWrite ⟨p, v.length⟩ ∉ new) :
    readBytes (run e (step e s t) evs).mem p v.length = v := by
  have hi := hs.inv he
  have hs' : Reachable e (step e s t) := by
    have := hs.run (evs := [.step t]) (by simp [Event.Valid])
    exact this
  have hfirst : readBytes (step e s t).mem p v.length = v ∧ call.Valid e.target := by
    cases trans_step he hi t with
    | stutter h => rw [h] at hresp; exact absurd hresp cons_ne_self'
    | invoke u c hp hv h => rw [h] at hresp; simp at hresp
    | prepare u c l retry g at' new hp h => rw [h] at hresp; exact absurd hresp cons_ne_self'
    | retry u c l x at' new hp hx hlt h => rw [h] at hresp; simp at hresp
    | decide u c p r c' hn hc hr hpc hsp hw h => rw [h] at hresp; simp at hresp
    | write u c a hp h => rw [h] at hresp; exact absurd hresp cons_ne_self'
    | resp u c q hpc h =>
      rw [h] at hresp ⊢
      simp only [List.cons.injEq, Ev.resp.injEq, and_true] at hresp
      obtain ⟨rfl, rfl, rfl⟩ := hresp
      refine ⟨(hs.stored he).2 u c q v p hpc hv hp, ?_⟩
      have := hi.pcs u
      rw [hpc] at this
      exact this.1 c rfl
    | userWrite r' off bs hr ho h => rw [h] at hresp; simp at hresp
    | reset hidle h => rw [h] at hresp; simp at hresp
  obtain ⟨hread, hval⟩ := hfirst
  by_cases h0 : v = []
  · subst h0; rfl
  · have hlen : v.length ≠ 0 := by simpa using h0
    have hreg : (⟨p, v.length⟩ : Region) ∈ handedOut (step e s t).hist := by
      rw [hresp]
      cases hl : call.layout with
      | none => cases call <;> simp [Call.layout, Call.value] at hl hv
      | some l =>
        have hsz := hval.2 l v hl hv
        have : grant call r = some ⟨p, v.length⟩ := by
          have h0 : l.size ≠ 0 := by omega
          cases r <;> simp [Ret.ptr?] at hp <;> simp [grant, hl, h0, hp, hsz]
        simp [handedOut, this]
    have := C11_isolation he hs' hreg hev hnew hreset hown
    rw [readBytes_congr (m := (step e s t).mem) (fun x h1 h2 => this x ⟨h1, h2⟩)]
    exact hread

/-- In the example the byte 7 is in memory after other calls, and another owner's write. -/
example :
    let s := run exEnv (init 2 0 fun _ => 0) (exSched ++ [.userWrite ⟨4104, 8⟩ 0 [1,1,1,1,1,1,1,1]])
    s.mem 4100 = 7 ∧ s.mem 4104 = 1 := by decide

/-! ## C14 -/

/-- **C14** A fresh (or reset) slab of size `N * size_of::<V>()` at an address aligned for `V`, from which only
values with the layout of `V` are requested, by any number of threads in any way: it never
hands out more than `N` of them, and if a request (without level) reports exhaustion then `N` requests
have been served, up to those of calls which did not return yet. -/
theorem C14_array_capacity {e : Env} (he : e.Valid) {V : Layout} {N : Nat} (h0 : 0 < V.size)
    (hdv : V.align ∣ V.size) (hlen : e.len = N * V.size) (hdb : V.align ∣ e.base)
    {s : State n} (hs : Reachable e s) (hidle : ∀ t, s.pc t = .idle) (hfresh : s.consumed = 0)
    {evs : List (Event n)} (hev : ∀ ev ∈ evs, Event.Valid e.target ev)
    {new : Hist n} (hnew : (run e s evs).hist = new ++ s.hist) (hreset : Ev.reset ∉ new)
    (honly : ∀ t c, Ev.inv t c ∈ new → c.layout = some V ∨ c.layout = none) :
    sumResp granted new ≤ N ∧
    (∀ t call r, Ev.resp t call r ∈ new → call.layout = some V → call.atLevel = none → r.IsExhausted →
      N ≤ sumResp granted new + ((List.finRange n).filter fun t => (run e s evs).pc t ≠ .idle).length) := by
  have hi := hs.inv he
  obtain ⟨n1, h1, h2⟩ := uniform_run he hdv hdb hi hidle hfresh hev
  have e1 : n1 = new := List.append_cancel_right (h1.symm.trans hnew)
  subst e1
  obtain ⟨hcons, _⟩ := h2 hreset honly
  obtain ⟨n2, h3, h4, _⟩ := conserved_run he granted (fun _ => 0) hi hev
  have e2 : n2 = n1 := List.append_cancel_right (h3.symm.trans hnew)
  subst e2
  have hidle0 : ∑ t, decW granted (s.pc t) = 0 := sum_idle (w := decW granted) rfl hidle
  have hreach := hs.run hev
  have hle := (hreach.inv he).le
  have hsl : sumLin granted n2 ≤ N := by
    rw [hcons, hlen, Nat.mul_comm] at hle
    exact Nat.le_of_mul_le_mul_right hle h0
  refine ⟨by omega, fun t call r hr hl hat hex => ?_⟩
  have hnf := C06_exhaustion_truthful he hs (hidle t) hev hnew hreset hr hex hl (by rw [hat]; simp)
  have hN : N ≤ sumLin granted n2 := by
    refine Nat.le_of_not_lt fun hlt => hnf ?_
    refine ⟨e.base + (run e s evs).consumed, Nat.le_refl _, ?_, ?_⟩
    · rw [hcons]; exact Nat.dvd_add hdb (Nat.dvd_trans hdv (Nat.dvd_mul_right _ _))
    · show e.base + (run e s evs).consumed + V.size ≤ e.base + e.len
      rw [hcons, hlen]
      have : V.size * (sumLin granted n2 + 1) ≤ V.size * N := Nat.mul_le_mul_left _ hlt
      rw [Nat.mul_add, Nat.mul_comm V.size N] at this
      omega
  have hpend : ∑ t, decW granted ((run e s evs).pc t) ≤
      ((List.finRange n).filter fun t => (run e s evs).pc t ≠ .idle).length := by
    have hb : ∀ t, decW granted ((run e s evs).pc t) ≤ if (run e s evs).pc t ≠ .idle then 1 else 0 := by
      intro t
      by_cases h : (run e s evs).pc t = .idle
      · simp only [h]; decide
      · simp only [h, ne_eq, not_false_eq_true, if_true]
        unfold decW granted
        split
        · split <;> omega
        · omega
    have hsum : ∀ (f : Fin n → Prop) [DecidablePred f], ∑ t, (if f t then 1 else 0) =
        ((List.finRange n).filter fun t => f t).length := by
      intro f _
      rw [← List.countP_eq_length_filter, Fin.sum_univ_def]
      induction (List.finRange n) with
      | nil => rfl
      | cons a l ih =>
        rw [List.map_cons, List.sum_cons, List.countP_cons, ih]
        by_cases h : f a <;> simp [h, Nat.add_comm]
    rw [← hsum]
    exact Finset.sum_le_sum fun t _ => hb t
  omega

/-- When all calls have returned, exhaustion means exactly `N` successes. -/
theorem C14_array_capacity_exact {e : Env} (he : e.Valid) {V : Layout} {N : Nat} (h0 : 0 < V.size)
    (hdv : V.align ∣ V.size) (hlen : e.len = N * V.size) (hdb : V.align ∣ e.base)
    {s : State n} (hs : Reachable e s) (hidle : ∀ t, s.pc t = .idle) (hfresh : s.consumed = 0)
    {evs : List (Event n)} (hev : ∀ ev ∈ evs, Event.Valid e.target ev)
    {new : Hist n} (hnew : (run e s evs).hist = new ++ s.hist) (hreset : Ev.reset ∉ new)
    (honly : ∀ t c, Ev.inv t c ∈ new → c.layout = some V ∨ c.layout = none)
    (hdone : ∀ t, (run e s evs).pc t = .idle) {t : Fin n} {call : Call} {r : Ret} (hr : Ev.resp t call r ∈ new)
    (hl : call.layout = some V) (hat : call.atLevel = none) (hex : r.IsExhausted) :
    sumResp granted new = N := by
  obtain ⟨h1, h2⟩ := C14_array_capacity he h0 hdv hlen hdb hs hidle hfresh hev hnew hreset honly
  have := h2 t call r hr hl hat hex
  simp [hdone] at this
  omega

/-- A slab for two `u64`: two requests are served, the third is not. -/
example :
    let e : Env := ⟨.w64, 4096, 2 * 8, id⟩
    let s := run e (init 2 0 fun _ => 0)
      [.invoke 0 (.get u64L), .invoke 1 (.get u64L), .step 0, .step 1, .step 1, .step 1, .step 0, .step 0, .step 0, .step 0,
       .invoke 1 (.alloc u64L), .step 1, .step 1, .step 1, .step 1]
    Ev.resp 1 (.alloc u64L) .none ∈ s.hist ∧ sumResp granted s.hist = 2 := by decide

/-! ## C15 -/

/-- A chain of successful allocations, each at the level returned by the previous one, starting at level `L`:
layouts and pointers. -/
inductive LevelChain (h : Hist n) : Nat → List (Layout × Nat) → Prop
  | nil (L : Nat) : LevelChain h L []
  | cons {L : Nat} {t : Fin n} {call : Call} {V : Layout} {a : Alloc} {rest : List (Layout × Nat)}
      (hr : Ev.resp t call (.allocation a) ∈ h) (hl : call.layout = some V) (hat : call.atLevel = some L)
      (h0 : 0 < V.size) (hrest : LevelChain h a.level rest) : LevelChain h L ((V, a.ptr) :: rest)

theorem levelChain_offsets {e : Env} (he : e.Valid) {s : State n} (hs : Reachable e s) {B : Nat} :
    ∀ {L : Nat} {xs : List (Layout × Nat)} (o : Nat), LevelChain s.hist L xs → e.base + L = B + o →
    (∀ x ∈ xs, x.1.align ∣ B) → xs.map Prod.snd = (reprCOffsets o (xs.map Prod.fst)).map (B + ·) := by
  intro L xs o hch
  induction hch generalizing o with
  | nil L => intro _ _; rfl
  | @cons L t call V a rest hr hl hat h0 hrest ih =>
    intro hB hdiv
    obtain ⟨hval, c, c', hc, hsp⟩ := (hs.inv2 he).S t call _ (.inr (.inl hr))
    have ha := Call.Valid.align_pos hval hl
    have key : a.ptr = alignUp V.align (e.base + L) ∧ e.base + a.level = a.ptr + V.size := by
      rcases specApply_cases hsp with ⟨rfl, _, _⟩ | ⟨l', hl', h⟩
      · simp [Call.layout] at hl
      · rw [hl] at hl'; cases hl'
        have nofail : ∀ f, Ret.allocation a ≠ call.failure f := by
          intro f; cases call <;> simp [Call.failure]
        rcases h with ⟨_, hz, _⟩ | ⟨_, hz, _⟩ | ⟨_, ⟨h, _⟩ | ⟨b, h, hlev, hpl, hLL⟩ | ⟨h, _⟩ | ⟨_, h, _⟩⟩
        · omega
        · omega
        · cases h
        · have := success_allocation h.symm
          subst this
          rw [(hLL L hat).1] at hpl
          rw [Slab.place_eq_some] at hpl
          obtain ⟨k1, k2, k3⟩ := hpl
          have := le_alignUp ha (e.slab.base + L)
          have hb : e.slab.base = e.base := rfl
          refine ⟨k1, ?_⟩
          omega
        · exact absurd h (nofail _)
        · exact absurd h (nofail _)
    have hd : V.align ∣ B := hdiv (V, a.ptr) (by simp)
    have hptr : a.ptr = B + alignUp V.align o := by
      rw [key.1, hB, alignUp_add_of_dvd ha hd]
    simp only [List.map_cons, reprCOffsets, List.cons.injEq]
    refine ⟨hptr, ih _ (by rw [key.2, hptr]; omega) (fun x hx => hdiv x (by simp [hx]))⟩

/-- **C15** Values allocated by a chain of levels are placed like the fields of a `repr(C)` struct starting at `base+L`,
if that address is aligned for all of them. -/
theorem C15_levels_repr_c {e : Env} (he : e.Valid) {s : State n} (hs : Reachable e s)
    {L : Nat} {xs : List (Layout × Nat)} (hch : LevelChain s.hist L xs)
    (hal : ∀ x ∈ xs, x.1.align ∣ e.base + L) :
    xs.map Prod.snd = (reprCOffsets 0 (xs.map Prod.fst)).map (e.base + L + ·) :=
  levelChain_offsets he hs 0 hch rfl hal

theorem reprCOffsets_replicate {V : Layout} (h0 : 0 < V.align) (hdv : V.align ∣ V.size) : ∀ (k o : Nat), V.align ∣ o →
    reprCOffsets o (List.replicate k V) = (List.range k).map fun i => o + i * V.size := by
  intro k
  induction k with
  | zero => intro o _; rfl
  | succ k ih =>
    intro o ho
    rw [List.replicate_succ, reprCOffsets, alignUp_of_dvd h0 ho, ih _ (Nat.dvd_add ho hdv), List.range_succ_eq_map]
    simp only [List.map_cons, List.map_map, List.cons.injEq, Nat.zero_mul, Nat.add_zero, true_and]
    apply List.map_congr_left
    intro i _
    simp only [Function.comp, Nat.succ_eq_add_one, Nat.add_mul, Nat.one_mul]
    omega

/-- **C15** Values of the same type are contiguous like array elements. -/
theorem C15_levels_array {e : Env} (he : e.Valid) {s : State n} (hs : Reachable e s)
    {L : Nat} {V : Layout} (ha : 0 < V.align) (hdv : V.align ∣ V.size) {ptrs : List Nat}
    (hch : LevelChain s.hist L (ptrs.map fun p => (V, p))) (hal : V.align ∣ e.base + L) :
    ptrs = (List.range ptrs.length).map fun i => e.base + L + i * V.size := by
  have := C15_levels_repr_c he hs hch (by
    intro x hx; obtain ⟨p, _, rfl⟩ := List.mem_map.mp hx; exact hal)
  simp only [List.map_map] at this
  have e1 : (Prod.fst ∘ fun p : Nat => (V, p)) = fun _ => V := rfl
  have e2 : (Prod.snd ∘ fun p : Nat => (V, p)) = id := rfl
  rw [e1, e2, List.map_id, List.map_const', reprCOffsets_replicate ha hdv _ _ (Nat.dvd_zero _)] at this
  rw [List.map_map] at this
  rw [this]
  simp [Function.comp_def]

/-- A chain: `u8` at level 4, `u64` at the level returned. -/
example :
    let s := run exEnv (init 1 4 fun _ => 0)
      [.invoke 0 (.getAt u8L 4), .step 0, .step 0, .step 0, .invoke 0 (.getAt u64L 5), .step 0, .step 0, .step 0]
    LevelChain s.hist 4 [(u8L, 4104), (u64L, 4112)] ∧ reprCOffsets 0 [u8L, u64L] = [0, 8] := by
  refine ⟨?_, by decide⟩
  refine .cons (t := 0) (call := .getAt u8L 4) (a := ⟨4104, 5⟩) (by decide) rfl rfl (by decide) ?_
  exact .cons (t := 0) (call := .getAt u64L 5) (a := ⟨4112, 20⟩) (by decide) rfl rfl (by decide) (.nil _)

/-! ## C16 -/

/-- **C16** After a `reset` the level is 0, no byte has changed, and every continuation behaves exactly like on a
fresh slab (with the same memory contents): same level, memory, thread states, and same history. -/
theorem C16_reset_like_fresh {e : Env} {s : State n} (hidle : ∀ t, s.pc t = .idle) :
    (exec e s .reset).consumed = 0 ∧ (exec e s .reset).mem = s.mem ∧
    ∀ evs : List (Event n),
      let used := run e (exec e s .reset) evs
      let fresh := run e (init n 0 s.mem) evs
      used.consumed = fresh.consumed ∧ used.mem = fresh.mem ∧ used.pc = fresh.pc ∧
      used.hist = fresh.hist ++ .reset :: s.hist := by
  have hex : exec e s .reset = { s with consumed := 0, hist := .reset :: s.hist } := by
    simp only [exec, hidle, implies_true, if_true]
  rw [hex]
  refine ⟨rfl, rfl, fun evs => ?_⟩
  exact sameBut_run e evs _ _ ⟨rfl, rfl, by funext t; simp [init, hidle], rfl⟩

/-- **C16** `reset` is not possible while a call is running. -/
theorem C16_reset_exclusive {e : Env} {s : State n} {t : Fin n} (h : s.pc t ≠ .idle) : exec e s .reset = s := by
  simp only [exec]
  rw [if_neg (fun hall => h (hall t))]

example : (exec exEnv (run exEnv (init 2 0 fun _ => 0) exSched) .reset).consumed = 0 ∧
    (run exEnv (init 2 0 fun _ => 0) exSched).consumed = 12 ∧
    (exec exEnv (run exEnv (init 2 0 fun _ => 0) exSched) .reset).mem 4100 = 7 := by decide

/-! ## C20 -/

/-- **C20** Between two states without running calls, the level grows by the sizes of the regions
handed out in between, plus for each a padding smaller than its alignment. Nothing else consumes memory. -/
theorem C20_consumption {e : Env} (he : e.Valid) {s : State n} (hs : Reachable e s)
    (hidle : ∀ t, s.pc t = .idle) {evs : List (Event n)} (hev : ∀ ev ∈ evs, Event.Valid e.target ev)
    {new : Hist n} (hnew : (run e s evs).hist = new ++ s.hist) (hreset : Ev.reset ∉ new)
    (hidle' : ∀ t, (run e s evs).pc t = .idle) :
    s.consumed + sumResp gotBytes new ≤ (run e s evs).consumed ∧
    (run e s evs).consumed ≤ s.consumed + sumResp gotWorst new := by
  have hi := hs.inv he
  obtain ⟨n1, h1, h2⟩ := levelSum_run he hi hev
  have e1 : n1 = new := List.append_cancel_right (h1.symm.trans hnew)
  subst e1
  have same : ∀ w, sumResp w n1 = sumLin w n1 := by
    intro w
    obtain ⟨n2, h3, h4, _⟩ := conserved_run he w (fun _ => 0) hi hev
    have e2 : n2 = n1 := List.append_cancel_right (h3.symm.trans hnew)
    subst e2
    have k1 : ∑ t, decW w (s.pc t) = 0 := sum_idle (w := decW w) rfl hidle
    have k2 : ∑ t, decW w ((run e s evs).pc t) = 0 := sum_idle (w := decW w) rfl hidle'
    omega
  rw [same, same]
  exact h2 hreset

/-- **C20** If the worst-case sizes (size plus largest possible padding) of all requests made fit into
the remaining memory, no request (without a level) reports exhaustion. -/
theorem C20_worst_case_fits {e : Env} (he : e.Valid) {s : State n} (hs : Reachable e s)
    (hidle : ∀ t, s.pc t = .idle) {evs : List (Event n)} (hev : ∀ ev ∈ evs, Event.Valid e.target ev)
    {new : Hist n} (hnew : (run e s evs).hist = new ++ s.hist) (hreset : Ev.reset ∉ new)
    (hsum : s.consumed + sumInv worstBytes new ≤ e.len)
    {t : Fin n} {call : Call} {r : Ret} (hr : Ev.resp t call r ∈ new) (hat : call.atLevel = none) :
    ¬ r.IsExhausted := by
  intro hex
  have hi := hs.inv he
  have hreach := hs.run hev
  have hmem : Ev.resp t call r ∈ (run e s evs).hist := by rw [hnew]; exact List.mem_append_left _ hr
  obtain ⟨hval, c, c', hc, hsp⟩ := (hreach.inv2 he).S t call r (.inr (.inl hmem))
  obtain ⟨l, hl, h0⟩ : ∃ l, call.layout = some l ∧ 0 < l.size := by
    rcases specApply_cases hsp with ⟨rfl, h, _⟩ | ⟨l', hl', h⟩
    · rw [h] at hex; cases hex
    · rcases h with ⟨ht, hz, hcc, ⟨_, h⟩ | ⟨⟨L, hL1, hL2⟩, h⟩⟩ | ⟨_, _, _, h⟩ | ⟨h0, _⟩
      · rw [h] at hex; exact absurd hex (success_not_exhausted _ _)
      · rw [hat] at hL1; cases hL1
      · rw [h] at hex; cases hex
      · exact ⟨l', hl', h0⟩
  have ha := Call.Valid.align_pos hval hl
  have hnf := C06_exhaustion_truthful he hs (hidle t) hev hnew hreset hr hex hl (by rw [hat]; simp)
  obtain ⟨n1, h1, h2⟩ := levelSum_run he hi hev
  have e1 : n1 = new := List.append_cancel_right (h1.symm.trans hnew)
  subst e1
  have hup := (h2 hreset).2
  -- what failed calls asked for
  let wf : Call → Ret → Nat := fun c r => worstBytes c - gotWorst c r
  obtain ⟨n2, h3, h4, h5⟩ := conserved_run he wf worstBytes hi hev
  have e2 : n2 = n1 := List.append_cancel_right (h3.symm.trans hnew)
  subst e2
  have k1 : ∑ t, decW wf (s.pc t) = 0 := sum_idle (w := decW wf) rfl hidle
  have k2 : ∑ t, undW worstBytes (s.pc t) = 0 := sum_idle (w := undW worstBytes) rfl hidle
  have hgr : grant call r = none := by
    cases r <;> simp [Ret.IsExhausted] at hex <;> simp [grant, hl]
  have h0' : l.size ≠ 0 := by omega
  have hw : wf call r = l.size + (l.align - 1) := by
    simp [wf, gotWorst, hgr, worstBytes, hl, h0']
  have hone : wf call r ≤ sumResp wf n2 := by
    unfold sumResp
    have hm : wf call r ∈ n2.map (fun | .resp _ c r => wf c r | _ => 0) := List.mem_map.mpr ⟨_, hr, rfl⟩
    exact List.le_sum_of_mem hm
  have hadd : ∀ h : Hist n, sumLin (fun c _ => worstBytes c) h = sumLin gotWorst h + sumLin wf h := by
    intro h
    induction h with
    | nil => rfl
    | cons ev h ih =>
      cases ev <;> simp only [sumLin, List.map_cons, List.sum_cons] at ih ⊢ <;> try omega
      rename_i t c r
      have : gotWorst c r ≤ worstBytes c := by unfold gotWorst; split <;> omega
      simp only [wf] at ih ⊢
      omega
  have := hadd n2
  apply hnf
  refine ⟨alignUp l.align (e.base + (run e s evs).consumed), le_alignUp ha _, dvd_alignUp _ _, ?_⟩
  have := alignUp_lt ha (e.base + (run e s evs).consumed)
  show _ ≤ e.base + e.len
  omega

/-- In the example: 9 bytes handed out, 12 used up, 16 in the worst case. -/
example : sumResp gotBytes (run exEnv (init 2 0 fun _ => 0) exSched).hist = 9 ∧
    (run exEnv (init 2 0 fun _ => 0) exSched).consumed = 12 ∧
    sumResp gotWorst (run exEnv (init 2 0 fun _ => 0) exSched).hist = 16 ∧
    ∀ t, (run exEnv (init 2 0 fun _ => 0) exSched).pc t = .idle := by decide

end Verif
