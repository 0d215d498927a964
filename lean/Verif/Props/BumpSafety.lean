import Verif.Proofs.BumpInstant
/-!
# C01–C07, C12, C13: safety of the shared `Bump`

All theorems quantify over every environment (target, address and size of the slab), every number of
threads `n`, every starting level, and every schedule (`Reachable`/`run`).
-/
namespace Verif
open Bump
variable {n : Nat}

/-- The slab used in the examples: 64 bytes at address 4100 (which is 4-aligned only). -/
def exEnv : Env := ⟨.w64, 4100, 64, id⟩
theorem exEnv_valid : exEnv.Valid :=
  ⟨by decide, by decide, by decide, fun a h => ⟨h.pos, Nat.dvd_refl a⟩⟩

/-- Layout of `u64` and of `u8`. -/
def u64L : Layout := ⟨8, 8⟩
def u8L : Layout := ⟨1, 1⟩
theorem u64L_valid : u64L.ValidType .w64 := ⟨⟨⟨3, rfl⟩, by decide⟩, ⟨1, rfl⟩⟩
theorem u8L_valid : u8L.ValidType .w64 := ⟨⟨⟨0, rfl⟩, by decide⟩, ⟨1, rfl⟩⟩

/-- A schedule with a race: two threads prepare with the same guess, one wins, the other one retries. -/
def exSched : List (Event 2) :=
  [.invoke 0 (.leak u8L [7]), .invoke 1 (.get u64L), .step 0, .step 1, .step 0, .step 1, .step 1, .step 1,
   .step 0, .step 0, .step 1]

theorem exSched_valid : ∀ ev ∈ exSched, Event.Valid .w64 ev := by
  simp only [exSched, List.mem_cons, List.not_mem_nil, or_false]
  rintro ev (rfl | rfl | rfl | rfl | rfl | rfl | rfl | rfl | rfl | rfl | rfl) <;> try trivial
  · constructor
    · intro l hl; cases hl; exact u8L_valid
    · intro l v hl hv; cases hl; cases hv; rfl
  · constructor
    · intro l hl; cases hl; exact u64L_valid
    · intro l v hl hv; cases hv

theorem exSched_reachable : Reachable exEnv (run exEnv (init 2 0 fun _ => 0) exSched) :=
  ⟨0, _, exSched, by decide, exSched_valid, rfl⟩

/-- The example really hands out two regions, after a retry. -/
theorem exSched_result : handedOut (run exEnv (init 2 0 fun _ => 0) exSched).hist = [⟨4104, 8⟩, ⟨4100, 1⟩] ∧
    Ev.retry 1 ∈ (run exEnv (init 2 0 fun _ => 0) exSched).hist := by decide

/-! ## C01 -/

/-- **C01** Regions returned to callers (since the last reset) are pairwise disjoint, in every reachable state. -/
theorem C01_handed_out_disjoint {e : Env} (he : e.Valid) {s : State n} (hs : Reachable e s) :
    (handedOut s.hist).Pairwise Region.Disjoint :=
  (hs.inv2 he).B

/-- A call of thread `t` has taken the region but not yet returned it: it is about to store its value there, or about to return. -/
def Taken (s : State n) (t : Fin n) (q : Region) : Prop :=
  (∃ call a l, s.pc t = .write call a ∧ call.layout = some l ∧ 0 < l.size ∧ q = ⟨a.ptr, l.size⟩) ∨
  (∃ call r l p, s.pc t = .ret call r ∧ call.layout = some l ∧ 0 < l.size ∧ r.ptr? = some p ∧ q = ⟨p, l.size⟩)

/-- **C01** A region which a call has already taken but not yet returned is disjoint from all
returned regions and from those of other calls in flight. -/
theorem C01_in_flight_disjoint {e : Env} (he : e.Valid) {s : State n} (hs : Reachable e s)
    {t : Fin n} {q : Region} (ht : Taken s t q) :
    (∀ u, u ≠ t → ∀ q', Taken s u q' → q.Disjoint q') ∧ ∀ q' ∈ handedOut s.hist, q.Disjoint q' := by
  have h2 := hs.inv2 he
  have hg : ∀ (t : Fin n) (q : Region), Taken s t q → (s.pc t).pending = some q := by
    rintro t q (⟨c, b, k, hp, hk, h0, rfl⟩ | ⟨c, r, k, p, hp, hk, h0, hr, rfl⟩)
    · have : k.size ≠ 0 := by omega
      rw [hp]
      cases c <;> simp [Pc.pending, Pc.call, Pc.decided, afterWrite, grant, Call.layout] at hk ⊢ <;> simp_all
    · have : k.size ≠ 0 := by omega
      rw [hp]
      cases r <;> simp [Ret.ptr?] at hr <;> simp [Pc.pending, Pc.call, Pc.decided, grant, hk, this, hr]
  exact ⟨fun u hu q' h => h2.D t u q q' (fun h => hu h.symm) (hg t q ht) (hg u q' h), (h2.C t q (hg t q ht)).2⟩

/-- In the example at one moment both calls have taken their regions. -/
example : Taken (run exEnv (init 2 0 fun _ => 0) (exSched.take 8)) 0 ⟨4100, 1⟩ ∧
    Taken (run exEnv (init 2 0 fun _ => 0) (exSched.take 8)) 1 ⟨4104, 8⟩ :=
  ⟨.inl ⟨.leak u8L [7], ⟨4100, 1⟩, u8L, by decide, rfl, by decide, rfl⟩,
    .inr ⟨.get u64L, .allocation ⟨4104, 12⟩, u64L, 4104, by decide, rfl, by decide, rfl, rfl⟩⟩

example : (handedOut (run exEnv (init 2 0 fun _ => 0) exSched).hist).Pairwise Region.Disjoint :=
  C01_handed_out_disjoint exEnv_valid exSched_reachable

/-! ## C02 -/

/-- **C02** Every pointer returned by an allocating call is non-null and aligned as requested; and if the request
is not empty, all the requested bytes lie inside the storage. -/
theorem C02_in_bounds_aligned {e : Env} (he : e.Valid) {s : State n} (hs : Reachable e s)
    {t : Fin n} {call : Call} {r : Ret} {l : Layout} {p : Nat}
    (hr : Ev.resp t call r ∈ s.hist) (hl : call.layout = some l) (hp : r.ptr? = some p) :
    p ≠ 0 ∧ l.align ∣ p ∧ (0 < l.size → Region.Within ⟨p, l.size⟩ ⟨e.base, e.len⟩) := by
  obtain ⟨hval, c, c', hc, hsp⟩ := (hs.inv2 he).S t call r (.inr (.inl hr))
  have ha := Call.Valid.align_pos hval hl
  have hb := he.base_pos
  rcases specApply_cases hsp with ⟨rfl, _, _⟩ | ⟨l', hl', h⟩
  · simp [Call.layout] at hl
  · rw [hl] at hl'; cases hl'
    rcases h with ⟨ht, hz, hcc, ⟨_, h⟩ | ⟨_, h⟩⟩ | ⟨_, _, _, h⟩ | ⟨h0, ⟨h, _⟩ | ⟨a, h, _, hpl, _⟩ | ⟨h, _⟩ | ⟨L, h, _⟩⟩
    · rw [h, success_ptr] at hp; cases hp
      have := he.zst_ok l.align (Call.Valid.pow2 hval hl)
      exact ⟨by show e.zst l.align ≠ 0; omega, this.2, fun h => by omega⟩
    · rw [h, failure_ptr] at hp; cases hp
    · rw [h] at hp; cases hp
    · rw [h] at hp; cases hp
    · rw [h, success_ptr] at hp; cases hp
      rw [Slab.place_eq_some] at hpl
      obtain ⟨k1, k2, k3⟩ := hpl
      have k4 := le_alignUp ha (e.slab.base + c)
      have k5 : e.slab.base = e.base := rfl
      have k6 : e.slab.len = e.len := rfl
      refine ⟨by omega, by rw [k1]; exact dvd_alignUp _ _, fun _ => ⟨?_, ?_⟩⟩
      · show e.base ≤ a.ptr; omega
      · show a.ptr + l.size ≤ e.base + e.len; omega
    · rw [h, failure_ptr] at hp; cases hp
    · rw [h, failure_ptr] at hp; cases hp

example : (4104 : Nat) ≠ 0 ∧ 8 ∣ 4104 ∧ (0 < 8 → Region.Within ⟨4104, 8⟩ ⟨4100, 64⟩) :=
  C02_in_bounds_aligned (l := u64L) (t := (1 : Fin 2)) (call := .get u64L) (r := .allocation ⟨4104, 12⟩)
    exEnv_valid exSched_reachable (by decide) rfl rfl

/-! ## C03 -/

/-- **C03** A finished call panicked if and only if it was given a zero-sized layout through the untyped
interface, or a level beyond the slab together with a non-zero-sized request. -/
theorem C03_panics_iff {e : Env} (he : e.Valid) {s : State n} (hs : Reachable e s)
    {t : Fin n} {call : Call} {r : Ret} (hr : Ev.resp t call r ∈ s.hist) :
    r = .panicked ↔ ∃ l, call.layout = some l ∧
      ((call.typed = false ∧ l.size = 0) ∨ (0 < l.size ∧ ∃ L, call.atLevel = some L ∧ e.len < L)) := by
  obtain ⟨hval, c, c', hc, hsp⟩ := (hs.inv2 he).S t call r (.inr (.inl hr))
  rcases specApply_cases hsp with ⟨rfl, h, _⟩ | ⟨l', hl', h⟩
  · simp [h, Call.layout]
  · rcases h with ⟨ht, hz, hcc, ⟨_, h⟩ | ⟨_, h⟩⟩ | ⟨ht, hz, _, h⟩ | ⟨h0, ⟨h, _, hL⟩ | ⟨a, h, _, hpl, hL⟩ | ⟨h, _, hL⟩ | ⟨L, h, _, hL, _, hL2, _⟩⟩
    · simp [h, success_ne_panicked, hl', ht, hz]
    · simp [h, failure_ne_panicked, hl', ht, hz]
    · simp [h, hl', ht, hz]
    · refine ⟨fun _ => ⟨l', hl', .inr ⟨h0, hL⟩⟩, fun _ => h⟩
    · refine ⟨fun hh => absurd (h.symm.trans hh) (success_ne_panicked _ _), ?_⟩
      rintro ⟨l, hl, h | ⟨_, L, h1, h2⟩⟩
      · rw [hl'] at hl; cases hl; omega
      · have := (hL L h1).2; have k : e.slab.len = e.len := rfl; omega
    · refine ⟨fun hh => absurd (h.symm.trans hh) (failure_ne_panicked _ _), ?_⟩
      rintro ⟨l, hl, h | ⟨_, L, h1, h2⟩⟩
      · rw [hl'] at hl; cases hl; omega
      · have k : e.slab.len = e.len := rfl
        rcases hL with ⟨hL, _⟩ | ⟨L', hL, h3, _⟩
        · rw [hL] at h1; cases h1
        · rw [hL] at h1; cases h1; omega
    · refine ⟨fun hh => absurd (h.symm.trans hh) (failure_ne_panicked _ _), ?_⟩
      rintro ⟨l, hl, h | ⟨_, L, h1, h2⟩⟩
      · rw [hl'] at hl; cases hl; omega
      · have k : e.slab.len = e.len := rfl
        rw [hL] at h1; cases h1; omega

/-- **C03/C12** No step of a call that ends without success (a panic, a failure, or `level()`) changes the level
or any memory. `s` is any reachable state in which the call has just been invoked or later; the
call is still running during `evs` and at the end about to return `r`. -/
theorem C03_C12_unsuccessful_no_effect {e : Env} (he : e.Valid) {s : State n} (hs : Reachable e s)
    {t : Fin n} {call : Call} {r : Ret} (hr : r.ptr? = none) {evs : List (Event n)}
    (hev : ∀ ev ∈ evs, Event.Valid e.target ev)
    (hin : ∀ pre post, evs = pre ++ post → (run e s pre).pc t ≠ .idle)
    (hend : (run e s evs).pc t = .ret call r)
    {pre post : List (Event n)} (hsplit : evs = pre ++ .step t :: post) :
    (step e (run e s pre) t).consumed = (run e s pre).consumed ∧
    (step e (run e s pre) t).mem = (run e s pre).mem :=
  no_success_no_effect he (hs.inv he) hr hev hin hend hsplit

/-- A reachable panic (zero-sized raw layout) and a reachable foreign level panic. -/
example :
    let s := run exEnv (init 1 0 fun _ => 0)
      [.invoke 0 (.alloc ⟨0, 1⟩), .step 0, .step 0, .invoke 0 (.getAt u64L 65), .step 0, .step 0]
    Ev.resp 0 (.alloc ⟨0, 1⟩) .panicked ∈ s.hist ∧ Ev.resp 0 (.getAt u64L 65) .panicked ∈ s.hist := by decide

/-! ## C04 -/

/-- **C04** The level never exceeds the slab, and neither does any level in a result. -/
theorem C04_level_bounded {e : Env} (he : e.Valid) {s : State n} (hs : Reachable e s) :
    s.consumed ≤ e.len ∧
    ∀ t call r a, Ev.resp t call r ∈ s.hist → disclosed r = some a → a ≤ e.len := by
  refine ⟨(hs.inv he).le, fun t call r a hr ha => ?_⟩
  obtain ⟨hval, c, c', hc, hsp⟩ := (hs.inv2 he).S t call r (.inr (.inl hr))
  have h1 := disclosed_bound hval (s := e.slab) hc hsp ha
  have h2 := (specApply_facts e.zst hval (s := e.slab) hc hsp).2.1
  exact Nat.le_trans h1.2 h2

/-- **C04** The level never decreases, in any schedule, until somebody resets with exclusive access. -/
theorem C04_level_monotone {e : Env} (he : e.Valid) {s : State n} (hs : Reachable e s)
    {evs : List (Event n)} (hev : ∀ ev ∈ evs, Event.Valid e.target ev)
    {new : Hist n} (hnew : (run e s evs).hist = new ++ s.hist) (hreset : Ev.reset ∉ new) :
    s.consumed ≤ (run e s evs).consumed :=
  (after_run' he (hs.inv he) hev hnew hreset).1

/-- **C04** Observations are monotone in real time, across threads: a level `a` disclosed by any call that
returned before some other call was started is at most the level `b` disclosed by that other call
(`t` is not inside of a call in the state `s`, so all its later responses belong to calls started later). -/
theorem C04_observations_monotone {e : Env} (he : e.Valid) {s : State n} (hs : Reachable e s)
    {u : Fin n} {call₁ : Call} {r₁ : Ret} {a : Nat}
    (h₁ : Ev.resp u call₁ r₁ ∈ sinceReset s.hist) (ha : disclosed r₁ = some a)
    {t : Fin n} (hidle : s.pc t = .idle)
    {evs : List (Event n)} (hev : ∀ ev ∈ evs, Event.Valid e.target ev)
    {new : Hist n} (hnew : (run e s evs).hist = new ++ s.hist) (hreset : Ev.reset ∉ new)
    {call₂ : Call} {r₂ : Ret} {b : Nat} (h₂ : Ev.resp t call₂ r₂ ∈ new) (hb : disclosed r₂ = some b) :
    a ≤ b := by
  have h1 := (hs.inv2 he).L u call₁ r₁ a (.inl h₁) ha
  obtain ⟨hval, c, c', hc, hcl, _, hsp⟩ := (after_run' he (hs.inv he) hev hnew hreset).2 t hidle call₂ r₂ h₂
  have := (disclosed_bound hval (s := e.slab) hcl hsp hb).1
  omega

example : disclosed (.allocation ⟨4104, 12⟩) = some 12 ∧
    Ev.resp 1 (.get u64L) (.allocation ⟨4104, 12⟩) ∈ sinceReset (run exEnv (init 2 0 fun _ => 0) exSched).hist ∧
    (run exEnv (init 2 0 fun _ => 0) exSched).pc 0 = .idle := by decide

/-! ## C05 -/

/-- **C05** If the outcome of an allocation at level `L` is decided as a success in a step, then exactly at this
step the level was `L`, the pointer is the first aligned address at or after `base+L`, the slab's level
becomes the end of the allocation, and this is the level returned. -/
theorem C05_at_success_exact {e : Env} (he : e.Valid) {s : State n} (hs : Reachable e s)
    {t : Fin n} {call : Call} {r : Ret} (hlin : (step e s t).hist = .lin t call r :: s.hist)
    {L : Nat} (hL : call.atLevel = some L) {l : Layout} (hl : call.layout = some l) (h0 : 0 < l.size)
    {p : Nat} (hp : r.ptr? = some p) :
    s.consumed = L ∧ IsFirstAligned l.align (e.base + L) p ∧ (step e s t).consumed = p + l.size - e.base ∧
    (∀ a, r = .allocation a → a.level = (step e s t).consumed) := by
  have hi := hs.inv he
  obtain ⟨_, hc, _, hsp⟩ := lin_of_trans (trans_step he hi t) hlin
  have hval := (hi.pcs t).1 call hc
  have ha := Call.Valid.align_pos hval hl
  rcases specApply_cases hsp with ⟨rfl, _, _⟩ | ⟨l', hl', h⟩
  · simp [Call.layout] at hl
  · rw [hl] at hl'; cases hl'
    rcases h with ⟨ht, hz, hcc, ⟨_, h⟩ | ⟨_, h⟩⟩ | ⟨_, _, _, h⟩ | ⟨_, ⟨h, _⟩ | ⟨a, h, hlev, hpl, hLL⟩ | ⟨h, _⟩ | ⟨L, h, _⟩⟩
    · omega
    · rw [h, failure_ptr] at hp; cases hp
    · rw [h] at hp; cases hp
    · rw [h] at hp; cases hp
    · rw [h, success_ptr] at hp; cases hp
      rw [Slab.place_eq_some] at hpl
      obtain ⟨k1, k2, k3⟩ := hpl
      have hcL := (hLL L hL).1
      refine ⟨hcL, ?_, by rw [hlev, k3]; rfl, ?_⟩
      · rw [k1, hcL]; exact alignUp_isFirstAligned ha _
      · intro b hb; rw [hlev]; rw [h] at hb; rw [success_allocation hb]
    · rw [h, failure_ptr] at hp; cases hp
    · rw [h, failure_ptr] at hp; cases hp

/-- **C05** If it is decided as a mismatch, the reported level is the true level at this step, differs from the
requested one, and nothing is changed. -/
theorem C05_at_mismatch_truthful {e : Env} (he : e.Valid) {s : State n} (hs : Reachable e s)
    {t : Fin n} {call : Call} {r : Ret} (hlin : (step e s t).hist = .lin t call r :: s.hist)
    {o : Nat} (hr : r.mismatch? = some o) :
    o = s.consumed ∧ call.atLevel ≠ some o ∧ (step e s t).consumed = s.consumed ∧ (step e s t).mem = s.mem := by
  have hi := hs.inv he
  obtain ⟨_, hc, hm, hsp⟩ := lin_of_trans (trans_step he hi t) hlin
  rcases specApply_cases hsp with ⟨_, h, _⟩ | ⟨l', hl', h⟩
  · rw [h] at hr; cases hr
  · have fm : ∀ f, r = call.failure f → f = .mismatch s.consumed → o = s.consumed := by
      intro f h1 h2
      subst h2; subst h1
      cases call <;> simp [Call.failure, Ret.mismatch?] at hr <;> exact hr.symm
    have fe : r ≠ call.failure .exhausted := by
      intro h; subst h
      cases call <;> simp [Call.failure, Ret.mismatch?] at hr
    rcases h with ⟨ht, hz, hcc, ⟨_, h⟩ | ⟨⟨L, hL1, hL2⟩, h⟩⟩ | ⟨_, _, _, h⟩ | ⟨_, ⟨h, _⟩ | ⟨a, h, hlev, hpl, hLL⟩ | ⟨h, _⟩ | ⟨L, h, h1, h2, h3, _⟩⟩
    · rw [h, success_mismatch] at hr; cases hr
    · have := fm _ h rfl
      subst this
      exact ⟨rfl, by rw [hL1]; intro hh; cases hh; exact hL2 rfl, hcc, hm⟩
    · rw [h] at hr; cases hr
    · rw [h] at hr; cases hr
    · rw [h, success_mismatch] at hr; cases hr
    · exact absurd h fe
    · have := fm _ h rfl
      subst this
      exact ⟨rfl, by rw [h2]; intro hh; cases hh; exact h3 rfl, h1, hm⟩

/-- **C05** In terms of responses: a successful response to a call `*_at` with level `L`, made after the state `s`, means that at some
instant between `s` and the response, in a step of this thread, the level was exactly `L`, and this step made it the end of the allocation,
which is at the first aligned address at or after `base+L`. -/
theorem C05_success_instant {e : Env} (he : e.Valid) {s : State n} (hs : Reachable e s)
    {t : Fin n} (hidle : s.pc t = .idle) {evs : List (Event n)} (hev : ∀ ev ∈ evs, Event.Valid e.target ev)
    {new : Hist n} (hnew : (run e s evs).hist = new ++ s.hist)
    {call : Call} {r : Ret} (hr : Ev.resp t call r ∈ new)
    {L : Nat} (hL : call.atLevel = some L) {l : Layout} (hl : call.layout = some l) (h0 : 0 < l.size)
    {p : Nat} (hp : r.ptr? = some p) :
    IsFirstAligned l.align (e.base + L) p ∧ (∀ a, r = .allocation a → a.level = p + l.size - e.base) ∧
    ∃ pre post, evs = pre ++ .step t :: post ∧ (run e s pre).consumed = L ∧
      (run e s (pre ++ [.step t])).consumed = p + l.size - e.base := by
  obtain ⟨pre, post, hsplit, hlin⟩ := resp_decided he (hs.inv he) hidle hev hnew hr
  have hs' : Reachable e (run e s pre) := hs.run fun ev h => hev ev (by rw [hsplit]; simp [h])
  obtain ⟨h1, h2, h3, h4⟩ := C05_at_success_exact he hs' hlin hL hl h0 hp
  exact ⟨h2, fun a ha => (h4 a ha).trans h3, pre, post, hsplit, h1, by rw [run_snoc]; exact h3⟩

/-- **C05** And a `Mismatch` reports the true level of some instant between, which was not `L`. -/
theorem C05_mismatch_instant {e : Env} (he : e.Valid) {s : State n} (hs : Reachable e s)
    {t : Fin n} (hidle : s.pc t = .idle) {evs : List (Event n)} (hev : ∀ ev ∈ evs, Event.Valid e.target ev)
    {new : Hist n} (hnew : (run e s evs).hist = new ++ s.hist)
    {call : Call} {r : Ret} (hr : Ev.resp t call r ∈ new) {o : Nat} (ho : r.mismatch? = some o) :
    call.atLevel ≠ some o ∧ ∃ pre post, evs = pre ++ .step t :: post ∧ (run e s pre).consumed = o ∧
      (run e s (pre ++ [.step t])).consumed = o ∧ (run e s (pre ++ [.step t])).mem = (run e s pre).mem := by
  obtain ⟨pre, post, hsplit, hlin⟩ := resp_decided he (hs.inv he) hidle hev hnew hr
  have hs' : Reachable e (run e s pre) := hs.run fun ev h => hev ev (by rw [hsplit]; simp [h])
  obtain ⟨h1, h2, h3, h4⟩ := C05_at_mismatch_truthful he hs' hlin ho
  exact ⟨h2, pre, post, hsplit, h1.symm, by rw [run_snoc, h1]; exact h3, by rw [run_snoc]; exact h4⟩

/-- A reachable success at a level and a reachable mismatch. -/
example :
    let s := run exEnv (init 1 3 fun _ => 0)
      [.invoke 0 (.leakAt u64L [1,2,3,4,5,6,7,8] 3), .step 0, .step 0, .step 0, .step 0, .invoke 0 (.getAt u8L 3), .step 0, .step 0, .step 0]
    Ev.resp 0 (.leakAt u64L [1,2,3,4,5,6,7,8] 3) (.allocation ⟨4104, 12⟩) ∈ s.hist ∧
    Ev.resp 0 (.getAt u8L 3) (.err (.mismatch 12)) ∈ s.hist := by decide

/-! ## C06 -/

/-- **C06** If a call started after the state `s` reports exhaustion, then the request does not fit behind the
level, now and at the moment of the response. For the methods taking a level, this is claimed for levels
up to the level of the slab at the start of the call, which (by C04) includes all levels obtained from the slab. -/
theorem C06_exhaustion_truthful {e : Env} (he : e.Valid) {s : State n} (hs : Reachable e s)
    {t : Fin n} (hidle : s.pc t = .idle) {evs : List (Event n)} (hev : ∀ ev ∈ evs, Event.Valid e.target ev)
    {new : Hist n} (hnew : (run e s evs).hist = new ++ s.hist) (hreset : Ev.reset ∉ new)
    {call : Call} {r : Ret} (hr : Ev.resp t call r ∈ new) (hex : r.IsExhausted)
    {l : Layout} (hl : call.layout = some l)
    (hL : ∀ L, call.atLevel = some L → L ≤ s.consumed) :
    ¬ e.slab.Fits l (run e s evs).consumed := by
  obtain ⟨hval, c, c', hc, hcl, hc', hsp⟩ := (after_run' he (hs.inv he) hev hnew hreset).2 t hidle call r hr
  have ha := Call.Valid.align_pos hval hl
  have hcc := (specApply_facts e.zst hval (s := e.slab) hcl hsp).1
  rw [← Slab.place_none_iff_not_fits ha]
  have fm : ∀ c, r ≠ call.failure (.mismatch c) ∨ call.atLevel = none := by
    intro c
    cases call <;> simp [Call.failure, Call.atLevel] <;> (rintro rfl; simp [Ret.IsExhausted] at hex)
  rcases specApply_cases hsp with ⟨rfl, h, _⟩ | ⟨l', hl', h⟩
  · simp [Call.layout] at hl
  · rw [hl] at hl'; cases hl'
    rcases h with ⟨ht, hz, hcc, ⟨_, h⟩ | ⟨⟨L, hL1, hL2⟩, h⟩⟩ | ⟨_, _, _, h⟩ | ⟨_, ⟨h, _⟩ | ⟨a, h, hlev, hpl, hLL⟩ | ⟨h, _, h1⟩ | ⟨L, h, h1, h2, h3, _⟩⟩
    · rw [h] at hex; exact absurd hex (success_not_exhausted _ _)
    · rcases fm c with h' | h'
      · exact absurd h h'
      · rw [h'] at hL1; cases hL1
    · rw [h] at hex; cases hex
    · rw [h] at hex; cases hex
    · rw [h] at hex; exact absurd hex (success_not_exhausted _ _)
    · rcases h1 with ⟨_, h1⟩ | ⟨L, h1, _, h2⟩
      · exact Slab.place_none_mono ha (by omega) h1
      · have := hL L h1
        exact Slab.place_none_mono ha (by omega) h2
    · rcases fm c with h' | h'
      · exact absurd h h'
      · rw [h'] at h2; cases h2

/-- **C06** Once a (non-empty) request does not fit, no call started later gets it, until a reset. -/
theorem C06_exhaustion_permanent {e : Env} (he : e.Valid) {s : State n} (hs : Reachable e s)
    {l : Layout} (h0 : 0 < l.size) (hfull : ¬ e.slab.Fits l s.consumed)
    {t : Fin n} (hidle : s.pc t = .idle) {evs : List (Event n)} (hev : ∀ ev ∈ evs, Event.Valid e.target ev)
    {new : Hist n} (hnew : (run e s evs).hist = new ++ s.hist) (hreset : Ev.reset ∉ new)
    {call : Call} {r : Ret} (hr : Ev.resp t call r ∈ new) (hl : call.layout = some l) :
    r.ptr? = none := by
  obtain ⟨hval, c, c', hc, hcl, hc', hsp⟩ := (after_run' he (hs.inv he) hev hnew hreset).2 t hidle call r hr
  have ha := Call.Valid.align_pos hval hl
  rw [← Slab.place_none_iff_not_fits ha] at hfull
  have hn := Slab.place_none_mono ha hc hfull
  rcases specApply_cases hsp with ⟨rfl, h, _⟩ | ⟨l', hl', h⟩
  · simp [Call.layout] at hl
  · rw [hl] at hl'; cases hl'
    rcases h with ⟨ht, hz, hcc, ⟨_, h⟩ | ⟨⟨L, hL1, hL2⟩, h⟩⟩ | ⟨_, _, _, h⟩ | ⟨_, ⟨h, _⟩ | ⟨a, h, hlev, hpl, hLL⟩ | ⟨h, _, h1⟩ | ⟨L, h, h1, h2, h3, _⟩⟩
    · omega
    · rw [h, failure_ptr]
    · rw [h]; rfl
    · rw [h]; rfl
    · rw [hn] at hpl; cases hpl
    · rw [h, failure_ptr]
    · rw [h, failure_ptr]

/-- A reachable out-of-memory answer: 64 bytes do not fit after one byte was taken. -/
example :
    let s := run exEnv (init 1 0 fun _ => 0)
      [.invoke 0 (.get u8L), .step 0, .step 0, .step 0, .invoke 0 (.alloc ⟨64, 1⟩), .step 0, .step 0, .step 0, .step 0]
    Ev.resp 0 (.alloc ⟨64, 1⟩) .none ∈ s.hist ∧ ¬ exEnv.slab.Fits ⟨64, 1⟩ s.consumed := by
  refine ⟨by decide, ?_⟩
  rintro ⟨p, h1, _, h3⟩
  have : (4100 + 1 ≤ p) := h1
  have : p + 64 ≤ 4100 + 64 := h3
  omega

/-! ## C07 -/

/-- **C07** A call running without interference for enough steps returns, with success if and only if the
request fits behind the current level, at the first aligned address there; and else reports exhaustion. -/
theorem C07_fits_succeeds {e : Env} (he : e.Valid) {s : State n} (hs : Reachable e s)
    {t : Fin n} (hidle : s.pc t = .idle) {call : Call} (hcall : call.Valid e.target)
    {l : Layout} (hl : call.layout = some l) (h0 : 0 < l.size) (hat : call.atLevel = none)
    {k : Nat} (hk : 2 * e.len + 6 ≤ k) :
    let s' := run e s (.invoke t call :: List.replicate k (.step t))
    s'.pc = s.pc ∧ ∃ r h, s'.hist = .resp t call r :: h ∧
      ((∃ p, r.ptr? = some p ∧ e.slab.Fits l s.consumed ∧ IsFirstAligned l.align (e.base + s.consumed) p ∧
          s'.consumed = p + l.size - e.base) ∨
       (r.IsExhausted ∧ ¬ e.slab.Fits l s.consumed ∧ s'.consumed = s.consumed)) := by
  obtain ⟨r, h, h1, hsp, h3⟩ := solo_complete he (hs.inv he) hidle hcall hk
  have ha := Call.Valid.align_pos hcall hl
  refine ⟨h3, r, h, h1, ?_⟩
  rcases specApply_cases hsp with ⟨rfl, h, _⟩ | ⟨l', hl', h⟩
  · simp [Call.layout] at hl
  · rw [hl] at hl'; cases hl'
    rcases h with ⟨ht, hz, _⟩ | ⟨_, hz, _⟩ | ⟨_, ⟨h, _, L, hL, _⟩ | ⟨a, h, hlev, hpl, hLL⟩ | ⟨h, hcc, h1⟩ | ⟨L, h, h1, h2, h3, _⟩⟩
    · omega
    · omega
    · rw [hat] at hL; cases hL
    · left
      have hpl' := hpl
      rw [Slab.place_eq_some] at hpl
      obtain ⟨k1, k2, k3⟩ := hpl
      refine ⟨a.ptr, by rw [h, success_ptr], ?_, ?_, by rw [hlev, k3]; rfl⟩
      · refine Classical.byContradiction fun hn => ?_
        rw [← Slab.place_none_iff_not_fits ha, hpl'] at hn
        cases hn
      · rw [k1]; exact alignUp_isFirstAligned ha _
    · right
      refine ⟨?_, ?_, hcc⟩
      · rw [h]; cases call <;> simp [Call.failure, Ret.IsExhausted, Call.atLevel, Call.layout] at hat hl ⊢
      · rw [← Slab.place_none_iff_not_fits ha]
        rcases h1 with ⟨_, h1⟩ | ⟨L, h1, _⟩
        · exact h1
        · rw [hat] at h1; cases h1
    · rw [hat] at h2; cases h2

/-! ## C12 -/

/-- **C12** The error of a failed `leak`/`leak_at` contains the value, and a mismatch in it reports a level. (That the
call changed nothing is `C03_C12_unsuccessful_no_effect`, that the failure kind is true are `C05_at_mismatch_truthful` and
`C06_exhaustion_truthful`.) -/
theorem C12_leak_error_returns_value {e : Env} (he : e.Valid) {s : State n} (hs : Reachable e s)
    {t : Fin n} {call : Call} {v : List Byte} {f : Failure} (hr : Ev.resp t call (.leakErr v f) ∈ s.hist) :
    call.value = some v ∧ (call.atLevel = none → f = .exhausted) := by
  obtain ⟨hval, c, c', hc, hsp⟩ := (hs.inv2 he).S t call _ (.inr (.inl hr))
  have key : ∀ f', Ret.leakErr v f = call.failure f' → call.value = some v ∧ f' = f := by
    intro f' h
    cases call <;> simp [Call.failure] at h <;> exact ⟨by rw [h.1]; rfl, h.2.symm⟩
  rcases specApply_cases hsp with ⟨rfl, h, _⟩ | ⟨l', hl', h⟩
  · cases h
  · rcases h with ⟨ht, hz, hcc, ⟨_, h⟩ | ⟨⟨L, hL1, hL2⟩, h⟩⟩ | ⟨_, _, _, h⟩ | ⟨_, ⟨h, _⟩ | ⟨a, h, hlev, hpl, hLL⟩ | ⟨h, _, h1⟩ | ⟨L, h, h1, h2, h3, _⟩⟩
    · cases call <;> simp [Call.success] at h
    · exact ⟨(key _ h).1, fun hn => by rw [hn] at hL1; cases hL1⟩
    · cases h
    · cases h
    · cases call <;> simp [Call.success] at h
    · exact ⟨(key _ h).1, fun _ => (key _ h).2.symm⟩
    · exact ⟨(key _ h).1, fun hn => by rw [hn] at h2; cases h2⟩

example :
    let s := run exEnv (init 1 60 fun _ => 0)
      [.invoke 0 (.leak u64L [1,2,3,4,5,6,7,8]), .step 0, .step 0, .step 0, .step 0]
    Ev.resp 0 (.leak u64L [1,2,3,4,5,6,7,8]) (.leakErr [1,2,3,4,5,6,7,8] .exhausted) ∈ s.hist := by decide

/-! ## C13 -/

/-- **C13** The step in which a call for a zero-sized type is decided: it never changes the level or memory;
without a level it succeeds; with a level it succeeds exactly if this is the current level, and else reports
the current level. -/
theorem C13_zst {e : Env} (he : e.Valid) {s : State n} (hs : Reachable e s)
    {t : Fin n} {call : Call} {r : Ret} (hlin : (step e s t).hist = .lin t call r :: s.hist)
    {l : Layout} (hl : call.layout = some l) (ht : call.typed = true) (hz : l.size = 0) :
    (step e s t).consumed = s.consumed ∧ (step e s t).mem = s.mem ∧
    (call.atLevel = none → ∃ p, r.ptr? = some p) ∧
    (∀ L, call.atLevel = some L →
      ((∃ p, r.ptr? = some p) ∧ L = s.consumed) ∨ (r.mismatch? = some s.consumed ∧ L ≠ s.consumed)) := by
  have hi := hs.inv he
  obtain ⟨_, hc, hm, hsp⟩ := lin_of_trans (trans_step he hi t) hlin
  rcases specApply_cases hsp with ⟨rfl, h, _⟩ | ⟨l', hl', h⟩
  · simp [Call.layout] at hl
  · rw [hl] at hl'; cases hl'
    rcases h with ⟨_, _, hcc, ⟨hL, h⟩ | ⟨⟨L, hL1, hL2⟩, h⟩⟩ | ⟨ht', _⟩ | ⟨h0, _⟩
    · refine ⟨hcc, hm, fun _ => ⟨_, by rw [h, success_ptr]⟩, fun L hL' => .inl ⟨⟨_, by rw [h, success_ptr]⟩, (hL L hL').symm⟩⟩
    · refine ⟨hcc, hm, fun hn => (by rw [hn] at hL1; cases hL1), fun L' hL' => .inr ⟨?_, ?_⟩⟩
      · rw [h]; cases call <;> simp [Call.failure, Ret.mismatch?, Call.atLevel, Call.typed] at hL1 ht ⊢
      · rw [hL1] at hL'; cases hL'; exact fun hh => hL2 hh.symm
    · rw [ht] at ht'; cases ht'
    · omega

/-- **C13** In terms of responses: a call for a zero-sized type never panics; it gets an aligned pointer, if it has no level; with a level
`L` it gets one only if the level was `L` at some instant between, otherwise the result reports the level at such an instant, which is not `L`. -/
theorem C13_zst_response {e : Env} (he : e.Valid) {s : State n} (hs : Reachable e s)
    {t : Fin n} (hidle : s.pc t = .idle) {evs : List (Event n)} (hev : ∀ ev ∈ evs, Event.Valid e.target ev)
    {new : Hist n} (hnew : (run e s evs).hist = new ++ s.hist)
    {call : Call} {r : Ret} (hr : Ev.resp t call r ∈ new)
    {l : Layout} (hl : call.layout = some l) (ht : call.typed = true) (hz : l.size = 0) :
    (call.atLevel = none → ∃ p, r.ptr? = some p ∧ p ≠ 0 ∧ l.align ∣ p) ∧
    (∀ L, call.atLevel = some L → ∃ pre post, evs = pre ++ .step t :: post ∧
      ((∃ p, r.ptr? = some p ∧ p ≠ 0 ∧ l.align ∣ p ∧ (run e s pre).consumed = L) ∨
        (∃ o, r.mismatch? = some o ∧ (run e s pre).consumed = o ∧ o ≠ L))) := by
  obtain ⟨pre, post, hsplit, hlin⟩ := resp_decided he (hs.inv he) hidle hev hnew hr
  have hs' : Reachable e (run e s pre) := hs.run fun ev h => hev ev (by rw [hsplit]; simp [h])
  have hmem : Ev.resp t call r ∈ (run e s evs).hist := by rw [hnew]; exact List.mem_append_left _ hr
  have hok : ∀ p, r.ptr? = some p → p ≠ 0 ∧ l.align ∣ p := fun p hp =>
    let h := C02_in_bounds_aligned he (hs.run hev) hmem hl hp
    ⟨h.1, h.2.1⟩
  obtain ⟨_, _, h3, h4⟩ := C13_zst he hs' hlin hl ht hz
  refine ⟨fun hn => ?_, fun L hL => ⟨pre, post, hsplit, ?_⟩⟩
  · obtain ⟨p, hp⟩ := h3 hn
    exact ⟨p, hp, hok p hp⟩
  · rcases h4 L hL with ⟨⟨p, hp⟩, h⟩ | ⟨h, hne⟩
    · exact .inl ⟨p, hp, (hok p hp).1, (hok p hp).2, h.symm⟩
    · exact .inr ⟨_, h, rfl, fun hh => hne hh.symm⟩

/-- On a full slab a ZST is still allocated; a mismatched foreign level does not panic. -/
example :
    let s := run exEnv (init 1 64 fun _ => 0)
      [.invoke 0 (.leak ⟨0, 16⟩ []), .step 0, .step 0, .step 0, .invoke 0 (.getAt ⟨0, 16⟩ 1000), .step 0, .step 0]
    Ev.resp 0 (.leak ⟨0, 16⟩ []) (.ptr 16) ∈ s.hist ∧
    Ev.resp 0 (.getAt ⟨0, 16⟩ 1000) (.err (.mismatch 64)) ∈ s.hist := by decide

end Verif
