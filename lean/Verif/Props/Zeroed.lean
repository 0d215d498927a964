import Verif.Proofs.BumpInstant
import Verif.Proofs.BumpIsolation
import Verif.Props.BumpSafety
import Verif.Props.Unsync
/-! # C79: fresh memory has the contents of the storage; a zeroed `Bump` hands out zeroed memory -/
namespace Verif
variable {n : Nat}

namespace Bump

/-- Every byte that differs from `m` lies in memory that was returned to a caller, or in which a call has stored its value. -/
def ChangedOwned (e : Env) (m : Mem) (s : State n) : Prop :=
  Inv2 e s ∧ (Ev.reset ∉ s.hist → ∀ x, s.mem x ≠ m x → (∃ r ∈ handedOut s.hist, r.Has x) ∨
    ∃ (t : Fin n) (call : Call) (r : Ret) (q : Region), s.pc t = .ret call r ∧ call.value ≠ none ∧ grant call r = some q ∧ q.Has x)

theorem ChangedOwned.mono {m : Mem} {s s' : State n} {x : Nat} (hne : s'.mem x ≠ m x)
    (h : ∀ x, s.mem x ≠ m x → (∃ r ∈ handedOut s.hist, r.Has x) ∨
      ∃ (t : Fin n) (call : Call) (r : Ret) (q : Region), s.pc t = .ret call r ∧ call.value ≠ none ∧ grant call r = some q ∧ q.Has x)
    (hm : s'.mem = s.mem) (hh : ∀ r ∈ handedOut s.hist, r ∈ handedOut s'.hist)
    (hp : ∀ t call r q, s.pc t = .ret call r → grant call r = some q → s'.pc t = .ret call r ∨ q ∈ handedOut s'.hist) :
    (∃ r ∈ handedOut s'.hist, r.Has x) ∨
      ∃ (t : Fin n) (call : Call) (r : Ret) (q : Region), s'.pc t = .ret call r ∧ call.value ≠ none ∧ grant call r = some q ∧ q.Has x := by
  rw [hm] at hne
  rcases h x hne with ⟨r, h1, h2⟩ | ⟨t, call, r, q, h1, h2, h3, h4⟩
  · exact .inl ⟨r, hh r h1, h2⟩
  · rcases hp t call r q h1 h3 with h5 | h5
    · exact .inr ⟨t, call, r, q, h5, h2, h3, h4⟩
    · exact .inl ⟨q, h5, h4⟩

theorem changedOwned_trans {e : Env} {m : Mem} {s s' : State n} (hi : Inv e s) (h : ChangedOwned e m s) (ht : Trans e s s') : ChangedOwned e m s' := by
  obtain ⟨h2, h⟩ := h
  refine ⟨inv2_trans hi h2 ht, fun hres x hne => ?_⟩
  have other : ∀ {t : Fin n} {p : Pc}, (∀ call r, s.pc t ≠ .ret call r) → ∀ u call r, s.pc u = .ret call r → setPc s.pc t p u = .ret call r := by
    intro t p hp u call r hu
    have : u ≠ t := by rintro rfl; exact hp _ _ hu
    rw [setPc_ne _ _ this]; exact hu
  cases ht with
  | stutter hs => subst hs; exact h hres x hne
  | invoke t call hp hv hs =>
    subst hs
    exact ChangedOwned.mono hne (h (by simp_all)) rfl (fun r hr => handedOut_cons_mem hr (by simp)) (fun u c r q hu _ => .inl (other (by simp [hp]) u c r hu))
  | prepare t call l retry g at' new' hp hs =>
    subst hs
    exact ChangedOwned.mono hne (h hres) rfl (fun r hr => hr) (fun u c r q hu _ => .inl (other (by simp [hp]) u c r hu))
  | retry t call l x' at' new' hp hx hlt hs =>
    subst hs
    exact ChangedOwned.mono hne (h (by simp_all)) rfl (fun r hr => handedOut_cons_mem hr (by simp)) (fun u c r q hu _ => .inl (other (by simp [hp]) u c r hu))
  | decide t call p r' c' hn hc hr hpc hsp hw hs =>
    subst hs
    refine ChangedOwned.mono hne (h (by simp_all)) rfl (fun r hr => handedOut_cons_mem hr (by simp)) (fun u c r q hu _ => .inl (other (fun c r hcr => ?_) u c r hu))
    rw [hcr] at hn; cases hn
  | write t call a hp hs =>
    subst hs
    by_cases hin : a.ptr ≤ x ∧ x < a.ptr + (storedValue call).length
    · obtain ⟨q, hq, hqx⟩ := write_within hi hp hin
      refine .inr ⟨t, call, afterWrite call a, q, setPc_self _ _ _, ?_, ?_, hqx⟩
      · have := (hi.pcs t); rw [hp] at this
        have : call.value = some (storedValue call) := this.2
        simp [this]
      · rw [hp] at hq; exact hq
    · have hmem : writeBytes s.mem a.ptr (storedValue call) x = s.mem x := writeBytes_of_not_mem hin
      have hne' : s.mem x ≠ m x := by rw [← hmem]; exact hne
      rcases h hres x hne' with h3 | ⟨u, c, r, q, h3, h4⟩
      · exact .inl h3
      · exact .inr ⟨u, c, r, q, other (by simp [hp]) u c r h3, h4⟩
  | resp t call r hp hs =>
    subst hs
    refine ChangedOwned.mono hne (h (by simp_all)) rfl (fun r hr => handedOut_cons_mem hr (by simp)) (fun u c r' q hu hq => ?_)
    by_cases hut : u = t
    · subst hut
      rw [hp] at hu; cases hu
      exact .inr (by simp [handedOut, hq])
    · exact .inl (by rw [← hu]; exact setPc_ne _ _ hut)
  | userWrite r' off bs hr ho hs =>
    subst hs
    by_cases hin : r'.start + off ≤ x ∧ x < r'.start + off + bs.length
    · exact .inl ⟨r', handedOut_cons_mem hr (by simp), by unfold Region.Has; omega⟩
    · have hmem : writeBytes s.mem (r'.start + off) bs x = s.mem x := writeBytes_of_not_mem hin
      have hne' : s.mem x ≠ m x := by rw [← hmem]; exact hne
      rcases h (by simp_all) x hne' with ⟨r, h3, h4⟩ | h3
      · exact .inl ⟨r, handedOut_cons_mem h3 (by simp), h4⟩
      · exact .inr h3
  | reset hidle hs => subst hs; simp at hres

theorem changedOwned_run {e : Env} (he : e.Valid) {c : Nat} (hc : c ≤ e.len) (m : Mem) {evs : List (Event n)} (hev : ∀ ev ∈ evs, Event.Valid e.target ev) :
    ChangedOwned e m (run e (init n c m) evs) := by
  have h0 : Inv2 e (init n c m) := Reachable.inv2 he ⟨c, m, [], hc, by simp, rfl⟩
  exact (run_induction he (P := ChangedOwned e m) (inv_init m hc) ⟨h0, fun _ x hx => absurd rfl hx⟩
    (fun _ _ hi _ h ht => changedOwned_trans hi h ht) evs hev).1

end Bump

open Bump in
/-- **C79** Without a reset, the memory returned by a call that does not itself store a value (all but the `leak` methods) contains at this moment the bytes that the storage contained at the start, whatever all threads did in between. -/
theorem C79_fresh_memory_untouched {e : Env} (he : e.Valid) {c : Nat} (hc : c ≤ e.len) {m : Mem} {evs : List (Event n)} (hev : ∀ ev ∈ evs, Event.Valid e.target ev)
    (hres : Ev.reset ∉ (run e (init n c m) evs).hist) {t : Fin n} {call : Call} {r : Ret} (hv : call.value = none)
    (hresp : (exec e (run e (init n c m) evs) (.step t)).hist = .resp t call r :: (run e (init n c m) evs).hist) {q : Region} (hq : grant call r = some q) :
    ∀ x, q.Has x → (exec e (run e (init n c m) evs) (.step t)).mem x = m x := by
  have hco := changedOwned_run he hc m hev
  have hi := (Reachable.inv he ⟨c, m, evs, hc, hev, rfl⟩ : Inv e (run e (init n c m) evs))
  generalize run e (init n c m) evs = s at *
  obtain ⟨h2, h⟩ := hco
  have key : s.pc t = .ret call r ∧ (exec e s (.step t)).mem = s.mem := by
    have htr := trans_step he hi t
    simp only [exec] at hresp ⊢
    cases hp : s.pc t with
    | ret call' r' =>
      simp only [step, hp] at hresp ⊢
      simp only [List.cons.injEq, Ev.resp.injEq, and_true, true_and] at hresp
      obtain ⟨rfl, rfl⟩ := hresp
      exact ⟨rfl, trivial⟩
    | idle => simp [step, hp] at hresp
    | attempt c' l b g => 
      simp only [step, hp] at hresp
      split at hresp <;> simp [State.decide] at hresp
    | cas c' l b x a' nw =>
      simp only [step, hp] at hresp
      split at hresp
      · split at hresp <;> simp [State.decide] at hresp
      · split at hresp <;> simp [State.decide] at hresp
    | load c' => simp [step, hp, State.decide] at hresp
    | write c' a => simp [step, hp] at hresp
  intro x hx
  rw [key.2]
  refine Classical.byContradiction fun hne => ?_
  have hpend : (s.pc t).pending = some q := by rw [key.1]; exact hq
  rcases h hres x hne with ⟨r', h3, h4⟩ | ⟨u, c', r', q', h3, h4, h5, h6⟩
  · exact (h2.C t q hpend).2 r' h3 x ⟨hx, h4⟩
  · by_cases hut : u = t
    · subst hut; rw [key.1] at h3; cases h3; exact h4 hv
    · exact h2.D t u q q' (fun h => hut h.symm) hpend (by rw [h3]; exact h5) x ⟨hx, h6⟩

open Bump in
/-- **C79** In particular, all memory handed out by a `Bump::zeroed()` before a reset is zero. -/
theorem C79_zeroed {e : Env} (he : e.Valid) {m : Mem} (hm : ∀ x, Region.Has ⟨e.base, e.len⟩ x → m x = 0) {evs : List (Event n)} (hev : ∀ ev ∈ evs, Event.Valid e.target ev)
    (hres : Ev.reset ∉ (run e (init n 0 m) evs).hist) {t : Fin n} {call : Call} {r : Ret} (hv : call.value = none)
    (hresp : (exec e (run e (init n 0 m) evs) (.step t)).hist = .resp t call r :: (run e (init n 0 m) evs).hist) {q : Region} (hq : grant call r = some q) :
    readBytes (exec e (run e (init n 0 m) evs) (.step t)).mem q.start q.size = List.replicate q.size 0 := by
  have h := C79_fresh_memory_untouched he (Nat.zero_le _) hev hres hv hresp hq
  have hwit : q ∈ handedOut (exec e (run e (init n 0 m) evs) (.step t)).hist := by rw [hresp]; simp [handedOut, hq]
  have hreach : Reachable e (exec e (run e (init n 0 m) evs) (.step t)) :=
    ⟨0, m, evs ++ [.step t], Nat.zero_le _, fun ev hh => (List.mem_append.mp hh).elim (hev ev) (fun h => by simp at h; subst h; trivial), by rw [run_append]; rfl⟩
  obtain ⟨a1, a2, a3⟩ := (hreach.inv2 he).A q hwit
  have hle := (hreach.inv he).le
  unfold readBytes
  rw [List.eq_replicate_iff]
  refine ⟨by simp, fun b hb => ?_⟩
  simp only [List.mem_map, List.mem_range] at hb
  obtain ⟨i, hi, rfl⟩ := hb
  rw [h _ (by unfold Region.Has; omega)]
  exact hm _ (by unfold Region.Has; simp only; omega)

/-- In the schedule of the example, the second thread gets eight zero bytes although the first one has stored a value. -/
example : readBytes (Bump.exec exEnv (Bump.run exEnv (Bump.init 2 0 fun _ => 0) (exSched.take 10)) (.step 1)).mem 4104 8 = List.replicate 8 0 := by
  refine C79_zeroed (call := .get u64L) (r := .allocation ⟨4104, 12⟩) (q := ⟨4104, 8⟩) exEnv_valid (fun _ _ => rfl) (fun ev h => exSched_valid ev (List.mem_of_mem_take h)) ?_ rfl ?_ rfl
  · decide
  · decide

/-! ## The unsync `Bump` -/
open Unsync

/-- `s'` is reached from `s` by operations that are not `reset`. -/
inductive NoReset (t : Target) (b : MemBump) (s : UState) : UState → Prop
  | refl : NoReset t b s s
  | step {s' s'' : UState} {op : UOp} {r : Ret} (h : NoReset t b s s') (ha : op.Allowed t s') (hne : op ≠ .reset) (hx : uexec t b s' op = some (r, s'')) : NoReset t b s s''

theorem NoReset.reach {t : Target} {b : MemBump} {s s' : UState} (hs : UReach t b s) (h : NoReset t b s s') : UReach t b s' := by
  induction h with
  | refl => exact hs
  | step _ ha _ hx ih => exact .step ih ha hx

/-- Data behind the level is unchanged. -/
theorem NoReset.behind {t : Target} {b : MemBump} (hv : b.Valid t) {s s' : UState} (hs : UReach t b s) (h : NoReset t b s s') :
    ∀ x, b.addr + t.wordBytes + b.level t s'.mem ≤ x → x < b.addr + t.wordBytes + b.cap → s'.mem x = s.mem x := by
  induction h with
  | refl => intro x _ _; rfl
  | step h ha hne hx ih =>
    rename_i s1 s2 op r
    intro x h1 h2
    have hr := h.reach hs
    have hi := hr.inv hv
    obtain ⟨r', s3, k1, k2, k3, k4⟩ := uexec_spec hv hi ha
    rw [hx] at k1; cases k1
    obtain ⟨_, _, m1, m2, _⟩ := C21_level_monotone hv hr ha
    rw [hx] at m1; cases m1
    have hle := m2 hne
    rw [← ih x (by omega) h2]
    cases op with
    | call c => exact (k3 c rfl).2.1 x (by omega)
    | reset => exact absurd rfl hne
    | write g off bytes =>
      cases hx
      obtain ⟨hg, hb⟩ := ha
      have hw := hi.within g hg
      have := k4 g off bytes rfl
      apply writeBytes_of_not_mem
      omega

/-- **C79** Without a reset, the memory returned by a call of an unsync bump contains the bytes which it contained at any earlier moment before it was handed out. -/
theorem C79_unsync_fresh_memory_untouched {t : Target} {b : MemBump} (hv : b.Valid t) {s0 s : UState} (h0 : UReach t b s0) (h : NoReset t b s0 s) {c : UCall} (hc : c.Valid t) {r : Ret} {s' : UState}
    (hx : uexec t b s (.call c) = some (r, s')) {l : Layout} {p : Nat} (hl : c.layout = some l) (hp : r.ptr? = some p) :
    ∀ x, Region.Has ⟨p, l.size⟩ x → s'.mem x = s0.mem x := by
  have hi := (h.reach h0).inv hv
  obtain ⟨r', s'', k1, k2, k3, _⟩ := uexec_spec hv hi (op := .call c) hc
  rw [hx] at k1; cases k1
  obtain ⟨e1, e2, _⟩ := k3 c rfl
  obtain ⟨f1, f2, f3⟩ := uSpecApply_facts (b := b) (t := t) hc hi.le
  rw [← e1] at f1 f2 f3
  obtain ⟨g1, g2, _⟩ := f3 l p hl hp
  intro x hx1
  have a1 : p ≤ x := hx1.1
  have a2 : x < p + l.size := hx1.2
  simp only at g2 f2
  rw [e2 x (by omega)]
  exact h.behind hv h0 x (by omega) (by omega)

/-- **C79** An unsync bump that was created with zeroed memory hands out zeroed memory (until a reset). -/
theorem C79_unsync_zeroed {t : Target} {b : MemBump} (hv : b.Valid t) {m : Mem} (hlev : b.level t m = 0) (hm : ∀ x, Region.Has (MemBumpData t b) x → m x = 0) {s : UState} (h : NoReset t b ⟨m, []⟩ s) {c : UCall} (hc : c.Valid t)
    {r : Ret} {s' : UState} (hx : uexec t b s (.call c) = some (r, s')) {l : Layout} {p : Nat} (hl : c.layout = some l) (hp : r.ptr? = some p) :
    readBytes s'.mem p l.size = List.replicate l.size 0 := by
  have h0 : UReach t b ⟨m, []⟩ := .init (by omega)
  have hu := C79_unsync_fresh_memory_untouched hv h0 h hc hx hl hp
  have hreach : UReach t b s' := .step (h.reach h0) (op := .call c) hc hx
  have hw := (C21_disjoint_in_bounds_aligned hv hreach).2.1 ⟨p, l⟩ (by rw [C21_results_are_granted hx hl hp]; simp)
  obtain ⟨w1, w2⟩ := hw.1
  unfold readBytes
  rw [List.eq_replicate_iff]
  refine ⟨by simp, fun y hy => ?_⟩
  simp only [List.mem_map, List.mem_range] at hy
  obtain ⟨i, hi, rfl⟩ := hy
  rw [hu _ (by unfold Region.Has; simp only; omega)]
  refine hm _ ?_
  simp only [Block.region] at w1 w2
  unfold Region.Has
  omega

/-- A run: one byte allocated, 7 stored to it, then another allocation. -/
def zeroedRun (ops : List UOp) : Option UState :=
  ops.foldl (fun s op => s.bind fun s => (uexec .w64 ⟨4096, 16⟩ s op).map (·.2)) (some ⟨fun _ => 0, []⟩)

/-- The hypotheses are met by a state where one block is in use and not zero. -/
example : ∃ s, NoReset .w64 ⟨4096, 16⟩ ⟨fun _ => 0, []⟩ s ∧ s.mem 4104 = 7 ∧ ∃ s', uexec .w64 ⟨4096, 16⟩ s (.call (.alloc ⟨4, 4⟩)) = some (.ptr 4108, s') :=
  ⟨_, .step (op := .write ⟨4104, ⟨1, 1⟩⟩ 0 [7]) (.step (op := .call (.alloc ⟨1, 1⟩)) .refl ⟨⟨0, rfl⟩, by decide⟩ (by simp) rfl) ⟨by decide, by decide⟩ (by simp) rfl, rfl, _, rfl⟩

/-- **C79** After a `reset` this is no longer so, although the documentation of `Bump::zeroed` says "all allocations": the old bytes show up in new allocations. -/
theorem C79_not_after_reset : ∃ s s', zeroedRun [.call (.alloc ⟨1, 1⟩), .write ⟨4104, ⟨1, 1⟩⟩ 0 [7], .reset] = some s ∧
    UReach .w64 ⟨4096, 16⟩ s ∧ uexec .w64 ⟨4096, 16⟩ s (.call (.alloc ⟨1, 1⟩)) = some (.ptr 4104, s') ∧ readBytes s'.mem 4104 1 = [7] :=
  ⟨_, _, rfl,
    .step (op := .reset) (.step (op := .write ⟨4104, ⟨1, 1⟩⟩ 0 [7]) (.step (op := .call (.alloc ⟨1, 1⟩)) (.init (m := fun _ => 0) (by decide)) ⟨⟨0, rfl⟩, by decide⟩ rfl) ⟨by decide, by decide⟩ rfl) trivial rfl,
    rfl, rfl⟩

end Verif
