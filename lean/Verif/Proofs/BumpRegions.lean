import Verif.Proofs.BumpInv
/-! Region and history invariants of the machine. -/
namespace Verif.Bump
open Verif

variable {n : Nat}

/-- The region a thread is about to return. -/
def Pc.pending (p : Pc) : Option Region :=
  match p.call, p.decided with
  | some c, some r => grant c r
  | _, _ => none

/-- A result that the specification allows. -/
def SpecRet (e : Env) (call : Call) (r : Ret) : Prop :=
  call.Valid e.target ∧ ∃ c c', c ≤ e.len ∧ specApply e.zst e.slab c call = (r, c')

structure Inv2 (e : Env) (s : State n) : Prop where
  A : ∀ r ∈ handedOut s.hist, e.base ≤ r.start ∧ r.start + r.size ≤ e.base + s.consumed ∧ 0 < r.size
  B : (handedOut s.hist).Pairwise Region.Disjoint
  C : ∀ t r, (s.pc t).pending = some r →
      (e.base ≤ r.start ∧ r.start + r.size ≤ e.base + s.consumed ∧ 0 < r.size) ∧
      ∀ q ∈ handedOut s.hist, Region.Disjoint r q
  D : ∀ t u r q, t ≠ u → (s.pc t).pending = some r → (s.pc u).pending = some q → Region.Disjoint r q
  S : ∀ t call r, (Ev.lin t call r ∈ s.hist ∨ Ev.resp t call r ∈ s.hist ∨
      ((s.pc t).call = some call ∧ (s.pc t).decided = some r)) → SpecRet e call r
  L : ∀ t call r a, (Ev.resp t call r ∈ sinceReset s.hist ∨
      ((s.pc t).call = some call ∧ (s.pc t).decided = some r)) → disclosed r = some a → a ≤ s.consumed

theorem pending_of_undecided {p : Pc} (h : p.decided = none) : p.pending = none := by
  unfold Pc.pending; rw [h]; split <;> simp_all

theorem pending_of_decided {p : Pc} {c : Call} {r : Ret} (hc : p.call = some c) (h : p.decided = some r) :
    p.pending = grant c r := by
  unfold Pc.pending; rw [h, hc]

theorem decided_enter (call : Call) : (enter call).decided = none := by
  cases call <;> simp only [enter] <;> (try split) <;> rfl

theorem call_enter (call : Call) : (enter call).call = some call := by
  cases call <;> simp only [enter] <;> (try split) <;> rfl

theorem disclosed_bound {t : Target} {zst : ZstAddr} {s : Slab} {c : Nat} {call : Call} (hv : call.Valid t)
    (hc : c ≤ s.len) {r : Ret} {c' : Nat} (h : specApply zst s c call = (r, c')) {a : Nat}
    (ha : disclosed r = some a) : c ≤ a ∧ a ≤ c' := by
  have hf := specApply_facts zst hv hc h
  unfold specApply at h
  split at h
  · cases h; simp [disclosed] at ha; omega
  · rename_i l hl
    split at h
    · split at h
      · cases h
        cases call <;> simp [Call.success, disclosed] at ha <;> omega
      · split at h <;> cases h <;> cases call <;> simp [Call.success, Call.failure, disclosed] at ha <;> omega
    · split at h
      · cases h; simp [disclosed] at ha
      · cases h
        cases call <;> simp [Call.success, disclosed] at ha <;> omega
      · rename_i f hp
        cases h
        have : ∀ o, f = .mismatch o → o = c := by
          intro o ho
          subst ho
          unfold specPlace at hp
          split at hp
          · cases hp
          · split at hp
            · split at hp <;> cases hp
            · split at hp
              · cases hp
              · split at hp
                · cases hp
                · split at hp <;> cases hp
                  rfl
        have key : ∀ o, f = .mismatch o → o = a → c ≤ a ∧ a ≤ c := by
          intro o h1 h2; have := this o h1; omega
        cases f with
        | exhausted => cases call <;> simp [Call.failure, disclosed] at ha
        | mismatch o =>
          cases call <;> simp [Call.failure, disclosed] at ha <;> exact key o rfl ha

theorem inv2_init {e : Env} (c : Nat) (m : Mem) : Inv2 e (init n c m) where
  A := by simp [init, handedOut]
  B := by simp [init, handedOut]
  C := by simp [init, Pc.pending, Pc.call]
  D := by simp [init, Pc.pending, Pc.call]
  S := by simp [init, Pc.call]
  L := by simp [init, Pc.call, sinceReset]

/-- Replacing a thread's program point by one with the same pending region (and no new decided result). -/
theorem inv2_samePending {e : Env} {s s' : State n} (h : Inv2 e s) (t : Fin n) (p : Pc)
    (hpc : s'.pc = setPc s.pc t p) (hcon : s'.consumed = s.consumed)
    (hho : handedOut s'.hist = handedOut s.hist)
    (hlin : ∀ t call r, Ev.lin t call r ∈ s'.hist → Ev.lin t call r ∈ s.hist)
    (hresp : ∀ t call r, Ev.resp t call r ∈ s'.hist → Ev.resp t call r ∈ s.hist)
    (hresp' : ∀ t call r, Ev.resp t call r ∈ sinceReset s'.hist → Ev.resp t call r ∈ sinceReset s.hist)
    (hpend : ∀ r, p.pending = some r → (s.pc t).pending = some r)
    (hdec : ∀ call r, p.call = some call → p.decided = some r →
      (s.pc t).call = some call ∧ (s.pc t).decided = some r) : Inv2 e s' := by
  have hpend' : ∀ u r, (s'.pc u).pending = some r → (s.pc u).pending = some r := by
    intro u r hr
    by_cases hu : u = t
    · subst hu; rw [hpc, setPc_self] at hr; exact hpend r hr
    · rwa [hpc, setPc_ne _ _ hu] at hr
  have hdec' : ∀ u call r, (s'.pc u).call = some call → (s'.pc u).decided = some r →
      (s.pc u).call = some call ∧ (s.pc u).decided = some r := by
    intro u call r h1 h2
    by_cases hu : u = t
    · subst hu; rw [hpc, setPc_self] at h1 h2; exact hdec call r h1 h2
    · rw [hpc, setPc_ne _ _ hu] at h1 h2; exact ⟨h1, h2⟩
  refine ⟨?_, ?_, ?_, ?_, ?_, ?_⟩
  · rw [hho, hcon]; exact h.A
  · rw [hho]; exact h.B
  · intro u r hr; rw [hho, hcon]; exact h.C u r (hpend' u r hr)
  · intro u v r q huv h1 h2; exact h.D u v r q huv (hpend' u r h1) (hpend' v q h2)
  · intro u call r hor
    apply h.S u call r
    rcases hor with h1 | h1 | ⟨h1, h2⟩
    · exact .inl (hlin _ _ _ h1)
    · exact .inr (.inl (hresp _ _ _ h1))
    · exact .inr (.inr (hdec' u call r h1 h2))
  · intro u call r a hor ha
    rw [hcon]
    apply h.L u call r a _ ha
    rcases hor with h1 | ⟨h1, h2⟩
    · exact .inl (hresp' _ _ _ h1)
    · exact .inr (hdec' u call r h1 h2)

theorem inv2_trans {e : Env} {s s' : State n} (hi : Inv e s) (h : Inv2 e s) (ht : Trans e s s') :
    Inv2 e s' := by
  cases ht with
  | stutter hs => rw [hs]; exact h
  | invoke t call hp hv hs =>
    subst hs
    refine inv2_samePending h t (enter call) rfl rfl rfl ?_ ?_ ?_ ?_ ?_
    · simp
    · simp
    · simp [sinceReset]
    · intro r hr; rw [pending_of_undecided (decided_enter call)] at hr; cases hr
    · intro c r _ hr; rw [decided_enter] at hr; cases hr
  | prepare t call l retry g at' new hp hs =>
    subst hs
    refine inv2_samePending h t _ rfl rfl rfl ?_ ?_ ?_ ?_ ?_
    · simp
    · simp
    · simp
    · intro r hr; simp [Pc.pending, Pc.decided] at hr
    · intro c r _ hr; simp [Pc.decided] at hr
  | retry t call l x at' new hp hx hlt hs =>
    subst hs
    refine inv2_samePending h t _ rfl rfl rfl ?_ ?_ ?_ ?_ ?_
    · simp
    · simp
    · simp [sinceReset]
    · intro r hr; simp [Pc.pending, Pc.decided] at hr
    · intro c r _ hr; simp [Pc.decided] at hr
  | write t call a hp hs =>
    subst hs
    refine inv2_samePending h t _ rfl rfl rfl ?_ ?_ ?_ ?_ ?_
    · simp
    · simp
    · simp
    · intro r hr; rw [hp]; simpa [Pc.pending, Pc.decided, Pc.call] using hr
    · intro c r hc hr; rw [hp]; simpa [Pc.decided, Pc.call] using And.intro hc hr
  | userWrite r off bs hr ho hs =>
    subst hs
    exact ⟨h.A, h.B, h.C, h.D, fun t call r hor => h.S t call r (by simpa using hor),
      fun t call r a hor ha => h.L t call r a (by simpa [sinceReset] using hor) ha⟩
  | reset hidle hs =>
    subst hs
    have hp : ∀ t, (s.pc t).pending = none := fun t => by rw [hidle t]; rfl
    refine ⟨?_, ?_, ?_, ?_, ?_, ?_⟩
    · simp [handedOut]
    · simp [handedOut]
    · intro t r hr; rw [show ({ s with consumed := 0, hist := Ev.reset :: s.hist } : State n).pc t = s.pc t from rfl, hp t] at hr; cases hr
    · intro t u r q _ hr; rw [show ({ s with consumed := 0, hist := Ev.reset :: s.hist } : State n).pc t = s.pc t from rfl, hp t] at hr; cases hr
    · intro t call r hor; exact h.S t call r (by simpa using hor)
    · intro t call r a hor ha
      rcases hor with h1 | ⟨h1, h2⟩
      · simp [sinceReset] at h1
      · rw [show ({ s with consumed := 0, hist := Ev.reset :: s.hist } : State n).pc t = s.pc t from rfl, hidle t] at h1
        simp [Pc.call] at h1
  | decide t call p r c' hn hc hr hpc hsp hw hs =>
    subst hs
    have hval := (hi.pcs t).1 call hc
    obtain ⟨f1, f2, f3, f4⟩ := specApply_facts e.zst hval (s := e.slab) hi.le hsp
    have hpend : p.pending = grant call r := pending_of_decided hpc hr
    have hnew : ∀ reg, p.pending = some reg → e.base + s.consumed ≤ reg.start ∧
        reg.start + reg.size ≤ e.base + c' ∧ 0 < reg.size := by
      intro reg hreg
      rw [hpend] at hreg
      obtain ⟨l, hl, hl0, k1, k2, k3⟩ := f4 reg hreg
      have k4 := le_alignUp (Call.Valid.align_pos hval hl) (e.slab.base + s.consumed)
      have k5 : reg.start + reg.size = e.base + c' := k3
      have k6 : e.base + s.consumed ≤ alignUp l.align (e.slab.base + s.consumed) := k4
      exact ⟨by omega, by omega, by omega⟩
    refine ⟨?_, h.B, ?_, ?_, ?_, ?_⟩
    · intro q hq
      have := h.A q hq
      exact ⟨this.1, by show q.start + q.size ≤ e.base + c'; omega, this.2.2⟩
    · intro u q hq
      by_cases hu : u = t
      · subst hu
        simp only [setPc_self] at hq
        have k := hnew q hq
        refine ⟨⟨by omega, k.2.1, k.2.2⟩, fun o ho => ?_⟩
        have := h.A o ho
        exact (Region.disjoint_of_le (by omega)).symm
      · simp only [setPc_ne _ _ hu] at hq
        have := h.C u q hq
        exact ⟨⟨this.1.1, by show q.start + q.size ≤ e.base + c'; omega, this.1.2.2⟩, this.2⟩
    · intro u v q o huv hq ho
      simp only at hq ho
      by_cases hu : u = t
      · subst hu
        have hv' : v ≠ u := fun h => huv h.symm
        rw [setPc_self] at hq
        rw [setPc_ne _ _ hv'] at ho
        have k := hnew q hq
        have := h.C v o ho
        exact (Region.disjoint_of_le (by omega)).symm
      · rw [setPc_ne _ _ hu] at hq
        by_cases hv' : v = t
        · subst hv'
          rw [setPc_self] at ho
          have k := hnew o ho
          have := h.C u q hq
          exact Region.disjoint_of_le (by omega)
        · rw [setPc_ne _ _ hv'] at ho
          exact h.D u v q o huv hq ho
    · intro u call' r' hor
      have hspec : SpecRet e call r := ⟨hval, s.consumed, c', hi.le, hsp⟩
      rcases hor with h1 | h1 | ⟨h1, h2⟩
      · simp only [List.mem_cons, Ev.lin.injEq] at h1
        rcases h1 with ⟨rfl, rfl, rfl⟩ | h1
        · exact hspec
        · exact h.S u call' r' (.inl h1)
      · simp only [List.mem_cons, reduceCtorEq, false_or] at h1
        exact h.S u call' r' (.inr (.inl h1))
      · by_cases hu : u = t
        · subst hu
          simp only [setPc_self] at h1 h2
          rw [hpc] at h1; rw [hr] at h2; cases h1; cases h2; exact hspec
        · simp only [setPc_ne _ _ hu] at h1 h2
          exact h.S u call' r' (.inr (.inr ⟨h1, h2⟩))
    · intro u call' r' a hor ha
      show a ≤ c'
      have hold : ∀ u call' r', ((Ev.resp u call' r' ∈ sinceReset s.hist) ∨
          ((s.pc u).call = some call' ∧ (s.pc u).decided = some r')) → disclosed r' = some a → a ≤ c' := by
        intro u c r hor ha
        have := h.L u c r a hor ha
        omega
      rcases hor with h1 | ⟨h1, h2⟩
      · simp only [sinceReset, List.mem_cons, reduceCtorEq, false_or] at h1
        exact hold u call' r' (.inl h1) ha
      · by_cases hu : u = t
        · subst hu
          simp only [setPc_self] at h1 h2
          rw [hpc] at h1; rw [hr] at h2; cases h1; cases h2
          exact (disclosed_bound hval (s := e.slab) hi.le hsp ha).2
        · simp only [setPc_ne _ _ hu] at h1 h2
          exact hold u call' r' (.inr ⟨h1, h2⟩) ha
  | resp t call r hp hs =>
    subst hs
    have hpt : (s.pc t).pending = grant call r := by rw [hp]; rfl
    have hidle : (Pc.idle).pending = none := rfl
    refine ⟨?_, ?_, ?_, ?_, ?_, ?_⟩
    · intro q hq
      simp only [handedOut, List.mem_append, Option.mem_toList] at hq
      rcases hq with hq | hq
      · exact (h.C t q (by rw [hpt]; exact hq)).1
      · exact h.A q hq
    · simp only [handedOut]
      rw [List.pairwise_append]
      refine ⟨?_, h.B, ?_⟩
      · cases grant call r <;> simp
      · intro a ha b hb
        rw [Option.mem_toList] at ha
        exact (h.C t a (by rw [hpt]; exact ha)).2 b hb
    · intro u q hq
      by_cases hu : u = t
      · subst hu; simp only [setPc_self, hidle] at hq; cases hq
      · simp only [setPc_ne _ _ hu] at hq
        refine ⟨(h.C u q hq).1, fun o ho => ?_⟩
        simp only [handedOut, List.mem_append, Option.mem_toList] at ho
        rcases ho with ho | ho
        · exact h.D u t q o hu hq (by rw [hpt]; exact ho)
        · exact (h.C u q hq).2 o ho
    · intro u v q o huv hq ho
      simp only at hq ho
      by_cases hu : u = t
      · subst hu; rw [setPc_self, hidle] at hq; cases hq
      · rw [setPc_ne _ _ hu] at hq
        by_cases hv' : v = t
        · subst hv'; rw [setPc_self, hidle] at ho; cases ho
        · rw [setPc_ne _ _ hv'] at ho
          exact h.D u v q o huv hq ho
    · intro u call' r' hor
      rcases hor with h1 | h1 | ⟨h1, h2⟩
      · simp only [List.mem_cons, reduceCtorEq, false_or] at h1
        exact h.S u call' r' (.inl h1)
      · simp only [List.mem_cons, Ev.resp.injEq] at h1
        rcases h1 with ⟨rfl, rfl, rfl⟩ | h1
        · exact h.S u call' r' (.inr (.inr (by rw [hp]; exact ⟨rfl, rfl⟩)))
        · exact h.S u call' r' (.inr (.inl h1))
      · by_cases hu : u = t
        · subst hu; simp [setPc_self, Pc.call] at h1
        · simp only [setPc_ne _ _ hu] at h1 h2
          exact h.S u call' r' (.inr (.inr ⟨h1, h2⟩))
    · intro u call' r' a hor ha
      show a ≤ s.consumed
      rcases hor with h1 | ⟨h1, h2⟩
      · simp only [sinceReset, List.mem_cons, Ev.resp.injEq] at h1
        rcases h1 with ⟨rfl, rfl, rfl⟩ | h1
        · exact h.L u call' r' a (.inr (by rw [hp]; exact ⟨rfl, rfl⟩)) ha
        · exact h.L u call' r' a (.inl h1) ha
      · by_cases hu : u = t
        · subst hu; simp [setPc_self, Pc.call] at h1
        · simp only [setPc_ne _ _ hu] at h1 h2
          exact h.L u call' r' a (.inr ⟨h1, h2⟩) ha

theorem Reachable.inv2 {e : Env} (hv : e.Valid) {s : State n} (h : Reachable e s) : Inv2 e s :=
  reachable_induction hv (fun c m _ => inv2_init c m) (fun _ _ hi _ h2 ht => inv2_trans hi h2 ht) s h

/-! Relative statements: what happens after a given state. -/

/-- Decided at some level between the two. -/
def DecidedBetween (e : Env) (lo hi : Nat) (call : Call) (r : Ret) : Prop :=
  call.Valid e.target ∧ ∃ c c', lo ≤ c ∧ c ≤ e.len ∧ c' ≤ hi ∧ specApply e.zst e.slab c call = (r, c')

theorem DecidedBetween.mono {e : Env} {lo hi hi' : Nat} {call : Call} {r : Ret} (h : DecidedBetween e lo hi call r)
    (hh : hi ≤ hi') : DecidedBetween e lo hi' call r := by
  obtain ⟨h0, c, c', h1, h2, h3, h4⟩ := h
  exact ⟨h0, c, c', h1, h2, by omega, h4⟩

/-- What is known after running from `s0` without reset. -/
def After (e : Env) (s0 s : State n) : Prop :=
  ∃ new, s.hist = new ++ s0.hist ∧ (Ev.reset ∉ new → s0.consumed ≤ s.consumed ∧
    ∀ t, s0.pc t = .idle → (∀ call r, Ev.resp t call r ∈ new → DecidedBetween e s0.consumed s.consumed call r) ∧
      (∀ call r, (s.pc t).call = some call → (s.pc t).decided = some r →
        DecidedBetween e s0.consumed s.consumed call r))

theorem after_trans {e : Env} {s0 s s' : State n} (hi : Inv e s) (h : After e s0 s) (ht : Trans e s s') :
    After e s0 s' := by
  obtain ⟨new, hnew, h⟩ := h
  have pcsame : ∀ (t : Fin n) (p : Pc) (u : Fin n) (call : Call) (r : Ret),
      (p.call = some call → p.decided = some r → DecidedBetween e s0.consumed s.consumed call r) →
      ((s.pc u).call = some call → (s.pc u).decided = some r → DecidedBetween e s0.consumed s.consumed call r) →
      (setPc s.pc t p u).call = some call → (setPc s.pc t p u).decided = some r →
      DecidedBetween e s0.consumed s.consumed call r := by
    intro t p u call r h1 h2 h3 h4
    by_cases hu : u = t
    · subst hu; rw [setPc_self] at h3 h4; exact h1 h3 h4
    · rw [setPc_ne _ _ hu] at h3 h4; exact h2 h3 h4
  cases ht with
  | stutter hs => rw [hs]; exact ⟨new, hnew, h⟩
  | invoke t call hp hv hs =>
    subst hs
    refine ⟨.inv t call :: new, by simp [hnew], fun hr => ?_⟩
    obtain ⟨h1, h2⟩ := h (by simpa using hr)
    refine ⟨h1, fun u hu => ⟨fun c r hm => (h2 u hu).1 c r (by simpa using hm), fun c r => ?_⟩⟩
    exact pcsame t _ u c r (fun _ hd => by rw [decided_enter] at hd; cases hd) ((h2 u hu).2 c r)
  | prepare t call l retry g at' new' hp hs =>
    subst hs
    refine ⟨new, hnew, fun hr => ?_⟩
    obtain ⟨h1, h2⟩ := h hr
    refine ⟨h1, fun u hu => ⟨(h2 u hu).1, fun c r => ?_⟩⟩
    exact pcsame t _ u c r (fun _ hd => by cases hd) ((h2 u hu).2 c r)
  | retry t call l x at' new' hp hx hlt hs =>
    subst hs
    refine ⟨.retry t :: new, by simp [hnew], fun hr => ?_⟩
    obtain ⟨h1, h2⟩ := h (by simpa using hr)
    refine ⟨h1, fun u hu => ⟨fun c r hm => (h2 u hu).1 c r (by simpa using hm), fun c r => ?_⟩⟩
    exact pcsame t _ u c r (fun _ hd => by cases hd) ((h2 u hu).2 c r)
  | decide t call p r c' hn hc hr hpc hsp hw hs =>
    subst hs
    have hval := (hi.pcs t).1 call hc
    obtain ⟨f1, f2, f3, f4⟩ := specApply_facts e.zst hval (s := e.slab) hi.le hsp
    refine ⟨.lin t call r :: new, by simp [hnew], fun hr' => ?_⟩
    obtain ⟨h1, h2⟩ := h (by simpa using hr')
    refine ⟨by show s0.consumed ≤ c'; omega, fun u hu => ⟨fun c q hm => ?_, fun c q h3 h4 => ?_⟩⟩
    · exact ((h2 u hu).1 c q (by simpa using hm)).mono f1
    · by_cases hut : u = t
      · subst hut
        simp only [setPc_self] at h3 h4
        rw [hpc] at h3; rw [hr] at h4; cases h3; cases h4
        exact ⟨hval, s.consumed, c', h1, hi.le, Nat.le_refl _, hsp⟩
      · simp only [setPc_ne _ _ hut] at h3 h4
        exact ((h2 u hu).2 c q h3 h4).mono f1
  | write t call a hp hs =>
    subst hs
    refine ⟨new, hnew, fun hr => ?_⟩
    obtain ⟨h1, h2⟩ := h hr
    refine ⟨h1, fun u hu => ⟨(h2 u hu).1, fun c r h3 h4 => ?_⟩⟩
    by_cases hut : u = t
    · subst hut
      simp only [setPc_self] at h3 h4
      exact (h2 u hu).2 c r (by rw [hp]; exact h3) (by rw [hp]; exact h4)
    · simp only [setPc_ne _ _ hut] at h3 h4
      exact (h2 u hu).2 c r h3 h4
  | resp t call r hp hs =>
    subst hs
    refine ⟨.resp t call r :: new, by simp [hnew], fun hr => ?_⟩
    obtain ⟨h1, h2⟩ := h (by simpa using hr)
    refine ⟨h1, fun u hu => ⟨fun c q hm => ?_, fun c q => ?_⟩⟩
    · simp only [List.mem_cons, Ev.resp.injEq] at hm
      rcases hm with ⟨rfl, rfl, rfl⟩ | hm
      · exact (h2 u hu).2 c q (by rw [hp]; rfl) (by rw [hp]; rfl)
      · exact (h2 u hu).1 c q hm
    · exact pcsame t _ u c q (fun _ hd => by cases hd) ((h2 u hu).2 c q)
  | userWrite r off bs hr ho hs =>
    subst hs
    refine ⟨.userWrite r :: new, by simp [hnew], fun hr => ?_⟩
    obtain ⟨h1, h2⟩ := h (by simpa using hr)
    exact ⟨h1, fun u hu => ⟨fun c q hm => (h2 u hu).1 c q (by simpa using hm), (h2 u hu).2⟩⟩
  | reset hidle hs =>
    subst hs
    exact ⟨.reset :: new, by simp [hnew], fun hr => by simp at hr⟩

theorem after_run {e : Env} (hv : e.Valid) {s : State n} (hi : Inv e s) {evs : List (Event n)}
    (hev : ∀ ev ∈ evs, Event.Valid e.target ev) : After e s (run e s evs) := by
  refine (run_induction hv (P := After e s) hi ?_ (fun _ _ hi _ h ht => after_trans hi h ht) evs hev).1
  refine ⟨[], rfl, fun _ => ⟨Nat.le_refl _, fun t ht => ⟨by simp, fun c r hc => ?_⟩⟩⟩
  rw [ht] at hc; simp [Pc.call] at hc

/-- Same with the history difference given. -/
theorem after_run' {e : Env} (hv : e.Valid) {s : State n} (hi : Inv e s) {evs : List (Event n)}
    (hev : ∀ ev ∈ evs, Event.Valid e.target ev) {new : Hist n} (hn : (run e s evs).hist = new ++ s.hist)
    (hr : Ev.reset ∉ new) : s.consumed ≤ (run e s evs).consumed ∧
    ∀ t, s.pc t = .idle → (∀ call r, Ev.resp t call r ∈ new → DecidedBetween e s.consumed (run e s evs).consumed call r) := by
  obtain ⟨new', h1, h2⟩ := after_run hv hi hev
  have : new' = new := List.append_cancel_right (h1.symm.trans hn)
  subst this
  exact ⟨(h2 hr).1, fun t ht => ((h2 hr).2 t ht).1⟩

end Verif.Bump
