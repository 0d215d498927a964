import Verif.Proofs.BumpProgress
/-! Isolation of memory. -/
namespace Verif.Bump
open Verif
variable {n : Nat}

theorem pairwise_disjoint_mem {l : List Region} (h : l.Pairwise Region.Disjoint) {a b : Region}
    (ha : a ∈ l) (hb : b ∈ l) (hne : a ≠ b) : a.Disjoint b := by
  induction l with
  | nil => cases ha
  | cons x l ih =>
    rw [List.pairwise_cons] at h
    rcases List.mem_cons.mp ha with ha | ha
    · rcases List.mem_cons.mp hb with hb | hb
      · exact absurd (ha.trans hb.symm) hne
      · rw [ha]; exact h.1 b hb
    · rcases List.mem_cons.mp hb with hb | hb
      · rw [hb]; exact (h.1 a ha).symm
      · exact ih h.2 ha hb

theorem handedOut_cons_mem {h : Hist n} {ev : Ev n} {r : Region} (hr : r ∈ handedOut h) (hne : ev ≠ .reset) :
    r ∈ handedOut (ev :: h) := by
  cases ev <;> simp_all [handedOut]

/-- The bytes which a thread is about to store lie in its pending region. -/
theorem write_within {e : Env} {s : State n} (hi : Inv e s) {t : Fin n} {call : Call} {a : Alloc}
    (hp : s.pc t = .write call a) {x : Nat} (hx : a.ptr ≤ x ∧ x < a.ptr + (storedValue call).length) :
    ∃ q, (s.pc t).pending = some q ∧ q.Has x := by
  have hok := hi.pcs t
  rw [hp] at hok
  have hv := hok.1 call rfl
  have hval : call.value = some (storedValue call) := hok.2
  cases hl : call.layout with
  | none => cases call <;> simp [Call.layout, Call.value] at hl hval
  | some l =>
    have hlen := hv.2 l _ hl hval
    have h0 : l.size ≠ 0 := by omega
    refine ⟨⟨a.ptr, l.size⟩, ?_, by unfold Region.Has; simp only; omega⟩
    rw [hp]
    cases call <;> simp [Call.layout, Call.value] at hl hval <;>
      simp [Pc.pending, Pc.call, Pc.decided, afterWrite, grant, Call.layout, hl, h0]

/-- Bytes of a region handed out change only by its owner. -/
def Isolated (s0 : State n) (r : Region) (e : Env) (s : State n) : Prop :=
  Inv2 e s ∧ ∃ new, s.hist = new ++ s0.hist ∧ (Ev.reset ∉ new → Ev.userWrite r ∉ new →
    r ∈ handedOut s.hist ∧ ∀ x, r.Has x → s.mem x = s0.mem x)

theorem isolated_trans {e : Env} {s0 s s' : State n} {r : Region} (hi : Inv e s) (h : Isolated s0 r e s)
    (ht : Trans e s s') : Isolated s0 r e s' := by
  obtain ⟨h2, new, hnew, h⟩ := h
  refine ⟨inv2_trans hi h2 ht, ?_⟩
  cases ht with
  | stutter hs => subst hs; exact ⟨new, hnew, h⟩
  | invoke t call hp hv hs =>
    subst hs
    refine ⟨_ :: new, by rw [hnew]; rfl, fun h3 h4 => ?_⟩
    obtain ⟨k1, k2⟩ := h (by simp_all) (by simp_all)
    exact ⟨handedOut_cons_mem k1 (by simp), k2⟩
  | prepare t call l retry g at' new' hp hs =>
    subst hs; exact ⟨new, hnew, h⟩
  | retry t call l x at' new' hp hx hlt hs =>
    subst hs
    refine ⟨_ :: new, by rw [hnew]; rfl, fun h3 h4 => ?_⟩
    obtain ⟨k1, k2⟩ := h (by simp_all) (by simp_all)
    exact ⟨handedOut_cons_mem k1 (by simp), k2⟩
  | decide t call p r' c' hn hc hr hpc hsp hw hs =>
    subst hs
    refine ⟨_ :: new, by rw [hnew]; rfl, fun h3 h4 => ?_⟩
    obtain ⟨k1, k2⟩ := h (by simp_all) (by simp_all)
    exact ⟨handedOut_cons_mem k1 (by simp), k2⟩
  | write t call a hp hs =>
    subst hs
    refine ⟨new, hnew, fun h3 h4 => ?_⟩
    obtain ⟨k1, k2⟩ := h h3 h4
    refine ⟨k1, fun x hx => ?_⟩
    rw [← k2 x hx]
    apply writeBytes_of_not_mem
    intro hin
    obtain ⟨q, hq, hqx⟩ := write_within hi hp hin
    exact (h2.C t q hq).2 r k1 x ⟨hqx, hx⟩
  | resp t call r' hp hs =>
    subst hs
    refine ⟨_ :: new, by rw [hnew]; rfl, fun h3 h4 => ?_⟩
    obtain ⟨k1, k2⟩ := h (by simp_all) (by simp_all)
    exact ⟨handedOut_cons_mem k1 (by simp), k2⟩
  | userWrite r' off bs hr ho hs =>
    subst hs
    refine ⟨_ :: new, by rw [hnew]; rfl, fun h3 h4 => ?_⟩
    obtain ⟨k1, k2⟩ := h (by simp_all) (by simp_all)
    refine ⟨handedOut_cons_mem k1 (by simp), fun x hx => ?_⟩
    rw [← k2 x hx]
    apply writeBytes_of_not_mem
    intro hin
    have hne : r' ≠ r := by rintro rfl; simp at h4
    have := pairwise_disjoint_mem h2.B hr k1 hne x
    apply this
    refine ⟨?_, hx⟩
    unfold Region.Has; omega
  | reset hidle hs =>
    subst hs
    exact ⟨_ :: new, by rw [hnew]; rfl, fun h3 => by simp at h3⟩

theorem isolated_run {e : Env} (he : e.Valid) {s : State n} (hs : Reachable e s) {r : Region}
    (hr : r ∈ handedOut s.hist) {evs : List (Event n)} (hev : ∀ ev ∈ evs, Event.Valid e.target ev) :
    Isolated s r e (run e s evs) :=
  (run_induction he (P := Isolated s r e) (hs.inv he) ⟨hs.inv2 he, [], rfl, fun _ _ => ⟨hr, fun _ _ => rfl⟩⟩
    (fun _ _ hi _ h ht => isolated_trans hi h ht) evs hev).1

/-- A value that was stored by a call about to return is in memory. -/
def Stored (e : Env) (s : State n) : Prop :=
  Inv2 e s ∧ ∀ t call r v p, s.pc t = .ret call r → call.value = some v → r.ptr? = some p →
    readBytes s.mem p v.length = v

theorem stored_trans {e : Env} {s s' : State n} (hi : Inv e s) (h : Stored e s)
    (ht : Trans e s s') : Stored e s' := by
  obtain ⟨h2, h⟩ := h
  have h2' := inv2_trans hi h2 ht
  refine ⟨h2', ?_⟩
  -- the region of a thread about to return with a value
  have hpend : ∀ t call r v p, s.pc t = .ret call r → call.value = some v → r.ptr? = some p →
      v = [] ∨ (s.pc t).pending = some ⟨p, v.length⟩ := by
    intro t call r v p hp hv hr
    have hok := hi.pcs t
    rw [hp] at hok
    have hval := hok.1 call rfl
    cases hl : call.layout with
    | none => cases call <;> simp [Call.layout, Call.value] at hl hv
    | some l =>
      have hlen := hval.2 l v hl hv
      by_cases h0 : l.size = 0
      · left; rw [h0] at hlen; exact List.eq_nil_of_length_eq_zero hlen
      · right
        rw [hp, hlen]
        cases r <;> simp [Ret.ptr?] at hr <;> simp [Pc.pending, Pc.call, Pc.decided, grant, hl, h0, hr]
  -- other program points and unchanged memory
  have same : ∀ (s'' : State n) (t : Fin n) (p : Pc), s''.pc = setPc s.pc t p → s''.mem = s.mem →
      (∀ call r v q, p = .ret call r → call.value = some v → r.ptr? = some q → readBytes s.mem q v.length = v) →
      ∀ u call r v q, s''.pc u = .ret call r → call.value = some v → r.ptr? = some q →
      readBytes s''.mem q v.length = v := by
    intro s'' t p h1 h2 h3 u call r v q hp hv hr
    rw [h2]
    by_cases hu : u = t
    · subst hu; rw [h1, setPc_self] at hp; exact h3 call r v q hp hv hr
    · rw [h1, setPc_ne _ _ hu] at hp; exact h u call r v q hp hv hr
  cases ht with
  | stutter hs => subst hs; exact h
  | invoke t call hp hv hs =>
    subst hs
    refine same _ t (enter call) rfl rfl ?_
    intro c r v q hc
    have := decided_enter call
    rw [hc] at this; cases this
  | prepare t call l retry g at' new' hp hs =>
    subst hs
    exact same _ t _ rfl rfl (fun c r v q hc => by cases hc)
  | retry t call l x at' new' hp hx hlt hs =>
    subst hs
    exact same _ t _ rfl rfl (fun c r v q hc => by cases hc)
  | decide t call p r c' hn hc hr hpc hsp hw hs =>
    subst hs
    refine same _ t p rfl rfl ?_
    intro c q v x hp hv hx
    subst hp
    rw [hw.2 _ _ _ rfl hv] at hx
    cases hx
  | write t call a hp hs =>
    subst hs
    intro u c r v q hp' hv hr
    by_cases hu : u = t
    · subst hu
      simp only [setPc_self] at hp'
      cases hp'
      have hok := hi.pcs u
      rw [hp] at hok
      have hsv : call.value = some (storedValue call) := hok.2
      rw [hv] at hsv
      cases hsv
      have : q = a.ptr := by
        cases call <;> simp [afterWrite, Ret.ptr?] at hr <;> exact hr.symm
      subst this
      exact readBytes_writeBytes_self _ _ _
    · simp only [setPc_ne _ _ hu] at hp'
      have hold := h u c r v q hp' hv hr
      show readBytes (writeBytes s.mem a.ptr (storedValue call)) q v.length = v
      rw [show readBytes (writeBytes s.mem a.ptr (storedValue call)) q v.length = readBytes s.mem q v.length from ?_]
      · exact hold
      apply readBytes_congr
      intro x hx1 hx2
      apply writeBytes_of_not_mem
      intro hin
      obtain ⟨w, hw, hwx⟩ := write_within hi hp hin
      rcases hpend u c r v q hp' hv hr with rfl | hq
      · simp at hx2; omega
      · exact h2.D u t _ _ hu hq hw x ⟨⟨hx1, hx2⟩, hwx⟩
  | resp t call r hp hs =>
    subst hs
    exact same _ t _ rfl rfl (fun c r v q hc => by cases hc)
  | userWrite r' off bs hr ho hs =>
    subst hs
    intro u c r v q hp' hv hrr
    have hold := h u c r v q hp' hv hrr
    show readBytes (writeBytes s.mem (r'.start + off) bs) q v.length = v
    rw [show readBytes (writeBytes s.mem (r'.start + off) bs) q v.length = readBytes s.mem q v.length from ?_]
    · exact hold
    apply readBytes_congr
    intro x hx1 hx2
    apply writeBytes_of_not_mem
    intro hin
    rcases hpend u c r v q hp' hv hrr with rfl | hq
    · simp at hx2; omega
    · refine (h2.C u _ hq).2 r' hr x ⟨⟨hx1, hx2⟩, ?_⟩
      unfold Region.Has; omega
  | reset hidle hs =>
    subst hs
    intro u c r v q hp'
    rw [show ({ s with consumed := 0, hist := Ev.reset :: s.hist } : State n).pc u = s.pc u from rfl, hidle u] at hp'
    cases hp'

theorem Reachable.stored {e : Env} (he : e.Valid) {s : State n} (hs : Reachable e s) : Stored e s :=
  reachable_induction he (P := Stored e)
    (fun c m hc => ⟨inv2_init c m, fun t call r v p h => by cases h⟩)
    (fun _ _ hi _ h ht => stored_trans hi h ht) s hs

end Verif.Bump
