import Verif.Proofs.BumpPre
/-! Invariant of the machine and its abstraction to atomic calls of the specification. -/
namespace Verif.Bump
open Verif

variable {n : Nat}

/-- The call a thread executes. -/
def Pc.call : Pc → Option Call
  | .idle => none
  | .attempt c _ _ _ | .cas c _ _ _ _ _ | .load c | .write c _ | .ret c _ => some c

/-- The allocation arguments match the call. -/
def AttemptOk (e : Env) (c : Nat) (call : Call) (l : Layout) (retry : Bool) (g : Nat) : Prop :=
  call.layout = some l ∧ ¬ (call.typed = true ∧ l.size = 0) ∧
  (retry = true → call.atLevel = none ∧ g ≤ c ∧ g ≤ e.len) ∧ (retry = false → call.atLevel = some g)

/-- What is known about a thread at each program point. -/
def PcBody (e : Env) (c : Nat) (p : Pc) : Prop :=
  match p with
  | .idle => True
  | .attempt call l retry g => AttemptOk e c call l retry g
  | .cas call l retry x at' new => AttemptOk e c call l retry x ∧ tryAllocAtPre e l x = .ret (some (at', new))
  | .load call => call = .level ∨ (call.typed = true ∧ ∃ l, call.layout = some l ∧ l.size = 0)
  | .write call _ => call.value = some (storedValue call)
  | .ret _ _ => True

def PcOk (e : Env) (c : Nat) (p : Pc) : Prop :=
  (∀ call, p.call = some call → call.Valid e.target) ∧ PcBody e c p

structure Inv (e : Env) (s : State n) : Prop where
  le : s.consumed ≤ e.len
  pcs : ∀ t, PcOk e s.consumed (s.pc t)

theorem Call.Valid.align_pos {t : Target} {call : Call} (h : call.Valid t) {l : Layout}
    (hl : call.layout = some l) : 0 < l.align := by
  have := h.1 l hl
  split at this
  · exact this.1.1.pos
  · exact this.1.pos

theorem Call.Valid.pow2 {t : Target} {call : Call} (h : call.Valid t) {l : Layout}
    (hl : call.layout = some l) : IsPow2 l.align := by
  have := h.1 l hl
  split at this
  · exact this.1.1
  · exact this.1

theorem PcOk.mono {e : Env} {c d : Nat} {p : Pc} (h : PcOk e c p) (hcd : c ≤ d) : PcOk e d p := by
  refine ⟨h.1, ?_⟩
  have h2 := h.2
  cases p <;> simp only [PcBody, AttemptOk] at * <;> try assumption
  · exact ⟨h2.1, h2.2.1, fun hr => ⟨(h2.2.2.1 hr).1, by have := (h2.2.2.1 hr).2; omega⟩, h2.2.2.2⟩
  · exact ⟨⟨h2.1.1, h2.1.2.1, fun hr => ⟨(h2.1.2.2.1 hr).1, by have := (h2.1.2.2.1 hr).2; omega⟩, h2.1.2.2.2⟩, h2.2⟩

/-- Facts about one atomic call in the specification. -/
theorem specApply_facts {t : Target} (zst : ZstAddr) {s : Slab} {c : Nat} {call : Call} (hv : call.Valid t)
    (hc : c ≤ s.len) {r : Ret} {c' : Nat} (h : specApply zst s c call = (r, c')) :
    c ≤ c' ∧ c' ≤ s.len ∧ (grant call r = none → c' = c) ∧
    (∀ reg, grant call r = some reg → ∃ l, call.layout = some l ∧ 0 < l.size ∧ reg.size = l.size ∧
      reg.start = alignUp l.align (s.base + c) ∧ reg.start + reg.size = s.base + c') := by
  unfold specApply at h
  split at h
  · rename_i hl
    cases h
    exact ⟨Nat.le_refl _, hc, fun _ => rfl, fun reg hg => by simp [grant, hl] at hg⟩
  · rename_i l hl
    have ha := Call.Valid.align_pos hv hl
    split at h
    · rename_i hz
      have hg0 : ∀ r, grant call r = none := by intro r; simp [grant, hl, hz.2]
      have : c' = c := by
        split at h
        · cases h; rfl
        · split at h <;> cases h <;> rfl
      subst this
      exact ⟨Nat.le_refl _, hc, fun _ => rfl, fun reg hg => by rw [hg0] at hg; cases hg⟩
    · rename_i hz
      split at h
      · cases h
        exact ⟨Nat.le_refl _, hc, fun _ => rfl, fun reg hg => by
          simp [grant, hl] at hg⟩
      · rename_i a hp
        have key : s.place l c = some a ∧ 0 < l.size := by
          unfold specPlace at hp
          split at hp
          · cases hp
          · refine ⟨?_, by omega⟩
            split at hp
            · split at hp
              · rename_i a' ha'
                cases hp; exact ha'
              · cases hp
            · split at hp
              · cases hp
              · split at hp
                · cases hp
                · split at hp
                  · rename_i a' ha' hcn; rw [hcn]; cases hp; exact ha'
                  · cases hp
        obtain ⟨hpl, hs⟩ := key
        rw [Slab.place_eq_some] at hpl
        have := le_alignUp ha (s.base + c)
        cases h
        have hs0 : l.size ≠ 0 := by omega
        refine ⟨by omega, by omega, ?_, ?_⟩
        · intro hg
          cases call <;> simp [Call.success, grant, Call.layout] at hg hl <;> simp_all
        · intro reg hg
          refine ⟨l, hl, hs, ?_⟩
          have : reg = ⟨a.ptr, l.size⟩ := by
            cases call <;> simp [Call.success, grant, Call.layout] at hg hl <;> simp_all
          subst this
          obtain ⟨k1, k2, k3⟩ := hpl
          refine ⟨rfl, k1, ?_⟩
          show a.ptr + l.size = s.base + a.level
          omega
      · cases h
        refine ⟨Nat.le_refl _, hc, fun _ => rfl, fun reg hg => ?_⟩
        simp only [grant, hl] at hg
        split at hg
        · cases hg
        · cases call <;> simp [Call.failure] at hg

/-- Calls which carry a value store it before they return a pointer. -/
def DecOk (p : Pc) : Prop :=
  (∀ call a, p = .write call a → call.value = some (storedValue call)) ∧
  (∀ call r v, p = .ret call r → call.value = some v → r.ptr? = none)

theorem decOk_ret {call : Call} {r : Ret} (h : r.ptr? = none) : DecOk (.ret call r) :=
  ⟨fun _ _ h1 => by simp at h1, fun _ _ _ h' _ => by cases h'; exact h⟩

theorem onErr_ptr (call : Call) (f : Failure) : (onErr call f).ptr? = none := by cases call <;> rfl

/-- The transitions of the machine, in the terms of the specification. -/
inductive Trans (e : Env) (s s' : State n) : Prop
  | stutter (h : s' = s)
  | invoke (t : Fin n) (call : Call) (hp : s.pc t = .idle) (hv : call.Valid e.target)
      (h : s' = { s with pc := setPc s.pc t (enter call), hist := .inv t call :: s.hist })
  | prepare (t : Fin n) (call : Call) (l : Layout) (retry : Bool) (g at' new : Nat)
      (hp : s.pc t = .attempt call l retry g)
      (h : s' = { s with pc := setPc s.pc t (.cas call l retry g at' new) })
  | retry (t : Fin n) (call : Call) (l : Layout) (x at' new : Nat)
      (hp : s.pc t = .cas call l true x at' new) (hx : s.consumed ≠ x) (hlt : x < s.consumed)
      (h : s' = { s with pc := setPc s.pc t (.attempt call l true s.consumed), hist := .retry t :: s.hist })
  | decide (t : Fin n) (call : Call) (p : Pc) (r : Ret) (c' : Nat) (hn : (s.pc t).decided = none)
      (hc : (s.pc t).call = some call) (hr : p.decided = some r) (hpc : p.call = some call)
      (hs : specApply e.zst e.slab s.consumed call = (r, c'))
      (hw : DecOk p)
      (h : s' = ⟨c', s.mem, setPc s.pc t p, .lin t call r :: s.hist⟩)
  | write (t : Fin n) (call : Call) (a : Alloc) (hp : s.pc t = .write call a)
      (h : s' = { s with mem := writeBytes s.mem a.ptr (storedValue call)
                         pc := setPc s.pc t (.ret call (afterWrite call a)) })
  | resp (t : Fin n) (call : Call) (r : Ret) (hp : s.pc t = .ret call r)
      (h : s' = { s with pc := setPc s.pc t .idle, hist := .resp t call r :: s.hist })
  | userWrite (r : Region) (off : Nat) (bs : List Byte) (hr : r ∈ handedOut s.hist)
      (ho : off + bs.length ≤ r.size)
      (h : s' = { s with mem := writeBytes s.mem (r.start + off) bs, hist := .userWrite r :: s.hist })
  | reset (hi : ∀ t, s.pc t = .idle) (h : s' = { s with consumed := 0, hist := .reset :: s.hist })

theorem decided_onOk (call : Call) (a : Alloc) (hl : call ≠ .level) :
    (onOk call a).decided = some (call.success a) ∧ (onOk call a).call = some call ∧
    DecOk (onOk call a) := by
  refine ⟨?_, ?_, ?_, ?_⟩
  · cases call <;> simp [onOk, Pc.decided, Call.success, afterWrite] at hl ⊢
  · cases call <;> rfl
  · intro c b h
    cases call <;> simp [onOk] at h <;> obtain ⟨rfl, rfl⟩ := h <;> rfl
  · intro c r v h hv
    cases call <;> simp [onOk] at h <;> obtain ⟨rfl, rfl⟩ := h <;> simp [Call.value] at hv hl

theorem onErr_failure (call : Call) (f : Failure) (hl : call ≠ .level)
    (hf : call.atLevel = none → f = .exhausted) : onErr call f = call.failure f := by
  cases call <;> simp [onErr, Call.failure, Call.atLevel] at hl hf ⊢
  exact hf.symm

theorem layout_ne_level {call : Call} {l : Layout} (h : call.layout = some l) : call ≠ .level := by
  rintro rfl; simp [Call.layout] at h

theorem onZst_spec {e : Env} {call : Call} {V : Layout} (c : Nat) (hl : call.layout = some V) (hz : V.size = 0)
    (ht : call.typed = true) :
    ∃ r, (onZst e call V call.atLevel c).decided = some r ∧ (onZst e call V call.atLevel c).call = some call ∧
      specApply e.zst e.slab c call = (r, c) ∧
      DecOk (onZst e call V call.atLevel c) := by
  have hne := layout_ne_level hl
  unfold specApply
  simp only [hl, ht, hz, and_self, if_true]
  unfold onZst
  simp only [hz, ne_eq, not_true_eq_false, if_false]
  cases hat : call.atLevel with
  | none =>
    simp only
    obtain ⟨h1, h2, h3⟩ := decided_onOk call ⟨e.zst V.align, c⟩ hne
    exact ⟨_, h1, h2, rfl, h3⟩
  | some m =>
    simp only
    by_cases hcm : c = m
    · simp only [hcm, not_true_eq_false, if_false, if_true]
      obtain ⟨h1, h2, h3⟩ := decided_onOk call ⟨e.zst V.align, m⟩ hne
      exact ⟨_, h1, h2, rfl, h3⟩
    · simp only [hcm, not_false_eq_true, if_true, if_false]
      refine ⟨_, rfl, rfl, ?_, decOk_ret (onErr_ptr _ _)⟩
      rw [onErr_failure call _ hne (by simp [hat])]

theorem specApply_alloc {zst : ZstAddr} {s : Slab} {c : Nat} {call : Call} {l : Layout}
    (hl : call.layout = some l) (hz : ¬ (call.typed = true ∧ l.size = 0)) :
    specApply zst s c call = match specPlace s c l call.atLevel with
      | none => (.panicked, c)
      | some (.ok a) => (call.success a, a.level)
      | some (.error f) => (call.failure f, c) := by
  unfold specApply
  simp only [hl, hz, if_false]
  rfl

theorem trans_step {e : Env} (hv : e.Valid) {s : State n} (hi : Inv e s) (t : Fin n) :
    Trans e s (step e s t) := by
  have hok := hi.pcs t
  unfold step
  split
  · exact .stutter rfl
  · rename_i call l retry g hp
    rw [hp] at hok
    obtain ⟨hval, hl, hz, hr1, hr2⟩ := hok
    have hval := hval call rfl
    have ha := Call.Valid.align_pos hval hl
    have hne := layout_ne_level hl
    by_cases hs0 : l.size = 0
    · rw [tryAllocAtPre_zero e hs0]
      refine .decide t call _ .panicked s.consumed (by rw [hp]; rfl) (by rw [hp]; rfl) rfl rfl ?_
        (decOk_ret (by first | rfl | exact onErr_ptr _ _)) rfl
      rw [specApply_alloc hl hz]; simp [specPlace, hs0]
    by_cases hg : g ≤ e.len
    · rw [tryAllocAtPre_spec hv (by omega) ha hg]
      split
      · rename_i h; split at h <;> cases h
      · rename_i h; split at h <;> cases h
      · rename_i h
        split at h
        · rename_i hpl
          refine .decide t call _ (onErr call .exhausted) s.consumed (by rw [hp]; rfl) (by rw [hp]; rfl) rfl rfl ?_
            (decOk_ret (by first | rfl | exact onErr_ptr _ _)) rfl
          rw [specApply_alloc hl hz, onErr_failure call _ hne (fun _ => rfl)]
          cases retry
          · rw [hr2 rfl]
            have : ¬ e.slab.len < g := by show ¬ e.len < g; omega
            simp [specPlace, hs0, hpl, this]
          · obtain ⟨q1, q2, _⟩ := hr1 rfl
            rw [q1]
            have := Slab.place_none_mono ha q2 hpl
            simp [specPlace, hs0, this]
        · cases h
      · rename_i a b h
        exact .prepare t call l retry g a b hp rfl
    · rw [tryAllocAtPre_foreign e (by omega)]
      refine .decide t call _ .panicked s.consumed (by rw [hp]; rfl) (by rw [hp]; rfl) rfl rfl ?_
        (decOk_ret (by first | rfl | exact onErr_ptr _ _)) rfl
      rw [specApply_alloc hl hz]
      cases retry
      · rw [hr2 rfl]
        have : e.slab.len < g := by show e.len < g; omega
        simp [specPlace, hs0, this]
      · have := (hr1 rfl).2.2; omega
  · rename_i call l retry x at' new hp
    rw [hp] at hok
    obtain ⟨hval, ⟨hl, hz, hr1, hr2⟩, hpre⟩ := hok
    have hval := hval call rfl
    have ha := Call.Valid.align_pos hval hl
    have hne := layout_ne_level hl
    obtain ⟨hs, hx, hpl, hxa, hnew, hnl⟩ := tryAllocAtPre_some hv ha hpre
    have hs0 : l.size ≠ 0 := by omega
    split
    · rename_i hcx
      have hb := hv.base_pos
      have : ¬ (e.base + at' = 0) := by omega
      simp only [tryAllocAtPost, this, if_false]
      obtain ⟨h1, h2, h3⟩ := decided_onOk call ⟨e.base + at', new⟩ hne
      refine .decide t call _ (call.success ⟨e.base + at', new⟩) new (by rw [hp]; rfl) (by rw [hp]; rfl) h1 h2 ?_ h3 ?_
      · rw [specApply_alloc hl hz]
        cases retry
        · rw [hr2 rfl]
          have : ¬ e.slab.len < x := by show ¬ e.len < x; omega
          simp [specPlace, hs0, hpl, this, hcx]
        · obtain ⟨q1, q2, _⟩ := hr1 rfl
          rw [q1, hcx]
          simp [specPlace, hs0, hpl]
      · simp [State.decide, h1]
    · rename_i hcx
      split
      · rename_i hret
        subst hret
        have := (hr1 rfl).2.1
        exact .retry t call l x at' new hp hcx (by omega) rfl
      · rename_i hret
        have hret : retry = false := by simpa using hret
        subst hret
        refine .decide t call _ (onErr call (.mismatch s.consumed)) s.consumed (by rw [hp]; rfl) (by rw [hp]; rfl) rfl rfl ?_
          (decOk_ret (by first | rfl | exact onErr_ptr _ _)) rfl
        rw [specApply_alloc hl hz, onErr_failure call _ hne (by rw [hr2 rfl]; simp), hr2 rfl]
        have : ¬ e.slab.len < x := by show ¬ e.len < x; omega
        simp [specPlace, hs0, hpl, this, hcx]
  · rename_i call hp
    rw [hp] at hok
    rcases hok.2 with hlev | ⟨ht, l, hl, hz⟩
    · subst hlev
      exact .decide t .level _ (.level s.consumed) s.consumed (by rw [hp]; rfl) (by rw [hp]; rfl) rfl rfl rfl
        (decOk_ret (by first | rfl | exact onErr_ptr _ _)) rfl
    · have hol : onLoad e call s.consumed = onZst e call l call.atLevel s.consumed := by
        cases call <;> simp [Call.typed, Call.layout] at ht hl <;> subst hl <;> rfl
      obtain ⟨r, h1, h2, h3, h4⟩ := onZst_spec (e := e) s.consumed hl hz ht
      rw [hol]
      refine .decide t call _ r s.consumed (by rw [hp]; rfl) (by rw [hp]; rfl) h1 h2 h3 h4 ?_
      simp [State.decide, h1]
  · rename_i call a hp
    exact .write t call a hp rfl
  · rename_i call r hp
    exact .resp t call r hp rfl

theorem trans_exec {e : Env} (hv : e.Valid) {s : State n} (hi : Inv e s) (ev : Event n)
    (hev : ev.Valid e.target) : Trans e s (exec e s ev) := by
  cases ev with
  | invoke t call =>
    simp only [exec]
    split
    · rename_i h; exact .invoke t call h hev rfl
    · exact .stutter rfl
  | step t => exact trans_step hv hi t
  | userWrite r off bs =>
    simp only [exec]
    split
    · rename_i h; exact .userWrite r off bs h.1 h.2 rfl
    · exact .stutter rfl
  | reset =>
    simp only [exec]
    split
    · rename_i h; exact .reset h rfl
    · exact .stutter rfl

theorem enter_ok {e : Env} {c : Nat} {call : Call} (hv : call.Valid e.target) :
    PcOk e c (enter call) := by
  have hc : (enter call).call = some call := by
    cases call <;> simp only [enter] <;> (try split) <;> rfl
  refine ⟨fun call' h => ?_, ?_⟩
  · rw [hc] at h; cases h; exact hv
  · cases call <;> simp only [enter] <;> (try split) <;>
      first
      | exact Or.inl rfl
      | (rename_i hz; exact Or.inr ⟨rfl, _, rfl, hz⟩)
      | (refine ⟨rfl, ?_, ?_, ?_⟩ <;> simp_all [Call.typed, Call.atLevel])

theorem setPc_self (pc : Fin n → Pc) (t : Fin n) (p : Pc) : setPc pc t p t = p := by simp [setPc]
theorem setPc_ne (pc : Fin n → Pc) {t u : Fin n} (p : Pc) (h : u ≠ t) : setPc pc t p u = pc u := by
  simp [setPc, h]

theorem pcs_setPc {e : Env} {c : Nat} {pc : Fin n → Pc} {t : Fin n} {p : Pc}
    (h : ∀ t, PcOk e c (pc t)) (hp : PcOk e c p) : ∀ u, PcOk e c (setPc pc t p u) := by
  intro u
  by_cases hu : u = t
  · subst hu; rw [setPc_self]; exact hp
  · rw [setPc_ne _ _ hu]; exact h u

theorem inv_exec {e : Env} (hv : e.Valid) {s : State n} (hi : Inv e s) (ev : Event n)
    (hev : ev.Valid e.target) : Inv e (exec e s ev) := by
  have ht := trans_exec hv hi ev hev
  cases ht with
  | stutter h => rw [h]; exact hi
  | invoke t call hp hval h =>
    rw [h]; exact ⟨hi.le, pcs_setPc hi.pcs (enter_ok hval)⟩
  | prepare t call l retry g at' new hp h =>
    -- the attempt computed its target from the same arguments
    have hstep : ∀ ev, exec e s ev = { s with pc := setPc s.pc t (.cas call l retry g at' new) } →
        tryAllocAtPre e l g = .ret (some (at', new)) := by
      intro ev hx
      have hpc := congrArg (fun s => s.pc t) hx
      simp only [setPc_self] at hpc
      cases ev with
      | invoke u c =>
        simp only [exec] at hpc
        split at hpc
        · rename_i hidle
          by_cases hut : t = u
          · subst hut; rw [hp] at hidle; cases hidle
          · simp only [setPc_ne _ _ hut, hp] at hpc; cases hpc
        · rw [hp] at hpc; cases hpc
      | step u =>
        by_cases hut : u = t
        · subst hut
          simp only [exec, step, hp] at hpc
          split at hpc <;> simp only [State.decide, setPc_self] at hpc <;> try (cases hpc)
          rename_i h; exact h
        · have hne : t ≠ u := fun h => hut h.symm
          simp only [exec] at hpc
          have : (step e s u).pc t = s.pc t := by
            unfold step
            split <;> try rfl
            all_goals (try split) <;> (try split) <;> simp only [State.decide, setPc_ne _ _ hne]
          rw [this, hp] at hpc; cases hpc
      | userWrite r off bs =>
        simp only [exec] at hpc; split at hpc <;> simp only [hp] at hpc <;> cases hpc
      | reset =>
        simp only [exec] at hpc; split at hpc <;> simp only [hp] at hpc <;> cases hpc
    have hpre := hstep ev h
    rw [h]
    have hok := hi.pcs t
    rw [hp] at hok
    exact ⟨hi.le, pcs_setPc hi.pcs ⟨hok.1, hok.2, hpre⟩⟩
  | retry t call l x at' new hp hx hlt h =>
    rw [h]
    have hok := hi.pcs t
    rw [hp] at hok
    have hle := hi.le
    refine ⟨hi.le, pcs_setPc hi.pcs ⟨hok.1, hok.2.1.1, hok.2.1.2.1, fun hr => ⟨(hok.2.1.2.2.1 rfl).1, ?_, ?_⟩, ?_⟩⟩
    · simp
    · exact hle
    · intro h; cases h
  | decide t call p r c' hn hc hr hpc hs hw h =>
    have hok := hi.pcs t
    have hval := hok.1 call hc
    obtain ⟨f1, f2, _, _⟩ := specApply_facts e.zst hval (s := e.slab) hi.le hs
    rw [h]
    refine ⟨f2, pcs_setPc (fun u => (hi.pcs u).mono f1) ⟨fun call' h' => ?_, ?_⟩⟩
    · rw [hpc] at h'; cases h'; exact hval
    · cases p <;> simp_all [Pc.decided, PcBody]
      exact hw.1 _ _ rfl
  | write t call a hp h =>
    rw [h]
    have hok := hi.pcs t
    rw [hp] at hok
    exact ⟨hi.le, pcs_setPc hi.pcs ⟨hok.1, trivial⟩⟩
  | resp t call r hp h =>
    rw [h]; exact ⟨hi.le, pcs_setPc hi.pcs ⟨by simp [Pc.call], trivial⟩⟩
  | userWrite r off bs hr ho h => rw [h]; exact ⟨hi.le, hi.pcs⟩
  | reset hidle h =>
    rw [h]
    refine ⟨Nat.zero_le _, fun t => ?_⟩
    show PcOk e 0 (s.pc t)
    rw [hidle t]; exact ⟨by simp [Pc.call], trivial⟩

theorem inv_init {e : Env} {c : Nat} (m : Mem) (hc : c ≤ e.len) : Inv e (init n c m) :=
  ⟨hc, fun _ => ⟨by simp [init, Pc.call], trivial⟩⟩

theorem run_append (e : Env) (s : State n) (evs evs' : List (Event n)) :
    run e s (evs ++ evs') = run e (run e s evs) evs' := by simp [run]

/-- Induction over schedules with the invariant available. -/
theorem run_induction {e : Env} (hv : e.Valid) {P : State n → Prop} {s : State n} (hi : Inv e s) (h0 : P s)
    (hstep : ∀ s s', Inv e s → Inv e s' → P s → Trans e s s' → P s') :
    ∀ evs, (∀ ev ∈ evs, Event.Valid e.target ev) → P (run e s evs) ∧ Inv e (run e s evs) := by
  intro evs
  induction evs generalizing s with
  | nil => intro _; exact ⟨h0, hi⟩
  | cons ev evs ih =>
    intro hev
    have h1 := hev ev (by simp)
    have hi' := inv_exec hv hi ev h1
    exact ih hi' (hstep _ _ hi hi' h0 (trans_exec hv hi ev h1)) (fun ev' h => hev ev' (by simp [h]))

theorem Reachable.inv {e : Env} (hv : e.Valid) {s : State n} (h : Reachable e s) : Inv e s := by
  obtain ⟨c, m, evs, hc, hev, rfl⟩ := h
  exact (run_induction hv (P := fun _ => True) (inv_init m hc) trivial (fun _ _ _ _ _ _ => trivial) evs hev).2

theorem reachable_induction {e : Env} (hv : e.Valid) {P : State n → Prop}
    (h0 : ∀ c m, c ≤ e.len → P (init n c m))
    (hstep : ∀ s s', Inv e s → Inv e s' → P s → Trans e s s' → P s') :
    ∀ s, Reachable e s → P s := by
  rintro s ⟨c, m, evs, hc, hev, rfl⟩
  exact (run_induction hv (inv_init m hc) (h0 c m hc) hstep evs hev).1

theorem Reachable.run {e : Env} {s : State n} (h : Reachable e s) {evs : List (Event n)}
    (hev : ∀ ev ∈ evs, Event.Valid e.target ev) : Reachable e (run e s evs) := by
  obtain ⟨c, m, evs0, hc, hev0, rfl⟩ := h
  refine ⟨c, m, evs0 ++ evs, hc, ?_, by rw [run_append]⟩
  intro ev hm
  rcases List.mem_append.mp hm with h | h
  · exact hev0 ev h
  · exact hev ev h

end Verif.Bump
