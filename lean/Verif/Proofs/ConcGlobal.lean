import Verif.Model.ConcGlobal
import Verif.Proofs.BumpIsolation
import Verif.Proofs.BumpRetry
import Verif.Props.BumpGlobal
/-! Invariant of the concurrent global allocator. -/
namespace Verif.Bump
open Verif
variable {n : Nat}

/-! ## Facts about single steps of the machine inside -/

theorem call_onOk (call : Call) (a : Alloc) : (onOk call a).call = some call := by cases call <;> rfl

theorem call_onZst (e : Env) (call : Call) (V : Layout) (x : Option Nat) (o : Nat) : (onZst e call V x o).call = some call := by
  unfold onZst
  split
  · rfl
  · cases x with
    | none => exact call_onOk _ _
    | some k => simp only; split; rfl; exact call_onOk _ _

theorem call_onLoad (e : Env) (call : Call) (o : Nat) : (onLoad e call o).call = some call := by
  unfold onLoad
  split <;> first | rfl | exact call_onZst _ _ _ _ _

/-- A thread stays in its call until it returns. -/
theorem step_call {e : Env} {s : State n} {t : Fin n} {call : Call} (hc : (s.pc t).call = some call)
    (hr : ∀ c r, s.pc t ≠ .ret c r) : ((step e s t).pc t).call = some call := by
  unfold step
  split
  · rename_i h; rw [h] at hc; cases hc
  · rename_i h; rw [h] at hc; cases hc
    split <;> simp [State.decide, setPc_self, Pc.call]
  · rename_i h; rw [h] at hc; cases hc
    split
    · simp only
      split
      · simp [State.decide, setPc_self, call_onOk]
      · simp [State.decide, setPc_self, Pc.call]
    · split <;> simp [State.decide, setPc_self, Pc.call]
  · rename_i h; rw [h] at hc; cases hc
    simp [State.decide, setPc_self, call_onLoad]
  · rename_i h; rw [h] at hc; cases hc
    simp [setPc_self, Pc.call]
  · rename_i c r h; exact absurd h (hr c r)

theorem step_ret {e : Env} {s : State n} {t : Fin n} {call : Call} {r : Ret} (h : s.pc t = .ret call r) :
    step e s t = { s with pc := setPc s.pc t .idle, hist := .resp t call r :: s.hist } := by
  simp [step, h]

/-- Only the store of a value changes memory. -/
theorem step_mem {e : Env} {s : State n} (hi : Inv e s) (t : Fin n) {x : Nat}
    (h : (step e s t).mem x ≠ s.mem x) : ∃ q, (s.pc t).pending = some q ∧ q.Has x := by
  cases hp : s.pc t with
  | idle => exact absurd (by simp [step, hp]) h
  | attempt c l re g =>
    refine absurd ?_ h
    simp only [step, hp]
    split <;> simp [State.decide]
  | cas c l re ex at' new =>
    refine absurd ?_ h
    simp only [step, hp]
    split
    · split <;> simp [State.decide]
    · split <;> simp [State.decide]
  | load c => exact absurd (by simp [step, hp, State.decide]) h
  | write c a =>
    rw [← hp]
    refine write_within hi hp (Decidable.byContradiction fun hx => h ?_)
    simp only [step, hp]
    exact writeBytes_of_not_mem hx
  | ret c r => exact absurd (by simp [step, hp]) h

theorem handed_trans {e : Env} {s s' : State n} (ht : Trans e s s') {t : Fin n} (hne : s.pc t ≠ .idle) {r : Region}
    (hr : r ∈ handedOut s.hist) : r ∈ handedOut s'.hist := by
  cases ht with
  | stutter hs => subst hs; exact hr
  | invoke u c hp hv hs => subst hs; exact handedOut_cons_mem hr (by simp)
  | prepare u c l retry g at' new hp hs => subst hs; exact hr
  | retry u c l x at' new hp hx hlt hs => subst hs; exact handedOut_cons_mem hr (by simp)
  | decide u c p r c' hn hc hr' hpc hsp hw hs => subst hs; exact handedOut_cons_mem hr (by simp)
  | write u c a hp hs => subst hs; exact hr
  | resp u c r hp hs => subst hs; exact handedOut_cons_mem hr (by simp)
  | userWrite r' off bs hr' ho hs => subst hs; exact handedOut_cons_mem hr (by simp)
  | reset hidle hs => exact absurd (hidle t) hne

/-- A call that will report exhaustion: its request does not fit at the present level. -/
def ExhInv (e : Env) (s : State n) : Prop :=
  ∀ t call l, (s.pc t).call = some call → (s.pc t).decided = some .none → call.layout = some l → e.slab.place l s.consumed = none

theorem exhInv_trans {e : Env} {s s' : State n} (hi : Inv e s) (h : ExhInv e s) (ht : Trans e s s') : ExhInv e s' := by
  have aux : ∀ (u : Fin n) (p : Pc), s'.consumed = s.consumed → s'.pc = setPc s.pc u p →
      (∀ call, p.call = some call → p.decided = some .none → (s.pc u).call = some call ∧ (s.pc u).decided = some .none) →
      ExhInv e s' := by
    intro u p hc hpc hp t call l h1 h2 hl
    rw [hc]
    by_cases htu : t = u
    · subst htu; rw [hpc, setPc_self] at h1 h2
      have := hp call h1 h2
      exact h t call l this.1 this.2 hl
    · rw [hpc, setPc_ne _ _ htu] at h1 h2; exact h t call l h1 h2 hl
  cases ht with
  | stutter hs => subst hs; exact h
  | invoke u c hp hv hs => subst hs; exact aux u _ rfl rfl (fun _ _ h2 => by rw [decided_enter] at h2; cases h2)
  | prepare u c l retry g at' new hp hs => subst hs; exact aux u _ rfl rfl (fun _ _ h2 => by cases h2)
  | retry u c l x at' new hp hx hlt hs => subst hs; exact aux u _ rfl rfl (fun _ _ h2 => by cases h2)
  | decide u c p r c' hn hc hr hpc hsp hw hs =>
    subst hs
    have hval := (hi.pcs u).1 c hc
    have hcc := (specApply_facts (s := e.slab) e.zst hval hi.le hsp).1
    intro t call l h1 h2 hl
    by_cases htu : t = u
    · subst htu
      simp only [setPc_self] at h1 h2
      rw [hpc] at h1; cases h1
      rw [hr] at h2; cases h2
      rcases specApply_cases hsp with ⟨_, hh, _⟩ | ⟨l', hl', hh⟩
      · cases hh
      · rw [hl] at hl'; cases hl'
        rcases hh with ⟨_, _, _, ⟨_, hh⟩ | ⟨⟨L, hL, _⟩, hh⟩⟩ | ⟨_, _, _, hh⟩ | ⟨h0, ⟨hh, _⟩ | ⟨a, hh, _⟩ | ⟨hh, hc', hh2⟩ | ⟨L, hh, _, hL, _⟩⟩
        · have := success_ptr c ⟨e.zst l.align, s.consumed⟩; rw [← hh] at this; cases this
        · cases c <;> simp [Call.failure, Call.atLevel] at hh hL
        · cases hh
        · cases hh
        · have := success_ptr c a; rw [← hh] at this; cases this
        · subst hc'
          rcases hh2 with ⟨_, hh2⟩ | ⟨L, hL, _⟩
          · exact hh2
          · cases c <;> simp [Call.failure, Call.atLevel] at hh hL
        · cases c <;> simp [Call.failure, Call.atLevel] at hh hL
    · simp only [setPc_ne _ _ htu] at h1 h2
      exact Slab.place_none_mono (Call.Valid.align_pos ((hi.pcs t).1 call h1) hl) hcc (h t call l h1 h2 hl)
  | write u c a hp hs =>
    subst hs
    refine aux u _ rfl rfl (fun call h1 h2 => ?_)
    rw [hp]; exact ⟨h1, h2⟩
  | resp u c r hp hs => subst hs; exact aux u _ rfl rfl (fun _ h1 _ => by cases h1)
  | userWrite r' off bs hr ho hs => subst hs; exact h
  | reset hidle hs =>
    subst hs
    intro t call l h1
    simp only [hidle t] at h1
    cases h1

/-- All that is needed about the machine inside. -/
structure BInv (e : Env) (s : State n) : Prop where
  one : Inv e s
  two : Inv2 e s
  exh : ExhInv e s

theorem BInv.trans {e : Env} (hv : e.Valid) {s : State n} (h : BInv e s) {ev : Event n} (hev : ev.Valid e.target) :
    BInv e (exec e s ev) :=
  have ht := trans_exec hv h.one ev hev
  ⟨inv_exec hv h.one ev hev, inv2_trans h.one h.two ht, exhInv_trans h.one h.exh ht⟩

theorem BInv.mem {e : Env} {s : State n} (h : BInv e s) (m : Mem) : BInv e { s with mem := m } :=
  ⟨⟨h.one.le, h.one.pcs⟩, ⟨h.two.A, h.two.B, h.two.C, h.two.D, h.two.S, h.two.L⟩, h.exh⟩

theorem binv_init {e : Env} {c : Nat} (m : Mem) (hc : c ≤ e.len) : BInv e (init n c m) :=
  ⟨inv_init m hc, inv2_init c m, fun t call l h => by simp [init, Pc.call] at h⟩

end Verif.Bump

namespace Verif.Bump.Conc
open Verif Verif.Bump AllocTraits
variable {n : Nat}

/-! ## Blocks and their holders -/

/-- The blocks which a thread holds during a call. -/
def Pc.owns : Pc → List Block
  | .idle => []
  | .start op | .inner op => op.takes.toList
  | .zero l p _ => [⟨p, l⟩]
  | .copy b ns dst _ => [b, ⟨dst, ⟨ns, b.layout.align⟩⟩]
  | .ret op r => (op.gives r).toList

/-- All blocks: those of the users and those inside of calls. -/
def State.holds (s : State n) : Option (Fin n) → List Block
  | none => s.live
  | some t => (s.pc t).owns

/-- The relation on blocks: they have no byte in common. -/
def Apart (a b : Block) : Prop := a.region.Disjoint b.region

theorem Apart.symm {a b : Block} (h : Apart a b) : Apart b a := Region.Disjoint.symm h

theorem Apart.sub {a b c d : Block} (h : Apart a b) (hc : c.region.Within a.region) (hd : d.region.Within b.region) : Apart c d :=
  fun x hx => h x ⟨hc.has hx.1, hd.has hx.2⟩

/-- All blocks are pairwise disjoint. -/
structure Sep (B : Option (Fin n) → List Block) : Prop where
  one : ∀ i, (B i).Pairwise Apart
  two : ∀ i j, i ≠ j → ∀ a ∈ B i, ∀ b ∈ B j, Apart a b

theorem within_refl (r : Region) : r.Within r := ⟨Nat.le_refl _, Nat.le_refl _⟩

/-- Blocks move between the users and a thread, or shrink, or are new. -/
theorem Sep.change {B B' : Option (Fin n) → List Block} {t : Fin n} (h : Sep B)
    (hoff : ∀ u, u ≠ t → B' (some u) = B (some u))
    (hpair : (B' none ++ B' (some t)).Pairwise Apart)
    (hsrc : ∀ a ∈ B' none ++ B' (some t), (∃ b ∈ B none ++ B (some t), a.region.Within b.region) ∨
      ∀ u, u ≠ t → ∀ c ∈ B (some u), Apart a c) : Sep B' := by
  rw [List.pairwise_append] at hpair
  have src : ∀ a ∈ B' none ++ B' (some t), ∀ u, u ≠ t → ∀ c ∈ B (some u), Apart a c := by
    intro a ha u hu c hc
    rcases hsrc a ha with ⟨b, hb, hw⟩ | h'
    · rcases List.mem_append.mp hb with hb | hb
      · exact (h.two none (some u) (by simp) b hb c hc).sub hw (within_refl _)
      · exact (h.two (some t) (some u) (by simpa using fun h => hu h.symm) b hb c hc).sub hw (within_refl _)
    · exact h' u hu c hc
  refine ⟨fun i => ?_, fun i j hij a ha b hb => ?_⟩
  · cases i with
    | none => exact hpair.1
    | some u =>
      by_cases hu : u = t
      · subst hu; exact hpair.2.1
      · rw [hoff u hu]; exact h.one _
  · have key : ∀ k, (k = none ∨ k = some t) ∨ ∃ u, u ≠ t ∧ k = some u := by
      intro k
      cases k with
      | none => simp
      | some u => by_cases hu : u = t <;> simp [hu]
    have inl : ∀ {k c}, (k = none ∨ k = some t) → c ∈ B' k → c ∈ B' none ++ B' (some t) := by
      rintro k c (rfl | rfl) hc <;> simp [hc]
    rcases key i with hi | ⟨u, hu, rfl⟩ <;> rcases key j with hj | ⟨v, hv, rfl⟩
    · rcases hi with rfl | rfl <;> rcases hj with rfl | rfl
      · exact absurd rfl hij
      · exact hpair.2.2 a ha b hb
      · exact (hpair.2.2 b hb a ha).symm
      · exact absurd rfl hij
    · rw [hoff v hv] at hb
      exact src a (inl hi ha) v hv b hb
    · rw [hoff u hu] at ha
      exact (src b (inl hj hb) u hu a ha).symm
    · rw [hoff u hu] at ha; rw [hoff v hv] at hb
      exact h.two _ _ hij a ha b hb

/-- A usable block, lying inside of a region handed out by the machine inside. -/
structure BlockOk (e : Env) (h : Hist n) (b : Block) : Prop where
  pos : 0 < b.layout.size
  valid : b.layout.Valid e.target
  aligned : b.layout.align ∣ b.ptr
  inside : ∃ r ∈ handedOut h, b.region.Within r

/-- What is known when a call is about to return. -/
def RetOk (e : Env) (s : Bump.State n) : Op → Res → Prop
  | .alloc l, .ptr p => p = 0 → e.slab.place l s.consumed = none
  | .allocZeroed l, .ptr p => (p = 0 → e.slab.place l s.consumed = none) ∧ (p ≠ 0 → ∀ j < l.size, s.mem (p + j) = 0)
  | .realloc b ns, .ptr p =>
    (p = 0 → ¬ (⟨ns, b.layout.align⟩ : Layout).Valid e.target ∨
      (b.layout.size < ns ∧ e.slab.place ⟨ns, b.layout.align⟩ s.consumed = none)) ∧
    (p ≠ 0 → (⟨ns, b.layout.align⟩ : Layout).Valid e.target ∧ (ns ≤ b.layout.size → p = b.ptr))
  | .dealloc _, .unit => True
  | .api _, .api _ => True
  | _, _ => False

def PcOk (e : Env) (s : Bump.State n) (t : Fin n) : Pc → Prop
  | .idle => s.pc t = .idle
  | .start op => s.pc t = .idle ∧ op.Valid e.target
  | .inner op => op.Valid e.target ∧ ∃ call, start e op = .ret (.inl call) ∧ (s.pc t).call = some call
  | .zero l p i => s.pc t = .idle ∧ (l.Valid e.target ∧ 0 < l.size) ∧ i ≤ l.size ∧ p ≠ 0 ∧ ∀ j < i, s.mem (p + j) = 0
  | .copy b ns dst i => s.pc t = .idle ∧ i ≤ b.layout.size ∧ b.layout.size < ns ∧ dst ≠ 0 ∧
      ∀ j < i, s.mem (dst + j) = s.mem (b.ptr + j)
  | .ret op r => s.pc t = .idle ∧ op.Valid e.target ∧ RetOk e s op r

structure CInv (e : Env) (s : State n) : Prop where
  bump : BInv e s.bump
  pcs : ∀ t, PcOk e s.bump t (s.pc t)
  sep : Sep s.holds
  ok : ∀ i, ∀ b ∈ s.holds i, BlockOk e s.bump.hist b

theorem has_of {b : Block} {j : Nat} (h : j < b.layout.size) : b.region.Has (b.ptr + j) :=
  ⟨Nat.le_add_right _ _, by show b.ptr + j < b.ptr + b.layout.size; omega⟩

theorem PcOk.frame {e : Env} {s s' : Bump.State n} {t : Fin n} {p : Pc} (h : PcOk e s t p) (hpc : s'.pc t = s.pc t)
    (hc : s.consumed ≤ s'.consumed) (hm : ∀ b ∈ p.owns, ∀ x, b.region.Has x → s'.mem x = s.mem x)
    (hok : ∀ b ∈ p.owns, 0 < b.layout.size ∧ 0 < b.layout.align) : PcOk e s' t p := by
  cases p with
  | idle => simpa only [PcOk, hpc] using h
  | start op => simpa only [PcOk, hpc] using h
  | inner op => simpa only [PcOk, hpc] using h
  | zero l p i =>
    simp only [PcOk, hpc] at h ⊢
    refine ⟨h.1, h.2.1, h.2.2.1, h.2.2.2.1, fun j hj => ?_⟩
    rw [hm ⟨p, l⟩ (by simp [Pc.owns]) _ (has_of (b := ⟨p, l⟩) (by have := h.2.2.1; simp only; omega))]
    exact h.2.2.2.2 j hj
  | copy b ns dst i =>
    simp only [PcOk, hpc] at h ⊢
    obtain ⟨h1, h2, h3, h4, h5⟩ := h
    refine ⟨h1, h2, h3, h4, fun j hj => ?_⟩
    rw [hm ⟨dst, ⟨ns, b.layout.align⟩⟩ (by simp [Pc.owns]) _ (has_of (b := ⟨dst, ⟨ns, b.layout.align⟩⟩) (by simp only; omega)),
      hm b (by simp [Pc.owns]) _ (has_of (by omega))]
    exact h5 j hj
  | ret op r =>
    simp only [PcOk, hpc] at h ⊢
    obtain ⟨h1, h2, h3⟩ := h
    refine ⟨h1, h2, ?_⟩
    cases op <;> cases r <;> simp only [RetOk] at h3 ⊢
    · rename_i l p
      exact fun hp => Slab.place_none_mono h2.1.1.pos hc (h3 hp)
    · rename_i l p
      refine ⟨fun hp => Slab.place_none_mono h2.1.1.pos hc (h3.1 hp), fun hp j hj => ?_⟩
      rw [hm ⟨p, l⟩ (by simp [Pc.owns, Op.gives, hp]) _ (has_of (b := ⟨p, l⟩) hj)]
      exact h3.2 hp j hj
    · rename_i b ns p
      refine ⟨fun hp => ?_, h3.2⟩
      rcases h3.1 hp with h | ⟨h, h'⟩
      · exact .inl h
      · refine .inr ⟨h, Slab.place_none_mono (hok b (by simp [Pc.owns, Op.gives, hp])).2 hc h'⟩

theorem setPc_self (pc : Fin n → Pc) (t : Fin n) (p : Pc) : setPc pc t p t = p := by simp [setPc]
theorem setPc_ne (pc : Fin n → Pc) {t u : Fin n} (p : Pc) (h : u ≠ t) : setPc pc t p u = pc u := by
  simp [setPc, h]

theorem BlockOk.mono {e : Env} {h h' : Hist n} {b : Block} (hb : BlockOk e h b)
    (hs : ∀ r ∈ handedOut h, r ∈ handedOut h') : BlockOk e h' b :=
  ⟨hb.pos, hb.valid, hb.aligned, hb.inside.imp fun _ hr => ⟨hs _ hr.1, hr.2⟩⟩

theorem consumed_trans {e : Env} {s s' : Bump.State n} (hi : Inv e s) (ht : Trans e s s') {t : Fin n} (hne : s.pc t ≠ .idle) :
    s.consumed ≤ s'.consumed := by
  cases ht with
  | stutter hs => subst hs; exact Nat.le_refl _
  | invoke u c hp hv hs => subst hs; exact Nat.le_refl _
  | prepare u c l retry g at' new hp hs => subst hs; exact Nat.le_refl _
  | retry u c l x at' new hp hx hlt hs => subst hs; exact Nat.le_refl _
  | decide u c p r c' hn hc hr' hpc hsp hw hs =>
    subst hs
    exact (specApply_facts (s := e.slab) e.zst ((hi.pcs u).1 c hc) hi.le hsp).1
  | write u c a hp hs => subst hs; exact Nat.le_refl _
  | resp u c r hp hs => subst hs; exact Nat.le_refl _
  | userWrite r' off bs hr' ho hs => subst hs; exact Nat.le_refl _
  | reset hidle hs => exact absurd (hidle t) hne

/-- What the first instructions of `realloc` decide. -/
theorem start_realloc {e : Env} {b : Block} (hpos : 0 < b.layout.size) (hv : b.layout.Valid e.target) (ha : b.layout.align ∣ b.ptr)
    {ns : Nat} (h0 : 0 < ns) :
    (¬ (⟨ns, b.layout.align⟩ : Layout).Valid e.target ∧ start e (.realloc b ns) = .ret (.inr (.ptr 0))) ∨
    ((⟨ns, b.layout.align⟩ : Layout).Valid e.target ∧ ns ≤ b.layout.size ∧ start e (.realloc b ns) = .ret (.inr (.ptr b.ptr))) ∨
    ((⟨ns, b.layout.align⟩ : Layout).Valid e.target ∧ b.layout.size < ns ∧
      start e (.realloc b ns) = .ret (.inl (.getLayout ⟨ns, b.layout.align⟩))) := by
  have hz : NonZeroLayout.fromLayout b.layout = some ((NonZeroLayout.fromLayout b.layout).get (by
      unfold NonZeroLayout.fromLayout; rw [if_neg (by omega)]; rfl)) := by simp
  generalize hzz : (NonZeroLayout.fromLayout b.layout).get _ = z at hz
  have hzl : z.toLayout = b.layout ∧ z.align = b.layout.align := by
    have := (C62_nonZeroLayout b.layout).2.2 z hz
    exact ⟨this.2.2.1, this.2.1⟩
  simp only [start, hz, Outcome.unwrap, bind, Outcome.bind, hzl.2, layoutReallocated]
  by_cases hnv : (⟨ns, b.layout.align⟩ : Layout).Valid e.target
  · right
    simp only [layoutFromSizeAlign_of_valid hnv]
    have hz2 : ∃ z2, NonZeroLayout.fromLayout (⟨ns, b.layout.align⟩ : Layout) = some z2 ∧ z2.toLayout = ⟨ns, b.layout.align⟩ := by
      have h62 := C62_nonZeroLayout ⟨ns, b.layout.align⟩
      cases hf : NonZeroLayout.fromLayout (⟨ns, b.layout.align⟩ : Layout) with
      | none => have := h62.1.mp hf; simp only at this; omega
      | some z2 => exact ⟨z2, rfl, (h62.2.2 z2 hf).2.2.1⟩
    obtain ⟨z2, hz2, hz3⟩ := hz2
    simp only [hz2, pure, hz3, hzl.1, Nat.mod_eq_zero_of_dvd ha, true_and]
    by_cases hle : ns ≤ b.layout.size
    · left; simp [hle, hnv]
    · right; simp [hle, hnv]; omega
  · left
    simp only [layoutFromSizeAlign_of_not_valid hv.1 hnv]
    exact ⟨hnv, rfl⟩

/-- The region with which a call inside is about to return. -/
theorem grant_ok {e : Env} (hv : e.Valid) {s : Bump.State n} (h : BInv e s) {t : Fin n} {call : Call} {r : Ret} (hp : s.pc t = .ret call r)
    {reg : Region} (hg : grant call r = some reg) :
    ∃ l, call.layout = some l ∧ reg = ⟨reg.start, l.size⟩ ∧ 0 < l.size ∧ l.align ∣ reg.start ∧ reg.start ≠ 0 ∧ l.Valid e.target ∧
      ∀ q ∈ handedOut s.hist, Region.Disjoint reg q := by
  have hpend : (s.pc t).pending = some reg := by rw [hp]; simpa [Pc.pending, Bump.Pc.call, Pc.decided] using hg
  obtain ⟨hval, c, c', hc, hsp⟩ := h.two.S t call r (.inr (.inr (by rw [hp]; exact ⟨rfl, rfl⟩)))
  obtain ⟨l, hl, h0, hs, hst, _⟩ := (specApply_facts (s := e.slab) e.zst hval hc hsp).2.2.2 reg hg
  have hd := h.two.C t reg hpend
  refine ⟨l, hl, by rw [← hs], h0, by rw [hst]; exact dvd_alignUp _ _, by have := hd.1.1; have := hv.base_pos; omega, ?_, hd.2⟩
  have := hval.1 l hl
  split at this
  · exact this.1
  · exact this

theorem exhausted_ok {e : Env} {s : Bump.State n} (h : BInv e s) {t : Fin n} {call : Call} (hp : s.pc t = .ret call .none)
    {l : Layout} (hl : call.layout = some l) : e.slab.place l s.consumed = none :=
  h.exh t call l (by rw [hp]; rfl) (by rw [hp]; rfl) hl

/-- Results of the calls which are made by the methods of `GlobalAlloc`. -/
theorem ret_forms {e : Env} {s : Bump.State n} (h : BInv e s) {t : Fin n} {call : Call} {r : Ret} (hp : s.pc t = .ret call r)
    {l : Layout} (h0 : 0 < l.size) :
    (call = .alloc l → r = .none ∨ ∃ p, r = .ptr p) ∧ (call = .getLayout l → r = .none ∨ ∃ a, r = .allocation a) := by
  obtain ⟨hval, c, c', hc, hsp⟩ := h.two.S t call r (.inr (.inr (by rw [hp]; exact ⟨rfl, rfl⟩)))
  constructor <;> rintro rfl
  all_goals
    rcases specApply_cases hsp with ⟨hh, _⟩ | ⟨l', hl', hh⟩
    · cases hh
    · simp only [Call.layout, Option.some.injEq] at hl'
      subst hl'
      rcases hh with ⟨hh, _⟩ | ⟨_, hh, _⟩ | ⟨_, ⟨_, _, L, hh, _⟩ | ⟨a, hh, _⟩ | ⟨hh, _⟩ | ⟨L, _, _, hh, _⟩⟩
      · cases hh
      · omega
      · cases hh
      · exact .inr ⟨_, hh⟩
      · exact .inl hh
      · cases hh

/-- The block into which a thread writes. -/
def Pc.target : Pc → Option Block
  | .zero l p _ => some ⟨p, l⟩
  | .copy b ns dst _ => some ⟨dst, ⟨ns, b.layout.align⟩⟩
  | _ => none

theorem poke_mem (s : State n) {p : Nat} {v : Byte} {x : Nat} (h : x ≠ p) : (s.poke p [v]).bump.mem x = s.bump.mem x := by
  apply writeBytes_of_not_mem
  simp only [List.length_singleton]
  omega

theorem poke_mem_self (s : State n) {p : Nat} {v : Byte} : (s.poke p [v]).bump.mem p = v := by
  have := writeBytes_of_mem (m := s.bump.mem) (p := p) (bs := [v]) (i := 0) (by simp)
  simpa [State.poke] using this

theorem pairwise_apart_mem {l : List Block} (h : l.Pairwise Apart) {a b : Block} (ha : a ∈ l) (hb : b ∈ l) (hab : a ≠ b) : Apart a b := by
  induction h with
  | nil => cases ha
  | cons h1 _ ih =>
    rcases List.mem_cons.mp ha with rfl | ha' <;> rcases List.mem_cons.mp hb with rfl | hb'
    · exact absurd rfl hab
    · exact h1 b hb'
    · exact (h1 a ha').symm
    · exact ih ha' hb'

theorem apart_of_ne {e : Env} {s : State n} (h : CInv e s) {i j : Option (Fin n)} {a b : Block} (ha : a ∈ s.holds i) (hb : b ∈ s.holds j)
    (hne : i ≠ j ∨ a ≠ b) : Apart a b := by
  by_cases hij : i = j
  · subst hij
    have hab : a ≠ b := by simpa using hne
    exact pairwise_apart_mem (h.sep.one i) ha hb hab
  · exact h.sep.two i j hij a ha b hb

/-- Bytes of a block change only by the thread that holds it while it zeroes or copies, or by users writing into it. -/
theorem frame_exec {e : Env} {s : State n} (h : CInv e s) (ev : Event n) {i : Option (Fin n)} {b : Block} (hb : b ∈ s.holds i)
    (hw : i = none → ∀ off bs, ev ≠ .userWrite b off bs) (ht : ∀ t, ev = .step t → i = some t → (s.pc t).target ≠ some b)
    {x : Nat} (hx : b.region.Has x) : (exec e s ev).bump.mem x = s.bump.mem x := by
  have key : ∀ (t : Fin n) (c : Block) (k : Nat) (v : Byte), ev = .step t → (s.pc t).target = some c → c ∈ (s.pc t).owns →
      k < c.layout.size → (s.poke (c.ptr + k) [v]).bump.mem x = s.bump.mem x := by
    intro t c k v he hc hco hk
    have hap := apart_of_ne h (i := some t) (a := c) (j := i) (b := b) hco hb (by
      by_cases hi : i = some t
      · right; rintro rfl; exact ht t he hi hc
      · left; exact fun hh => hi hh.symm)
    apply poke_mem
    rintro rfl
    exact hap _ ⟨has_of hk, hx⟩
  cases ev with
  | invoke t op => simp only [exec]; split <;> rfl
  | step t =>
    simp only [exec, step]
    cases hp : s.pc t with
    | idle => rfl
    | start op =>
      simp only
      split <;> try rfl
      simp only [Bump.exec]
      split <;> rfl
    | inner op =>
      have hbm : (Bump.step e s.bump t).mem x = s.bump.mem x := by
        refine Decidable.byContradiction fun hne => ?_
        obtain ⟨q, hq, hqx⟩ := step_mem h.bump.one t hne
        obtain ⟨r, hr, hrw⟩ := (h.ok i b hb).inside
        exact (h.bump.two.C t q hq).2 r hr x ⟨hqx, hrw.has hx⟩
      simp only
      split <;> exact hbm
    | zero l p k =>
      simp only
      split
      · rename_i hk
        exact key t ⟨p, l⟩ k 0 rfl (by rw [hp]; rfl) (by rw [hp]; simp [Pc.owns]) hk
      · rfl
    | copy c ns dst k =>
      simp only
      split
      · rename_i hk
        exact key t ⟨dst, ⟨ns, c.layout.align⟩⟩ k _ rfl (by rw [hp]; rfl) (by rw [hp]; simp [Pc.owns]) (by simp only; omega)
      · rfl
    | ret op r => rfl
  | userWrite c off bs =>
    simp only [exec]
    split
    · rename_i hc
      have hap := apart_of_ne h (i := none) (a := c) (j := i) (b := b) hc.1 hb (by
        by_cases hi : i = none
        · right; rintro rfl; exact hw hi off bs rfl
        · left; exact fun hh => hi hh.symm)
      apply writeBytes_of_not_mem
      intro hh
      exact hap x ⟨⟨by simp only [Block.region]; omega, by simp only [Block.region]; omega⟩, hx⟩
    · rfl
  | reset =>
    simp only [exec]
    split
    · simp only [Bump.exec]; split <;> rfl
    · rfl

/-- Assemble the invariant after thread `t` did something. -/
theorem CInv.update {e : Env} {s s' : State n} (h : CInv e s) (t : Fin n) (hb : BInv e s'.bump)
    (hpcs : ∀ u, u ≠ t → s'.pc u = s.pc u) (hbpc : ∀ u, u ≠ t → s'.bump.pc u = s.bump.pc u)
    (hc : s.bump.consumed ≤ s'.bump.consumed) (hh : ∀ r ∈ handedOut s.bump.hist, r ∈ handedOut s'.bump.hist)
    (hm : ∀ u, u ≠ t → ∀ b ∈ (s.pc u).owns, ∀ x, b.region.Has x → s'.bump.mem x = s.bump.mem x)
    (hpc : PcOk e s'.bump t (s'.pc t))
    (hpair : (s'.live ++ (s'.pc t).owns).Pairwise Apart)
    (hsrc : ∀ a ∈ s'.live ++ (s'.pc t).owns, (∃ b ∈ s.live ++ (s.pc t).owns, a.region.Within b.region) ∨
      ∀ q ∈ handedOut s.bump.hist, a.region.Disjoint q)
    (hok : ∀ b ∈ s'.live ++ (s'.pc t).owns, BlockOk e s'.bump.hist b) : CInv e s' := by
  refine ⟨hb, fun u => ?_, ?_, ?_⟩
  · by_cases hu : u = t
    · subst hu; exact hpc
    · rw [hpcs u hu]
      refine (h.pcs u).frame (hbpc u hu) hc (hm u hu) fun b hb => ?_
      have := h.ok (some u) b hb
      exact ⟨this.pos, this.valid.1.pos⟩
  · refine h.sep.change (t := t) (fun u hu => ?_) hpair fun a ha => ?_
    · simp only [State.holds, hpcs u hu]
    · rcases hsrc a ha with hh | hd
      · exact .inl hh
      · refine .inr fun u hu c hc => ?_
        obtain ⟨r, hr, hw⟩ := (h.ok (some u) c hc).inside
        exact fun x hx => hd r hr x ⟨hx.1, hw.has hx.2⟩
  · intro i b hb
    cases i with
    | none => exact hok b (List.mem_append.mpr (.inl hb))
    | some u =>
      by_cases hu : u = t
      · subst hu; exact hok b (List.mem_append.mpr (.inr hb))
      · simp only [State.holds, hpcs u hu] at hb
        exact (h.ok (some u) b hb).mono hh

/-- The old blocks of a thread and the users are pairwise disjoint. -/
theorem CInv.pair {e : Env} {s : State n} (h : CInv e s) (t : Fin n) : (s.live ++ (s.pc t).owns).Pairwise Apart :=
  List.pairwise_append.mpr ⟨h.sep.one none, h.sep.one (some t), h.sep.two none (some t) (by simp)⟩

theorem CInv.okAll {e : Env} {s : State n} (h : CInv e s) (t : Fin n) : ∀ b ∈ s.live ++ (s.pc t).owns, BlockOk e s.bump.hist b := by
  intro b hb
  rcases List.mem_append.mp hb with hb | hb
  · exact h.ok none b hb
  · exact h.ok (some t) b hb

theorem inner_valid {e : Env} {op : Op} (hop : op.Valid e.target) (hb : ∀ b ∈ op.takes, b.layout.Valid e.target ∧ 0 < b.layout.size ∧ b.layout.align ∣ b.ptr)
    {call : Call} (hs : start e op = .ret (.inl call)) : call.Valid e.target := by
  have raw : ∀ l : Layout, l.Valid e.target → (Call.alloc l).Valid e.target ∧ (Call.getLayout l).Valid e.target := by
    intro l hl
    refine ⟨⟨fun l' h => ?_, fun l' v _ h => ?_⟩, ⟨fun l' h => ?_, fun l' v _ h => ?_⟩⟩ <;> cases h <;> simpa [Call.typed] using hl
  cases op with
  | alloc l => cases hs; exact (raw l hop.1).1
  | allocZeroed l => cases hs; exact (raw l hop.1).1
  | realloc b ns =>
    obtain ⟨h1, h2, h3⟩ := hb b rfl
    rcases start_realloc h2 h1 h3 (show 0 < ns from hop) with ⟨_, h⟩ | ⟨_, _, h⟩ | ⟨hv, _, h⟩
    · rw [h] at hs; cases hs
    · rw [h] at hs; cases hs
    · rw [h] at hs; cases hs; exact (raw _ hv).2
  | dealloc b => cases hs
  | api c => cases hs; exact hop

theorem ptr_pos {e : Env} (hv : e.Valid) {s : State n} (h : CInv e s) {i : Option (Fin n)} {b : Block} (hb : b ∈ s.holds i) : b.ptr ≠ 0 := by
  obtain ⟨r, hr, hw⟩ := (h.ok i b hb).inside
  have h1 := (h.bump.two.A r hr).1
  have h2 := hw.1
  have h3 := hv.base_pos
  simp only [Block.region] at h2
  omega

theorem within_self {L : List Block} {a : Block} (h : a ∈ L) : ∃ b ∈ L, a.region.Within b.region := ⟨a, h, within_refl _⟩

theorem cinv_start {e : Env} (hv : e.Valid) {s : State n} (h : CInv e s) {t : Fin n} {op : Op} (hp : s.pc t = .start op) :
    CInv e (step e s t) := by
  have hpo := h.pcs t
  rw [hp] at hpo
  obtain ⟨hidle, hop⟩ := hpo
  have hown : (s.pc t).owns = op.takes.toList := by rw [hp]; rfl
  have htk : ∀ b ∈ op.takes, BlockOk e s.bump.hist b ∧ b.ptr ≠ 0 := by
    intro b hb
    have hb' : b ∈ s.holds (some t) := by simp only [State.holds, hown]; simpa using hb
    exact ⟨h.ok _ b hb', ptr_pos hv h hb'⟩
  -- continue with a result
  have fin : ∀ r, start e op = .ret (.inr r) → RetOk e s.bump op r →
      (∀ b ∈ op.gives r, BlockOk e s.bump.hist b ∧ ∃ c ∈ op.takes, b.region.Within c.region) → CInv e (step e s t) := by
    intro r hs hr hg
    have hst : step e s t = s.goto t (.ret op r) := by simp [step, hp, hs]
    rw [hst]
    have hpc' : (s.goto t (.ret op r)).pc t = .ret op r := setPc_self _ _ _
    refine h.update t h.bump (fun u hu => setPc_ne _ _ hu) (fun _ _ => rfl) (Nat.le_refl _) (fun _ h => h) (fun _ _ _ _ _ _ => rfl) ?_ ?_ ?_ ?_
    · rw [hpc']; exact ⟨hidle, hop, hr⟩
    · rw [hpc']
      refine List.pairwise_append.mpr ⟨h.sep.one none, ?_, ?_⟩
      · simp only [Pc.owns]; cases op.gives r <;> simp
      · intro a ha b hb
        simp only [Pc.owns, Option.mem_toList] at hb
        obtain ⟨_, c, hc, hw⟩ := hg b hb
        exact (h.sep.two none (some t) (by simp) a ha c (by simp only [State.holds, hown]; simpa using hc)).sub (within_refl _) hw
    · rw [hpc']
      intro a ha
      left
      rcases List.mem_append.mp ha with ha | ha
      · exact within_self (List.mem_append.mpr (.inl ha))
      · simp only [Pc.owns, Option.mem_toList] at ha
        obtain ⟨_, c, hc, hw⟩ := hg a ha
        exact ⟨c, List.mem_append.mpr (.inr (by rw [hown]; simpa using hc)), hw⟩
    · rw [hpc']
      intro a ha
      rcases List.mem_append.mp ha with ha | ha
      · exact h.ok none a ha
      · simp only [Pc.owns, Option.mem_toList] at ha
        exact (hg a ha).1
  -- continue with a call
  have go : ∀ call, start e op = .ret (.inl call) → CInv e (step e s t) := by
    intro call hs
    have hcv := inner_valid hop (fun b hb => ⟨(htk b hb).1.valid, (htk b hb).1.pos, (htk b hb).1.aligned⟩) hs
    have hex : Bump.exec e s.bump (.invoke t call) = { s.bump with pc := Bump.setPc s.bump.pc t (enter call), hist := .inv t call :: s.bump.hist } := by
      simp [Bump.exec, hidle]
    have hst : step e s t = { (s.goto t (.inner op)) with bump := Bump.exec e s.bump (.invoke t call) } := by simp [step, hp, hs]
    have hB : BInv e (Bump.exec e s.bump (.invoke t call)) := h.bump.trans hv (ev := .invoke t call) hcv
    rw [hst]
    have hpc' : ({ (s.goto t (.inner op)) with bump := Bump.exec e s.bump (.invoke t call) } : State n).pc t = .inner op := setPc_self _ _ _
    refine h.update t hB (fun u hu => setPc_ne _ _ hu) (fun u hu => ?_) ?_ ?_ ?_ ?_ ?_ ?_ ?_
    · simp only [hex]; exact Bump.setPc_ne _ _ hu
    · simp only [hex]; exact Nat.le_refl _
    · intro r hr; simp only [hex]; exact handedOut_cons_mem hr (by simp)
    · intro u hu b hb x hx; simp only [hex]
    · rw [hpc']
      refine ⟨hop, call, hs, ?_⟩
      simp only [hex, Bump.setPc_self]
      exact call_enter call
    · rw [hpc']
      have := h.pair t
      rwa [hown] at this
    · rw [hpc']
      intro a ha
      left
      refine within_self ?_
      rw [hown]; exact ha
    · rw [hpc']
      intro a ha
      refine (h.okAll t a (by rw [hown]; exact ha)).mono fun r hr => ?_
      simp only [hex]; exact handedOut_cons_mem hr (by simp)
  cases op with
  | alloc l => exact go _ rfl
  | allocZeroed l => exact go _ rfl
  | api c => exact go _ rfl
  | dealloc b => exact fin .unit rfl trivial (fun b hb => by cases hb)
  | realloc b ns =>
    obtain ⟨hb, hb0⟩ := htk b rfl
    rcases start_realloc hb.pos hb.valid hb.aligned (show 0 < ns from hop) with ⟨hnv, hs⟩ | ⟨hval, hle, hs⟩ | ⟨_, _, hs⟩
    · refine fin _ hs ⟨fun _ => .inl hnv, fun hh => absurd rfl hh⟩ fun c hc => ?_
      simp only [Op.gives, if_pos, Option.mem_def, Option.some.injEq] at hc
      subst hc
      exact ⟨hb, b, rfl, within_refl _⟩
    · refine fin _ hs ⟨fun hh => absurd hh hb0, fun _ => ⟨hval, fun _ => rfl⟩⟩ fun c hc => ?_
      simp only [Op.gives, if_neg hb0, Option.mem_def, Option.some.injEq] at hc
      subst hc
      have hw : (⟨b.ptr, ⟨ns, b.layout.align⟩⟩ : Block).region.Within b.region :=
        ⟨Nat.le_refl _, by simp only [Block.region]; omega⟩
      refine ⟨⟨hop, hval, hb.aligned, ?_⟩, b, rfl, hw⟩
      obtain ⟨r, hr, hrw⟩ := hb.inside
      exact ⟨r, hr, Nat.le_trans hrw.1 hw.1, Nat.le_trans hw.2 hrw.2⟩
    · exact go _ hs

theorem cinv_inner {e : Env} (hv : e.Valid) {s : State n} (h : CInv e s) {t : Fin n} {op : Op} (hp : s.pc t = .inner op) :
    CInv e (step e s t) := by
  have hpo := h.pcs t
  rw [hp] at hpo
  obtain ⟨hop, call, hs, hcall⟩ := hpo
  have hown : (s.pc t).owns = op.takes.toList := by rw [hp]; rfl
  have htk : ∀ b ∈ op.takes, b ∈ s.holds (some t) := by
    intro b hb
    simp only [State.holds, hown]; simpa using hb
  have hne : s.bump.pc t ≠ .idle := by intro hh; rw [hh] at hcall; cases hcall
  have htr := trans_step hv h.bump.one t
  have hB : BInv e (Bump.step e s.bump t) := h.bump.trans hv (ev := .step t) trivial
  have hc := consumed_trans h.bump.one htr hne
  have hh : ∀ r ∈ handedOut s.bump.hist, r ∈ handedOut (Bump.step e s.bump t).hist := fun r hr => handed_trans htr hne hr
  have hframe : ∀ u, u ≠ t → ∀ b ∈ (s.pc u).owns, ∀ x, b.region.Has x → (Bump.step e s.bump t).mem x = s.bump.mem x := by
    intro u hu b hb x hx
    refine Decidable.byContradiction fun hn => ?_
    obtain ⟨q, hq, hqx⟩ := step_mem h.bump.one t hn
    obtain ⟨r, hr, hrw⟩ := (h.ok (some u) b hb).inside
    exact (h.bump.two.C t q hq).2 r hr x ⟨hqx, hrw.has hx⟩
  by_cases hret : ∃ r, s.bump.pc t = .ret call r
  · obtain ⟨r, hret⟩ := hret
    have hst : step e s t = ({ s with bump := Bump.step e s.bump t } : State n).goto t (resume op r) := by
      simp [step, hp, hret]
    have hbs := step_ret (e := e) hret
    have hidle' : (Bump.step e s.bump t).pc t = .idle := by rw [hbs]; exact Bump.setPc_self _ _ _
    have hcon : (Bump.step e s.bump t).consumed = s.bump.consumed := by rw [hbs]
    rw [hst]
    have hpc' : (({ s with bump := Bump.step e s.bump t } : State n).goto t (resume op r)).pc t = resume op r := setPc_self _ _ _
    -- a new block, if any, is disjoint from everything
    have fin : ∀ (p : Pc), resume op r = p → PcOk e (Bump.step e s.bump t) t p →
        p.owns.Pairwise Apart →
        (∀ b ∈ p.owns, b ∈ op.takes ∨ (BlockOk e (Bump.step e s.bump t).hist b ∧ ∀ q ∈ handedOut s.bump.hist, b.region.Disjoint q)) →
        CInv e (({ s with bump := Bump.step e s.bump t } : State n).goto t (resume op r)) := by
      intro p hpr hok hpair hb
      refine h.update t hB (fun u hu => setPc_ne _ _ hu) (fun u hu => step_other _ hu) hc hh hframe ?_ ?_ ?_ ?_
      · rw [hpc', hpr]; exact hok
      · rw [hpc', hpr]
        refine List.pairwise_append.mpr ⟨h.sep.one none, hpair, fun a ha b hb' => ?_⟩
        rcases hb b hb' with hb' | ⟨_, hd⟩
        · exact h.sep.two none (some t) (by simp) a ha b (htk b hb')
        · obtain ⟨q, hq, hqw⟩ := (h.ok none a ha).inside
          exact fun x hx => hd q hq x ⟨hx.2, hqw.has hx.1⟩
      · rw [hpc', hpr]
        intro a ha
        rcases List.mem_append.mp ha with ha | ha
        · exact .inl (within_self (List.mem_append.mpr (.inl ha)))
        · rcases hb a ha with ha | ⟨_, hd⟩
          · exact .inl (within_self (List.mem_append.mpr (.inr (htk a ha))))
          · exact .inr hd
      · rw [hpc', hpr]
        intro a ha
        rcases List.mem_append.mp ha with ha | ha
        · exact (h.ok none a ha).mono hh
        · rcases hb a ha with ha | ⟨ho, _⟩
          · exact (h.ok (some t) a (htk a ha)).mono hh
          · exact ho
    -- the block granted
    have new : ∀ reg, grant call r = some reg → ∃ l, call.layout = some l ∧ reg = ⟨reg.start, l.size⟩ ∧ reg.start ≠ 0 ∧
        BlockOk e (Bump.step e s.bump t).hist ⟨reg.start, l⟩ ∧ (∀ q ∈ handedOut s.bump.hist, (⟨reg.start, l⟩ : Block).region.Disjoint q) := by
      intro reg hg
      obtain ⟨l, hl, hr, h0, ha, hr0, hval, hd⟩ := grant_ok hv h.bump hret hg
      refine ⟨l, hl, hr, hr0, ⟨h0, hval, ha, reg, ?_, ?_⟩, ?_⟩
      · rw [hbs]; simp [handedOut, hg]
      · rw [hr]; exact within_refl _
      · rw [hr] at hd; exact hd
    have exh : ∀ l, call.layout = some l → r = .none → e.slab.place l (Bump.step e s.bump t).consumed = none := by
      rintro l hl rfl
      rw [hcon]
      exact exhausted_ok h.bump hret hl
    cases op with
    | alloc l =>
      cases hs
      rcases (ret_forms h.bump hret hop.2).1 rfl with rfl | ⟨p, rfl⟩
      · refine fin _ rfl ⟨hidle', hop, fun _ => exh l rfl rfl⟩ ?_ ?_ <;> simp [resume, Pc.owns, Op.gives]
      · obtain ⟨l', hl', hr, hr0, hok, hd⟩ := new ⟨p, l.size⟩ (by have := hop.2; simp [grant, Call.layout]; omega)
        cases hl'
        refine fin (.ret (.alloc l) (.ptr p)) rfl ⟨hidle', hop, fun h0 => absurd h0 hr0⟩ ?_ ?_
        · simp [Pc.owns, Op.gives, show p ≠ 0 from hr0]
        · intro b hb
          simp only [Pc.owns, Op.gives, if_neg (show p ≠ 0 from hr0), Option.toList_some, List.mem_singleton] at hb
          subst hb
          exact .inr ⟨hok, hd⟩
    | allocZeroed l =>
      cases hs
      rcases (ret_forms h.bump hret hop.2).1 rfl with rfl | ⟨p, rfl⟩
      · refine fin _ rfl ⟨hidle', hop, fun _ => exh l rfl rfl, fun hh => absurd rfl hh⟩ ?_ ?_ <;> simp [resume, Pc.owns, Op.gives]
      · obtain ⟨l', hl', hr, hr0, hok, hd⟩ := new ⟨p, l.size⟩ (by have := hop.2; simp [grant, Call.layout]; omega)
        cases hl'
        refine fin (.zero l p 0) (by simp only [resume]; exact if_pos hr0) ⟨hidle', hop, Nat.zero_le _, hr0, fun j hj => absurd hj (Nat.not_lt_zero j)⟩ ?_ ?_
        · simp [Pc.owns]
        · intro b hb
          simp only [Pc.owns, List.mem_singleton] at hb
          subst hb
          exact .inr ⟨hok, hd⟩
    | realloc b ns =>
      have hbk := h.ok (some t) b (htk b rfl)
      have hb0 := ptr_pos hv h (htk b rfl)
      rcases start_realloc hbk.pos hbk.valid hbk.aligned (show 0 < ns from hop) with ⟨_, h'⟩ | ⟨_, _, h'⟩ | ⟨hval, hlt, h'⟩
      · rw [h'] at hs; cases hs
      · rw [h'] at hs; cases hs
      · rw [h'] at hs; cases hs
        rcases (ret_forms (l := ⟨ns, b.layout.align⟩) h.bump hret hop).2 rfl with rfl | ⟨a, rfl⟩
        · refine fin (.ret (.realloc b ns) (.ptr 0)) rfl
            ⟨hidle', hop, fun _ => .inr ⟨hlt, exh _ rfl rfl⟩, fun hh => absurd rfl hh⟩ ?_ ?_
          · simp [Pc.owns, Op.gives]
          · intro c hc
            simp only [Pc.owns, Op.gives, if_pos, Option.toList_some, List.mem_singleton] at hc
            subst hc
            exact .inl rfl
        · obtain ⟨l', hl', hr, hr0, hok, hd⟩ := new ⟨a.ptr, ns⟩ (by
            have : 0 < ns := hop; simp [grant, Call.layout]; omega)
          cases hl'
          have hap : Apart b ⟨a.ptr, ⟨ns, b.layout.align⟩⟩ := by
            obtain ⟨q, hq, hqw⟩ := hbk.inside
            exact fun x hx => hd q hq x ⟨hx.2, hqw.has hx.1⟩
          have hsep : b.ptr + min ns b.layout.size ≤ a.ptr ∨ a.ptr + min ns b.layout.size ≤ b.ptr := by
            have := disjoint_pos hap hbk.pos (show 0 < ns from hop)
            simp only [Block.region] at this
            omega
          refine fin (.copy b ns a.ptr 0) (by simp only [resume]; exact if_pos (.inr hsep))
            ⟨hidle', Nat.zero_le _, hlt, hr0, fun j hj => absurd hj (Nat.not_lt_zero j)⟩ ?_ ?_
          · simp only [Pc.owns, List.pairwise_cons, List.mem_singleton, forall_eq]
            exact ⟨hap, (fun _ hc => by cases hc), List.Pairwise.nil⟩
          · intro c hc
            simp only [Pc.owns, List.mem_cons, List.not_mem_nil, or_false] at hc
            rcases hc with rfl | rfl
            · exact .inl rfl
            · exact .inr ⟨hok, hd⟩
    | dealloc b => cases hs
    | api c =>
      cases hs
      refine fin (.ret (.api call) (.api r)) (by cases r <;> rfl) ⟨hidle', hop, trivial⟩ ?_ ?_
      · simp only [Pc.owns]
        cases (Op.api call).gives (.api r) <;> simp
      · intro b hb
        simp only [Pc.owns, Op.gives, Option.mem_toList] at hb
        split at hb
        · rename_i l reg hl hg
          obtain ⟨l', hl', hr, hr0, hok, hd⟩ := new reg hg
          rw [hl] at hl'; cases hl'
          simp only [Option.some.injEq] at hb
          subst hb
          exact .inr ⟨hok, hd⟩
        · cases hb
  · have hnr : ∀ c r, s.bump.pc t ≠ .ret c r := by
      intro c r hh
      rw [hh] at hcall; cases hcall
      exact hret ⟨r, hh⟩
    have hst : step e s t = { s with bump := Bump.step e s.bump t } := by
      cases hq : s.bump.pc t with
      | ret c r => exact absurd hq (hnr c r)
      | _ => simp [step, hp, hq]
    rw [hst]
    refine h.update t hB (fun u hu => rfl) (fun u hu => step_other _ hu) hc hh hframe ?_ (h.pair t) (fun a ha => .inl (within_self ha))
      (fun b hb => (h.okAll t b hb).mono hh)
    show PcOk e (Bump.step e s.bump t) t (s.pc t)
    rw [hp]
    exact ⟨hop, call, hs, step_call hcall hnr⟩

/-- Zeroing and copying. -/
theorem cinv_poke {e : Env} {s : State n} (h : CInv e s) {t : Fin n} {c : Block} {k : Nat} {v : Byte} {p : Pc}
    (hc : c ∈ (s.pc t).owns) (hk : k < c.layout.size) (hown : p.owns = (s.pc t).owns)
    (hok : PcOk e (s.poke (c.ptr + k) [v]).bump t p) : CInv e ((s.poke (c.ptr + k) [v]).goto t p) := by
  have hpc' : ((s.poke (c.ptr + k) [v]).goto t p).pc t = p := setPc_self _ _ _
  refine h.update t (h.bump.mem _) (fun u hu => setPc_ne _ _ hu) (fun _ _ => rfl) (Nat.le_refl _) (fun _ h => h) ?_ ?_ ?_ ?_ ?_
  · intro u hu b hb x hx
    refine poke_mem s ?_
    rintro rfl
    exact h.sep.two (some t) (some u) (by simpa using fun h => hu h.symm) c hc b hb _ ⟨has_of hk, hx⟩
  · rw [hpc']; exact hok
  · rw [hpc', hown]; exact h.pair t
  · rw [hpc', hown]; exact fun a ha => .inl (within_self ha)
  · rw [hpc', hown]; exact h.okAll t

theorem cinv_goto {e : Env} {s : State n} (h : CInv e s) {t : Fin n} {p : Pc} (hown : p.owns.Sublist (s.pc t).owns)
    (hok : PcOk e s.bump t p) : CInv e (s.goto t p) := by
  have hpc' : (s.goto t p).pc t = p := setPc_self _ _ _
  have hsub : (s.live ++ p.owns).Sublist (s.live ++ (s.pc t).owns) := List.Sublist.append (List.Sublist.refl _) hown
  refine h.update t h.bump (fun u hu => setPc_ne _ _ hu) (fun _ _ => rfl) (Nat.le_refl _) (fun _ h => h) (fun _ _ _ _ _ _ => rfl) ?_ ?_ ?_ ?_
  · rw [hpc']; exact hok
  · rw [hpc']; exact (h.pair t).sublist hsub
  · rw [hpc']; exact fun a ha => .inl (within_self (hsub.subset ha))
  · rw [hpc']; exact fun a ha => h.okAll t a (hsub.subset ha)

theorem cinv_zero {e : Env} {s : State n} (h : CInv e s) {t : Fin n} {l : Layout} {p i : Nat} (hp : s.pc t = .zero l p i) :
    CInv e (step e s t) := by
  have hpo := h.pcs t
  rw [hp] at hpo
  obtain ⟨hidle, hl, hi, hp0, hz⟩ := hpo
  simp only [step, hp]
  split
  · rename_i hlt
    refine cinv_poke h (c := ⟨p, l⟩) (by rw [hp]; simp [Pc.owns]) hlt (by rw [hp]; rfl) ⟨hidle, hl, hlt, hp0, fun j hj => ?_⟩
    by_cases hji : j = i
    · subst hji; exact poke_mem_self s
    · rw [poke_mem s (by simp only; omega)]; exact hz j (by omega)
  · rename_i hge
    refine cinv_goto h ?_ ⟨hidle, hl, fun hh => absurd hh hp0, fun _ j hj => hz j (by omega)⟩
    rw [hp]; simp [Pc.owns, Op.gives, hp0]

theorem cinv_copy {e : Env} {s : State n} (h : CInv e s) {t : Fin n} {b : Block} {ns dst i : Nat} (hp : s.pc t = .copy b ns dst i) :
    CInv e (step e s t) := by
  have hpo := h.pcs t
  rw [hp] at hpo
  obtain ⟨hidle, hi, hlt, hd0, hz⟩ := hpo
  have hown : (s.pc t).owns = [b, ⟨dst, ⟨ns, b.layout.align⟩⟩] := by rw [hp]; rfl
  have hbok := h.ok (some t) b (by simp [State.holds, hown])
  have hdok := h.ok (some t) ⟨dst, ⟨ns, b.layout.align⟩⟩ (by simp [State.holds, hown])
  have hap : Apart b ⟨dst, ⟨ns, b.layout.align⟩⟩ := by
    have := h.sep.one (some t)
    simp only [State.holds, hown, List.pairwise_cons] at this
    exact this.1 _ (by simp)
  simp only [step, hp]
  split
  · rename_i hk
    refine cinv_poke h (c := ⟨dst, ⟨ns, b.layout.align⟩⟩) (by rw [hown]; simp) (by simp only; omega) (by rw [hp]; rfl)
      ⟨hidle, by omega, hlt, hd0, fun j hj => ?_⟩
    have hsrc : (s.poke (dst + i) [s.bump.mem (b.ptr + i)]).bump.mem (b.ptr + j) = s.bump.mem (b.ptr + j) := by
      refine poke_mem s fun hh => ?_
      refine hap (b.ptr + j) ⟨has_of (by omega), ?_⟩
      rw [hh]; exact has_of (b := ⟨dst, ⟨ns, b.layout.align⟩⟩) (by simp only; omega)
    show (s.poke (dst + i) [s.bump.mem (b.ptr + i)]).bump.mem (dst + j) = (s.poke (dst + i) [s.bump.mem (b.ptr + i)]).bump.mem (b.ptr + j)
    rw [hsrc]
    by_cases hji : j = i
    · subst hji; exact poke_mem_self s
    · rw [poke_mem s (by omega)]; exact hz j (by omega)
  · rename_i hk
    refine cinv_goto h ?_ ⟨hidle, by show 0 < ns; omega, fun hh => absurd hh hd0, fun _ => ⟨hdok.valid, fun hle => by omega⟩⟩
    rw [hown]; simp [Pc.owns, Op.gives, hd0]

theorem cinv_ret {e : Env} {s : State n} (h : CInv e s) {t : Fin n} {op : Op} {r : Res} (hp : s.pc t = .ret op r) :
    CInv e (step e s t) := by
  have hpo := h.pcs t
  rw [hp] at hpo
  have hown : (s.pc t).owns = (op.gives r).toList := by rw [hp]; rfl
  have hst : step e s t = { (s.goto t .idle) with live := (op.gives r).toList ++ s.live } := by simp [step, hp]
  rw [hst]
  have hpc' : ({ (s.goto t .idle) with live := (op.gives r).toList ++ s.live } : State n).pc t = .idle := setPc_self _ _ _
  have hperm : ((op.gives r).toList ++ s.live ++ []).Perm (s.live ++ (s.pc t).owns) := by
    rw [hown, List.append_nil]; exact List.perm_append_comm
  refine h.update t h.bump (fun u hu => setPc_ne _ _ hu) (fun _ _ => rfl) (Nat.le_refl _) (fun _ h => h) (fun _ _ _ _ _ _ => rfl) ?_ ?_ ?_ ?_
  · rw [hpc']; exact hpo.1
  · rw [hpc']
    exact hperm.symm.pairwise (h.pair t) (fun h => h.symm)
  · rw [hpc']
    exact fun a ha => .inl (within_self (hperm.mem_iff.mp ha))
  · rw [hpc']
    exact fun a ha => h.okAll t a (hperm.mem_iff.mp ha)

theorem cinv_exec {e : Env} (hv : e.Valid) {s : State n} (h : CInv e s) {ev : Event n} (hev : ev.Valid e.target) :
    CInv e (exec e s ev) := by
  cases ev with
  | step t =>
    show CInv e (step e s t)
    cases hp : s.pc t with
    | idle =>
      have : step e s t = s := by simp [step, hp]
      rw [this]; exact h
    | start op => exact cinv_start hv h hp
    | inner op => exact cinv_inner hv h hp
    | zero l p i => exact cinv_zero h hp
    | copy b ns dst i => exact cinv_copy h hp
    | ret op r => exact cinv_ret h hp
  | invoke t op =>
    simp only [exec]
    split
    · rename_i hh
      obtain ⟨hp, htk⟩ := hh
      have hpo := h.pcs t
      rw [hp] at hpo
      have hpc' : ∀ L, ({ (s.goto t (.start op)) with live := L } : State n).pc t = .start op := fun L => setPc_self _ _ _
      have hperm : ((match op.takes with | some b => s.live.erase b | none => s.live) ++ op.takes.toList).Perm (s.live ++ (s.pc t).owns) := by
        have hown : (s.pc t).owns = [] := by rw [hp]; rfl
        rw [hown, List.append_nil]
        cases ht : op.takes with
        | none => simp
        | some b =>
          have hb := htk b ht
          exact (List.perm_append_comm.trans (List.perm_cons_erase hb).symm)
      refine h.update t h.bump (fun u hu => setPc_ne _ _ hu) (fun _ _ => rfl) (Nat.le_refl _) (fun _ h => h) (fun _ _ _ _ _ _ => rfl) ?_ ?_ ?_ ?_
      · rw [hpc']; exact ⟨hpo, hev⟩
      · rw [hpc']; exact hperm.symm.pairwise (h.pair t) (fun h => h.symm)
      · rw [hpc']; exact fun a ha => .inl (within_self (hperm.mem_iff.mp ha))
      · rw [hpc']; exact fun a ha => h.okAll t a (hperm.mem_iff.mp ha)
    · exact h
  | userWrite b off bs =>
    simp only [exec]
    split
    · rename_i hb
      refine ⟨h.bump.mem _, fun u => ?_, h.sep, h.ok⟩
      refine (h.pcs u).frame rfl (Nat.le_refl _) ?_ ?_
      · intro c hc x hx
        apply writeBytes_of_not_mem
        intro hh
        exact h.sep.two none (some u) (by simp) b hb.1 c hc x
          ⟨⟨by simp only [Block.region]; omega, by simp only [Block.region]; omega⟩, hx⟩
      · intro c hc
        have := h.ok (some u) c hc
        exact ⟨this.pos, this.valid.1.pos⟩
    · exact h
  | reset =>
    simp only [exec]
    split
    · rename_i hidle
      have hbi : ∀ t, s.bump.pc t = .idle := by
        intro t
        have := h.pcs t
        rwa [hidle t] at this
      have hpcs : (Bump.exec e s.bump .reset).pc = s.bump.pc := by simp only [Bump.exec]; split <;> rfl
      refine ⟨h.bump.trans hv (ev := .reset) trivial, fun t => ?_, ⟨fun i => ?_, fun i j _ a ha => ?_⟩, fun i b hb => ?_⟩
      · show PcOk e _ t (s.pc t)
        rw [hidle t]
        show (Bump.exec e s.bump .reset).pc t = .idle
        rw [hpcs]; exact hbi t
      · cases i <;> simp [State.holds, hidle, Pc.owns]
      · cases i <;> simp [State.holds, hidle, Pc.owns] at ha
      · cases i <;> simp [State.holds, hidle, Pc.owns] at hb
    · exact h

theorem cinv_init {e : Env} {c : Nat} (m : Mem) (hc : c ≤ e.len) : CInv e (init n c m) := by
  refine ⟨binv_init m hc, fun t => rfl, ⟨fun i => ?_, fun i j _ a ha => ?_⟩, fun i b hb => ?_⟩
  · cases i <;> simp [State.holds, init, Pc.owns]
  · cases i <;> simp [State.holds, init, Pc.owns] at ha
  · cases i <;> simp [State.holds, init, Pc.owns] at hb

theorem cinv_run {e : Env} (hv : e.Valid) : ∀ (evs : List (Event n)) {s : State n}, CInv e s → (∀ ev ∈ evs, Event.Valid e.target ev) →
    CInv e (run e s evs)
  | [], _, h, _ => h
  | ev :: evs, _, h, hev => cinv_run hv evs (cinv_exec hv h (hev ev (by simp))) fun x hx => hev x (by simp [hx])

theorem Reachable.inv {e : Env} (hv : e.Valid) {s : State n} (h : Reachable e s) : CInv e s := by
  obtain ⟨c, m, evs, hc, hev, rfl⟩ := h
  exact cinv_run hv evs (cinv_init m hc) hev

theorem run_append (e : Env) (s : State n) (a b : List (Event n)) : run e s (a ++ b) = run e (run e s a) b := by
  simp [run, List.foldl_append]

end Verif.Bump.Conc
