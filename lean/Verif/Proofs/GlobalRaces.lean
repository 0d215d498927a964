import Verif.Proofs.GlobalLocal
import Verif.Props.MemoryModel
/-! # Who had the memory before -/
set_option autoImplicit false
namespace Verif.Bump.Conc
open MM
variable {n : Nat} {e : Env} {X : Graph n GAct} {src : MM.Ev n → MM.Ev n}

theorem faithful : Graph.Faithful gKind actKind GAct.bump? := ⟨fun _ => rfl, fun _ => rfl⟩

theorem GPossible.part (h : GPossible X) : Bump.Possible (X.part GAct.bump?) :=
  ⟨Graph.wellFormed_part faithful h.1, h.2.imp (Graph.seqCst_part faithful h.1) (Graph.coherent_part faithful h.1)⟩

theorem at_unique {a : MM.Ev n} {x y : GAct} (h : X.At a x) (h' : X.At a y) : x = y := by
  simp only [Graph.At] at h h'
  rw [h] at h'
  cases h'
  rfl

theorem sb_hb (hw : X.WellFormed gKind) {t : Fin n} {j k : Nat} {x : GAct} (h : j < k) (hk : X.At (t, k) x) : X.hb (t, j) (t, k) :=
  hw.sb t j k h (List.getElem?_eq_some_iff.mp hk).1

/-- Induction along happens-before: there are finitely many events. -/
theorem hb_induction (hw : X.WellFormed gKind) {P : MM.Ev n → Prop} (h : ∀ a, X.IsEvent a → (∀ b, X.IsEvent b → X.hb b a → P b) → P a) : ∀ a, X.IsEvent a → P a := by
  intro a ha
  refine Classical.byContradiction fun hp => ?_
  open Classical in
  obtain ⟨m, hm, hmin⟩ := exists_minimal hw.hb_irrefl hw.hb_trans (X.events.filter fun a => decide (¬ P a))
    (List.ne_nil_of_mem (List.mem_filter.mpr ⟨(Graph.mem_events a).mpr ha, by simpa using hp⟩))
  rw [List.mem_filter, Graph.mem_events, decide_eq_true_eq] at hm
  refine hm.2 (h m hm.1 fun b hb hbm => Classical.byContradiction fun hpb => ?_)
  exact hmin b (by rw [List.mem_filter, Graph.mem_events, decide_eq_true_eq]; exact ⟨hb, hpb⟩) hbm

section
variable (hx : GExecutes e X)
include hx

theorem valid_inv (t : Fin n) : ∀ op, GAct.invoke op ∈ X.acts t → op.Valid e.target := fun op h => hx.2 t op h

/-- The blocks have alignments. -/
theorem gives_pow2 (hw : X.WellFormed gKind) (hd : Disciplined X src) : ∀ a, X.IsEvent a → ∀ b, Gives X a b → IsPow2 b.layout.align := by
  refine hb_induction hw fun a ha ih b hb => ?_
  obtain ⟨op, r, hat, hg⟩ := hb
  obtain ⟨t, k⟩ := a
  obtain ⟨l', hl'⟩ := hx.1 t
  obtain ⟨⟨i, hi, hop, -⟩, -, -⟩ := at_ret (valid_inv hx t) hl' hat
  have hv := hx.2 t op (List.mem_of_getElem? hop)
  cases op with
  | alloc l => cases r <;> simp only [Op.gives, reduceCtorEq] at hg; split at hg <;> cases hg; exact hv.1.1
  | allocZeroed l => cases r <;> simp only [Op.gives, reduceCtorEq] at hg; split at hg <;> cases hg; exact hv.1.1
  | realloc c ns =>
    obtain ⟨h1, h2⟩ := hd.taken (t, i) c ⟨_, hop, rfl⟩
    have := ih _ (by obtain ⟨op, r, h, _⟩ := h1; exact ⟨_, h⟩) (hw.hb_trans _ _ _ h2 (sb_hb hw hi hat)) c h1
    cases r <;> simp only [Op.gives, reduceCtorEq] at hg
    split at hg <;> cases hg <;> exact this
  | dealloc c => simp [Op.gives] at hg
  | api call =>
    cases r <;> simp only [Op.gives, reduceCtorEq] at hg
    split at hg
    · rename_i l reg h1 h2
      cases hg
      exact Call.Valid.pow2 hv h1
    · cases hg

theorem executes_part (hw : X.WellFormed gKind) (hd : Disciplined X src) : Bump.Executes e (X.part GAct.bump?) := by
  refine ⟨fun t => ?_, fun t call hc => ?_⟩
  · obtain ⟨l, hl⟩ := hx.1 t
    exact ⟨_, grun_inner hl⟩
  · obtain ⟨x, hm, hx'⟩ := List.mem_filterMap.mp hc
    cases x <;> simp only [GAct.bump?, reduceCtorEq, Option.some.injEq] at hx'
    subst hx'
    obtain ⟨k, hk, hk'⟩ := List.getElem_of_mem hm
    have hat : (X.acts t)[k]? = some (.bump (.invoke call)) := by rw [List.getElem?_eq_getElem hk, hk']
    obtain ⟨l', hl'⟩ := hx.1 t
    obtain ⟨op, ⟨i, hi, hop, -⟩, hs⟩ := at_inner (valid_inv hx t) hl' hat
    have hv := hx.2 t op (List.mem_of_getElem? hop)
    cases op with
    | alloc l => cases hs; exact ⟨(fun l' h => by cases h; exact hv.1), fun l' v _ h => by simp [Call.value] at h⟩
    | allocZeroed l => cases hs; exact ⟨(fun l' h => by cases h; exact hv.1), fun l' v _ h => by simp [Call.value] at h⟩
    | realloc b ns =>
      rcases start_realloc' e b ns with h | h | ⟨h, _⟩ | ⟨h, hsz⟩ <;> rw [h] at hs <;> cases hs
      obtain ⟨h1, h2⟩ := hd.taken (t, i) b ⟨_, hop, rfl⟩
      have hp := gives_pow2 hx hw hd _ (by obtain ⟨op, r, h, _⟩ := h1; exact ⟨_, h⟩) b h1
      exact ⟨(fun l' h => by cases h; exact ⟨hp, hsz⟩), fun l' v _ h => by simp [Call.value] at h⟩
    | dealloc b => cases hs
    | api c => cases hs; exact hv
end

/-- At this event the bump gave this memory. -/
def GrantAt (X : Graph n GAct) (g : MM.Ev n) (reg : Region) : Prop := ∃ call r, X.At g (.bump (.ret call r)) ∧ grant call r = some reg

/-- The return `r` gives a block in the memory that was got from the bump at `g`; `d` owners had some of it before. -/
inductive Root (X : Graph n GAct) (src : MM.Ev n → MM.Ev n) : MM.Ev n → MM.Ev n → Nat → Prop
  | own {t : Fin n} {k g : Nat} {b : Block} {reg : Region} : Gives X (t, k) b → g < k → GrantAt X (t, g) reg → NoRet (X.acts t) g k → b.region.Within reg → Root X src (t, k) (t, g) 0
  | inplace {t : Fin n} {k i d : Nat} {b c : Block} {g : MM.Ev n} : Gives X (t, k) b → i < k → Takes X (t, i) c → NoRet (X.acts t) i k → b.region.Within c.region → Root X src (src (t, i)) g d → Root X src (t, k) g (d + 1)

theorem gives_unique {a : MM.Ev n} {b c : Block} (h : Gives X a b) (h' : Gives X a c) : b = c := by
  obtain ⟨op, r, h1, h2⟩ := h
  obtain ⟨op', r', h3, h4⟩ := h'
  cases at_unique h1 h3
  rw [h2] at h4
  cases h4
  rfl

theorem noRet_eq {t : Fin n} {i k k' : Nat} {b c : Block} (h : NoRet (X.acts t) i k) (h' : NoRet (X.acts t) i k') (hk : i < k) (hk' : i < k') (hg : Gives X (t, k) b) (hg' : Gives X (t, k') c) : k = k' := by
  obtain ⟨op, r, h1, _⟩ := hg
  obtain ⟨op', r', h2, _⟩ := hg'
  rcases Nat.lt_trichotomy k k' with h3 | h3 | h3
  · exact absurd h1 (h' k op r hk h3)
  · exact h3
  · exact absurd h2 (h k' op' r' hk' h3)

theorem within_trans {a b c : Region} (h : a.Within b) (h' : b.Within c) : a.Within c := ⟨Nat.le_trans h'.1 h.1, Nat.le_trans h.2 h'.2⟩
theorem within_has {a b : Region} (h : a.Within b) {q : Nat} (hq : a.Has q) : b.Has q := ⟨Nat.le_trans h.1 hq.1, Nat.lt_of_lt_of_le hq.2 h.2⟩

theorem Root.region (hd : Disciplined X src) {r g : MM.Ev n} {d : Nat} (h : Root X src r g d) : ∀ b, Gives X r b → ∃ reg, GrantAt X g reg ∧ b.region.Within reg := by
  induction h with
  | own h1 h2 h3 h4 h5 => intro b hb; cases gives_unique h1 hb; exact ⟨_, h3, h5⟩
  | inplace h1 h2 h3 h4 h5 _ ih =>
    intro b hb
    cases gives_unique h1 hb
    obtain ⟨reg, h6, h7⟩ := ih _ (hd.taken _ _ h3).1
    exact ⟨reg, h6, within_trans h5 h7⟩

theorem Root.hb (hw : X.WellFormed gKind) (hd : Disciplined X src) {r g : MM.Ev n} {d : Nat} (h : Root X src r g d) : X.hb g r := by
  induction h with
  | own h1 h2 h3 h4 h5 => obtain ⟨_, _, h, _⟩ := h1; exact sb_hb hw h2 h
  | inplace h1 h2 h3 h4 h5 _ ih =>
    obtain ⟨_, _, h, _⟩ := h1
    exact hw.hb_trans _ _ _ (hw.hb_trans _ _ _ ih (hd.taken _ _ h3).2) (sb_hb hw h2 h)

theorem Root.gives {r g : MM.Ev n} {d : Nat} (h : Root X src r g d) : ∃ b, Gives X r b := by
  cases h with
  | own h1 => exact ⟨_, h1⟩
  | inplace h1 => exact ⟨_, h1⟩

theorem exists_root (hw : X.WellFormed gKind) (hx : GExecutes e X) (hd : Disciplined X src) : ∀ r, X.IsEvent r → ∀ b, Gives X r b → ∃ g d, Root X src r g d := by
  refine hb_induction hw fun a ha ih b hb => ?_
  obtain ⟨op, r, hat, hg⟩ := hb
  obtain ⟨t, k⟩ := a
  obtain ⟨l', hl'⟩ := hx.1 t
  obtain ⟨⟨i, hi, hop, hno⟩, -, h3⟩ := at_ret (valid_inv hx t) hl' hat
  rcases h3 b hg with ⟨g, call, r', h4, h5, h6, h7⟩ | ⟨c, h4, h5⟩
  · exact ⟨(t, g), 0, .own ⟨op, r, hat, hg⟩ h4 ⟨_, _, h5, h6⟩ h7 ⟨Nat.le_refl _, Nat.le_refl _⟩⟩
  · have htk : Takes X (t, i) c := ⟨op, hop, h4⟩
    obtain ⟨h1, h2⟩ := hd.taken _ _ htk
    obtain ⟨g, d, h6⟩ := ih _ (by obtain ⟨op, r, h, _⟩ := h1; exact ⟨_, h⟩) (hw.hb_trans _ _ _ h2 (sb_hb hw hi hat)) c h1
    exact ⟨g, d + 1, .inplace ⟨op, r, hat, hg⟩ hi htk hno h5 h6⟩

theorem Root.unique (hd : Disciplined X src) {g : MM.Ev n} : ∀ {d : Nat} {r r' : MM.Ev n}, Root X src r g d → Root X src r' g d → r = r' := by
  intro d
  induction d with
  | zero =>
    intro r r' h h'
    cases h with
    | own h1 h2 h3 h4 h5 => cases h' with
      | own k1 k2 k3 k4 k5 => rw [noRet_eq h4 k4 h2 k2 h1 k1]
  | succ d ih =>
    intro r r' h h'
    cases h with
    | inplace h1 h2 h3 h4 h5 h6 => cases h' with
      | inplace k1 k2 k3 k4 k5 k6 =>
        have := hd.once _ _ _ _ h3 k3 (ih h6 k6)
        cases this
        rw [noRet_eq h4 k4 h2 k2 h1 k1]

/-- The owner number `d'` is there, and passed its block to a call that returned before `r`, or at `r`. -/
theorem Root.anc (hw : X.WellFormed gKind) (hd : Disciplined X src) {r g : MM.Ev n} {d : Nat} (h : Root X src r g d) : ∀ {d' : Nat}, d' < d →
    ∃ r' t i k' b c, Root X src r' g d' ∧ Takes X (t, i) b ∧ src (t, i) = r' ∧ i < k' ∧ NoRet (X.acts t) i k' ∧ Gives X (t, k') c ∧ ((t, k') = r ∨ X.hb (t, k') r) := by
  induction h with
  | own => intro d' hd'; exact absurd hd' (Nat.not_lt_zero _)
  | @inplace t k i d b c g h1 h2 h3 h4 h5 h6 ih =>
    intro d' hd'
    rcases Nat.lt_succ_iff_lt_or_eq.mp hd' with hlt | rfl
    · obtain ⟨r', u, j, k', b', c', j1, j2, j3, j4, j5, j6, j7⟩ := ih hlt
      have hh : X.hb (src (t, i)) (t, k) := by
        obtain ⟨_, _, h, _⟩ := h1
        exact hw.hb_trans _ _ _ (hd.taken _ _ h3).2 (sb_hb hw h2 h)
      refine ⟨r', u, j, k', b', c', j1, j2, j3, j4, j5, j6, .inr ?_⟩
      rcases j7 with j7 | j7
      · rw [j7]; exact hh
      · exact hw.hb_trans _ _ _ j7 hh
    · exact ⟨_, t, i, k, c, b, h6, h3, rfl, h2, h4, h1, .inl rfl⟩

/-- The first owner. -/
theorem Root.first (hw : X.WellFormed gKind) (hd : Disciplined X src) {r g : MM.Ev n} {d : Nat} (hr : Root X src r g d) : ∃ r0, Root X src r0 g 0 ∧ (r0 = r ∨ X.hb r0 r) := by
  cases d with
  | zero => exact ⟨r, hr, .inl rfl⟩
  | succ d =>
    obtain ⟨r0, u, i, k', c, c', h1, h2, h3, h4, h5, h6, h7⟩ := hr.anc hw hd (Nat.succ_pos d)
    refine ⟨r0, h1, .inr ?_⟩
    obtain ⟨_, _, hat', _⟩ := h6
    have hstep : X.hb r0 (u, k') := by rw [← h3]; exact hw.hb_trans _ _ _ (hd.taken _ _ h2).2 (sb_hb hw h4 hat')
    rcases h7 with h7 | h7
    · rw [← h7]; exact hstep
    · exact hw.hb_trans _ _ _ hstep h7

/-! ## The bump hands out disjoint memory -/
section
variable (he : e.Valid) (hi : X.initial ≤ e.len) (hp : GPossible X) (hx : GExecutes e X) (hd : Disciplined X src)
include he hi hp hx hd

theorem grants_apart {g g' : MM.Ev n} {p q : Region} (h : GrantAt X g p) (h' : GrantAt X g' q) : p.Within ⟨e.base, e.len⟩ ∧ (g ≠ g' → p.Disjoint q) := by
  obtain ⟨c, r, h1, h2⟩ := h
  obtain ⟨c', r', h3, h4⟩ := h'
  obtain ⟨d1, u1⟩ := Graph.down_at (f := GAct.bump?) h1 rfl
  obtain ⟨d2, u2⟩ := Graph.down_at (f := GAct.bump?) h3 rfl
  obtain ⟨h5, h6⟩ := C90_disjoint (X := X.part GAct.bump?) he hi hp.part (executes_part hx hp.1 hd) d1 h2 d2 h4
  exact ⟨h5, fun hne => h6 fun heq => hne (by rw [← u1, ← u2, heq])⟩

theorem grants_same {g g' : MM.Ev n} {p q : Region} {x : Nat} (h : GrantAt X g p) (h' : GrantAt X g' q) (hp' : p.Has x) (hq : q.Has x) : g = g' :=
  Classical.byContradiction fun hne => (grants_apart he hi hp hx hd h h').2 hne x ⟨hp', hq⟩

theorem value_apart {a b : MM.Ev n} {p q : Region} (h : X.At a (.bump (.write p))) (h' : X.At b (.bump (.write q))) (hne : a ≠ b) : p.Disjoint q := by
  obtain ⟨d1, u1⟩ := Graph.down_at (f := GAct.bump?) h rfl
  obtain ⟨d2, u2⟩ := Graph.down_at (f := GAct.bump?) h' rfl
  exact (C90_no_race (X := X.part GAct.bump?) he hi hp.part (executes_part hx hp.1 hd) d1).1 d2 fun heq => hne (by rw [← u1, ← u2, heq])

theorem value_before {a g : MM.Ev n} {p q : Region} {x : Nat} (h : X.At a (.bump (.write p))) (h' : GrantAt X g q) (hp' : p.Has x) (hq : q.Has x) : X.hb a g := by
  obtain ⟨c', r', h3, h4⟩ := h'
  obtain ⟨d1, u1⟩ := Graph.down_at (f := GAct.bump?) h rfl
  obtain ⟨d2, u2⟩ := Graph.down_at (f := GAct.bump?) h3 rfl
  have hr : ReturnsWritten (X.down GAct.bump? a) (X.down GAct.bump? g) := Classical.byContradiction fun hn =>
    (C90_no_race (X := X.part GAct.bump?) he hi hp.part (executes_part hx hp.1 hd) d1).2 _ _ d2 h4 hn x ⟨hp', hq⟩
  have := hp.part.1.sb a.1 (X.down GAct.bump? a).2 (X.down GAct.bump? g).2 (by have := hr.2; omega) (by
    have := (List.getElem?_eq_some_iff.mp d2).1
    rw [hr.1] at this
    exact this)
  have h5 : (a.1, (X.down GAct.bump? g).2) = X.down GAct.bump? g := by rw [show a.1 = (X.down GAct.bump? g).1 from hr.1.symm]
  rw [h5] at this
  have h6 : X.hb (X.up GAct.bump? (X.down GAct.bump? a)) (X.up GAct.bump? (X.down GAct.bump? g)) := this
  rwa [u1, u2] at h6

/-! ## Accesses -/

/-- How an access came to the memory which the bump gave at `g`: it is one of the call that got it, before the call returned; it is through the block given by a return. -/
inductive Held (X : Graph n GAct) (src : MM.Ev n → MM.Ev n) (a : MM.Ev n) (q : Nat) : MM.Ev n → Prop
  | value {g : MM.Ev n} (t : Fin n) (j k : Nat) (v : Byte) (ha : a = (t, k)) (hg : g = (t, j)) (h : j < k) (hn : NoRet (X.acts t) j k) (hat : X.At a (.write q v)) : Held X src a q g
  | user {g : MM.Ev n} (d : Nat) (h : UserUses X a q) (hr : Root X src (src a) g d) : Held X src a q g
  | copy {g : MM.Ev n} (t : Fin n) (i k d : Nat) (v : Byte) (b : Block) (ha : a = (t, k)) (h : i < k) (ht : Takes X (t, i) b) (hn : NoRet (X.acts t) i k) (hat : X.At a (.read q v)) (hr : Root X src (src (t, i)) g d) : Held X src a q g

omit he hi in
theorem classify {a : MM.Ev n} {q : Nat} (h : Accesses X a q) : (∃ p, X.At a (.bump (.write p)) ∧ p.Has q) ∨ ∃ g reg, GrantAt X g reg ∧ reg.Has q ∧ X.hb g a ∧ Held X src a q g := by
  have huser : UserUses X a q → ∃ g reg, GrantAt X g reg ∧ reg.Has q ∧ X.hb g a ∧ Held X src a q g := by
    intro hu
    obtain ⟨b, h1, h2, h3⟩ := hd.used a q hu
    obtain ⟨g, d, hr⟩ := exists_root hp.1 hx hd (src a) (by obtain ⟨_, _, h, _⟩ := h1; exact ⟨_, h⟩) b h1
    obtain ⟨reg, h4, h5⟩ := hr.region hd b h1
    exact ⟨g, reg, h4, within_has h5 h2, hp.1.hb_trans _ _ _ (hr.hb hp.1 hd) h3, .user d hu hr⟩
  obtain ⟨t, k⟩ := a
  obtain ⟨l', hl'⟩ := hx.1 t
  rcases h with (h | ⟨v, h⟩) | h | ⟨v, h⟩ | ⟨p, h, hq⟩
  · exact .inr (huser (.inl h))
  · obtain ⟨op, b, ⟨i, h1, h2, h3⟩, h4, h5⟩ := at_read (valid_inv hx t) hl' h
    have htk : Takes X (t, i) b := ⟨op, h2, h4⟩
    obtain ⟨h6, h7⟩ := hd.taken _ _ htk
    obtain ⟨g, d, hr⟩ := exists_root hp.1 hx hd (src (t, i)) (by obtain ⟨_, _, h, _⟩ := h6; exact ⟨_, h⟩) b h6
    obtain ⟨reg, h8, h9⟩ := hr.region hd b h6
    exact .inr ⟨g, reg, h8, within_has h9 h5, hp.1.hb_trans _ _ _ (hp.1.hb_trans _ _ _ (hr.hb hp.1 hd) h7) (sb_hb hp.1 h1 h), .copy t i k d v b rfl h1 htk h3 h hr⟩
  · exact .inr (huser (.inr h))
  · obtain ⟨reg, ⟨g, call, r, h1, h2, h3, h4⟩, h5⟩ := at_write (valid_inv hx t) hl' h
    exact .inr ⟨(t, g), reg, ⟨_, _, h2, h3⟩, h5, sb_hb hp.1 h1 h, .value t g k v rfl rfl h1 h4 h⟩
  · exact .inl ⟨p, h, hq⟩

omit he hi hp hx hd in
/-- Something in a call, other than a return, is before the return. -/
theorem in_call {t : Fin n} {i k k' : Nat} {b : Block} {x : GAct} (hx : X.At (t, k) x) (hne : ∀ op r, x ≠ .ret op r) (hn : NoRet (X.acts t) i k) (hk : i < k') (hg : Gives X (t, k') b) : k < k' := by
  obtain ⟨op, r, h, _⟩ := hg
  rcases Nat.lt_trichotomy k k' with h3 | rfl | h3
  · exact h3
  · exact absurd (at_unique hx h) (hne _ _)
  · exact absurd h (hn k' op r hk h3)

/-- The access `a` is through the block given at `r`: after it, and before, or in, the call that takes it. -/
def Through (X : Graph n GAct) (src : MM.Ev n → MM.Ev n) (a r : MM.Ev n) : Prop :=
  X.hb r a ∧ ∀ i c, Takes X i c → src i = r → X.hb a i ∨ a = i ∨ ∃ t j k x, i = (t, j) ∧ a = (t, k) ∧ j < k ∧ NoRet (X.acts t) j k ∧ X.At a x ∧ ∀ op r, x ≠ .ret op r

omit he hi hp hx in
theorem user_through {a : MM.Ev n} {q : Nat} (h : UserUses X a q) : Through X src a (src a) := by
  obtain ⟨b, _, _, h3⟩ := hd.used a q h
  exact ⟨h3, fun i c hi hs => .inl (hd.before a q i c h hi hs)⟩

omit he hi hx in
theorem copy_through {t : Fin n} {i k : Nat} {b : Block} {q : Nat} {v : Byte} (h : i < k) (ht : Takes X (t, i) b) (hn : NoRet (X.acts t) i k) (hat : X.At (t, k) (.read q v)) : Through X src (t, k) (src (t, i)) := by
  refine ⟨hp.1.hb_trans _ _ _ (hd.taken _ _ ht).2 (sb_hb hp.1 h hat), fun j c hj hs => .inr (.inr ?_)⟩
  rw [hd.once _ _ _ _ hj ht hs]
  exact ⟨t, i, k, _, rfl, rfl, h, hn, hat, by simp⟩

omit he hi hp hx in
theorem take_through {i : MM.Ev n} {b : Block} (ht : Takes X i b) : Through X src i (src i) :=
  ⟨(hd.taken _ _ ht).2, fun _ _ hj hs => .inr (.inl (hd.once _ _ _ _ ht hj hs.symm))⟩

omit he hi hx in
theorem through_lt {a b r r' g : MM.Ev n} {d d' : Nat} (ha : Through X src a r) (hr : Root X src r g d) (hb : Through X src b r') (hr' : Root X src r' g d') (hlt : d < d') : X.hb a b := by
  obtain ⟨r0, t, i, k', c, c', h1, h2, h3, h4, h5, h6, h7⟩ := hr'.anc hp.1 hd hlt
  cases h1.unique hd hr
  have hend : X.hb (t, k') b := by
    rcases h7 with h7 | h7
    · rw [h7]; exact hb.1
    · exact hp.1.hb_trans _ _ _ h7 hb.1
  rcases ha.2 _ _ h2 h3 with h8 | rfl | ⟨t', j, k, x, h8, rfl, h9, h10, h11, h12⟩
  · obtain ⟨_, _, hat, _⟩ := h6
    exact hp.1.hb_trans _ _ _ (hp.1.hb_trans _ _ _ h8 (sb_hb hp.1 h4 hat)) hend
  · obtain ⟨_, _, hat, _⟩ := h6
    exact hp.1.hb_trans _ _ _ (sb_hb hp.1 h4 hat) hend
  · cases h8
    have := in_call h11 h12 h10 h4 h6
    obtain ⟨_, _, hat, _⟩ := h6
    exact hp.1.hb_trans _ _ _ (sb_hb hp.1 this hat) hend

omit he hi hx in
theorem value_through {t : Fin n} {j k : Nat} {q : Nat} {v : Byte} {b r : MM.Ev n} {d : Nat} (_h : j < k) (hn : NoRet (X.acts t) j k) (hat : X.At (t, k) (.write q v)) (hb : Through X src b r) (hr : Root X src r (t, j) d) : X.hb (t, k) b := by
  obtain ⟨r0, h1, h2⟩ := hr.first hp.1 hd
  have hend : X.hb r0 b := by
    rcases h2 with rfl | h2
    · exact hb.1
    · exact hp.1.hb_trans _ _ _ h2 hb.1
  cases h1 with
  | own k1 k2 k3 k4 k5 =>
    have := in_call hat (by simp) hn k2 k1
    obtain ⟨_, _, hat', _⟩ := k1
    exact hp.1.hb_trans _ _ _ (sb_hb hp.1 this hat') hend

omit he hi hx in
theorem same_depth {r r' g : MM.Ev n} {d d' : Nat} {a b : MM.Ev n} (ha : Through X src a r) (hr : Root X src r g d) (hb : Through X src b r') (hr' : Root X src r' g d') : X.hb a b ∨ X.hb b a ∨ r = r' := by
  rcases Nat.lt_trichotomy d d' with h | rfl | h
  · exact .inl (through_lt hp hd ha hr hb hr' h)
  · exact .inr (.inr (hr.unique hd hr'))
  · exact .inr (.inl (through_lt hp hd hb hr' ha hr h))

omit he hi hx in
/-- Two accesses to memory which the bump gave at once. -/
theorem held_ordered {a b g : MM.Ev n} {q : Nat} (ha : Held X src a q g) (hb : Held X src b q g) (hne : a ≠ b) (hw : WritesByte X a q ∨ WritesByte X b q) : X.hb a b ∨ X.hb b a := by
  have hread : ∀ {c : MM.Ev n} {v : Byte}, X.At c (.read q v) → ¬ WritesByte X c q := by
    rintro c v hc (⟨_, h⟩ | ⟨_, h⟩ | ⟨_, h, _⟩) <;> cases at_unique hc h
  cases ha with
  | value t j k v h1 h2 h3 h4 h5 =>
    subst h1 h2
    cases hb with
    | value t' j' k' v' k1 k2 k3 k4 k5 =>
      subst k1
      cases k2
      rcases Nat.lt_trichotomy k k' with h | rfl | h
      · exact .inl (sb_hb hp.1 h k5)
      · exact absurd rfl hne
      · exact .inr (sb_hb hp.1 h h5)
    | user d hu hr => exact .inl (value_through hp hd h3 h4 h5 (user_through hd hu) hr)
    | copy t' i k' d v' b' k1 k2 k3 k4 k5 hr => subst k1; exact .inl (value_through hp hd h3 h4 h5 (copy_through hp hd k2 k3 k4 k5) hr)
  | user d hu hr =>
    cases hb with
    | value t j k v h1 h2 h3 h4 h5 => subst h1 h2; exact .inr (value_through hp hd h3 h4 h5 (user_through hd hu) hr)
    | user d' hu' hr' =>
      rcases same_depth hp hd (user_through hd hu) hr (user_through hd hu') hr' with h | h | h
      · exact .inl h
      · exact .inr h
      · have hww : ∀ {c : MM.Ev n}, UserUses X c q → WritesByte X c q → UserWrites X c q := by
          rintro c (⟨v, h⟩ | h) hw
          · rcases hw with hw | ⟨_, h'⟩ | ⟨_, h', _⟩
            · exact hw
            · cases at_unique h h'
            · cases at_unique h h'
          · exact h
        rcases hd.own a b q hu hu' (hw.imp (hww hu) (hww hu')) h with h | h
        · exact absurd h hne
        · exact h
    | copy t' i k' d' v' b' k1 k2 k3 k4 k5 hr' =>
      subst k1
      rcases same_depth hp hd (user_through hd hu) hr (copy_through hp hd k2 k3 k4 k5) hr' with h | h | h
      · exact .inl h
      · exact .inr h
      · exact .inl (hp.1.hb_trans _ _ _ (hd.before a q _ _ hu k3 h.symm) (sb_hb hp.1 k2 k5))
  | copy t i k d v c h1 h2 h3 h4 h5 hr =>
    subst h1
    cases hb with
    | value t' j' k' v' k1 k2 k3 k4 k5 => subst k1 k2; exact .inr (value_through hp hd k3 k4 k5 (copy_through hp hd h2 h3 h4 h5) hr)
    | user d' hu' hr' =>
      rcases same_depth hp hd (copy_through hp hd h2 h3 h4 h5) hr (user_through hd hu') hr' with h | h | h
      · exact .inl h
      · exact .inr h
      · exact .inr (hp.1.hb_trans _ _ _ (hd.before b q _ _ hu' h3 h) (sb_hb hp.1 h2 h5))
    | copy t' i' k' d' v' b' k1 k2 k3 k4 k5 hr' =>
      rcases hw with hw | hw
      · exact absurd hw (hread h5)
      · exact absurd hw (hread k5)

theorem accesses_ordered {a b : MM.Ev n} {q : Nat} (ha : Accesses X a q) (hb : Accesses X b q) (hne : a ≠ b) (hw : WritesByte X a q ∨ WritesByte X b q) : X.hb a b ∨ X.hb b a := by
  rcases classify hp hx hd ha with ⟨p, h1, h2⟩ | ⟨g, reg, h1, h2, h3, h4⟩
  · rcases classify hp hx hd hb with ⟨p', k1, k2⟩ | ⟨g', reg', k1, k2, k3, k4⟩
    · exact absurd ⟨h2, k2⟩ (value_apart he hi hp hx hd h1 k1 hne q)
    · exact .inl (hp.1.hb_trans _ _ _ (value_before he hi hp hx hd h1 k1 h2 k2) k3)
  · rcases classify hp hx hd hb with ⟨p', k1, k2⟩ | ⟨g', reg', k1, k2, k3, k4⟩
    · exact .inr (hp.1.hb_trans _ _ _ (value_before he hi hp hx hd k1 h1 k2 h2) h3)
    · cases grants_same he hi hp hx hd h1 k1 h2 k2
      exact held_ordered hp hd h4 k4 hne hw

end
end Verif.Bump.Conc
