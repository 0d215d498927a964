import Verif.Spec.MemoryModel
/-! Orders of the events of an execution graph. -/
set_option autoImplicit false
namespace Verif.MM

section topo
variable {α : Type} {R : α → α → Prop}

theorem exists_minimal (hi : ∀ a, ¬ R a a) (ht : ∀ a b c, R a b → R b c → R a c) (l : List α) (hl : l ≠ []) : ∃ m ∈ l, ∀ x ∈ l, ¬ R x m := by
  induction l with
  | nil => exact absurd rfl hl
  | cons a l ih =>
    by_cases h0 : l = []
    · subst h0
      exact ⟨a, by simp, fun x hx => by simp at hx; subst hx; exact hi _⟩
    · obtain ⟨m, hm, hmin⟩ := ih h0
      by_cases h : R a m
      · refine ⟨a, by simp, fun x hx hr => ?_⟩
        rcases List.mem_cons.mp hx with rfl | hx
        · exact hi _ hr
        · exact hmin x hx (ht _ _ _ hr h)
      · refine ⟨m, by simp [hm], fun x hx => ?_⟩
        rcases List.mem_cons.mp hx with rfl | hx
        · exact h
        · exact hmin x hx

theorem exists_order [DecidableEq α] (hi : ∀ a, ¬ R a a) (ht : ∀ a b c, R a b → R b c → R a c) (l : List α) : ∃ l' : List α, l'.Perm l ∧ l'.Pairwise fun a b => ¬ R b a := by
  generalize hn : l.length = n
  induction n generalizing l with
  | zero => exact ⟨[], by rw [List.length_eq_zero_iff.mp hn], .nil⟩
  | succ n ih =>
    obtain ⟨m, hm, hmin⟩ := exists_minimal hi ht l (by intro h; rw [h] at hn; cases hn)
    obtain ⟨l', hp, hl'⟩ := ih (l.erase m) (by rw [List.length_erase_of_mem hm]; omega)
    refine ⟨m :: l', (List.Perm.cons m hp).trans (List.perm_cons_erase hm).symm, List.pairwise_cons.mpr ⟨fun x hx => ?_, hl'⟩⟩
    exact hmin x (List.mem_of_mem_erase (hp.mem_iff.mp hx))
end topo

variable {n : Nat} {A : Type} {X : Graph n A} {K : Kind A}

namespace Graph

/-- What is needed of an order on the atomic operations. -/
structure Ordered (X : Graph n A) (K : Kind A) (S : Ev n → Ev n → Prop) : Prop where
  irrefl : ∀ a, ¬ S a a
  trans : ∀ a b c, S a b → S b c → S a c
  hb : ∀ a b, X.Atomic K a → X.Atomic K b → X.hb a b → S a b
  cob : ∀ a b, X.Cob K a b → S a b

theorem ordered_of_seqCst (h : X.SeqCst K) : ∃ S, X.Ordered K S := by
  obtain ⟨S, h1, h2, _, h4, h5⟩ := h
  exact ⟨S, h1, h2, h4, h5⟩

open Classical in
/-- The write that an event belongs to. -/
noncomputable def key (X : Graph n A) (K : Kind A) (a : Ev n) : Option (Ev n) := if X.IsWrite K a then some a else X.rf a

def klt (X : Graph n A) : Option (Ev n) → Option (Ev n) → Prop
  | none, some _ => True
  | some a, some b => X.mo a b
  | _, none => False

theorem klt_irrefl (hw : X.WellFormed K) (a : Option (Ev n)) : ¬ X.klt a a := by
  cases a with
  | none => exact id
  | some a => exact hw.mo_irrefl a

theorem klt_trans (hw : X.WellFormed K) {a b c : Option (Ev n)} (h1 : X.klt a b) (h2 : X.klt b c) : X.klt a c := by
  cases a <;> cases b <;> cases c <;> simp only [klt] at *
  exact hw.mo_trans _ _ _ h1 h2

/-- Coherence alone gives an order. -/
def cohOrder (X : Graph n A) (K : Kind A) (a b : Ev n) : Prop :=
  X.klt (X.key K a) (X.key K b) ∨ (X.key K a = X.key K b ∧ ((X.IsWrite K a ∧ ¬ X.IsWrite K b) ∨ (¬ X.IsWrite K a ∧ ¬ X.IsWrite K b ∧ X.hb a b)))

theorem key_write {a : Ev n} (h : X.IsWrite K a) : X.key K a = some a := by simp [key, h]
theorem key_read {a : Ev n} (h : ¬ X.IsWrite K a) : X.key K a = X.rf a := by simp [key, h]

theorem ordered_of_coherent (hw : X.WellFormed K) (hc : X.Coherent K) : X.Ordered K (X.cohOrder K) where
  irrefl a h := by
    rcases h with h | ⟨_, ⟨h1, h2⟩ | ⟨_, _, h⟩⟩
    · exact klt_irrefl hw _ h
    · exact h2 h1
    · exact hw.hb_irrefl _ h
  trans a b c h1 h2 := by
    rcases h1 with h1 | ⟨e1, h1⟩
    · rcases h2 with h2 | ⟨e2, h2⟩
      · exact .inl (klt_trans hw h1 h2)
      · exact .inl (e2 ▸ h1)
    · rcases h2 with h2 | ⟨e2, h2⟩
      · exact .inl (e1 ▸ h2)
      · refine .inr ⟨e1.trans e2, ?_⟩
        rcases h1 with ⟨w1, w2⟩ | ⟨w1, w2, hb1⟩
        · rcases h2 with ⟨w3, _⟩ | ⟨_, w4, _⟩
          · exact absurd w3 w2
          · exact .inl ⟨w1, w4⟩
        · rcases h2 with ⟨w3, _⟩ | ⟨_, w4, hb2⟩
          · exact absurd w3 w2
          · exact .inr ⟨w1, w4, hw.hb_trans _ _ _ hb1 hb2⟩
  hb a b ha hb h := by
    by_cases wa : X.IsWrite K a <;> by_cases wb : X.IsWrite K b
    · left; rw [key_write wa, key_write wb]; exact hc.write_write a b wa wb h
    · have rb := hb.resolve_right wb
      obtain ⟨w, h1, h2⟩ := hc.write_read a b wa rb h
      rcases h2 with rfl | h2
      · exact .inr ⟨by rw [key_write wa, key_read wb, h1], .inl ⟨wa, wb⟩⟩
      · left; rw [key_write wa, key_read wb, h1]; exact h2
    · have ra := ha.resolve_right wa
      left
      rw [key_read wa, key_write wb]
      cases hr : X.rf a with
      | none => trivial
      | some w => exact hc.read_write a b w ra wb h hr
    · have ra := ha.resolve_right wa
      have rb := hb.resolve_right wb
      simp only [cohOrder, key_read wa, key_read wb]
      cases hr : X.rf a with
      | none =>
        cases hr' : X.rf b with
        | none => exact .inr ⟨rfl, .inr ⟨wa, wb, h⟩⟩
        | some w => exact .inl trivial
      | some w =>
        obtain ⟨w', h1, h2⟩ := hc.read_read a b w ra rb h hr
        rw [h1]
        rcases h2 with rfl | h2
        · exact .inr ⟨rfl, .inr ⟨wa, wb, h⟩⟩
        · exact .inl h2
  cob a b h := by
    rcases h with ⟨wa, wb, h⟩ | ⟨rb, h⟩ | ⟨ra, wb, hne, h⟩
    · left; rw [key_write wa, key_write wb]; exact h
    · have wa : X.IsWrite K a := by
        obtain ⟨v, hv⟩ := rb
        have := hw.rf_value b v hv
        rw [h] at this
        exact ⟨v, this⟩
      by_cases wb : X.IsWrite K b
      · have := hc.rmw b rb wb
        rw [h] at this
        left; rw [key_write wa, key_write wb]; exact this.1
      · exact .inr ⟨by rw [key_write wa, key_read wb, h], .inl ⟨wa, wb⟩⟩
    · left
      by_cases wa : X.IsWrite K a
      · rw [key_write wa, key_write wb]
        have h1 := hc.rmw a ra wa
        rcases hw.mo_total a b wa wb with h2 | h2 | h2
        · exact absurd h2 hne
        · exact h2
        · rcases h with h | ⟨w, h, h3⟩
          · rw [h] at h1
            exact absurd h2 (h1 b wb)
          · rw [h] at h1
            exact absurd ⟨h3, h2⟩ (h1.2 b wb)
      · rw [key_read wa, key_write wb]
        rcases h with h | ⟨w, h, h3⟩
        · rw [h]; trivial
        · rw [h]; exact h3

/-- Happens-before together with the order of the atomic operations. -/
def Before (X : Graph n A) (K : Kind A) (S : Ev n → Ev n → Prop) (a b : Ev n) : Prop :=
  X.hb a b ∨ ∃ x y, (a = x ∨ X.hb a x) ∧ X.Atomic K x ∧ X.Atomic K y ∧ S x y ∧ (y = b ∨ X.hb y b)

theorem before_irrefl {S : Ev n → Ev n → Prop} (hw : X.WellFormed K) (hs : X.Ordered K S) (a : Ev n) : ¬ X.Before K S a a := by
  rintro (h | ⟨x, y, h1, ax, ay, h2, h3⟩)
  · exact hw.hb_irrefl _ h
  · have h4 : y = x ∨ X.hb y x := by
      rcases h3 with rfl | h3 <;> rcases h1 with rfl | h1
      · exact .inl rfl
      · exact .inr h1
      · exact .inr h3
      · exact .inr (hw.hb_trans _ _ _ h3 h1)
    rcases h4 with rfl | h4
    · exact hs.irrefl _ h2
    · exact hs.irrefl _ (hs.trans _ _ _ h2 (hs.hb _ _ ay ax h4))

theorem before_trans {S : Ev n → Ev n → Prop} (hw : X.WellFormed K) (hs : X.Ordered K S) (a b c : Ev n) (h1 : X.Before K S a b) (h2 : X.Before K S b c) : X.Before K S a c := by
  rcases h1 with h1 | ⟨x, y, h1, ax, ay, s1, h3⟩
  · rcases h2 with h2 | ⟨x, y, h4, ax, ay, s1, h5⟩
    · exact .inl (hw.hb_trans _ _ _ h1 h2)
    · refine .inr ⟨x, y, .inr ?_, ax, ay, s1, h5⟩
      rcases h4 with rfl | h4
      · exact h1
      · exact hw.hb_trans _ _ _ h1 h4
  · rcases h2 with h2 | ⟨x', y', h4, ax', ay', s2, h5⟩
    · refine .inr ⟨x, y, h1, ax, ay, s1, .inr ?_⟩
      rcases h3 with rfl | h3
      · exact h2
      · exact hw.hb_trans _ _ _ h3 h2
    · refine .inr ⟨x, y', h1, ax, ay', ?_, h5⟩
      have h6 : y = x' ∨ X.hb y x' := by
        rcases h3 with rfl | h3 <;> rcases h4 with rfl | h4
        · exact .inl rfl
        · exact .inr h4
        · exact .inr h3
        · exact .inr (hw.hb_trans _ _ _ h3 h4)
      rcases h6 with rfl | h6
      · exact hs.trans _ _ _ s1 s2
      · exact hs.trans _ _ _ s1 (hs.trans _ _ _ (hs.hb _ _ ay ax' h6) s2)

/-- All the events. -/
def events (X : Graph n A) : List (Ev n) := (List.finRange n).flatMap fun t => (List.range (X.acts t).length).map fun k => (t, k)

theorem isEvent_iff (a : Ev n) : X.IsEvent a ↔ a.2 < (X.acts a.1).length := by
  constructor
  · rintro ⟨x, h⟩
    exact (List.getElem?_eq_some_iff.mp h).1
  · intro h
    exact ⟨_, List.getElem?_eq_getElem h⟩

theorem mem_events (a : Ev n) : a ∈ X.events ↔ X.IsEvent a := by
  obtain ⟨t, k⟩ := a
  rw [isEvent_iff]
  simp only [events, List.mem_flatMap, List.mem_finRange, true_and, List.mem_map, List.mem_range, Prod.mk.injEq]
  exact ⟨fun ⟨u, j, h1, h2, h3⟩ => by subst h2 h3; exact h1, fun h => ⟨t, k, h, rfl, rfl⟩⟩

theorem nodup_events : X.events.Nodup := by
  rw [events, List.Nodup, List.pairwise_flatMap]
  refine ⟨fun t _ => ?_, ?_⟩
  · rw [List.pairwise_map]
    exact List.nodup_range.imp fun h e => h (Prod.mk.inj e).2
  · refine (List.nodup_finRange n).imp fun {t u} h => ?_
    intro a ha b hb e
    simp only [List.mem_map, List.mem_range] at ha hb
    obtain ⟨j, _, rfl⟩ := ha
    obtain ⟨k, _, rfl⟩ := hb
    exact h (Prod.mk.inj e).1

theorem exists_total (hw : X.WellFormed K) {S : Ev n → Ev n → Prop} (hs : X.Ordered K S) :
    ∃ ord, X.Order ord ∧ ord.Pairwise fun a b => ¬ X.Before K S b a := by
  obtain ⟨ord, hp, h⟩ := exists_order (before_irrefl hw hs) (before_trans hw hs) X.events
  refine ⟨ord, ⟨hp.nodup_iff.mpr nodup_events, fun a => by rw [hp.mem_iff, mem_events], ?_⟩, h⟩
  exact h.imp fun h1 h2 => h1 (.inl h2)

end Graph
end Verif.MM
