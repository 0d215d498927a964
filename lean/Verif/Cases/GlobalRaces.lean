import Verif.Props.GlobalRaces
import Verif.Props.GlobalContents
import Verif.Props.GlobalInterleaving
/-!
# Concrete cases for C93 to C95

Three threads. The first one allocates a byte, writes 7 to it, and passes it to the second one, by some synchronisation. That enlarges it to two bytes, which copies it, writes to the other byte, makes it smaller, and reads both. The third thread gets
a zeroed byte, reads it and frees it, and leaks the value 9; it is not ordered with the others.
-/
set_option autoImplicit false
namespace Verif.CasesGR
open Verif Bump Bump.Conc MM

def two : Layout := ⟨2, 1⟩
def zero1 : Block := ⟨4103, u8L⟩

def acts (t : Fin 3) : List GAct := match t with
  | 0 => [.invoke (.alloc u8L), .bump (.invoke (.alloc u8L)), .bump .compute, .bump (.cas 0 1 0), .bump (.ret (.alloc u8L) (.ptr 4100)), .ret (.alloc u8L) (.ptr 4100), .userWrite 4100 7, .other]
  | 1 => [.other, .invoke (.realloc ⟨4100, u8L⟩ 2), .bump (.invoke (.getLayout two)), .bump .compute, .bump (.cas 0 2 1), .bump .compute, .bump (.cas 1 3 1), .bump (.ret (.getLayout two) (.allocation ⟨4101, 3⟩)),
          .read 4100 7, .write 4101 7, .compute, .ret (.realloc ⟨4100, u8L⟩ 2) (.ptr 4101), .userRead 4101 7, .userWrite 4102 8, .userRead 4102 8,
          .invoke (.realloc ⟨4101, two⟩ 1), .compute, .ret (.realloc ⟨4101, two⟩ 1) (.ptr 4101), .userRead 4101 7]
  | 2 => [.invoke (.allocZeroed u8L), .bump (.invoke (.alloc u8L)), .bump .compute, .bump (.cas 0 1 3), .bump .compute, .bump (.cas 3 4 3), .bump (.ret (.alloc u8L) (.ptr 4103)),
          .write 4103 0, .compute, .ret (.allocZeroed u8L) (.ptr 4103), .userRead 4103 0, .invoke (.dealloc zero1), .compute, .ret (.dealloc zero1) .unit,
          .invoke (.api (.leak u8L [9])), .bump (.invoke (.leak u8L [9])), .bump .compute, .bump (.cas 0 1 4), .bump .compute, .bump (.cas 4 5 4), .bump (.write ⟨4104, 1⟩), .bump (.ret (.leak u8L [9]) (.ptr 4104)),
          .ret (.api (.leak u8L [9])) (.api (.ptr 4104)), .userRead 4104 9]

def Lex (a b : MM.Ev 3) : Prop := a.1 < b.1 ∨ (a.1 = b.1 ∧ a.2 < b.2)
instance : DecidableRel Lex := fun _ _ => inferInstanceAs (Decidable (_ ∨ _))

/-- With the synchronisation, if `sync`. -/
def graph (sync : Bool) : Graph 3 GAct where
  acts := acts
  initial := 0
  rf a := if a = (0, 3) then none else if a = (1, 4) ∨ a = (1, 6) then some (0, 3) else if a = (2, 3) ∨ a = (2, 5) then some (1, 6) else some (2, 5)
  mo := Lex
  hb a b := (a.1 = b.1 ∧ a.2 < b.2) ∨ (sync = true ∧ a.1 = 0 ∧ b.1 = 1)

theorem at_lt {s : Bool} {a : MM.Ev 3} {x : GAct} (h : (graph s).At a x) : a.2 < 30 := by
  obtain ⟨t, k⟩ := a
  have h1 : k < (acts t).length := (List.getElem?_eq_some_iff.mp h).1
  have h2 : ∀ t, (acts t).length < 30 := by decide
  exact Nat.lt_trans h1 (h2 t)

/-- What holds for all actions. -/
theorem forall_at {s : Bool} {P : MM.Ev 3 → GAct → Prop} (h : ∀ (t : Fin 3) (k : Fin 30), ∀ x ∈ (acts t)[k.val]?, P (t, k.val) x) {a : MM.Ev 3} {x : GAct} (ha : (graph s).At a x) : P a x := h a.1 ⟨a.2, at_lt ha⟩ x ha

theorem reads {s : Bool} {a : MM.Ev 3} {v : Nat} (h : (graph s).Reads gKind a v) : (a, v) ∈ [((0, 3), 0), ((1, 4), 1), ((1, 6), 1), ((2, 3), 3), ((2, 5), 3), ((2, 17), 4), ((2, 19), 4)] := by
  obtain ⟨x, h1, h2⟩ := h
  exact forall_at (P := fun a x => ∀ v ∈ gKind.reads x, (a, v) ∈ [(((0, 3) : MM.Ev 3), 0), ((1, 4), 1), ((1, 6), 1), ((2, 3), 3), ((2, 5), 3), ((2, 17), 4), ((2, 19), 4)]) (by decide +kernel) h1 v h2
theorem writes {s : Bool} {a : MM.Ev 3} {v : Nat} (h : (graph s).Writes gKind a v) : (a, v) ∈ [((0, 3), 1), ((1, 6), 3), ((2, 5), 4), ((2, 19), 5)] := by
  obtain ⟨x, h1, h2⟩ := h
  exact forall_at (P := fun a x => ∀ v ∈ gKind.writes x, (a, v) ∈ [(((0, 3) : MM.Ev 3), 1), ((1, 6), 3), ((2, 5), 4), ((2, 19), 5)]) (by decide +kernel) h1 v h2
theorem isRead {s : Bool} {a : MM.Ev 3} (h : (graph s).IsRead gKind a) : a ∈ [((0, 3) : MM.Ev 3), (1, 4), (1, 6), (2, 3), (2, 5), (2, 17), (2, 19)] := by
  obtain ⟨v, h⟩ := h
  have := reads h
  exact List.mem_map_of_mem (f := Prod.fst) this
theorem isWrite {s : Bool} {a : MM.Ev 3} (h : (graph s).IsWrite gKind a) : a ∈ [((0, 3) : MM.Ev 3), (1, 6), (2, 5), (2, 19)] := by
  obtain ⟨v, h⟩ := h
  have := writes h
  exact List.mem_map_of_mem (f := Prod.fst) this

theorem lex_trans {a b c : MM.Ev 3} (h : Lex a b) (h' : Lex b c) : Lex a c := by
  simp only [Lex] at *; omega

theorem possible (s : Bool) : GPossible (graph s) := by
  refine ⟨⟨fun t j k h _ => .inl ⟨rfl, h⟩, fun a h => ?_, fun a b c h h' => ?_, fun a h => ?_, fun a b c => lex_trans, fun a b _ _ => ?_, fun r v h => ?_⟩, .inl ⟨Lex, fun a h => ?_, fun a b c => lex_trans, fun a b _ _ => ?_, fun a b _ _ h => ?_, fun a b h => ?_⟩⟩
  · rcases h with h | h
    · exact Nat.lt_irrefl _ h.2
    · rw [h.2.1] at h; exact absurd h.2.2 (by decide)
  · rcases h with ⟨h1, h2⟩ | ⟨h1, h2, h3⟩ <;> rcases h' with ⟨h4, h5⟩ | ⟨h4, h5, h6⟩
    · exact .inl ⟨h1.trans h4, Nat.lt_trans h2 h5⟩
    · exact .inr ⟨h4, h1.trans h5, h6⟩
    · exact .inr ⟨h1, h2, h4.symm.trans h3⟩
    · exact absurd (h3.symm.trans h5) (by decide)
  · simp only [graph, Lex] at h; omega
  · simp only [graph, Lex]
    rcases a with ⟨t, j⟩
    rcases b with ⟨u, k⟩
    simp only [Prod.mk.injEq]
    omega
  · have h1 := reads h
    simp only [List.mem_cons, Prod.mk.injEq, List.not_mem_nil, or_false] at h1
    rcases h1 with ⟨rfl, rfl⟩ | ⟨rfl, rfl⟩ | ⟨rfl, rfl⟩ | ⟨rfl, rfl⟩ | ⟨rfl, rfl⟩ | ⟨rfl, rfl⟩ | ⟨rfl, rfl⟩
    · exact rfl
    all_goals exact ⟨_, rfl, rfl⟩
  · simp only [Lex] at h; omega
  · simp only [Lex]
    rcases a with ⟨t, j⟩
    rcases b with ⟨u, k⟩
    simp only [Prod.mk.injEq]
    omega
  · simp only [graph, Lex] at h ⊢; omega
  · rcases h with ⟨_, _, h⟩ | ⟨h1, h2⟩ | ⟨h1, h2, h3, h4⟩
    · exact h
    · have h5 : ∀ b ∈ [((0, 3) : MM.Ev 3), (1, 4), (1, 6), (2, 3), (2, 5), (2, 17), (2, 19)], ∀ a ∈ (graph s).rf b, Lex a b := by cases s <;> decide
      exact h5 b (isRead h1) a h2
    · have h5 : ∀ a ∈ [((0, 3) : MM.Ev 3), (1, 4), (1, 6), (2, 3), (2, 5), (2, 17), (2, 19)], ∀ b ∈ [((0, 3) : MM.Ev 3), (1, 6), (2, 5), (2, 19)], a ≠ b → ((graph s).rf a = none ∨ ∃ w ∈ (graph s).rf a, Lex w b) → Lex a b := by cases s <;> decide
      exact h5 a (isRead h1) b (isWrite h2) h3 (h4.imp id fun ⟨w, h6, h7⟩ => ⟨w, h6, h7⟩)

theorem executes (s : Bool) : GExecutes exEnv (graph s) := by
  refine ⟨fun t => ⟨.start, ?_⟩, fun t op h => ?_⟩
  · revert t
    show ∀ t, grun exEnv .start (acts t) = some .start
    decide +kernel
  · have h1 : ∀ t : Fin 3, ∀ x ∈ acts t, ∀ op, x = .invoke op → op ∈ [Op.alloc u8L, .realloc ⟨4100, u8L⟩ 2, .realloc ⟨4101, two⟩ 1, .allocZeroed u8L, .dealloc zero1, .api (.leak u8L [9])] := by
      intro t x hx op hop
      subst hop
      have : ∀ t : Fin 3, ∀ x ∈ acts t, (match x with | .invoke op => decide (op ∈ [Op.alloc u8L, .realloc ⟨4100, u8L⟩ 2, .realloc ⟨4101, two⟩ 1, .allocZeroed u8L, .dealloc zero1, .api (.leak u8L [9])]) | _ => true) = true := by decide +kernel
      exact of_decide_eq_true (this t _ hx)
    have h2 := h1 t _ h op rfl
    simp only [List.mem_cons, List.not_mem_nil, or_false] at h2
    rcases h2 with rfl | rfl | rfl | rfl | rfl | rfl
    · exact ⟨u8L_valid.1, by decide⟩
    · show 0 < 2; decide
    · show 0 < 1; decide
    · exact ⟨u8L_valid.1, by decide⟩
    · trivial
    · exact ⟨fun l h => by cases h; exact u8L_valid, fun l v h h' => by cases h; cases h'; rfl⟩

/-- From which return the block is. -/
def src (a : MM.Ev 3) : MM.Ev 3 :=
  if a.1 = 0 then (0, 5) else if a.1 = 1 then (if a.2 ≤ 11 then (0, 5) else if a.2 ≤ 15 then (1, 11) else (1, 17)) else if a.2 ≤ 13 then (2, 9) else (2, 22)

def taken : List (MM.Ev 3 × Block) := [((1, 1), ⟨4100, u8L⟩), ((1, 15), ⟨4101, two⟩), ((2, 11), zero1)]
def used : List (MM.Ev 3 × Nat) := [((0, 6), 4100), ((1, 12), 4101), ((1, 13), 4102), ((1, 14), 4102), ((1, 18), 4101), ((2, 10), 4103), ((2, 23), 4104)]

theorem takes {s : Bool} {i : MM.Ev 3} {b : Block} (h : Takes (graph s) i b) : (i, b) ∈ taken := by
  obtain ⟨op, h1, h2⟩ := h
  have := forall_at (P := fun a x => (match x with | .invoke op => (match op.takes with | some b => decide ((a, b) ∈ taken) | none => true) | _ => true) = true) (by decide +kernel) h1
  simp only [h2] at this
  exact of_decide_eq_true this
theorem uses {s : Bool} {u : MM.Ev 3} {p : Nat} (h : UserUses (graph s) u p) : (u, p) ∈ used := by
  rcases h with ⟨v, h⟩ | ⟨v, h⟩
  · have := forall_at (P := fun a x => (match x with | .userRead p _ => decide ((a, p) ∈ used) | _ => true) = true) (by decide +kernel) h
    exact of_decide_eq_true this
  · have := forall_at (P := fun a x => (match x with | .userWrite p _ => decide ((a, p) ∈ used) | _ => true) = true) (by decide +kernel) h
    exact of_decide_eq_true this

theorem disciplined : Disciplined (graph true) src := by
  refine ⟨fun i b h => ?_, fun i j b c hi hj hs => ?_, fun u p h => ?_, fun u p i b hu hi hs => ?_, fun u v p hu hv _ hs => ?_⟩
  · have := takes h
    simp only [taken, List.mem_cons, Prod.mk.injEq, List.not_mem_nil, or_false] at this
    rcases this with ⟨rfl, rfl⟩ | ⟨rfl, rfl⟩ | ⟨rfl, rfl⟩
    · exact ⟨⟨_, _, rfl, rfl⟩, .inr (by decide)⟩
    · exact ⟨⟨_, _, rfl, rfl⟩, .inl (by decide)⟩
    · exact ⟨⟨_, _, rfl, rfl⟩, .inl (by decide)⟩
  · have h1 : ∀ p ∈ taken, ∀ q ∈ taken, src p.1 = src q.1 → p.1 = q.1 := by decide +kernel
    exact h1 _ (takes hi) _ (takes hj) hs
  · have := uses h
    simp only [used, List.mem_cons, Prod.mk.injEq, List.not_mem_nil, or_false] at this
    rcases this with ⟨rfl, rfl⟩ | ⟨rfl, rfl⟩ | ⟨rfl, rfl⟩ | ⟨rfl, rfl⟩ | ⟨rfl, rfl⟩ | ⟨rfl, rfl⟩ | ⟨rfl, rfl⟩
    · exact ⟨⟨4100, u8L⟩, ⟨_, _, rfl, rfl⟩, by decide, .inl (by decide)⟩
    · exact ⟨⟨4101, two⟩, ⟨_, _, rfl, rfl⟩, by decide, .inl (by decide)⟩
    · exact ⟨⟨4101, two⟩, ⟨_, _, rfl, rfl⟩, by decide, .inl (by decide)⟩
    · exact ⟨⟨4101, two⟩, ⟨_, _, rfl, rfl⟩, by decide, .inl (by decide)⟩
    · exact ⟨⟨4101, u8L⟩, ⟨_, _, rfl, rfl⟩, by decide, .inl (by decide)⟩
    · exact ⟨⟨4103, u8L⟩, ⟨_, _, rfl, rfl⟩, by decide, .inl (by decide)⟩
    · exact ⟨⟨4104, u8L⟩, ⟨_, _, rfl, rfl⟩, by decide, .inl (by decide)⟩
  · have h1 : ∀ p ∈ used, ∀ q ∈ taken, src q.1 = src p.1 → (p.1.1 = q.1.1 ∧ p.1.2 < q.1.2) ∨ (true = true ∧ p.1.1 = 0 ∧ q.1.1 = 1) := by decide +kernel
    exact h1 _ (uses hu) _ (takes hi) hs
  · have h1 : ∀ p ∈ used, ∀ q ∈ used, p.2 = q.2 → src p.1 = src q.1 → p.1 = q.1 ∨ (p.1.1 = q.1.1 ∧ p.1.2 < q.1.2) ∨ (q.1.1 = p.1.1 ∧ q.1.2 < p.1.2) := by decide +kernel
    rcases h1 _ (uses hu) _ (uses hv) rfl hs with h | h | h
    · exact .inl h
    · exact .inr (.inl (.inl h))
    · exact .inr (.inr (.inl h))

/-- No races: not between the write of the first thread and the copy by the second one, nor with what the third one does. -/
example (a b : MM.Ev 3) : ¬ Race (graph true) a b := C93_race_free exEnv_valid (by decide) (possible true) (executes true) disciplined a b
/-- The events are those that could race. -/
example : Accesses (graph true) (0, 6) 4100 ∧ Accesses (graph true) (1, 8) 4100 ∧ WritesByte (graph true) (0, 6) 4100 := ⟨.inr (.inl ⟨7, rfl⟩), .inl (.inr ⟨7, rfl⟩), .inl ⟨7, rfl⟩⟩
/-- Without synchronisation they do. -/
example : Race (graph false) (0, 6) (1, 8) := ⟨by decide, by simp [graph], by simp [graph], 4100, .inr (.inl ⟨7, rfl⟩), .inl (.inr ⟨7, rfl⟩), .inl (.inl ⟨7, rfl⟩)⟩
/-- So the contract for the program is not met then. -/
example (f : MM.Ev 3 → MM.Ev 3) : ¬ Disciplined (graph false) f := fun h =>
  C93_race_free exEnv_valid (by decide) (possible false) (executes false) h (0, 6) (1, 8) ⟨by decide, by simp [graph], by simp [graph], 4100, .inr (.inl ⟨7, rfl⟩), .inl (.inr ⟨7, rfl⟩), .inl (.inl ⟨7, rfl⟩)⟩

/-- The blocks before and after the second `realloc` overlap. -/
example : (∃ i d, Takes (graph true) i d ∧ src i = (1, 11) ∧ (graph true).hb i (1, 17)) ∨ ∃ i d, Takes (graph true) i d ∧ src i = (1, 17) ∧ (graph true).hb i (1, 11) :=
  C93_one_owner exEnv_valid (by decide) (possible true) (executes true) disciplined (b := ⟨4101, two⟩) (c := ⟨4101, u8L⟩) ⟨_, _, rfl, rfl⟩ ⟨_, _, rfl, rfl⟩ (by decide) (by rw [Region.disjoint_iff]; decide)
example : (⟨4103, 1⟩ : Region).Within ⟨4100, 64⟩ := C93_in_storage exEnv_valid (by decide) (possible true) (executes true) disciplined (r := (2, 9)) (b := ⟨4103, u8L⟩) ⟨_, _, rfl, rfl⟩
example : (Res.ptr 4101) ≠ .ub := C93_no_ub exEnv_valid (by decide) (possible true) (executes true) disciplined (a := (1, 11)) rfl

/-! ## Contents -/
def wrote : List (MM.Ev 3 × Nat) := [((0, 6), 4100), ((1, 9), 4101), ((1, 13), 4102), ((2, 7), 4103), ((2, 20), 4104)]

theorem writesByte {s : Bool} {w : MM.Ev 3} {p : Nat} (h : WritesByte (graph s) w p) : (w, p) ∈ wrote := by
  rcases h with ⟨v, h⟩ | ⟨v, h⟩ | ⟨r, h, h'⟩
  · have := forall_at (P := fun a x => (match x with | .userWrite p _ => decide ((a, p) ∈ wrote) | _ => true) = true) (by decide +kernel) h
    exact of_decide_eq_true this
  · have := forall_at (P := fun a x => (match x with | .write p _ => decide ((a, p) ∈ wrote) | _ => true) = true) (by decide +kernel) h
    exact of_decide_eq_true this
  · have := forall_at (P := fun a x => (match x with | .bump (.write r) => decide (a = (2, 20) ∧ r = ⟨4104, 1⟩) | _ => true) = true) (by decide +kernel) h
    obtain ⟨rfl, rfl⟩ := of_decide_eq_true this
    have : p = 4104 := by have h1 := h'.1; have h2 := h'.2; simp only at h1 h2; omega
    subst this
    decide

theorem visibleFrom (m : Mem) : ReadsVisibleFrom (graph true) m := by
  intro a p v h
  have hr : (a, p, v) ∈ [(((1, 8) : MM.Ev 3), 4100, (7 : Byte)), ((1, 12), 4101, 7), ((1, 14), 4102, 8), ((1, 18), 4101, 7), ((2, 10), 4103, 0), ((2, 23), 4104, 9)] := by
    rcases h with h | h
    · have := forall_at (P := fun a x => (match x with | .userRead p v => decide ((a, p, v) ∈ [(((1, 8) : MM.Ev 3), 4100, (7 : Byte)), ((1, 12), 4101, 7), ((1, 14), 4102, 8), ((1, 18), 4101, 7), ((2, 10), 4103, 0), ((2, 23), 4104, 9)]) | _ => true) = true) (by decide +kernel) h
      exact of_decide_eq_true this
    · have := forall_at (P := fun a x => (match x with | .read p v => decide ((a, p, v) ∈ [(((1, 8) : MM.Ev 3), 4100, (7 : Byte)), ((1, 12), 4101, 7), ((1, 14), 4102, 8), ((1, 18), 4101, 7), ((2, 10), 4103, 0), ((2, 23), 4104, 9)]) | _ => true) = true) (by decide +kernel) h
      exact of_decide_eq_true this
  have key : ∀ (w : MM.Ev 3) (a : MM.Ev 3) (p : Nat), (∀ q ∈ wrote, q.2 = p → q.1 = w) → ∀ w', WritesByte (graph true) w' p → ¬ ((graph true).hb w w' ∧ (graph true).hb w' a) := by
    intro w a p h w' hw hh
    cases h _ (writesByte hw) rfl
    exact (possible true).1.hb_irrefl _ hh.1
  simp only [List.mem_cons, Prod.mk.injEq, List.not_mem_nil, or_false] at hr
  rcases hr with ⟨rfl, rfl, rfl⟩ | ⟨rfl, rfl, rfl⟩ | ⟨rfl, rfl, rfl⟩ | ⟨rfl, rfl, rfl⟩ | ⟨rfl, rfl, rfl⟩ | ⟨rfl, rfl, rfl⟩
  · exact .inl ⟨(0, 6), .inl rfl, .inr (by decide), key _ _ _ (by decide)⟩
  · exact .inl ⟨(1, 9), .inr (.inl rfl), .inl (by decide), key _ _ _ (by decide)⟩
  · exact .inl ⟨(1, 13), .inl rfl, .inl (by decide), key _ _ _ (by decide)⟩
  · exact .inl ⟨(1, 9), .inr (.inl rfl), .inl (by decide), key _ _ _ (by decide)⟩
  · exact .inl ⟨(2, 7), .inr (.inl rfl), .inl (by decide), key _ _ _ (by decide)⟩
  · refine .inl ⟨(2, 20), .inr (.inr ⟨⟨4104, 1⟩, 15, .leak u8L [9], [9], rfl, by decide, ⟨by decide, rfl, fun i c h1 h2 h3 => ?_⟩, rfl, rfl⟩), .inl (by decide), key _ _ _ (by decide)⟩
    have := forall_at (s := true) (P := fun a x => (match x with | .bump (.invoke _) => decide (a.1 = 2 → 15 < a.2 → a.2 < 20 → False) | _ => true) = true) (by decide +kernel) h3
    exact of_decide_eq_true this rfl h1 h2

theorem visible : ReadsVisible (graph true) := fun a p v h => (visibleFrom (fun _ => 0) a p v h).imp id And.left

theorem userWrites {w : MM.Ev 3} {p : Nat} (h : UserWrites (graph true) w p) : (w, p) ∈ [((0, 6), 4100), ((1, 13), 4102)] := by
  obtain ⟨v, h⟩ := h
  have := forall_at (P := fun a x => (match x with | .userWrite p _ => decide ((a, p) ∈ [(((0, 6) : MM.Ev 3), 4100), ((1, 13), 4102)]) | _ => true) = true) (by decide +kernel) h
  exact of_decide_eq_true this

theorem untouched {a r : MM.Ev 3} {p : Nat} (h : p ≠ 4100 ∧ p ≠ 4102 := by decide) : Untouched (graph true) src a r p := by
  intro w hw
  have := userWrites hw
  simp only [List.mem_cons, Prod.mk.injEq, List.not_mem_nil, or_false] at this
  omega

/-- What the first thread wrote is in its block when the second one passes it to `realloc`, -/
theorem holds1 : Holds (graph true) src (1, 1) (0, 5) 0 7 := .written (b := ⟨4100, u8L⟩) (w := (0, 6)) ⟨_, _, rfl, rfl⟩ (by simp [Graph.At, graph, acts]) rfl (.inr (by decide)) fun w' hw _ _ => by
  have := userWrites hw
  simp only [List.mem_cons, Prod.mk.injEq, List.not_mem_nil, or_false] at this
  rcases this with h | h
  · exact .inl h.1
  · exact absurd h.2 (by decide)
theorem noRet1 (i k : Nat) (h : ∀ p ∈ [11, 17], ¬ (i < p ∧ p < k)) : ∀ j op r, i < j → j < k → ¬ (graph true).At (1, j) (.ret op r) := by
  intro j op r h1 h2 h3
  have := forall_at (s := true) (P := fun a x => (match x with | .ret _ _ => decide (a.1 = 1 → a.2 ∈ [11, 17]) | _ => true) = true) (by decide +kernel) h3
  exact h j (of_decide_eq_true this rfl) ⟨h1, h2⟩
/-- it is in the larger block, -/
theorem holds2 (a : MM.Ev 3) : Holds (graph true) src a (1, 11) 0 7 :=
  .kept (c := ⟨4100, u8L⟩) (b := ⟨4101, two⟩) (i := 1) rfl rfl (by decide) (noRet1 _ _ (by decide)) ⟨_, _, rfl, rfl⟩ (by decide) (by decide) untouched holds1
/-- and in the smaller one. -/
theorem holds3 (a : MM.Ev 3) : Holds (graph true) src a (1, 17) 0 7 :=
  .kept (c := ⟨4101, two⟩) (b := ⟨4101, u8L⟩) (i := 15) rfl rfl (by decide) (noRet1 _ _ (by decide)) ⟨_, _, rfl, rfl⟩ (by decide) (by decide) untouched (holds2 _)

/-- So whatever the last read returns, it is that: here in general, the value is that of the graph. -/
example {v : Byte} (h : (graph true).At (1, 18) (.userRead 4101 v)) : v = 7 :=
  C94_contents (o := 0) (b := ⟨4101, u8L⟩) exEnv_valid (by decide) (possible true) (executes true) disciplined visible h ⟨_, _, rfl, rfl⟩ (holds3 _)
/-- The zeroed byte, and the value. -/
example {v : Byte} (h : (graph true).At (2, 10) (.userRead 4103 v)) : v = 0 :=
  C94_contents (o := 0) (b := ⟨4103, u8L⟩) exEnv_valid (by decide) (possible true) (executes true) disciplined visible h ⟨_, _, rfl, rfl⟩ (.zeroed (l := u8L) (p := 4103) rfl (by decide) (by decide) untouched)
example {v : Byte} (h : (graph true).At (2, 23) (.userRead 4104 v)) : v = 9 :=
  C94_contents (o := 0) (b := ⟨4104, u8L⟩) exEnv_valid (by decide) (possible true) (executes true) disciplined visible h ⟨_, _, rfl, rfl⟩ (.value (call := .leak u8L [9]) (res := .ptr 4104) (reg := ⟨4104, 1⟩) (bytes := [9]) rfl (by decide) rfl rfl untouched)
example {v : Byte} (h : Holds (graph true) src (1, 15) (1, 11) 0 v) : v = 7 :=
  C94_unique (a := (1, 15)) (b := ⟨4101, two⟩) exEnv_valid (by decide) (possible true) (executes true) disciplined visible (.inr ⟨_, _, rfl, rfl⟩) ⟨_, _, rfl, rfl⟩ (by decide) h (holds2 _)

/-- A `realloc` that does not copy could not be executed: the thread would read 0 afterwards. -/
example : grun exEnv .start ((acts 1).take 8 ++ [.compute]) = none := by decide +kernel

/-! ## Interleavings -/

example : ∃ ord, (graph true).Order ord ∧ SequentiallyConsistent (graph true) ord := C95_sequentially_consistent exEnv_valid (by decide) (possible true) (executes true) disciplined visible
example (m : Mem) : ∃ ord, (graph true).Order ord ∧ ∀ P a Q, ord = P ++ a :: Q → Reachable exEnv (machineAfter exEnv (graph true) src m P) ∧ Same (graph true) (machineAfter exEnv (graph true) src m P) (machineAfter exEnv (graph true) src m (P ++ [a])) a :=
  C95_interleaving exEnv_valid (by decide) (possible true) (executes true) disciplined (visibleFrom m)
/-- One such order: the first thread, then the second, then the third. Afterwards the machine has these blocks, with the bytes that were read, and the same value of `consumed`. -/
def inOrder : List (MM.Ev 3) := ((List.finRange 3).map fun t => (List.range (acts t).length).map fun k => (t, k)).flatten
example : let s := machineAfter exEnv (graph true) src (fun _ => 0xaa) inOrder
    s.live = [⟨4104, u8L⟩, ⟨4101, u8L⟩] ∧ s.bump.consumed = 5 ∧ s.bump.mem 4101 = 7 ∧ s.bump.mem 4102 = 8 ∧ s.bump.mem 4103 = 0 ∧ s.bump.mem 4104 = 9 ∧ ∀ t, s.pc t = .idle := by decide +kernel

/-! ## From the machine to executions -/

/-- The program: two threads allocate at the same time, the first one writes to its block, the second one enlarges it (the byte is copied while the first one allocates again), reads the copy, and frees it. -/
def doings : List (Doing 2) :=
  [.invoke 0 (.alloc u8L), .step 0, .step 0, .invoke 1 (.alloc u8L), .step 1, .step 1, .step 1, .step 0, .step 1, .step 1, .step 0, .step 0, .step 0, .step 0,
   .write 0 ⟨4101, u8L⟩ 0 7, .other 0, .invoke 1 (.realloc ⟨4101, u8L⟩ 2), .step 1, .step 1, .invoke 0 (.allocZeroed u8L), .step 1, .step 1, .step 0, .step 1, .step 1, .step 1, .step 1, .step 1, .read 1 ⟨4102, two⟩ 0, .write 1 ⟨4102, two⟩ 1 8,
   .step 0, .invoke 1 (.dealloc ⟨4102, two⟩), .step 0, .step 0, .step 1, .step 1, .step 0, .step 0, .step 0, .step 0, .step 0, .read 0 ⟨4104, u8L⟩ 0]

def possibleNow {n : Nat} (s : Conc.State n) : Doing n → Bool
  | .invoke t op => s.pc t = .idle && (match op.takes with | some b => b ∈ s.live | none => true)
  | .step t => s.pc t ≠ .idle
  | .write t b off _ | .read t b off => s.pc t = .idle && b ∈ s.live && off < b.layout.size
  | .other t => s.pc t = .idle
def checkAll {n : Nat} (e : Env) : Conc.State n → List (Doing n) → Bool
  | _, [] => true
  | s, d :: ds => possibleNow s d && checkAll e (Conc.run e s d.events) ds
theorem checked {n : Nat} {e : Env} {s : Conc.State n} {ds : List (Doing n)} (h : checkAll e s ds = true) (hv : ∀ t op, Doing.invoke t op ∈ ds → op.Valid e.target) : AllPossible e s ds := by
  induction ds generalizing s with
  | nil => trivial
  | cons d ds ih =>
    simp only [checkAll, Bool.and_eq_true] at h
    refine ⟨?_, ih h.2 fun t op ho => hv t op (List.mem_cons_of_mem _ ho)⟩
    have h1 := h.1
    cases d with
    | invoke t op =>
      simp only [possibleNow, Bool.and_eq_true, decide_eq_true_eq] at h1
      refine ⟨h1.1, fun b hb => ?_, hv t op (List.mem_cons_self ..)⟩
      rw [Option.mem_def] at hb
      rw [hb] at h1
      simpa using h1.2
    | step t => simpa [possibleNow, Doing.Possible] using h1
    | write t b off v => simpa [possibleNow, Doing.Possible, and_assoc] using h1
    | read t b off => simpa [possibleNow, Doing.Possible, and_assoc] using h1
    | other t => simpa [possibleNow, Doing.Possible] using h1

theorem doings_possible : AllPossible exEnv (Conc.init 2 0 fun _ => 0xaa) doings :=
  checked (by decide +kernel) (fun t op ho => by
    simp only [doings, List.mem_cons, Doing.invoke.injEq, reduceCtorEq, false_or, or_false, List.not_mem_nil] at ho
    rcases ho with ⟨-, rfl⟩ | ⟨-, rfl⟩ | ⟨-, rfl⟩ | ⟨-, rfl⟩ | ⟨-, rfl⟩ 
    · exact ⟨⟨⟨0, rfl⟩, by decide⟩, by decide⟩
    · exact ⟨⟨⟨0, rfl⟩, by decide⟩, by decide⟩
    · exact Nat.succ_pos 1
    · exact ⟨⟨⟨0, rfl⟩, by decide⟩, by decide⟩
    · exact trivial)

/-- Its accesses to memory: the `compare_exchange` of the first thread fails at first; the byte is copied; the zeroed byte is read. -/
example : (actionsOf exEnv (Conc.init 2 0 fun _ => 0xaa) doings).filter (fun y => match y.2 with | .bump (.cas ..) | .read .. | .write .. | .userRead .. | .userWrite .. => true | _ => false) =
    [(1, .bump (.cas 0 1 0)), (0, .bump (.cas 0 1 1)), (0, .bump (.cas 1 2 1)), (0, .userWrite 4101 7), (1, .bump (.cas 0 2 2)), (1, .bump (.cas 2 4 2)), (1, .read 4101 7), (1, .write 4102 7), (1, .userRead 4102 7), (1, .userWrite 4103 8),
     (0, .bump (.cas 0 1 4)), (0, .bump (.cas 4 5 4)), (0, .write 4104 0), (0, .userRead 4104 0)] := by decide +kernel
example : ∃ (X : Graph 2 GAct) (src : MM.Ev 2 → MM.Ev 2) (ord : List (MM.Ev 2)), X.initial = 0 ∧ X.Order ord ∧ GPossible X ∧ GExecutes exEnv X ∧ Disciplined X src ∧ ReadsVisibleFrom X (fun _ => 0xaa) := by
  obtain ⟨X, src, ord, h1, h2, -, -, -, h3, h4, -, h5, h6, h7, -⟩ := C95_complete exEnv_valid (by decide) doings_possible
  exact ⟨X, src, ord, h1, h2, ⟨h3, .inl h4⟩, h5, h6, h7⟩

end Verif.CasesGR
