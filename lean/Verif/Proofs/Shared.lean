import Verif.Model.Shared
import Verif.Proofs.Linked
import Mathlib.Data.Fintype.EquivFin
/-!
# Proofs for shared structures
-/
set_option autoImplicit false
namespace Verif.Shared
open Linked (var Ended all all_append all_single all_set all_var var_lt set_var)
open RcM (RcBox plusOne minusOne)

/-! ## Pointers -/

theorem fieldsOf_eq (xs : List (Option Value)) : fieldsOf xs = all Value.fields xs := by
  unfold fieldsOf all
  congr 1
  funext o
  cases o <;> rfl

theorem ptrs_eq (xs : List (Option Ptr)) : xs.filterMap id = all (fun p => [p]) xs := by
  induction xs with
  | nil => rfl
  | cons x xs ih => cases x <;> simp_all [all]

theorem pointers_eq (s : Spec) : s.pointers = all (fun p => [p]) s.ptrs ++ all Value.fields s.vals ++ all Value.fields s.blocks ++ s.forgotten := by
  simp only [Spec.pointers, fieldsOf_eq, ptrs_eq]

theorem perm_count {xs ys : List Ptr} : xs.Perm ys ↔ ∀ a, xs.count a = ys.count a := List.perm_iff_count

theorem var_set_self {α : Type} {xs : List (Option α)} {i : Nat} (h : i < xs.length) (o : Option α) : var (xs.set i o) i = o := by
  unfold var; simp [h]
theorem var_set_ne {α : Type} {xs : List (Option α)} {i j : Nat} (h : i ≠ j) (o : Option α) : var (xs.set i o) j = var xs j := by
  unfold var; rw [List.getElem?_set_ne h]
theorem var_append_lt {α : Type} {xs ys : List (Option α)} {i : Nat} (h : i < xs.length) : var (xs ++ ys) i = var xs i := by
  unfold var; rw [List.getElem?_append_left h]

/-! ## The counters -/

/-- The counters of the blocks are the numbers of pointers in `ps`, and the values are those that exist. -/
structure CInv (ps : List Ptr) (sb : List (Option Value)) (mb : List (RcBox Value)) : Prop where
  len : mb.length = sb.length
  lt : ∀ p ∈ ps, p.block < sb.length
  strong : ∀ b x, mb[b]? = some x → x.strong = ps.count ⟨true, b⟩
  weak : ∀ b x, mb[b]? = some x → x.weak = ps.count ⟨false, b⟩ + (if 0 < ps.count ⟨true, b⟩ then 1 else 0)
  pos : ∀ b v, var sb b = some v → 0 < ps.count ⟨true, b⟩
  zero : ∀ b, var sb b = none → ps.count ⟨true, b⟩ = 0
  val : ∀ b x v, mb[b]? = some x → var sb b = some v → x.val = some v

section
variable {ps qs : List Ptr} {sb : List (Option Value)} {mb : List (RcBox Value)}

theorem CInv.perm (h : CInv ps sb mb) (hp : ps.Perm qs) : CInv qs sb mb := by
  have hc := perm_count.mp hp
  refine ⟨h.len, fun p hm => h.lt p (hp.mem_iff.mpr hm), ?_, ?_, ?_, ?_, h.val⟩
  · intro b x hx; rw [← hc]; exact h.strong b x hx
  · intro b x hx; rw [← hc, ← hc]; exact h.weak b x hx
  · intro b v hv; rw [← hc]; exact h.pos b v hv
  · intro b hv; rw [← hc]; exact h.zero b hv

theorem CInv.get (h : CInv ps sb mb) {b : Nat} (hb : b < sb.length) : ∃ x, mb[b]? = .some x :=
  ⟨mb[b]'(by rw [h.len]; exact hb), List.getElem?_eq_getElem _⟩

theorem CInv.exists (h : CInv ps sb mb) {b : Nat} (hb : 0 < ps.count ⟨true, b⟩) : ∃ v, var sb b = .some v := by
  cases hv : var sb b with
  | none => have := h.zero b hv; omega
  | some v => exact ⟨v, rfl⟩

/-- A change of block `b`. -/
theorem CInv.update (h : CInv ps sb mb) {b : Nat} (hb : b < sb.length) {o : Option Value} {x : RcBox Value}
    (hother : ∀ c, c ≠ b → ∀ k, qs.count ⟨k, c⟩ = ps.count ⟨k, c⟩)
    (hs : x.strong = qs.count ⟨true, b⟩) (hw : x.weak = qs.count ⟨false, b⟩ + (if 0 < qs.count ⟨true, b⟩ then 1 else 0))
    (ho : match o with | .some v => 0 < qs.count ⟨true, b⟩ ∧ x.val = .some v | .none => qs.count ⟨true, b⟩ = 0) :
    CInv qs (sb.set b o) (mb.set b x) := by
  have hget : ∀ c y, (mb.set b x)[c]? = .some y → (c = b ∧ y = x) ∨ (c ≠ b ∧ mb[c]? = .some y) := by
    intro c y hy
    by_cases hc : c = b
    · subst hc
      rw [List.getElem?_set_self (by rw [h.len]; exact hb)] at hy
      cases hy; exact .inl ⟨rfl, rfl⟩
    · rw [List.getElem?_set_ne (fun e => hc e.symm)] at hy
      exact .inr ⟨hc, hy⟩
  refine ⟨by simp [h.len], ?_, ?_, ?_, ?_, ?_, ?_⟩
  · intro p hp
    rw [List.length_set]
    by_cases hc : p.block = b
    · omega
    · have h1 : 0 < qs.count ⟨p.strong, p.block⟩ := List.count_pos_iff.mpr hp
      rw [hother _ hc] at h1
      exact h.lt p (List.count_pos_iff.mp h1)
  · intro c y hy
    rcases hget c y hy with ⟨rfl, rfl⟩ | ⟨hc, hy⟩
    · exact hs
    · rw [hother c hc]; exact h.strong c y hy
  · intro c y hy
    rcases hget c y hy with ⟨rfl, rfl⟩ | ⟨hc, hy⟩
    · exact hw
    · rw [hother c hc, hother c hc]; exact h.weak c y hy
  · intro c v hv
    by_cases hc : c = b
    · subst hc
      rw [var_set_self hb] at hv
      subst hv
      exact ho.1
    · rw [var_set_ne (fun e => hc e.symm)] at hv
      rw [hother c hc]; exact h.pos c v hv
  · intro c hv
    by_cases hc : c = b
    · subst hc
      rw [var_set_self hb] at hv
      subst hv
      exact ho
    · rw [var_set_ne (fun e => hc e.symm)] at hv
      rw [hother c hc]; exact h.zero c hv
  · intro c y v hy hv
    rcases hget c y hy with ⟨rfl, rfl⟩ | ⟨hc, hy⟩
    · rw [var_set_self hb] at hv
      subst hv
      exact ho.2
    · rw [var_set_ne (fun e => hc e.symm)] at hv
      exact h.val c y v hy hv

theorem set_same {α : Type} {xs : List (Option α)} {i : Nat} (h : i < xs.length) : xs.set i (var xs i) = xs := by
  have : var xs i = xs[i] := by unfold var; rw [List.getElem?_eq_getElem h]; rfl
  rw [this]; exact List.set_getElem_self h

/-- As `update`, where the value stays. -/
theorem CInv.counters (h : CInv ps sb mb) {b : Nat} {y x : RcBox Value} (hy : mb[b]? = .some y)
    (hother : ∀ c, c ≠ b → ∀ k, qs.count ⟨k, c⟩ = ps.count ⟨k, c⟩)
    (hs : x.strong = qs.count ⟨true, b⟩) (hw : x.weak = qs.count ⟨false, b⟩ + (if 0 < qs.count ⟨true, b⟩ then 1 else 0))
    (hpos : 0 < ps.count ⟨true, b⟩ ↔ 0 < qs.count ⟨true, b⟩) (hv : x.val = y.val) :
    CInv qs sb (mb.set b x) := by
  have hb : b < sb.length := by rw [← h.len]; exact (List.getElem?_eq_some_iff.mp hy).1
  rw [← set_same hb]
  refine h.update hb hother hs hw ?_
  cases hx : var sb b with
  | none => have := h.zero b hx; simp only; omega
  | some v => exact ⟨hpos.mp (h.pos b v hx), by rw [hv]; exact h.val b y v hy hx⟩

theorem count_cons_ne {p : Ptr} {k : Bool} {c : Nat} (h : c ≠ p.block) : (p :: ps).count ⟨k, c⟩ = ps.count ⟨k, c⟩ := by
  rw [List.count_cons_of_ne]
  intro e
  subst e
  exact h rfl

theorem count_cons_self' (b : Nat) : ((⟨true, b⟩ : Ptr) :: ps).count ⟨true, b⟩ = ps.count ⟨true, b⟩ + 1 ∧ ((⟨true, b⟩ : Ptr) :: ps).count ⟨false, b⟩ = ps.count ⟨false, b⟩ ∧
    ((⟨false, b⟩ : Ptr) :: ps).count ⟨true, b⟩ = ps.count ⟨true, b⟩ ∧ ((⟨false, b⟩ : Ptr) :: ps).count ⟨false, b⟩ = ps.count ⟨false, b⟩ + 1 := by
  simp

/-- Another strong pointer. -/
theorem CInv.addStrong (h : CInv ps sb mb) {b : Nat} {x : RcBox Value} (hx : mb[b]? = .some x) (h0 : 0 < ps.count ⟨true, b⟩) :
    CInv (⟨true, b⟩ :: ps) sb (mb.set b { x with strong := x.strong + 1 }) := by
  obtain ⟨c1, c2, _, _⟩ := count_cons_self' (ps := ps) b
  refine h.counters hx (fun c hc k => count_cons_ne hc) ?_ ?_ ?_ rfl
  · rw [c1, ← h.strong b x hx]
  · have := h.weak b x hx
    simp only [h0, if_true] at this
    simp only [c1, c2, this]
    simp
  · rw [c1]; omega

/-- Another weak pointer. -/
theorem CInv.addWeak (h : CInv ps sb mb) {b : Nat} {x : RcBox Value} (hx : mb[b]? = .some x) :
    CInv (⟨false, b⟩ :: ps) sb (mb.set b { x with weak := x.weak + 1 }) := by
  obtain ⟨_, _, c3, c4⟩ := count_cons_self' (ps := ps) b
  refine h.counters hx (fun c hc k => count_cons_ne hc) ?_ ?_ ?_ rfl
  · rw [c3, ← h.strong b x hx]
  · have := h.weak b x hx
    simp only [c3, c4, this]
    omega
  · rw [c3]

/-- A weak pointer is gone. -/
theorem CInv.dropWeak {b : Nat} (h : CInv (⟨false, b⟩ :: ps) sb mb) {x : RcBox Value} (hx : mb[b]? = .some x) :
    1 ≤ x.weak ∧ CInv ps sb (mb.set b { x with weak := x.weak - 1 }) := by
  obtain ⟨_, _, c3, c4⟩ := count_cons_self' (ps := ps) b
  have hw := h.weak b x hx
  have hs := h.strong b x hx
  rw [c3] at hs
  rw [c3, c4] at hw
  refine ⟨by omega, h.counters hx (fun c hc k => (count_cons_ne hc).symm) hs ?_ ?_ rfl⟩
  · simp only [hw]; omega
  · rw [c3]

/-- A strong pointer is gone, but not the last one. -/
theorem CInv.dropStrong {b : Nat} (h : CInv (⟨true, b⟩ :: ps) sb mb) {x : RcBox Value} (hx : mb[b]? = .some x) (h0 : 0 < ps.count ⟨true, b⟩) :
    CInv ps sb (mb.set b { x with strong := x.strong - 1 }) := by
  obtain ⟨c1, c2, _, _⟩ := count_cons_self' (ps := ps) b
  have hw := h.weak b x hx
  have hs := h.strong b x hx
  rw [c1] at hs
  rw [c1, c2] at hw
  refine h.counters hx (fun c hc k => (count_cons_ne hc).symm) ?_ ?_ ?_ rfl
  · simp only [hs]; omega
  · simp only [hw, h0]; simp
  · rw [c1]; omega

/-- The last strong pointer is gone. -/
theorem CInv.destroy {b : Nat} (h : CInv (⟨true, b⟩ :: ps) sb mb) {x : RcBox Value} (hx : mb[b]? = .some x) (h0 : ps.count ⟨true, b⟩ = 0) :
    x.strong = 1 ∧ 1 ≤ x.weak ∧ (∃ v, var sb b = .some v ∧ x.val = .some v) ∧ CInv ps (sb.set b .none) (mb.set b { x with strong := 0, weak := x.weak - 1 }) := by
  obtain ⟨c1, c2, _, _⟩ := count_cons_self' (ps := ps) b
  have hw := h.weak b x hx
  have hs := h.strong b x hx
  obtain ⟨v, hv⟩ := h.exists (b := b) (by rw [c1]; omega)
  rw [c1] at hs
  rw [c1, c2, h0] at hw
  simp only [Nat.zero_add, Nat.zero_lt_one, if_true] at hw
  refine ⟨by omega, by omega, ⟨v, hv, h.val b x v hx hv⟩, h.update (var_lt hv) (fun c hc k => (count_cons_ne hc).symm) ?_ ?_ h0⟩
  · simp [h0]
  · simp [h0, hw]

/-- The value is moved out, the pointer becomes a weak one. -/
theorem CInv.unwrap {b : Nat} (h : CInv (⟨true, b⟩ :: ps) sb mb) {x : RcBox Value} (hx : mb[b]? = .some x) (h0 : ps.count ⟨true, b⟩ = 0) :
    CInv (⟨false, b⟩ :: ps) (sb.set b .none) (mb.set b { x with strong := 0 }) := by
  obtain ⟨c1, c2, c3, c4⟩ := count_cons_self' (ps := ps) b
  have hw := h.weak b x hx
  obtain ⟨v, hv⟩ := h.exists (b := b) (by rw [c1]; omega)
  rw [c1, c2, h0] at hw
  simp only [Nat.zero_add, Nat.zero_lt_one, if_true] at hw
  refine h.update (var_lt hv) (fun c hc k => by rw [count_cons_ne hc, count_cons_ne hc]) ?_ ?_ ?_
  · simp [h0]
  · simp [h0, hw]
  · simp [h0]

/-- A new value in the memory of the last weak pointer. -/
theorem CInv.recycle {b : Nat} (h : CInv (⟨false, b⟩ :: ps) sb mb) {x : RcBox Value} (hx : mb[b]? = .some x) (hs : x.strong = 0) (hw : x.weak = 1) (y : Value) :
    CInv (⟨true, b⟩ :: ps) (sb.set b (.some y)) (mb.set b (.init y)) := by
  obtain ⟨c1, c2, c3, c4⟩ := count_cons_self' (ps := ps) b
  have hw' := h.weak b x hx
  have hs' := h.strong b x hx
  rw [c3] at hs'
  rw [c3, c4] at hw'
  have hb : b < sb.length := by rw [← h.len]; exact (List.getElem?_eq_some_iff.mp hx).1
  refine h.update hb (fun c hc k => by rw [count_cons_ne hc, count_cons_ne hc]) ?_ ?_ ?_
  · rw [c1]; simp only [RcBox.init]; omega
  · rw [c1, c2]; simp only [RcBox.init]
    have : ps.count ⟨false, b⟩ = 0 := by omega
    simp [this]
  · exact ⟨by rw [c1]; omega, rfl⟩

/-- The value changes. -/
theorem CInv.setVal (h : CInv ps sb mb) {b : Nat} {x : RcBox Value} {v : Value} (hx : mb[b]? = .some x) (hv : var sb b = .some v) (y : Value) :
    CInv ps (sb.set b (.some y)) (mb.set b { x with val := .some y }) :=
  h.update (var_lt hv) (fun _ _ _ => rfl) (h.strong b x hx) (h.weak b x hx) ⟨h.pos b v hv, rfl⟩

/-- A new block. -/
theorem CInv.new (h : CInv ps sb mb) (y : Value) : CInv (⟨true, sb.length⟩ :: ps) (sb ++ [.some y]) (mb ++ [.init y]) := by
  have hz : ∀ k, ps.count ⟨k, sb.length⟩ = 0 := fun k => List.count_eq_zero.mpr fun hm => Nat.lt_irrefl _ (h.lt _ hm)
  obtain ⟨c1, c2, _, _⟩ := count_cons_self' (ps := ps) sb.length
  have hlen := h.len
  have hget : ∀ c z, (mb ++ [RcBox.init y])[c]? = .some z → (c = sb.length ∧ z = .init y) ∨ (c < sb.length ∧ mb[c]? = .some z) := by
    intro c z hz
    by_cases hc : c < mb.length
    · rw [List.getElem?_append_left hc] at hz
      exact .inr ⟨by omega, hz⟩
    · rw [List.getElem?_append_right (by omega)] at hz
      obtain ⟨hl, he⟩ := List.getElem?_eq_some_iff.mp hz
      simp only [List.length_singleton] at hl
      refine .inl ⟨by omega, ?_⟩
      rw [← he]; simp
  have hvar : ∀ c, var (sb ++ [some y]) c = if c < sb.length then var sb c else if c = sb.length then .some y else .none := by
    intro c
    by_cases hc : c < sb.length
    · rw [if_pos hc, var_append_lt hc]
    · rw [if_neg hc]
      unfold var
      rw [List.getElem?_append_right (by omega)]
      by_cases he : c = sb.length
      · subst he; simp
      · rw [if_neg he, List.getElem?_eq_none (by simp; omega)]; rfl
  refine ⟨by simp [hlen], ?_, ?_, ?_, ?_, ?_, ?_⟩
  · intro p hp
    rw [List.length_append, List.length_singleton]
    rcases List.mem_cons.mp hp with rfl | hp
    · simp
    · have := h.lt p hp; omega
  · intro c z hcz
    rcases hget c z hcz with ⟨rfl, rfl⟩ | ⟨hc, hcz⟩
    · rw [c1, hz]; rfl
    · rw [count_cons_ne (by simp only; omega)]; exact h.strong c z hcz
  · intro c z hcz
    rcases hget c z hcz with ⟨rfl, rfl⟩ | ⟨hc, hcz⟩
    · rw [c1, c2, hz, hz]; rfl
    · rw [count_cons_ne (by simp only; omega), count_cons_ne (by simp only; omega)]; exact h.weak c z hcz
  · intro c v hv
    rw [hvar] at hv
    by_cases hc : c < sb.length
    · rw [if_pos hc] at hv
      rw [count_cons_ne (by simp only; omega)]; exact h.pos c v hv
    · rw [if_neg hc] at hv
      by_cases he : c = sb.length
      · subst he; rw [c1]; omega
      · rw [if_neg he] at hv; cases hv
  · intro c hv
    rw [hvar] at hv
    by_cases hc : c < sb.length
    · rw [if_pos hc] at hv
      rw [count_cons_ne (by simp only; omega)]; exact h.zero c hv
    · rw [if_neg hc] at hv
      by_cases he : c = sb.length
      · rw [if_pos he] at hv; cases hv
      · rw [count_cons_ne (by simp only; omega)]
        exact List.count_eq_zero.mpr fun hm => hc (h.lt _ hm)
  · intro c z v hcz hv
    rw [hvar] at hv
    rcases hget c z hcz with ⟨rfl, rfl⟩ | ⟨hc, hcz⟩
    · simp at hv; subst hv; rfl
    · rw [if_pos hc] at hv; exact h.val c z v hcz hv

end

/-! ## Dropping -/

theorem plusOne_ret {t : Target} {checks : Bool} {a : Nat} (h : a < t.usizeMax) : plusOne t checks a = .ret (a + 1) := by
  unfold plusOne
  rw [if_pos (by simp only [Target.usizeMax] at h; omega)]
theorem minusOne_ret {t : Target} {checks : Bool} {a : Nat} (h : 1 ≤ a) : minusOne t checks a = .ret (a - 1) := by
  unfold minusOne; rw [if_pos h]

/-- Steps of the specification, with the number of them. -/
inductive Steps (panics : Nat → Bool) : Nat → Bool → Spec → List Ptr → Bool → Spec → List Ptr → Prop
  | refl (u s P) : Steps panics 0 u s P u s P
  | step {n u s p rest u1 s1 r1 u2 s2 P2} : s.dropOne panics u p rest = (false, u1, s1, r1) → Steps panics n u1 s1 r1 u2 s2 P2 →
      Steps panics (n + 1) u s (p :: rest) u2 s2 P2

section
variable {panics : Nat → Bool}

theorem Steps.trans {n m u s P u1 s1 P1 u2 s2 P2} (h1 : Steps panics n u s P u1 s1 P1) (h2 : Steps panics m u1 s1 P1 u2 s2 P2) :
    Steps panics (n + m) u s P u2 s2 P2 := by
  induction h1 with
  | refl => rwa [Nat.zero_add]
  | step h _ ih => rw [Nat.add_right_comm]; exact .step h (ih h2)

theorem Steps.dropAll {n u s P u1 s1 P1} (h : Steps panics n u s P u1 s1 P1) (f : Nat) : s.dropAll panics (n + f) u P = s1.dropAll panics f u1 P1 := by
  induction h with
  | refl => rw [Nat.zero_add]
  | step h _ ih =>
    rw [Nat.add_right_comm]
    simp only [Spec.dropAll, h, ih]

/-- What dropping does not change. -/
def Frame (s s' : Spec) : Prop := s'.vals = s.vals ∧ s'.ptrs = s.ptrs ∧ s'.level = s.level ∧ s'.made = s.made ∧ s'.forgotten = s.forgotten ∧ s'.aborted = s.aborted

theorem dropOne_cases (u : Bool) (s : Spec) (p : Ptr) (rest : List Ptr) :
    s.dropOne panics u p rest = (false, u, s, rest) ∨
    (p.strong = true ∧ p ∉ s.pointers ++ rest ∧ ∃ v, var s.blocks p.block = some v ∧
      s.dropOne panics u p rest = (panics v.id && u, u || panics v.id, { s with blocks := s.blocks.set p.block none, log := s.log ++ [v.id] }, v.fields ++ rest)) := by
  by_cases h1 : p.strong = false ∨ p ∈ s.pointers ++ rest
  · exact .inl (by simp only [Spec.dropOne, h1, if_true])
  · cases hv : var s.blocks p.block with
    | none => exact .inl (by simp only [Spec.dropOne, h1, if_false, hv])
    | some v =>
      refine .inr ⟨by simpa using fun h => h1 (.inl h), fun h => h1 (.inr h), v, rfl, ?_⟩
      simp only [Spec.dropOne, h1, if_false, hv]

theorem dropOne_frame {u : Bool} {s : Spec} {p : Ptr} {rest : List Ptr} {a u1 : Bool} {s1 : Spec} {r1 : List Ptr} (h : s.dropOne panics u p rest = (a, u1, s1, r1)) : Frame s s1 := by
  rcases dropOne_cases (panics := panics) u s p rest with h1 | ⟨_, _, v, _, h1⟩
  all_goals
    rw [h1] at h
    simp only [Prod.mk.injEq] at h
    obtain ⟨_, _, rfl, _⟩ := h
    exact ⟨rfl, rfl, rfl, rfl, rfl, rfl⟩

theorem dropOne_length {u : Bool} {s : Spec} {p : Ptr} {rest : List Ptr} {a u1 : Bool} {s1 : Spec} {r1 : List Ptr} (h : s.dropOne panics u p rest = (a, u1, s1, r1)) :
    (s1.pointers ++ r1).length = (s.pointers ++ rest).length := by
  rcases dropOne_cases (panics := panics) u s p rest with h1 | ⟨_, _, v, hv, h1⟩
  all_goals
    rw [h1] at h
    simp only [Prod.mk.injEq] at h
    obtain ⟨_, _, rfl, rfl⟩ := h
  · rfl
  · have := (all_var (f := Value.fields) hv).length_eq
    simp only [pointers_eq, List.length_append] at this ⊢
    omega

theorem Frame.trans {s s1 s2 : Spec} (h : Frame s s1) (h' : Frame s1 s2) : Frame s s2 := by
  obtain ⟨a1, a2, a3, a4, a5, a6⟩ := h
  obtain ⟨b1, b2, b3, b4, b5, b6⟩ := h'
  exact ⟨b1.trans a1, b2.trans a2, b3.trans a3, b4.trans a4, b5.trans a5, b6.trans a6⟩

theorem Steps.frame {n u s P u1 s1 P1} (h : Steps panics n u s P u1 s1 P1) : Frame s s1 := by
  induction h with
  | refl => exact ⟨rfl, rfl, rfl, rfl, rfl, rfl⟩
  | step h _ ih => exact (dropOne_frame h).trans ih

/-- Every step takes one pointer away. -/
theorem Steps.length {n u s P u1 s1 P1} (h : Steps panics n u s P u1 s1 P1) : (s.pointers ++ P).length = n + (s1.pointers ++ P1).length := by
  induction h with
  | refl => rw [Nat.zero_add]
  | step h _ ih =>
    have := dropOne_length h
    rw [ih] at this
    simp only [List.length_append, List.length_cons] at this ⊢
    omega

/-- Existing values. -/
def alive (sb : List (Option Value)) : Nat := sb.countP Option.isSome

theorem alive_set {sb : List (Option Value)} {b : Nat} {v : Value} (h : var sb b = some v) : alive (sb.set b none) + 1 = alive sb := by
  induction sb generalizing b with
  | nil => simp [var] at h
  | cons o sb ih => cases b with
    | zero =>
      simp only [var, List.getElem?_cons_zero, Option.join_some] at h
      subst h
      simp [alive]
    | succ b =>
      have := ih (b := b) (by simpa [var] using h)
      simp only [alive, List.set_cons_succ, List.countP_cons] at this ⊢
      omega

theorem alive_le (sb : List (Option Value)) : alive sb ≤ sb.length := List.countP_le_length

/-- What an execution that drops the pointers `Q`, with result `r` and blocks and log `st`, is in the specification: steps from `Q ++ P` to `P`, or to an abort. -/
def Ends (panics : Nat → Bool) (u : Bool) (s : Spec) (Q P : List Ptr) (r : Ended) (st : State) : Prop :=
  match r with
  | .aborted => ∃ n u1 s1 q rest u2 s2 r2, Steps panics n u s (Q ++ P) u1 s1 (q :: rest) ∧ s1.dropOne panics u1 q rest = (true, u2, s2, r2) ∧ st.log = s2.log
  | r => ∃ n s1, Steps panics n u s (Q ++ P) (r = .unwound) s1 P ∧ CInv (s1.pointers ++ P) s1.blocks st.blocks ∧ st.log = s1.log ∧ alive s1.blocks ≤ alive s.blocks

/-- That `drop` does what the specification says, if less than `f` values exist. -/
def Drops (panics : Nat → Bool) (f : Nat) (drop : Bool → State → Ptr → Outcome (Ended × State)) : Prop :=
  ∀ u s st p P, CInv (s.pointers ++ (p :: P)) s.blocks st.blocks → st.log = s.log → alive s.blocks < f →
    ∃ r st', drop u st p = .ret (r, st') ∧ Ends panics u s [p] P r st'

theorem dropFields_spec {f : Nat} {drop : Bool → State → Ptr → Outcome (Ended × State)} (hd : Drops panics f drop) (fs : List Ptr) :
    ∀ u s st P, CInv (s.pointers ++ (fs ++ P)) s.blocks st.blocks → st.log = s.log → alive s.blocks < f →
      ∃ r st', dropFields drop u st fs = .ret (r, st') ∧ Ends panics u s fs P r st' := by
  induction fs with
  | nil =>
    intro u s st P h hl _
    cases u
    · exact ⟨_, _, rfl, 0, s, by simpa using Steps.refl (panics := panics) false s P, h, hl, Nat.le_refl _⟩
    · exact ⟨_, _, rfl, 0, s, by simpa using Steps.refl (panics := panics) true s P, h, hl, Nat.le_refl _⟩
  | cons p fs ih =>
    intro u s st P h hl ha
    obtain ⟨r, st', h1, h2⟩ := hd u s st p (fs ++ P) h hl ha
    simp only [dropFields, h1, bind, Outcome.bind]
    cases r with
    | aborted => exact ⟨_, _, rfl, h2⟩
    | ok =>
      obtain ⟨n, s1, e1, e2, e3, e4⟩ := h2
      obtain ⟨r', st'', g1, g2⟩ := ih false s1 st' P e2 e3 (by omega)
      refine ⟨r', st'', g1, ?_⟩
      simp only [reduceCtorEq, decide_false] at e1
      cases r' with
      | aborted =>
        obtain ⟨m, u1, s2, q, rest, u2, s3, r2, k1, k2, k3⟩ := g2
        exact ⟨n + m, u1, s2, q, rest, u2, s3, r2, e1.trans k1, k2, k3⟩
      | ok =>
        obtain ⟨m, s2, k1, k2, k3, k4⟩ := g2
        exact ⟨n + m, s2, e1.trans k1, k2, k3, by omega⟩
      | unwound =>
        obtain ⟨m, s2, k1, k2, k3, k4⟩ := g2
        exact ⟨n + m, s2, e1.trans k1, k2, k3, by omega⟩
    | unwound =>
      obtain ⟨n, s1, e1, e2, e3, e4⟩ := h2
      obtain ⟨r', st'', g1, g2⟩ := ih true s1 st' P e2 e3 (by omega)
      refine ⟨r', st'', g1, ?_⟩
      simp only [decide_true] at e1
      cases r' with
      | aborted =>
        obtain ⟨m, u1, s2, q, rest, u2, s3, r2, k1, k2, k3⟩ := g2
        exact ⟨n + m, u1, s2, q, rest, u2, s3, r2, e1.trans k1, k2, k3⟩
      | ok =>
        obtain ⟨m, s2, k1, k2, k3, k4⟩ := g2
        exact ⟨n + m, s2, e1.trans k1, k2, k3, by omega⟩
      | unwound =>
        obtain ⟨m, s2, k1, k2, k3, k4⟩ := g2
        exact ⟨n + m, s2, e1.trans k1, k2, k3, by omega⟩

/-- A single step that leaves the values. -/
theorem ends_of_step {u : Bool} {s : Spec} {p : Ptr} {P : List Ptr} {st : State} (h1 : s.dropOne panics u p P = (false, u, s, P))
    (h : CInv (s.pointers ++ P) s.blocks st.blocks) (hl : st.log = s.log) : Ends panics u s [p] P (if u then .unwound else .ok) st := by
  cases u
  · exact ⟨1, s, .step h1 (.refl _ _ _), h, hl, Nat.le_refl _⟩
  · exact ⟨1, s, .step h1 (.refl _ _ _), h, hl, Nat.le_refl _⟩

theorem dropPtr_spec {t : Target} {checks : Bool} (f : Nat) : Drops panics f (dropPtr t checks panics f) := by
  induction f with
  | zero => intro u s st p P _ _ h; omega
  | succ f ih =>
    intro u s st p P h hl ha
    have h : CInv (p :: (s.pointers ++ P)) s.blocks st.blocks := h.perm List.perm_middle
    obtain ⟨x, hx⟩ := h.get (h.lt p (by simp))
    simp only [dropPtr, hx]
    cases p with | mk k b =>
    cases k with
    | false =>
      obtain ⟨h1, h2⟩ := h.dropWeak hx
      simp only [RcBox.decWeak, minusOne_ret h1, bind, Outcome.bind, pure, Bool.false_eq_true, if_false]
      exact ⟨_, _, rfl, ends_of_step (by simp [Spec.dropOne]) h2 hl⟩
    | true =>
      have hs := h.strong b x hx
      rw [(count_cons_self' b).1] at hs
      simp only [if_true, RcBox.dropRc, RcBox.decStrong, minusOne_ret (show 1 ≤ x.strong by omega), bind, Outcome.bind, pure]
      by_cases h0 : (s.pointers ++ P).count ⟨true, b⟩ = 0
      · obtain ⟨g1, g2, ⟨v, g3, g4⟩, g5⟩ := h.destroy hx h0
        have hz : x.strong - 1 = 0 := by omega
        have hnot : (⟨true, b⟩ : Ptr) ∉ s.pointers ++ P := List.count_eq_zero.mp h0
        have hone : s.dropOne panics u ⟨true, b⟩ P = (panics v.id && u, u || panics v.id, { s with blocks := s.blocks.set b none, log := s.log ++ [v.id] }, v.fields ++ P) := by
          simp only [Spec.dropOne, hnot, g3, or_false, Bool.true_eq_false, if_false]
        simp only [hz, if_true, RcBox.decWeak, minusOne_ret g2, bind, Outcome.bind, pure, g4, dropValue, State.set, hl]
        rw [g4] at g5
        by_cases hp : (panics v.id && u) = true
        · rw [if_pos hp]
          rw [hp] at hone
          exact ⟨_, _, rfl, 0, u, s, ⟨true, b⟩, P, _, _, _, .refl _ _ _, hone, rfl⟩
        · rw [if_neg hp]
          have hp : (panics v.id && u) = false := by simpa using hp
          rw [hp] at hone
          have hal := alive_set g3
          have hnew : CInv (Spec.pointers { s with blocks := s.blocks.set b none, log := s.log ++ [v.id] } ++ (v.fields ++ P)) (s.blocks.set b none) (st.blocks.set b ⟨some v, 0, x.weak - 1⟩) := by
            refine g5.perm ?_
            have hf := perm_count.mp (all_var (f := Value.fields) g3)
            refine perm_count.mpr fun a => ?_
            have hf := hf a
            simp only [pointers_eq, List.count_append] at hf ⊢
            omega
          obtain ⟨r, st', k1, k2⟩ := dropFields_spec ih v.fields (u || panics v.id) { s with blocks := s.blocks.set b none, log := s.log ++ [v.id] }
            ⟨st.blocks.set b ⟨some v, 0, x.weak - 1⟩, s.log ++ [v.id]⟩ P hnew rfl (by simp only; omega)
          · refine ⟨r, st', k1, ?_⟩
            cases r with
            | aborted =>
              obtain ⟨m, u1, s2, q, rest, u2, s3, r2, k1, k2, k3⟩ := k2
              exact ⟨m + 1, u1, s2, q, rest, u2, s3, r2, .step hone k1, k2, k3⟩
            | ok =>
              obtain ⟨m, s2, k1, k2, k3, k4⟩ := k2
              exact ⟨m + 1, s2, .step hone k1, k2, k3, by simp only at k4; omega⟩
            | unwound =>
              obtain ⟨m, s2, k1, k2, k3, k4⟩ := k2
              exact ⟨m + 1, s2, .step hone k1, k2, k3, by simp only at k4; omega⟩
      · have hne : x.strong - 1 ≠ 0 := by omega
        simp only [hne, if_false, Bool.false_eq_true]
        refine ⟨_, _, rfl, ends_of_step ?_ (h.dropStrong hx (by omega)) hl⟩
        have : (⟨true, b⟩ : Ptr) ∈ s.pointers ++ P := List.count_pos_iff.mp (by omega)
        simp only [Spec.dropOne, this, or_true, if_true]
end

/-! ## Refinement -/

section
variable {panics : Nat → Bool}

theorem dropAll_nil (n : Nat) (u : Bool) (s : Spec) : s.dropAll panics n u [] = (if u then .unwound else .ok, s) := by cases n <;> rfl

/-- The specification reaches the same end. -/
theorem ends_dropAll {u : Bool} {s : Spec} {Q : List Ptr} {r : Ended} {st : State} (h : Ends panics u s Q [] r st) {n : Nat} (hn : n = s.pointers.length + Q.length) :
    (s.dropAll panics n u Q).1 = r ∧ (s.dropAll panics n u Q).2.log = st.log ∧ Frame s (s.dropAll panics n u Q).2 ∧
      (r ≠ .aborted → CInv (s.dropAll panics n u Q).2.pointers (s.dropAll panics n u Q).2.blocks st.blocks) := by
  cases r with
  | aborted =>
    obtain ⟨m, u1, s1, q, rest, u2, s2, r2, k1, k2, k3⟩ := h
    have hl := k1.length
    simp only [List.append_nil, List.length_append, List.length_cons] at hl
    have hn' : n = m + ((s1.pointers.length + rest.length) + 1) := by omega
    rw [List.append_nil] at k1
    rw [hn', k1.dropAll]
    simp only [Spec.dropAll, k2]
    exact ⟨trivial, k3.symm, k1.frame.trans (dropOne_frame k2), fun h => absurd rfl h⟩
  | ok =>
    obtain ⟨m, s1, k1, k2, k3, k4⟩ := h
    have hl := k1.length
    simp only [List.append_nil, List.length_append] at hl
    have hn' : n = m + s1.pointers.length := by omega
    rw [List.append_nil] at k1 k2
    rw [hn', k1.dropAll, dropAll_nil]
    exact ⟨by simp, k3.symm, k1.frame, fun _ => k2⟩
  | unwound =>
    obtain ⟨m, s1, k1, k2, k3, k4⟩ := h
    have hl := k1.length
    simp only [List.append_nil, List.length_append] at hl
    have hn' : n = m + s1.pointers.length := by omega
    rw [List.append_nil] at k1 k2
    rw [hn', k1.dropAll, dropAll_nil]
    exact ⟨by simp, k3.symm, k1.frame, fun _ => k2⟩

variable {e : Bump.Env} {s : Spec} {w : World}

/-- The states of the specification and of the model that belong together. -/
structure Ref (e : Bump.Env) (s : Spec) (w : World) : Prop where
  vals : w.vals = s.vals
  ptrs : w.ptrs = s.ptrs
  level : w.level = s.level
  made : w.made = s.made
  log : w.log = s.log
  aborted : w.aborted = s.aborted
  le : s.level ≤ e.len
  inv : CInv s.pointers s.blocks w.blocks

/-- An operation of the model does what the specification does. After an abort nothing but the log matters. -/
def Refines (e : Bump.Env) (r : Resp × Spec) (o : Outcome (Resp × World)) : Prop :=
  ∃ w', o = .ret (r.1, w') ∧ w'.log = r.2.log ∧ w'.aborted = r.2.aborted ∧ w'.made = r.2.made ∧ (r.2.aborted = false → Ref e r.2 w')

theorem Ref.refines {r : Resp} (h : Ref e s w) : Refines e (r, s) (.ret (r, w)) := ⟨w, rfl, h.log, h.aborted, h.made, fun _ => h⟩

theorem ref_finish {st : State} {r : Ended} {done : Resp} {Q : List Ptr} {u : Bool} {n : Nat} (hv : w.vals = s.vals) (hp : w.ptrs = s.ptrs) (hl : w.level = s.level) (hm : w.made = s.made)
    (hle : s.level ≤ e.len) (h : Ends panics u s Q [] r st) (hn : n = s.pointers.length + Q.length) :
    Refines e (Spec.finish (s.dropAll panics n u Q) done) (.ret (w.finish done (r, st))) := by
  obtain ⟨h1, h2, ⟨f1, f2, f3, f4, f5, f6⟩, h4⟩ := ends_dropAll h hn
  refine ⟨_, by simp only [Spec.finish, World.finish, h1]; rfl, ?_⟩
  refine ⟨h2.symm, by simp only [Spec.finish, h1], by simp only [Spec.finish, f4, hm], fun ha => ?_⟩
  simp only [Spec.finish, h1, decide_eq_false_iff_not] at ha
  exact ⟨by simp only [Spec.finish, f1, hv], by simp only [Spec.finish, f2, hp], by simp only [Spec.finish, f3, hl], by simp only [Spec.finish, f4, hm], h2.symm,
    by simp only [Spec.finish, h1], by simp only [Spec.finish, f3, hle], h4 ha⟩

theorem ref_dropPtr {t : Target} {checks : Bool} {q : Ptr} {done : Resp} (hv : w.vals = s.vals) (hp : w.ptrs = s.ptrs) (hl : w.level = s.level) (hm : w.made = s.made)
    (hlog : w.log = s.log) (hle : s.level ≤ e.len) (h : CInv (q :: s.pointers) s.blocks w.blocks) :
    Refines e (s.dropPtr panics q done) (do let r ← dropPtr t checks panics (w.blocks.length + 1) false ⟨w.blocks, w.log⟩ q; pure (w.finish done r)) := by
  have ha := alive_le s.blocks
  rw [← h.len] at ha
  obtain ⟨r, st, h1, h2⟩ := dropPtr_spec (panics := panics) (t := t) (checks := checks) (w.blocks.length + 1) false s ⟨w.blocks, w.log⟩ q []
    (h.perm (perm_count.mpr fun a => by simp only [List.count_append, List.count_cons, List.count_nil]; omega)) hlog (by omega)
  simp only [h1, bind, Outcome.bind, pure, Spec.dropPtr]
  exact ref_finish hv hp hl hm hle h2 (by simp)

theorem ref_dropVal {t : Target} {checks : Bool} {v : Value} {done : Resp} (hv : w.vals = s.vals) (hp : w.ptrs = s.ptrs) (hl : w.level = s.level) (hm : w.made = s.made)
    (hlog : w.log = s.log) (hle : s.level ≤ e.len) (h : CInv (s.pointers ++ v.fields) s.blocks w.blocks) :
    Refines e (s.dropVal panics v done) (w.dropVal t checks panics v done) := by
  have ha := alive_le s.blocks
  rw [← h.len] at ha
  obtain ⟨r, st, h1, h2⟩ := dropFields_spec (dropPtr_spec (panics := panics) (t := t) (checks := checks) (w.blocks.length + 1)) v.fields (panics v.id) { s with log := s.log ++ [v.id] }
    ⟨w.blocks, w.log ++ [v.id]⟩ [] (by rw [List.append_nil]; exact h) (by simp [hlog]) (by simp only; omega)
  simp only [World.dropVal, dropValue, Bool.and_false, Bool.false_or, if_false, h1, bind, Outcome.bind, pure, Spec.dropVal, Bool.false_eq_true]
  exact ref_finish (s := { s with log := s.log ++ [v.id] }) hv hp hl hm hle h2 rfl

/-- Pointers when a variable is added. -/
theorem pointers_add (s : Spec) (q : Ptr) : (s.add q).2.pointers.Perm (q :: s.pointers) := by
  refine perm_count.mpr fun a => ?_
  simp only [Spec.add, pointers_eq, all_append, all_single, List.count_append, List.count_cons, List.count_nil]
  omega

theorem ref_add {q : Ptr} (h : Ref e s w) (w' : World) (hw : w' = { w with blocks := w'.blocks }) (hi : CInv (q :: s.pointers) s.blocks w'.blocks) :
    Refines e (s.add q) (.ret (w'.add q)) := by
  obtain ⟨hv, hp, hl, hm, hg, ha, hle, _⟩ := h
  rw [hw]
  refine ⟨_, by simp only [Spec.add, World.add, hp]; rfl, ?_⟩
  refine ⟨hg, ha, hm, fun _ => ⟨hv, by simp only [Spec.add], hl, hm, hg, ha, hle, ?_⟩⟩
  exact hi.perm (pointers_add s q).symm

/-- The pointers in variables are among all. -/
theorem mem_ptrs {p : Nat} {q : Ptr} (h : var s.ptrs p = some q) : q ∈ s.pointers := by
  rw [pointers_eq]
  have := (all_var (f := fun p => [p]) h).mem_iff (a := q)
  simp only [List.mem_append]
  exact .inl (.inl (.inl (this.mpr (by simp))))
theorem mem_fields {b : Nat} {v : Value} {q : Ptr} (h : var s.blocks b = some v) (hq : q ∈ v.fields) : q ∈ s.pointers := by
  rw [pointers_eq]
  have := (all_var (f := Value.fields) h).mem_iff (a := q)
  simp only [List.mem_append]
  exact .inl (.inr (this.mpr (by simp [hq])))

theorem ref_clone {checks : Bool} (h : Ref e s w) (hf : s.Few e.target) {q : Ptr} (hq : q ∈ s.pointers) : Refines e (s.add q) (w.clone e.target checks q) := by
  obtain ⟨x, hx⟩ := h.inv.get (h.inv.lt q hq)
  obtain ⟨f1, f2⟩ := hf q.block
  have h1 := h.inv.strong _ x hx
  have h2 := h.inv.weak _ x hx
  have hpos : 0 < s.pointers.count q := List.count_pos_iff.mpr hq
  simp only [World.clone, World.block, hx, bind, Outcome.bind, pure]
  cases q with | mk k b =>
  cases k with
  | true =>
    have h3 : x.strong < e.target.usizeMax := by rw [h1]; exact f1
    simp only [if_true, RcBox.incStrong, plusOne_ret h3, bind, Outcome.bind, pure]
    exact ref_add h _ rfl (h.inv.addStrong hx hpos)
  | false =>
    have h3 : x.weak < e.target.usizeMax := by rw [h2]; exact f2
    simp only [Bool.false_eq_true, if_false, RcBox.incWeak, plusOne_ret h3, bind, Outcome.bind, pure]
    exact ref_add h _ rfl (h.inv.addWeak hx)

theorem strong_none (h : Ref e s w) {p : Nat} (hp : w.strong p = none) : s.target p = none := by
  simp only [World.strong, h.ptrs] at hp
  unfold Spec.target
  cases hv : var s.ptrs p with
  | none => rfl
  | some q =>
    cases q with | mk k b =>
    cases k with
    | true => simp [hv] at hp
    | false => rfl

theorem strong_some (h : Ref e s w) {p b : Nat} (hp : w.strong p = some b) :
    var s.ptrs p = some ⟨true, b⟩ ∧ ∃ v x, var s.blocks b = some v ∧ s.target p = some (b, v) ∧ w.blocks[b]? = some x ∧ x.val = some v ∧ w.value b = .ret v := by
  simp only [World.strong, h.ptrs] at hp
  cases hv : var s.ptrs p with
  | none => simp [hv] at hp
  | some q =>
    cases q with | mk k c =>
    cases k with
    | false => simp [hv] at hp
    | true =>
      simp only [hv, Option.some.injEq] at hp
      subst hp
      have hm := mem_ptrs hv
      obtain ⟨v, h1⟩ := h.inv.exists (b := c) (List.count_pos_iff.mpr hm)
      obtain ⟨x, hx⟩ := h.inv.get (var_lt h1)
      have hval := h.inv.val c x v hx h1
      refine ⟨rfl, v, x, h1, by simp only [Spec.target, hv, h1, Option.map_some], hx, hval, ?_⟩
      cases x with | mk a b' c' =>
      simp only at hval
      subst hval
      simp only [World.value, hx]

theorem ref_setVal {b : Nat} {x : RcBox Value} (hx : w.blocks[b]? = some x) (y : Value) :
    w.setVal b y = .ret (w.set b { x with val := some y }) := by
  simp only [World.setVal, World.block, hx, bind, Outcome.bind, pure]

theorem eraseIdx_count {xs : List Ptr} {i : Nat} {q : Ptr} (h : xs[i]? = some q) (a : Ptr) : xs.count a = (q :: xs.eraseIdx i).count a := by
  induction xs generalizing i with
  | nil => simp at h
  | cons x xs ih => cases i with
    | zero => simp only [List.getElem?_cons_zero, Option.some.injEq] at h; subst h; rfl
    | succ i =>
      have := ih (i := i) (by simpa using h)
      simp only [List.eraseIdx_cons_succ, List.count_cons] at this ⊢
      omega

theorem ref_exec {checks : Bool} (hv : e.Valid) (h : Ref e s w) (hf : s.Few e.target) {op : Op} (ho : op.Valid e.target) :
    Refines e (s.exec e.slab panics op) (exec e checks panics w op) := by
  have hr := h
  obtain ⟨hvals, hptrs, hlevel, hmade, hlog, hab, hle, hinv⟩ := h
  cases op with
  | make =>
    refine ⟨_, by simp only [exec, Spec.exec, pure, hvals]; rfl, ?_⟩
    refine ⟨hlog, hab, by simp [Spec.exec, hmade], fun _ => ⟨by simp [Spec.exec, hmade], hptrs, hlevel, by simp [Spec.exec, hmade], hlog, hab, hle, ?_⟩⟩
    refine hinv.perm ?_
    refine perm_count.mpr fun a => ?_
    simp only [Spec.exec, pointers_eq, all_append, all_single, List.count_append, List.count_nil]
    omega
  | alloc L =>
    have ht := Bump.tryAllocSeq_spec hv (c := s.level) hle ho.2 (Bump.Valid.align_pos ho.1)
    simp only [exec, Spec.exec, hlevel, ht]
    cases hp : e.slab.place L s.level with
    | none => exact Ref.refines ⟨hvals, hptrs, rfl, hmade, hlog, hab, hle, hinv⟩
    | some a =>
      have hq := hp
      rw [Slab.place_eq_some] at hq
      obtain ⟨k1, k2, k3⟩ := hq
      have := le_alignUp (Bump.Valid.align_pos ho.1) (e.slab.base + s.level)
      have hbase : e.slab.base = e.base := rfl
      have hlen : e.slab.len = e.len := rfl
      exact Ref.refines ⟨hvals, hptrs, rfl, hmade, hlog, hab, by simp only; omega, hinv⟩
  | rc v L =>
    simp only [exec, Spec.exec, hvals]
    cases hx : var s.vals v with
    | none => exact hr.refines
    | some x =>
      have ht := Bump.tryAllocSeq_spec hv (c := s.level) hle ho.2 (Bump.Valid.align_pos ho.1)
      have hperm := perm_count.mp (all_var (f := Value.fields) hx)
      simp only [hlevel, ht]
      cases hp : e.slab.place L s.level with
      | none =>
        refine ref_dropVal rfl hptrs rfl hmade hlog hle ?_
        refine hinv.perm (perm_count.mpr fun a => ?_)
        have hperm := hperm a
        simp only [pointers_eq, List.count_append] at hperm ⊢
        omega
      | some a =>
        have hq := hp
        rw [Slab.place_eq_some] at hq
        obtain ⟨k1, k2, k3⟩ := hq
        have := le_alignUp (Bump.Valid.align_pos ho.1) (e.slab.base + s.level)
        have hbase : e.slab.base = e.base := rfl
        have hlen : e.slab.len = e.len := rfl
        simp only [bind, Outcome.bind, pure, World.add, Spec.add, hptrs, hinv.len]
        refine Ref.refines ⟨rfl, rfl, rfl, hmade, hlog, hab, by simp only; omega, ?_⟩
        refine (hinv.new x).perm (perm_count.mpr fun a => ?_)
        have hperm := hperm a
        simp only [pointers_eq, all_append, all_single, List.count_append, List.count_cons, List.count_nil] at hperm ⊢
        omega
  | clone p =>
    simp only [exec, Spec.exec, hptrs]
    cases hx : var s.ptrs p with
    | none => exact hr.refines
    | some q => exact ref_clone hr hf (mem_ptrs hx)
  | downgrade p =>
    simp only [exec, Spec.exec, World.strong, hptrs]
    cases hx : var s.ptrs p with
    | none => exact hr.refines
    | some q =>
      cases q with | mk k b =>
      cases k with
      | false => exact hr.refines
      | true =>
        obtain ⟨x, hb⟩ := hinv.get (hinv.lt _ (mem_ptrs hx))
        have h3 : x.weak < e.target.usizeMax := by rw [hinv.weak b x hb]; exact (hf b).2
        simp only [World.block, hb, bind, Outcome.bind, pure, RcBox.incWeak, plusOne_ret h3]
        exact ref_add hr _ rfl (hinv.addWeak hb)
  | upgrade p =>
    simp only [exec, Spec.exec, hptrs]
    cases hx : var s.ptrs p with
    | none => exact hr.refines
    | some q =>
      cases q with | mk k b =>
      cases k with
      | true => exact hr.refines
      | false =>
        obtain ⟨x, hb⟩ := hinv.get (hinv.lt _ (mem_ptrs hx))
        have h1 := hinv.strong b x hb
        have h3 : x.strong < e.target.usizeMax := by rw [h1]; exact (hf b).1
        simp only [World.block, hb, bind, Outcome.bind, pure]
        by_cases hz : x.strong = 0
        · have hz' : ¬ 0 < s.strongs b := by unfold Spec.strongs; omega
          rw [if_pos hz, if_neg hz']
          exact hr.refines
        · have hz' : 0 < s.strongs b := by unfold Spec.strongs; omega
          rw [if_neg hz, if_pos hz']
          simp only [RcBox.incStrong, plusOne_ret h3, bind, Outcome.bind, pure]
          exact ref_add hr _ rfl (hinv.addStrong hb hz')
  | attach v p =>
    simp only [exec, Spec.exec, hvals, hptrs]
    cases hx : var s.vals v with
    | none => exact hr.refines
    | some x =>
      cases hy : var s.ptrs p with
      | none => exact hr.refines
      | some q =>
        refine Ref.refines ⟨rfl, rfl, hlevel, hmade, hlog, hab, hle, ?_⟩
        refine hinv.perm (perm_count.mpr fun a => ?_)
        have h1 := perm_count.mp (all_var (f := Value.fields) hx) a
        have h2 := perm_count.mp (all_var (f := fun p => [p]) hy) a
        have h3 := perm_count.mp (all_set (f := Value.fields) (var_lt hx) (some { x with fields := x.fields ++ [q] })) a
        simp only [pointers_eq, Option.elim_some, List.count_append] at h1 h2 h3 ⊢
        omega
  | unpack v i =>
    simp only [exec, Spec.exec, hvals]
    cases hx : var s.vals v with
    | none => exact hr.refines
    | some x =>
      simp only
      cases hk : x.fields[i]? with
      | none => exact hr.refines
      | some q =>
        simp only [pure, World.add, Spec.add, hptrs]
        refine Ref.refines ⟨rfl, rfl, hlevel, hmade, hlog, hab, hle, ?_⟩
        refine hinv.perm (perm_count.mpr fun a => ?_)
        have h1 := perm_count.mp (all_var (f := Value.fields) hx) a
        have h2 := eraseIdx_count hk a
        have h3 := perm_count.mp (all_set (f := Value.fields) (var_lt hx) (some { x with fields := x.fields.eraseIdx i })) a
        simp only [pointers_eq, Option.elim_some, all_append, all_single, List.count_append, List.count_cons, List.count_nil] at h1 h2 h3 ⊢
        omega
  | push p k =>
    simp only [exec, Spec.exec]
    cases hp : w.strong p with
    | none => rw [strong_none hr hp]; exact hr.refines
    | some b =>
      obtain ⟨_, v, x, g1, g2, g3, g4, g5⟩ := strong_some hr hp
      simp only [g2, g5, bind, Outcome.bind, hptrs]
      cases hk : (if p = k then none else var s.ptrs k) with
      | none => exact hr.refines
      | some q =>
        have hk' : var s.ptrs k = some q := by
          by_cases hpk : p = k
          · rw [if_pos hpk] at hk; cases hk
          · rwa [if_neg hpk] at hk
        simp only [ref_setVal g3, pure]
        refine Ref.refines ⟨hvals, by simp [World.set, hptrs], hlevel, hmade, hlog, hab, hle, ?_⟩
        refine (hinv.setVal g3 g1 _).perm (perm_count.mpr fun a => ?_)
        have h1 := perm_count.mp (all_var (f := Value.fields) g1) a
        have h2 := perm_count.mp (all_var (f := fun p => [p]) hk') a
        have h3 := perm_count.mp (all_set (f := Value.fields) (var_lt g1) (some { v with fields := v.fields ++ [q] })) a
        simp only [pointers_eq, Option.elim_some, List.count_append] at h1 h2 h3 ⊢
        omega
  | pull p i =>
    simp only [exec, Spec.exec]
    cases hp : w.strong p with
    | none => rw [strong_none hr hp]; exact hr.refines
    | some b =>
      obtain ⟨_, v, x, g1, g2, g3, g4, g5⟩ := strong_some hr hp
      simp only [g2, g5, bind, Outcome.bind]
      cases hk : v.fields[i]? with
      | none => exact hr.refines
      | some q =>
        simp only [ref_setVal g3, pure, World.add, Spec.add, World.set, hptrs]
        refine Ref.refines ⟨hvals, rfl, hlevel, hmade, hlog, hab, hle, ?_⟩
        refine (hinv.setVal g3 g1 _).perm (perm_count.mpr fun a => ?_)
        have h1 := perm_count.mp (all_var (f := Value.fields) g1) a
        have h2 := eraseIdx_count hk a
        have h3 := perm_count.mp (all_set (f := Value.fields) (var_lt g1) (some { v with fields := v.fields.eraseIdx i })) a
        simp only [pointers_eq, Option.elim_some, all_append, all_single, List.count_append, List.count_cons, List.count_nil] at h1 h2 h3 ⊢
        omega
  | follow p i =>
    simp only [exec, Spec.exec]
    cases hp : w.strong p with
    | none => rw [strong_none hr hp]; exact hr.refines
    | some b =>
      obtain ⟨_, v, x, g1, g2, g3, g4, g5⟩ := strong_some hr hp
      simp only [g2, g5, bind, Outcome.bind]
      cases hk : v.fields[i]? with
      | none => exact hr.refines
      | some q => exact ref_clone hr hf (mem_fields g1 (List.mem_of_getElem? hk))
  | read p =>
    simp only [exec, Spec.exec]
    cases hp : w.strong p with
    | none => rw [strong_none hr hp]; exact hr.refines
    | some b =>
      obtain ⟨_, v, x, g1, g2, g3, g4, g5⟩ := strong_some hr hp
      simp only [g2, g5, bind, Outcome.bind]
      exact hr.refines
  | counts p =>
    simp only [exec, Spec.exec, hptrs]
    cases hx : var s.ptrs p with
    | none => exact hr.refines
    | some q =>
      obtain ⟨x, hb⟩ := hinv.get (hinv.lt _ (mem_ptrs hx))
      simp only [World.block, hb, bind, Outcome.bind, pure, hinv.strong _ x hb, hinv.weak _ x hb]
      exact hr.refines
  | ptrEq p q =>
    simp only [exec, Spec.exec, World.strong, hptrs]
    cases hx : var s.ptrs p with
    | none => exact hr.refines
    | some a =>
      cases hy : var s.ptrs q with
      | none =>
        cases a with | mk k b => cases k <;> exact hr.refines
      | some c =>
        cases a with | mk k b =>
        cases c with | mk l d =>
        cases k <;> cases l <;> exact hr.refines
  | replace p v =>
    simp only [exec, Spec.exec, hvals]
    cases hp : w.strong p with
    | none => rw [strong_none hr hp]; exact hr.refines
    | some b =>
      obtain ⟨_, o, x, g1, g2, g3, g4, g5⟩ := strong_some hr hp
      simp only [g2]
      cases hy : var s.vals v with
      | none => exact hr.refines
      | some y =>
        have h1 := hinv.strong b x g3
        have h2 := hinv.weak b x g3
        simp only [World.block, g3, bind, Outcome.bind]
        by_cases hu : s.strongs b = 1 ∧ s.weaks b = 1
        · have hu' : x.isUnique = true := by
            unfold RcBox.isUnique; rw [h1, h2]; simpa [Spec.strongs, Spec.weaks] using hu
          rw [if_pos hu, if_pos hu']
          simp only [g5, ref_setVal g3, pure]
          refine Ref.refines ⟨by simp [World.set, hvals], hptrs, hlevel, hmade, hlog, hab, hle, ?_⟩
          refine (hinv.setVal g3 g1 _).perm (perm_count.mpr fun a => ?_)
          have k1 := perm_count.mp (all_var (f := Value.fields) g1) a
          have k2 := perm_count.mp (all_var (f := Value.fields) hy) a
          have k3 := perm_count.mp (all_set (f := Value.fields) (var_lt g1) (some y)) a
          have k4 := perm_count.mp (all_set (f := Value.fields) (var_lt hy) (some o)) a
          simp only [pointers_eq, Option.elim_some, List.count_append] at k1 k2 k3 k4 ⊢
          omega
        · have hu' : ¬ x.isUnique = true := by
            unfold RcBox.isUnique; rw [h1, h2]; simpa [Spec.strongs, Spec.weaks] using hu
          rw [if_neg hu, if_neg hu']
          exact hr.refines
  | tryUnwrap p =>
    simp only [exec, Spec.exec]
    cases hp : w.strong p with
    | none => rw [strong_none hr hp]; exact hr.refines
    | some b =>
      obtain ⟨g0, v, x, g1, g2, g3, g4, g5⟩ := strong_some hr hp
      have h1 := hinv.strong b x g3
      simp only [g2, World.block, g3, bind, Outcome.bind]
      by_cases hu : s.strongs b = 1
      · have hu' : ¬ x.strong ≠ 1 := fun hne => hne (by rw [h1]; exact hu)
        rw [if_pos hu, if_neg hu']
        have h1' : x.strong = 1 := by rw [h1]; exact hu
        simp only [RcBox.decStrong, minusOne_ret (show 1 ≤ x.strong by omega), bind, Outcome.bind, pure, g5, hvals, hptrs, World.set]
        refine Ref.refines ⟨rfl, rfl, hlevel, hmade, hlog, hab, hle, ?_⟩
        have k1 := perm_count.mp (all_var (f := fun p : Ptr => [p]) g0)
        have k2 := perm_count.mp (all_var (f := Value.fields) g1)
        have k3 := perm_count.mp (all_set (f := fun p : Ptr => [p]) (var_lt g0) (some ⟨false, b⟩))
        have hA : CInv (⟨true, b⟩ :: (all (fun p => [p]) (s.ptrs.set p none) ++ all Value.fields s.vals ++ all Value.fields s.blocks ++ s.forgotten)) s.blocks w.blocks := by
          refine hinv.perm (perm_count.mpr fun a => ?_)
          have k1 := k1 a
          simp only [pointers_eq, List.count_append, List.count_cons, List.count_nil] at k1 ⊢
          omega
        have hz := hinv.strong b x g3
        have hA0 := hA.strong b x g3
        rw [(count_cons_self' b).1] at hA0
        have hB := hA.unwrap g3 (by omega)
        have hx0 : x.strong - 1 = 0 := by omega
        rw [hx0]
        refine hB.perm (perm_count.mpr fun a => ?_)
        have k1 := k1 a; have k2 := k2 a; have k3 := k3 a
        simp only [pointers_eq, Option.elim_some, all_append, all_single, List.count_append, List.count_cons, List.count_nil] at k1 k2 k3 ⊢
        omega
      · have hu' : x.strong ≠ 1 := fun he => hu (by unfold Spec.strongs; rw [← h1]; exact he)
        rw [if_neg hu, if_pos hu']
        exact hr.refines
  | recycle p v =>
    simp only [exec, Spec.exec, hptrs, hvals]
    cases hx : var s.ptrs p with
    | none => exact hr.refines
    | some q =>
      cases hy : var s.vals v with
      | none => cases q with | mk k b => cases k <;> exact hr.refines
      | some y =>
        cases q with | mk k b =>
        cases k with
        | true => exact hr.refines
        | false =>
          obtain ⟨x, hb⟩ := hinv.get (hinv.lt _ (mem_ptrs hx))
          have h1 := hinv.strong b x hb
          have h2 := hinv.weak b x hb
          simp only [World.block, hb, bind, Outcome.bind]
          by_cases hu : s.strongs b = 0 ∧ s.weaks b = 1
          · have hu' : x.isUniqueToRcMemory = true := by
              unfold RcBox.isUniqueToRcMemory; rw [h1, h2]; simpa [Spec.strongs, Spec.weaks] using hu
            rw [if_pos hu, if_pos hu']
            have hs0 : x.strong = 0 := by rw [h1]; exact hu.1
            have hw1 : x.weak = 1 := by rw [h2]; exact hu.2
            simp only [RcBox.decWeak, minusOne_ret (show 1 ≤ x.weak by omega), bind, Outcome.bind, pure, World.set]
            refine Ref.refines ⟨rfl, rfl, hlevel, hmade, hlog, hab, hle, ?_⟩
            have k1 := perm_count.mp (all_var (f := fun p : Ptr => [p]) hx)
            have k2 := perm_count.mp (all_var (f := Value.fields) hy)
            have k3 := perm_count.mp (all_set (f := fun p : Ptr => [p]) (var_lt hx) (some ⟨true, b⟩))
            have hA : CInv (⟨false, b⟩ :: (all (fun p => [p]) (s.ptrs.set p none) ++ all Value.fields s.vals ++ all Value.fields s.blocks ++ s.forgotten)) s.blocks w.blocks := by
              refine hinv.perm (perm_count.mpr fun a => ?_)
              have k1 := k1 a
              simp only [pointers_eq, List.count_append, List.count_cons, List.count_nil] at k1 ⊢
              omega
            have hlt : b < s.blocks.length := hinv.lt _ (mem_ptrs hx)
            have k4 := perm_count.mp (all_set (f := Value.fields) hlt (some y))
            have hnone : s.blocks.set b none = s.blocks := by
              have hvn : var s.blocks b = none := by
                cases hvb : var s.blocks b with
                | none => rfl
                | some z => have := hinv.pos b z hvb; omega
              have := set_same hlt
              rwa [hvn] at this
            rw [hnone] at k4
            refine (hA.recycle hb hs0 hw1 y).perm (perm_count.mpr fun a => ?_)
            have k1 := k1 a; have k2 := k2 a; have k3 := k3 a; have k4 := k4 a
            simp only [pointers_eq, Option.elim_some, List.count_append, List.count_cons, List.count_nil] at k1 k2 k3 k4 ⊢
            omega
          · have hu' : ¬ x.isUniqueToRcMemory = true := by
              unfold RcBox.isUniqueToRcMemory; rw [h1, h2]; simpa [Spec.strongs, Spec.weaks] using hu
            rw [if_neg hu, if_neg hu']
            exact hr.refines
  | dropPtr p =>
    simp only [exec, Spec.exec, hptrs]
    cases hx : var s.ptrs p with
    | none => exact hr.refines
    | some q =>
      refine ref_dropPtr (w := { w with ptrs := s.ptrs.set p none }) hvals rfl hlevel hmade hlog hle ?_
      refine hinv.perm (perm_count.mpr fun a => ?_)
      have k1 := perm_count.mp (all_var (f := fun p : Ptr => [p]) hx) a
      simp only [pointers_eq, List.count_append, List.count_cons, List.count_nil] at k1 ⊢
      omega
  | dropVal v =>
    simp only [exec, Spec.exec, hvals]
    cases hx : var s.vals v with
    | none => exact hr.refines
    | some x =>
      refine ref_dropVal rfl hptrs hlevel hmade hlog hle ?_
      refine hinv.perm (perm_count.mpr fun a => ?_)
      have hperm := perm_count.mp (all_var (f := Value.fields) hx) a
      simp only [pointers_eq, List.count_append] at hperm ⊢
      omega
  | forget p =>
    simp only [exec, Spec.exec, hptrs]
    cases hx : var s.ptrs p with
    | none => exact hr.refines
    | some q =>
      refine Ref.refines ⟨hvals, rfl, hlevel, hmade, hlog, hab, hle, ?_⟩
      refine hinv.perm (perm_count.mpr fun a => ?_)
      have k1 := perm_count.mp (all_var (f := fun p : Ptr => [p]) hx) a
      simp only [pointers_eq, List.count_append, List.count_cons, List.count_nil] at k1 ⊢
      omega

theorem ref_run {checks : Bool} (hv : e.Valid) (ops : List Op) (ho : ∀ op ∈ ops, op.Valid e.target) (h : Ref e s w)
    (hf : ∀ k < ops.length, (s.run e.slab panics (ops.take k)).2.Few e.target) (ha : s.aborted = false) :
    ∃ w', run e checks panics w ops = .ret ((s.run e.slab panics ops).1, w') ∧ w'.log = (s.run e.slab panics ops).2.log ∧ w'.aborted = (s.run e.slab panics ops).2.aborted ∧
      w'.made = (s.run e.slab panics ops).2.made ∧ ((s.run e.slab panics ops).2.aborted = false → Ref e (s.run e.slab panics ops).2 w') := by
  induction ops generalizing s w with
  | nil => exact ⟨w, rfl, h.log, h.aborted, h.made, fun _ => h⟩
  | cons op ops ih =>
    obtain ⟨w1, h1, h2, h3, h4, h5⟩ := ref_exec (panics := panics) (checks := checks) hv h (by simpa [Spec.run] using hf 0 (by simp)) (ho op (by simp))
    simp only [run, h1, bind, Outcome.bind, Spec.run, h3]
    cases hx : (s.exec e.slab panics op).2.aborted with
    | true => exact ⟨w1, by simp [pure], by simpa using h2, by simp [h3, hx], by simpa using h4, by simp [hx]⟩
    | false =>
      obtain ⟨w2, g1, g2, g3, g4, g5⟩ := ih (fun o hm => ho o (by simp [hm])) (h5 hx)
        (fun k hk => by have := hf (k + 1) (by simpa using hk); simpa [Spec.run, hx] using this) hx
      exact ⟨w2, by simp [pure, g1], by simpa using g2, by simpa using g3, by simpa using g4, by simpa using g5⟩

theorem Ref.init {l : Nat} (hl : l ≤ e.len) : Ref e (Spec.init l) (World.init l) :=
  ⟨rfl, rfl, rfl, rfl, rfl, rfl, hl, rfl, by simp [Spec.init, Spec.pointers, fieldsOf], by simp [World.init], by simp [World.init], by simp [Spec.init, var],
    by simp [Spec.init, Spec.pointers, fieldsOf], by simp [World.init]⟩

/-! ## Every value is in one place -/

/-- The identities of values. -/
def idsOf (xs : List (Option Value)) : List Nat := all (fun v => [v.id]) xs

def IdInv (s : Spec) : Prop := (idsOf s.vals ++ idsOf s.blocks ++ s.log).Perm (List.range s.made)

theorem IdInv.of (h : IdInv s) {s' : Spec} (hm : s'.made = s.made)
    (hc : ∀ a, (idsOf s'.vals).count a + (idsOf s'.blocks).count a + s'.log.count a = (idsOf s.vals).count a + (idsOf s.blocks).count a + s.log.count a) : IdInv s' := by
  unfold IdInv at *
  rw [hm]
  refine List.Perm.trans (List.perm_iff_count.mpr fun a => ?_) h
  have := hc a
  simp only [List.count_append]
  omega

theorem IdInv.dropOne (h : IdInv s) {u : Bool} {p : Ptr} {rest : List Ptr} {a u1 : Bool} {s1 : Spec} {r1 : List Ptr} (h1 : s.dropOne panics u p rest = (a, u1, s1, r1)) : IdInv s1 := by
  rcases dropOne_cases (panics := panics) u s p rest with h2 | ⟨_, _, v, hv, h2⟩
  all_goals
    rw [h2] at h1
    simp only [Prod.mk.injEq] at h1
    obtain ⟨_, _, rfl, _⟩ := h1
  · exact h
  · refine h.of rfl fun a => ?_
    have := List.perm_iff_count.mp (all_var (f := fun v : Value => [v.id]) hv) a
    simp only [idsOf, List.count_append] at this ⊢
    omega

theorem IdInv.dropAll (n : Nat) : ∀ {s : Spec} (_ : IdInv s) (u : Bool) (P : List Ptr), IdInv (s.dropAll panics n u P).2 := by
  induction n with
  | zero => intro s h u P; cases P <;> exact h
  | succ n ih =>
    intro s h u P
    cases P with
    | nil => exact h
    | cons p rest =>
      rcases hd : s.dropOne panics u p rest with ⟨a, u1, s1, r1⟩
      have := h.dropOne hd
      cases a <;> simp only [Spec.dropAll, hd]
      · exact ih this u1 r1
      · exact this

theorem IdInv.dropPtr (h : IdInv s) (p : Ptr) (done : Resp) : IdInv (s.dropPtr panics p done).2 := IdInv.dropAll (panics := panics) (s.pointers.length + 1) h false [p]
theorem IdInv.dropVal {v : Value} (h : IdInv { s with log := s.log ++ [v.id] }) (done : Resp) : IdInv (s.dropVal panics v done).2 :=
  IdInv.dropAll (panics := panics) (s.pointers.length + v.fields.length) h (panics v.id) v.fields

theorem target_some {p b : Nat} {v : Value} (h : s.target p = some (b, v)) : var s.ptrs p = some ⟨true, b⟩ ∧ var s.blocks b = some v := by
  unfold Spec.target at h
  split at h
  · rename_i c hc
    cases hv : var s.blocks c with
    | none => simp [hv] at h
    | some y =>
      simp only [hv, Option.map_some, Option.some.injEq, Prod.mk.injEq] at h
      obtain ⟨rfl, rfl⟩ := h
      exact ⟨hc, hv⟩
  · cases h

theorem IdInv.exec {slab : Slab} (h : IdInv s) (hzero : ∀ b, var s.blocks b = none ∨ 0 < s.strongs b) (hlt : ∀ p ∈ s.pointers, p.block < s.blocks.length) (op : Op) : IdInv (s.exec slab panics op).2 := by
  have kset := fun {xs : List (Option Value)} {i : Nat} (hi : i < xs.length) (o : Option Value) a =>
    List.perm_iff_count.mp (all_set (f := fun v : Value => [v.id]) hi o) a
  have kvar := fun {xs : List (Option Value)} {i : Nat} {v : Value} (hi : var xs i = some v) a =>
    List.perm_iff_count.mp (all_var (f := fun v : Value => [v.id]) hi) a
  cases op with
  | make =>
    unfold IdInv at *
    simp only [Spec.exec, idsOf, all_append, all_single, List.range_succ] at h ⊢
    refine List.Perm.trans (List.perm_iff_count.mpr fun a => ?_) (List.Perm.append_right [s.made] h)
    simp only [List.count_append]
    omega
  | rc v L =>
    simp only [Spec.exec]
    cases hx : var s.vals v with
    | none => exact h
    | some x =>
      have k := kvar hx
      simp only
      cases hp : slab.place L s.level with
      | none =>
        apply IdInv.dropVal
        refine h.of (s' := _) (by rfl) fun a => ?_
        have k := k a
        simp only [idsOf, List.count_append] at k ⊢
        omega
      | some a =>
        refine h.of rfl fun a => ?_
        have k := k a
        simp only [Spec.add, idsOf, all_append, all_single, List.count_append] at k ⊢
        omega
  | alloc L => simp only [Spec.exec]; split <;> exact h
  | clone p => simp only [Spec.exec]; split <;> exact h
  | downgrade p => simp only [Spec.exec]; split <;> exact h
  | upgrade p => simp only [Spec.exec]; split; · split <;> exact h
                 · exact h
  | attach v p =>
    simp only [Spec.exec]
    split
    · rename_i x q hx hy
      refine h.of rfl fun a => ?_
      have k1 := kvar hx a
      have k2 := kset (var_lt hx) (some { x with fields := x.fields ++ [q] }) a
      simp only [idsOf, Option.elim_some, List.count_append] at k1 k2 ⊢
      omega
    · exact h
  | unpack v i =>
    simp only [Spec.exec]
    cases hx : var s.vals v with
    | none => exact h
    | some x =>
      simp only
      split
      · exact h
      · refine h.of rfl fun a => ?_
        have k1 := kvar hx a
        have k2 := kset (var_lt hx) (some { x with fields := x.fields.eraseIdx i }) a
        simp only [Spec.add, idsOf, Option.elim_some, List.count_append] at k1 k2 ⊢
        omega
  | push p k =>
    simp only [Spec.exec]
    cases hx : s.target p with
    | none => exact h
    | some bx =>
      obtain ⟨b, x⟩ := bx
      obtain ⟨_, hb⟩ := target_some hx
      simp only
      split
      · exact h
      · rename_i q hq
        refine h.of rfl fun a => ?_
        have k1 := kvar hb a
        have k2 := kset (var_lt hb) (some { x with fields := x.fields ++ [q] }) a
        simp only [idsOf, Option.elim_some, List.count_append] at k1 k2 ⊢
        omega
  | pull p i =>
    simp only [Spec.exec]
    cases hx : s.target p with
    | none => exact h
    | some bx =>
      obtain ⟨b, x⟩ := bx
      obtain ⟨_, hb⟩ := target_some hx
      simp only
      split
      · exact h
      · rename_i q hq
        refine h.of rfl fun a => ?_
        have k1 := kvar hb a
        have k2 := kset (var_lt hb) (some { x with fields := x.fields.eraseIdx i }) a
        simp only [Spec.add, idsOf, Option.elim_some, List.count_append] at k1 k2 ⊢
        omega
  | follow p i =>
    simp only [Spec.exec]
    split
    · exact h
    · split <;> exact h
  | read p => simp only [Spec.exec]; split <;> exact h
  | counts p => simp only [Spec.exec]; split <;> exact h
  | ptrEq p q => simp only [Spec.exec]; split <;> exact h
  | replace p v =>
    simp only [Spec.exec]
    split
    · rename_i b x y hx hy
      obtain ⟨_, hb⟩ := target_some hx
      split
      · refine h.of rfl fun a => ?_
        have k1 := kvar hb a
        have k2 := kset (var_lt hb) (some y) a
        have k3 := kvar hy a
        have k4 := kset (var_lt hy) (some x) a
        simp only [idsOf, Option.elim_some, List.count_append] at k1 k2 k3 k4 ⊢
        omega
      · exact h
    · exact h
  | tryUnwrap p =>
    simp only [Spec.exec]
    cases hx : s.target p with
    | none => exact h
    | some bx =>
      obtain ⟨b, x⟩ := bx
      obtain ⟨_, hb⟩ := target_some hx
      simp only
      split
      · refine h.of rfl fun a => ?_
        have k1 := kvar hb a
        simp only [idsOf, all_append, all_single, List.count_append] at k1 ⊢
        omega
      · exact h
  | recycle p v =>
    simp only [Spec.exec]
    split
    · rename_i b y hx hy
      split
      · rename_i hu
        refine h.of rfl fun a => ?_
        have hn : var s.blocks b = none := (hzero b).resolve_right (by omega)
        have k3 := kvar hy a
        have hb : b < s.blocks.length := hlt _ (mem_ptrs hx)
        have k2 := kset hb (some y) a
        have := set_same hb
        rw [hn] at this
        rw [this] at k2
        simp only [idsOf, Option.elim_some, List.count_append] at k2 k3 ⊢
        omega
      · exact h
    · exact h
  | dropPtr p =>
    simp only [Spec.exec]
    split
    · exact h
    · apply IdInv.dropPtr
      exact h
  | dropVal v =>
    simp only [Spec.exec]
    cases hx : var s.vals v with
    | none => exact h
    | some x =>
      apply IdInv.dropVal
      refine h.of (s' := _) (by rfl) fun a => ?_
      have k := kvar hx a
      simp only [idsOf, List.count_append] at k ⊢
      omega
  | forget p => simp only [Spec.exec]; split <;> exact h

theorem IdInv.run {checks : Bool} (hv : e.Valid) (ops : List Op) (ho : ∀ op ∈ ops, op.Valid e.target) (h : Ref e s w)
    (hf : ∀ k < ops.length, (s.run e.slab panics (ops.take k)).2.Few e.target) (hi : IdInv s) : IdInv (s.run e.slab panics ops).2 := by
  induction ops generalizing s w with
  | nil => exact hi
  | cons op ops ih =>
    obtain ⟨w1, h1, h2, h3, h4, h5⟩ := ref_exec (panics := panics) (checks := checks) hv h (by simpa [Spec.run] using hf 0 (by simp)) (ho op (by simp))
    have hi1 := hi.exec (slab := e.slab) (panics := panics) (fun b => by
      cases hb : var s.blocks b with
      | none => exact .inl rfl
      | some v => exact .inr (h.inv.pos b v hb)) h.inv.lt op
    simp only [Spec.run]
    cases hx : (s.exec e.slab panics op).2.aborted with
    | true => simpa using hi1
    | false =>
      have := ih (fun o hm => ho o (by simp [hm])) (h5 hx) (fun k hk => by have := hf (k + 1) (by simpa using hk); simpa [Spec.run, hx] using this) hi1
      simpa using this

theorem IdInv.init (l : Nat) : IdInv (Spec.init l) := by simp [IdInv, Spec.init, idsOf, all]

/-! ## Forgotten pointers -/

theorem dropAll_frame (n : Nat) : ∀ (s : Spec) (u : Bool) (P : List Ptr), Frame s (s.dropAll panics n u P).2 := by
  induction n with
  | zero => intro s u P; cases P <;> exact ⟨rfl, rfl, rfl, rfl, rfl, rfl⟩
  | succ n ih =>
    intro s u P
    cases P with
    | nil => exact ⟨rfl, rfl, rfl, rfl, rfl, rfl⟩
    | cons p rest =>
      rcases hd : s.dropOne panics u p rest with ⟨a, u1, s1, r1⟩
      have := dropOne_frame hd
      cases a <;> simp only [Spec.dropAll, hd]
      · exact this.trans (ih s1 u1 r1)
      · exact this

theorem dropPtr_frame (s : Spec) (p : Ptr) (done : Resp) : (s.dropPtr panics p done).2.forgotten = s.forgotten :=
  (dropAll_frame (panics := panics) (s.pointers.length + 1) s false [p]).2.2.2.2.1
theorem dropVal_frame (s : Spec) (v : Value) (done : Resp) : (s.dropVal panics v done).2.forgotten = s.forgotten :=
  (dropAll_frame (panics := panics) (s.pointers.length + v.fields.length) { s with log := s.log ++ [v.id] } (panics v.id) v.fields).2.2.2.2.1

theorem forgotten_exec {slab : Slab} {op : Op} (h : ∀ p, op ≠ .forget p) : (s.exec slab panics op).2.forgotten = s.forgotten := by
  cases op <;> simp only [Spec.exec]
  case forget p => exact absurd rfl (h p)
  all_goals repeat' split
  all_goals first | rfl | rw [dropPtr_frame] | rw [dropVal_frame]

theorem forgotten_run {slab : Slab} (ops : List Op) {s : Spec} (h : ∀ p, Op.forget p ∉ ops) : (s.run slab panics ops).2.forgotten = s.forgotten := by
  induction ops generalizing s with
  | nil => rfl
  | cons op ops ih =>
    have h1 := forgotten_exec (slab := slab) (panics := panics) (s := s) (op := op) (fun b e => h b (by simp [e]))
    have h2 := ih (s := (s.exec slab panics op).2) (fun b hb => h b (by simp [hb]))
    simp only [Spec.run]
    cases hx : (s.exec slab panics op).2.aborted with
    | true => simpa using h1
    | false => simpa using h2.trans h1

/-! ## The graph -/

theorem Spec.Path.trans {b c d : Nat} (h : s.Path b c) (h' : s.Path c d) : s.Path b d := by
  induction h with
  | one h => exact .more h h'
  | more h _ ih => exact .more h (ih h')

theorem mem_pointers {q : Ptr} : q ∈ s.pointers ↔ q ∈ s.roots ∨ ∃ b v, var s.blocks b = some v ∧ q ∈ v.fields := by
  have hfo : q ∈ fieldsOf s.blocks ↔ ∃ b v, var s.blocks b = some v ∧ q ∈ v.fields := by
    unfold fieldsOf
    rw [List.mem_flatMap]
    constructor
    · rintro ⟨o, ho, hq⟩
      cases o with
      | none => cases hq
      | some v =>
        obtain ⟨i, hi⟩ := List.mem_iff_getElem?.mp ho
        exact ⟨i, v, by unfold var; rw [hi]; rfl, hq⟩
    · rintro ⟨b, v, hv, hq⟩
      refine ⟨some v, ?_, hq⟩
      unfold var at hv
      cases hb : s.blocks[b]? with
      | none => rw [hb] at hv; cases hv
      | some o =>
        rw [hb, Option.join_some] at hv
        subst hv
        exact List.mem_of_getElem? hb
  unfold Spec.pointers Spec.roots
  simp only [List.mem_append]
  rw [hfo]
  constructor
  · rintro (((h | h) | h) | h)
    · exact .inl (.inl (.inl h))
    · exact .inl (.inl (.inr h))
    · exact .inr h
    · exact .inl (.inr h)
  · rintro (((h | h) | h) | h)
    · exact .inl (.inl (.inl h))
    · exact .inl (.inl (.inr h))
    · exact .inr h
    · exact .inl (.inr h)

theorem alive_iff (h : Ref e s w) (b : Nat) : (∃ v, var s.blocks b = some v) ↔ ⟨true, b⟩ ∈ s.pointers := by
  constructor
  · rintro ⟨v, hv⟩
    exact List.count_pos_iff.mp (h.inv.pos b v hv)
  · intro hm
    exact h.inv.exists (List.count_pos_iff.mpr hm)

theorem reach_alive (h : Ref e s w) {b : Nat} (hr : s.Reach b) : ∃ v, var s.blocks b = some v := by
  cases hr with
  | root hm => exact (alive_iff h b).mpr (mem_pointers.mpr (.inl hm))
  | edge _ he =>
    obtain ⟨v, hv, hm⟩ := he
    exact (alive_iff h b).mpr (mem_pointers.mpr (.inr ⟨_, v, hv, hm⟩))

/-- A value that is not reachable is on a cycle or behind one. -/
theorem cycle_of_unreachable (h : Ref e s w) {b : Nat} (hv : ∃ v, var s.blocks b = some v) (hr : ¬ s.Reach b) :
    ∃ c, ¬ s.Reach c ∧ s.Path c c ∧ (c = b ∨ s.Path c b) := by
  refine Classical.byContradiction fun hno => ?_
  have hno : ∀ c, ¬ s.Reach c → (c = b ∨ s.Path c b) → ¬ s.Path c c := fun c h1 h2 h3 => hno ⟨c, h1, h3, h2⟩
  let S : Fin s.blocks.length → Prop := fun c => (∃ v, var s.blocks c.1 = some v) ∧ ¬ s.Reach c.1 ∧ (c.1 = b ∨ s.Path c.1 b)
  let r : Fin s.blocks.length → Fin s.blocks.length → Prop := fun x y => S x ∧ S y ∧ s.Path x.1 y.1
  have htrans : IsTrans _ r := ⟨fun x y z h1 h2 => ⟨h1.1, h2.2.1, h1.2.2.trans h2.2.2⟩⟩
  have hirr : Std.Irrefl r := ⟨fun x h1 => hno x.1 h1.1.2.1 h1.1.2.2 h1.2.2⟩
  have hwf := Finite.wellFounded_of_trans_of_irrefl r
  obtain ⟨v, hv'⟩ := hv
  have hpred : ∀ x, ¬ S x := by
    intro x
    induction x using hwf.induction with
    | _ x ih =>
      rintro ⟨hx1, hx2, hx3⟩
      rcases mem_pointers.mp ((alive_iff h x.1).mp hx1) with hm | ⟨c, u, hc, hm⟩
      · exact hx2 (.root hm)
      · have hedge : s.Edge c x.1 := ⟨u, hc, hm⟩
        have hS : S ⟨c, var_lt hc⟩ := by
          refine ⟨⟨u, hc⟩, fun hr => hx2 (.edge hr hedge), .inr ?_⟩
          rcases hx3 with rfl | hp
          · exact .one hedge
          · exact .more hedge hp
        exact ih ⟨c, var_lt hc⟩ ⟨hS, ⟨hx1, hx2, hx3⟩, .one hedge⟩ hS
  exact hpred ⟨b, var_lt hv'⟩ ⟨⟨v, hv'⟩, hr, .inl rfl⟩

/-! ## Structures without cycles -/

/-- Values have strong pointers to older blocks only. -/
def LInv (s : Spec) : Prop := ∀ b v c, var s.blocks b = some v → ⟨true, c⟩ ∈ v.fields → c < b

theorem dropOne_sub {u : Bool} {p : Ptr} {rest : List Ptr} {a u1 : Bool} {s1 : Spec} {r1 : List Ptr} (h1 : s.dropOne panics u p rest = (a, u1, s1, r1)) {b : Nat} {v : Value}
    (hv : var s1.blocks b = some v) : var s.blocks b = some v := by
  rcases dropOne_cases (panics := panics) u s p rest with h2 | ⟨_, _, x, hx, h2⟩
  all_goals
    rw [h2] at h1
    simp only [Prod.mk.injEq] at h1
    obtain ⟨_, _, rfl, _⟩ := h1
  · exact hv
  · by_cases hb : p.block = b
    · subst hb
      rw [var_set_self (var_lt hx)] at hv
      cases hv
    · rwa [var_set_ne hb] at hv

theorem dropAll_sub (n : Nat) : ∀ (s : Spec) (u : Bool) (P : List Ptr) {b : Nat} {v : Value}, var (s.dropAll panics n u P).2.blocks b = some v → var s.blocks b = some v := by
  induction n with
  | zero => intro s u P b v h; cases P <;> exact h
  | succ n ih =>
    intro s u P b v h
    cases P with
    | nil => exact h
    | cons p rest =>
      rcases hd : s.dropOne panics u p rest with ⟨a, u1, s1, r1⟩
      cases a <;> simp only [Spec.dropAll, hd] at h
      · exact dropOne_sub hd (ih s1 u1 r1 h)
      · exact dropOne_sub hd h

theorem LInv.dropPtr (h : LInv s) (p : Ptr) (done : Resp) : LInv (s.dropPtr panics p done).2 :=
  fun b v c hv hc => h b v c (dropAll_sub (panics := panics) (s.pointers.length + 1) s false [p] hv) hc
theorem LInv.dropVal (h : LInv s) (v : Value) (done : Resp) : LInv (s.dropVal panics v done).2 :=
  fun b x c hv hc => h b x c (dropAll_sub (panics := panics) (s.pointers.length + v.fields.length) { s with log := s.log ++ [v.id] } (panics v.id) v.fields hv) hc

theorem LInv.set (h : LInv s) {b : Nat} {o : Option Value} (hb : b < s.blocks.length) (ho : ∀ v c, o = some v → ⟨true, c⟩ ∈ v.fields → c < b) {s' : Spec} (hs : s'.blocks = s.blocks.set b o) : LInv s' := by
  intro a v c hv hc
  rw [hs] at hv
  by_cases hab : b = a
  · subst hab
    rw [var_set_self hb] at hv
    exact ho v c hv hc
  · rw [var_set_ne hab] at hv
    exact h a v c hv hc

theorem LInv.exec {slab : Slab} (h : LInv s) (hlt : ∀ p ∈ s.pointers, p.block < s.blocks.length) {op : Op} (ho : s.Layered op) : LInv (s.exec slab panics op).2 := by
  cases op with
  | rc v L =>
    simp only [Spec.exec]
    cases hx : var s.vals v with
    | none => exact h
    | some x =>
      simp only
      cases hp : slab.place L s.level with
      | none => apply LInv.dropVal; exact h
      | some a =>
        intro b y c hy hc
        simp only [Spec.add] at hy
        by_cases hb : b < s.blocks.length
        · rw [var_append_lt hb] at hy
          exact h b y c hy hc
        · have : b = s.blocks.length := by
            have := var_lt hy
            simp only [List.length_append, List.length_singleton] at this
            omega
          subst this
          have hxy : x = y := by simpa [var] using hy
          subst hxy
          refine hlt ⟨true, c⟩ ?_
          rw [pointers_eq]
          have := (all_var (f := Value.fields) hx).mem_iff (a := (⟨true, c⟩ : Ptr))
          simp only [List.mem_append]
          exact .inl (.inl (.inr (this.mpr (by simp [hc]))))
  | push p k =>
    simp only [Spec.exec]
    cases hx : s.target p with
    | none => exact h
    | some bx =>
      obtain ⟨b, x⟩ := bx
      obtain ⟨_, hb⟩ := target_some hx
      simp only
      split
      · exact h
      · rename_i q hq
        have hk' : var s.ptrs k = some q := by
          by_cases hpk : p = k
          · rw [if_pos hpk] at hq; cases hq
          · rwa [if_neg hpk] at hq
        refine h.set (var_lt hb) ?_ rfl
        intro v c hv hc
        cases hv
        rcases List.mem_append.mp hc with hc | hc
        · exact h b x c hb hc
        · simp only [List.mem_singleton] at hc
          exact absurd (hc ▸ hk') (ho c)
  | pull p i =>
    simp only [Spec.exec]
    cases hx : s.target p with
    | none => exact h
    | some bx =>
      obtain ⟨b, x⟩ := bx
      obtain ⟨_, hb⟩ := target_some hx
      simp only
      split
      · exact h
      · refine h.set (var_lt hb) ?_ rfl
        intro v c hv hc
        cases hv
        exact h b x c hb (List.mem_of_mem_eraseIdx hc)
  | tryUnwrap p =>
    simp only [Spec.exec]
    cases hx : s.target p with
    | none => exact h
    | some bx =>
      obtain ⟨b, x⟩ := bx
      obtain ⟨_, hb⟩ := target_some hx
      simp only
      split
      · exact h.set (var_lt hb) (fun v c hv => by cases hv) rfl
      · exact h
  | replace => exact absurd ho id
  | recycle => exact absurd ho id
  | dropPtr p =>
    simp only [Spec.exec]
    split
    · exact h
    · apply LInv.dropPtr; exact h
  | dropVal v =>
    simp only [Spec.exec]
    split
    · exact h
    · apply LInv.dropVal; exact h
  | _ =>
    simp only [Spec.exec]
    repeat' split
    all_goals exact h

theorem LInv.run {checks : Bool} (hv : e.Valid) (ops : List Op) (ho : ∀ op ∈ ops, op.Valid e.target) (h : Ref e s w)
    (hf : ∀ k < ops.length, (s.run e.slab panics (ops.take k)).2.Few e.target) (hi : LInv s)
    (hl : ∀ k op, ops[k]? = some op → (s.run e.slab panics (ops.take k)).2.Layered op) : LInv (s.run e.slab panics ops).2 := by
  induction ops generalizing s w with
  | nil => exact hi
  | cons op ops ih =>
    obtain ⟨w1, h1, h2, h3, h4, h5⟩ := ref_exec (panics := panics) (checks := checks) hv h (by simpa [Spec.run] using hf 0 (by simp)) (ho op (by simp))
    have hi1 := hi.exec (slab := e.slab) (panics := panics) h.inv.lt (op := op) (by simpa [Spec.run] using hl 0 op (by simp))
    simp only [Spec.run]
    cases hx : (s.exec e.slab panics op).2.aborted with
    | true => simpa using hi1
    | false =>
      have := ih (fun o hm => ho o (by simp [hm])) (h5 hx) (fun k hk => by have := hf (k + 1) (by simpa using hk); simpa [Spec.run, hx] using this) hi1
        (fun k o hk => by have := hl (k + 1) o (by simpa using hk); simpa [Spec.run, hx] using this)
      simpa using this

theorem LInv.path (h : LInv s) {b c : Nat} (hp : s.Path b c) : c < b := by
  induction hp with
  | one he => obtain ⟨v, hv, hm⟩ := he; exact h _ v _ hv hm
  | more he _ ih => obtain ⟨v, hv, hm⟩ := he; have := h _ v _ hv hm; omega

/-! ## Short programs -/

theorem dropAll_length (n : Nat) : ∀ (s : Spec) (u : Bool) (P : List Ptr), (s.dropAll panics n u P).2.pointers.length ≤ s.pointers.length + P.length := by
  induction n with
  | zero => intro s u P; cases P <;> simp [Spec.dropAll]
  | succ n ih =>
    intro s u P
    cases P with
    | nil => simp [Spec.dropAll]
    | cons p rest =>
      rcases hd : s.dropOne panics u p rest with ⟨a, u1, s1, r1⟩
      have h1 := dropOne_length hd
      simp only [List.length_append, List.length_cons] at h1 ⊢
      cases a <;> simp only [Spec.dropAll, hd]
      · have := ih s1 u1 r1
        omega
      · omega

theorem dropPtr_length (s : Spec) (p : Ptr) (done : Resp) : (s.dropPtr panics p done).2.pointers.length ≤ s.pointers.length + 1 :=
  dropAll_length (panics := panics) (s.pointers.length + 1) s false [p]
theorem dropVal_length (s : Spec) (v : Value) (done : Resp) : (s.dropVal panics v done).2.pointers.length ≤ s.pointers.length + v.fields.length :=
  dropAll_length (panics := panics) (s.pointers.length + v.fields.length) { s with log := s.log ++ [v.id] } (panics v.id) v.fields

theorem length_exec {slab : Slab} (op : Op) : (s.exec slab panics op).2.pointers.length ≤ s.pointers.length + 1 := by
  have kset := fun {xs : List (Option Value)} {i : Nat} (hi : i < xs.length) (o : Option Value) => (all_set (f := Value.fields) hi o).length_eq
  have kvar := fun {xs : List (Option Value)} {i : Nat} {v : Value} (hi : var xs i = some v) => (all_var (f := Value.fields) hi).length_eq
  have pset := fun {xs : List (Option Ptr)} {i : Nat} (hi : i < xs.length) (o : Option Ptr) => (all_set (f := fun p : Ptr => [p]) hi o).length_eq
  have pvar := fun {xs : List (Option Ptr)} {i : Nat} {v : Ptr} (hi : var xs i = some v) => (all_var (f := fun p : Ptr => [p]) hi).length_eq
  have hadd : ∀ (s : Spec) (q : Ptr), (s.add q).2.pointers.length = s.pointers.length + 1 := fun s q => by rw [(pointers_add s q).length_eq]; simp
  cases op with
  | make =>
    simp only [Spec.exec, pointers_eq, all_append, all_single, List.length_append, List.length_nil]
    omega
  | rc v L =>
    simp only [Spec.exec]
    cases hx : var s.vals v with
    | none => simp
    | some x =>
      have k := kvar hx
      simp only
      cases hp : slab.place L s.level with
      | none =>
        refine Nat.le_trans (dropVal_length _ _ _) ?_
        simp only [pointers_eq, List.length_append] at k ⊢
        omega
      | some a =>
        simp only [hadd]
        simp only [pointers_eq, all_append, all_single, List.length_append] at k ⊢
        omega
  | attach v p =>
    simp only [Spec.exec]
    split
    · rename_i x q hx hy
      have k1 := kvar hx
      have k2 := kset (var_lt hx) (some { x with fields := x.fields ++ [q] })
      have k3 := pvar hy
      simp only [pointers_eq, Option.elim_some, List.length_append, List.length_singleton] at k1 k2 k3 ⊢
      omega
    · simp
  | unpack v i =>
    simp only [Spec.exec]
    cases hx : var s.vals v with
    | none => simp
    | some x =>
      simp only
      split
      · simp
      · have k1 := kvar hx
        have k2 := kset (var_lt hx) (some { x with fields := x.fields.eraseIdx i })
        have k3 := List.length_eraseIdx_le x.fields i
        simp only [hadd]
        simp only [pointers_eq, Option.elim_some, List.length_append] at k1 k2 ⊢
        omega
  | push p k =>
    simp only [Spec.exec]
    cases hx : s.target p with
    | none => simp
    | some bx =>
      obtain ⟨b, x⟩ := bx
      obtain ⟨_, hb⟩ := target_some hx
      simp only
      split
      · simp
      · rename_i q hq
        have hk' : var s.ptrs k = some q := by
          by_cases hpk : p = k
          · rw [if_pos hpk] at hq; cases hq
          · rwa [if_neg hpk] at hq
        have k1 := kvar hb
        have k2 := kset (var_lt hb) (some { x with fields := x.fields ++ [q] })
        have k3 := pvar hk'
        simp only [pointers_eq, Option.elim_some, List.length_append, List.length_singleton] at k1 k2 k3 ⊢
        omega
  | pull p i =>
    simp only [Spec.exec]
    cases hx : s.target p with
    | none => simp
    | some bx =>
      obtain ⟨b, x⟩ := bx
      obtain ⟨_, hb⟩ := target_some hx
      simp only
      split
      · simp
      · have k1 := kvar hb
        have k2 := kset (var_lt hb) (some { x with fields := x.fields.eraseIdx i })
        have k3 := List.length_eraseIdx_le x.fields i
        simp only [hadd]
        simp only [pointers_eq, Option.elim_some, List.length_append] at k1 k2 ⊢
        omega
  | replace p v =>
    simp only [Spec.exec]
    split
    · rename_i b x y hx hy
      obtain ⟨_, hb⟩ := target_some hx
      split
      · have k1 := kvar hb
        have k2 := kset (var_lt hb) (some y)
        have k3 := kvar hy
        have k4 := kset (var_lt hy) (some x)
        simp only [pointers_eq, Option.elim_some, List.length_append] at k1 k2 k3 k4 ⊢
        omega
      · simp
    · simp
  | tryUnwrap p =>
    simp only [Spec.exec]
    cases hx : s.target p with
    | none => simp
    | some bx =>
      obtain ⟨b, x⟩ := bx
      obtain ⟨hp, hb⟩ := target_some hx
      simp only
      split
      · have k1 := kvar hb
        have k2 := pvar hp
        have k3 := pset (var_lt hp) (some ⟨false, b⟩)
        simp only [pointers_eq, Option.elim_some, all_append, all_single, List.length_append, List.length_singleton] at k1 k2 k3 ⊢
        omega
      · simp
  | recycle p v =>
    simp only [Spec.exec]
    split
    · rename_i b y hx hy
      split
      · have k1 := kvar hy
        have k2 := pvar hx
        have k3 := pset (var_lt hx) (some ⟨true, b⟩)
        by_cases hb : b < s.blocks.length
        · have k4 := kset hb (some y)
          have k5 : (all Value.fields (s.blocks.set b none)).length ≤ (all Value.fields s.blocks).length := by
            cases hvb : var s.blocks b with
            | none => have := set_same hb; rw [hvb] at this; rw [this]
            | some z => have := kvar hvb; simp only [List.length_append] at this; omega
          simp only [pointers_eq, Option.elim_some, List.length_append, List.length_singleton] at k1 k2 k3 k4 ⊢
          omega
        · have : s.blocks.set b (some y) = s.blocks := List.set_eq_of_length_le (by omega)
          simp only [this]
          simp only [pointers_eq, Option.elim_some, List.length_append, List.length_singleton] at k1 k2 k3 ⊢
          omega
      · simp
    · simp
  | dropPtr p =>
    simp only [Spec.exec]
    split
    · simp
    · rename_i q hq
      have k := pvar hq
      refine Nat.le_trans (dropPtr_length _ _ _) ?_
      simp only [pointers_eq, List.length_append, List.length_singleton] at k ⊢
      omega
  | dropVal v =>
    simp only [Spec.exec]
    cases hx : var s.vals v with
    | none => simp
    | some x =>
      have k := kvar hx
      refine Nat.le_trans (dropVal_length _ _ _) ?_
      simp only [pointers_eq, List.length_append] at k ⊢
      omega
  | forget p =>
    simp only [Spec.exec]
    split
    · simp
    · rename_i q hq
      have k := pvar hq
      simp only [pointers_eq, List.length_append, List.length_cons, List.length_nil] at k ⊢
      omega
  | _ =>
    simp only [Spec.exec]
    repeat' split
    all_goals first | (rw [hadd]) | exact Nat.le_succ _

theorem length_run {slab : Slab} (ops : List Op) (s : Spec) : (s.run slab panics ops).2.pointers.length ≤ s.pointers.length + ops.length := by
  induction ops generalizing s with
  | nil => simp [Spec.run]
  | cons op ops ih =>
    have h1 := length_exec (panics := panics) (s := s) (slab := slab) op
    have h2 := ih (s := (s.exec slab panics op).2)
    simp only [Spec.run, List.length_cons]
    cases hx : (s.exec slab panics op).2.aborted with
    | true => simp only [if_true]; omega
    | false => simp only [Bool.false_eq_true, if_false]; omega

theorem count_two (b : Nat) (ps : List Ptr) : ps.count ⟨true, b⟩ + ps.count ⟨false, b⟩ ≤ ps.length := by
  induction ps with
  | nil => simp
  | cons p ps ih =>
    simp only [List.count_cons, List.length_cons]
    by_cases h1 : p = ⟨true, b⟩
    · subst h1; simp; omega
    · by_cases h2 : p = ⟨false, b⟩
      · subst h2; simp; omega
      · simp [h1, h2]; omega

theorem few_of_length {t : Target} (h : s.pointers.length < t.usizeMax) : s.Few t := by
  intro b
  have := count_two b s.pointers
  unfold Spec.weaks Spec.strongs
  refine ⟨by omega, ?_⟩
  split <;> omega

theorem few_of_short {t : Target} {slab : Slab} {l : Nat} {ops : List Op} (h : ops.length ≤ t.usizeMax) : ∀ k < ops.length, ((Spec.init l).run slab panics (ops.take k)).2.Few t := by
  intro k hk
  refine few_of_length ?_
  have := length_run (panics := panics) (slab := slab) (ops.take k) (Spec.init l)
  have h0 : (Spec.init l).pointers.length = 0 := rfl
  have := List.length_take_le k ops
  omega

end

theorem idsOf_eq (xs : List (Option Value)) : idsOf xs = (xs.filterMap id).map Value.id := by
  induction xs with
  | nil => rfl
  | cons x xs ih => cases x <;> simp_all [idsOf, all]

theorem fieldsOf_none {xs : List (Option Value)} (h : ∀ x ∈ xs, x = none) : fieldsOf xs = [] := by
  induction xs with
  | nil => rfl
  | cons x xs ih =>
    have := h x (by simp)
    subst this
    simpa [fieldsOf] using ih (fun y hy => h y (by simp [hy]))

end Verif.Shared
