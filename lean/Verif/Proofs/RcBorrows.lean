import Verif.Spec.RcBorrows
import Verif.Proofs.BorrowsMem
import Verif.Proofs.VecBorrowsStep
/-! # Proofs about the pointers of `Rc` and `Weak`: the functions -/
set_option autoImplicit false
namespace Verif.RcBorrows
open Verif.Borrows

/-- Shared references to the value stay. -/
abbrev RcChg (W : Nat → Option Nat) (B : Box) (m : Mem) (col : Nat → Col) (m' : Mem) (col' : Nat → Col) : Prop :=
  Chg W B.lo B.hi (fun b i => b < B.vhi ∧ i.perm ≠ .unique) m col m' col'
/-- All references to the value stay. -/
abbrev WkChg (W : Nat → Option Nat) (B : Box) (m : Mem) (col : Nat → Col) (m' : Mem) (col' : Nat → Col) : Prop :=
  Chg W B.lo B.hi (fun b _ => b < B.vhi) m col m' col'
/-- None need stay. -/
abbrev AnyChg (W : Nat → Option Nat) (B : Box) (m : Mem) (col : Nat → Col) (m' : Mem) (col' : Nat → Col) : Prop :=
  Chg W B.lo B.hi (fun _ _ => False) m col m' col'

/-- The bytes of the box. -/
def In (W : Nat → Option Nat) (B : Box) : Prop := ∀ b, B.lo ≤ b → b < B.hi → W b = some B.tag

/-- A counter of the box. -/
def Fld (B : Box) (x y : Nat) : Prop := B.lo ≤ x ∧ B.vhi ≤ x ∧ y ≤ B.hi ∧ ∀ b, x ≤ b → b < y → B.cell b = true

theorem Box.Valid.s {B : Box} (h : B.Valid) : Fld B B.slo B.shi := by
  have := h.value; have := h.strong; have := h.weak
  refine ⟨by omega, by omega, by omega, fun b h1 h2 => ?_⟩
  unfold Box.cell; simp [h1, h2]
theorem Box.Valid.w {B : Box} (h : B.Valid) : Fld B B.wlo B.whi := by
  have := h.value; have := h.strong; have := h.weak
  refine ⟨by omega, by omega, by omega, fun b h1 h2 => ?_⟩
  unfold Box.cell; simp [h1, h2]

section
variable {W : Nat → Option Nat} {B : Box} {m : Mem} {col : Nat → Col} {x y : Nat}

theorem inner_chg (hc : Cov W m col) (hin : In W B) : ∃ m' col', inner B m = some (m.next, m') ∧ RcChg W B m col m' col' ∧
    ∀ b, B.lo ≤ b → b < B.hi → (B.cell b = true → (⟨m.next, .sharedRW⟩ : Item) ∈ (col' b).blk) ∧ (B.cell b = false → (⟨m.next, .sharedRO⟩ : Item) ∈ (col' b).above) := by
  obtain ⟨m', col', e, u, i⟩ := chg_retagShared hc (cell := B.cell) hin
  exact ⟨m', col', e, u.mono (Nat.le_refl _) (Nat.le_refl _) (fun b i h => Or.inl h.2), i⟩

theorem rcTouch_chg (hc : Cov W m col) (hin : In W B) (hf : Fld B x y) (a : Access) : ∃ m' col', rcTouch B x y a m = some m' ∧ RcChg W B m col m' col' := by
  obtain ⟨f0, f1, f2, f3⟩ := hf
  have hin' : ∀ b, x ≤ b → b < y → ∃ w, W b = some w := fun b h1 h2 => ⟨_, hin b (by omega) (by omega)⟩
  obtain ⟨m1, col1, e1, u1, i1⟩ := inner_chg hc hin
  obtain ⟨m2, col2, e2, u2, i2⟩ := chg_retagCell (x := x) (y := y) (t := m.next) u1.cov hin' (fun b h1 h2 => Or.inr ((i1 b (by omega) (by omega)).1 (f3 b h1 h2)))
  obtain ⟨m3, col3, e3, _, u3⟩ := chg_blk u2.cov a hin' i2
  refine ⟨m3, col3, ?_, (u1.trans (u2.mono f0 f2 (fun b i h => Or.inl trivial))).trans (u3.mono f0 f2 (fun b i h => Or.inr (Or.inl (by omega))))⟩
  unfold rcTouch
  simp only [e1, e2, e3, Option.bind_eq_bind, Option.bind_some]

theorem weakTouch_chg (hc : Cov W m col) (hin : In W B) (hf : Fld B x y) (a : Access) : ∃ m' col', weakTouch B x y a m = some m' ∧ WkChg W B m col m' col' := by
  obtain ⟨f0, f1, f2, f3⟩ := hf
  have hin' : ∀ b, x ≤ b → b < y → ∃ w, W b = some w := fun b h1 h2 => ⟨_, hin b (by omega) (by omega)⟩
  obtain ⟨m2, col2, e2, u2, i2⟩ := chg_retagCell (x := x) (y := y) (t := B.tag) hc hin' (fun b h1 h2 => Or.inl (hin b (by omega) (by omega)))
  obtain ⟨m3, col3, e3, _, u3⟩ := chg_blk u2.cov a hin' i2
  refine ⟨m3, col3, ?_, (u2.mono f0 f2 (fun b i h => Or.inl trivial)).trans (u3.mono f0 f2 (fun b i h => Or.inr (Or.inl (by omega))))⟩
  unfold weakTouch
  simp only [e2, e3, Option.bind_eq_bind, Option.bind_some]

theorem RcChg.any {m' : Mem} {col' : Nat → Col} (h : RcChg W B m col m' col') : AnyChg W B m col m' col' := h.mono (Nat.le_refl _) (Nat.le_refl _) (fun _ _ h => h.elim)
theorem WkChg.rc {m' : Mem} {col' : Nat → Col} (h : WkChg W B m col m' col') : RcChg W B m col m' col' := h.mono (Nat.le_refl _) (Nat.le_refl _) (fun _ _ h => Or.inl h.1)

variable {st wk : Nat → Nat} {k : Nat}

theorem rcStrong_chg (hv : B.Valid) (hin : In W B) (hc : Cov W m col) : ∃ m' col', rcStrong B k ⟨m, st, wk⟩ = some (st k, ⟨m', st, wk⟩) ∧ RcChg W B m col m' col' := by
  obtain ⟨m', col', e, u⟩ := rcTouch_chg hc hin hv.s .read
  exact ⟨m', col', by unfold rcStrong; simp only [e, Option.bind_eq_bind, Option.bind_some, Option.pure_def], u⟩

theorem rcWeak_chg (hv : B.Valid) (hin : In W B) (hc : Cov W m col) : ∃ m' col', rcWeak B k ⟨m, st, wk⟩ = some (wk k, ⟨m', st, wk⟩) ∧ RcChg W B m col m' col' := by
  obtain ⟨m', col', e, u⟩ := rcTouch_chg hc hin hv.w .read
  exact ⟨m', col', by unfold rcWeak; simp only [e, Option.bind_eq_bind, Option.bind_some, Option.pure_def], u⟩

theorem rcSetStrong_chg (hv : B.Valid) (hin : In W B) (hc : Cov W m col) (v : Nat) : ∃ m' col', rcSetStrong B k v ⟨m, st, wk⟩ = some ⟨m', upd st k v, wk⟩ ∧ RcChg W B m col m' col' := by
  obtain ⟨m', col', e, u⟩ := rcTouch_chg hc hin hv.s .write
  exact ⟨m', col', by unfold rcSetStrong; simp only [e, Option.bind_eq_bind, Option.bind_some, Option.pure_def], u⟩

theorem rcSetWeak_chg (hv : B.Valid) (hin : In W B) (hc : Cov W m col) (v : Nat) : ∃ m' col', rcSetWeak B k v ⟨m, st, wk⟩ = some ⟨m', st, upd wk k v⟩ ∧ RcChg W B m col m' col' := by
  obtain ⟨m', col', e, u⟩ := rcTouch_chg hc hin hv.w .write
  exact ⟨m', col', by unfold rcSetWeak; simp only [e, Option.bind_eq_bind, Option.bind_some, Option.pure_def], u⟩

theorem incStrong_chg (hv : B.Valid) (hin : In W B) (hc : Cov W m col) : ∃ m' col', incStrong B k ⟨m, st, wk⟩ = some ⟨m', upd st k (st k + 1), wk⟩ ∧ RcChg W B m col m' col' := by
  obtain ⟨m1, col1, e1, u1⟩ := rcStrong_chg (k := k) (st := st) (wk := wk) hv hin hc
  obtain ⟨m2, col2, e2, u2⟩ := rcSetStrong_chg (k := k) (st := st) (wk := wk) hv hin u1.cov (st k + 1)
  exact ⟨m2, col2, by unfold incStrong; simp only [e1, e2, Option.bind_eq_bind, Option.bind_some], u1.trans u2⟩

theorem decStrong_chg (hv : B.Valid) (hin : In W B) (hc : Cov W m col) : ∃ m' col', decStrong B k ⟨m, st, wk⟩ = some ⟨m', upd st k (st k - 1), wk⟩ ∧ RcChg W B m col m' col' := by
  obtain ⟨m1, col1, e1, u1⟩ := rcStrong_chg (k := k) (st := st) (wk := wk) hv hin hc
  obtain ⟨m2, col2, e2, u2⟩ := rcSetStrong_chg (k := k) (st := st) (wk := wk) hv hin u1.cov (st k - 1)
  exact ⟨m2, col2, by unfold decStrong; simp only [e1, e2, Option.bind_eq_bind, Option.bind_some], u1.trans u2⟩

theorem incWeak_chg (hv : B.Valid) (hin : In W B) (hc : Cov W m col) : ∃ m' col', incWeak B k ⟨m, st, wk⟩ = some ⟨m', st, upd wk k (wk k + 1)⟩ ∧ RcChg W B m col m' col' := by
  obtain ⟨m1, col1, e1, u1⟩ := rcWeak_chg (k := k) (st := st) (wk := wk) hv hin hc
  obtain ⟨m2, col2, e2, u2⟩ := rcSetWeak_chg (k := k) (st := st) (wk := wk) hv hin u1.cov (wk k + 1)
  exact ⟨m2, col2, by unfold incWeak; simp only [e1, e2, Option.bind_eq_bind, Option.bind_some], u1.trans u2⟩

theorem decWeak_chg (hv : B.Valid) (hin : In W B) (hc : Cov W m col) : ∃ m' col', decWeak B k ⟨m, st, wk⟩ = some ⟨m', st, upd wk k (wk k - 1)⟩ ∧ RcChg W B m col m' col' := by
  obtain ⟨m1, col1, e1, u1⟩ := rcWeak_chg (k := k) (st := st) (wk := wk) hv hin hc
  obtain ⟨m2, col2, e2, u2⟩ := rcSetWeak_chg (k := k) (st := st) (wk := wk) hv hin u1.cov (wk k - 1)
  exact ⟨m2, col2, by unfold decWeak; simp only [e1, e2, Option.bind_eq_bind, Option.bind_some], u1.trans u2⟩

theorem isUnique_chg (hv : B.Valid) (hin : In W B) (hc : Cov W m col) : ∃ m' col', isUnique B k ⟨m, st, wk⟩ = some (decide (st k = 1 ∧ wk k = 1), ⟨m', st, wk⟩) ∧ RcChg W B m col m' col' := by
  obtain ⟨m1, col1, e1, u1⟩ := rcStrong_chg (k := k) (st := st) (wk := wk) hv hin hc
  by_cases hs : st k = 1
  · obtain ⟨m2, col2, e2, u2⟩ := rcWeak_chg (k := k) (st := st) (wk := wk) hv hin u1.cov
    refine ⟨m2, col2, ?_, u1.trans u2⟩
    unfold isUnique
    simp only [e1, e2, Option.bind_eq_bind, Option.bind_some, Option.pure_def, if_pos hs, hs, true_and]
    rfl
  · refine ⟨m1, col1, ?_, u1⟩
    unfold isUnique
    simp only [e1, Option.bind_eq_bind, Option.bind_some, Option.pure_def, if_neg hs, hs, false_and]
    rfl

theorem weakStrong_chg (hv : B.Valid) (hin : In W B) (hc : Cov W m col) : ∃ m' col', weakStrong B k ⟨m, st, wk⟩ = some (st k, ⟨m', st, wk⟩) ∧ WkChg W B m col m' col' := by
  obtain ⟨m', col', e, u⟩ := weakTouch_chg hc hin hv.s .read
  exact ⟨m', col', by unfold weakStrong; simp only [e, Option.bind_eq_bind, Option.bind_some, Option.pure_def], u⟩

theorem weakWeak_chg (hv : B.Valid) (hin : In W B) (hc : Cov W m col) : ∃ m' col', weakWeak B k ⟨m, st, wk⟩ = some (wk k, ⟨m', st, wk⟩) ∧ WkChg W B m col m' col' := by
  obtain ⟨m', col', e, u⟩ := weakTouch_chg hc hin hv.w .read
  exact ⟨m', col', by unfold weakWeak; simp only [e, Option.bind_eq_bind, Option.bind_some, Option.pure_def], u⟩

theorem weakSetWeak_chg (hv : B.Valid) (hin : In W B) (hc : Cov W m col) (v : Nat) : ∃ m' col', weakSetWeak B k v ⟨m, st, wk⟩ = some ⟨m', st, upd wk k v⟩ ∧ WkChg W B m col m' col' := by
  obtain ⟨m', col', e, u⟩ := weakTouch_chg hc hin hv.w .write
  exact ⟨m', col', by unfold weakSetWeak; simp only [e, Option.bind_eq_bind, Option.bind_some, Option.pure_def], u⟩

theorem weakInc_chg (hv : B.Valid) (hin : In W B) (hc : Cov W m col) : ∃ m' col', weakInc B k ⟨m, st, wk⟩ = some ⟨m', st, upd wk k (wk k + 1)⟩ ∧ WkChg W B m col m' col' := by
  obtain ⟨m1, col1, e1, u1⟩ := weakWeak_chg (k := k) (st := st) (wk := wk) hv hin hc
  obtain ⟨m2, col2, e2, u2⟩ := weakSetWeak_chg (k := k) (st := st) (wk := wk) hv hin u1.cov (wk k + 1)
  exact ⟨m2, col2, by unfold weakInc; simp only [e1, e2, Option.bind_eq_bind, Option.bind_some], u1.trans u2⟩

theorem weakDec_chg (hv : B.Valid) (hin : In W B) (hc : Cov W m col) : ∃ m' col', weakDec B k ⟨m, st, wk⟩ = some ⟨m', st, upd wk k (wk k - 1)⟩ ∧ WkChg W B m col m' col' := by
  obtain ⟨m1, col1, e1, u1⟩ := weakWeak_chg (k := k) (st := st) (wk := wk) hv hin hc
  obtain ⟨m2, col2, e2, u2⟩ := weakSetWeak_chg (k := k) (st := st) (wk := wk) hv hin u1.cov (wk k - 1)
  exact ⟨m2, col2, by unfold weakDec; simp only [e1, e2, Option.bind_eq_bind, Option.bind_some], u1.trans u2⟩

theorem isUniqueMem_chg (hv : B.Valid) (hin : In W B) (hc : Cov W m col) : ∃ m' col', isUniqueMem B k ⟨m, st, wk⟩ = some (decide (st k = 0 ∧ wk k = 1), ⟨m', st, wk⟩) ∧ WkChg W B m col m' col' := by
  obtain ⟨m1, col1, e1, u1⟩ := weakStrong_chg (k := k) (st := st) (wk := wk) hv hin hc
  by_cases hs : st k = 0
  · obtain ⟨m2, col2, e2, u2⟩ := weakWeak_chg (k := k) (st := st) (wk := wk) hv hin u1.cov
    refine ⟨m2, col2, ?_, u1.trans u2⟩
    unfold isUniqueMem
    simp only [e1, e2, Option.bind_eq_bind, Option.bind_some, Option.pure_def, if_pos hs, hs, true_and]
    rfl
  · refine ⟨m1, col1, ?_, u1⟩
    unfold isUniqueMem
    simp only [e1, Option.bind_eq_bind, Option.bind_some, Option.pure_def, if_neg hs, hs, false_and]
    rfl

theorem new_chg (hin : In W B) (hc : Cov W m col) : ∃ m' col', new B k ⟨m, st, wk⟩ = some ⟨m', upd st k 1, upd wk k 1⟩ ∧ AnyChg W B m col m' col' := by
  obtain ⟨m1, col1, e1, _, u1⟩ := chg_base hc .write hin
  obtain ⟨m2, col2, e2, n2, u2⟩ := chg_base u1.cov .write hin
  obtain ⟨m3, col3, e3, _, u3, _⟩ := chg_retag (mu := true) e2 n2 u2
  refine ⟨m3, col3, ?_, (u1.mono (Nat.le_refl _) (Nat.le_refl _) (fun _ _ h => h.elim)).trans (u3.mono (Nat.le_refl _) (Nat.le_refl _) (fun _ _ h => h.elim))⟩
  unfold new
  simp only [e1, e3, Option.bind_eq_bind, Option.bind_some, Option.pure_def]

theorem is_refl (p : Perm) (t : Nat) (a : Access) (h : p.grants a = true) : (⟨t, p⟩ : Item).is a t = true := by
  unfold Item.is; simp [h]

theorem deref_chg (hv : B.Valid) (hin : In W B) (hc : Cov W m col) : ∃ t m' col', deref B ⟨m, st, wk⟩ = some (t, ⟨m', st, wk⟩) ∧ RcChg W B m col m' col' ∧ t < m'.next ∧
    ∀ b, B.lo ≤ b → b < B.vhi → (⟨t, permOf false⟩ : Item) ∈ (col' b).above := by
  have := hv.value; have := hv.strong; have := hv.weak
  obtain ⟨m1, col1, e1, u1, i1⟩ := inner_chg hc hin
  have hcell : ∀ b, b < B.vhi → B.cell b = false := by
    intro b hb
    unfold Box.cell
    simp only [Bool.or_eq_false_iff, decide_eq_false_iff_not]
    exact ⟨by omega, by omega⟩
  obtain ⟨m2, col2, e2, n2, u2⟩ := chg_ref (x := B.lo) (y := B.vhi) (a := .read) (t := m.next) u1.cov (fun b h1 h2 => ⟨_, hin b h1 (by omega)⟩)
    (fun b h1 h2 => ⟨_, (i1 b h1 (by omega)).2 (hcell b h2), is_refl _ _ _ rfl⟩)
  obtain ⟨m3, col3, e3, n3, u3, i3⟩ := chg_retag (mu := false) e2 n2 u2
  refine ⟨m1.next, m3, col3, ?_, u1.trans (u3.mono (Nat.le_refl _) (by omega) (fun b i h => Or.inl (Or.inr ⟨rfl, h.2⟩))), by omega, i3⟩
  unfold deref
  simp only [e1, e3, Option.bind_eq_bind, Option.bind_some, Option.pure_def]

/-- A `&mut` to the value. -/
theorem value_chg (hv : B.Valid) (hin : In W B) (hc : Cov W m col) : ∃ m' col', m.retag true B.tag B.lo B.vhi = some (m.next, m') ∧ AnyChg W B m col m' col' ∧ m.next < m'.next ∧
    ∀ b, B.lo ≤ b → b < B.vhi → (⟨m.next, .unique⟩ : Item) ∈ (col' b).above := by
  have := hv.value; have := hv.strong; have := hv.weak
  obtain ⟨m2, col2, e2, n2, u2⟩ := chg_base (x := B.lo) (y := B.vhi) (t := B.tag) hc .write (fun b h1 h2 => hin b h1 (by omega))
  obtain ⟨m3, col3, e3, n3, u3, i3⟩ := chg_retag (mu := true) e2 n2 u2
  exact ⟨m3, col3, e3, u3.mono (Nat.le_refl _) (by omega) (fun b i h => h.elim), by omega, i3⟩

theorem getMut_chg (hv : B.Valid) (hin : In W B) (hc : Cov W m col) :
    (¬(st k = 1 ∧ wk k = 1) ∧ ∃ m' col', getMut B k ⟨m, st, wk⟩ = some (none, ⟨m', st, wk⟩) ∧ RcChg W B m col m' col') ∨
    ((st k = 1 ∧ wk k = 1) ∧ ∃ t m' col', getMut B k ⟨m, st, wk⟩ = some (some t, ⟨m', st, wk⟩) ∧ AnyChg W B m col m' col' ∧ t < m'.next ∧
      ∀ b, B.lo ≤ b → b < B.vhi → (⟨t, .unique⟩ : Item) ∈ (col' b).above) := by
  obtain ⟨m1, col1, e1, u1⟩ := isUnique_chg (k := k) (st := st) (wk := wk) hv hin hc
  by_cases hu : st k = 1 ∧ wk k = 1
  · obtain ⟨m2, col2, e2, u2, n2, i2⟩ := value_chg hv hin u1.cov
    refine Or.inr ⟨hu, m1.next, m2, col2, ?_, (RcChg.any u1).trans u2, n2, i2⟩
    unfold getMut
    rw [decide_eq_true hu] at e1
    simp only [e1, e2, Option.bind_eq_bind, Option.bind_some, Option.pure_def, if_true]
  · refine Or.inl ⟨hu, m1, col1, ?_, u1⟩
    unfold getMut
    rw [decide_eq_false hu] at e1
    simp only [e1, Option.bind_eq_bind, Option.bind_some, Option.pure_def, Bool.false_eq_true, if_false]

theorem upd_self (f : Nat → Nat) (v : Nat) : upd f k v k = v := by unfold upd; rw [if_pos rfl]
theorem upd_ne (f : Nat → Nat) {v j : Nat} (h : j ≠ k) : upd f k v j = f j := by unfold upd; rw [if_neg h]

theorem dropRc_chg (hv : B.Valid) (hin : In W B) (hc : Cov W m col) :
    (st k - 1 ≠ 0 ∧ ∃ m' col', dropRc B k ⟨m, st, wk⟩ = some (none, ⟨m', upd st k (st k - 1), wk⟩) ∧ RcChg W B m col m' col') ∨
    (st k - 1 = 0 ∧ ∃ t m' col', dropRc B k ⟨m, st, wk⟩ = some (some t, ⟨m', upd st k (st k - 1), upd wk k (wk k - 1)⟩) ∧ AnyChg W B m col m' col' ∧ t < m'.next ∧
      ∀ b, B.lo ≤ b → b < B.vhi → (⟨t, .unique⟩ : Item) ∈ (col' b).above) := by
  obtain ⟨m1, col1, e1, u1⟩ := decStrong_chg (k := k) (st := st) (wk := wk) hv hin hc
  obtain ⟨m2, col2, e2, u2⟩ := rcStrong_chg (k := k) (st := upd st k (st k - 1)) (wk := wk) hv hin u1.cov
  rw [upd_self] at e2
  by_cases hu : st k - 1 = 0
  · obtain ⟨m3, col3, e3, u3⟩ := decWeak_chg (k := k) (st := upd st k (st k - 1)) (wk := wk) hv hin u2.cov
    obtain ⟨m4, col4, e4, u4, n4, i4⟩ := value_chg hv hin u3.cov
    refine Or.inr ⟨hu, m3.next, m4, col4, ?_, (RcChg.any ((u1.trans u2).trans u3)).trans u4, n4, i4⟩
    unfold dropRc
    simp only [e1, e2, e3, e4, Option.bind_eq_bind, Option.bind_some, Option.pure_def, if_pos hu]
  · refine Or.inl ⟨hu, m2, col2, ?_, u1.trans u2⟩
    unfold dropRc
    simp only [e1, e2, Option.bind_eq_bind, Option.bind_some, Option.pure_def, if_neg hu]

theorem tryUnwrap_chg (hv : B.Valid) (hin : In W B) (hc : Cov W m col) :
    (st k ≠ 1 ∧ ∃ m' col', tryUnwrap B k ⟨m, st, wk⟩ = some (false, ⟨m', st, wk⟩) ∧ RcChg W B m col m' col') ∨
    (st k = 1 ∧ ∃ m' col', tryUnwrap B k ⟨m, st, wk⟩ = some (true, ⟨m', upd st k (st k - 1), wk⟩) ∧ RcChg W B m col m' col') := by
  have := hv.value; have := hv.strong; have := hv.weak
  obtain ⟨m1, col1, e1, u1⟩ := rcStrong_chg (k := k) (st := st) (wk := wk) hv hin hc
  by_cases hu : st k = 1
  · obtain ⟨m2, col2, e2, u2⟩ := decStrong_chg (k := k) (st := st) (wk := wk) hv hin u1.cov
    obtain ⟨m3, col3, e3, _, u3⟩ := chg_base (x := B.lo) (y := B.vhi) (t := B.tag) u2.cov .read (fun b h1 h2 => hin b h1 (by omega))
    refine Or.inr ⟨hu, m3, col3, ?_, (u1.trans u2).trans (u3.mono (Nat.le_refl _) (by omega) (fun b i h => Or.inl ⟨rfl, h.2⟩))⟩
    unfold tryUnwrap
    simp only [e1, e2, e3, Option.bind_eq_bind, Option.bind_some, Option.pure_def, if_pos hu]
  · refine Or.inl ⟨hu, m1, col1, ?_, u1⟩
    unfold tryUnwrap
    simp only [e1, Option.bind_eq_bind, Option.bind_some, Option.pure_def, if_neg hu]

theorem upgrade_chg (hv : B.Valid) (hin : In W B) (hc : Cov W m col) :
    (st k = 0 ∧ ∃ m' col', upgrade B k ⟨m, st, wk⟩ = some (false, ⟨m', st, wk⟩) ∧ WkChg W B m col m' col') ∨
    (st k ≠ 0 ∧ ∃ m' col', upgrade B k ⟨m, st, wk⟩ = some (true, ⟨m', upd st k (st k + 1), wk⟩) ∧ RcChg W B m col m' col') := by
  obtain ⟨m1, col1, e1, u1⟩ := weakStrong_chg (k := k) (st := st) (wk := wk) hv hin hc
  by_cases hu : st k = 0
  · refine Or.inl ⟨hu, m1, col1, ?_, u1⟩
    unfold upgrade
    simp only [e1, Option.bind_eq_bind, Option.bind_some, Option.pure_def, if_pos hu]
  · obtain ⟨m2, col2, e2, u2⟩ := incStrong_chg (k := k) (st := st) (wk := wk) hv hin u1.cov
    refine Or.inr ⟨hu, m2, col2, ?_, (WkChg.rc u1).trans u2⟩
    unfold upgrade
    simp only [e1, e2, Option.bind_eq_bind, Option.bind_some, Option.pure_def, if_neg hu]

theorem weakTryUnwrap_chg (hv : B.Valid) (hin : In W B) (hc : Cov W m col) :
    (¬(st k = 0 ∧ wk k = 1) ∧ ∃ m' col', weakTryUnwrap B k ⟨m, st, wk⟩ = some (false, ⟨m', st, wk⟩) ∧ WkChg W B m col m' col') ∨
    ((st k = 0 ∧ wk k = 1) ∧ ∃ m' col', weakTryUnwrap B k ⟨m, st, wk⟩ = some (true, ⟨m', st, upd wk k (wk k - 1)⟩) ∧ WkChg W B m col m' col') := by
  obtain ⟨m1, col1, e1, u1⟩ := isUniqueMem_chg (k := k) (st := st) (wk := wk) hv hin hc
  by_cases hu : st k = 0 ∧ wk k = 1
  · obtain ⟨m2, col2, e2, u2⟩ := weakDec_chg (k := k) (st := st) (wk := wk) hv hin u1.cov
    refine Or.inr ⟨hu, m2, col2, ?_, u1.trans u2⟩
    unfold weakTryUnwrap
    rw [decide_eq_true hu] at e1
    simp only [e1, e2, Option.bind_eq_bind, Option.bind_some, Option.pure_def, if_true]
  · refine Or.inl ⟨hu, m1, col1, ?_, u1⟩
    unfold weakTryUnwrap
    rw [decide_eq_false hu] at e1
    simp only [e1, Option.bind_eq_bind, Option.bind_some, Option.pure_def, Bool.false_eq_true, if_false]

end
end Verif.RcBorrows
