import Mathlib.Data.List.Basic
import Mathlib.Order.Compare
import Verif.Spec.Compare
import Verif.Proofs.FixedVecFrame
import Verif.Props.Boxes
import Verif.Props.Rc
/-! # C76: comparing and hashing `FixedVec`, `Box` and `Rc` -/
namespace Verif
open Cmp

namespace Cmp
variable {V : Type}

theorem sliceEq_iff (d : Traits V) (xs ys : List V) : sliceEq d xs ys = true ↔ EqualLists d.eq xs ys := by
  induction xs generalizing ys with
  | nil => cases ys <;> simp [sliceEq, EqualLists]
  | cons x xs ih =>
    cases ys with
    | nil => simp [sliceEq, EqualLists]
    | cons y ys =>
      simp only [sliceEq, Bool.and_eq_true, ih, EqualLists, List.length_cons, Nat.add_right_cancel_iff]
      constructor
      · rintro ⟨h1, h2, h3⟩
        refine ⟨h2, fun k a b ha hb => ?_⟩
        cases k with
        | zero => simp at ha hb; subst ha; subst hb; exact h1
        | succ k => exact h3 k a b (by simpa using ha) (by simpa using hb)
      · rintro ⟨h2, h3⟩
        exact ⟨h3 0 x y rfl rfl, h2, fun k a b ha hb => h3 (k + 1) a b (by simpa using ha) (by simpa using hb)⟩

theorem slicePartialCmp_lex (d : Traits V) (xs ys : List V) : Lexicographic d.partialCmp xs ys (slicePartialCmp d xs ys) := by
  induction xs generalizing ys with
  | nil => cases ys with
    | nil => exact .inr ⟨by simp, by simp [slicePartialCmp]⟩
    | cons y ys => exact .inr ⟨by simp, by simp [slicePartialCmp, compare, compareOfLessAndEq]⟩
  | cons x xs ih =>
    cases ys with
    | nil => exact .inr ⟨by simp, by simp [slicePartialCmp, compare, compareOfLessAndEq]⟩
    | cons y ys =>
      by_cases h : d.partialCmp x y = some .eq
      · rw [show slicePartialCmp d (x :: xs) (y :: ys) = slicePartialCmp d xs ys by simp [slicePartialCmp, h]]
        rcases ih ys with ⟨k, a, b, h1, h2, h3, h4, h5⟩ | ⟨h1, h2⟩
        · refine .inl ⟨k + 1, a, b, by simpa using h1, by simpa using h2, h3, h4, fun j hj x' y' hx hy => ?_⟩
          cases j with
          | zero => simp at hx hy; subst hx; subst hy; exact h
          | succ j => exact h5 j (by omega) x' y' (by simpa using hx) (by simpa using hy)
        · refine .inr ⟨fun j x' y' hx hy => ?_, ?_⟩
          · cases j with
            | zero => simp at hx hy; subst hx; subst hy; exact h
            | succ j => exact h1 j x' y' (by simpa using hx) (by simpa using hy)
          · rw [h2]
            simp only [List.length_cons, compare, compareOfLessAndEq, Nat.add_lt_add_iff_right, Nat.add_right_cancel_iff]
      · have : slicePartialCmp d (x :: xs) (y :: ys) = d.partialCmp x y := by
          simp only [slicePartialCmp]
        rw [this]
        exact .inl ⟨0, x, y, rfl, rfl, rfl, h, fun j hj => by omega⟩

/-- `cmp` is `partial_cmp` with total comparisons. -/
theorem sliceCmp_eq (d : Traits V) (xs ys : List V) : some (sliceCmp d xs ys) = slicePartialCmp { d with partialCmp := fun a b => some (d.cmp a b) } xs ys := by
  induction xs generalizing ys with
  | nil => cases ys <;> rfl
  | cons x xs ih =>
    cases ys with
    | nil => rfl
    | cons y ys =>
      simp only [sliceCmp, slicePartialCmp]
      cases d.cmp x y <;> simp [ih]

theorem slicePartialCmp_lawful [LT V] {d : Traits V} (hd : Lawful d) (xs ys : List V) : slicePartialCmp d xs ys = some (sliceCmp d xs ys) := by
  induction xs generalizing ys with
  | nil => cases ys <;> rfl
  | cons x xs ih =>
    cases ys with
    | nil => rfl
    | cons y ys =>
      simp only [sliceCmp, slicePartialCmp, hd.partial_cmp]
      cases d.cmp x y <;> simp [ih]

theorem sliceCmp_lt [LinearOrder V] {d : Traits V} (hd : Lawful d) (xs ys : List V) :
    (sliceCmp d xs ys = .lt ↔ xs < ys) ∧ (sliceCmp d xs ys = .eq ↔ xs = ys) ∧ (sliceCmp d xs ys = .gt ↔ ys < xs) := by
  induction xs generalizing ys with
  | nil => cases ys <;> simp [sliceCmp]
  | cons x xs ih =>
    cases ys with
    | nil => simp [sliceCmp]
    | cons y ys =>
      obtain ⟨i1, i2, i3⟩ := ih ys
      simp only [sliceCmp]
      cases hc : d.cmp x y with
      | lt =>
        have := (hd.cmp_lt x y).mp hc
        simp only [List.cons_lt_cons_iff, this, ne_of_lt this, not_lt_of_gt this, (ne_of_lt this).symm, List.cons.injEq]
        simp
      | eq =>
        have := (hd.cmp_eq x y).mp hc
        subst this
        simp only [i1, i2, i3, List.cons.injEq, true_and, List.cons_lt_cons_iff, lt_irrefl, false_or]
      | gt =>
        have := (hd.cmp_gt x y).mp hc
        simp only [List.cons_lt_cons_iff, this, ne_of_lt this, not_lt_of_gt this, (ne_of_lt this).symm, List.cons.injEq]
        simp

theorem sliceHash_eq {d : Traits V} (hh : HashLaw d) {xs ys : List V} (h : sliceEq d xs ys = true) : (sliceTraits d).hash xs = (sliceTraits d).hash ys := by
  have key : ∀ xs ys : List V, sliceEq d xs ys = true → xs.length = ys.length ∧ xs.flatMap d.hash = ys.flatMap d.hash := by
    intro xs
    induction xs with
    | nil => intro ys h; cases ys with
      | nil => exact ⟨rfl, rfl⟩
      | cons => cases h
    | cons x xs ih =>
      intro ys h
      cases ys with
      | nil => cases h
      | cons y ys =>
        simp only [sliceEq, Bool.and_eq_true] at h
        obtain ⟨h1, h2⟩ := ih ys h.2
        exact ⟨by simp [h1], by simp only [List.flatMap_cons, hh x y h.1, h2]⟩
  obtain ⟨h1, h2⟩ := key xs ys h
  simp only [sliceTraits, h1, h2]
end Cmp

/-! ## `FixedVec` -/

section
open FVec
variable {V : Type} {t : Target} {T : Layout} {checks : Bool} {panics : V → Bool}

theorem asSlice_of_shows {w : World V} {i : Nat} {e : Entry} {xs : List V} (he : w.ents i = some e) (hx : Shows t T checks panics w i xs) : e.vec.asSlice w.heap = .ret xs := by
  simp only [Shows, exec, Op.target, he] at hx
  cases hd : e.drain with
  | none =>
    rw [hd] at hx
    simp only [execVec, bind, Outcome.bind] at hx
    cases ha : e.vec.asSlice w.heap with
    | ret vs => rw [ha] at hx; simp only [pure] at hx; cases hx; rfl
    | _ => rw [ha] at hx; cases hx
  | some d => rw [hd] at hx; cases hx

/-- **C76** Comparing two vectors (possibly the same) that can be read gives a result that depends only on their elements, whatever else is in memory and whatever the capacities are, for any methods of the element type: `==` says whether
they have the same length and the elements are equal, `!=` the opposite, `partial_cmp` and `cmp` compare lexicographically, the operators are as `partial_cmp` says. -/
theorem C76_vec_compare (d : Traits V) {w : World V} {i j : Nat} {e f : Entry} (he : w.ents i = some e) (hf : w.ents j = some f) {xs ys : List V}
    (hx : Shows t T checks panics w i xs) (hy : Shows t T checks panics w j ys) :
    ∃ (q : Bool) (p : Option Ordering) (o : Ordering),
      Cmp.FixedVec.eq d w.heap e.vec f.vec = .ret q ∧ (q = true ↔ EqualLists d.eq xs ys) ∧
      Cmp.FixedVec.ne d w.heap e.vec f.vec = .ret (!q) ∧
      Cmp.FixedVec.partialCmp d w.heap e.vec f.vec = .ret p ∧ Lexicographic d.partialCmp xs ys p ∧
      Cmp.FixedVec.lt d w.heap e.vec f.vec = .ret (decide (p = some .lt)) ∧
      Cmp.FixedVec.le d w.heap e.vec f.vec = .ret (decide (p = some .lt ∨ p = some .eq)) ∧
      Cmp.FixedVec.ge d w.heap e.vec f.vec = .ret (decide (p = some .gt ∨ p = some .eq)) ∧
      Cmp.FixedVec.gt d w.heap e.vec f.vec = .ret (decide (p = some .gt)) ∧
      Cmp.FixedVec.cmp d w.heap e.vec f.vec = .ret o ∧ Lexicographic (fun a b => some (d.cmp a b)) xs ys (some o) := by
  have h1 := asSlice_of_shows he hx
  have h2 := asSlice_of_shows hf hy
  refine ⟨sliceEq d xs ys, slicePartialCmp d xs ys, sliceCmp d xs ys, ?_, sliceEq_iff d xs ys, ?_, ?_, slicePartialCmp_lex d xs ys, ?_, ?_, ?_, ?_, ?_, ?_⟩
  · simp only [Cmp.FixedVec.eq, h1, h2, bind, Outcome.bind]; rfl
  · simp only [Cmp.FixedVec.ne, h1, h2, bind, Outcome.bind]; rfl
  · simp only [Cmp.FixedVec.partialCmp, h1, h2, bind, Outcome.bind]; rfl
  · simp only [Cmp.FixedVec.lt, h1, h2, bind, Outcome.bind, pure, sliceTraits]
    congr 1
    rw [Bool.eq_iff_iff]; simp
  · simp only [Cmp.FixedVec.le, h1, h2, bind, Outcome.bind, pure, sliceTraits]
    congr 1
    rw [Bool.eq_iff_iff]; simp
  · simp only [Cmp.FixedVec.ge, h1, h2, bind, Outcome.bind, pure, sliceTraits]
    congr 1
    rw [Bool.eq_iff_iff]; simp
  · simp only [Cmp.FixedVec.gt, h1, h2, bind, Outcome.bind, pure, sliceTraits]
    congr 1
    rw [Bool.eq_iff_iff]; simp
  · simp only [Cmp.FixedVec.cmp, h1, h2, bind, Outcome.bind]; rfl
  · rw [sliceCmp_eq]; exact slicePartialCmp_lex { d with partialCmp := fun a b => some (d.cmp a b) } xs ys

/-- **C76** If the methods of the element type agree with a linear order then those of the vectors agree with the lexicographic order of the lists of elements: so vectors are linearly ordered and `==` is equality of the contents. -/
theorem C76_vec_order [LinearOrder V] {d : Traits V} (hd : Lawful d) {w : World V} {i j : Nat} {e f : Entry} (he : w.ents i = some e) (hf : w.ents j = some f) {xs ys : List V}
    (hx : Shows t T checks panics w i xs) (hy : Shows t T checks panics w j ys) :
    Cmp.FixedVec.eq d w.heap e.vec f.vec = .ret (decide (xs = ys)) ∧
    Cmp.FixedVec.lt d w.heap e.vec f.vec = .ret (decide (xs < ys)) ∧
    Cmp.FixedVec.gt d w.heap e.vec f.vec = .ret (decide (ys < xs)) ∧
    Cmp.FixedVec.le d w.heap e.vec f.vec = .ret (decide (¬ ys < xs)) ∧
    Cmp.FixedVec.ge d w.heap e.vec f.vec = .ret (decide (¬ xs < ys)) ∧
    ∃ o, Cmp.FixedVec.cmp d w.heap e.vec f.vec = .ret o ∧ Cmp.FixedVec.partialCmp d w.heap e.vec f.vec = .ret (some o) ∧
      (o = .lt ↔ xs < ys) ∧ (o = .eq ↔ xs = ys) ∧ (o = .gt ↔ ys < xs) := by
  have h1 := asSlice_of_shows he hx
  have h2 := asSlice_of_shows hf hy
  obtain ⟨k1, k2, k3⟩ := sliceCmp_lt hd xs ys
  have hp := slicePartialCmp_lawful hd xs ys
  have heq : sliceEq d xs ys = true ↔ xs = ys := by
    rw [sliceEq_iff]
    constructor
    · rintro ⟨a, b⟩
      refine List.ext_getElem a fun n m1 m2 => ?_
      exact (hd.eq_iff _ _).mp (b n _ _ (List.getElem?_eq_getElem m1) (List.getElem?_eq_getElem m2))
    · rintro rfl
      refine ⟨rfl, fun k x y a b => ?_⟩
      rw [a] at b; cases b
      exact (hd.eq_iff _ _).mpr rfl
  refine ⟨?_, ?_, ?_, ?_, ?_, sliceCmp d xs ys, ?_, ?_, k1, k2, k3⟩
  · simp only [Cmp.FixedVec.eq, h1, h2, bind, Outcome.bind, pure, sliceTraits]
    congr 1; rw [Bool.eq_iff_iff, heq]; simp
  · simp only [Cmp.FixedVec.lt, h1, h2, bind, Outcome.bind, pure, sliceTraits, hp]
    congr 1; rw [Bool.eq_iff_iff]; simp [k1]
  · simp only [Cmp.FixedVec.gt, h1, h2, bind, Outcome.bind, pure, sliceTraits, hp]
    congr 1; rw [Bool.eq_iff_iff]; simp [k3]
  · simp only [Cmp.FixedVec.le, h1, h2, bind, Outcome.bind, pure, sliceTraits, hp]
    congr 1
    rw [Bool.eq_iff_iff, decide_eq_true_iff, ← k3]
    cases sliceCmp d xs ys <;> decide
  · simp only [Cmp.FixedVec.ge, h1, h2, bind, Outcome.bind, pure, sliceTraits, hp]
    congr 1
    rw [Bool.eq_iff_iff, decide_eq_true_iff, ← k1]
    cases sliceCmp d xs ys <;> decide
  · simp only [Cmp.FixedVec.cmp, h1, h2, bind, Outcome.bind]; rfl
  · simp only [Cmp.FixedVec.partialCmp, h1, h2, bind, Outcome.bind, pure, sliceTraits, hp]

/-- **C76** A vector feeds to a hasher what the slice it borrows as does, and vectors that are equal feed the same, if the element type obeys that law. So a vector can be looked up by slice. -/
theorem C76_vec_hash {d : Traits V} {w : World V} {i j : Nat} {e f : Entry} (he : w.ents i = some e) (hf : w.ents j = some f) {xs ys : List V}
    (hx : Shows t T checks panics w i xs) (hy : Shows t T checks panics w j ys) :
    Cmp.FixedVec.borrow w.heap e.vec = .ret xs ∧ Cmp.FixedVec.hash d w.heap e.vec = .ret (.usize xs.length :: xs.flatMap d.hash) ∧
    (HashLaw d → Cmp.FixedVec.eq d w.heap e.vec f.vec = .ret true → Cmp.FixedVec.hash d w.heap e.vec = Cmp.FixedVec.hash d w.heap f.vec) := by
  have h1 := asSlice_of_shows he hx
  have h2 := asSlice_of_shows hf hy
  refine ⟨h1, ?_, fun hh hq => ?_⟩
  · simp only [Cmp.FixedVec.hash, h1, bind, Outcome.bind]; rfl
  · simp only [Cmp.FixedVec.eq, h1, h2, bind, Outcome.bind, pure] at hq
    have : sliceEq d xs ys = true := by cases hq' : sliceEq d xs ys with | true => rfl | false => simp only [sliceTraits, hq'] at hq; cases hq
    simp only [Cmp.FixedVec.hash, h1, h2, bind, Outcome.bind, sliceHash_eq hh this]
end

/-! ## `Box` and `Rc` -/

/-- All methods of a pointer type are those of the values. -/
structure Forwards {V : Type} (d : Traits V) (x y : V) (eq ne lt le ge gt : Outcome Bool) (partialCmp : Outcome (Option Ordering)) (cmp : Outcome Ordering) (hash : Outcome (List Feed)) : Prop where
  eq : eq = .ret (d.eq x y)
  ne : ne = .ret (d.ne x y)
  lt : lt = .ret (d.lt x y)
  le : le = .ret (d.le x y)
  ge : ge = .ret (d.ge x y)
  gt : gt = .ret (d.gt x y)
  partialCmp : partialCmp = .ret (d.partialCmp x y)
  cmp : cmp = .ret (d.cmp x y)
  hash : hash = .ret (d.hash x)

/-- **C76** Comparing and hashing boxes is comparing and hashing the values that one reads through them. (The boxes can be read in every state in which they exist, see C51.) -/
theorem C76_box (d : Traits Nat) {s : Owned.OState} {a b x y : Nat} (ha : Owned.bexec s (.deref a) = .ret (.val x, s)) (hb : Owned.bexec s (.deref b) = .ret (.val y, s)) :
    Forwards d x y (Cmp.WBox.eq d s.st a b) (Cmp.WBox.ne d s.st a b) (Cmp.WBox.lt d s.st a b) (Cmp.WBox.le d s.st a b) (Cmp.WBox.ge d s.st a b) (Cmp.WBox.gt d s.st a b)
      (Cmp.WBox.partialCmp d s.st a b) (Cmp.WBox.cmp d s.st a b) (Cmp.WBox.hash d s.st a) := by
  have key : ∀ {p v : Nat}, Owned.bexec s (.deref p) = .ret (.val v, s) → Owned.WBox.deref s.st p = .ret v := by
    intro p v h
    simp only [Owned.bexec, bind, Outcome.bind] at h
    cases hp : Owned.WBox.deref s.st p with
    | ret u => rw [hp] at h; simp only [pure] at h; cases h; rfl
    | _ => rw [hp] at h; cases h
  have h1 := key ha
  have h2 := key hb
  constructor <;>
    simp only [Cmp.WBox.eq, Cmp.WBox.ne, Cmp.WBox.lt, Cmp.WBox.le, Cmp.WBox.ge, Cmp.WBox.gt, Cmp.WBox.partialCmp, Cmp.WBox.cmp, Cmp.WBox.hash, h1, h2, bind, Outcome.bind] <;> rfl

/-- **C76** The same for `Rc`: also two `Rc`s of the same block are compared by value. -/
theorem C76_rc {V : Type} {t : Target} {checks : Bool} (d : Traits V) {w : RcM.World V} {a b : Nat} {x y : V} (ha : RcM.exec t checks w (.deref a) = .ret (.val x, w)) (hb : RcM.exec t checks w (.deref b) = .ret (.val y, w)) :
    Forwards d x y (Cmp.Rc.eq d w a b) (Cmp.Rc.ne d w a b) (Cmp.Rc.lt d w a b) (Cmp.Rc.le d w a b) (Cmp.Rc.ge d w a b) (Cmp.Rc.gt d w a b)
      (Cmp.Rc.partialCmp d w a b) (Cmp.Rc.cmp d w a b) (Cmp.Rc.hash d w a) := by
  have key : ∀ {p : Nat} {v : V}, RcM.exec t checks w (.deref p) = .ret (.val v, w) → Cmp.Rc.deref w p = .ret v := by
    intro p v h
    simp only [RcM.exec] at h
    unfold Cmp.Rc.deref
    cases hp : w.block? .strong p with
    | none => rw [hp] at h; cases h
    | some q =>
      rw [hp] at h
      simp only at h ⊢
      cases hq : (w.mem q).val with
      | none => rw [hq] at h; cases h
      | some u => rw [hq] at h; cases h; rfl
  have h1 := key ha
  have h2 := key hb
  constructor <;>
    simp only [Cmp.Rc.eq, Cmp.Rc.ne, Cmp.Rc.lt, Cmp.Rc.le, Cmp.Rc.ge, Cmp.Rc.gt, Cmp.Rc.partialCmp, Cmp.Rc.cmp, Cmp.Rc.hash, h1, h2, bind, Outcome.bind] <;> rfl

/-! Concrete cases -/

/-- The traits of `u32`. -/
def u32Traits : Traits Nat :=
  ⟨fun a b => a = b, fun a b => a ≠ b, fun a b => some (compare a b), fun a b => a < b, fun a b => a ≤ b, fun a b => b ≤ a, fun a b => b < a, compare, fun a => [.bytes [a]]⟩
theorem u32Traits_lawful : Lawful u32Traits :=
  ⟨fun a b => by simp [u32Traits], fun a b => by simp [u32Traits, Nat.compare_eq_lt], fun a b => by simp [u32Traits, Nat.compare_eq_eq],
    fun a b => by simp [u32Traits, Nat.compare_eq_gt], fun a b => rfl⟩
example : HashLaw u32Traits := by intro a b h; simp [u32Traits] at h; rw [h]

open FVec in
/-- Two vectors of different capacity in one memory, `[1, 2]` and `[1, 3]`. -/
example :
    (match run .w64 ⟨4, 4⟩ true (fun _ => false) (World.init fun _ => none) [.new 4096 16, .new 8192 8, .push 0 1, .push 0 2, .push 1 1, .push 1 3] with
      | .ret (_, w) => (w.ents 0).bind fun e => (w.ents 1).map fun f =>
          (Cmp.FixedVec.cmp u32Traits w.heap e.vec f.vec, Cmp.FixedVec.eq u32Traits w.heap e.vec f.vec, Cmp.FixedVec.hash u32Traits w.heap f.vec)
      | _ => none) = some (.ret .lt, .ret false, .ret [.usize 2, .bytes [1], .bytes [3]]) := by decide +kernel

end Verif
