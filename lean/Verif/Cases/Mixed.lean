import Verif.Props.Mixed
import Verif.Cases.Shared
/-!
# Concrete cases for C100
-/
set_option autoImplicit false
namespace Verif.CasesMixed
open Verif.Mixed
open Verif.Linked (var)
open Verif.CasesShared (env env_valid cell)

/-- Responses, destructors, abort. -/
def result (len : Nat) (ops : List Op) : Option (List Resp × List Nat × Bool) :=
  match run (env len) true (World.init 0) ops with
  | .ret (rs, w) => some (rs, w.log, w.aborted)
  | _ => none

def cellsOnly : Op → Bool
  | .box _ L | .rc _ L | .alloc L => decide (L = cell)
  | _ => true
theorem valid_of {ops : List Op} (h : ops.all cellsOnly = true) : ∀ op ∈ ops, op.Valid .w64 := by
  have hc : cell.Valid .w64 ∧ 0 < cell.size := ⟨⟨⟨3, rfl⟩, by decide⟩, by decide⟩
  intro op hop
  have := List.all_eq_true.mp h op hop
  cases op with
  | box v L | rc v L | alloc L => rw [of_decide_eq_true this]; exact hc
  | _ => trivial
theorem few_of {len : Nat} {ops : List Op} (h : ops.length ≤ 100) : (Spec.init 0).FewRun (env len).target (env len).slab ops := by
  have h1 : Target.w64.usizeMax = 2 ^ 64 - 1 := by decide
  exact C100_few _ _ 0 (by show ops.length ≤ Target.w64.usizeMax; rw [h1]; omega)

def allowedB (s : Spec) : Op → Bool
  | .recycle p _ => (dying s.stack).all (fun b => decide (var s.ptrs p ≠ some ⟨.weak, b⟩))
  | _ => true
theorem allowed_of_b {s : Spec} {op : Op} (h : allowedB s op = true) : s.Allowed op := by
  cases op with
  | recycle p v =>
    intro b hb
    exact of_decide_eq_true (List.all_eq_true.mp h b hb)
  | _ => trivial
def allowedRunB (slab : Slab) : Spec → List Op → Bool
  | _, [] => true
  | s, op :: ops => allowedB s op && allowedRunB slab (s.exec slab op).2 ops
theorem allowed_of {slab : Slab} : ∀ {ops : List Op} {s : Spec}, allowedRunB slab s ops = true → s.AllowedRun slab ops
  | [], _, _ => trivial
  | _ :: _, _, h => by
    simp only [allowedRunB, Bool.and_eq_true] at h
    exact ⟨allowed_of_b h.1, fun _ => allowed_of h.2⟩

/-- Value 0, in an `Rc`, has a `LeakBox` with value 1, that has a `Weak` back to it. While value 0 is being destroyed value 1 is still there, but there is no way back. -/
def tree : List Op :=
  [.make, .rc 0 cell, .downgrade 0, .make, .box 1 cell, .push (.ptr 2) [] 1, .push (.ptr 0) [] 2, .read (.ptr 0) [0], .follow (.ptr 0) [0] 0, .upgrade 3, .read (.ptr 4) [0], .counts 3,
   .dropPtr 0, .dropPtr 4, .upgrade 3, .read .self [0], .counts 3, .endDrop false, .read .self [], .endDrop false, .counts 3, .dropPtr 3]
example : result 128 tree =
    some ([.var 0, .var 0, .var 1, .var 1, .var 2, .unit, .unit, .id 1, .var 3, .var 4, .id 1, .nums 2 3, .unit, .unit, .refused, .id 1, .nums 0 2, .unit, .id 1, .unit, .nums 0 1, .unit], [0, 1], false) := by decide +kernel

/-- A list of boxes. The destructor of the first one takes the rest out of the value and drops it piece by piece, as is often done in order to need no recursion: the destructors do not run inside of each other. -/
def list : List Op :=
  [.make, .box 0 cell, .make, .push (.val 1) [] 0, .box 1 cell, .make, .push (.val 2) [] 1, .box 2 cell, .read (.ptr 2) [0, 0],
   .dropPtr 2, .pull .self [] 0, .endDrop false, .take 3, .pull (.val 3) [] 0, .dropVal 3, .endDrop false, .take 4, .dropVal 4, .endDrop false]
example : result 128 list =
    some ([.var 0, .var 0, .var 1, .unit, .var 1, .var 2, .unit, .var 2, .id 0, .unit, .var 3, .unit, .var 3, .var 4, .unit, .unit, .var 4, .unit, .unit], [2, 1, 0], false) := by decide +kernel
/-- The same, without that: each destructor is followed by that of the field. -/
def nest : List Op := list.take 10 ++ [.endDrop false, .endDrop false, .endDrop false]
example : result 128 nest = some ([.var 0, .var 0, .var 1, .unit, .var 1, .var 2, .unit, .var 2, .id 0, .unit, .unit, .unit, .unit], [2, 1, 0], false) := by decide +kernel

/-- The value in the innermost box is exchanged with another one. This is in a variable now, and has a pointer to value 2. -/
def swapping : List Op :=
  [.make, .box 0 cell, .make, .push (.val 1) [] 0, .rc 1 cell, .make, .make, .rc 3 cell, .push (.val 2) [] 2,
   .swap (.ptr 1) [0] 2, .read (.ptr 1) [0], .read (.ptr 1) [0, 0], .read (.val 2) [], .dropVal 2, .endDrop false, .dropPtr 1, .endDrop false, .endDrop false, .endDrop false]
example : result 128 swapping =
    some ([.var 0, .var 0, .var 1, .unit, .var 1, .var 2, .var 3, .var 2, .unit, .unit, .id 2, .id 3, .id 0, .unit, .unit, .unit, .unit, .unit, .unit], [0, 1, 2, 3], false) := by decide +kernel

/-- `ptr_eq`, `get_mut`, `try_unwrap` and reuse of the memory, of an `Rc` that was in a box. -/
def counting : List Op :=
  [.make, .rc 0 cell, .clone 0, .ptrEq 0 1, .make, .push (.val 1) [] 1, .box 1 cell, .make, .getMut 0 2, .tryUnwrap 0, .take 2, .pull (.val 3) [] 0, .dropPtr 3, .getMut 0 2, .read (.val 2) [], .tryUnwrap 0,
   .upgrade 0, .recycle 0 2, .read (.ptr 0) [], .downgrade 0, .getMut 0 4, .dropPtr 0, .endDrop false, .dropVal 3, .endDrop false, .dropVal 4, .endDrop false, .dropPtr 4]
example : result 128 counting =
    some ([.var 0, .var 0, .var 1, .bool true, .var 1, .unit, .var 2, .var 2, .refused, .refused, .var 3, .var 3, .unit, .unit, .id 0, .var 4,
      .refused, .unit, .id 0, .var 4, .refused, .unit, .unit, .unit, .unit, .unit, .unit, .unit], [0, 1, 2], false) := by decide +kernel

/-- The destructor of value 2 panics; those of the boxes in it are run nevertheless, and the panic arrives in the program. -/
def panicking : List Op := list.take 10 ++ [.endDrop true, .endDrop false, .endDrop false, .make]
example : result 128 panicking = some ([.var 0, .var 0, .var 1, .unit, .var 1, .var 2, .unit, .var 2, .id 0, .unit, .unit, .unit, .unwound, .var 3], [2, 1, 0], false) := by decide +kernel
/-- If another one panics then the program is aborted. -/
def aborting : List Op := list.take 10 ++ [.endDrop true, .endDrop false, .endDrop true, .make]
example : result 128 aborting = some ([.var 0, .var 0, .var 1, .unit, .var 1, .var 2, .unit, .var 2, .id 0, .unit, .unit, .unit, .aborted], [2, 1, 0], true) := by decide +kernel

/-- There is no memory for another box: the value is destroyed by `?`. Its destructor saves the box in it. -/
example : result 40 [.make, .box 0 cell, .make, .push (.val 1) [] 0, .box 1 cell, .pull .self [] 0, .endDrop false, .read (.ptr 1) [], .take 1] =
    some ([.var 0, .var 0, .var 1, .unit, .full, .var 1, .unit, .id 0, .var 2], [1], false) := by decide +kernel
/-- What can not be done: cloning a `LeakBox`, putting it into itself, access by a `Weak`. -/
example : result 128 [.make, .box 0 cell, .clone 0, .push (.ptr 0) [] 0, .counts 0, .make, .rc 1 cell, .downgrade 1, .read (.ptr 2) [], .take 1, .tryUnwrap 0, .upgrade 1, .endDrop false, .read .self []] =
    some ([.var 0, .var 0, .absent, .absent, .absent, .var 1, .var 1, .var 2, .absent, .absent, .absent, .absent, .absent, .absent], [], false) := by decide +kernel

/-! The theorems for these. -/
def spec (ops : List Op) : Spec := ((Spec.init 0).run (env 128).slab ops).2
def final (ops : List Op) : World := match run (env 128) true (World.init 0) ops with | .ret (_, w) => w | _ => World.init 0
def resps (ops : List Op) : List Resp := match run (env 128) true (World.init 0) ops with | .ret (r, _) => r | _ => []
def okB (ops : List Op) : Bool := ops.all cellsOnly && decide (ops.length ≤ 100) && allowedRunB (env 128).slab (Spec.init 0) ops
theorem ok {ops : List Op} (h : okB ops = true) :
    (∀ op ∈ ops, op.Valid .w64) ∧ (Spec.init 0).FewRun (env 128).target (env 128).slab ops ∧ (Spec.init 0).AllowedRun (env 128).slab ops := by
  simp only [okB, Bool.and_eq_true, decide_eq_true_eq] at h
  exact ⟨valid_of h.1.1, few_of h.1.2, allowed_of h.2⟩
theorem ev : (env 128).Valid := env_valid (by decide)
theorem final_eq {ops : List Op} (h : okB ops = true) : run (env 128) true (World.init 0) ops = .ret (resps ops, final ops) := by
  obtain ⟨h1, h2, h3⟩ := ok h
  obtain ⟨w, h, _⟩ := C100_refines ev (Nat.zero_le _) true h1 h2 h3
  simp [final, resps, h]

example : [tree, list, nest, swapping, counting, panicking, aborting].all okB = true := by decide +kernel

example : ∃ w, run (env 128) true (World.init 0) tree = .ret (((Spec.init 0).run (env 128).slab tree).1, w) ∧ w.log = (spec tree).log ∧ w.aborted = (spec tree).aborted ∧ w.made = (spec tree).made :=
  have h := ok (ops := tree) (by decide +kernel)
  C100_refines ev (Nat.zero_le _) true h.1 h.2.1 h.2.2
example : ∃ w, run (env 128) true (World.init 0) counting = .ret (((Spec.init 0).run (env 128).slab counting).1, w) ∧ w.log = (spec counting).log ∧ w.aborted = (spec counting).aborted ∧ w.made = (spec counting).made :=
  have h := ok (ops := counting) (by decide +kernel)
  C100_refines ev (Nat.zero_le _) true h.1 h.2.1 h.2.2
example : (Spec.init 0).FewRun .w64 (env 128).slab tree := C100_few .w64 _ 0 (by decide)
/-- In the destructor of value 0 of `tree`: the box is in the value that is being destroyed. -/
example : (spec (tree.take 15)).pointers = [⟨.weak, 0⟩, ⟨.own, 1⟩, ⟨.weak, 0⟩] ∧ dying (spec (tree.take 15)).stack = [0] := by decide +kernel
example := C100_counters ev (Nat.zero_le _) (ok (ops := tree.take 15) (by decide +kernel)).1 (ok (ops := tree.take 15) (by decide +kernel)).2.1
  (ok (ops := tree.take 15) (by decide +kernel)).2.2 (final_eq (by decide +kernel)) rfl
example := C100_all ev (Nat.zero_le _) (ok (ops := list.take 13) (by decide +kernel)).1 (ok (ops := list.take 13) (by decide +kernel)).2.1 (ok (ops := list.take 13) (by decide +kernel)).2.2 rfl
example : (final aborting).log.Nodup ∧ ∀ i ∈ (final aborting).log, i < (final aborting).made :=
  have h := ok (ops := aborting) (by decide +kernel)
  C100_once ev (Nat.zero_le _) h.1 h.2.1 h.2.2 (final_eq (by decide +kernel))
example : (∃ v, var (spec (tree.take 15)).blocks 1 = some v) ↔ (⟨.own, 1⟩ : Ptr) ∈ (spec (tree.take 15)).pointers ∨ (⟨.strong, 1⟩ : Ptr) ∈ (spec (tree.take 15)).pointers :=
  have h := ok (ops := tree.take 15) (by decide +kernel)
  C100_alive_iff ev (Nat.zero_le _) h.1 h.2.1 h.2.2 rfl 1
example : (var (spec (tree.take 15)).blocks 0).isSome = false ∧ (var (spec (tree.take 15)).blocks 1).isSome = true := by decide +kernel
example : (⟨.own, 0⟩ : Ptr) ∉ (spec (tree.take 14)).pointers ∧ (⟨.strong, 0⟩ : Ptr) ∉ (spec (tree.take 14)).pointers ∧
    ∀ p, var (spec (tree.take 14)).ptrs p = some ⟨.weak, 0⟩ → exec (env 128) true (final (tree.take 14)) (.upgrade p) = .ret (.refused, final (tree.take 14)) :=
  have h := ok (ops := tree.take 14) (by decide +kernel)
  C100_dying ev (Nat.zero_le _) h.1 h.2.1 h.2.2 (final_eq (by decide +kernel)) rfl (b := 0) (by decide +kernel)
example : var (spec (tree.take 14)).ptrs 3 = some ⟨.weak, 0⟩ := by decide +kernel

/-- Three boxes in each other, a way by boxes. -/
example : (spec (list.take 9)).BoxPath 2 0 := .more (c := 1) ⟨⟨2, [⟨.own, 1⟩]⟩, by decide +kernel, by decide⟩ (.one ⟨⟨1, [⟨.own, 0⟩]⟩, by decide +kernel, by decide⟩)
example : ¬ (spec (list.take 9)).BoxPath 0 0 :=
  have h := ok (ops := list.take 9) (by decide +kernel)
  C100_boxes ev (Nat.zero_le _) h.1 h.2.1 h.2.2 rfl 0

/-- Value 0 is in an `Rc`, it has a box with value 1 that has an `Rc` to value 0, and another box with value 2. All are lost. -/
def lost : List Op :=
  [.make, .rc 0 cell, .clone 0, .make, .box 1 cell, .push (.ptr 2) [] 1, .make, .box 2 cell, .push (.ptr 2) [] 3, .push (.ptr 0) [] 2, .read (.ptr 0) [0, 0, 0, 1], .dropPtr 0]
example : result 128 lost = some ([.var 0, .var 0, .var 1, .var 1, .var 2, .unit, .var 2, .var 3, .unit, .unit, .id 2, .unit], [], false) := by decide +kernel
theorem lost_unreachable (b : Nat) : ¬ (spec lost).Reach b := by
  intro h
  induction h with
  | root _ hm => rw [show (spec lost).roots = [] by decide +kernel] at hm; cases hm
  | edge _ _ _ ih => exact ih
example : ∃ c d, ¬ (spec lost).Reach c ∧ (spec lost).Edge .strong c d ∧ (d = c ∨ (spec lost).Path d c) ∧ (d = 2 ∨ (spec lost).Path d 2) :=
  have h := ok (ops := lost) (by decide +kernel)
  C100_garbage ev (Nat.zero_le _) h.1 h.2.1 h.2.2 rfl (b := 2) ⟨⟨2, []⟩, by decide +kernel⟩ (lost_unreachable 2)

theorem no_edge {s : Spec} (h : s.blocks.all (fun o => o.isNone) = true) (k : Kind) (b c : Nat) : ¬ s.Edge k b c := by
  rintro ⟨v, hv, _⟩
  unfold var at hv
  cases hb : s.blocks[b]? with
  | none => rw [hb] at hv; cases hv
  | some o =>
    have := List.all_eq_true.mp h o (List.mem_of_getElem? hb)
    rw [hb] at hv
    cases o with
    | none => cases hv
    | some v => cases this
example : (final tree).log.Perm (List.range (final tree).made) :=
  have h := ok (ops := tree) (by decide +kernel)
  C100_complete ev (Nat.zero_le _) h.1 h.2.1 h.2.2 (final_eq (by decide +kernel)) (by decide +kernel) (by decide +kernel)
    (fun p => by simp [tree]) (by
      have : (final tree).tasks.length = 0 := by decide +kernel
      exact List.length_eq_zero_iff.mp this) (fun b c he => absurd he (no_edge (by decide +kernel) _ b c))

end Verif.CasesMixed
