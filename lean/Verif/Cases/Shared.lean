import Verif.Props.Shared
/-!
# Concrete cases for C97
-/
set_option autoImplicit false
namespace Verif.CasesShared
open Verif.Shared
open Verif.Linked (var)

def env (len : Nat) : Bump.Env := ⟨.w64, 4096, len, id⟩
theorem env_valid {len : Nat} (h : len ≤ 1024) : (env len).Valid := by
  have h1 : Target.w64.W = 2 ^ 64 := by decide
  have h2 : Target.w64.isizeMax = 2 ^ 63 - 1 := by decide
  exact ⟨by simp [env], by simp only [env, h1]; omega, by simp only [env, h2]; omega, fun a h => ⟨h.pos, Nat.dvd_refl a⟩⟩

/-- Layout of the inner box of a value with two words. -/
def cell : Layout := ⟨32, 8⟩

/-- Responses, destructors, abort. -/
def result (len : Nat) (panics : Nat → Bool) (ops : List Op) : Option (List Resp × List Nat × Bool) :=
  match run (env len) true panics (World.init 0) ops with
  | .ret (rs, w) => some (rs, w.log, w.aborted)
  | _ => none

def cellsOnly : Op → Bool
  | .rc _ L | .alloc L => decide (L = cell)
  | _ => true
theorem valid_of {ops : List Op} (h : ops.all cellsOnly = true) : ∀ op ∈ ops, op.Valid .w64 := by
  intro op hop
  have := List.all_eq_true.mp h op hop
  cases op <;> simp_all [cellsOnly, Op.Valid]
  all_goals exact ⟨⟨⟨3, rfl⟩, by decide⟩, by decide⟩
theorem few_of {len : Nat} {panics : Nat → Bool} {ops : List Op} (h : ops.length ≤ 100) : ∀ k < ops.length, ((Spec.init 0).run (env len).slab panics (ops.take k)).2.Few (env len).target := by
  have h1 : Target.w64.usizeMax = 2 ^ 64 - 1 := by decide
  exact C97_few _ _ _ 0 (by show ops.length ≤ Target.w64.usizeMax; rw [h1]; omega)

/-- A leaf shared by two values: dropping the first keeps it, dropping the second destroys it. -/
def diamond : List Op :=
  [.make, .rc 0 cell, .clone 0, .make, .attach 1 0, .rc 1 cell, .make, .attach 2 1, .rc 2 cell, .follow 2 0, .counts 4, .ptrEq 2 3, .read 4, .dropPtr 4, .dropPtr 2, .dropPtr 3]
example : result 128 (fun _ => false) diamond =
    some ([.var 0, .var 0, .var 1, .var 1, .unit, .var 2, .var 2, .unit, .var 3, .var 4, .nums 3 1, .bool false, .id 0, .unit, .unit, .unit], [1, 2, 0], false) := by decide +kernel
/-- Without memory for the second value it is dropped, and its pointer to the leaf; the leaf is not. -/
example : result 40 (fun _ => false) diamond =
    some ([.var 0, .var 0, .var 1, .var 1, .unit, .full, .var 2, .unit, .full, .absent, .absent, .absent, .absent, .absent, .absent, .absent], [1, 2, 0], false) := by decide +kernel

/-- As in the documentation of `Weak::try_unwrap`, rc.rs:355-370: the value is taken out, the memory is used for another value. It can not be while this value has a pointer to the block. -/
def reuse : List Op :=
  [.make, .rc 0 cell, .clone 0, .tryUnwrap 0, .dropPtr 1, .tryUnwrap 0, .upgrade 0, .counts 0, .clone 0, .make, .recycle 0 2, .attach 2 2, .recycle 0 2, .unpack 2 0, .dropPtr 3, .recycle 0 2, .read 0, .dropVal 1, .dropPtr 0]
example : result 128 (fun _ => false) reuse =
    some ([.var 0, .var 0, .var 1, .refused, .unit, .var 1, .refused, .nums 0 1, .var 2, .var 2, .refused, .unit, .refused, .var 3, .unit, .unit, .id 1, .unit, .unit], [0, 1], false) := by decide +kernel

/-- `get_mut`. -/
def exchange : List Op :=
  [.make, .rc 0 cell, .make, .downgrade 0, .replace 0 1, .dropPtr 1, .clone 0, .replace 0 1, .dropPtr 2, .replace 0 1, .read 0, .dropVal 1, .dropPtr 0]
example : result 128 (fun _ => false) exchange =
    some ([.var 0, .var 0, .var 1, .var 1, .refused, .unit, .var 2, .refused, .unit, .unit, .id 1, .unit, .unit], [0, 1], false) := by decide +kernel

/-- A tree with pointers to parents that are weak: the parent (value 1) has the child (value 0), which gets a `Weak` to the parent. -/
def parent : List Op :=
  [.make, .rc 0 cell, .clone 0, .make, .attach 1 0, .rc 1 cell, .downgrade 2, .clone 3, .push 1 3, .counts 2, .dropPtr 2, .upgrade 4, .read 1, .dropPtr 4, .dropPtr 1]
/-- The parent is destroyed first, the child exists as long as the variable; then nothing is left. -/
example : result 128 (fun _ => false) parent =
    some ([.var 0, .var 0, .var 1, .var 1, .unit, .var 2, .var 3, .var 4, .unit, .nums 1 3, .unit, .refused, .id 0, .unit, .unit], [1, 0], false) := by decide +kernel
/-- A panic in the destructor of the parent; the fields are dropped nevertheless. -/
example : result 128 (fun i => i == 1) (parent.take 9 ++ [.dropPtr 1, .dropPtr 2]) =
    some ([.var 0, .var 0, .var 1, .var 1, .unit, .var 2, .var 3, .var 4, .unit, .unit, .unwound], [1, 0], false) := by decide +kernel
/-- Both panic: the program is aborted. -/
example : result 128 (fun _ => true) (parent.take 9 ++ [.dropPtr 1, .dropPtr 2]) =
    some ([.var 0, .var 0, .var 1, .var 1, .unit, .var 2, .var 3, .var 4, .unit, .unit, .aborted], [1, 0], true) := by decide +kernel

/-- Values 0 and 1 have pointers to each other, and 1 has one to value 2. -/
def ring : List Op :=
  [.make, .rc 0 cell, .make, .rc 1 cell, .make, .rc 2 cell, .clone 0, .clone 1, .push 0 4, .push 1 3, .push 1 2, .dropPtr 0, .dropPtr 1]
/-- No destructor is run. -/
example : result 128 (fun _ => false) ring =
    some ([.var 0, .var 0, .var 1, .var 1, .var 2, .var 2, .var 3, .var 4, .unit, .unit, .unit, .unit, .unit], [], false) := by decide +kernel
/-- If one pointer is taken out first then all of them are. -/
example : result 128 (fun _ => false) (ring.take 11 ++ [.pull 1 0, .dropPtr 5, .dropPtr 0, .dropPtr 1]) =
    some ([.var 0, .var 0, .var 1, .var 1, .var 2, .var 2, .var 3, .var 4, .unit, .unit, .unit, .var 5, .unit, .unit, .unit], [0, 1, 2], false) := by decide +kernel

/-! The theorems for these. -/
def spec (panics : Nat → Bool) (ops : List Op) : Spec := ((Spec.init 0).run (env 128).slab panics ops).2
def final (panics : Nat → Bool) (ops : List Op) : World := match run (env 128) true panics (World.init 0) ops with | .ret (_, w) => w | _ => World.init 0
def resps (panics : Nat → Bool) (ops : List Op) : List Resp := match run (env 128) true panics (World.init 0) ops with | .ret (r, _) => r | _ => []
theorem final_eq (panics : Nat → Bool) {ops : List Op} (h : ops.all cellsOnly = true) (h' : ops.length ≤ 100) :
    run (env 128) true panics (World.init 0) ops = .ret (resps panics ops, final panics ops) := by
  obtain ⟨w, h, _⟩ := C97_refines (env_valid (len := 128) (by decide)) (Nat.zero_le _) true panics ops (valid_of h) (few_of h')
  simp [final, resps, h]

example : ∃ w, run (env 128) true (fun i => i == 1) (World.init 0) parent = .ret (((Spec.init 0).run (env 128).slab (fun i => i == 1) parent).1, w) ∧
    w.log = (spec (fun i => i == 1) parent).log ∧ w.aborted = (spec (fun i => i == 1) parent).aborted ∧ w.made = (spec (fun i => i == 1) parent).made :=
  C97_refines (env_valid (by decide)) (Nat.zero_le _) true _ parent (valid_of (by decide)) (few_of (by decide))
example : ∀ k < diamond.length, ((Spec.init 0).run (env 128).slab (fun _ => false) (diamond.take k)).2.Few .w64 := C97_few .w64 _ _ 0 (by decide)

/-- The counters in the middle of `diamond`. -/
example : (final (fun _ => false) (diamond.take 11)).blocks.map (fun x => (x.strong, x.weak)) = [(3, 1), (1, 1), (1, 1)] := by decide +kernel
example : (spec (fun _ => false) (diamond.take 11)).pointers.count ⟨true, 0⟩ = 3 := by decide +kernel
example := C97_counters (env_valid (len := 128) (by decide)) (Nat.zero_le _) (valid_of (ops := diamond.take 11) (by decide)) (few_of (by decide)) (final_eq (fun _ => false) (by decide) (by decide))
  (by decide +kernel) rfl
example : (final (fun _ => true) parent).log.Nodup ∧ ∀ i ∈ (final (fun _ => true) parent).log, i < (final (fun _ => true) parent).made :=
  C97_once (env_valid (by decide)) (Nat.zero_le _) (valid_of (ops := parent) (by decide)) (few_of (by decide)) (final_eq _ (by decide) (by decide))
/-- In the middle of `reuse`: value 0 is in a variable, value 1 exists in the block. -/
example : ((spec (fun _ => false) (reuse.take 17)).vals.filterMap id).map Value.id = [0] ∧ ((spec (fun _ => false) (reuse.take 17)).blocks.filterMap id).map Value.id = [1] := by decide +kernel
example := C97_all (env_valid (len := 128) (by decide)) (Nat.zero_le _) (panics := fun _ => false) (valid_of (ops := reuse.take 17) (by decide)) (few_of (by decide)) rfl
example := C97_alive_iff (env_valid (len := 128) (by decide)) (Nat.zero_le _) (panics := fun _ => false) (valid_of (ops := ring) (by decide)) (few_of (by decide)) rfl (by decide +kernel) 1

/-- The child of the parent can be reached, and exists. -/
theorem reach_child : (spec (fun _ => false) (parent.take 10)).Reach 0 :=
  .edge (b := 1) (.root (by decide +kernel)) ⟨⟨1, [⟨true, 0⟩]⟩, by decide +kernel, by decide⟩
example : ∃ v, var (spec (fun _ => false) (parent.take 10)).blocks 0 = some v :=
  C97_reachable (env_valid (len := 128) (by decide)) (Nat.zero_le _) (valid_of (ops := parent.take 10) (by decide)) (few_of (by decide)) rfl (by decide +kernel) reach_child

/-- Value 2 is held by the ring, and leaks with it. -/
theorem ring_lost (b : Nat) : ¬ (spec (fun _ => false) ring).Reach b := by
  intro h
  induction h with
  | root hm => rw [show (spec (fun _ => false) ring).roots = [] by decide +kernel] at hm; cases hm
  | edge _ _ ih => exact ih
example : ∃ c, ¬ (spec (fun _ => false) ring).Reach c ∧ (spec (fun _ => false) ring).Path c c ∧ (c = 2 ∨ (spec (fun _ => false) ring).Path c 2) :=
  C97_garbage (env_valid (len := 128) (by decide)) (Nat.zero_le _) (valid_of (ops := ring) (by decide)) (few_of (by decide)) rfl (by decide +kernel) (b := 2) ⟨⟨2, []⟩, by decide +kernel⟩ (ring_lost 2)
example : (spec (fun _ => false) ring).Path 0 0 :=
  .more (c := 1) ⟨⟨0, [⟨true, 1⟩]⟩, by decide +kernel, by decide⟩ (.one ⟨⟨1, [⟨true, 0⟩, ⟨true, 2⟩]⟩, by decide +kernel, by decide⟩)

def layeredB (s : Spec) : Op → Bool
  | .push _ k => match var s.ptrs k with | some ⟨true, _⟩ => false | _ => true
  | .replace _ _ | .recycle _ _ => false
  | _ => true
theorem layered_of {panics : Nat → Bool} {ops : List Op} (h : (List.range ops.length).all (fun k => match ops[k]? with | some op => layeredB (spec panics (ops.take k)) op | none => true) = true) :
    ∀ k op, ops[k]? = some op → ((Spec.init 0).run (env 128).slab panics (ops.take k)).2.Layered op := by
  intro k op hk
  have hlt := (List.getElem?_eq_some_iff.mp hk).1
  have := List.all_eq_true.mp h k (List.mem_range.mpr hlt)
  rw [hk] at this
  cases op with
  | push p q =>
    intro b hb
    simp only [layeredB] at this
    have hb : var (spec panics (ops.take k)).ptrs q = some ⟨true, b⟩ := hb
    rw [hb] at this
    cases this
  | replace => cases this
  | recycle => cases this
  | _ => trivial

theorem parent_layered (b : Nat) : ¬ ((Spec.init 0).run (env 128).slab (fun _ => false) parent).2.Path b b :=
  C97_layered (env_valid (len := 128) (by decide)) (Nat.zero_le _) (valid_of (ops := parent) (by decide)) (few_of (by decide)) (layered_of (by decide +kernel)) b
/-- `parent` empties all variables: both values have been destroyed. -/
example : (final (fun _ => false) parent).log.Perm (List.range (final (fun _ => false) parent).made) :=
  C97_complete (env_valid (by decide)) (Nat.zero_le _) (valid_of (ops := parent) (by decide)) (few_of (by decide)) (final_eq _ (by decide) (by decide)) (by decide +kernel)
    (by decide +kernel) (by decide +kernel) (fun p => by simp [parent]) parent_layered

end Verif.CasesShared
