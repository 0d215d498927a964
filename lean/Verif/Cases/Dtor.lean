import Verif.Props.Dtor
import Verif.Cases.Shared
/-!
# Concrete cases for C99
-/
set_option autoImplicit false
namespace Verif.CasesDtor
open Verif.Dtor
open Verif.Shared (Ptr Value Resp)
open Verif.Linked (var)
open Verif.CasesShared (env env_valid cell)

/-- Responses, destructors, abort. -/
def result (len : Nat) (ops : List Op) : Option (List Resp × List Nat × Bool) :=
  match run (env len) true (World.init 0) ops with
  | .ret (rs, w) => some (rs, w.base.log, w.base.aborted)
  | _ => none

def cellsOnly : Op → Bool
  | .call op => CasesShared.cellsOnly op
  | _ => true
theorem valid_of {ops : List Op} (h : ops.all cellsOnly = true) : ∀ op ∈ ops, op.Valid .w64 := by
  intro op hop
  have := List.all_eq_true.mp h op hop
  cases op with
  | call op => exact CasesShared.valid_of (ops := [op]) (by simpa [cellsOnly] using this) op (by simp)
  | _ => trivial
theorem few_of {len : Nat} {ops : List Op} (h : ops.length ≤ 100) : (Spec.init 0).FewRun (env len).target (env len).slab ops := by
  have h1 : Target.w64.usizeMax = 2 ^ 64 - 1 := by decide
  exact C99_few _ _ 0 (by show ops.length ≤ Target.w64.usizeMax; rw [h1]; omega)

def allowedB (s : Spec) : Op → Bool
  | .call (.recycle p _) => (dying s.stack).all (fun b => decide (var s.base.ptrs p ≠ some ⟨false, b⟩))
  | _ => true
theorem allowed_of_b {s : Spec} {op : Op} (h : allowedB s op = true) : s.Allowed op := by
  cases op with
  | call op =>
    cases op with
    | recycle p v =>
      intro b hb
      exact of_decide_eq_true (List.all_eq_true.mp h b hb)
    | _ => trivial
  | _ => trivial
def allowedRunB (slab : Slab) : Spec → List Op → Bool
  | _, [] => true
  | s, op :: ops => allowedB s op && allowedRunB slab (s.exec slab op).2 ops
theorem allowed_of {slab : Slab} : ∀ {ops : List Op} {s : Spec}, allowedRunB slab s ops = true → s.AllowedRun slab ops
  | [], _, _ => trivial
  | _ :: _, _, h => by
    simp only [allowedRunB, Bool.and_eq_true] at h
    exact ⟨allowed_of_b h.1, fun _ => allowed_of h.2⟩

/-- Value 0 has an `Rc` to value 1, whose destructor ends before that of its field begins. The destructor of 0 takes the pointer out and keeps it: value 1 survives. -/
def rescue : List Op :=
  [.call .make, .call (.rc 0 cell), .call .make, .call (.attach 1 0), .call (.rc 1 cell), .call (.dropPtr 1), .selfTake 0, .endDrop false, .call (.read 2), .call (.dropPtr 2), .endDrop false]
example : result 128 rescue =
    some ([.var 0, .var 0, .var 1, .unit, .var 1, .unit, .var 2, .unit, .id 0, .unit, .unit], [1, 0], false) := by decide +kernel
/-- The same, without that. The destructor of the field is run after that of the value. -/
def plain : List Op := rescue.take 6 ++ [.endDrop false, .endDrop false]
example : result 128 plain = some ([.var 0, .var 0, .var 1, .unit, .var 1, .unit, .unit, .unit], [1, 0], false) := by decide +kernel

/-- The destructor of value 0 drops the last pointer to value 1, and then the last one to value 2 is dropped in the destructor of value 1: three destructors are running. -/
def nest : List Op :=
  [.call .make, .call (.rc 0 cell), .call .make, .call (.rc 1 cell), .call .make, .call (.rc 2 cell),
   .call (.dropPtr 0), .call (.dropPtr 1), .call (.dropPtr 2), .endDrop false, .endDrop false, .endDrop false]
example : result 128 nest =
    some ([.var 0, .var 0, .var 1, .var 1, .var 2, .var 2, .unit, .unit, .unit, .unit, .unit, .unit], [0, 1, 2], false) := by decide +kernel

/-- The value has a `Weak` to itself, as a node with a pointer to itself. Its destructor clones this, `upgrade` fails, and it pushes another `Rc` into the value, which is dropped with it. -/
def selfWeak : List Op :=
  [.call .make, .call (.rc 0 cell), .call (.downgrade 0), .call (.push 0 1), .call .make, .call (.rc 1 cell),
   .call (.dropPtr 0), .selfClone 0, .call (.upgrade 3), .call (.counts 3), .selfPush 2, .endDrop false, .endDrop false, .call (.counts 3), .call (.dropPtr 3)]
example : result 128 selfWeak =
    some ([.var 0, .var 0, .var 1, .unit, .var 1, .var 2, .unit, .var 3, .refused, .nums 0 2, .unit, .unit, .unit, .nums 0 1, .unit], [0, 1], false) := by decide +kernel

/-- The destructor of value 0 panics. The fields are dropped nevertheless: value 1 is destroyed, and the panic arrives in the program. -/
def panicking : List Op := rescue.take 6 ++ [.endDrop true, .endDrop false, .call .make]
example : result 128 panicking = some ([.var 0, .var 0, .var 1, .unit, .var 1, .unit, .unit, .unwound, .var 2], [1, 0], false) := by decide +kernel
/-- If the destructor of value 1 panics as well then the program is aborted. -/
def aborting : List Op := rescue.take 6 ++ [.endDrop true, .endDrop true, .call .make]
example : result 128 aborting = some ([.var 0, .var 0, .var 1, .unit, .var 1, .unit, .unit, .aborted], [1, 0], true) := by decide +kernel
/-- But not if it is run by the destructor itself: the panic is caught there. -/
def caught : List Op := nest.take 8 ++ [.endDrop true, .endDrop false]
example : result 128 caught =
    some ([.var 0, .var 0, .var 1, .var 1, .var 2, .var 2, .unit, .unit, .unwound, .unit], [0, 1], false) := by decide +kernel

/-- There is no memory for value 1: it is destroyed by `?`, and its destructor saves its field. -/
example : result 40 [.call .make, .call (.rc 0 cell), .call .make, .call (.attach 1 0), .call (.rc 1 cell), .selfTake 0, .endDrop false, .call (.read 1)] =
    some ([.var 0, .var 0, .var 1, .unit, .full, .var 1, .unit, .id 0], [1], false) := by decide +kernel

/-- A destructor may use the memory of other values: that of value 0 is used for value 2, which is destroyed while value 1 is. -/
def reuse : List Op :=
  [.call .make, .call (.rc 0 cell), .call (.downgrade 0), .call .make, .call (.rc 1 cell), .call .make, .call (.dropPtr 0), .endDrop false,
   .call (.dropPtr 2), .call (.recycle 1 2), .call (.read 1), .call (.dropPtr 1), .endDrop false, .endDrop false]
example : result 128 reuse =
    some ([.var 0, .var 0, .var 1, .var 1, .var 2, .var 2, .unit, .unit, .unit, .unit, .id 2, .unit, .unit, .unit], [0, 1, 2], false) := by decide +kernel

/-! The theorems for these. -/
def spec (ops : List Op) : Spec := ((Spec.init 0).run (env 128).slab ops).2
def final (ops : List Op) : World := match run (env 128) true (World.init 0) ops with | .ret (_, w) => w | _ => World.init 0
def resps (ops : List Op) : List Resp := match run (env 128) true (World.init 0) ops with | .ret (r, _) => r | _ => []
def okB (ops : List Op) : Bool := ops.all cellsOnly && decide (ops.length ≤ 100) && allowedRunB (env 128).slab (Spec.init 0) ops
theorem ok {ops : List Op} (h : okB ops = true) :
    (∀ op ∈ ops, op.Valid .w64) ∧ (Spec.init 0).FewRun (env 128).target (env 128).slab ops ∧ (Spec.init 0).AllowedRun (env 128).slab ops := by
  simp only [okB, Bool.and_eq_true, decide_eq_true_eq] at h
  exact ⟨valid_of h.1.1, few_of h.1.2, allowed_of h.2⟩
theorem ev : (env 128).Valid := env_valid (by decide)
theorem final_eq {ops : List Op} (h : okB ops = true) : run (env 128) true (World.init 0) ops = .ret (resps ops, final ops) := by
  obtain ⟨h1, h2, h3⟩ := ok h
  obtain ⟨w, h, _⟩ := C99_refines_partial ev (Nat.zero_le _) true h1 h2 h3
  simp [final, resps, h]

example : [rescue, plain, nest, selfWeak, panicking, aborting, caught, reuse].all okB = true := by decide +kernel
/-- The counterexample is not allowed. -/
example : okB attack = false := by decide +kernel
theorem attack_not_allowed : ¬ (Spec.init 0).AllowedRun (env 128).slab attack := by
  intro h
  obtain ⟨_, h⟩ := h; have h := h (by decide +kernel)
  obtain ⟨_, h⟩ := h; have h := h (by decide +kernel)
  obtain ⟨_, h⟩ := h; have h := h (by decide +kernel)
  obtain ⟨_, h⟩ := h; have h := h (by decide +kernel)
  obtain ⟨_, h⟩ := h; have h := h (by decide +kernel)
  obtain ⟨_, h⟩ := h; have h := h (by decide +kernel)
  obtain ⟨_, h⟩ := h; have h := h (by decide +kernel)
  obtain ⟨_, h⟩ := h; have h := h (by decide +kernel)
  exact h.1 0 (by decide +kernel) (by decide +kernel)

example : ∃ w, run (env 128) true (World.init 0) selfWeak = .ret (((Spec.init 0).run (env 128).slab selfWeak).1, w) ∧
    w.base.log = (spec selfWeak).base.log ∧ w.base.aborted = (spec selfWeak).base.aborted ∧ w.base.made = (spec selfWeak).base.made :=
  have h := ok (ops := selfWeak) (by decide +kernel)
  C99_refines_partial ev (Nat.zero_le _) true h.1 h.2.1 h.2.2
example : ∃ w, run (env 128) true (World.init 0) aborting = .ret (((Spec.init 0).run (env 128).slab aborting).1, w) ∧
    w.base.log = (spec aborting).base.log ∧ w.base.aborted = (spec aborting).base.aborted ∧ w.base.made = (spec aborting).base.made :=
  have h := ok (ops := aborting) (by decide +kernel)
  C99_refines_partial ev (Nat.zero_le _) true h.1 h.2.1 h.2.2
example : (Spec.init 0).FewRun .w64 (env 128).slab nest := C99_few .w64 _ 0 (by decide)

/-- In the destructor of value 0 of `selfWeak`. -/
example : (final (selfWeak.take 11)).base.blocks.map (fun x => (x.strong, x.weak)) = [(0, 2), (1, 1)] ∧ dying (spec (selfWeak.take 11)).stack = [0] := by decide +kernel
example := C99_counters_partial ev (Nat.zero_le _) (ok (ops := selfWeak.take 11) (by decide +kernel)).1 (ok (ops := selfWeak.take 11) (by decide +kernel)).2.1
  (ok (ops := selfWeak.take 11) (by decide +kernel)).2.2 (final_eq (by decide +kernel)) (by decide +kernel) rfl
/-- In the destructor of value 2 of `nest`; all the values are being destroyed. -/
example : dying (spec (nest.take 9)).stack = [2, 1, 0] ∧ (spec (nest.take 9)).base.log = [0, 1, 2] := by decide +kernel
example := C99_all_partial ev (Nat.zero_le _) (ok (ops := nest.take 9) (by decide +kernel)).1 (ok (ops := nest.take 9) (by decide +kernel)).2.1 (ok (ops := nest.take 9) (by decide +kernel)).2.2 rfl
example : (final aborting).base.log.Nodup ∧ ∀ i ∈ (final aborting).base.log, i < (final aborting).base.made :=
  have h := ok (ops := aborting) (by decide +kernel)
  C99_once_partial ev (Nat.zero_le _) h.1 h.2.1 h.2.2 (final_eq (by decide +kernel))
/-- In the destructor of `rescue`: value 0 exists, value 1 does not. -/
example : (∃ v, var (spec (rescue.take 7)).base.blocks 0 = some v) ↔ (⟨true, 0⟩ : Ptr) ∈ (spec (rescue.take 7)).base.pointers ++ stackPtrs (spec (rescue.take 7)).stack :=
  have h := ok (ops := rescue.take 7) (by decide +kernel)
  C99_alive_iff_partial ev (Nat.zero_le _) h.1 h.2.1 h.2.2 rfl (by decide +kernel) 0
example : (var (spec (rescue.take 7)).base.blocks 0).isSome = true ∧ (var (spec (rescue.take 7)).base.blocks 1).isSome = false := by decide +kernel
example : (⟨true, 0⟩ : Ptr) ∉ (spec (selfWeak.take 8)).base.pointers ++ stackPtrs (spec (selfWeak.take 8)).stack ∧
    ∀ p, var (spec (selfWeak.take 8)).base.ptrs p = some ⟨false, 0⟩ → exec (env 128) true (final (selfWeak.take 8)) (.call (.upgrade p)) = .ret (.refused, final (selfWeak.take 8)) :=
  have h := ok (ops := selfWeak.take 8) (by decide +kernel)
  C99_dying_partial ev (Nat.zero_le _) h.1 h.2.1 h.2.2 (final_eq (by decide +kernel)) rfl (by decide +kernel) (b := 0) (by decide +kernel)
example : var (spec (selfWeak.take 8)).base.ptrs 3 = some ⟨false, 0⟩ := by decide +kernel

/-- Value 0 gets a pointer to itself in a destructor of another value, and is lost. -/
def lost : List Op :=
  [.call .make, .call (.rc 0 cell), .call .make, .call (.rc 1 cell), .call (.clone 0), .call (.dropPtr 1), .call (.push 0 2), .call (.dropPtr 0), .endDrop false]
example : result 128 lost = some ([.var 0, .var 0, .var 1, .var 1, .var 2, .unit, .unit, .unit, .unit], [1], false) := by decide +kernel
theorem lost_unreachable (b : Nat) : ¬ (spec lost).view.Reach b := by
  intro h
  induction h with
  | root hm => rw [show (spec lost).view.roots = [] by decide +kernel] at hm; cases hm
  | edge _ _ ih => exact ih
example : ∃ c, ¬ (spec lost).view.Reach c ∧ (spec lost).base.Path c c ∧ (c = 0 ∨ (spec lost).base.Path c 0) :=
  have h := ok (ops := lost) (by decide +kernel)
  C99_garbage_partial ev (Nat.zero_le _) h.1 h.2.1 h.2.2 rfl (by decide +kernel) (b := 0) ⟨⟨0, [⟨true, 0⟩]⟩, by decide +kernel⟩ (lost_unreachable 0)

theorem no_path {s : Shared.Spec} (h : s.blocks.all (fun o => o.isNone) = true) (b c : Nat) : ¬ s.Path b c := by
  have key : ∀ b c, ¬ s.Edge b c := by
    rintro b c ⟨v, hv, _⟩
    unfold var at hv
    cases hb : s.blocks[b]? with
    | none => rw [hb] at hv; cases hv
    | some o =>
      have := List.all_eq_true.mp h o (List.mem_of_getElem? hb)
      rw [hb] at hv
      cases o with
      | none => cases hv
      | some v => cases this
  intro hp
  cases hp with
  | one h => exact key _ _ h
  | more h _ => exact key _ _ h
example : (final selfWeak).base.log.Perm (List.range (final selfWeak).base.made) :=
  have h := ok (ops := selfWeak) (by decide +kernel)
  C99_complete_partial ev (Nat.zero_le _) h.1 h.2.1 h.2.2 (final_eq (by decide +kernel)) (by decide +kernel) (by decide +kernel) (by decide +kernel)
    (fun p => by simp [selfWeak]) (by
      have : (final selfWeak).tasks.length = 0 := by decide +kernel
      exact List.length_eq_zero_iff.mp this) (fun b => no_path (by decide +kernel) b b)
example := C99_violated

end Verif.CasesDtor
