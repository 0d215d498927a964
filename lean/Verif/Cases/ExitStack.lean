import Verif.Props.ExitStack
import Verif.Props.ExitMem
/-!
# Concrete cases for C34–C37 and C85

Two values are pinned, a third is `set` in their place, everything is dropped; with and without a destructor that panics; and on bytes the program of `ExC85`.
-/
namespace Verif.CasesExit
open Verif Exit

section
open ExitExample

theorem s1_eq (p : Bool) : eexec conf (s0 p) (.slot u64) = .ret (.addr 4104) (s1 p) := by cases p <;> rfl
theorem s2_eq (p : Bool) : eexec conf (s1 p) (.pin 4104 u64 bytes) = .ret (.addr 4104) (s2 p) := by cases p <;> rfl
theorem s3_eq (p : Bool) : eexec conf (s2 p) (.slot u64) = .ret (.addr 4128) (s3 p) := by cases p <;> rfl
theorem s4_eq (p : Bool) : eexec conf (s3 p) (.pin 4128 u64 bytes) = .ret (.addr 4128) (s4 p) := by cases p <;> rfl
theorem r1 (p : Bool) : EReach conf (s1 p) [] := (EReach.init (c := conf) (m := fun _ => 0) (by decide)).ret (op := .slot u64) ⟨rfl, u64_valid, u64_slot_valid⟩ (s1_eq p)
theorem r2 (p : Bool) : EReach conf (s2 p) [.pinned 0] := by
  have h := (r1 p).ret (op := .pin 4104 u64 bytes) ⟨by cases p <;> rfl, by cases p <;> decide, by decide⟩ (s2_eq p)
  have e : (s1 p).next = 0 := by cases p <;> rfl
  simpa [EOp.events, e] using h
theorem r3 (p : Bool) : EReach conf (s3 p) [.pinned 0] := (r2 p).ret (op := .slot u64) ⟨by cases p <;> rfl, u64_valid, u64_slot_valid⟩ (s3_eq p)
theorem r4 (p : Bool) : EReach conf (s4 p) [.pinned 0, .pinned 1] := by
  have h := (r3 p).ret (op := .pin 4128 u64 bytes) ⟨by cases p <;> rfl, by cases p <;> decide, by decide⟩ (s4_eq p)
  have e : (s3 p).next = 1 := by cases p <;> rfl
  simpa [EOp.events, e] using h
theorem pinned0 (p : Bool) : (s4 p).Pinned 4104 ⟨none, 0, ⟨24, 8⟩⟩ := .link (p := 4128) (r := ⟨some 4104, 1, ⟨24, 8⟩⟩) (.top (by cases p <;> rfl) (by cases p <;> rfl)) rfl (by cases p <;> rfl)
theorem pinned1 (p : Bool) : (s4 p).Pinned 4128 ⟨some 4104, 1, ⟨24, 8⟩⟩ := .top (by cases p <;> rfl) (by cases p <;> rfl)
theorem calm4 : (s4 false).Calm := by intro v hv; cases hv

def set5 : EState := next (s4 false) (.set (List.replicate 64 7))
theorem set5_eq : eexec conf (s4 false) (.set (List.replicate 64 7)) = .ret (.addr 4104) set5 := rfl
theorem r5 : EReach conf set5 [.pinned 0, .pinned 1, .cleared, .pinned 2] := (r4 false).ret (op := .set (List.replicate 64 7)) ⟨rfl, by decide⟩ set5_eq
def end6 : EState := next set5 .drop
theorem end6_eq : eexec conf set5 .drop = .ret .unit end6 := rfl
theorem r6 : EReach conf end6 [.pinned 0, .pinned 1, .cleared, .pinned 2, .cleared] := r5.ret (op := .drop) rfl end6_eq
theorem calm6 : end6.Calm := by intro v hv; revert v; decide

/-- C34. -/
example : ∃ p r, (s4 false).Pinned p r ∧ r.value = 1 := ((C34_lifo conf_valid (r4 false) calm4).2.1 1).mp (by decide)
example : end6.dropped = [2, 0, 1] := (C34_lifo conf_valid r6 calm6).1.trans (by decide)
example : end6.dropped.count 0 = 1 ∧ end6.dropped.count 2 = 1 ∧ end6.dropped.count 3 = 0 :=
  let h := C34_all_dropped_once conf_valid r6 calm6 rfl; ⟨h 0, h 2, h 3⟩
example : end6.dropped = [2] ++ [0, 1] := C34_reverse_order conf_valid (ev := [.pinned 0, .pinned 1]) (vs := [2]) r6 calm6

/-- C35. -/
example := C35_no_ub conf_valid (r4 true) (op := .popAll) rfl
example : ∃ p r, (s4 false).Pinned p r ∧ r.value = 0 := C35_not_dropped_is_pinned_partial conf_valid (r4 false) calm4 (v := 0) (by decide) nofun
theorem write_allowed : (EOp.write 4128 16 [1, 2]).Allowed conf (s4 true) := ⟨rfl, _, pinned1 true, by decide, by decide⟩
/-- The whole value, up to its last byte, but not beyond. -/
example : (EOp.write 4128 16 [1, 2, 3, 4, 5, 6, 7, 8]).Allowed conf (s4 true) := ⟨rfl, _, pinned1 true, by decide, by decide⟩
example : readBytes (next (s4 true) (.write 4128 16 [1, 2])).mem 4104 24 = readBytes (s4 true).mem 4104 24 :=
  (C35_pinned_stays conf_valid (r4 true) write_allowed nofun nofun nofun (s' := next (s4 true) (.write 4128 16 [1, 2])) (.inl ⟨.unit, rfl⟩) (pinned0 true)).2.2 (by intro off b h; cases h)
example : Region.Disjoint ⟨4104, 24⟩ ⟨4128, 24⟩ := C35_pinned_disjoint conf_valid (r4 true) (pinned0 true) (pinned1 true) (by decide)
example : Region.Disjoint ⟨4104, 24⟩ ⟨4128, 24⟩ ∧ 8 ∣ 4128 ∧ Region.Within ⟨4128, 24⟩ ⟨4104, 64⟩ :=
  let h := C35_slot_is_free conf_valid (r2 false) (T := u64) ⟨rfl, u64_valid, u64_slot_valid⟩ (q := 4128) (s' := s3 false) rfl
  ⟨h.1 4104 ⟨none, 0, ⟨24, 8⟩⟩ (.top rfl rfl), h.2.2⟩

/-- C36: with the panicking destructor. -/
example : (s4 true).dropped.Nodup := (C36_no_double_drop_partial conf_valid (r4 true)).1
theorem panics4 : ∃ s', eexec conf (s4 true) .popAll = .unwound s' ∧ s'.dropped = [1] ∧ s'.top = none ∧ s'.next = 2 :=
  C36_panic_drops_prefix conf_valid (r4 true) rfl (pre := []) (rest := [0]) (v := 1) (s4_stack true) nofun (by decide) (.inl rfl)
theorem empty_of_top {s : EState} (h : s.top = none) {p : Nat} {r : SlotRec} (hp : s.Pinned p r) : False := by
  induction hp with
  | top ht _ => rw [h] at ht; cases ht
  | link _ _ _ ih => exact ih
example : ∃ s' s'', eexec conf (s4 true) .popAll = .unwound s' ∧ eexec conf s' .drop = .ret .unit s'' ∧ 0 ∉ s''.dropped := by
  have hx : eexec conf (s4 true) .popAll = .unwound (next (s4 true) .popAll) := rfl
  have hr := (r4 true).unwound (op := .popAll) rfl hx
  have hy : eexec conf (next (s4 true) .popAll) .drop = .ret .unit (next (next (s4 true) .popAll) .drop) := rfl
  refine ⟨_, _, hx, hy, (C36_lost_forever conf_valid hr (Later.refl.ret (op := .drop) rfl hy) (v := 0) (by decide) (by decide) fun p r hp => (empty_of_top rfl hp).elim).1⟩

/-- C37. -/
example : ∃ s', eexec conf (s4 false) (.set (List.replicate 64 7)) = .ret (.addr 4104) s' ∧ 0 ∈ s'.dropped :=
  let ⟨s', h1, _, h3⟩ := C37_set_succeeds_partial conf_valid (by decide) (r4 false) (bytes := List.replicate 64 7) ⟨rfl, by decide⟩ (fun _ _ _ => rfl)
  ⟨s', h1, h3 _ _ (pinned0 false)⟩
example : ∃ s', eexec conf (s4 true) (.set (List.replicate 64 7)) = .unwound s' :=
  (C37_set_succeeds_iff conf_valid (r4 true) (bytes := List.replicate 64 7) ⟨rfl, by decide⟩).2 fun h => absurd (h.2 _ _ (pinned1 true)) (by decide)
def wide : Conf := ⟨.w64, true, 4096, ⟨32, 16⟩⟩
theorem wide_valid : wide.Valid :=
  ⟨⟨⟨⟨4, rfl⟩, by decide⟩, by decide⟩, ⟨⟨⟨4, rfl⟩, by decide⟩, by decide⟩, ⟨⟨⟨4, rfl⟩, by decide⟩, by decide⟩, by decide, by decide, by decide⟩
example : ∃ s', eexec wide ⟨fun _ => 0, none, fun _ => none, [], 0, [], true, fun _ => false⟩ (.set []) = .unwound s' :=
  C37_violated wide_valid (by decide) (.init (by decide))
end

section
open ExC85 ExitMem

def world (os : List BOp) : BState := match brun cfg (.init cfg dirty) os with | some (_, some b) => b | _ => .init cfg dirty
def seen (os : List BOp) : List Seen := match brun cfg (.init cfg dirty) os with | some (rs, _) => rs | _ => []

theorem safe_left {c : Cfg} {xs ys : List BOp} : ∀ {s : BState}, SafeRun c s (xs ++ ys) → SafeRun c s xs := by
  induction xs with
  | nil => exact fun _ => trivial
  | cons op ops ih => exact fun h => ⟨h.1, fun s' e => ih (h.2 s' e)⟩

/-- The program runs to the end and no call aborts. -/
theorem world_eq {os rest : List BOp} (h : ops = os ++ rest) (hf : (srun cfg ⟨0, [], [], [], true⟩ os).2.isSome = true) : Reached cfg dirty os (world os) := by
  have hs : SafeRun cfg (.init cfg dirty) os := safe_left (ys := rest) (h ▸ safe)
  refine ⟨hs, seen os, ?_⟩
  obtain ⟨fin, h1, h2, _⟩ := C85_refines valid dirty os hs
  cases fin with
  | none => rw [h2.mp rfl] at hf; cases hf
  | some b => simp only [world, seen, h1]

/-- Three values are pinned, one was written to. -/
theorem w7 : Reached cfg dirty (ops.take 7) (world (ops.take 7)) := world_eq (rest := ops.drop 7) (List.take_append_drop 7 ops).symm (by decide +kernel)
/-- Two values are pinned, the upper one unwinds. -/
theorem w13 : Reached cfg dirty (ops.take 13) (world (ops.take 13)) := world_eq (rest := ops.drop 13) (List.take_append_drop 13 ops).symm (by decide +kernel)
/-- Three slots, no value. -/
theorem w3 : Reached cfg dirty (ops.take 3) (world (ops.take 3)) := world_eq (rest := ops.drop 3) (List.take_append_drop 3 ops).symm (by decide +kernel)

example : ∃ b, brun cfg (.init cfg dirty) ops = some (seen ops, some b) ∧ b.log.length = 6 := by
  obtain ⟨hs, rs, h⟩ := world_eq (os := ops) (rest := []) (by simp) (by decide +kernel)
  refine ⟨world ops, ?_, by decide +kernel⟩
  have : seen ops = rs := by simp only [seen, h]
  rw [this]; exact h
theorem live7 : (world (ops.take 7)).live = [⟨4152, 0x41⟩, ⟨4104, 0x41⟩, ⟨4128, 0x42⟩] := by decide +kernel
theorem live13 : (world (ops.take 13)).live = [⟨4128, 0x42⟩, ⟨4104, 0x41⟩] := by decide +kernel
example : Region.Disjoint ⟨4152, 24⟩ ⟨4104, 24⟩ ∧ Region.Within ⟨4104, 24⟩ ⟨4104, 112⟩ ∧ 4 ∣ cfg.valueAddr ⟨4128, 0x42⟩ := by
  have h := C85_layout valid w7
  have h1 := h.1
  have h2 := h.2
  rw [live7] at h1 h2
  have h3 := (h2 ⟨4128, 0x42⟩ (by simp)).2.2.2
  refine ⟨?_, (h2 ⟨4104, 0x41⟩ (by simp)).1, h3⟩
  simp only [List.cons_append, List.map_cons, List.pairwise_cons] at h1
  exact h1.1 ⟨4104, 24⟩ (by simp; left; rfl)
/-- A fourth slot is asked for and another value is written: the bytes at 4128 stay. -/
example : ∀ rs b', SafeRun cfg (world (ops.take 7)) [.slot 0x41, .write ⟨4152, 0x41⟩ [1]] → brun cfg (world (ops.take 7)) [.slot 0x41, .write ⟨4152, 0x41⟩ [1]] = some (rs, some b') →
    bytesOf cfg b' ⟨4128, 0x42⟩ = [1, 2, 3, 4] := fun rs b' hs hx =>
  (C85_pinned_stays valid w7 hs hx (q := ⟨4128, 0x42⟩) (by rw [live7]; simp) (by simp [BOp.Leaves])).2.trans (by decide +kernel)
theorem more_safe : SafeRun cfg (world (ops.take 7)) [.slot 0x41, .write ⟨4152, 0x41⟩ [1]] := by
  refine safe_step ⟨by decide +kernel, by decide, v41⟩ ?_
  exact safe_step ⟨by decide +kernel, by decide +kernel, by decide⟩ trivial
example : (brun cfg (world (ops.take 7)) [.slot 0x41, .write ⟨4152, 0x41⟩ [1]]).isSome = true := by decide +kernel
example : (out (world (ops.take 7)) .popAll).mem 5000 = (world (ops.take 7)).mem 5000 :=
  C85_own_bytes valid w7 (op := .popAll) (show BState.alive _ = true by decide +kernel) (b' := out (world (ops.take 7)) .popAll)
    (by
      obtain ⟨b', h, _⟩ := C85_pop_all valid w7 (fun h => absurd h (by decide)) (by rw [live7]; decide +kernel)
      exact .inr ⟨.unit, by simp only [out, h]⟩)
    (by decide) (by decide)
example : ∃ b', bexec cfg (world (ops.take 3)) (.pin ⟨4128, 0x42⟩ [1, 2, 3, 4] (fill 24)) = .ret (.addr 4144) b' ∧ bytesOf cfg b' ⟨4128, 0x42⟩ = [1, 2, 3, 4] :=
  let ⟨b', h1, _, h3, _⟩ := C85_pin valid w3 (q := ⟨4128, 0x42⟩) (value := [1, 2, 3, 4]) (fill := fill 24) ⟨by decide +kernel, by decide +kernel, by decide, by decide⟩
  ⟨b', h1, h3⟩
example := C85_write (c := cfg) (b := world (ops.take 7)) (q := ⟨4152, 0x41⟩) (value := [1]) ⟨by decide +kernel, by decide +kernel, by decide⟩
example : ∃ b', bexec cfg (world (ops.take 7)) .popAll = .ret .unit b' ∧ b'.log = [(some 4152, 0x41, [6]), (some 4104, 0x41, [7]), (some 4128, 0x42, [1, 2, 3, 4])] :=
  let ⟨b', h1, _, h3⟩ := C85_pop_all valid w7 (fun h => absurd h (by decide)) (by rw [live7]; decide +kernel)
  ⟨b', h1, h3.trans (by decide +kernel)⟩
example : ∃ b', bexec cfg (world (ops.take 13)) .popAll = .unwound b' ∧ b'.live = [] :=
  let ⟨b', h1, h2, _⟩ := C85_pop_all_unwinds valid w13 (pre := []) (post := [⟨4104, 0x41⟩]) live13 nofun (by decide +kernel)
  ⟨b', h1, h2⟩
end

end Verif.CasesExit
