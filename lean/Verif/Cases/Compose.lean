import Verif.Props.Program
import Verif.Props.BoxMem
/-!
# Concrete cases for C86 and C89

The programs of `ExC86` and `ExC89`: all data structures in memory from one bump allocator; and with two threads.
-/
namespace Verif.CasesCompose
open Verif Compose

section
open Compose.ExC86
theorem all_ok : ∀ i, (withAlloc .w64 b P i).Ok
  | none => b_ok
  | some i => ok i
theorem apart : Apart fun i => (withAlloc .w64 b P i).machine := apart_of_granted gets_valid share owns
/-- The run and the number of answers: all calls are answered. -/
theorem whole : ∃ rs v m', Compose.run M (start M) mem ops = some (rs, v, m') ∧ rs.length = 37 ∧ ∀ i, only i rs = (M i).srun ((M i).sstart mem) (only i ops) := by
  obtain ⟨rs, v, m', h, h1, h2, h3, -⟩ := C86_independent all_ok apart ready safe
  have hlen : rs.length = 37 := by
    have : (Compose.run M (start M) mem ops).map (fun x => x.1.length) = some 37 := by decide +kernel
    have e : Compose.run M (start M) mem ops = _ := h
    rw [e] at this
    simpa using this
  refine ⟨rs, v, m', h, hlen, fun i => ?_⟩
  rw [h2 i, hlen]
  rfl

/-- The calls of the vectors alone are permitted, and get the same answers. -/
def vecOps : List (FVec.Op (FVec.Bits ⟨2, 2⟩)) := only (some Which.vecs) ops
example : ∃ rs v m' s1 m1, Compose.run M (start M) mem ops = some (rs, v, m') ∧ (M (some .vecs)).run (M (some .vecs)).start mem vecOps = some (only (some .vecs) rs, s1, m1) := by
  obtain ⟨rs, v, m', h, hlen, -⟩ := whole
  obtain ⟨-, s1, m1, h2⟩ := C86_as_if_alone all_ok apart ready safe h (some .vecs) (mi := mem) trivial (fun _ _ => rfl)
  rw [hlen] at h2
  exact ⟨rs, v, m', s1, m1, h, h2⟩
end

section
open BoxMem
/-- Boxes in pieces of the bytes from 4096, and a bump at 8192: each is checked alone, in another memory. -/
inductive Two where | pieces | bump
  deriving DecidableEq
def bump2 : Unsync.MemBump := ⟨8192, 64⟩
def two : Two → Part
  | .pieces => .pieces .w64 exPanics exMine
  | .bump => .alloc .w64 bump2
theorem bump2_ok : bump2.Valid .w64 := ⟨by decide, by decide, by decide, by decide⟩
theorem two_ok : ∀ i, (two i).Ok
  | .pieces => trivial
  | .bump => bump2_ok
/-- The memory of the program has 77 everywhere but in the level of the bump. -/
def mem2 : Mem := fun x => if 8192 ≤ x ∧ x < 8200 then 0 else 77
theorem two_ready : ∀ i, (two i).machine.ready mem2
  | .pieces => trivial
  | .bump => show bump2.level .w64 mem2 ≤ bump2.cap by decide +kernel
/-- The bump is checked in a memory of zeros. -/
def memOf : Two → Mem
  | .pieces => exM
  | .bump => fun _ => 0
def bumpOps : List AOp := [.get ⟨8, 8⟩, .level, .get ⟨64, 1⟩]
def twoOps : List (Σ i, (two i).machine.Op) :=
  (exOps.take 20).map (Sigma.mk Two.pieces) ++ ⟨.bump, (.get ⟨8, 8⟩ : AOp)⟩ :: ((exOps.drop 20).take 5).map (Sigma.mk Two.pieces) ++ [⟨.bump, (.level : AOp)⟩, ⟨.bump, (.get ⟨64, 1⟩ : AOp)⟩] ++ (exOps.drop 25).map (Sigma.mk Two.pieces)
theorem pieces_safe {t : Target} {panics : Layout → List Byte → Bool} {mine : Nat → Prop} : ∀ {ops : List Op} {w : World} {m : Mem}, BoxMem.SafeRun (Permitted t mine) t panics { w with mem := m } ops → (pieceMachine t panics mine).SafeRun w m ops
  | [], _, _, _ => trivial
  | op :: ops, w, m, h => by
    refine ⟨h.1, fun r w' m' e _ => ?_⟩
    simp only [pieceMachine] at e
    split at e
    · rename_i r1 w1 he
      cases e
      exact pieces_safe (h.2 _ _ he)
    · cases e
theorem two_apart : Apart fun i => (two i).machine := by
  intro i j hij x ⟨h1, h2⟩
  have key : ∀ x, exMine x → ¬ Region.Has ⟨8192, 8⟩ x := fun x h h' => by simp only [exMine, Region.Has] at h h'; omega
  cases i <;> cases j
  · exact hij rfl
  · exact key x h1 h2
  · exact key x h2 h1
  · exact hij rfl
theorem two_safe : ∀ i, (two i).machine.SafeRun (two i).machine.start (memOf i) (only i twoOps)
  | .pieces => pieces_safe (ops := exOps) ex_safe
  | .bump => show (allocMachine .w64 bump2).SafeRun () (fun _ => 0) bumpOps from ⟨⟨⟨3, rfl⟩, by decide⟩, fun _ _ _ _ _ => ⟨trivial, fun _ _ _ _ _ => ⟨⟨⟨0, rfl⟩, by decide⟩, fun _ _ _ _ _ => trivial⟩⟩⟩
example : ∃ rs v m', Compose.run (fun i => (two i).machine) (start _) mem2 twoOps = some (rs, v, m') ∧ (only Two.bump rs : List AResp) = [.some 8200, .num 8, .none] := by
  obtain ⟨-, rs, v, m', h, h1, h2, h3, -⟩ := C86_modular two_ok two_apart two_ready (ma := memOf)
    (fun | .pieces => trivial | .bump => show bump2.level .w64 (fun _ => 0) ≤ bump2.cap by decide +kernel)
    (fun | .pieces, x, hx => show exM x = mem2 x by simp only [two, Part.machine, pieceMachine, exMine] at hx; simp only [exM, mem2]; split <;> first | rfl | omega
         | .bump, x, hx => show 0 = mem2 x from (if_pos hx).symm) two_safe
  have hlen : rs.length = twoOps.length := by
    rcases Nat.lt_or_eq_of_le h1 with h | h
    · obtain ⟨⟨i, x⟩, -, hx⟩ := h3 h
      cases i <;> cases hx
    · exact h
  refine ⟨rs, v, m', h, (h2 .bump).trans ?_⟩
  rw [hlen, List.take_length]
  show (allocMachine .w64 bump2).srun (bump2.level .w64 mem2) bumpOps = _
  have : bump2.level .w64 mem2 = 0 := by decide +kernel
  rw [this]
  rfl
end

section
open Program Program.ExC89
theorem final_some : ∃ s, final = some s := Option.isSome_iff_exists.mp (by decide +kernel)
example : ∃ s, final = some s ∧ s.ub = false := let ⟨s, h⟩ := final_some; ⟨s, h, C89_no_ub env_valid ExC86.ok (final_reach h)⟩
/-- The vector is in use and answered as the list that it is. -/
theorem vec_use {s : State M 2} (h : final = some s) : ∃ u, (s.part .vecs).use = some u ∧ u.blocks = [bV] := by
  have : final.map (fun s => match (s.part .vecs).use with | some u => some u.blocks | none => none) = some (some [bV]) := by decide +kernel
  rw [h] at this
  simp only [Option.map_some, Option.some.injEq] at this
  cases hu : (s.part .vecs).use with
  | none => rw [hu] at this; cases this
  | some u => rw [hu] at this; exact ⟨u, rfl, by simpa using this⟩
theorem vec_owns : (M .vecs).own 4105 := ⟨by decide, by decide⟩
example : ∃ s u, final = some s ∧ (s.part .vecs).use = some u ∧ u.calls.map (·.2) = (M .vecs).srun u.made (u.calls.map (·.1)) :=
  let ⟨s, h⟩ := final_some; let ⟨u, hu, _⟩ := vec_use h; ⟨s, u, h, hu, C89_answers env_valid ExC86.ok (final_reach h) hu⟩
example : ∃ s, final = some s ∧ bV ∈ s.al.live := by
  obtain ⟨s, h⟩ := final_some
  obtain ⟨u, hu, hb⟩ := vec_use h
  exact ⟨s, h, ((C89_allocator env_valid ExC86.ok (final_reach h)).2 .vecs u hu).1 bV (by rw [hb]; simp)⟩
example : ∃ s, final = some s ∧ ∀ t, ¬ writesByte s.al t 4105 ∧ ¬ readsByte s.al t 4105 := by
  obtain ⟨s, h⟩ := final_some
  obtain ⟨u, hu, _⟩ := vec_use h
  exact ⟨s, h, (C89_no_data_race env_valid ExC86.ok (final_reach h) hu vec_owns).2⟩
/-- A step of the allocator, and a new request. -/
example : ∃ s, final = some s ∧ (exec env s (.al (.step 0))).mem 4105 = s.mem 4105 ∧ (exec env s (.al (.invoke 1 (.alloc ⟨48, 8⟩)))).mem 4105 = s.mem 4105 := by
  obtain ⟨s, h⟩ := final_some
  obtain ⟨u, hu, _⟩ := vec_use h
  exact ⟨s, h, C89_undisturbed env_valid ExC86.ok (final_reach h) hu vec_owns ⟨trivial, fun _ h => h.elim⟩ id, C89_undisturbed env_valid ExC86.ok (final_reach h) hu vec_owns ⟨⟨⟨⟨3, rfl⟩, by decide⟩, by decide⟩, fun _ h => by cases h⟩ id⟩
end
end Verif.CasesCompose
