import Verif.Props.Nested
/-!
# Concrete cases for C98
-/
set_option autoImplicit false
namespace Verif.CasesNested
open Verif Nested

def env (len : Nat) : Bump.Env := ⟨.w64, 4096, len, id⟩
theorem env_valid {len : Nat} (h : len ≤ 1024) : (env len).Valid := by
  have h1 : Target.w64.W = 2 ^ 64 := by decide
  have h2 : Target.w64.isizeMax = 2 ^ 63 - 1 := by decide
  exact ⟨by simp [env], by simp only [env, h1]; omega, by simp only [env, h2]; omega, fun a h => ⟨h.pos, Nat.dvd_refl a⟩⟩

/-- Layout of a value with a number and a vector: pointer, length of the view, number of elements. -/
def nodeL : Layout := ⟨32, 8⟩
theorem nodeL_valid : nodeL.ValidType .w64 := ⟨⟨⟨3, rfl⟩, by decide⟩, by decide⟩
/-- Memory with arbitrary bits. -/
def junk : Nat → Option Node := fun _ => some ⟨77, ⟨⟨4096, 64, nodeL, 2⟩, 1⟩⟩

/-- Responses, destructors, abort. -/
def result (len : Nat) (panics : Nat → Bool) (ops : List Op) : Option (List Resp × List Nat × Bool) :=
  match run (env len) nodeL panics (World.init 0 junk) ops with
  | .ret (rs, w) => some (rs, w.log, w.aborted)
  | _ => none

/-- A program in which every other allocation has this layout is valid. -/
def nodesOnly : Op → Bool
  | .alloc L => decide (L = nodeL)
  | _ => true
theorem valid_of {ops : List Op} (h : ops.all nodesOnly = true) : ∀ op ∈ ops, op.Valid .w64 := by
  intro op hop
  have := List.all_eq_true.mp h op hop
  cases op <;> simp_all [nodesOnly, Op.Valid]
  exact ⟨⟨⟨3, rfl⟩, by decide⟩, by decide⟩

/-- Value 0 with vector of capacity 3; values 1 and 2 go there, value 3 into the vector of 1, which is then full. -/
def build : List Op :=
  [.make 3, .make 1, .make 0, .make 0, .push 0 [] 1, .push 0 [] 2, .push 0 [0] 3, .make 2, .push 0 [0] 4, .push 0 [1] 4, .push 0 [] 4, .len 0 [], .len 0 [0], .capacity 0 [2], .read 0 [0, 0]]
example : result 512 (fun _ => false) build =
    some ([.var 0, .var 1, .var 2, .var 3, .unit, .unit, .unit, .var 4, .full, .full, .unit, .num 3, .num 1, .num 2, .num 3], [], false) := by decide +kernel
/-- In a smaller slab there is no room for the second vector, nor for the last one. -/
example : result 96 (fun _ => false) build =
    some ([.var 0, .full, .var 1, .var 2, .unit, .unit, .absent, .full, .absent, .absent, .absent, .num 2, .num 0, .absent, .absent], [], false) := by decide +kernel

/-- A value is dropped before its elements, and those in their order. -/
example : result 512 (fun _ => false) (build ++ [.drop 0]) = some ((result 512 (fun _ => false) build).get!.1 ++ [.unit], [0, 1, 3, 2, 4], false) := by decide +kernel
/-- One destructor panics: all others are run. Two of them: abort. -/
example : (result 512 (fun i => i == 1) (build ++ [.drop 0])).map (·.2) = some ([0, 1, 3, 2, 4], false) := by decide +kernel
example : (result 512 (fun i => i == 1 || i == 2) (build ++ [.drop 0])).map (·.2) = some ([0, 1, 3, 2], true) := by decide +kernel

/-- `truncate` goes from the back; a panic leaves what is in front, and the vector can be used. -/
example : result 512 (fun i => i == 2) (build ++ [.truncate 0 [] 0, .len 0 [], .truncate 0 [] 0, .len 0 [], .drop 0]) =
    some ((result 512 (fun _ => false) build).get!.1 ++ [.unwound, .num 1, .unit, .num 0, .unit], [4, 2, 1, 3, 0], false) := by decide +kernel

/-- `drain`: the middle one is dropped with its elements, the other ones are taken or moved. -/
example : result 512 (fun _ => false) (build ++ [.drain 0 [] 0 2 1 0, .len 0 [], .read 0 [0], .read 5 [0], .drain 0 [] 0 2 0 0, .drain 5 [] 0 1 0 1, .drop 5, .drop 6, .drop 0]) =
    some ((result 512 (fun _ => false) build).get!.1 ++ [.num 1, .num 1, .num 4, .num 3, .panicked, .num 1, .unit, .unit, .unit], [2, 1, 3, 0, 4], false) := by decide +kernel
/-- A destructor that panics in a drain: the elements behind are never dropped. -/
example : result 512 (fun i => i == 1) (build ++ [.drain 0 [] 0 2 0 0, .len 0 [], .drop 0]) =
    some ((result 512 (fun _ => false) build).get!.1 ++ [.unwound, .num 0, .unit], [1, 3, 0], false) := by decide +kernel
example : result 512 (fun _ => false) (build ++ [.drainForget 0 [] 1 2, .len 0 [], .drop 0]) =
    some ((result 512 (fun _ => false) build).get!.1 ++ [.unit, .num 1, .unit], [0, 1, 3], false) := by decide +kernel

/-- `swap` of the value in the vector and one of another variable, `split` of the vector, and elements of the part. -/
def edits : List Op := build ++ [.split 0 [] 1, .capacity 0 [], .capacity 5 [], .len 5 [], .read 5 [1], .split 0 [] 2, .swap 5 [0] 0, .read 5 [0, 0], .read 5 [0, 0, 0], .swap 5 [0] 5, .drop 5, .pop 0 [], .drop 0, .alloc nodeL, .forget 1]
example : result 512 (fun _ => false) edits =
    some ((result 512 (fun _ => false) build).get!.1 ++ [.var 5, .num 1, .num 2, .num 2, .num 4, .panicked, .unit, .num 1, .num 3, .absent, .unit, .absent, .unit, .unit, .absent], [5, 0, 1, 3, 4, 2], false) := by decide +kernel

/-! The theorems for these. -/
example : ∃ w, run (env 512) nodeL (fun i => i == 3) (World.init 0 junk) edits = .ret (((Spec.init 0).run (env 512).slab nodeL (fun i => i == 3) edits).1, w) ∧
    w.log = ((Spec.init 0).run (env 512).slab nodeL (fun i => i == 3) edits).2.log ∧ w.aborted = ((Spec.init 0).run (env 512).slab nodeL (fun i => i == 3) edits).2.aborted :=
  C98_refines (env_valid (by decide)) nodeL_valid (by decide) (Nat.zero_le _) junk _ edits (valid_of (by decide))

def final (panics : Nat → Bool) (ops : List Op) : World := match run (env 512) nodeL panics (World.init 0 junk) ops with | .ret (_, w) => w | _ => World.init 0 junk
def resps (panics : Nat → Bool) (ops : List Op) : List Resp := match run (env 512) nodeL panics (World.init 0 junk) ops with | .ret (r, _) => r | _ => []
theorem final_eq (panics : Nat → Bool) {ops : List Op} (h : ops.all nodesOnly = true) : run (env 512) nodeL panics (World.init 0 junk) ops = .ret (resps panics ops, final panics ops) := by
  obtain ⟨w, h, _⟩ := C98_refines (env_valid (len := 512) (by decide)) nodeL_valid (by decide) (Nat.zero_le _) junk panics ops (valid_of h)
  simp [final, resps, h]

def quiet : Nat → Bool := fun _ => false
example : (final (fun i => i == 1 || i == 2) (build ++ [.drop 0])).log.Nodup ∧ ∀ i ∈ (final (fun i => i == 1 || i == 2) (build ++ [.drop 0])).log, i < (final (fun i => i == 1 || i == 2) (build ++ [.drop 0])).made :=
  C98_once (env_valid (by decide)) nodeL_valid (by decide) (Nat.zero_le _) junk _ _ (valid_of (by decide)) (final_eq _ (by decide))

/-- Of the values 1, 3, 2 in the drain and 4 behind it, the first two are destroyed. -/
def lossy : List Op := build ++ [.make 0, .drain 0 [] 0 2 0 0]
example : ((final (fun i => i == 1) lossy).log ++ ((Spec.init 0).run (env 512).slab nodeL (fun i => i == 1) lossy).2.held ++
    ((Spec.init 0).run (env 512).slab nodeL (fun i => i == 1) lossy).2.leaked).Perm (List.range (final (fun i => i == 1) lossy).made) :=
  C98_all (env_valid (by decide)) nodeL_valid (by decide) (Nat.zero_le _) junk _ lossy (valid_of (by decide)) (final_eq _ (by decide)) (by decide +kernel)
example : ((Spec.init 0).run (env 512).slab nodeL (fun i => i == 1) lossy).2.held = [0, 5] ∧ ((Spec.init 0).run (env 512).slab nodeL (fun i => i == 1) lossy).2.leaked = [2, 4] := by decide +kernel

example : (final quiet (build ++ [.drain 0 [] 0 3 1 0, .drop 5, .drop 0])).log.Perm (List.range (final quiet (build ++ [.drain 0 [] 0 3 1 0, .drop 5, .drop 0])).made) :=
  C98_complete (env_valid (by decide)) nodeL_valid (by decide) (Nat.zero_le _) junk _ _ (valid_of (by decide)) (final_eq _ (by decide)) (by decide +kernel)
    (by decide +kernel) (by decide +kernel) (.inl fun _ => rfl)

end Verif.CasesNested
