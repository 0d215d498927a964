import Verif.Props.Linked
/-!
# Concrete cases for C96
-/
set_option autoImplicit false
namespace Verif.CasesLinked
open Verif Linked

def env (len : Nat) : Bump.Env := ⟨.w64, 4096, len, id⟩
theorem env_valid {len : Nat} (h : len ≤ 1024) : (env len).Valid := by
  have h1 : Target.w64.W = 2 ^ 64 := by decide
  have h2 : Target.w64.isizeMax = 2 ^ 63 - 1 := by decide
  exact ⟨by simp [env], by simp only [env, h1]; omega, by simp only [env, h2]; omega, fun a h => ⟨h.pos, Nat.dvd_refl a⟩⟩

/-- Layout of a value with a number and a box. -/
def link : Layout := ⟨16, 8⟩
/-- Memory with arbitrary bits, here pointers to the start. -/
def junk : Nat → Option Node := fun _ => some ⟨77, [4096]⟩

/-- Responses, destructors, abort. -/
def result (len : Nat) (panics : Nat → Bool) (ops : List Op) : Option (List Resp × List Nat × Bool) :=
  match run (env len) panics (World.init 0 junk) ops with
  | .ret (rs, w) => some (rs, w.log, w.aborted)
  | _ => none


/-- A program in which every layout is `link` is valid. -/
def linksOnly : Op → Bool
  | .leakBox _ L | .alloc L => decide (L = link)
  | _ => true
theorem valid_of {ops : List Op} (h : ops.all linksOnly = true) : ∀ op ∈ ops, op.Valid .w64 := by
  intro op hop
  have := List.all_eq_true.mp h op hop
  cases op <;> simp_all [linksOnly, Op.Valid]
  all_goals exact ⟨⟨⟨3, rfl⟩, by decide⟩, by decide⟩

/-- The documentation of `Bump::leak_box`, bump.rs:491-531, in `Bump<[u8; 128]>`: value 0 is `Tail`, value `n + 1` is the `Link` with `Node(n)`. -/
def docChain : List Op :=
  [.make, .leakBox 0 link, .make, .attach 1 0, .leakBox 1 link, .make, .attach 2 1, .leakBox 2 link, .make, .attach 3 2, .leakBox 3 link, .make, .attach 4 3, .dropVal 4]
/-- "Prints the message in reverse order." -/
example : result 128 (fun _ => false) docChain =
    some ([.var 0, .var 0, .var 1, .unit, .var 1, .var 2, .unit, .var 2, .var 3, .unit, .var 3, .var 4, .unit, .unit], [4, 3, 2, 1, 0], false) := by decide +kernel
/-- In a smaller buffer `leak_box(chain)?` fails, and the chain so far is dropped by it (the program here goes on). -/
example : result 40 (fun _ => false) docChain =
    some ([.var 0, .var 0, .var 1, .unit, .var 1, .var 2, .unit, .full, .var 3, .absent, .full, .var 4, .absent, .unit], [2, 1, 0, 3, 4], false) := by decide +kernel

/-- The example of `without_alloc::Box`, boxed.rs:17-38: `Box::take(two).0`, then its list is dropped. -/
def docBox : List Op := [.make, .leakBox 0 link, .make, .attach 1 0, .leakBox 1 link, .make, .attach 2 1, .leakBox 2 link, .take 2, .dropVal 3]
example : result 1024 (fun _ => false) docBox = some ([.var 0, .var 0, .var 1, .unit, .var 1, .var 2, .unit, .var 2, .var 3, .unit], [2, 1, 0], false) := by decide +kernel

/-- A tree: value 2 with the boxes of 0 and 1; then value 3 is added to value 1, value 0 is detached and dropped, value 1 is replaced by 4, the old value gets dropped with 3, then the box. -/
def edits : List Op :=
  [.make, .leakBox 0 link, .make, .leakBox 1 link, .make, .attach 2 0, .attach 2 1, .leakBox 2 link, .make, .leakBox 3 link,
   .push 2 [1] 3, .read 2 [1, 0], .push 2 [1] 2, .detach 2 [] 0, .dropBox 4, .read 2 [0], .make, .replace 2 [0] 4, .dropVal 4, .alloc link, .dropBox 2, .dropBox 2]
example : result 128 (fun _ => false) edits =
    some ([.var 0, .var 0, .var 1, .var 1, .var 2, .unit, .unit, .var 2, .var 3, .var 3,
      .unit, .id 3, .absent, .var 4, .unit, .id 1, .var 4, .unit, .unit, .unit, .unit, .absent], [0, 1, 3, 2, 4], false) := by decide +kernel
/-- One destructor panics: all others are run. Two of them in one drop: abort. -/
example : result 128 (fun i => i == 3) docChain =
    some ([.var 0, .var 0, .var 1, .unit, .var 1, .var 2, .unit, .var 2, .var 3, .unit, .var 3, .var 4, .unit, .unwound], [4, 3, 2, 1, 0], false) := by decide +kernel
example : result 128 (fun i => i == 3 || i == 1) docChain =
    some ([.var 0, .var 0, .var 1, .unit, .var 1, .var 2, .unit, .var 2, .var 3, .unit, .var 3, .var 4, .unit, .aborted], [4, 3, 2, 1], true) := by decide +kernel
/-- A panic in each of two separate drops is no abort. -/
example : result 128 (fun i => i == 1 || i == 2) edits =
    some ([.var 0, .var 0, .var 1, .var 1, .var 2, .unit, .unit, .var 2, .var 3, .var 3,
      .unit, .id 3, .absent, .var 4, .unit, .id 1, .var 4, .unit, .unwound, .unit, .unwound, .absent], [0, 1, 3, 2, 4], false) := by decide +kernel

/-! The theorems for these. -/
example : ∃ w, run (env 128) (fun i => i == 3) (World.init 0 junk) edits = .ret (((Spec.init 0).run (env 128).slab (fun i => i == 3) edits).1, w) ∧
    w.log = ((Spec.init 0).run (env 128).slab (fun i => i == 3) edits).2.log ∧ w.aborted = ((Spec.init 0).run (env 128).slab (fun i => i == 3) edits).2.aborted :=
  C96_refines (env_valid (by decide)) (Nat.zero_le _) junk _ edits (valid_of (by decide))

def final (panics : Nat → Bool) (ops : List Op) : World := match run (env 128) panics (World.init 0 junk) ops with | .ret (_, w) => w | _ => World.init 0 junk
def resps (panics : Nat → Bool) (ops : List Op) : List Resp := match run (env 128) panics (World.init 0 junk) ops with | .ret (r, _) => r | _ => []
theorem final_eq (panics : Nat → Bool) {ops : List Op} (h : ops.all linksOnly = true) : run (env 128) panics (World.init 0 junk) ops = .ret (resps panics ops, final panics ops) := by
  obtain ⟨w, h, _⟩ := C96_refines (env_valid (len := 128) (by decide)) (Nat.zero_le _) junk panics ops (valid_of h)
  simp [final, resps, h]

example : (final (fun i => i == 3 || i == 1) docChain).log.Nodup ∧ ∀ i ∈ (final (fun i => i == 3 || i == 1) docChain).log, i < (final (fun i => i == 3 || i == 1) docChain).made :=
  C96_once (env_valid (by decide)) (Nat.zero_le _) junk _ docChain (valid_of (by decide)) (final_eq _ (by decide))

def some_forgotten : List Op := docBox.take 8 ++ [.forget 2, .make]
example : ((final (fun _ => false) some_forgotten).log ++ ((Spec.init 0).run (env 128).slab (fun _ => false) some_forgotten).2.held ++
    ((Spec.init 0).run (env 128).slab (fun _ => false) some_forgotten).2.leaked).Perm (List.range (final (fun _ => false) some_forgotten).made) :=
  C96_all (env_valid (by decide)) (Nat.zero_le _) junk _ some_forgotten (valid_of (by decide)) (final_eq _ (by decide)) (by decide +kernel)
example : ((Spec.init 0).run (env 128).slab (fun _ => false) some_forgotten).2.held = [3] ∧ ((Spec.init 0).run (env 128).slab (fun _ => false) some_forgotten).2.leaked = [2, 1, 0] := by decide +kernel

example : (final (fun i => i == 1) edits).log.Perm (List.range (final (fun i => i == 1) edits).made) :=
  C96_complete (env_valid (by decide)) (Nat.zero_le _) junk _ edits (valid_of (by decide)) (final_eq _ (by decide)) (by decide +kernel)
    (by decide +kernel) (by decide +kernel) (by intro b; simp [edits])

end Verif.CasesLinked
