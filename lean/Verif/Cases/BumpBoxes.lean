import Verif.Props.BumpBoxes
/-!
# Concrete cases for C83

The program `exOps` with two boxes, and parts of it.
-/
namespace Verif.CasesBumpBoxes
open Verif Unsync BumpBoxes

theorem cap : exB.level .w64 exM ≤ exB.cap := by decide +kernel
def world (ops : List Op) : World := match run .w64 exB exPanics (World.init exM) ops with | .ret (_, w) => w | _ => World.init exM
theorem run_world {ops : List Op} (h : SafeRun .w64 exB exPanics (World.init exM) ops) : ∃ rs, run .w64 exB exPanics (World.init exM) ops = .ret (rs, world ops) := by
  obtain ⟨w, e, _⟩ := C83_refines exB_valid cap h
  exact ⟨_, by rw [world, e]⟩
/-- Two boxes were made and written: they are in the memory of the bump, one behind the other. -/
theorem two_safe : SafeRun .w64 exB exPanics (World.init exM) (exOps.take 5) := safeB_sound (by decide +kernel)
example : Region.Disjoint ⟨4104, 4⟩ ⟨4112, 8⟩ := by
  obtain ⟨rs, e⟩ := run_world two_safe
  have hh : (world (exOps.take 5)).hs = [some ⟨4104, exT, .boxed⟩, some ⟨4112, exP, .boxed⟩] := by decide +kernel
  exact (C83_places exB_valid cap two_safe e).2 0 1 _ _ (by decide) (by rw [hh]; rfl) (by rw [hh]; rfl)
/-- The second box holds its value while the first is replaced, assigned and dropped, and another request fails. -/
example : ∃ rs' w', run .w64 exB exPanics (world (exOps.take 3)) [.deref 1, .replace 0 [9, 9, 9, 9], .bumpBox exP, .assign 0 [2, 2, 2, 2]] = .ret (rs', w') ∧
    exec .w64 exB exPanics w' (.deref 1) = .ret (.val [1, 2, 3, 4, 5, 6, 7, 8], w') := by
  obtain ⟨rs, e⟩ := run_world (ops := exOps.take 3) (safeB_sound (by decide +kernel))
  have hd : exec .w64 exB exPanics (world (exOps.take 3)) (.deref 1) = .ret (.val [1, 2, 3, 4, 5, 6, 7, 8], world (exOps.take 3)) := by
    have h0 : (world (exOps.take 3)).hs[1]? = some (some ⟨4112, exP, .boxed⟩) := by decide +kernel
    have h1 : readBytes (world (exOps.take 3)).mem 4112 8 = [1, 2, 3, 4, 5, 6, 7, 8] := by decide +kernel
    simp only [exec, h0]
    show Outcome.ret (Resp.val (readBytes (world (exOps.take 3)).mem 4112 8), _) = _
    rw [h1]
  obtain ⟨rs', w', h1, _, h3⟩ := C83_value_kept exB_valid cap (before := exOps.take 3) (after := [.deref 1, .replace 0 [9, 9, 9, 9], .bumpBox exP, .assign 0 [2, 2, 2, 2]])
    (safeB_sound (by decide +kernel)) e (k := 1) (permittedB_sound (by decide +kernel)) hd (by intro op hop; simp at hop; rcases hop with rfl | rfl | rfl | rfl <;> simp [NotUsed])
  exact ⟨rs', w', h1, h3⟩
example : ∃ rs w, run .w64 exB exPanics (World.init exM) exDrop = .ret (rs, w) ∧ ∀ v, (outputsOf exDrop rs).count v + w.log.count v ≤ (inputsOf exDrop rs).count v :=
  have hs : SafeRun .w64 exB exPanics (World.init exM) exDrop := safeB_sound (by decide +kernel)
  let ⟨rs, e⟩ := run_world hs
  ⟨rs, _, e, C83_at_most_once exB_valid cap hs (allDropB_sound (by decide)) e⟩
end Verif.CasesBumpBoxes
