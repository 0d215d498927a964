import Verif.Props.Pinned
/-!
# Concrete cases for C92
-/
namespace Verif.CasesPinned
open Verif
section
open ConcBoxes ConcBoxes.ExC88 ConcBoxes.ExC92

/-- Thread 1 uses up the bump: whatever it got does not overlap the pinned byte at 4100. -/
example : ∃ os w os' w', run e panics (World.init 0 m) before = .ret (os, w) ∧ run e panics w after = .ret (os', w') ∧
    ∀ u call nd r p L, .returned u call nd r ∈ os' → r.ptr? = some p → call.layout = some L → Region.Disjoint ⟨p, L.size⟩ ⟨4100, 1⟩ := by
  obtain ⟨os, w, h, hk⟩ := boxed
  obtain ⟨os', w', h1, -, -, h2⟩ := C92_stays e_valid (by decide) all_safe h hk rfl pinned
  exact ⟨os, w, os', w', h, h1, h2⟩

/-- The pinned byte is 7 all along, and this 7 is what the destructor sees. -/
example : ∃ os w os' w', run e panics (World.init 0 m) before = .ret (os, w) ∧ run e panics w after = .ret (os', w') ∧ readBytes w'.st.mem 4100 1 = [7] ∧
    (w'.aborted = false → ∃ a w'', exec e panics w' (.use 0 (.drop 0)) = .ret (some (.used 0 (.drop 0) a), w'') ∧ w''.log = w'.log ++ [(0, [7])]) := by
  obtain ⟨os, w, h, hk⟩ := boxed
  have h7 : readBytes w.st.mem 4100 1 = [7] := by
    have : (match run e panics (World.init 0 m) before with | .ret (_, w) => readBytes w.st.mem 4100 1 | _ => []) = [7] := by decide +kernel
    rw [h] at this
    exact this
  obtain ⟨os', w', h1, h2, h3⟩ := C92_value e_valid (by decide) all_safe h hk rfl pinned (by intro v hv; simp [after] at hv)
  have h2' : readBytes w'.st.mem 4100 1 = readBytes w.st.mem 4100 1 := h2
  refine ⟨os, w, os', w', h, h1, h2'.trans h7, fun ha => ?_⟩
  obtain ⟨a, w'', h4, h5⟩ := h3 ha rfl
  exact ⟨a, w'', h4, by rw [h5, ← h7]; rfl⟩
end

section
open Unsync BumpBoxes
/-- The second box is pinned, then the first is replaced, assigned and dropped, and another request fails. -/
def later : List Op := [.deref 1, .replace 0 [9, 9, 9, 9], .bumpBox exP, .assign 0 [2, 2, 2, 2], .drop 0]
example : ∃ rs w rs' w', run .w64 exB exPanics (World.init exM) (exOps.take 3) = .ret (rs, w) ∧ run .w64 exB exPanics w later = .ret (rs', w') ∧
    w'.hs[1]? = some (some ⟨4112, exP, .boxed⟩) ∧ readBytes w'.mem 4112 8 = readBytes w.mem 4112 8 := by
  have cap : exB.level .w64 exM ≤ exB.cap := by decide +kernel
  have hs : SafeRun .w64 exB exPanics (World.init exM) (exOps.take 3 ++ later) := safeB_sound (by decide +kernel)
  obtain ⟨w, e, -⟩ := C83_refines exB_valid cap (safe_append hs).1
  have hk : w.hs[1]? = some (some ⟨4112, exP, .boxed⟩) := by
    have : (match run .w64 exB exPanics (World.init exM) (exOps.take 3) with | .ret (_, w) => w.hs[1]? | _ => none) = some (some ⟨4112, exP, .boxed⟩) := by decide +kernel
    rw [e] at this
    exact this
  obtain ⟨rs', w', h1, h2, -, h3⟩ := C92_unsync exB_valid cap hs e hk rfl (by intro op hop; simp [later] at hop; rcases hop with rfl | rfl | rfl | rfl | rfl <;> simp [Pinned])
  obtain ⟨h4, h5⟩ := h3 (by intro v hv; simp [later] at hv)
  exact ⟨_, w, rs', w', e, h1, h2, h4⟩

/-- Here the pinned box has a destructor. -/
def first : List Op := [.getBoxed exT [5, 6, 7, 8], .getBoxed exT [1, 1, 1, 1]]
def then_ : List Op := [.deref 0, .replace 1 [9, 9, 9, 9], .getBoxed exP [1, 2, 3, 4, 5, 6, 7, 8], .drop 1, .level]
example : ∃ rs w rs' w', run .w64 exB exPanics (World.init exM) first = .ret (rs, w) ∧ run .w64 exB exPanics w then_ = .ret (rs', w') ∧
    ∃ r w'', exec .w64 exB exPanics w' (.drop 0) = .ret (r, w'') ∧ w''.log = w'.log ++ [[5, 6, 7, 8]] := by
  have cap : exB.level .w64 exM ≤ exB.cap := by decide +kernel
  have hs : SafeRun .w64 exB exPanics (World.init exM) (first ++ then_) := safeB_sound (by decide +kernel)
  obtain ⟨w, e, -⟩ := C83_refines exB_valid cap (safe_append hs).1
  have hk : w.hs[0]? = some (some ⟨4104, exT, .boxed⟩) ∧ readBytes w.mem 4104 4 = [5, 6, 7, 8] := by
    have : (match run .w64 exB exPanics (World.init exM) first with | .ret (_, w) => (w.hs[0]?, readBytes w.mem 4104 4) | _ => (none, [])) = (some (some ⟨4104, exT, .boxed⟩), [5, 6, 7, 8]) := by decide +kernel
    rw [e] at this
    exact Prod.mk.inj this
  obtain ⟨rs', w', h1, h2, -, h3⟩ := C92_unsync exB_valid cap hs e hk.1 rfl (by intro op hop; simp [then_] at hop; rcases hop with rfl | rfl | rfl | rfl | rfl <;> simp [Pinned])
  obtain ⟨h4, h5⟩ := h3 (by intro v hv; simp [then_] at hv)
  obtain ⟨r, w'', h6, h7⟩ := h5 rfl
  exact ⟨_, w, rs', w', e, h1, r, w'', h6, by rw [h7]; congr 2; exact hk.2⟩
end
end Verif.CasesPinned
