import Verif.Props.ExitMove
/-! # C106: concrete programs -/
set_option autoImplicit false
namespace Verif
open Exit.ExitMem Exit Unsync
namespace ExC106
open ExC85

/-- The stack is moved twice before it is pinned, then used. -/
def before : List MOp := [.move 16384 dirty, .move 24576 (fun _ => 0), .op (.slot 0x41), .op (.slot 0x42), .op (.pin ⟨24584, 0x41⟩ [5] (fill 24)), .op (.pin ⟨24608, 0x42⟩ [1, 2, 3, 4] (fill 24)), .op (.write ⟨24584, 0x41⟩ [7])]

theorem before_safe : MSafeRun MayNotUnpin (.init cfg dirty) (before ++ [.op .drop]) := by
  refine safe_step ⟨by decide +kernel, by decide, valid_moved 16384 (by decide) (by decide) (by decide +kernel), rfl⟩ ?_
  refine safe_step ⟨by decide +kernel, by decide, ?_, rfl⟩ ?_
  · exact valid_moved 24576 (by decide) (by decide) (by decide +kernel)
  refine safe_step ⟨by decide +kernel, by decide, v41⟩ ?_
  refine safe_step ⟨by decide +kernel, by decide, v42⟩ ?_
  refine safe_step ⟨by decide +kernel, by decide +kernel, by decide, by decide⟩ ?_
  refine safe_step ⟨by decide +kernel, by decide +kernel, by decide, by decide⟩ ?_
  refine safe_step ⟨by decide +kernel, by decide +kernel, by decide⟩ ?_
  exact safe_step (show BState.alive _ = true by decide +kernel) trivial

theorem before_safe' : MSafeRun MayNotUnpin (.init cfg dirty) before := by
  refine safe_step ⟨by decide +kernel, by decide, valid_moved 16384 (by decide) (by decide) (by decide +kernel), rfl⟩ ?_
  refine safe_step ⟨by decide +kernel, by decide, ?_, rfl⟩ ?_
  · exact valid_moved 24576 (by decide) (by decide) (by decide +kernel)
  refine safe_step ⟨by decide +kernel, by decide, v41⟩ ?_
  refine safe_step ⟨by decide +kernel, by decide, v42⟩ ?_
  refine safe_step ⟨by decide +kernel, by decide +kernel, by decide, by decide⟩ ?_
  refine safe_step ⟨by decide +kernel, by decide +kernel, by decide, by decide⟩ ?_
  exact safe_step ⟨by decide +kernel, by decide +kernel, by decide⟩ trivial

/-- C106_not_unpin: the destructors run at the last place. -/
example : ∃ fin, mrun (.init cfg dirty) (before ++ [.op .drop]) = some ((smrun cfg ⟨0, [], [], [], true⟩ (before ++ [.op .drop])).1, fin) := by
  obtain ⟨fin, h, _⟩ := C106_not_unpin_partial valid dirty _ before_safe
  exact ⟨fin, h⟩
example : (match mrun (.init cfg dirty) (before ++ [.op .drop]) with | some (rs, some s) => some (rs, s.b.log) | _ => none) =
    some ([.ret .unit, .ret .unit, .ret (.addr 24584), .ret (.addr 24608), .ret (.addr 24600), .ret (.addr 24624), .ret .unit, .ret .unit], [(some 24608, 0x42, [1, 2, 3, 4]), (some 24584, 0x41, [7])]) := by decide +kernel

/-- The state with two values. -/
def sBefore : MState := before.foldl out (.init cfg dirty)
theorem before_reached : MReached MayNotUnpin cfg dirty before sBefore := ⟨before_safe', [.ret .unit, .ret .unit, .ret (.addr 24584), .ret (.addr 24608), .ret (.addr 24600), .ret (.addr 24624), .ret .unit], rfl⟩

/-- C106_never_moved -/
example : ¬ MOp.Allowed MayNotUnpin sBefore (.move 4096 dirty) :=
  C106_never_moved_partial valid before_reached (q := ⟨24584, 0x41⟩) (.inl (by decide +kernel)) 4096 dirty
/-- The rule for `Unpin` permits it. -/
example : MOp.Allowed MayUnpin sBefore (.move 16384 dirty) :=
  ⟨by decide +kernel, by decide +kernel, valid_moved 16384 (by decide) (by decide) (by decide +kernel), trivial⟩

/-- C106_inside: the value is in the stack. -/
example : sBefore.c.Own (24624 + 3) :=
  C106_inside_partial (.inl rfl) valid before_reached (q := ⟨24608, 0x42⟩) (by decide +kernel) _ (by decide +kernel) (by decide +kernel)

/-- With `Unpin`: clear, move, go on. -/
def between : List MOp := [.op (.slot 0x41), .op (.pin ⟨4104, 0x41⟩ [5] (fill 24)), .op .popAll, .move 16384 dirty, .op (.slot 0x42), .op (.pin ⟨16392, 0x42⟩ [1, 2, 3, 4] (fill 24)), .op .drop]

theorem between_safe : MSafeRun MayEmpty (.init cfg dirty) between := by
  refine safe_step ⟨by decide +kernel, by decide, v41⟩ ?_
  refine safe_step ⟨by decide +kernel, by decide +kernel, by decide, by decide⟩ ?_
  refine safe_step (show BState.alive _ = true by decide +kernel) ?_
  refine safe_step ⟨by decide +kernel, by decide +kernel, ?_, (show BState.live _ = [] by decide +kernel)⟩ ?_
  · exact valid_moved 16384 (by decide) (by decide) (by decide +kernel)
  refine safe_step ⟨by decide +kernel, by decide, v42⟩ ?_
  refine safe_step ⟨by decide +kernel, by decide +kernel, by decide, by decide⟩ ?_
  exact safe_step (show BState.alive _ = true by decide +kernel) trivial

/-- C106_empty -/
example : ∃ fin, mrun (.init cfg dirty) between = some ((smrun cfg ⟨0, [], [], [], true⟩ between).1, fin) := by
  obtain ⟨fin, h, _⟩ := C106_empty_partial valid dirty _ between_safe
  exact ⟨fin, h⟩
example : (match mrun (.init cfg dirty) between with | some (rs, some s) => some (rs, s.b.log) | _ => none) =
    some ([.ret (.addr 4104), .ret (.addr 4120), .ret .unit, .ret .unit, .ret (.addr 16392), .ret (.addr 16408), .ret .unit], [(some 4104, 0x41, [5]), (some 16392, 0x42, [1, 2, 3, 4])]) := by decide +kernel

/-- Moving copies the bytes of both fields: the level, and a pointer to the last value. -/
example : (cfg.moveBytes 16384 s2.b.mem (fun _ => 0)) (16384 + 32) = s2.b.mem (4096 + 32) ∧ (cfg.moveBytes 16384 s2.b.mem (fun _ => 0)) (20480 + 1) = s2.b.mem (8192 + 1) ∧
    (cfg.moveBytes 16384 s2.b.mem (fun _ => 0)) (20480 + 16) = 0 := by decide +kernel

end ExC106
end Verif
