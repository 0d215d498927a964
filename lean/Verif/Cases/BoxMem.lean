import Verif.Props.BoxMem
/-! # Concrete cases for C91 -/
namespace Verif.BoxMem
open Verif Uninit

example : ∃ w, run .w64 exPanics (World.init exM) exOps = .ret ((srun .w64 exPanics SWorld.init exOps).1, w) ∧ w.log = [(u32T, [9, 9, 9, 9]), (⟨0, 4⟩, [])] ∧ ∀ x, ¬ exMine x → w.mem x = 77 := by
  obtain ⟨w, e, h1, h2⟩ := C91_refines_partial ex_safe
  exact ⟨w, e, by rw [h1]; decide +kernel, h2⟩
/-- The values, as the program sees them. -/
example : values exOps = some ([[1], [1], [1, 2, 3, 4, 5, 6, 7, 8], [1, 2, 3, 4, 5, 6, 7, 8], [5, 5, 5, 5], [5, 5, 5, 5], [2], [8, 8, 8, 8, 8, 8, 8, 8], [8, 8, 8, 8, 8, 8, 8, 8], [7, 7, 7, 7, 7, 7, 7, 7]],
    [(u32T, [9, 9, 9, 9]), (⟨0, 4⟩, [])]) := by decide +kernel
/-- What `invent_for_zst` says to a type with a size. -/
example : (srun .w64 exPanics SWorld.init exOps).1[30]? = some .panicked := by decide +kernel
/-- Where the pieces are. -/
example : (srun .w64 exPanics SWorld.init exOps).1[5]? = some (.views [.slice ⟨4112, 16, u64T, 2⟩, .sized ⟨4104, 8, u64T⟩]) := by decide +kernel

def halves : List Op := exOps.take 12
theorem halves_safe : SafeRun (Permitted .w64 exMine) .w64 exPanics (World.init exM) halves := (safe_append (show SafeRun _ _ _ _ (halves ++ exOps.drop 12) by rw [halves, List.take_append_drop]; exact ex_safe)).1
/-- Three boxes, pairwise disjoint. -/
example : ∃ rs w, run .w64 exPanics (World.init exM) halves = .ret (rs, w) ∧ w.hs 0 = some (.boxed ⟨4096, 8, u8T⟩) ∧ w.hs 2 = some (.boxed ⟨4104, 8, u64T⟩) ∧ w.hs 3 = some (.boxed ⟨4112, 16, u32T⟩) ∧
    (∀ i j h g, i ≠ j → w.hs i = some h → w.hs j = some g → h.region.Disjoint g.region) := by
  obtain ⟨w, e, -, -⟩ := C91_refines_partial halves_safe
  have h := C91_apart_partial halves_safe e
  have hw : ∀ k, w.hs k = (match run .w64 exPanics (World.init exM) halves with | .ret (_, w) => w.hs k | _ => none) := fun k => by rw [e]
  exact ⟨_, w, e, by rw [hw]; decide +kernel, by rw [hw]; decide +kernel, by rw [hw]; decide +kernel, h.2.1⟩

/-- The box in variable 2 is not used by the five statements after it was made. -/
example : ∃ rs w, run .w64 exPanics (World.init exM) (exOps.take 7) = .ret (rs, w) ∧ ∃ rs' w', run .w64 exPanics w ((exOps.drop 7).take 5) = .ret (rs', w') ∧ exec .w64 exPanics w' (.deref 2) = .ret (.val [1, 2, 3, 4, 5, 6, 7, 8], w') := by
  have hs : SafeRun (Permitted .w64 exMine) .w64 exPanics (World.init exM) (exOps.take 7 ++ (exOps.drop 7).take 5) := halves_safe
  obtain ⟨w, e, -, -⟩ := C91_refines_partial (safe_append hs).1
  have hw : ∀ k, w.hs k = (match run .w64 exPanics (World.init exM) (exOps.take 7) with | .ret (_, w) => w.hs k | _ => none) := fun k => by rw [e]
  have hm : readBytes w.mem 4104 8 = (match run .w64 exPanics (World.init exM) (exOps.take 7) with | .ret (_, w) => readBytes w.mem 4104 8 | _ => []) := by rw [e]
  have h2 : w.hs 2 = some (.boxed ⟨4104, 8, u64T⟩) := by rw [hw]; decide +kernel
  refine ⟨_, w, e, C91_value_kept_partial hs e (k := 2) (v := [1, 2, 3, 4, 5, 6, 7, 8]) (.inl ⟨_, h2, trivial⟩) ?_ ?_⟩
  · simp only [exec, h2, boxDeref, u64T, hm]
    rw [show (match run .w64 exPanics (World.init exM) (exOps.take 7) with | .ret (_, w) => readBytes w.mem 4104 8 | _ => []) = [1, 2, 3, 4, 5, 6, 7, 8] by decide +kernel]; rfl
  · intro op hop
    have : op = .deref 0 ∨ op = .replace 0 [2] ∨ op = .view 1 9 .asMemory ∨ op = .view 1 3 (.splitCast u32T) ∨ op = .new 3 [9, 9, 9, 9] := by simpa [exOps] using hop
    rcases this with rfl | rfl | rfl | rfl | rfl <;> simp [NotUsed]

/-- A byte of the memory, before and after it was split and put into boxes. -/
example : ∃ rs w, run .w64 exPanics (World.init exM) (exOps.take 1) = .ret (rs, w) ∧ ∃ rs' w', run .w64 exPanics w ((exOps.drop 1).take 15) = .ret (rs', w') ∧ ∃ k h, w'.hs k = some h ∧ h.region.Has 4119 := by
  have hs : SafeRun (Permitted .w64 exMine) .w64 exPanics (World.init exM) (exOps.take 1 ++ (exOps.drop 1).take 15) := (safe_append (show SafeRun _ _ _ _ ((exOps.take 1 ++ (exOps.drop 1).take 15) ++ exOps.drop 16) from ex_safe)).1
  obtain ⟨w, e, -, -⟩ := C91_refines_partial (safe_append hs).1
  obtain ⟨w', e', -⟩ := sim_run (by have := sim_run (wrel_init exM) (safe_append hs).1; obtain ⟨w1, e1, r⟩ := this; rw [e] at e1; cases e1; exact r) ((safe_append hs).2 _ _ e)
  refine ⟨_, w, e, _, w', e', C91_memory_kept_partial hs e e' ?_ ?_⟩
  · intro op hop
    have : op ∈ [Op.view 0 9 (.cast u8T), .view 0 1 (.splitAtByte 8), .new 0 [1], .view 1 9 (.castSlice u64T), .view 1 2 .splitFirst, .new 2 [1, 2, 3, 4, 5, 6, 7, 8], .deref 0, .replace 0 [2], .view 1 9 .asMemory,
      .view 1 3 (.splitCast u32T), .new 3 [9, 9, 9, 9], .deref 2, .take 2, .view 2 9 (.cast u32T), .new 2 [5, 5, 5, 5]] := hop
    simp only [List.mem_cons, List.not_mem_nil, or_false] at this
    rcases this with rfl | rfl | rfl | rfl | rfl | rfl | rfl | rfl | rfl | rfl | rfl | rfl | rfl | rfl | rfl <;> simp [KeepsMemory]
  · have hw : w.hs 0 = (match run .w64 exPanics (World.init exM) (exOps.take 1) with | .ret (_, w) => w.hs 0 | _ => none) := by rw [e]
    exact ⟨0, .piece (.sized ⟨4096, 32, unit⟩) false, by rw [hw]; decide +kernel, by decide, by decide⟩

example : ∃ rs w, run .w64 exPanics (World.init exM) exOps = .ret (rs, w) ∧ ∀ v, (outputsOf exOps rs).count v + (w.log.map Prod.snd).count v ≤ (inputsOf exOps).count v := by
  obtain ⟨w, e, -, -⟩ := C91_refines_partial ex_safe
  exact ⟨_, w, e, C91_at_most_once_partial ex_safe e⟩

/-- Only boxes, all gone at the end. -/
def tidy : List Op :=
  [.memory 0 4096 32, .view 0 9 (.castSlice u64T), .view 0 1 (.splitAt 1), .view 0 9 .asMemory, .view 0 9 (.cast u64T), .new 0 [1, 1, 1, 1, 1, 1, 1, 1], .view 1 2 .splitLast, .new 2 [9, 9, 9, 9, 9, 9, 9, 9], .replace 0 [3, 3, 3, 3, 3, 3, 3, 3],
   .take 0, .view 0 9 (.cast u32T), .new 0 [9, 9, 9, 9], .drop 2, .drop 0, .release 1]
theorem tidy_safe : SafeRun (Permitted .w64 exMine) .w64 exPanics (World.init exM) tidy := by
  have h : safeB true (World.init exM) tidy = true := by decide +kernel
  exact safeB_sound (fun _ _ => rfl) h
example : ∃ rs w, run .w64 exPanics (World.init exM) tidy = .ret (rs, w) ∧ (outputsOf tidy rs ++ w.log.map Prod.snd).Perm (inputsOf tidy) ∧ w.log = [(u64T, [9, 9, 9, 9, 9, 9, 9, 9]), (u32T, [9, 9, 9, 9])] := by
  obtain ⟨w, e, h, -⟩ := C91_refines_partial tidy_safe
  refine ⟨_, w, e, C91_exactly_once_partial tidy_safe ?_ e fun k v hk => ?_, by rw [h]; decide +kernel⟩
  · intro op hop
    simp only [tidy, List.mem_cons, List.not_mem_nil, or_false] at hop
    rcases hop with rfl | rfl | rfl | rfl | rfl | rfl | rfl | rfl | rfl | rfl | rfl | rfl | rfl | rfl | rfl <;> simp [OnlyBoxes]
  · have hk10 : k < 10 := Nat.lt_of_not_le fun hge => by
      have key : ∀ {ops : List Op} {w : World}, small w → safeB true w ops = true → ∀ rs w', run .w64 exPanics w ops = .ret (rs, w') → small w' := by
        intro ops
        induction ops with
        | nil => intro w hw _ rs w' e; cases e; exact hw
        | cons op ops ih =>
          intro w hw h rs w' e
          simp only [safeB, Bool.and_eq_true] at h
          simp only [run, bind, Outcome.bind] at e
          cases he : exec .w64 exPanics w op with
          | ret x =>
            rw [he] at e
            simp only at e
            cases he2 : run .w64 exPanics x.2 ops with
            | ret y =>
              rw [he2] at e
              cases e
              have h2 := h.2
              rw [he] at h2
              exact ih (small_step hw h.1.1 he) h2 _ _ he2
            | ub => rw [he2] at e; cases e
            | panic => rw [he2] at e; cases e
          | ub => rw [he] at e; cases e
          | panic => rw [he] at e; cases e
      rw [key (w := World.init exM) (fun _ _ => rfl) (by decide +kernel) _ _ e k hge] at hk
      cases hk
    have hw : ∀ k, w.hs k = (match run .w64 exPanics (World.init exM) tidy with | .ret (_, w) => w.hs k | _ => none) := fun k => by rw [e]
    have : (List.range 10).all (fun k => match (match run .w64 exPanics (World.init exM) tidy with | .ret (_, w) => w.hs k | _ => none) with | some (.boxed _) => false | _ => true) = true := by decide +kernel
    have := List.all_eq_true.mp this k (List.mem_range.mpr hk10)
    rw [← hw k, hk] at this
    cases this

example : values exBad = some ([[2, 2, 2, 2, 2, 2, 2, 2]], [(u64T, [2, 2, 2, 2, 2, 2, 2, 2]), (u64T, [2, 2, 2, 2, 2, 2, 2, 2])]) := C91_violated.2.1

end Verif.BoxMem
