import Verif.Props.ConcGlobal
import Verif.Props.ConcBoxes
/-!
# Concrete cases for C70, C71, C74 and C88

The race of a `realloc` and an `alloc_zeroed` of two threads, and the program with the boxes of `ExC88`.
-/
namespace Verif.CasesConc
open Verif

section
open Bump.Conc
/-- The race after `k` events. -/
def mid (k : Nat) : State 2 := run exC (exec exC exS (.invoke 0 exGrow)) (exRace.take k)
theorem mid_reachable (k : Nat) : Reachable exC (mid k) := by
  refine ⟨0, fun _ => 1, exSetup ++ .invoke 0 exGrow :: exRace.take k, by decide, ?_, ?_⟩
  · intro ev hev
    rcases List.mem_append.mp hev with h | h
    · exact exSetup_valid ev h
    · rcases List.mem_cons.mp h with rfl | h
      · exact show 0 < 4 by decide
      · exact exRace_valid ev (List.mem_of_mem_take h)
  · simp only [mid, exS, run, List.foldl_append, List.foldl_cons]
example : ∃ p, Res.ptr 4102 = .ptr p := C70_no_panic exC_valid (mid_reachable 20) (t := 0) (op := exGrow) (by decide +kernel)

def more : List (Event 2) := [.invoke 1 (.allocZeroed ⟨2, 1⟩), .step 1, .step 1, .step 1, .step 1, .step 1, .step 1, .step 1, .step 1, .step 1, .step 1]
theorem more_valid : ∀ ev ∈ more, Event.Valid .w64 ev := by
  intro ev hev
  rcases List.mem_cons.mp hev with rfl | h
  · exact ⟨⟨⟨0, rfl⟩, by decide⟩, by decide⟩
  · simp only [List.mem_cons, List.not_mem_nil, or_false, or_self] at h
    subst h; trivial
theorem more_live : ∀ k ≤ 11, (⟨4100, ⟨2, 2⟩⟩ : Block) ∈ (run exC exS (more.take k)).live := by decide +kernel
example : readBytes (run exC exS more).bump.mem 4100 2 = readBytes exS.bump.mem 4100 2 :=
  C71_contents_stable exC_valid exS_reachable (b := ⟨4100, ⟨2, 2⟩⟩) more_valid
    (fun pre post h => by
      have e : pre = more.take pre.length := by rw [h]; simp
      have : pre.length ≤ 11 := by have := congrArg List.length h; simp [more] at this; omega
      rw [e]; exact more_live _ this)
    (fun off bs h => by simp [more] at h)
/-- Thread 1 is about to write its first zero. -/
example : writesByte (mid 16) 1 4106 := C74_writes (e := exC) (mid 16) 1 (by decide +kernel)
example : (exec exC { mid 16 with bump := { (mid 16).bump with mem := fun x => if x = 5000 then 3 else (mid 16).bump.mem x } } (.step 0)).bump.mem 4103 = 9 := by decide +kernel
example := C74_reads (e := exC) (mid 16) 0 (m := fun x => if x = 5000 then 3 else (mid 16).bump.mem x)
  (fun x hx => by
    have h : (mid 16).pc 0 = .copy ⟨4100, ⟨2, 2⟩⟩ 4 4102 1 := by decide +kernel
    simp only [readsByte, h] at hx
    exact if_neg (by omega)) rfl
end

section
open ConcBoxes ConcBoxes.ExC88
theorem fin_eq : ∃ w, run e panics (World.init 0 m) evs = .ret (obs, w) := by
  obtain ⟨os, w, h1, -, -⟩ := C88_refines e_valid (by decide) safe
  have hr := result
  rw [h1] at hr
  simp only [Option.some.injEq, Prod.mk.injEq] at hr
  exact ⟨w, by rw [h1, hr.1]⟩

/-- After 14 events both threads have a variable. -/
theorem safe14 : SafeRun e panics (World.init 0 m) (evs.take 14) := safeB_sound (by decide +kernel)
def held (t : Fin 2) : Option (Option Unsync.BumpBoxes.Handle) := match run e panics (World.init 0 m) (evs.take 14) with | .ret (_, w) => (w.vars t)[0]? | _ => none
theorem held0 : held 0 = some (some ⟨4100, ⟨u8L, true⟩, .boxed⟩) := by decide +kernel
theorem held1 : held 1 = some (some ⟨4104, ⟨u64L, true⟩, .bare⟩) := by decide +kernel
example : Region.Disjoint ⟨4100, 1⟩ ⟨4104, 8⟩ ∧ 8 ∣ 4104 := by
  obtain ⟨os, w, h, -, -⟩ := C88_refines e_valid (by decide) safe14
  have h0 := held0
  have h1 := held1
  simp only [held, h] at h0 h1
  have hn := C88_no_data_race e_valid (by decide) safe14 h
  exact ⟨hn.2 0 1 0 0 _ _ (by decide) h0 h1, (hn.1 1 0 _ h1).1⟩

/-- The value which thread 1 stored is what it reads after the steps of thread 0. -/
example (a : Ans) (w : World 2) (h : run e panics (World.init 0 m) evs = .ret (obs.take 2 ++ .used 1 (.replace 0 revBig) (.val big) :: [.returned 0 (.leakBox u8L [7]) true (.ptr 4100), .used 0 (.deref 0) (.val [7])] ++
    .used 1 (.deref 0) a :: obs.drop 6, w)) : a = .val revBig :=
  C88_value_kept e_valid (by decide) safe h (.inl ⟨_, .inr (.inr (.inl rfl))⟩) (by
    intro x hx
    simp only [List.mem_cons, List.not_mem_nil, or_false] at hx
    rcases hx with rfl | rfl <;> exact ⟨by simp, by simp, by simp⟩)
/-- And it is the run there is. -/
example : ∃ w, run e panics (World.init 0 m) evs = .ret (obs.take 2 ++ .used 1 (.replace 0 revBig) (.val big) :: [.returned 0 (.leakBox u8L [7]) true (.ptr 4100), .used 0 (.deref 0) (.val [7])] ++
    .used 1 (.deref 0) (.val revBig) :: obs.drop 6, w) := fin_eq

theorem all_drop : AllDrop obs := by
  intro t call nd r h
  simp only [obs, List.mem_cons, List.not_mem_nil, or_false] at h
  simp at h
  rcases h with h | h | h | h | h | h <;> exact h.2.2.1
example : ∃ w, run e panics (World.init 0 m) evs = .ret (obs, w) ∧ (outputsOf obs).count big + (w.log.map Prod.snd).count big ≤ (inputsOf obs).count big :=
  let ⟨w, h⟩ := fin_eq; ⟨w, h, C88_at_most_once e_valid (by decide) safe h all_drop big⟩

/-- A call with a level beyond the storage panics, and the destructor of the value panics as well: the process is aborted, and the reset after that is not executed. -/
def fatalEvs : List (Event 2) := [.call 0 (.leakAt u8L [9] 1000) true, .call 1 (.leak u8L [1]) false, .step 0, .step 0, .step 0, .step 0, .reset]
def fatalObs : List (Obs 2) := [.returned 0 (.leakAt u8L [9] 1000) true .panicked]
theorem fatal_result : (match run e panics (World.init 0 m) fatalEvs with | .ret (os, w) => some (os, w.aborted) | _ => none) = some (fatalObs, true) := by decide +kernel
theorem fatal_run : ∃ w, run e panics (World.init 0 m) fatalEvs = .ret (fatalObs, w) ∧ w.aborted = true := by
  have h := fatal_result
  split at h
  · rename_i os w hr
    simp only [Option.some.injEq, Prod.mk.injEq] at h
    exact ⟨w, by rw [hr, h.1], h.2⟩
  · cases h
example : ∃ o ∈ fatalObs, Fatal panics o :=
  let ⟨_, h, ha⟩ := fatal_run; (C88_observed h).2.2.mp ha
/-- In the program of `ExC88` nothing is lost. -/
example : obs.filterMap Obs.event = evs.filterMap Event.direct ∧ (obs.filterMap (Obs.callOf 1)).Sublist (evs.filterMap (Event.callOf 1)) :=
  let ⟨w, h⟩ := fin_eq
  ⟨(C88_observed h).1 (by
    cases ha : w.aborted with
    | false => rfl
    | true =>
      obtain ⟨o, ho, t, call, v, rfl, -⟩ := (C88_observed h).2.2.mp ha
      simp [obs] at ho), (C88_observed h).2.1 1⟩
example : (obs.filterMap (Obs.callOf 1)).length = 3 := by decide +kernel
end
end Verif.CasesConc
