import Verif.Props.BumpSafety
import Verif.Props.BumpConcurrency
import Verif.Props.BumpOrder
import Verif.Props.Zeroed
/-!
# Concrete cases for C01–C16, C20, C79, C87

Each theorem that has no example beside it is applied here to a concrete program, so that all its hypotheses are met; the conclusion is stated with the concrete values.
-/
namespace Verif.CasesBump
open Verif Bump

/-- The layouts used below. -/
def layouts : List Layout := [u8L, u64L, ⟨0, 16⟩, ⟨64, 1⟩, ⟨16, 1⟩]
theorem layouts_valid : ∀ l ∈ layouts, l.ValidType .w64 := by
  simp only [layouts, List.mem_cons, List.not_mem_nil, or_false]
  rintro l (rfl | rfl | rfl | rfl | rfl)
  · exact u8L_valid
  · exact u64L_valid
  · exact ⟨⟨⟨4, rfl⟩, by decide⟩, by decide⟩
  · exact ⟨⟨⟨0, rfl⟩, by decide⟩, by decide⟩
  · exact ⟨⟨⟨0, rfl⟩, by decide⟩, by decide⟩

/-- The call is for one of these layouts, and stores a value of this size. -/
def okCall (c : Call) : Bool :=
  (match c.layout with | none => true | some l => decide (l ∈ layouts)) && match c.layout, c.value with | some l, some v => decide (v.length = l.size) | _, _ => true
def okEvent {n : Nat} : Event n → Bool
  | .invoke _ c => okCall c
  | _ => true

theorem okCall_valid {c : Call} (h : okCall c = true) : c.Valid .w64 := by
  simp only [okCall, Bool.and_eq_true] at h
  refine ⟨fun l hl => ?_, fun l v hl hv => ?_⟩
  · have h := h.1; rw [hl] at h; simp only [decide_eq_true_eq] at h
    have := layouts_valid l h
    split <;> [exact this; exact this.1]
  · have h := h.2; rw [hl, hv] at h; simpa using h
theorem valid {n : Nat} {evs : List (Event n)} (h : evs.all okEvent = true) : ∀ ev ∈ evs, Event.Valid .w64 ev := by
  intro ev hev
  have := List.all_eq_true.mp h ev hev
  cases ev with
  | invoke t c => exact okCall_valid this
  | _ => trivial

/-- The state after some events, from a slab with level `c` and memory of bytes 0xAA. -/
abbrev st (n c : Nat) (evs : List (Event n)) : State n := run exEnv (init n c fun _ => 0xAA) evs
theorem reach {n c : Nat} {evs : List (Event n)} (hc : c ≤ 64) (h : evs.all okEvent = true) : Reachable exEnv (st n c evs) := ⟨c, _, evs, hc, valid h, rfl⟩

/-- Two threads: thread 0 allocates 1 byte, thread 1 then stores a `u64` at its address, 0 tries to get 64 bytes. -/
def prog : List (Event 2) :=
  [.invoke 0 (.allocAt u8L 0), .step 0, .invoke 1 (.leakAt u64L [1,2,3,4,5,6,7,8] 1), .step 0, .step 0, .step 1, .step 1, .step 1, .step 1,
   .invoke 0 (.alloc ⟨64, 1⟩), .step 0, .step 0, .step 0, .step 0, .invoke 1 (.getLayout ⟨0, 16⟩), .step 1, .step 1,
   .invoke 0 (.leakAt u8L [9] 3), .step 0, .step 0, .step 0, .invoke 1 (.getAt u8L 65), .step 1, .step 1, .invoke 0 (.getAt ⟨0, 16⟩ 12), .step 0, .step 0]

/-- C03: the zero-sized layout and the level 65 of a slab of 64 bytes panicked. -/
example : Ev.resp 1 (.getLayout ⟨0, 16⟩) .panicked ∈ (st 2 0 prog).hist ∧ Ev.resp 1 (.getAt u8L 65) .panicked ∈ (st 2 0 prog).hist := by decide
example : Ret.panicked = .panicked ↔ ∃ l, (Call.getAt u8L 65).layout = some l ∧ (((Call.getAt u8L 65).typed = false ∧ l.size = 0) ∨ (0 < l.size ∧ ∃ L, (Call.getAt u8L 65).atLevel = some L ∧ exEnv.len < L)) :=
  C03_panics_iff exEnv_valid (reach (n := 2) (c := 0) (evs := prog) (by decide) (by decide)) (t := 1) (by decide)

/-- C04: the levels disclosed by this run. -/
example : (st 2 0 prog).consumed = 12 ∧ Ev.resp 0 (.leakAt u8L [9] 3) (.leakErr [9] (.mismatch 12)) ∈ (st 2 0 prog).hist := by decide
example : (st 2 0 prog).consumed ≤ 64 ∧ ∀ t call r a, Ev.resp t call r ∈ (st 2 0 prog).hist → disclosed r = some a → a ≤ 64 :=
  C04_level_bounded exEnv_valid (reach (by decide) (by decide))
example : (st 2 0 (prog.take 3)).consumed ≤ (run exEnv (st 2 0 (prog.take 3)) (prog.drop 3)).consumed :=
  C04_level_monotone exEnv_valid (reach (by decide) (by decide)) (valid (by decide)) (new := (st 2 0 prog).hist.take ((st 2 0 prog).hist.length - 2)) (by decide) (by decide)
example : (st 2 0 (prog.take 3)).consumed = 0 ∧ (run exEnv (st 2 0 (prog.take 3)) (prog.drop 3)).consumed = 12 := by decide

/-- C05: the `compare_exchange` of the allocation at level 1 (the address 4104 is the first multiple of 8 behind 4101). -/
example : (st 2 0 (prog.take 6)).consumed = 1 ∧ IsFirstAligned 8 4101 4104 ∧ (step exEnv (st 2 0 (prog.take 6)) 1).consumed = 12 ∧
    (∀ a, Ret.allocation ⟨4104, 12⟩ = .allocation a → a.level = (step exEnv (st 2 0 (prog.take 6)) 1).consumed) :=
  C05_at_success_exact exEnv_valid (reach (by decide) (by decide)) (t := 1) (call := .leakAt u64L [1,2,3,4,5,6,7,8] 1) (r := .allocation ⟨4104, 12⟩) (by decide) rfl rfl (by decide) rfl
/-- C05: the mismatch of `leak_at(.., Level(3))`. -/
example : 12 = (st 2 0 (prog.take 19)).consumed ∧ (Call.leakAt u8L [9] 3).atLevel ≠ some 12 ∧
    (step exEnv (st 2 0 (prog.take 19)) 0).consumed = (st 2 0 (prog.take 19)).consumed ∧ (step exEnv (st 2 0 (prog.take 19)) 0).mem = (st 2 0 (prog.take 19)).mem :=
  C05_at_mismatch_truthful exEnv_valid (reach (by decide) (by decide)) (t := 0) (r := .leakErr [9] (.mismatch 12)) (by decide) rfl
/-- C05: the whole call of thread 1. -/
example : IsFirstAligned 8 4101 4104 ∧ (∀ a, Ret.allocation ⟨4104, 12⟩ = .allocation a → a.level = 12) ∧
    ∃ pre post, prog = pre ++ .step 1 :: post ∧ (st 2 0 pre).consumed = 1 ∧ (st 2 0 (pre ++ [.step 1])).consumed = 12 :=
  C05_success_instant exEnv_valid (reach (evs := []) (by decide) (by decide)) (t := 1) rfl (valid (by decide)) (evs := prog) (new := (st 2 0 prog).hist) (by rw [show (st 2 0 []).hist = [] from rfl, List.append_nil]; rfl)
    (call := .leakAt u64L [1,2,3,4,5,6,7,8] 1) (r := .allocation ⟨4104, 12⟩) (by decide) rfl rfl (by decide) rfl

/-- C06: the request of 64 bytes of thread 0, `None`; it does not fit at level 12. -/
example : ¬ exEnv.slab.Fits ⟨64, 1⟩ (st 2 0 prog).consumed :=
  C06_exhaustion_truthful exEnv_valid (reach (evs := []) (by decide) (by decide)) (t := 0) rfl (valid (by decide)) (evs := prog) (new := (st 2 0 prog).hist) (by rw [show (st 2 0 []).hist = [] from rfl, List.append_nil]; rfl)
    (by decide) (call := .alloc ⟨64, 1⟩) (r := .none) (by decide) trivial rfl (by simp [Call.atLevel])

/-- C07: `alloc` of 16 bytes by thread 0 at level 12. -/
example := C07_fits_succeeds exEnv_valid (reach (n := 2) (c := 0) (evs := prog) (by decide) (by decide)) (t := 0) (by decide)
  (call := .alloc ⟨16, 1⟩) (okCall_valid (by decide)) rfl (by decide) rfl (k := 200) (by decide)
example : Ev.resp 0 (.alloc ⟨16, 1⟩) (.ptr 4112) ∈ (run exEnv (st 2 0 prog) (.invoke 0 (.alloc ⟨16, 1⟩) :: List.replicate 200 (.step 0))).hist := by decide +kernel

/-- C13: `get_at::<[u128; 0]>(Level(12))` at level 12 succeeds without a change. -/
example : (step exEnv (st 2 0 (prog.take 25)) 0).consumed = (st 2 0 (prog.take 25)).consumed ∧ (step exEnv (st 2 0 (prog.take 25)) 0).mem = (st 2 0 (prog.take 25)).mem ∧
    ((Call.getAt ⟨0, 16⟩ 12).atLevel = none → ∃ p, (Ret.allocation ⟨16, 12⟩).ptr? = some p) ∧
    (∀ L, (Call.getAt ⟨0, 16⟩ 12).atLevel = some L →
      ((∃ p, (Ret.allocation ⟨16, 12⟩).ptr? = some p) ∧ L = (st 2 0 (prog.take 25)).consumed) ∨ ((Ret.allocation ⟨16, 12⟩).mismatch? = some (st 2 0 (prog.take 25)).consumed ∧ L ≠ (st 2 0 (prog.take 25)).consumed)) :=
  C13_zst exEnv_valid (reach (by decide) (by decide)) (by decide) rfl rfl rfl

/-- C09: thread 0 wants 1 byte but has to retry because 1 always is faster; after two allocations of 1, 0 retried twice. -/
def racing : List (Event 2) :=
  [.step 0, .invoke 1 (.alloc u8L), .step 1, .step 1, .step 1, .step 0, .step 0,
   .invoke 1 (.alloc u8L), .step 1, .step 1, .step 1, .step 1, .step 1, .step 0, .step 0]
theorem no0 : ∀ c r, Ev.resp 0 c r ∉ (st 2 0 (.invoke 0 (.alloc u8L) :: racing)).hist.take 9 := by
  intro c r h
  have : ∀ ev ∈ (st 2 0 (.invoke 0 (.alloc u8L) :: racing)).hist.take 9, (match ev with | .resp 0 _ _ => false | _ => true) = true := by decide
  exact absurd (this _ h) (by simp)
example : retries 0 ((st 2 0 (.invoke 0 (.alloc u8L) :: racing)).hist.take 9) ≤ othersSuccess 0 ((st 2 0 (.invoke 0 (.alloc u8L) :: racing)).hist.take 9) + 1 :=
  C09_retries_bounded exEnv_valid (reach (n := 2) (c := 0) (evs := []) (by decide) (by decide)) rfl (okCall_valid (c := .alloc u8L) (by decide)) (evs := racing) (valid (by decide)) (by decide) (by simp [no0])
example : retries 0 ((st 2 0 (.invoke 0 (.alloc u8L) :: racing)).hist.take 9) = 2 ∧ othersSuccess 0 ((st 2 0 (.invoke 0 (.alloc u8L) :: racing)).hist.take 9) = 2 := by decide

/-- C11: the `u64` of thread 1 keeps its bytes while thread 0 allocates, and writes into its own byte. -/
def more : List (Event 2) := prog.drop 9 ++ [.userWrite ⟨4100, 1⟩ 0 [77]]
example : (⟨4104, 8⟩ : Region) ∈ handedOut (st 2 0 (prog.take 9)).hist ∧ (run exEnv (st 2 0 (prog.take 9)) more).mem 4100 = 77 ∧
    readBytes (run exEnv (st 2 0 (prog.take 9)) more).mem 4104 8 = [1,2,3,4,5,6,7,8] := by decide
example : ∀ x, Region.Has ⟨4104, 8⟩ x → (run exEnv (st 2 0 (prog.take 9)) more).mem x = (st 2 0 (prog.take 9)).mem x :=
  C11_isolation exEnv_valid (reach (by decide) (by decide)) (by decide) (valid (by decide))
    (new := (run exEnv (st 2 0 (prog.take 9)) more).hist.take ((run exEnv (st 2 0 (prog.take 9)) more).hist.length - (st 2 0 (prog.take 9)).hist.length)) (by decide) (by decide) (by decide)

/-- C15: a byte at level 4 and a `u64` at the level returned are at the offsets 0 and 8 of a `repr(C)` struct at 4104. -/
def chained : List (Event 1) := [.invoke 0 (.getAt u8L 4), .step 0, .step 0, .step 0, .invoke 0 (.getAt u64L 5), .step 0, .step 0, .step 0]
theorem chained_chain : LevelChain (st 1 4 chained).hist 4 [(u8L, 4104), (u64L, 4112)] :=
  .cons (t := 0) (call := .getAt u8L 4) (a := ⟨4104, 5⟩) (by decide) rfl rfl (by decide)
    (.cons (t := 0) (call := .getAt u64L 5) (a := ⟨4112, 20⟩) (by decide) rfl rfl (by decide) (.nil _))
example : [4104, 4112] = (reprCOffsets 0 [u8L, u64L]).map (4100 + 4 + ·) :=
  C15_levels_repr_c exEnv_valid (reach (by decide) (by decide)) chained_chain (by decide)

/-- C14: three threads share a slab for two `u64`. -/
def arrEnv : Env := ⟨.w64, 4096, 2 * 8, id⟩
theorem arrEnv_valid : arrEnv.Valid := ⟨by decide, by decide, by decide, fun a ha => ⟨ha.pos, Nat.dvd_refl a⟩⟩
def arr : List (Event 3) :=
  [.invoke 0 (.get u64L), .invoke 1 (.get u64L), .step 0, .step 1, .step 1, .step 1, .step 0, .step 0, .step 0, .step 0,
   .invoke 1 (.alloc u64L), .step 1, .step 1, .step 1, .step 1, .invoke 2 .level, .step 2]
theorem arr_only : ∀ t c, Ev.inv t c ∈ (run arrEnv (init 3 0 fun _ => 0) arr).hist → c.layout = some u64L ∨ c.layout = none := by
  intro t c h
  have : ∀ ev ∈ (run arrEnv (init 3 0 fun _ => 0) arr).hist, (match ev with | .inv _ c => decide (c.layout = some u64L ∨ c.layout = none) | _ => true) = true := by decide
  simpa using this _ h
example : sumResp granted (run arrEnv (init 3 0 fun _ => 0) arr).hist ≤ 2 ∧ (∀ t call r, Ev.resp t call r ∈ (run arrEnv (init 3 0 fun _ => 0) arr).hist → call.layout = some u64L → call.atLevel = none → r.IsExhausted →
      2 ≤ sumResp granted (run arrEnv (init 3 0 fun _ => 0) arr).hist + ((List.finRange 3).filter fun t => (run arrEnv (init 3 0 fun _ => 0) arr).pc t ≠ .idle).length) :=
  C14_array_capacity arrEnv_valid (V := u64L) (by decide) (by decide) rfl (by decide) (s := init 3 0 fun _ => 0) ⟨0, _, [], Nat.zero_le _, by simp, rfl⟩ (by decide) rfl (evs := arr)
    (valid (by decide)) (new := (run arrEnv (init 3 0 fun _ => 0) arr).hist) (by simp [init]) (by decide) arr_only
example : Ev.resp 1 (.alloc u64L) .none ∈ (run arrEnv (init 3 0 fun _ => 0) arr).hist := by decide

/-- C87: the result of `leak_at` above. -/
example : 4104 + 8 = 4100 + 12 :=
  C87_level_is_end exEnv_valid (reach (n := 2) (c := 0) (evs := prog) (by decide) (by decide)) (t := 1) (call := .leakAt u64L [1,2,3,4,5,6,7,8] 1) (a := ⟨4104, 12⟩) (by decide) (l := u64L) rfl (by decide)

/-- C79: `alloc` of 16 bytes at level 12 after the run above: the bytes are those of the start, 0xAA. -/
example : ∀ x, Region.Has ⟨4112, 16⟩ x → (exec exEnv (st 2 0 (prog ++ [.invoke 0 (.alloc ⟨16, 1⟩), .step 0, .step 0, .step 0, .step 0])) (.step 0)).mem x = 0xAA :=
  C79_fresh_memory_untouched exEnv_valid (by decide) (valid (by decide)) (by decide) (call := .alloc ⟨16, 1⟩) (r := .ptr 4112) rfl (by decide) (by decide)
/-- C79, for an unsync bump with 8 bytes of data: after a byte was allocated and written, four bytes. -/
example {s s' : Unsync.UState} (h : zeroedRun [.call (.alloc ⟨1, 1⟩), .write ⟨4104, ⟨1, 1⟩⟩ 0 [7]] = some s) (hx : Unsync.uexec .w64 ⟨4096, 16⟩ s (.call (.alloc ⟨4, 4⟩)) = some (.ptr 4108, s')) :
    s.mem 4104 = 7 ∧ ∀ x, Region.Has ⟨4108, 4⟩ x → s'.mem x = 0 := by
  cases h
  exact ⟨rfl, C79_unsync_fresh_memory_untouched (b := ⟨4096, 16⟩) (t := .w64) ⟨by decide, by decide, by decide, by decide⟩ (.init (by decide))
    (.step (op := .write ⟨4104, ⟨1, 1⟩⟩ 0 [7]) (.step (op := .call (.alloc ⟨1, 1⟩)) (.refl (s := ⟨fun _ => 0, []⟩)) ⟨⟨0, rfl⟩, by decide⟩ (by simp) rfl) ⟨by decide, by decide⟩ (by simp) rfl)
    (c := .alloc ⟨4, 4⟩) ⟨⟨2, rfl⟩, by decide⟩ hx rfl rfl⟩

/-- C16, C20. -/
example := C16_reset_like_fresh (e := exEnv) (s := st 2 0 prog) (by decide)
example : (st 2 0 []).consumed + sumResp gotBytes (st 2 0 prog).hist ≤ (st 2 0 prog).consumed ∧ (st 2 0 prog).consumed ≤ (st 2 0 []).consumed + sumResp gotWorst (st 2 0 prog).hist :=
  C20_consumption exEnv_valid (reach (n := 2) (c := 0) (evs := []) (by decide) (by decide)) (by decide) (evs := prog) (valid (by decide)) (new := (st 2 0 prog).hist) (by rw [show (st 2 0 []).hist = [] from rfl, List.append_nil]; rfl) (by decide) (by decide)
example : sumResp gotBytes (st 2 0 prog).hist = 9 ∧ (st 2 0 prog).consumed = 12 ∧ sumResp gotWorst (st 2 0 prog).hist = 16 := by decide

end Verif.CasesBump
