import Verif.Props.RcCount
import Verif.Props.RcMem
/-!
# Concrete cases for C52–C57 and C81

Each theorem is applied to a state in a concrete history: block 4 contains 7, with strong handles 0 and 1, the weak handle 2 and a forgotten strong handle 3, or a state with fewer handles.
-/
namespace Verif.CasesRc
open Verif RcM Uninit

def init : World Nat := World.init fun _ => ⟨none, 0, 0⟩
/-- The world after a history. -/
def world (ops : List (Op Nat)) : World Nat := match run .w64 true init ops with | .ret (_, w) => w | _ => init
theorem run_world {ops : List (Op Nat)} (h : safeB .w64 true init ops = true) : run .w64 true init ops = .ret ((srun SWorld.init ops).1, world ops) := by
  obtain ⟨w, e, _⟩ := sim_run (checks := true) (wrel_init _) (safeB_sound h)
  rw [world, show run .w64 true init ops = _ from e]
theorem reach {ops : List (Op Nat)} (h : safeB .w64 true init ops = true) : Reach .w64 true (world ops) := ⟨_, ops, _, safeB_sound h, run_world h⟩
def resp (o : Outcome (Resp Nat × World Nat)) : Option (Resp Nat) := match o with | .ret (r, _) => some r | _ => none
theorem shows_ {w : World Nat} (hr : Reach .w64 true w) {h : Nat} {v : Nat} (hu : usableB w.hs .strong h = true) (hv : resp (exec .w64 true w (.deref h)) = some (.val v)) : Shows .w64 true w h v := by
  obtain ⟨v', h1⟩ := C53_accessible hr (usableB_sound hu)
  rw [Shows] at h1
  rw [h1] at hv
  cases hv
  exact h1

def mid : World Nat := world midOps
theorem mid_r : Reach .w64 true mid := reach (by decide +kernel)
theorem mid_hs : mid.hs = [some ⟨.strong, 4, false⟩, some ⟨.strong, 4, false⟩, some ⟨.weak, 4, false⟩, some ⟨.strong, 4, true⟩] := by decide +kernel
theorem mid_shows (h : Nat) (hu : usableB mid.hs .strong h = true) : Shows .w64 true mid h 7 := by
  have : h = 0 ∨ h = 1 := by
    rw [mid_hs] at hu
    match h with
    | 0 => exact .inl rfl
    | 1 => exact .inr rfl
    | 2 => revert hu; decide
    | 3 => revert hu; decide
    | n + 4 => cases hu
  rcases this with rfl | rfl <;> exact shows_ mid_r (by decide +kernel) (by decide +kernel)

/-- One strong handle only; one strong and one weak; only a weak one. -/
def one : World Nat := world [.new 4 7]
theorem one_r : Reach .w64 true one := reach (by decide +kernel)
theorem one_shows : Shows .w64 true one 0 7 := shows_ one_r (by decide +kernel) (by decide +kernel)
def two : World Nat := world [.new 4 7, .downgrade 0]
theorem two_r : Reach .w64 true two := reach (by decide +kernel)
theorem two_shows : Shows .w64 true two 0 7 := shows_ two_r (by decide +kernel) (by decide +kernel)
def weak : World Nat := world [.new 4 7, .downgrade 0, .dropRc 0, .endDrop]
theorem weak_r : Reach .w64 true weak := reach (by decide +kernel)

/-- C52. -/
example : ∃ w', exec .w64 true mid (.clone 1) = .ret (.handle 4, w') ∧ w'.hs = mid.hs ++ [some ⟨.strong, 4, false⟩] :=
  (C52_new_handle mid_r (h := 1) (a := 4)).1 (by decide +kernel) (boundB_sound (by decide +kernel))
example : ∃ w', exec .w64 true mid (.downgrade 0) = .ret (.handle 4, w') ∧ w'.hs = mid.hs ++ [some ⟨.weak, 4, false⟩] :=
  (C52_new_handle mid_r (h := 0) (a := 4)).2.1 (by decide +kernel) (boundB_sound (by decide +kernel))
example : ∃ w', exec .w64 true mid (.cloneWeak 2) = .ret (.handle 4, w') ∧ w'.hs = mid.hs ++ [some ⟨.weak, 4, false⟩] :=
  (C52_new_handle mid_r (h := 2) (a := 4)).2.2 (by decide +kernel) (boundB_sound (by decide +kernel))

/-- C53: with three strong handles dropping one does not drop the value; the last does. -/
example : ∃ v, Shows .w64 true mid 1 v := C53_accessible mid_r (usableB_sound (by decide +kernel))
example : ∃ w', exec .w64 true mid (.dropRc 0) = .ret (.unit, w') ∧ w'.log = [] :=
  let ⟨w', h1, _, _, h4⟩ := C53_drop mid_r (h := 0) (a := 4) (by decide +kernel) (mid_shows 0 (by decide +kernel)); ⟨w', h1, (h4 (by decide +kernel)).1.trans (by decide +kernel)⟩
example : ∃ w', exec .w64 true two (.dropRc 0) = .ret (.unit, w') ∧ w'.log = [7] ∧ w'.running = [4] :=
  let ⟨w', h1, _, h3, _⟩ := C53_drop two_r (h := 0) (a := 4) (by decide +kernel) two_shows
  ⟨w', h1, (h3 (by decide +kernel)).1.trans (by decide +kernel), (h3 (by decide +kernel)).2.trans (by decide +kernel)⟩
example : ∃ w', exec .w64 true mid (.clone 1) = .ret (.handle 4, w') ∧ w'.log = mid.log ∧ Shows .w64 true w' 0 7 :=
  let ⟨w', h1, h2⟩ := (C52_new_handle mid_r (h := 1) (a := 4)).1 (by decide +kernel) (boundB_sound (by decide +kernel))
  ⟨w', h1, C53_no_other_drop mid_r (permB_sound (by decide +kernel)) (boundB_sound (by decide +kernel)) h1 (by intro h; exact nofun),
    C53_stable mid_r (usableB_sound (by decide +kernel)) (mid_shows 0 (by decide +kernel)) (permB_sound (by decide +kernel)) (boundB_sound (by decide +kernel)) h1 ⟨4, by rw [h2, mid_hs]; rfl⟩ (by intro u; exact nofun)⟩
example : ∃ w', exec .w64 true mid (.upgrade 2) = .ret (.handle 4, w') ∧ w'.hs = mid.hs ++ [some ⟨.strong, 4, false⟩] :=
  (C53_upgrade mid_r (h := 2) (a := 4) (by decide +kernel) (boundB_sound (by decide +kernel))).2 (by decide +kernel)
example : exec .w64 true weak (.upgrade 1) = .ret (.none, weak) :=
  (C53_upgrade weak_r (h := 1) (a := 4) (by decide +kernel) (boundB_sound (by decide +kernel))).1 (by decide +kernel)
example : ∃ w', exec .w64 true two (.tryUnwrap 0) = .ret (.unwrapped 7 2, w') ∧ handles w'.hs .strong 4 = 0 :=
  let ⟨w', h1, _, h3⟩ := (C53_try_unwrap two_r (h := 0) (a := 4) (by decide +kernel) two_shows).1 (by decide +kernel); ⟨w', h1, h3⟩
/-- The demo history: 7 and 10 are dropped or returned once, 8 and 9 are returned by `mem::replace`. -/
example (v : Nat) : (outputsOf demoOps (srun SWorld.init demoOps).1).count v + (world demoOps).log.count v ≤ (inputsOf demoOps (srun SWorld.init demoOps).1).count v :=
  C53_at_most_once demo_safe (run_world (by decide +kernel)) v
theorem gone {ops : List (Op Nat)} (hb : (world ops).hs.all Option.isNone = true) (a : Nat) : handles (world ops).hs .strong a = 0 := by
  rw [handles, List.countP_eq_zero]
  intro x hx
  have := List.all_eq_true.mp hb x hx
  cases x with
  | none => simp [isFor]
  | some y => simp at this
def tidy : List (Op Nat) := [.new 4 7, .new 5 8, .clone 0, .dropRc 0, .replace 1 9, .dropRc 2, .endDrop, .tryUnwrap 1, .weakTryUnwrap 3]
theorem tidy_owner (a : Nat) : (world tidy).owner a ≠ .raw := by
  obtain ⟨w, e, r⟩ := sim_run (checks := true) (t := .w64) (wrel_init fun _ => (⟨none, 0, 0⟩ : RcBox Nat)) (safeB_sound (ops := tidy) (by decide +kernel))
  have hw : w = world tidy := by rw [world, show run .w64 true init tidy = _ from e]
  subst hw
  have hc : (srun SWorld.init tidy).2.cells = fun x => if x = 5 then .free else if x = 5 then .dead else if x = 4 then .dead else if x = 5 then .live 9 else if x = 5 then .live 8 else if x = 4 then .live 7 else .free := rfl
  have h := r.cells a
  rw [hc] at h
  intro ho
  rw [ho] at h
  dsimp only at h
  (repeat' split at h) <;> simp [CellRel] at h
example : ([8, 9] ++ [7] : List Nat).Perm [7, 8, 9] := by
  have := C53_exactly_once (safeB_sound (ops := tidy) (by decide +kernel)) (run_world (by decide +kernel)) (gone (by decide +kernel)) tidy_owner
  rwa [show outputsOf tidy (srun SWorld.init tidy).1 ++ (world tidy).log = [8, 9, 7] by decide +kernel, show inputsOf tidy (srun SWorld.init tidy).1 = [7, 8, 9] by decide +kernel] at this

/-- C54: `get_mut` with the only handle, and with others. -/
example : ∃ w', exec .w64 true one (.replace 0 5) = .ret (.val 7, w') ∧ Shows .w64 true w' 0 5 :=
  let ⟨w', h1, _, h3⟩ := (C54_get_mut one_r (h := 0) (a := 4) (by decide +kernel) one_shows 5).1 (by decide +kernel); ⟨w', h1, h3⟩
example : exec .w64 true two (.replace 0 5) = .ret (.err, two) := (C54_get_mut two_r (h := 0) (a := 4) (by decide +kernel) two_shows 5).2 (by decide +kernel)
example : ∀ h' x, one.hs[h']? = some (some x) → x.block = 4 → h' = 0 :=
  let ⟨_, h1, _⟩ := (C54_get_mut one_r (h := 0) (a := 4) (by decide +kernel) one_shows 5).1 (by decide +kernel); C54_exclusive one_r (h := 0) (by decide +kernel) h1

/-- C55: the memory is returned to the last weak handle. -/
example : ∃ w', exec .w64 true weak (.weakTryUnwrap 1) = .ret (.memory 4, w') ∧ w'.owner 4 = .user :=
  let ⟨w', h1, h2, _⟩ := (C55_release_partial weak_r (h := 1) (a := 4) (by decide +kernel)).1 (by decide +kernel); ⟨w', h1, h2⟩
example : exec .w64 true two (.weakTryUnwrap 1) = .ret (.err, two) := (C55_release_partial two_r (h := 1) (a := 4) (by decide +kernel)).2 (by decide +kernel)
example : weak.owner 4 = .rc := C55_not_user weak_r (k := .weak) (a := 4) (by decide +kernel)

/-- C56: into a raw pointer, a modification through it, and back. -/
example : ∃ w1, exec .w64 true one (.intoRaw 0) = .ret (.memory 4, w1) ∧ ∃ w2, exec .w64 true w1 (.fromRaw 4) = .ret (.handle 1, w2) ∧ Shows .w64 true w2 1 7 :=
  let ⟨w1, h1, _⟩ := (C56_into_raw one_r (h := 0) (a := 4) (by decide +kernel)).1 (by decide +kernel)
  let ⟨w2, h2, _, _, h5, _⟩ := C56_round_trip one_r (by decide +kernel) one_shows h1
  ⟨w1, h1, w2, h2, h5⟩
example : exec .w64 true two (.intoRaw 0) = .ret (.err, two) := (C56_into_raw two_r (h := 0) (a := 4) (by decide +kernel)).2 (by decide +kernel)
def rawed : World Nat := world [.new 4 7, .intoRaw 0]
theorem rawed_r : Reach .w64 true rawed := reach (by decide +kernel)
example := C56_raw_modify rawed_r (a := 4) (by decide +kernel) 8
theorem u32_valid : (⟨4, 4⟩ : Layout).ValidType .w64 := ⟨⟨⟨2, rfl⟩, by decide⟩, by decide⟩
theorem rcU32_valid : (rcLayout .w64 ⟨4, 4⟩).ValidType .w64 := ⟨⟨⟨3, by decide⟩, by decide⟩, by decide⟩
example := C56_layout u32_valid (addr := 4096) (by decide)
example : newView .w64 ⟨4, 4⟩ (fromMemory 4100 30) = .panic := (C56_new rcU32_valid (fromMemory 4100 30)).2 (by unfold CanHold; decide)
example := (C56_new rcU32_valid (fromMemory 4096 30)).1 (by unfold CanHold; decide)
example := C56_raw_views (checks := true) u32_valid rcU32_valid (memory := fromMemory 4096 30) (inner := ⟨4096, 30, ⟨24, 8⟩⟩) (by decide)

/-- C57: with overflow checks. -/
def heldB (t : Target) (w : World Nat) : Bool := w.hs.length < t.usizeMax
def heldRunB (t : Target) : World Nat → List (Op Nat) → Bool
  | _, [] => true
  | w, op :: ops => permB w op && heldB t w && match exec t true w op with | .ret (_, w') => heldRunB t w' ops | _ => true
theorem heldRunB_sound {t : Target} {w : World Nat} {ops : List (Op Nat)} (h : heldRunB t w ops = true) : HeldRun t true w ops := by
  induction ops generalizing w with
  | nil => trivial
  | cons op ops ih =>
    simp only [heldRunB, Bool.and_eq_true, heldB, decide_eq_true_eq] at h
    refine ⟨permB_sound h.1.1, fun a => Nat.lt_of_le_of_lt List.countP_le_length h.1.2, fun r w' e => ?_⟩
    have h2 := h.2
    rw [e] at h2
    exact ih h2
example := C57_checked_safe_partial (heldRunB_sound (t := .w64) (w := init) (ops := demoOps) (by decide +kernel))
theorem two_held : HeldReach .w64 true two := ⟨_, _, _, heldRunB_sound (by decide +kernel), run_world (by decide +kernel)⟩
theorem one_held : HeldReach .w64 true one := ⟨_, _, _, heldRunB_sound (by decide +kernel), run_world (by decide +kernel)⟩
example : ∃ w', exec .w64 true two (.dropRc 0) = .ret (.unit, w') ∧ ∀ h' : Nat, ¬ w'.hs[h']? = some (some ⟨.strong, 4, false⟩) :=
  let ⟨w', h1, _, h3, _⟩ := C53_drop two_r (h := 0) (a := 4) (by decide +kernel) two_shows
  ⟨w', h1, (C57_checked_drop_partial two_held (by decide +kernel)).1 h1 (by rw [(h3 (by decide +kernel)).1]; simp)⟩
example : held one.hs 4 = 1 ∧ handles one.hs .weak 4 = 0 :=
  let ⟨_, h1, _⟩ := (C54_get_mut one_r (h := 0) (a := 4) (by decide +kernel) one_shows 5).1 (by decide +kernel)
  (C57_checked_exclusive_partial one_held (h := 0)).1 5 (by decide +kernel) h1 nofun
example := C57_upgrade_panic_miscounts (t := .w16) (w := (⟨fun _ => ⟨some 1, Target.usizeMax .w16, 2⟩, fun _ => .rc, [some ⟨.weak, 0, false⟩], [], []⟩ : World Nat)) (h := 0) (a := 0) rfl rfl
example := C57_violated_wrap .w16 (fun _ => ⟨none, 0, 0⟩) (9 : Nat)

/-- C81: the clone does not change a byte of the other block. -/
theorem ex_r : ∃ w, RcMem.Reach RcMem.exC true w ∧ w.hs = [some ⟨.strong, 1, false⟩, some ⟨.strong, 2, false⟩, some ⟨.strong, 1, false⟩, some ⟨.weak, 1, false⟩] := by
  obtain ⟨w, e, r, _⟩ := RcMem.brun_rel (checks := true) RcMem.exC_ok (w := .initial fun _ => 255) (wrel_init _) RcMem.ex_safe
  exact ⟨w, ⟨_, _, _, RcMem.ex_safe, e⟩, r.hs.trans (by decide +kernel)⟩
example : ∃ w r w', RcMem.bexec RcMem.exC true w (.call (.clone 0)) = .ret (r, w') ∧ w'.m (1024 + 48) = w.m (1024 + 48) := by
  obtain ⟨w, hr, hh⟩ := ex_r
  have ha : RcMem.Allowed RcMem.exC w (.call (.clone 0)) := ⟨trivial, ⟨1, by rw [RcMem.BWorld.abs, hh]; rfl⟩, fun a _ => Nat.lt_of_le_of_lt List.countP_le_length (by rw [RcMem.BWorld.abs, hh]; dsimp only; decide)⟩
  obtain ⟨_, rel⟩ := RcMem.breach_rel RcMem.exC_ok hr
  obtain ⟨w', e, _⟩ := RcMem.bstep (checks := true) RcMem.exC_ok rel ha
  refine ⟨w, _, w', e, C81_own_block RcMem.exC_ok hr ha e fun a ht => ?_⟩
  have : a = 1 := by
    rw [RcMem.target, hh] at ht
    exact (Option.some.inj ht).symm
  subst this
  decide
end Verif.CasesRc
