import Verif.Proofs.RcChecked
import Verif.Props.Rc
/-! # Property C57: overflow of reference counts; examples for C52–C57 -/
namespace Verif
open RcM Uninit

/-- **C57** (partial) With overflow checks: in any history, however many handles are cloned and forgotten, no call is undefined behaviour and no value leaves (dropped or moved out) more often than it was moved in. -/
theorem C57_checked_safe_partial {V : Type} [DecidableEq V] {t : Target} {mem : Nat → RcBox V} {ops : List (Op V)} (hs : HeldRun t true (World.init mem) ops) :
    ∃ rs w, run t true (World.init mem) ops = .ret (rs, w) ∧ ∀ v, (outputsOf ops rs).count v + w.log.count v ≤ (inputsOf ops rs).count v := by
  obtain ⟨N, hN⟩ := bound_exists ops
  obtain ⟨rs, w, e, _, d, hd, hc⟩ := run_checked (N := N) (hinv_init mem) (fun _ _ => rfl) hN hs
  refine ⟨rs, w, e, fun v => ?_⟩
  have h0 : storedW N (World.init mem) = [] := by
    simp only [storedW, List.flatMap_eq_nil_iff]
    intro a _
    rfl
  have := hc v
  rw [h0] at this
  rw [hd]
  simp only [World.init, List.nil_append, List.count_nil] at *
  omega

/-- **C57** (partial) With overflow checks: the destructor is only run when no usable strong handle is left, and `try_unwrap` gives the value only then. -/
theorem C57_checked_drop_partial {V : Type} [DecidableEq V] {t : Target} {w w' : World V} (hr : HeldReach t true w) {h a : Nat} (hx : w.hs[h]? = some (some ⟨.strong, a, false⟩)) {x : Resp V} :
    (exec t true w (.dropRc h) = .ret (x, w') → w'.log ≠ w.log → ∀ h' : Nat, ¬ w'.hs[h']? = some (some ⟨.strong, a, false⟩)) ∧
    (exec t true w (.tryUnwrap h) = .ret (x, w') → x ≠ .err → ∀ h' : Nat, ¬ w'.hs[h']? = some (some ⟨.strong, a, false⟩)) := by
  have hi := heldReach_inv hr
  obtain ⟨ho, hs0, hsW, hwW, ⟨v, hv⟩, hwk, hle, hpos⟩ := hlive hi hx
  have hk1 := held_kill hx a
  simp only [and_self, if_true] at hk1
  have hge : 1 ≤ (w.mem a).strong := hs0
  have hgw : 1 ≤ (w.mem a).weak := by omega
  constructor
  · intro e hne h' hx'
    have h0 := held_pos hx'
    by_cases h1 : (w.mem a).strong - 1 = 0
    · have hhs : w'.hs = w.hs.set h none := by
        simp [exec, usable_block hx, World.dropRc, RcBox.dropRc, World.kill, RcBox.decStrong, RcBox.decWeak, minusOne, hge, hgw, h1, bind, Outcome.bind, pure, World.beginDrop, World.setMem, hv] at e
        rw [← e.2]
      rw [hhs] at h0
      omega
    · simp [exec, usable_block hx, World.dropRc, RcBox.dropRc, World.kill, RcBox.decStrong, minusOne, hge, h1, bind, Outcome.bind, pure, World.setMem] at e
      exact hne (by rw [← e.2])
  · intro e hne h' hx'
    have h0 := held_pos hx'
    by_cases h1 : (w.mem a).strong = 1
    · have hhs : w'.hs = w.hs.set h none ++ [some ⟨.weak, a, false⟩] := by
        simp [exec, usable_block hx, RcBox.decStrong, minusOne, h1, hv, bind, Outcome.bind, pure] at e
        rw [← e.2]
        rfl
      rw [hhs, held_add] at h0
      simp at h0
      omega
    · simp [exec, usable_block hx, h1] at e
      exact hne e.1.symm

/-- **C57** (partial) With overflow checks: `get_mut` and `into_raw` succeed only if no other usable strong handle and no `Weak` exist, and `Weak::try_unwrap` only if there is no other usable handle. -/
theorem C57_checked_exclusive_partial {V : Type} [DecidableEq V] {t : Target} {w w' : World V} (hr : HeldReach t true w) {h a : Nat} {x : Resp V} :
    (∀ v, w.hs[h]? = some (some ⟨.strong, a, false⟩) → exec t true w (.replace h v) = .ret (x, w') → x ≠ .err → held w.hs a = 1 ∧ handles w.hs .weak a = 0) ∧
    (w.hs[h]? = some (some ⟨.strong, a, false⟩) → exec t true w (.intoRaw h) = .ret (x, w') → x ≠ .err → held w.hs a = 1 ∧ handles w.hs .weak a = 0) ∧
    (w.hs[h]? = some (some ⟨.weak, a, false⟩) → exec t true w (.weakTryUnwrap h) = .ret (x, w') → x ≠ .err → held w.hs a = 0 ∧ handles w.hs .weak a = 1) := by
  have hi := heldReach_inv hr
  refine ⟨fun v hx e hne => ?_, fun hx e hne => ?_, fun hx e hne => ?_⟩
  · obtain ⟨ho, hs0, hsW, hwW, ⟨v, hv⟩, hwk, hle, hpos⟩ := hlive hi hx
    by_cases hu : (w.mem a).isUnique = true
    · simp only [RcBox.isUnique, Bool.and_eq_true, decide_eq_true_eq] at hu
      omega
    · simp [exec, usable_block hx, hu] at e
      exact absurd e.1.symm hne
  · obtain ⟨ho, hs0, hsW, hwW, ⟨v, hv⟩, hwk, hle, hpos⟩ := hlive hi hx
    by_cases hu : (w.mem a).isUnique = true
    · simp only [RcBox.isUnique, Bool.and_eq_true, decide_eq_true_eq] at hu
      omega
    · simp [exec, usable_block hx, hu] at e
      exact absurd e.1.symm hne
  · obtain ⟨ho, hsW, hwW, hpos, hcc⟩ := hweak hi hx
    by_cases hu : (w.mem a).isUniqueToRcMemory = true
    · simp only [RcBox.isUniqueToRcMemory, Bool.and_eq_true, decide_eq_true_eq] at hu
      omega
    · simp [exec, usable_block hx, hu] at e
      exact absurd e.1.symm hne

/-- **C57** With overflow checks, an `upgrade` that panics because of the full count decrements it, although no handle was dropped. -/
theorem C57_upgrade_panic_miscounts {V : Type} {t : Target} {w : World V} {h a : Nat} (hx : w.hs[h]? = some (some ⟨.weak, a, false⟩)) (hfull : (w.mem a).strong = t.usizeMax) :
    ∃ w', exec t true w (.upgrade h) = .ret (.panic, w') ∧ w'.hs = w.hs ∧ (w'.mem a).strong = t.usizeMax - 1 := by
  have hW := two_le_W t
  have h0 : t.usizeMax ≠ 0 := by simp only [Target.usizeMax]; omega
  have h1 : ¬ t.usizeMax + 1 < t.W := by simp only [Target.usizeMax]; omega
  have h2 : 1 ≤ t.usizeMax := by omega
  have h3 : t.usizeMax - 1 ≠ 0 := by simp only [Target.usizeMax]; omega
  refine ⟨w.setMem a { w.mem a with strong := t.usizeMax - 1 }, ?_, rfl, by simp [World.setMem]⟩
  simp [exec, usable_block hx, hfull, h0, World.upgradeSome, RcBox.incStrong, plusOne, h1, bind, Outcome.bind, World.dropRc, RcBox.dropRc, RcBox.decStrong, minusOne, h2, pure, h3]

/-! ### Without overflow checks -/
namespace RcM
variable {V : Type}

/-- Clone and forget `k` times, then drop the first handle. -/
def attack (V : Type) (n : Nat) : Nat → List (Op V)
  | 0 => [.dropRc 0]
  | k + 1 => .clone 0 :: .forget (2 + n) :: attack V (n + 1) k

/-- After `n` clones were forgotten; handles 0 and 1 are not. -/
def attacked (t : Target) (mem : Nat → RcBox V) (v : V) (n : Nat) : World V :=
  { mem := fun x => if x = 0 then ⟨some v, (2 + n) % t.W, 1⟩ else mem x
    owner := fun x => if x = 0 then .rc else .user
    hs := [some ⟨.strong, 0, false⟩, some ⟨.strong, 0, false⟩] ++ List.replicate n (some ⟨.strong, 0, true⟩)
    log := []
    running := [] }

theorem attack_run (t : Target) (mem : Nat → RcBox V) (v : V) (n k : Nat) (hk : (2 + n + k) % t.W = 1) :
    UserRun t false (attacked t mem v n) (attack V n k) ∧ ∃ rs w', run t false (attacked t mem v n) (attack V n k) = .ret (rs, w') ∧ w'.log = [v] ∧ w'.running = [0] ∧ w'.hs[1]? = some (some ⟨.strong, 0, false⟩) := by
  induction k generalizing n with
  | zero =>
    simp only [Nat.add_zero] at hk
    have e : exec t false (attacked t mem v n) (.dropRc 0) = .ret (.unit, { attacked t mem v n with mem := fun x => if x = 0 then ⟨some v, 0, 0⟩ else mem x, hs := none :: some ⟨.strong, 0, false⟩ :: List.replicate n (some ⟨.strong, 0, true⟩), log := [v], running := [0] }) := by
      simp only [exec, World.block?, attacked, List.cons_append, List.nil_append, List.getElem?_cons_zero, if_true, World.dropRc, World.kill, List.set_cons_zero, hk, RcBox.dropRc, RcBox.decStrong, RcBox.decWeak, minusOne, Nat.le_refl, Nat.sub_self, bind, Outcome.bind, pure, World.beginDrop,
        World.setMem]
      congr 3
      funext x
      by_cases hx : x = 0 <;> simp [hx]
    refine ⟨⟨⟨0, rfl⟩, fun _ _ _ => trivial⟩, [.unit], _, by simp only [attack, run, e, bind, Outcome.bind, pure]; rfl, rfl, rfl, rfl⟩
  | succ k ih =>
    have hlt := Nat.mod_lt (2 + n) (show 0 < t.W by have := two_le_W t; omega)
    have hinc : plusOne t false ((2 + n) % t.W) = .ret ((2 + (n + 1)) % t.W) := by
      simp only [plusOne, Bool.false_eq_true, if_false]
      have : (2 + (n + 1)) % t.W = ((2 + n) % t.W + 1) % t.W := by rw [Nat.mod_add_mod]; congr 1
      rw [this]
      split
      · rename_i h; rw [Nat.mod_eq_of_lt h]
      · rfl
    have hlen : (attacked t mem v n).hs.length = 2 + n := by simp [attacked]; omega
    have e1 : exec t false (attacked t mem v n) (.clone 0) = .ret (.handle (2 + n), { attacked t mem v (n + 1) with hs := (attacked t mem v n).hs ++ [some ⟨.strong, 0, false⟩] }) := by
      have hb : (attacked t mem v n).block? .strong 0 = some 0 := rfl
      have hm : (attacked t mem v n).mem 0 = ⟨some v, (2 + n) % t.W, 1⟩ := rfl
      simp only [exec, hb, RcBox.incStrong, hm, hinc, bind, Outcome.bind, pure, hlen, World.add, World.setMem]
      congr 3
      simp only [attacked]
      funext x
      by_cases hx : x = 0 <;> simp [hx]
    have hget : ((attacked t mem v n).hs ++ [some (⟨.strong, 0, false⟩ : Handle)])[2 + n]? = some (some ⟨.strong, 0, false⟩) := by
      rw [← hlen, List.getElem?_concat_length]
    have hset : ((attacked t mem v n).hs ++ [some (⟨.strong, 0, false⟩ : Handle)]).set (2 + n) (some ⟨.strong, 0, true⟩) = (attacked t mem v (n + 1)).hs := by
      rw [← hlen, List.set_append_right _ _ (Nat.le_refl _)]
      simp only [Nat.sub_self, List.set_cons_zero, attacked, List.replicate_succ', List.append_assoc]
    have e2 : exec t false { attacked t mem v (n + 1) with hs := (attacked t mem v n).hs ++ [some ⟨.strong, 0, false⟩] } (.forget (2 + n)) = .ret (.unit, attacked t mem v (n + 1)) := by
      simp only [exec, hget, hset]
    obtain ⟨hu, rs, w', hr, h1, h2, h3⟩ := ih (n + 1) (by rw [← hk]; congr 1; omega)
    refine ⟨⟨⟨0, rfl⟩, fun r w1 he1 => ?_⟩, .handle (2 + n) :: .unit :: rs, w', ?_, h1, h2, h3⟩
    · rw [e1] at he1
      cases he1
      refine ⟨.inl ⟨0, hget⟩, fun r w2 he2 => ?_⟩
      rw [e2] at he2
      cases he2
      exact hu
    · simp only [attack, run, e1, e2, hr, bind, Outcome.bind, pure]

end RcM

/-- **C57** is violated without overflow checks: after cloning and forgetting often enough (with a usable second handle kept) the count wraps, so that dropping the first handle runs the destructor of the value while the second handle can still be used. -/
theorem C57_violated_wrap {V : Type} (t : Target) (mem : Nat → RcBox V) (v : V) :
    ∃ ops rs w, UserRun t false (World.init mem) ops ∧ run t false (World.init mem) ops = .ret (rs, w) ∧ w.log = [v] ∧ Usable w.hs .strong 1 := by
  have hW := two_le_W t
  obtain ⟨hu, rs, w', hr, h1, _, h3⟩ := attack_run t mem v 0 (t.W - 1) (by
    rw [show 2 + 0 + (t.W - 1) = 1 + t.W by omega, Nat.add_mod_right, Nat.mod_eq_of_lt (by omega)])
  have e1 : exec t false (World.init mem) (.new 0 v) = .ret (.handle 0, ((((World.init mem).setMem 0 (.init v)).setOwner 0 .rc).add .strong 0)) := rfl
  have e2 : exec t false ((((World.init mem).setMem 0 (.init v)).setOwner 0 .rc).add .strong 0) (.clone 0) = .ret (.handle 1, attacked t mem v 0) := by
    have hinc : plusOne t false 1 = .ret 2 := by simp [plusOne, hW]
    have hb : (((((World.init mem).setMem 0 (.init v)).setOwner 0 .rc).add .strong 0)).block? .strong 0 = some 0 := rfl
    have hm : (((((World.init mem).setMem 0 (.init v)).setOwner 0 .rc).add .strong 0)).mem 0 = ⟨some v, 1, 1⟩ := rfl
    simp only [exec, hb, hm, RcBox.incStrong, hinc, bind, Outcome.bind, pure]
    congr 2
    simp only [World.add, World.setMem, World.setOwner, World.init, attacked, RcBox.init, Nat.add_zero, Nat.mod_eq_of_lt hW]
    congr 1
    funext x
    by_cases hx : x = 0 <;> simp [hx]
  refine ⟨.new 0 v :: .clone 0 :: attack V 0 (t.W - 1), .handle 0 :: .handle 1 :: rs, w', ⟨rfl, fun r w1 he => ?_⟩, ?_, h1, ⟨0, h3⟩⟩
  · rw [e1] at he
    cases he
    refine ⟨⟨0, rfl⟩, fun r w2 he => ?_⟩
    rw [e2] at he
    cases he
    exact hu
  · simp only [run, e1, e2, hr, bind, Outcome.bind, pure]

/-! ## Examples -/
namespace RcM
variable {V : Type} {t : Target} {checks : Bool}

def usableB (hs : List (Option Handle)) (k : HKind) (h : Nat) : Bool :=
  match hs[h]? with
  | some (some ⟨k', _, false⟩) => k' = k
  | _ => false
theorem usableB_sound {hs : List (Option Handle)} {k : HKind} {h : Nat} (e : usableB hs k h = true) : Usable hs k h := by
  unfold usableB at e
  split at e
  · rename_i k' a hx
    rw [decide_eq_true_eq] at e
    subst e
    exact ⟨a, hx⟩
  · cases e

def permB (w : World V) : Op V → Bool
  | .new a _ | .scribble a _ => w.owner a = .user
  | .clone h | .downgrade h | .dropRc h | .tryUnwrap h | .intoRaw h | .replace h _ | .deref h => usableB w.hs .strong h
  | .upgrade h | .cloneWeak h | .dropWeak h | .weakTryUnwrap h => usableB w.hs .weak h
  | .strongCount h | .weakCount h | .forget h => usableB w.hs .strong h || usableB w.hs .weak h
  | .ptrEq h h' => usableB w.hs .strong h && usableB w.hs .strong h'
  | .fromRaw a | .rawReplace a _ | .rawTake a => w.owner a = .raw
  | .endDrop => !w.running.isEmpty

theorem permB_sound {w : World V} {op : Op V} (h : permB w op = true) : Permitted w op := by
  cases op <;> simp only [permB, Permitted, decide_eq_true_eq, Bool.or_eq_true, Bool.and_eq_true, Bool.not_eq_true', List.isEmpty_eq_false_iff] at * <;>
    first
    | exact h
    | exact usableB_sound h
    | exact h.imp usableB_sound usableB_sound
    | exact ⟨usableB_sound h.1, usableB_sound h.2⟩

def boundB (t : Target) (w : World V) : Op V → Bool
  | .clone h | .upgrade h => match blockOf w.hs h with | some a => handles w.hs .strong a < t.usizeMax | none => true
  | .downgrade h | .cloneWeak h => match blockOf w.hs h with | some a => handles w.hs .weak a + 1 < t.usizeMax | none => true
  | _ => true

theorem boundB_sound {w : World V} {op : Op V} (h : boundB t w op = true) : NoOverflow t w op := by
  cases op with
  | clone g => intro a ha; simpa [boundB, ha] using h
  | upgrade g => intro a ha; simpa [boundB, ha] using h
  | downgrade g => intro a ha; simpa [boundB, ha] using h
  | cloneWeak g => intro a ha; simpa [boundB, ha] using h
  | _ => trivial

def safeB (t : Target) (checks : Bool) : World V → List (Op V) → Bool
  | _, [] => true
  | w, op :: ops => permB w op && boundB t w op && match exec t checks w op with | .ret (_, w') => safeB t checks w' ops | _ => true

theorem safeB_sound {w : World V} {ops : List (Op V)} (h : safeB t checks w ops = true) : SafeRun t checks w ops := by
  induction ops generalizing w with
  | nil => trivial
  | cons op ops ih =>
    simp only [safeB, Bool.and_eq_true] at h
    refine ⟨permB_sound h.1.1, boundB_sound h.1.2, fun r w' e => ?_⟩
    have h2 := h.2
    rw [e] at h2
    exact ih h2

/-- Two values in the same block; the second is moved out. -/
def demoOps : List (Op Nat) :=
  [.scribble 0 ⟨some 3, 77, 5⟩, .new 0 7, .clone 0, .downgrade 0, .strongCount 2, .weakCount 1, .ptrEq 0 1, .dropRc 0, .upgrade 2, .tryUnwrap 3, .dropRc 1, .deref 3, .replace 3 9, .intoRaw 3,
   .dropRc 3, .upgrade 2, .endDrop, .cloneWeak 2, .weakTryUnwrap 2, .dropWeak 4, .weakTryUnwrap 2, .new 0 8, .replace 5 9, .intoRaw 5, .rawReplace 0 10, .fromRaw 0, .tryUnwrap 6, .weakCount 7, .weakTryUnwrap 7]

theorem demo_safe : SafeRun .w64 true (World.init fun _ => ⟨none, 0, 0⟩) demoOps := safeB_sound (by decide +kernel)
theorem demo_answers : (srun SWorld.init demoOps).1 =
    [.unit, .handle 0, .handle 1, .handle 2, .num 2, .num 2, .bool true, .unit, .handle 3, .err, .unit, .val 7, .err, .err,
     .unit, .none, .unit, .handle 4, .err, .unit, .memory 0, .handle 5, .val 8, .memory 0, .val 9, .handle 6, .unwrapped 10 7, .num 1, .memory 0] := by decide +kernel
/-- What the model answers, computed by the theorem. -/
example : ∃ w, run .w64 true (World.init fun _ => ⟨none, 0, 0⟩) demoOps = .ret (
    [.unit, .handle 0, .handle 1, .handle 2, .num 2, .num 2, .bool true, .unit, .handle 3, .err, .unit, .val 7, .err, .err,
     .unit, .none, .unit, .handle 4, .err, .unit, .memory 0, .handle 5, .val 8, .memory 0, .val 9, .handle 6, .unwrapped 10 7, .num 1, .memory 0], w) := by
  obtain ⟨w, e⟩ := C52_refines demo_safe
  rw [demo_answers] at e
  exact ⟨w, e⟩

/-- A reachable state with three strong handles, one of them forgotten, and a weak handle. -/
def midOps : List (Op Nat) := [.new 4 7, .clone 0, .downgrade 0, .clone 1, .forget 3]
theorem mid_reach : ∃ w, Reach .w64 true w ∧ w.hs = [some ⟨.strong, 4, false⟩, some ⟨.strong, 4, false⟩, some ⟨.weak, 4, false⟩, some ⟨.strong, 4, true⟩] ∧ Shows .w64 true w 1 7 := by
  have hs : SafeRun .w64 true (World.init fun _ => (⟨none, 0, 0⟩ : RcBox Nat)) midOps := safeB_sound (by decide +kernel)
  obtain ⟨w, e, r⟩ := sim_run (wrel_init _) hs
  have hh : w.hs = [some ⟨.strong, 4, false⟩, some ⟨.strong, 4, false⟩, some ⟨.weak, 4, false⟩, some ⟨.strong, 4, true⟩] := by rw [r.hs]; decide +kernel
  have hx : w.hs[1]? = some (some ⟨.strong, 4, false⟩) := by rw [hh]; rfl
  refine ⟨w, ⟨_, _, _, hs, e⟩, hh, ?_⟩
  obtain ⟨v, hc, _, hm, _⟩ := live_of r hx
  have : (srun SWorld.init midOps).2.cells 4 = .live 7 := rfl
  rw [this] at hc
  cases hc
  exact (shows_val hx).mpr (by rw [hm])

/-- The forgotten handle is counted: dropping the others does not drop the value. -/
example : ∃ w : World Nat, Reach .w64 true w ∧ exec .w64 true w (.strongCount 2) = .ret (.num 3, w) ∧ exec .w64 true w (.weakCount 2) = .ret (.num 2, w) ∧ exec .w64 true w (.tryUnwrap 0) = .ret (.err, w) := by
  obtain ⟨w, hr, hh, hv⟩ := mid_reach
  have hx2 : w.hs[2]? = some (some ⟨.weak, 4, false⟩) := by rw [hh]; rfl
  have hx0 : w.hs[0]? = some (some ⟨.strong, 4, false⟩) := by rw [hh]; rfl
  have hx1 : w.hs[1]? = some (some ⟨.strong, 4, false⟩) := by rw [hh]; rfl
  have h3 : handles w.hs .strong 4 = 3 := by rw [hh]; decide
  have h1 : handles w.hs .weak 4 = 1 := by rw [hh]; decide
  refine ⟨w, hr, ?_, ?_, (C53_try_unwrap hr hx0 (C53_shared hx1 hx0 hv)).2 (by omega)⟩
  · rw [C52_strong_count hr hx2, h3]
  · rw [C52_weak_count hr hx2, h3, h1]; rfl

/-- A state with one strong and one weak handle, as for `C55_violated`. -/
theorem reentrant_reach : ∃ w : World Nat, Reach .w64 true w ∧ w.hs = [some ⟨.strong, 0, false⟩, some ⟨.weak, 0, false⟩] := by
  have hs : SafeRun .w64 true (World.init fun _ => (⟨none, 0, 0⟩ : RcBox Nat)) [.new 0 7, .downgrade 0] := safeB_sound (by decide +kernel)
  obtain ⟨w, e, r⟩ := sim_run (wrel_init _) hs
  exact ⟨w, ⟨_, _, _, hs, e⟩, by rw [r.hs]; decide +kernel⟩

/-- The history of the violation, computed: memory 0 is returned before the destructor of the value in it ends. -/
example : ∃ w : World Nat, (run .w64 true (World.init fun _ => (⟨none, 0, 0⟩ : RcBox Nat)) [.new 0 7, .downgrade 0, .dropRc 0, .weakTryUnwrap 1]) = .ret ([.handle 0, .handle 1, .unit, .memory 0], w) ∧ w.running = [0] := by
  refine ⟨_, rfl, ?_⟩
  decide +kernel
example : ∃ (w w1 w2 : World Nat), exec .w64 true w (.dropRc 0) = .ret (.unit, w1) ∧ exec .w64 true w1 (.weakTryUnwrap 1) = .ret (.memory 0, w2) ∧ 0 ∈ w2.running := by
  obtain ⟨w, hr, hh⟩ := reentrant_reach
  obtain ⟨w1, w2, e1, _, e2, h, _⟩ := C55_violated hr (h := 0) (g := 1) (a := 0) (by rw [hh]; rfl) (by rw [hh]; rfl) (by rw [hh]; decide) (by rw [hh]; decide)
  exact ⟨w, w1, w2, e1, e2, by rw [h]; simp⟩

/-- `Rc<u32>` on 64-bit: 24 bytes, the counters at 8 and 16. -/
example : rcLayout .w64 ⟨4, 4⟩ = ⟨24, 8⟩ ∧ rcFieldRegions .w64 ⟨4, 4⟩ 4096 = [⟨4096, 4⟩, ⟨4104, 8⟩, ⟨4112, 8⟩] := by decide
example : (rcLayout .w64 ⟨4, 4⟩).ValidType .w64 := ⟨⟨⟨3, by decide⟩, by decide⟩, by decide⟩
example : newView .w64 ⟨4, 4⟩ (fromMemory 4096 30) = .ret ⟨4096, 30, ⟨24, 8⟩⟩ := by decide
example : newView .w64 ⟨4, 4⟩ (fromMemory 4100 30) = .panic := by decide
/-- An over-aligned value. -/
example : rcLayout .w64 ⟨32, 32⟩ = ⟨64, 32⟩ := by decide

/-- A history for the theorems with overflow checks. -/
example : HeldRun .w16 true (World.init fun _ => (⟨none, 0, 0⟩ : RcBox Nat)) [.new 0 7, .clone 0, .forget 1, .dropRc 0] := by
  have hlen : ∀ (hs : List (Option Handle)) a, hs.length < Target.usizeMax .w16 → held hs a < Target.usizeMax .w16 := fun hs a h => Nat.lt_of_le_of_lt List.countP_le_length h
  refine ⟨rfl, fun a => hlen _ a (by decide), fun r w e => ?_⟩
  cases e
  refine ⟨⟨0, rfl⟩, fun a => hlen _ a (by decide), fun r w e => ?_⟩
  obtain ⟨_, rfl⟩ := Prod.mk.inj (Outcome.ret.inj e)
  refine ⟨.inl ⟨0, rfl⟩, fun a => hlen _ a (by decide), fun r w e => ?_⟩
  obtain ⟨_, rfl⟩ := Prod.mk.inj (Outcome.ret.inj e)
  exact ⟨⟨0, rfl⟩, fun a => hlen _ a (by decide), fun _ _ _ => trivial⟩
/-- A full count, for `C57_upgrade_panic_miscounts`. -/
example : ∃ w : World Nat, w.hs[0]? = some (some ⟨.weak, 0, false⟩) ∧ (w.mem 0).strong = Target.usizeMax .w16 :=
  ⟨⟨fun _ => ⟨some 1, Target.usizeMax .w16, 2⟩, fun _ => .rc, [some ⟨.weak, 0, false⟩], [], []⟩, rfl, rfl⟩
end RcM
end Verif
