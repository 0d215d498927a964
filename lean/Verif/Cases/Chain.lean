import Verif.Props.Chain
import Verif.Props.ChainMem
/-!
# Concrete cases for C30–C32, C78 and C84

Two chains with a value in the first are joined, another value is allocated, everything is dropped; and the same kind of program on bytes.
-/
namespace Verif.CasesChain
open Verif Unsync

section
open ChainExample

/-- C30, C31, C32. -/
example := C30_operations_safe r5 (op := .bumpBox 0 ⟨4, 4⟩) ⟨by decide, ⟨⟨2, rfl⟩, by decide⟩, by decide⟩
example : s5.heap.freed = [] ∧ s5.serials = 2 ∧ ∀ k, k < s5.serials → ∃ a rec, s5.heap.link a = some rec ∧ rec.serial = k :=
  ⟨rfl, rfl, fun k hk => (((C30_freed_once r5).2.1 k).mp hk).resolve_left nofun⟩
theorem s6_none (c : Nat) : s6.roots c = none := by
  by_cases h0 : c = 0
  · subst h0; rfl
  by_cases h1 : c = 1
  · subst h1; rfl
  have : s6.roots c = if c = 0 then none else if c = 1 then none else if c = 1 then some none else if c = 0 then some (some ⟨8192, 8⟩) else if c = 0 then some none else if c = 1 then some (some ⟨8192, 8⟩) else if c = 0 then some (some ⟨4096, 16⟩) else none := rfl
  rw [this]
  simp [h0, h1]
example : s6.heap.freed.Perm (List.range 2) ∧ ∀ a, s6.heap.link a = none := C30_no_leak r6 s6_none
example : s6.roots 0 = none ∧ ∀ p, s5.LinkOf 0 p → s6.heap.link p.addr = none :=
  let h := C30_drop_frees r5 (c := 0) (by decide) (r := .unit) (s' := s6) rfl; ⟨h.1, h.2.1⟩
example : Region.Disjoint (Block.region ⟨8216, ⟨4, 4⟩⟩) (Block.region ⟨4120, ⟨8, 8⟩⟩) := by
  have := (C31_blocks_disjoint r5).1
  rw [show s5.granted = [(0, ⟨8216, ⟨4, 4⟩⟩), (0, ⟨4120, ⟨8, 8⟩⟩)] from rfl] at this
  simpa using this
/-- The bytes at 4120 stay when the chain grows by another link. -/
example : ∀ x, Region.Has ⟨4120, 8⟩ x → s5.mem x = s4.mem x :=
  (C31_blocks_kept r4 (op := .bumpBox 0 ⟨4, 4⟩) ⟨by decide, ⟨⟨2, rfl⟩, by decide⟩, by decide⟩ (r := .ptr 8216) (s' := s5) rfl (c := 0) (b := ⟨4120, ⟨8, 8⟩⟩) (by decide) nofun).2 nofun
example : s4.roots 0 = some (some ⟨8192, 8⟩) ∧ s4.roots 1 = none ∧ s4.LinkOf 0 ⟨4096, 16⟩ :=
  let h := C31_chain_joins r3 (c := 0) (d := 1) (by decide) (by decide) (root := ⟨8192, 8⟩) rfl (r := .unit) (s' := s4) rfl
  ⟨h.1, h.2.1, (h.2.2.2.1 _).mpr (.inr (.front rfl))⟩
example := C31_bump_box_in_front r4 (c := 0) (T := ⟨4, 4⟩) ⟨⟨⟨2, rfl⟩, by decide⟩, by decide⟩ (root := ⟨8192, 8⟩) rfl (by decide)
example : ∃ n, chainRemaining .w64 s5 0 = .ret n ∧ n + 4 = 8 :=
  let ⟨_, n, h1, h2, _⟩ := (C32_front_only r5 (c := 0)).2 ⟨8192, 8⟩ rfl; ⟨n, h1, h2⟩
example := C32_decreases r4 (c := 0) (T := ⟨4, 4⟩) ⟨⟨⟨2, rfl⟩, by decide⟩, by decide⟩ (p := 8216) (s' := s5) rfl
/-- C78. -/
example := C78_new r5 (c := 1) (size := 16) (heap := none) ⟨rfl, by decide, nofun⟩ (r := .errNew ⟨40, .exhausted⟩) (s' := s5) rfl
end

/-! C84 -/
section
open ExC84 ChainMem
theorem sexec_other {t : Target} {σ : Chains} {op : BOp} {h : Nat} (hn : ∀ o, op = .call o → match o with | .new c _ _ | .bumpBox c _ | .drop c => h ≠ c | .chain c d => h ≠ c ∧ h ≠ d | _ => True) : (sexec t σ op).2 h = σ h := by
  cases op with
  | elsewhere a b => rfl
  | call o =>
    have hn := hn o rfl
    cases o with
    | write => rfl
    | capacity => rfl
    | remaining => rfl
    | drop c => simp [sexec, Chains.set, show h ≠ c from hn]
    | chain c d => simp [sexec, Chains.set, show h ≠ c from hn.1, show h ≠ d from hn.2]
    | new c size heap =>
      simp only [sexec]
      split <;> simp [Chains.set, show h ≠ c from hn]
    | bumpBox c T =>
      simp only [sexec]
      repeat' split
      all_goals simp [Chains.set, show h ≠ c from hn]
theorem safe_left {c : Cfg} {xs ys : List BOp} : ∀ {s : BState}, SafeRun c s (xs ++ ys) → SafeRun c s xs := by
  induction xs with
  | nil => exact fun _ => trivial
  | cons op ops ih => exact fun h => ⟨h.1, fun r s' e => ih (h.2 r s' e)⟩
theorem safe_right {c : Cfg} {xs ys : List BOp} : ∀ {s b : BState} {rs : List CRet}, SafeRun c s (xs ++ ys) → brun c s xs = .ret (rs, b) → SafeRun c b ys := by
  induction xs with
  | nil => intro s b rs h e; cases e; exact h
  | cons op ops ih =>
    intro s b rs h e
    simp only [brun] at e
    cases hx : bexec c s op with
    | ub => rw [hx] at e; cases e
    | panic => rw [hx] at e; cases e
    | ret x =>
      obtain ⟨r, s'⟩ := x
      rw [hx] at e
      change (brun c s' ops >>= _) = _ at e
      cases hy : brun c s' ops with
      | ub => rw [hy] at e; cases e
      | panic => rw [hy] at e; cases e
      | ret y =>
        obtain ⟨rs', b'⟩ := y
        rw [hy] at e
        cases e
        exact ih (h.2 r s' hx) hy

def run_ (ops : List BOp) : BState := match brun cfg s0 ops with | .ret (_, b) => b | _ => s0
theorem run_eq {ops : List BOp} (h : SafeRun cfg s0 ops) : ∃ rs, brun cfg s0 ops = .ret (rs, run_ ops) ∧ Shows cfg (run_ ops) (srun cfg.t (fun _ => none) ops).2 := by
  obtain ⟨b, e, hs⟩ := C84_refines cfg _ ops h
  have : run_ ops = b := by unfold run_; unfold s0; rw [e]
  rw [this]
  exact ⟨_, e, hs⟩
example := C84_refines cfg _ ops safe
example : (run_ ops).heap.freed = [2, 1, 0] ∧ (run_ ops).heap.freed.Nodup := ⟨by decide +kernel, let ⟨_, h, _⟩ := run_eq safe; (C84_freed_once safe h).1⟩
theorem none_left (h : Nat) : (run_ ops).roots h = none := by
  obtain ⟨_, _, hs⟩ := run_eq safe
  rw [hs.exist]
  by_cases h0 : h = 0
  · subst h0; decide +kernel
  by_cases h1 : h = 1
  · subst h1; decide +kernel
  by_cases h2 : h = 2
  · subst h2; decide +kernel
  simp only [ops, srun]
  repeat rw [sexec_other (by intro o ho; cases ho <;> simp [h0, h1, h2])]
example : (run_ ops).heap.freed.Perm (List.range 3) ∧ ∀ a, (run_ ops).heap.block a = none := by
  obtain ⟨_, h, _⟩ := run_eq safe
  have := C84_no_leak safe h none_left
  rwa [show (run_ ops).serials = 3 by decide +kernel] at this

/-- In the middle: the link with the value of all ones is behind another that has a value. -/
abbrev first : List BOp := ops.take 9
theorem first_safe : SafeRun cfg s0 first := safe_left (ys := ops.drop 9) safe
example : Region.Disjoint (Block.region ⟨8216, ⟨4, 4⟩⟩) (Block.region ⟨4120, ⟨16, 8⟩⟩) := by
  obtain ⟨_, h, _⟩ := run_eq first_safe
  have := (C84_blocks first_safe h).1
  rw [show (run_ first).granted = [(0, ⟨8216, ⟨4, 4⟩⟩), (0, ⟨4120, ⟨16, 8⟩⟩)] by decide +kernel] at this
  simpa using this
/-- The next operation writes ones to the value at 8216; that at 4120 is kept. -/
example : ∃ r b', bexec cfg (run_ first) (.call (.write 0 ⟨8216, ⟨4, 4⟩⟩ 1 (ones 3))) = .ret (r, b') ∧ ∀ x, Region.Has ⟨4120, 16⟩ x → b'.heap.mem x = (run_ first).heap.mem x := by
  obtain ⟨_, h, _⟩ := run_eq first_safe
  have hs : SafeRun cfg (run_ first) (ops.drop 9) := safe_right safe h
  refine ⟨.unit, _, rfl, (C84_values_kept first_safe h hs.1 (r := .unit) rfl (h := 0) (blk := ⟨4120, ⟨16, 8⟩⟩) (by decide +kernel) (by intro o ho; cases ho; exact nofun)).2 ?_⟩
  intro h' off bytes e
  cases e
end
end Verif.CasesChain
