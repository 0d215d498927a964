import Verif.Props.FixedVecOps
import Verif.Props.FixedVecMem
import Verif.Props.FixedVecBytes
/-!
# Concrete cases for C44–C50, C75, C77, C82

Each theorem is applied to a concrete history or to a state in it: the vector 0 in 34 bytes at 4096 (capacity 8) contains `[1, 13, 14, 6]`; the destructor of 13 panics.
-/
namespace Verif.CasesFixedVec
open Verif FVec Uninit

/-- The world after a history. -/
def world (ops : List (Op Nat)) : World Nat := match run .w64 ⟨4, 4⟩ true demoPanics (World.init fun _ => none) ops with | .ret (_, w) => w | _ => World.init fun _ => none
def resp (o : Outcome (Resp Nat × World Nat)) : Option (Resp Nat) := match o with | .ret (r, _) => some r | _ => none
abbrev z : (⟨4, 4⟩ : Layout).size = 0 → Subsingleton Nat := by simp
theorem safe {ops : List (Op Nat)} (h : safeB .w64 ⟨4, 4⟩ true demoPanics (World.init fun _ => none) ops = true) : SafeRun .w64 ⟨4, 4⟩ true demoPanics (World.init fun _ => none) ops :=
  safeB_sound u32_valid z (wrel_init _) h
theorem run_world {ops : List (Op Nat)} (h : safeB .w64 ⟨4, 4⟩ true demoPanics (World.init fun _ => none) ops = true) :
    ∃ rs, run .w64 ⟨4, 4⟩ true demoPanics (World.init fun _ => none) ops = .ret (rs, world ops) := by
  obtain ⟨w, e, _⟩ := sim_run (checks := true) u32_valid z (wrel_init _) (safe h)
  exact ⟨_, by rw [world, e]⟩
theorem reach {ops : List (Op Nat)} (h : safeB .w64 ⟨4, 4⟩ true demoPanics (World.init fun _ => none) ops = true) : Reach .w64 ⟨4, 4⟩ true demoPanics (world ops) := by
  obtain ⟨rs, e⟩ := run_world h
  exact ⟨_, ops, rs, safe h, e⟩
theorem perm {w : World Nat} (h : Reach .w64 ⟨4, 4⟩ true demoPanics w) {op : Op Nat} (hp : permB .w64 ⟨4, 4⟩ w op = true) : Permitted .w64 ⟨4, 4⟩ w op := by
  obtain ⟨sw, r⟩ := reach_rel u32_valid z h
  exact permB_sound r hp
theorem shows_ {w : World Nat} (h : Reach .w64 ⟨4, 4⟩ true demoPanics w) {i : Nat} {xs : List Nat} (hp : permB .w64 ⟨4, 4⟩ w (.slice i) = true)
    (hx : resp (exec .w64 ⟨4, 4⟩ true demoPanics w (.slice i)) = some (.vals xs)) : Shows .w64 ⟨4, 4⟩ true demoPanics w i xs := by
  obtain ⟨xs', c, h1, _⟩ := C44_readable u32_valid z h (perm h hp)
  rw [Shows] at h1
  rw [h1] at hx
  cases hx
  exact h1
theorem cap_ {w : World Nat} (h : Reach .w64 ⟨4, 4⟩ true demoPanics w) {i : Nat} {c : Nat} (hp : permB .w64 ⟨4, 4⟩ w (.slice i) = true)
    (hx : resp (exec .w64 ⟨4, 4⟩ true demoPanics w (.capacity i)) = some (.num c)) : ShowsCap .w64 ⟨4, 4⟩ true demoPanics w i c := by
  obtain ⟨xs', c', _, _, h1, _⟩ := C44_readable u32_valid z h (perm h hp)
  rw [ShowsCap] at h1
  rw [h1] at hx
  cases hx
  exact h1

/-- In the middle of the demo history. -/
def w₁ : World Nat := world (demoOps.take 14)
theorem w₁_reach : Reach .w64 ⟨4, 4⟩ true demoPanics w₁ := reach (by decide +kernel)
theorem w₁_shows : Shows .w64 ⟨4, 4⟩ true demoPanics w₁ 0 [1, 13, 14, 6] := shows_ w₁_reach (by decide +kernel) (by decide +kernel)
theorem w₁_cap : ShowsCap .w64 ⟨4, 4⟩ true demoPanics w₁ 0 8 := cap_ w₁_reach (by decide +kernel) (by decide +kernel)

/-- C44. -/
example := C44_refines_list u32_valid z (fun _ => none) demo_safe
example := C44_readable u32_valid z w₁_reach (i := 0) (perm w₁_reach (by decide +kernel))
example := C44_push u32_valid z w₁_reach (i := 0) (v := 3) (perm w₁_reach (by decide +kernel)) w₁_shows w₁_cap
example : ∃ w', exec .w64 ⟨4, 4⟩ true demoPanics w₁ (.pop 0) = .ret (.opt (some 6), w') ∧ Shows .w64 ⟨4, 4⟩ true demoPanics w' 0 [1, 13, 14] ∧ OthersKept .w64 ⟨4, 4⟩ true demoPanics w₁ w' 0 :=
  C44_pop u32_valid z w₁_reach (perm w₁_reach (by decide +kernel)) w₁_shows
/-- Two values are written and one of them is in the vector after `set_len(5)`; `set_len(2)` forgets two elements. -/
example : ∃ w', exec .w64 ⟨4, 4⟩ true demoPanics w₁ (.setLen 0 [20, 21] 5) = .ret (.unit, w') ∧ Shows .w64 ⟨4, 4⟩ true demoPanics w' 0 [1, 13, 14, 6, 20] :=
  let ⟨w', h1, h2, _⟩ := C44_set_len u32_valid z w₁_reach (i := 0) (vs := [20, 21]) (n := 5) (perm w₁_reach (by decide +kernel)) w₁_shows w₁_cap
  ⟨w', h1, h2⟩
example : ∃ w', exec .w64 ⟨4, 4⟩ true demoPanics w₁ (.setLen 0 [] 2) = .ret (.unit, w') ∧ Shows .w64 ⟨4, 4⟩ true demoPanics w' 0 [1, 13] ∧ w'.heap.log = w₁.heap.log :=
  let ⟨w', h1, h2, _, _, h3, _⟩ := C44_set_len u32_valid z w₁_reach (i := 0) (vs := []) (n := 2) (perm w₁_reach (by decide +kernel)) w₁_shows w₁_cap
  ⟨w', h1, h2, h3⟩
/-- It is not permitted to go beyond the capacity (8), or beyond what has been written. -/
example : permB .w64 ⟨4, 4⟩ w₁ (.setLen 0 [20, 21, 22, 23, 24] 5) = false := by decide +kernel
example : permB .w64 ⟨4, 4⟩ w₁ (.setLen 0 [20] 6) = false := by decide +kernel
example : ∃ r w', exec .w64 ⟨4, 4⟩ true demoPanics w₁ (.index 0 2) = .ret (r, w') ∧ r = .val 14 ∧ Shows .w64 ⟨4, 4⟩ true demoPanics w' 0 [1, 13, 14, 6] :=
  C44_index u32_valid z w₁_reach (perm w₁_reach (by decide +kernel)) w₁_shows

/-- C45: a history in which no destructor panics (and nothing is forgotten), at the end of which no vector is left. -/
def tidy : List (Op Nat) := [.new 4096 34, .push 0 1, .push 0 2, .push 0 3, .drain 0 (.included 1) .unbounded, .next 0, .dropDrain 0, .pop 0, .push 0 4, .drop 0]
theorem tidy_safe {panics : Nat → Bool} (h : safeB .w64 ⟨4, 4⟩ true panics (World.init fun _ => none) tidy = true) : SafeRun .w64 ⟨4, 4⟩ true panics (World.init fun _ => none) tidy := safeB_sound u32_valid z (wrel_init _) h
def tidyWorld : World Nat := match run .w64 ⟨4, 4⟩ true (fun _ => false) (World.init fun _ => none) tidy with | .ret (_, w) => w | _ => World.init fun _ => none
def tidyResps : List (Resp Nat) := [.num 0, .pushed (.ok ()), .pushed (.ok ()), .pushed (.ok ()), .unit, .opt (some 2), .unit, .opt (some 1), .pushed (.ok ()), .unit]
theorem tidy_run : run .w64 ⟨4, 4⟩ true (fun _ => false) (World.init fun _ => none) tidy = .ret (tidyResps, tidyWorld) := by
  obtain ⟨w, e, _⟩ := sim_run (checks := true) (panics := fun _ => false) u32_valid z (wrel_init _) (tidy_safe (by decide +kernel))
  rw [tidyWorld, e, show (srun .w64 ⟨4, 4⟩ (fun _ => false) SWorld.init tidy).1 = tidyResps by decide +kernel]
theorem tidy_gone : ∀ i, tidyWorld.ents i = none := by
  obtain ⟨w, e, r⟩ := sim_run (checks := true) (panics := fun _ => false) u32_valid z (wrel_init _) (tidy_safe (by decide +kernel))
  have : w = tidyWorld := by rw [tidyWorld, e]
  subst this
  intro i
  cases h : tidyWorld.ents i with
  | none => rfl
  | some e =>
    have h1 := (r.bound _ _ h).1
    have : tidyWorld.next = 1 := by decide +kernel
    have h2 : tidyWorld.ents 0 = none := by decide +kernel
    rw [show i = 0 by omega, h2] at h
    cases h
example : ([1, 2, 3, 4] : List Nat).Perm ([2, 1] ++ [3, 4]) := by
  have := C45_exactly_once u32_valid z (fun _ => none) (fun _ => rfl) (ops := tidy) (by simp [tidy, Op.NoForget]) (tidy_safe (by decide +kernel)) tidy_run tidy_gone
  rwa [show inputsOf tidy tidyResps = [1, 2, 3, 4] by decide +kernel, show outputsOf tidy tidyResps = [2, 1] by decide +kernel, show tidyWorld.heap.log = [3, 4] by decide +kernel] at this
example := C45_no_double u32_valid z (fun _ => none) (ops := tidy) (tidy_safe (by decide +kernel)) tidy_run (by decide +kernel)

/-- C46: `truncate(1)` and `clear` and dropping the vector, with the panicking destructor of 13. -/
example : ∀ v, ∃ rs w', run .w64 ⟨4, 4⟩ true demoPanics (World.init fun _ => none) demoOps = .ret (rs, w') ∧ (outputsOf demoOps rs).count v + w'.heap.log.count v ≤ (inputsOf demoOps rs).count v := fun v =>
  let ⟨rs, e⟩ := run_world (ops := demoOps) (by decide +kernel); ⟨rs, _, e, C46_never_twice u32_valid z (fun _ => none) demo_safe e v⟩
example := C46_truncate u32_valid z w₁_reach (i := 0) (n := 1) (perm w₁_reach (by decide +kernel)) w₁_shows
example := C46_clear u32_valid z w₁_reach (i := 0) (perm w₁_reach (by decide +kernel)) w₁_shows
example : ∃ r w', exec .w64 ⟨4, 4⟩ true demoPanics w₁ (.drop 0) = .ret (r, w') ∧ w'.heap.log = w₁.heap.log ++ [1, 13, 14, 6] ∧ r = .panic :=
  let ⟨r, w', h1, _, _, h4, _⟩ := C46_drop u32_valid z w₁_reach (i := 0) (perm w₁_reach (by decide +kernel)) w₁_shows; ⟨r, w', h1, h4 (by decide)⟩

/-- C47: draining 13 and 14 from both ends, forgetting, a range out of bounds, and the size hint of a drain in use. -/
example : ∃ r w', run .w64 ⟨4, 4⟩ true demoPanics w₁ [.drain 0 (.included 1) (.excluded 3), .nextBack 0, .dropDrain 0] = .ret ([.unit, .opt (some 14), r], w') ∧ r = .panic ∧ Shows .w64 ⟨4, 4⟩ true demoPanics w' 0 [1] :=
  let ⟨_, hl, r, w', h1, _, _, h4⟩ := C47_drain_partial u32_valid z w₁_reach (i := 0) (lo := .included 1) (hi := .excluded 3) (perm w₁_reach (by decide +kernel)) (.inl rfl) w₁_shows rfl rfl (by decide) (by decide) [.back]
  let h5 := h4 ⟨13, by rw [hl]; decide, by decide⟩; ⟨r, w', h1, h5.1, h5.2.1⟩
example := C47_forget u32_valid z w₁_reach (i := 0) (lo := .included 1) (hi := .excluded 3) (perm w₁_reach (by decide +kernel)) (.inl rfl) w₁_shows rfl rfl (by decide) (by decide) [.back, .front, .front]
example := C47_out_of_range u32_valid z w₁_reach (i := 0) (lo := .included 3) (hi := .excluded 5) (perm w₁_reach (by decide +kernel)) (.inl rfl) w₁_shows (.inr (by decide))
theorem w₂_reach : Reach .w64 ⟨4, 4⟩ true demoPanics (world (demoOps.take 7)) := reach (by decide +kernel)
example := C47_size_hint u32_valid z w₂_reach (i := 0) (perm w₂_reach (by decide +kernel))
example : ∃ f' d, FixedVec.drain .w64 false ⟨⟨4096, 34, ⟨4, 4⟩, 8⟩, 4⟩ .unbounded (.included Target.w64.usizeMax) = .ret (f', d) ∧ d.len = 0 ∧ 4 < (Bound.included Target.w64.usizeMax).past 4 :=
  C47_violated_wrap .w64 ⟨⟨4096, 34, ⟨4, 4⟩, 8⟩, 4⟩ (by decide)
example := C47_wraps (t := .w64) (T := ⟨4, 4⟩) (panics := demoPanics) w₁ (.drain 0 .unbounded (.included (2 ^ 64 - 1)))
example := C47_wrapped_history u32_valid z (fun _ => none) wrap_safe

/-- C48. -/
example := C48_split_and_shrink_to u32_valid z w₁_reach (i := 0) (n := 3) (perm w₁_reach (by decide +kernel)) w₁_shows w₁_cap
example : resp (exec .w64 ⟨4, 4⟩ true demoPanics w₁ (.splitShrink 0 3)) = some (.num 2) ∧ resp (exec .w64 ⟨4, 4⟩ true demoPanics w₁ (.splitShrink 0 9)) = some .panic := by decide +kernel
example := C48_split_borrowed u32_valid z w₁_reach (i := 0) (n := 3) (perm w₁_reach (by decide +kernel)) w₁_shows w₁_cap
example := C48_shrink_to_fit u32_valid z w₁_reach (i := 0) (perm w₁_reach (by decide +kernel)) w₁_shows w₁_cap

/-- C49: from the iterator 11, 12, ... four items are taken; `extend` panics with the fifth. -/
example := C49_fill u32_valid z w₁_reach (i := 0) (it := demoFill) (perm w₁_reach (by decide +kernel)) w₁_shows w₁_cap
example := C49_extend u32_valid z w₁_reach (i := 0) (it := demoFill) (perm w₁_reach (by decide +kernel)) w₁_shows w₁_cap
example : resp (exec .w64 ⟨4, 4⟩ true demoPanics w₁ (.fill 0 demoFill)) = some (.num 4) ∧ resp (exec .w64 ⟨4, 4⟩ true demoPanics w₁ (.extend 0 demoFill)) = some (.panicAt 5) := by decide +kernel

/-- C50: 34 bytes at an aligned address, and at one that is not. -/
example := C50_from_unaligned_partial (t := .w64) u32_valid (v := fromMemory 4096 34) (by decide) (by decide)
example := C50_sound (t := .w64) u32_valid (v := fromMemory 4098 34) (by decide)
example := C50_capacity (t := .w64) u32_valid (by decide) (v := fromMemory 4098 34) (by decide)

/-- C75: `pop` on the vector, with the places outside of it. -/
example : ∃ e a w', w₁.ents 0 = some e ∧ exec .w64 ⟨4, 4⟩ true demoPanics w₁ (.pop 0) = .ret (a, w') ∧ (∀ x, Region.Disjoint ⟨x, 4⟩ e.region → w'.heap.mem x = w₁.heap.mem x) :=
  let ⟨w', hx, _⟩ := C44_pop u32_valid z w₁_reach (perm w₁_reach (by decide +kernel)) w₁_shows
  let ⟨i, e, ht, he, _⟩ := (perm w₁_reach (op := .pop 0) (by decide +kernel) : ∃ i e, _)
  by cases ht; exact ⟨e, _, w', he, hx, (C75_writes_own_memory u32_valid z (by decide) w₁_reach (perm w₁_reach (by decide +kernel)) rfl he hx).1⟩
example : (world demoOps).heap.mem 4130 = none :=
  let ⟨_, e⟩ := run_world (ops := demoOps) (by decide +kernel)
  C75_history_writes_only_given_memory u32_valid z (by decide) demo_safe e (x := 4130) (by
    intro addr len h
    simp only [demoOps, List.mem_cons, Op.new.injEq, List.not_mem_nil, or_false, reduceCtorEq] at h
    obtain ⟨rfl, rfl⟩ := h
    rw [Region.disjoint_iff]; decide)
example := C75_contents_irrelevant u32_valid z demo_safe (mem' := fun _ => some 7) (safeB_sound u32_valid z (wrel_init _) (by decide +kernel))

/-- C77: the drain in use. -/
example : ∃ e d, (world (demoOps.take 7)).ents 0 = some e ∧ e.drain = some d ∧ ∃ rest : List Nat, d.len = rest.length ∧ d.exactLen = rest.length :=
  let ⟨e, d, _, he, hd, _⟩ := C47_size_hint u32_valid z w₂_reach (i := 0) (perm w₂_reach (by decide +kernel))
  let ⟨rest, h1, h2, _⟩ := C77_drain_iterator u32_valid z w₂_reach he hd (perm w₂_reach (by decide +kernel))
  ⟨e, d, he, hd, rest, h1, h2⟩

example : ∃ rest : List Nat, 0 < rest.length ∧ ∃ r rs w', run .w64 ⟨4, 4⟩ true demoPanics (world (demoOps.take 7)) [.drainReplace 0 0 99, .next 0, .nextBack 0] = .ret (r :: .opt (some 99) :: rs, w') := by
  obtain ⟨e, d, _, he, hd, _⟩ := C47_size_hint u32_valid z w₂_reach (i := 0) (perm w₂_reach (by decide +kernel))
  obtain ⟨rest, h1, _, _, _, hs, _⟩ := C77_drain_iterator u32_valid z w₂_reach he hd (perm w₂_reach (by decide +kernel))
  have hlen : 0 < rest.length := by
    rw [← h1]
    have : ((world (demoOps.take 7)).ents 0).bind (fun e => e.drain.map (fun d => decide (0 < d.len))) = some true := by decide +kernel
    simpa [he, hd] using this
  obtain ⟨w', e1, _⟩ := C77_replace u32_valid z w₂_reach he hd (perm w₂_reach (by decide +kernel)) hs hlen 99 [.front, .back]
  cases rest with
  | nil => cases hlen
  | cons x xs => exact ⟨x :: xs, hlen, _, _, w', e1⟩

/-- C82. -/
theorem bits_safe : Bytes.SafeRun .w64 true bitsPanics (Bytes.init fun _ => 7) bitsOps := by
  rw [bytes_safe_iff (T := ⟨4, 4⟩) u32_valid (wrel_init _) (brel_init _ ⟨0, 0⟩)]
  exact safeB_sound u32_valid bits_subsingleton (wrel_init _) (by decide +kernel)
example := C82_refines u32_valid bits_safe
/-- The contents of the memory before do not matter. -/
example (mem : Mem) := C82_contents_irrelevant u32_valid mem bits_safe
example : ∃ rs w, Bytes.run .w64 true bitsPanics (Bytes.init fun _ => 7) bitsOps = .ret (rs, w) ∧ w.heap.mem 4095 = 7 :=
  let ⟨w, e, _⟩ := C82_refines u32_valid bits_safe
  ⟨_, w, e, C82_other_bytes_kept u32_valid bits_safe e (y := 4095) (by
    intro addr len h
    simp [bitsOps] at h
    obtain ⟨rfl, rfl⟩ := h
    simp [Region.Has])⟩
/-- The `push` that follows the creation of the vector. -/
example : ∃ w e a w', Bytes.run .w64 true bitsPanics (Bytes.init fun _ => 7) (bitsOps.take 1) = .ret ([.num 0], w) ∧ w.ents 0 = some e ∧ Bytes.exec .w64 true bitsPanics w (.push 0 (bits 1)) = .ret (a, w') ∧
    ∀ y, ¬ e.region.Has y → w'.heap.mem y = w.heap.mem y :=
  have hs : Bytes.SafeRun .w64 true bitsPanics (Bytes.init (T := ⟨4, 4⟩) fun _ => 7) (bitsOps.take 1) := ⟨bits_safe.1, bits_safe.2.1, fun _ _ _ => trivial⟩
  have hp := (bits_safe.2.2 (.num 0) _ rfl).1
  let ⟨a, w', hx, hk⟩ := C82_call_keeps_other_bytes u32_valid hs rfl (op := .push 0 (bits 1)) hp trivial (i := 0) rfl rfl
  ⟨_, _, a, w', rfl, rfl, hx, hk⟩

end Verif.CasesFixedVec
