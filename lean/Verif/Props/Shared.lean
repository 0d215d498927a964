import Verif.Proofs.Shared
/-!
# C97: shared structures, a value is destroyed exactly when its last strong pointer is gone

`Spec.run` says what a program does with values that contain `Rc` and `Weak`, in terms of the graph and without counters. The program has a `Bump` of which `level` bytes are used already. The counters are `usize` numbers: in every state there have to be
less pointers to one block than that (`Few`), which is true for all programs with at most `usize::MAX` operations (`C97_few`).
-/
set_option autoImplicit false
namespace Verif.Shared
open Linked (var)

/-- **C97** Every program, whatever graph it builds and whichever destructors panic, runs without undefined behavior, gives the responses of the specification and runs the destructors in its order. -/
theorem C97_refines {e : Bump.Env} (he : e.Valid) {level : Nat} (hl : level ≤ e.len) (checks : Bool) (panics : Nat → Bool)
    (ops : List Op) (ho : ∀ op ∈ ops, op.Valid e.target) (hf : ∀ k < ops.length, ((Spec.init level).run e.slab panics (ops.take k)).2.Few e.target) :
    ∃ w, run e checks panics (World.init level) ops = .ret (((Spec.init level).run e.slab panics ops).1, w) ∧
      w.log = ((Spec.init level).run e.slab panics ops).2.log ∧ w.aborted = ((Spec.init level).run e.slab panics ops).2.aborted ∧ w.made = ((Spec.init level).run e.slab panics ops).2.made := by
  obtain ⟨w, h1, h2, h3, h4, _⟩ := ref_run (panics := panics) (checks := checks) he ops ho (Ref.init hl) hf rfl
  exact ⟨w, h1, h2, h3, h4⟩

/-- **C97** There can not be too many pointers in a program that is not as long as that. -/
theorem C97_few (t : Target) (slab : Slab) (panics : Nat → Bool) (level : Nat) {ops : List Op} (h : ops.length ≤ t.usizeMax) :
    ∀ k < ops.length, ((Spec.init level).run slab panics (ops.take k)).2.Few t := few_of_short h

/-- **C97** The counters are the numbers of pointers: in variables, in values that exist, and forgotten ones. A value is in its block as long as there are strong ones. -/
theorem C97_counters {e : Bump.Env} (he : e.Valid) {level : Nat} (hl : level ≤ e.len) {checks : Bool} {panics : Nat → Bool}
    {ops : List Op} (ho : ∀ op ∈ ops, op.Valid e.target) (hf : ∀ k < ops.length, ((Spec.init level).run e.slab panics (ops.take k)).2.Few e.target)
    {rs : List Resp} {w : World} (h : run e checks panics (World.init level) ops = .ret (rs, w)) (ha : w.aborted = false)
    {s : Spec} (hs : s = ((Spec.init level).run e.slab panics ops).2) :
    w.vals = s.vals ∧ w.ptrs = s.ptrs ∧ w.blocks.length = s.blocks.length ∧
    ∀ b x, w.blocks[b]? = some x → x.strong = s.pointers.count ⟨true, b⟩ ∧ x.weak = s.pointers.count ⟨false, b⟩ + (if 0 < x.strong then 1 else 0) ∧
      (if 0 < x.strong then x.val else none) = var s.blocks b := by
  obtain ⟨w', h1, h2, h3, h4, h5⟩ := ref_run (panics := panics) (checks := checks) he ops ho (Ref.init hl) hf rfl
  rw [h1] at h
  simp only [Outcome.ret.injEq, Prod.mk.injEq] at h
  obtain ⟨_, rfl⟩ := h
  have hr := h5 (h3 ▸ ha)
  rw [← hs] at hr
  refine ⟨hr.vals, hr.ptrs, hr.inv.len, fun b x hx => ?_⟩
  have k1 := hr.inv.strong b x hx
  refine ⟨k1, by rw [k1]; exact hr.inv.weak b x hx, ?_⟩
  cases hv : var s.blocks b with
  | none => rw [k1, hr.inv.zero b hv]; rfl
  | some v => rw [k1, if_pos (hr.inv.pos b v hv)]; exact hr.inv.val b x v hx hv

/-- **C97** No destructor is run twice, and only those of values that were made; also if the program is aborted. -/
theorem C97_once {e : Bump.Env} (he : e.Valid) {level : Nat} (hl : level ≤ e.len) {checks : Bool} {panics : Nat → Bool}
    {ops : List Op} (ho : ∀ op ∈ ops, op.Valid e.target) (hf : ∀ k < ops.length, ((Spec.init level).run e.slab panics (ops.take k)).2.Few e.target)
    {rs : List Resp} {w : World} (h : run e checks panics (World.init level) ops = .ret (rs, w)) :
    w.log.Nodup ∧ ∀ i ∈ w.log, i < w.made := by
  obtain ⟨w', h1, h2, h3, h4, h5⟩ := ref_run (panics := panics) (checks := checks) he ops ho (Ref.init hl) hf rfl
  rw [h1] at h
  simp only [Outcome.ret.injEq, Prod.mk.injEq] at h
  obtain ⟨_, rfl⟩ := h
  have hp := IdInv.run (panics := panics) (checks := checks) he ops ho (Ref.init hl) hf (IdInv.init level)
  rw [h2, h4]
  constructor
  · have := hp.nodup_iff.mpr List.nodup_range
    simp only [List.nodup_append] at this
    exact this.2.1
  · intro i hi
    exact List.mem_range.mp (hp.mem_iff.mp (by simp [hi]))

/-- **C97** Every value is in a variable, exists in its block, or has been destroyed, and only one of these. -/
theorem C97_all {e : Bump.Env} (he : e.Valid) {level : Nat} (hl : level ≤ e.len) {panics : Nat → Bool}
    {ops : List Op} (ho : ∀ op ∈ ops, op.Valid e.target) (hf : ∀ k < ops.length, ((Spec.init level).run e.slab panics (ops.take k)).2.Few e.target)
    {s : Spec} (hs : s = ((Spec.init level).run e.slab panics ops).2) :
    ((s.vals.filterMap id).map Value.id ++ (s.blocks.filterMap id).map Value.id ++ s.log).Perm (List.range s.made) := by
  subst hs
  have hp := IdInv.run (panics := panics) (checks := false) he ops ho (Ref.init hl) hf (IdInv.init level)
  unfold IdInv at hp
  rwa [idsOf_eq, idsOf_eq] at hp

/-- **C97** In every state, thus at once after every operation: a value in a block exists if and only if there is a strong pointer to it, in a variable, in a value that exists, or forgotten. -/
theorem C97_alive_iff {e : Bump.Env} (he : e.Valid) {level : Nat} (hl : level ≤ e.len) {panics : Nat → Bool}
    {ops : List Op} (ho : ∀ op ∈ ops, op.Valid e.target) (hf : ∀ k < ops.length, ((Spec.init level).run e.slab panics (ops.take k)).2.Few e.target)
    {s : Spec} (hs : s = ((Spec.init level).run e.slab panics ops).2) (ha : s.aborted = false) (b : Nat) :
    (∃ v, var s.blocks b = some v) ↔ ⟨true, b⟩ ∈ s.pointers := by
  obtain ⟨w, h1, h2, h3, h4, h5⟩ := ref_run (panics := panics) (checks := false) he ops ho (Ref.init hl) hf rfl
  subst hs
  exact alive_iff (h5 ha) b

/-- **C97** Whatever can be reached by strong pointers exists. -/
theorem C97_reachable {e : Bump.Env} (he : e.Valid) {level : Nat} (hl : level ≤ e.len) {panics : Nat → Bool}
    {ops : List Op} (ho : ∀ op ∈ ops, op.Valid e.target) (hf : ∀ k < ops.length, ((Spec.init level).run e.slab panics (ops.take k)).2.Few e.target)
    {s : Spec} (hs : s = ((Spec.init level).run e.slab panics ops).2) (ha : s.aborted = false) {b : Nat} (hr : s.Reach b) :
    ∃ v, var s.blocks b = some v := by
  obtain ⟨w, h1, h2, h3, h4, h5⟩ := ref_run (panics := panics) (checks := false) he ops ho (Ref.init hl) hf rfl
  subst hs
  exact reach_alive (h5 ha) hr

/-- **C97** Only cycles of strong pointers leak: a value that exists but can not be reached is on such a cycle, or is held by one, that can not be reached either. -/
theorem C97_garbage {e : Bump.Env} (he : e.Valid) {level : Nat} (hl : level ≤ e.len) {panics : Nat → Bool}
    {ops : List Op} (ho : ∀ op ∈ ops, op.Valid e.target) (hf : ∀ k < ops.length, ((Spec.init level).run e.slab panics (ops.take k)).2.Few e.target)
    {s : Spec} (hs : s = ((Spec.init level).run e.slab panics ops).2) (ha : s.aborted = false) {b : Nat} (hv : ∃ v, var s.blocks b = some v) (hr : ¬ s.Reach b) :
    ∃ c, ¬ s.Reach c ∧ s.Path c c ∧ (c = b ∨ s.Path c b) := by
  obtain ⟨w, h1, h2, h3, h4, h5⟩ := ref_run (panics := panics) (checks := false) he ops ho (Ref.init hl) hf rfl
  subst hs
  exact cycle_of_unreachable (h5 ha) hv hr

/-- **C97** When no variable holds anything, nothing was forgotten and there is no cycle of strong pointers, then the destructor of every value has been run exactly once. -/
theorem C97_complete {e : Bump.Env} (he : e.Valid) {level : Nat} (hl : level ≤ e.len) {checks : Bool} {panics : Nat → Bool}
    {ops : List Op} (ho : ∀ op ∈ ops, op.Valid e.target) (hf : ∀ k < ops.length, ((Spec.init level).run e.slab panics (ops.take k)).2.Few e.target)
    {rs : List Resp} {w : World} (h : run e checks panics (World.init level) ops = .ret (rs, w)) (ha : w.aborted = false)
    (hv : ∀ v ∈ w.vals, v = none) (hp : ∀ p ∈ w.ptrs, p = none) (hg : ∀ p, Op.forget p ∉ ops)
    (hc : ∀ b, ¬ ((Spec.init level).run e.slab panics ops).2.Path b b) :
    w.log.Perm (List.range w.made) := by
  obtain ⟨w', h1, h2, h3, h4, h5⟩ := ref_run (panics := panics) (checks := checks) he ops ho (Ref.init hl) hf rfl
  rw [h1] at h
  simp only [Outcome.ret.injEq, Prod.mk.injEq] at h
  obtain ⟨_, rfl⟩ := h
  have hr := h5 (h3 ▸ ha)
  have hall := C97_all he hl ho hf rfl
  have hroots : ∀ b, ¬ ((Spec.init level).run e.slab panics ops).2.Reach b := by
    intro b hb
    induction hb with
    | root hm =>
      simp only [Spec.roots, forgotten_run ops hg, ← hr.vals, ← hr.ptrs, Linked.filterMap_none hp, fieldsOf_none hv] at hm
      simp [Spec.init] at hm
    | edge _ _ ih => exact ih
  have hblocks : ∀ o ∈ ((Spec.init level).run e.slab panics ops).2.blocks, o = none := by
    intro o hm
    cases o with
    | none => rfl
    | some v =>
      obtain ⟨i, hi⟩ := List.mem_iff_getElem?.mp hm
      obtain ⟨c, _, k2, _⟩ := cycle_of_unreachable hr (b := i) ⟨v, by unfold var; rw [hi]; rfl⟩ (hroots i)
      exact absurd k2 (hc c)
  rw [← hr.vals, Linked.filterMap_none hv, Linked.filterMap_none hblocks, ← h2, ← h4] at hall
  simpa using hall

/-- **C97** There is no cycle if strong pointers are put into values only before these are shared; weak ones can be added later. -/
theorem C97_layered {e : Bump.Env} (he : e.Valid) {level : Nat} (hl : level ≤ e.len) {panics : Nat → Bool}
    {ops : List Op} (ho : ∀ op ∈ ops, op.Valid e.target) (hf : ∀ k < ops.length, ((Spec.init level).run e.slab panics (ops.take k)).2.Few e.target)
    (hlay : ∀ k op, ops[k]? = some op → ((Spec.init level).run e.slab panics (ops.take k)).2.Layered op) (b : Nat) :
    ¬ ((Spec.init level).run e.slab panics ops).2.Path b b := by
  have := LInv.run (panics := panics) (checks := false) he ops ho (Ref.init hl) hf (fun b v c hv => by simp [Spec.init, var] at hv) hlay
  intro hp
  exact Nat.lt_irrefl _ (this.path hp)

end Verif.Shared
