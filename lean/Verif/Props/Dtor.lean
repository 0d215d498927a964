import Verif.Proofs.Dtor
/-!
# C99: destructors that use shared pointers

The destructors of values with `Rc` and `Weak` in them are arbitrary code here, which may use these and all other pointers and begin other destructors. `Spec.run` says what such a program does, in terms of the graph and without counters. `FewRun`: in every state there
are less pointers to one block than `usize::MAX`; true for all programs with at most `usize::MAX` operations (`C99_few`). `AllowedRun`: no call of `Weak::try_unwrap` for the memory of a value that is being destroyed. It is missing in the documentation, but
without it the theorems are wrong (`C99_violated`), so they are partial.
-/
set_option autoImplicit false
namespace Verif.Dtor
open Shared (Ptr Value Resp)
open Linked (var)

variable {e : Bump.Env} {level : Nat} {checks : Bool} {ops : List Op} {rs : List Resp} {w : World} {s : Spec}

/-- **C99** Every program, whatever its destructors do and whether they panic, runs without undefined behavior, gives the responses of the specification and runs the destructors in its order. -/
theorem C99_refines_partial (he : e.Valid) (hl : level ≤ e.len) (checks : Bool) (ho : ∀ op ∈ ops, op.Valid e.target)
    (hf : (Spec.init level).FewRun e.target e.slab ops) (ha : (Spec.init level).AllowedRun e.slab ops) :
    ∃ w, run e checks (World.init level) ops = .ret (((Spec.init level).run e.slab ops).1, w) ∧
      w.base.log = ((Spec.init level).run e.slab ops).2.base.log ∧ w.base.aborted = ((Spec.init level).run e.slab ops).2.base.aborted ∧ w.base.made = ((Spec.init level).run e.slab ops).2.base.made := by
  obtain ⟨w, h1, h2, h3, h4, _⟩ := ref_run (checks := checks) he ops ho (Rel.init hl) hf ha rfl
  exact ⟨w, h1, h2, h3, h4⟩

/-- **C99** There can not be too many pointers in a program that is not as long as that. -/
theorem C99_few (t : Target) (slab : Slab) (level : Nat) (h : ops.length ≤ t.usizeMax) : (Spec.init level).FewRun t slab ops :=
  few_run ops (by simp only [Spec.init, Spec.view, Shared.Spec.init, Shared.Spec.pointers, Shared.fieldsOf, stackPtrs]; simpa using h)

/-- **C99** At any time, also in the midst of destructors: the counters are the numbers of pointers, in variables, in values that exist, in values that are being destroyed, and forgotten ones. A value is in its block as long as there are strong ones. -/
theorem C99_counters_partial (he : e.Valid) (hl : level ≤ e.len) (ho : ∀ op ∈ ops, op.Valid e.target)
    (hf : (Spec.init level).FewRun e.target e.slab ops) (hal : (Spec.init level).AllowedRun e.slab ops)
    (h : run e checks (World.init level) ops = .ret (rs, w)) (ha : w.base.aborted = false) (hs : s = ((Spec.init level).run e.slab ops).2) :
    w.base.vals = s.base.vals ∧ w.base.ptrs = s.base.ptrs ∧ w.base.blocks.length = s.base.blocks.length ∧
    ∀ b x, w.base.blocks[b]? = some x →
      x.strong = (s.base.pointers ++ stackPtrs s.stack).count ⟨true, b⟩ ∧
      x.weak = (s.base.pointers ++ stackPtrs s.stack).count ⟨false, b⟩ + (if 0 < x.strong then 1 else 0) ∧
      (if 0 < x.strong then x.val else none) = var s.base.blocks b := by
  obtain ⟨w', h1, h2, h3, h4, h5⟩ := ref_run (checks := checks) he ops ho (Rel.init hl) hf hal rfl
  rw [h1] at h
  simp only [Outcome.ret.injEq, Prod.mk.injEq] at h
  obtain ⟨_, rfl⟩ := h
  have hr := h5 (h3 ▸ ha)
  rw [← hs] at hr
  have hi := hr.good.inv
  refine ⟨hr.ref.vals, hr.ref.ptrs, hi.len, fun b x hx => ?_⟩
  have k1 := hi.strong b x hx
  refine ⟨k1, by rw [k1]; exact hi.weak b x hx, ?_⟩
  cases hv : var s.base.blocks b with
  | none => rw [k1, hi.zero b hv]; rfl
  | some v => rw [k1, if_pos (hi.pos b v hv)]; exact hi.val b x v hx hv

/-- **C99** Every value is in a variable, exists in its block, or its destructor was begun, and only one of these. -/
theorem C99_all_partial (he : e.Valid) (hl : level ≤ e.len) (ho : ∀ op ∈ ops, op.Valid e.target)
    (hf : (Spec.init level).FewRun e.target e.slab ops) (hal : (Spec.init level).AllowedRun e.slab ops) (hs : s = ((Spec.init level).run e.slab ops).2) :
    ((s.base.vals.filterMap id).map Value.id ++ (s.base.blocks.filterMap id).map Value.id ++ s.base.log).Perm (List.range s.base.made) := by
  subst hs
  have hp := id_run he ops ho (Rel.init hl) hf hal rfl (Shared.IdInv.init level)
  unfold Shared.IdInv at hp
  rwa [Shared.idsOf_eq, Shared.idsOf_eq] at hp

/-- **C99** No destructor is run twice, and only those of values that were made; also if the program is aborted. -/
theorem C99_once_partial (he : e.Valid) (hl : level ≤ e.len) (ho : ∀ op ∈ ops, op.Valid e.target)
    (hf : (Spec.init level).FewRun e.target e.slab ops) (hal : (Spec.init level).AllowedRun e.slab ops) (h : run e checks (World.init level) ops = .ret (rs, w)) :
    w.base.log.Nodup ∧ ∀ i ∈ w.base.log, i < w.base.made := by
  obtain ⟨w', h1, h2, h3, h4, h5⟩ := ref_run (checks := checks) he ops ho (Rel.init hl) hf hal rfl
  rw [h1] at h
  simp only [Outcome.ret.injEq, Prod.mk.injEq] at h
  obtain ⟨_, rfl⟩ := h
  have hp := C99_all_partial he hl ho hf hal rfl
  rw [h2, h4]
  constructor
  · have := hp.nodup_iff.mpr List.nodup_range
    simp only [List.nodup_append] at this
    exact this.2.1
  · intro i hi
    exact List.mem_range.mp (hp.mem_iff.mp (by simp [hi]))

/-- **C99** At any time, also in the midst of destructors: a value in a block exists if and only if there is a strong pointer to it; so its destructor is begun at once when the last one is gone. -/
theorem C99_alive_iff_partial (he : e.Valid) (hl : level ≤ e.len) (ho : ∀ op ∈ ops, op.Valid e.target)
    (hf : (Spec.init level).FewRun e.target e.slab ops) (hal : (Spec.init level).AllowedRun e.slab ops) (hs : s = ((Spec.init level).run e.slab ops).2) (ha : s.base.aborted = false) (b : Nat) :
    (∃ v, var s.base.blocks b = some v) ↔ ⟨true, b⟩ ∈ s.base.pointers ++ stackPtrs s.stack := by
  obtain ⟨w, h1, h2, h3, h4, h5⟩ := ref_run (checks := false) he ops ho (Rel.init hl) hf hal rfl
  subst hs
  rw [← view_pointers]
  exact Shared.alive_iff (h5 ha).ref b

/-- **C99** While a value is being destroyed it can not be reached: there is no strong pointer to its block, and `upgrade` gives `None`. -/
theorem C99_dying_partial (he : e.Valid) (hl : level ≤ e.len) (ho : ∀ op ∈ ops, op.Valid e.target)
    (hf : (Spec.init level).FewRun e.target e.slab ops) (hal : (Spec.init level).AllowedRun e.slab ops) (h : run e checks (World.init level) ops = .ret (rs, w)) (hs : s = ((Spec.init level).run e.slab ops).2)
    (ha : s.base.aborted = false) {b : Nat} (hb : b ∈ dying s.stack) :
    ⟨true, b⟩ ∉ s.base.pointers ++ stackPtrs s.stack ∧ ∀ p, var s.base.ptrs p = some ⟨false, b⟩ → exec e checks w (.call (.upgrade p)) = .ret (.refused, w) := by
  obtain ⟨w', h1, h2, h3, h4, h5⟩ := ref_run (checks := checks) he ops ho (Rel.init hl) hf hal rfl
  rw [h1] at h
  simp only [Outcome.ret.injEq, Prod.mk.injEq] at h
  obtain ⟨_, rfl⟩ := h
  subst hs
  have hr := h5 ha
  have hd := hr.dead b hb
  have hi := hr.good.inv
  refine ⟨List.count_eq_zero.mp (hi.zero b hd), fun p hp => ?_⟩
  have hlt := hi.lt _ (List.mem_append_left _ (Shared.mem_ptrs hp))
  obtain ⟨x, hx⟩ := hi.get hlt
  have k := hi.strong b x hx
  rw [hi.zero b hd] at k
  have hp' : var w'.base.ptrs p = some ⟨false, b⟩ := by rw [hr.ref.ptrs]; exact hp
  simp only [exec, Shared.exec, hp', Shared.World.block, hx, k, bind, Outcome.bind, pure, if_true]

/-- **C99** Only cycles of strong pointers leak: a value that exists and can not be reached from variables, values that are being destroyed or forgotten pointers is on such a cycle, or is held by one. -/
theorem C99_garbage_partial (he : e.Valid) (hl : level ≤ e.len) (ho : ∀ op ∈ ops, op.Valid e.target)
    (hf : (Spec.init level).FewRun e.target e.slab ops) (hal : (Spec.init level).AllowedRun e.slab ops) (hs : s = ((Spec.init level).run e.slab ops).2) (ha : s.base.aborted = false)
    {b : Nat} (hv : ∃ v, var s.base.blocks b = some v) (hr : ¬ s.view.Reach b) :
    ∃ c, ¬ s.view.Reach c ∧ s.base.Path c c ∧ (c = b ∨ s.base.Path c b) := by
  obtain ⟨w, h1, h2, h3, h4, h5⟩ := ref_run (checks := false) he ops ho (Rel.init hl) hf hal rfl
  subst hs
  have key : ∀ {s : Spec} {b c : Nat}, s.view.Path b c → s.base.Path b c := by
    intro s b c hp
    induction hp with
    | one h => exact .one h
    | more h _ ih => exact .more h ih
  obtain ⟨c, k1, k2, k3⟩ := Shared.cycle_of_unreachable (h5 ha).ref hv hr
  exact ⟨c, k1, key k2, k3.imp_right key⟩

/-- **C99** When all destructors have ended, no variable holds anything, nothing was forgotten and there is no cycle of strong pointers, then the destructor of every value has been run exactly once. -/
theorem C99_complete_partial (he : e.Valid) (hl : level ≤ e.len) (ho : ∀ op ∈ ops, op.Valid e.target)
    (hf : (Spec.init level).FewRun e.target e.slab ops) (hal : (Spec.init level).AllowedRun e.slab ops) (h : run e checks (World.init level) ops = .ret (rs, w)) (ha : w.base.aborted = false)
    (hv : ∀ v ∈ w.base.vals, v = none) (hp : ∀ p ∈ w.base.ptrs, p = none) (hg : ∀ p, Op.call (.forget p) ∉ ops) (ht : w.tasks = [])
    (hc : ∀ b, ¬ ((Spec.init level).run e.slab ops).2.base.Path b b) :
    w.base.log.Perm (List.range w.base.made) := by
  obtain ⟨w', h1, h2, h3, h4, h5⟩ := ref_run (checks := checks) he ops ho (Rel.init hl) hf hal rfl
  rw [h1] at h
  simp only [Outcome.ret.injEq, Prod.mk.injEq] at h
  obtain ⟨_, rfl⟩ := h
  have hab : ((Spec.init level).run e.slab ops).2.base.aborted = false := h3 ▸ ha
  have hr := h5 hab
  have hall := C99_all_partial he hl ho hf hal rfl
  have hst : ((Spec.init level).run e.slab ops).2.stack = [] := by
    have := hr.frames
    rw [ht] at this
    generalize ((Spec.init level).run e.slab ops).2.stack = st at this
    cases this
    rfl
  have hvals : ((Spec.init level).run e.slab ops).2.base.vals = w'.base.vals := hr.ref.vals.symm
  have hptrs : ((Spec.init level).run e.slab ops).2.base.ptrs = w'.base.ptrs := hr.ref.ptrs.symm
  have hroots : ∀ b, ¬ ((Spec.init level).run e.slab ops).2.view.Reach b := by
    intro b hb
    induction hb with
    | root hm =>
      simp only [Shared.Spec.roots, Spec.view, forgotten_run ops hg, hst, hvals, hptrs, Linked.filterMap_none hp, Shared.fieldsOf_none hv] at hm
      simp [Spec.init, Shared.Spec.init, stackPtrs] at hm
    | edge _ _ ih => exact ih
  have hblocks : ∀ o ∈ ((Spec.init level).run e.slab ops).2.base.blocks, o = none := by
    intro o hm
    cases o with
    | none => rfl
    | some v =>
      obtain ⟨i, hi⟩ := List.mem_iff_getElem?.mp hm
      obtain ⟨c, _, k2, _⟩ := C99_garbage_partial he hl ho hf hal rfl hab (b := i) ⟨v, by unfold var; rw [hi]; rfl⟩ (hroots i)
      exact absurd k2 (hc c)
  rw [hvals, Linked.filterMap_none hv, Linked.filterMap_none hblocks, ← h2, ← h4] at hall
  simpa using hall

/-- The destructor of value 0 gets its memory by `Weak::try_unwrap` and puts value 1 there. -/
def attack : List Op :=
  let cell : Layout := ⟨32, 8⟩
  [.call .make, .call (.rc 0 cell), .call (.downgrade 0), .call .make, .call .make, .call (.rc 2 cell), .call (.attach 1 2),
   .call (.dropPtr 0), .call (.recycle 1 1), .endDrop false, .endDrop false, .call (.follow 1 0)]

/-- **C99** The property is violated by the code: a program (of valid calls, without `unsafe`) in which the destructor of a value calls `Weak::try_unwrap`. The memory of the value is handed out although the value is still there, and the fields of the
value that is stored next are dropped: value 2 is destroyed while there is an `Rc` for it. This one reads the destroyed value, and when it is dropped then the destructor of value 2 is run a second time (in builds without overflow checks). -/
theorem C99_violated : ∃ e : Bump.Env, e.Valid ∧ (∀ op ∈ attack, op.Valid e.target) ∧ ∀ checks, ∃ rs w,
    run e checks (World.init 0) attack = .ret (rs, w) ∧ w.base.log = [0, 2] ∧ exec e checks w (.call (.read 3)) = .ret (.id 2, w) ∧
    (checks = false → ∃ w', exec e checks w (.call (.dropPtr 3)) = .ret (.unit, w') ∧ w'.base.log = [0, 2, 2]) := by
  refine ⟨⟨.w64, 4096, 256, id⟩, ?_, ?_, ?_⟩
  · have h1 : Target.w64.W = 2 ^ 64 := by decide
    have h2 : Target.w64.isizeMax = 2 ^ 63 - 1 := by decide
    exact ⟨by simp, by simp only [h1]; omega, by simp only [h2]; omega, fun a h => ⟨h.pos, Nat.dvd_refl a⟩⟩
  · intro op hop
    simp only [attack, List.mem_cons, List.not_mem_nil, or_false] at hop
    rcases hop with rfl | rfl | rfl | rfl | rfl | rfl | rfl | rfl | rfl | rfl | rfl | rfl
    all_goals first | trivial | exact ⟨⟨⟨3, rfl⟩, by decide⟩, by decide⟩
  · intro checks
    cases checks
    · exact ⟨_, _, rfl, rfl, rfl, fun _ => ⟨_, rfl, rfl⟩⟩
    · exact ⟨_, _, rfl, rfl, rfl, fun h => by cases h⟩

end Verif.Dtor
