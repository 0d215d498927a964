import Verif.Proofs.Mixed
/-!
# C100: `LeakBox`, `Rc` and `Weak` together

Programs that use all kinds of pointers at once: values in a `LeakBox` have `Rc`s, those have `LeakBox`es with `Weak`s back, and so on. The destructors are arbitrary code that may use all of these. `Spec.run` says what such a program does, in terms of the
graph and without counters. `FewRun`: in every state there are less pointers to one block than `usize::MAX`; true for all programs with at most `usize::MAX` operations (`C100_few`). `AllowedRun`: no call of `Weak::try_unwrap` for the memory of a value that is
being destroyed (see C99).
-/
set_option autoImplicit false
namespace Verif.Mixed
open Linked (var)

variable {e : Bump.Env} {level : Nat} {checks : Bool} {ops : List Op} {rs : List Resp} {w : World} {s : Spec}

/-- **C100** Every program, whatever its destructors do and whether they panic, runs without undefined behavior, gives the responses of the specification and runs the destructors in its order. -/
theorem C100_refines (he : e.Valid) (hl : level ≤ e.len) (checks : Bool) (ho : ∀ op ∈ ops, op.Valid e.target)
    (hf : (Spec.init level).FewRun e.target e.slab ops) (ha : (Spec.init level).AllowedRun e.slab ops) :
    ∃ w, run e checks (World.init level) ops = .ret (((Spec.init level).run e.slab ops).1, w) ∧
      w.log = ((Spec.init level).run e.slab ops).2.log ∧ w.aborted = ((Spec.init level).run e.slab ops).2.aborted ∧ w.made = ((Spec.init level).run e.slab ops).2.made := by
  obtain ⟨w, h1, h2⟩ := ref_run (checks := checks) he ops ho (Rel.init hl) hf ha
  exact ⟨w, h1, h2.log, h2.aborted, h2.made⟩

/-- **C100** There can not be too many pointers in a program that is not as long as that. -/
theorem C100_few (t : Target) (slab : Slab) (level : Nat) (h : ops.length ≤ t.usizeMax) : (Spec.init level).FewRun t slab ops :=
  few_run ops (by simp only [Spec.init, Spec.pointers, Spec.roots, fieldsOf, stackPtrs]; simpa using h)

/-- **C100** At any time, also in the midst of destructors: a block is either that of a `LeakBox` and there is exactly one for it as long as its value exists, or that of `Rc`s and its counters are the numbers of pointers (in variables, in values that exist, in values that are being
destroyed, and forgotten ones), and the value exists as long as there are strong ones. Existing values are in memory. -/
theorem C100_counters (he : e.Valid) (hl : level ≤ e.len) (ho : ∀ op ∈ ops, op.Valid e.target)
    (hf : (Spec.init level).FewRun e.target e.slab ops) (hal : (Spec.init level).AllowedRun e.slab ops)
    (h : run e checks (World.init level) ops = .ret (rs, w)) (hs : s = ((Spec.init level).run e.slab ops).2) :
    w.vals = s.vals ∧ w.ptrs = s.ptrs ∧ w.blocks.length = s.blocks.length ∧
    (∀ b v, w.blocks[b]? = some (.box v) →
      s.pointers.count ⟨.strong, b⟩ = 0 ∧ s.pointers.count ⟨.weak, b⟩ = 0 ∧ s.pointers.count ⟨.own, b⟩ ≤ 1 ∧
      (if s.pointers.count ⟨.own, b⟩ = 1 then some v else none) = var s.blocks b) ∧
    ∀ b x, w.blocks[b]? = some (.rc x) →
      s.pointers.count ⟨.own, b⟩ = 0 ∧ x.strong = s.pointers.count ⟨.strong, b⟩ ∧
      x.weak = s.pointers.count ⟨.weak, b⟩ + (if 0 < x.strong then 1 else 0) ∧
      (if 0 < x.strong then x.val else none) = var s.blocks b := by
  obtain ⟨w', h1, hr⟩ := ref_run (checks := checks) he ops ho (Rel.init hl) hf hal
  rw [h1] at h
  simp only [Outcome.ret.injEq, Prod.mk.injEq] at h
  obtain ⟨_, rfl⟩ := h
  rw [← hs] at hr
  refine ⟨hr.vals, hr.ptrs, hr.inv.len, fun b v hv => ?_, fun b x hx => ?_⟩
  · obtain ⟨k1, k2, k3⟩ := hr.inv.ok b _ hv
    refine ⟨k1, k2, ?_⟩
    cases hx : var s.blocks b with
    | none => rw [hx] at k3; simp only at k3; rw [k3]; exact ⟨by omega, rfl⟩
    | some y => rw [hx] at k3; obtain ⟨k3, rfl⟩ := k3; rw [k3]; exact ⟨by omega, rfl⟩
  · obtain ⟨k1, k2, k3, k4⟩ := hr.inv.ok b _ hx
    refine ⟨k1, k2, by rw [k2]; exact k3, ?_⟩
    cases hy : var s.blocks b with
    | none => rw [hy] at k4; simp only at k4; rw [k2, k4]; rfl
    | some y => rw [hy] at k4; rw [k2, if_pos k4.1]; exact k4.2

/-- **C100** Every value is in a variable, exists in its block, or its destructor was begun, and only one of these. -/
theorem C100_all (he : e.Valid) (hl : level ≤ e.len) (ho : ∀ op ∈ ops, op.Valid e.target)
    (hf : (Spec.init level).FewRun e.target e.slab ops) (hal : (Spec.init level).AllowedRun e.slab ops) (hs : s = ((Spec.init level).run e.slab ops).2) :
    ((s.vals.filterMap id).map Value.id ++ (s.blocks.filterMap id).map Value.id ++ s.log).Perm (List.range s.made) := by
  subst hs
  have hp := id_run he ops ho (Rel.init hl) hf hal (IdInv.init level)
  have key : ∀ xs : List (Option Value), Linked.all (fun v : Value => [v.id]) xs = (xs.filterMap id).map Value.id := by
    intro xs
    induction xs with
    | nil => rfl
    | cons x xs ih => cases x <;> simp_all [Linked.all]
  unfold IdInv idsOf at hp
  rwa [key, key] at hp

/-- **C100** No destructor is run twice, and only those of values that were made; also if the program is aborted. -/
theorem C100_once (he : e.Valid) (hl : level ≤ e.len) (ho : ∀ op ∈ ops, op.Valid e.target)
    (hf : (Spec.init level).FewRun e.target e.slab ops) (hal : (Spec.init level).AllowedRun e.slab ops) (h : run e checks (World.init level) ops = .ret (rs, w)) :
    w.log.Nodup ∧ ∀ i ∈ w.log, i < w.made := by
  obtain ⟨w', h1, hr⟩ := ref_run (checks := checks) he ops ho (Rel.init hl) hf hal
  rw [h1] at h
  simp only [Outcome.ret.injEq, Prod.mk.injEq] at h
  obtain ⟨_, rfl⟩ := h
  have hp := C100_all he hl ho hf hal rfl
  rw [hr.log, hr.made]
  constructor
  · have := hp.nodup_iff.mpr List.nodup_range
    simp only [List.nodup_append] at this
    exact this.2.1
  · intro i hi
    exact List.mem_range.mp (hp.mem_iff.mp (by simp [hi]))

/-- **C100** At any time, also in the midst of destructors: a value in a block exists if and only if there is a `LeakBox` or an `Rc` for it; so its destructor is begun at once when this or the last of these is gone. -/
theorem C100_alive_iff (he : e.Valid) (hl : level ≤ e.len) (ho : ∀ op ∈ ops, op.Valid e.target)
    (hf : (Spec.init level).FewRun e.target e.slab ops) (hal : (Spec.init level).AllowedRun e.slab ops) (hs : s = ((Spec.init level).run e.slab ops).2) (b : Nat) :
    (∃ v, var s.blocks b = some v) ↔ ⟨.own, b⟩ ∈ s.pointers ∨ ⟨.strong, b⟩ ∈ s.pointers := by
  obtain ⟨w, h1, hr⟩ := ref_run (checks := false) he ops ho (Rel.init hl) hf hal
  subst hs
  rw [alive_iff hr]
  constructor
  · rintro ⟨k, hk, hm⟩
    cases k with
    | own => exact .inl hm
    | strong => exact .inr hm
    | weak => exact absurd rfl hk
  · rintro (hm | hm)
    · exact ⟨.own, by decide, hm⟩
    · exact ⟨.strong, by decide, hm⟩

/-- **C100** While a value is being destroyed it can not be reached: there is no `LeakBox` and no `Rc` for it, and `upgrade` gives `None`. -/
theorem C100_dying (he : e.Valid) (hl : level ≤ e.len) (ho : ∀ op ∈ ops, op.Valid e.target)
    (hf : (Spec.init level).FewRun e.target e.slab ops) (hal : (Spec.init level).AllowedRun e.slab ops) (h : run e checks (World.init level) ops = .ret (rs, w)) (hs : s = ((Spec.init level).run e.slab ops).2)
    {b : Nat} (hb : b ∈ dying s.stack) :
    ⟨.own, b⟩ ∉ s.pointers ∧ ⟨.strong, b⟩ ∉ s.pointers ∧ ∀ p, var s.ptrs p = some ⟨.weak, b⟩ → exec e checks w (.upgrade p) = .ret (.refused, w) := by
  obtain ⟨w', h1, hr⟩ := ref_run (checks := checks) he ops ho (Rel.init hl) hf hal
  rw [h1] at h
  simp only [Outcome.ret.injEq, Prod.mk.injEq] at h
  obtain ⟨_, rfl⟩ := h
  rw [← hs] at hr
  have hd := hr.dead b hb
  have h0 : ¬ ∃ v, var s.blocks b = some v := by rintro ⟨v, hv⟩; rw [hd] at hv; cases hv
  rw [C100_alive_iff he hl ho hf hal hs] at h0
  refine ⟨fun hm => h0 (.inl hm), fun hm => h0 (.inr hm), fun p hp => ?_⟩
  obtain ⟨x, _, hc, _, _, k2, _⟩ := hr.inv.rc (by decide) (mem_ptrs hp)
  have hz : x.strong = 0 := by rw [k2]; exact List.count_eq_zero.mpr fun hm => h0 (.inr hm)
  have hp' : ofKind w'.ptrs .weak p = some b := by unfold ofKind; rw [hr.ptrs, hp]; rfl
  simp only [exec, hp', hc, hz, bind, Outcome.bind, pure, if_true]

/-- **C100** A `LeakBox` is never, directly or in further ones, inside of itself, whatever is moved, swapped or destroyed: every cycle has an `Rc` on it. -/
theorem C100_boxes (he : e.Valid) (hl : level ≤ e.len) (ho : ∀ op ∈ ops, op.Valid e.target)
    (hf : (Spec.init level).FewRun e.target e.slab ops) (hal : (Spec.init level).AllowedRun e.slab ops) (hs : s = ((Spec.init level).run e.slab ops).2) (b : Nat) : ¬ s.BoxPath b b := by
  subst hs
  have h := cycle_run he ops ho (Rel.init hl) hf hal (NoCycle.init level)
  have key : ∀ {s : Spec} {b c : Nat}, s.BoxPath b c → Relation.TransGen (s.Edge .own) b c := by
    intro s b c hp
    induction hp with
    | one h => exact .single h
    | more h _ ih => exact .head h ih
  exact fun hp => h b (key hp)

/-- **C100** Only cycles with an `Rc` leak: for a value that exists and can not be reached from variables, values that are being destroyed or forgotten pointers there are such a cycle, of values that can not be reached either, and on it an `Rc` that holds it, directly or by other
values. -/
theorem C100_garbage (he : e.Valid) (hl : level ≤ e.len) (ho : ∀ op ∈ ops, op.Valid e.target)
    (hf : (Spec.init level).FewRun e.target e.slab ops) (hal : (Spec.init level).AllowedRun e.slab ops) (hs : s = ((Spec.init level).run e.slab ops).2)
    {b : Nat} (hv : ∃ v, var s.blocks b = some v) (hr : ¬ s.Reach b) :
    ∃ c d, ¬ s.Reach c ∧ s.Edge .strong c d ∧ (d = c ∨ s.Path d c) ∧ (d = b ∨ s.Path d b) := by
  obtain ⟨w, _, h5⟩ := ref_run (checks := false) he ops ho (Rel.init hl) hf hal
  have hn := cycle_run he ops ho (Rel.init hl) hf hal (NoCycle.init level)
  rw [← hs] at h5 hn
  obtain ⟨c, k1, k2, k3⟩ := cycle_of_unreachable h5 hv hr
  rcases path_cases k2 with h | ⟨x, y, h1, h2, h3⟩
  · exact absurd h (hn c)
  · have hcx : s.Path c x ∨ c = x := h2.symm
    have hyc : y = c ∨ s.Path y c := h3
    have hyx : y = x ∨ s.Path y x := by
      rcases hyc with rfl | hyc
      · exact hcx.symm.imp id id
      · rcases hcx with hcx | rfl
        · exact .inr (hyc.trans hcx)
        · exact .inr hyc
    have hyb : y = b ∨ s.Path y b := by
      rcases hyc with rfl | hyc
      · exact k3
      · rcases k3 with rfl | k3
        · exact .inr hyc
        · exact .inr (hyc.trans k3)
    refine ⟨x, y, fun hx => k1 ?_, h1, hyx, hyb⟩
    have reach : ∀ {a b : Nat}, s.Path a b → s.Reach a → s.Reach b := by
      intro a b hp
      induction hp with
      | one hk he => exact fun ha => .edge hk ha he
      | more hk he _ ih => exact fun ha => ih (.edge hk ha he)
    rcases hyc with rfl | hyc
    · exact .edge (by decide) hx h1
    · exact reach hyc (.edge (by decide) hx h1)

/-- **C100** When all destructors have ended, no variable holds anything, nothing was forgotten and no `Rc` is on a cycle, then the destructor of every value has been run exactly once. -/
theorem C100_complete (he : e.Valid) (hl : level ≤ e.len) (ho : ∀ op ∈ ops, op.Valid e.target)
    (hf : (Spec.init level).FewRun e.target e.slab ops) (hal : (Spec.init level).AllowedRun e.slab ops) (h : run e checks (World.init level) ops = .ret (rs, w))
    (hv : ∀ v ∈ w.vals, v = none) (hp : ∀ p ∈ w.ptrs, p = none) (hg : ∀ p, Op.forget p ∉ ops) (ht : w.tasks = [])
    (hc : ∀ b c, ((Spec.init level).run e.slab ops).2.Edge .strong b c → ¬ (c = b ∨ ((Spec.init level).run e.slab ops).2.Path c b)) :
    w.log.Perm (List.range w.made) := by
  obtain ⟨w', h1, hr⟩ := ref_run (checks := checks) he ops ho (Rel.init hl) hf hal
  rw [h1] at h
  simp only [Outcome.ret.injEq, Prod.mk.injEq] at h
  obtain ⟨_, rfl⟩ := h
  have hall := C100_all he hl ho hf hal rfl
  have hst : ((Spec.init level).run e.slab ops).2.stack = [] := by
    have := hr.frames
    rw [ht] at this
    generalize ((Spec.init level).run e.slab ops).2.stack = st at this
    cases this
    rfl
  have hvals : ((Spec.init level).run e.slab ops).2.vals = w'.vals := hr.vals.symm
  have hptrs : ((Spec.init level).run e.slab ops).2.ptrs = w'.ptrs := hr.ptrs.symm
  have hroots : ∀ b, ¬ ((Spec.init level).run e.slab ops).2.Reach b := by
    intro b hb
    induction hb with
    | root _ hm =>
      simp only [Spec.roots, forgotten_run ops hg, hst, hvals, hptrs, Linked.filterMap_none hp, fieldsOf_none hv] at hm
      simp [Spec.init, stackPtrs] at hm
    | edge _ _ _ ih => exact ih
  have hblocks : ∀ o ∈ ((Spec.init level).run e.slab ops).2.blocks, o = none := by
    intro o hm
    cases o with
    | none => rfl
    | some v =>
      obtain ⟨i, hi⟩ := List.mem_iff_getElem?.mp hm
      obtain ⟨c, d, _, k2, k3, _⟩ := C100_garbage he hl ho hf hal rfl (b := i) ⟨v, by unfold var; rw [hi]; rfl⟩ (hroots i)
      exact absurd k3 (hc c d k2)
  rw [hvals, Linked.filterMap_none hv, Linked.filterMap_none hblocks, ← hr.log, ← hr.made] at hall
  simpa using hall

end Verif.Mixed
