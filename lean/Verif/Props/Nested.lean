import Verif.Proofs.Nested
/-!
# C98: vectors of values that contain vectors

`Spec.run` says what a program does with values that contain vectors of such values, in terms of trees and without memory. The program has a `Bump` of which `level` bytes are used already, on memory with any content. `L` is the layout of the type.
-/
set_option autoImplicit false
namespace Verif.Nested

/-- **C98** Every program, whatever it pushes, pops, drains, splits, swaps and drops at whatever depth and whichever destructors panic, runs without undefined behavior, gives the responses of the specification and runs the destructors in its order. -/
theorem C98_refines {e : Bump.Env} (he : e.Valid) {L : Layout} (hL : L.ValidType e.target) (hs : 0 < L.size) {level : Nat} (hl : level ≤ e.len) (mem : Nat → Option Node) (panics : Nat → Bool)
    (ops : List Op) (ho : ∀ op ∈ ops, op.Valid e.target) :
    ∃ w, run e L panics (World.init level mem) ops = .ret (((Spec.init level).run e.slab L panics ops).1, w) ∧
      w.log = ((Spec.init level).run e.slab L panics ops).2.log ∧ w.aborted = ((Spec.init level).run e.slab L panics ops).2.aborted := by
  obtain ⟨w, vs, h1, h2⟩ := ref_run he hL hs panics ops ho (Ref.init hl mem) (SInv.init level) rfl
  exact ⟨w, h1, h2.log, h2.aborted⟩

/-- **C98** No destructor is run twice, and only those of values that were made. -/
theorem C98_once {e : Bump.Env} (he : e.Valid) {L : Layout} (hL : L.ValidType e.target) (hs : 0 < L.size) {level : Nat} (hl : level ≤ e.len) (mem : Nat → Option Node) (panics : Nat → Bool)
    (ops : List Op) (ho : ∀ op ∈ ops, op.Valid e.target) {rs : List Resp} {w : World} (h : run e L panics (World.init level mem) ops = .ret (rs, w)) :
    w.log.Nodup ∧ ∀ i ∈ w.log, i < w.made := by
  obtain ⟨w', vs, h1, h2⟩ := ref_run he hL hs panics ops ho (Ref.init hl mem) (SInv.init level) rfl
  rw [h1] at h
  simp only [Outcome.ret.injEq, Prod.mk.injEq] at h
  obtain ⟨_, rfl⟩ := h
  obtain ⟨lost, hp, _⟩ := SInv.run (slab := e.slab) (L := L) (panics := panics) ops (SInv.init level) rfl
  rw [h2.log, h2.made]
  constructor
  · have := hp.nodup_iff.mpr List.nodup_range
    simp only [List.nodup_append] at this
    exact this.1.1.2.1
  · intro i hi
    exact List.mem_range.mp (hp.mem_iff.mp (by simp [hi]))

/-- **C98** Unless the program is aborted, every value has been destroyed, is held by a variable (directly, or in the vector of a value that is), or was given up (forgotten, or in a drain of which a destructor panicked), and only one of these. -/
theorem C98_all {e : Bump.Env} (he : e.Valid) {L : Layout} (hL : L.ValidType e.target) (hs : 0 < L.size) {level : Nat} (hl : level ≤ e.len) (mem : Nat → Option Node) (panics : Nat → Bool)
    (ops : List Op) (ho : ∀ op ∈ ops, op.Valid e.target) {rs : List Resp} {w : World} (h : run e L panics (World.init level mem) ops = .ret (rs, w)) (ha : w.aborted = false) :
    (w.log ++ ((Spec.init level).run e.slab L panics ops).2.held ++ ((Spec.init level).run e.slab L panics ops).2.leaked).Perm (List.range w.made) := by
  obtain ⟨w', vs, h1, h2⟩ := ref_run he hL hs panics ops ho (Ref.init hl mem) (SInv.init level) rfl
  rw [h1] at h
  simp only [Outcome.ret.injEq, Prod.mk.injEq] at h
  obtain ⟨_, rfl⟩ := h
  obtain ⟨lost, hp, hlost⟩ := SInv.run (slab := e.slab) (L := L) (panics := panics) ops (SInv.init level) rfl
  have := hlost (h2.aborted ▸ ha)
  subst this
  rw [h2.log, h2.made]
  refine List.Perm.trans ?_ hp
  simp only [Spec.held, idsAll_filterMap, List.append_nil]
  refine Linked.perm_count.mpr fun a => ?_
  simp only [List.count_append]
  omega

/-- **C98** In particular: when no variable holds anything, nothing was forgotten, and no destructor panics (or no drain was used), the destructor of every value has been run exactly once. -/
theorem C98_complete {e : Bump.Env} (he : e.Valid) {L : Layout} (hL : L.ValidType e.target) (hs : 0 < L.size) {level : Nat} (hl : level ≤ e.len) (mem : Nat → Option Node) (panics : Nat → Bool)
    (ops : List Op) (ho : ∀ op ∈ ops, op.Valid e.target) {rs : List Resp} {w : World} (h : run e L panics (World.init level mem) ops = .ret (rs, w)) (ha : w.aborted = false)
    (hv : ∀ v ∈ w.vals, v = none) (hf : ∀ op ∈ ops, op.forgets = false) (hd : (∀ i, panics i = false) ∨ ∀ op ∈ ops, op.drains = false) :
    w.log.Perm (List.range w.made) := by
  have hall := C98_all he hL hs hl mem panics ops ho h ha
  obtain ⟨w', vs, h1, h2⟩ := ref_run he hL hs panics ops ho (Ref.init hl mem) (SInv.init level) rfl
  rw [h1] at h
  simp only [Outcome.ret.injEq, Prod.mk.injEq] at h
  obtain ⟨_, rfl⟩ := h
  rw [leaked_run ops hf hd, Spec.held, h2.svals, Linked.filterMap_none] at hall
  · simpa [Spec.init, idsAll] using hall
  · intro x hx
    obtain ⟨o, ho, rfl⟩ := List.mem_map.mp hx
    have := hv (o.map ATree.bits) (by rw [h2.wvals]; exact List.mem_map_of_mem ho)
    cases o with
    | none => rfl
    | some y => cases this

end Verif.Nested
