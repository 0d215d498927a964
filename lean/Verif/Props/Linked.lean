import Verif.Proofs.Linked
/-!
# C96: structures linked by boxes are dropped completely, node by node

`Spec.run` says what a program with linked values does, in terms of trees and without memory. The program has a `Bump` of which `level` bytes are used already, on memory with any content.
-/
set_option autoImplicit false
namespace Verif.Linked
open Verif

/-- **C96** Every program, whatever it links, moves and drops and whichever destructors panic, runs without undefined behavior, gives the responses of the specification and runs the destructors in its order. -/
theorem C96_refines {e : Bump.Env} (he : e.Valid) {level : Nat} (hl : level ≤ e.len) (mem : Nat → Option Node) (panics : Nat → Bool)
    (ops : List Op) (ho : ∀ op ∈ ops, op.Valid e.target) :
    ∃ w, run e panics (World.init level mem) ops = .ret (((Spec.init level).run e.slab panics ops).1, w) ∧
      w.log = ((Spec.init level).run e.slab panics ops).2.log ∧ w.aborted = ((Spec.init level).run e.slab panics ops).2.aborted := by
  obtain ⟨w, vs, bs, h1, h2⟩ := ref_run he panics ops ho (Ref.init hl mem) (SInv.init level) rfl
  exact ⟨w, h1, h2.log, h2.aborted⟩

/-- **C96** No destructor is run twice, and only those of values that were made. -/
theorem C96_once {e : Bump.Env} (he : e.Valid) {level : Nat} (hl : level ≤ e.len) (mem : Nat → Option Node) (panics : Nat → Bool)
    (ops : List Op) (ho : ∀ op ∈ ops, op.Valid e.target) {rs : List Resp} {w : World} (h : run e panics (World.init level mem) ops = .ret (rs, w)) :
    w.log.Nodup ∧ ∀ i ∈ w.log, i < w.made := by
  obtain ⟨w', vs, bs, h1, h2⟩ := ref_run he panics ops ho (Ref.init hl mem) (SInv.init level) rfl
  rw [h1] at h
  simp only [Outcome.ret.injEq, Prod.mk.injEq] at h
  obtain ⟨_, rfl⟩ := h
  obtain ⟨lost, hp, _⟩ := SInv.run (slab := e.slab) (panics := panics) ops (SInv.init level) rfl
  rw [h2.log, h2.made]
  constructor
  · have := hp.nodup_iff.mpr List.nodup_range
    simp only [List.nodup_append] at this
    exact this.1.1.2.1
  · intro i hi
    exact List.mem_range.mp (hp.mem_iff.mp (by simp [hi]))

/-- **C96** Unless the program is aborted, every value has been destroyed, is held by a variable (directly, or in the boxes of a value that is), or was forgotten, and only one of these. -/
theorem C96_all {e : Bump.Env} (he : e.Valid) {level : Nat} (hl : level ≤ e.len) (mem : Nat → Option Node) (panics : Nat → Bool)
    (ops : List Op) (ho : ∀ op ∈ ops, op.Valid e.target) {rs : List Resp} {w : World} (h : run e panics (World.init level mem) ops = .ret (rs, w)) (ha : w.aborted = false) :
    (w.log ++ ((Spec.init level).run e.slab panics ops).2.held ++ ((Spec.init level).run e.slab panics ops).2.leaked).Perm (List.range w.made) := by
  obtain ⟨w', vs, bs, h1, h2⟩ := ref_run he panics ops ho (Ref.init hl mem) (SInv.init level) rfl
  rw [h1] at h
  simp only [Outcome.ret.injEq, Prod.mk.injEq] at h
  obtain ⟨_, rfl⟩ := h
  obtain ⟨lost, hp, hlost⟩ := SInv.run (slab := e.slab) (panics := panics) ops (SInv.init level) rfl
  have := hlost (h2.aborted ▸ ha)
  subst this
  rw [h2.log, h2.made]
  refine List.Perm.trans ?_ hp
  simp only [Spec.held, idsAll_filterMap, List.append_nil]
  refine perm_count.mpr fun a => ?_
  simp only [List.count_append]
  omega

/-- **C96** In particular: when no variable holds anything and nothing was forgotten, the destructor of every value has been run exactly once. -/
theorem C96_complete {e : Bump.Env} (he : e.Valid) {level : Nat} (hl : level ≤ e.len) (mem : Nat → Option Node) (panics : Nat → Bool)
    (ops : List Op) (ho : ∀ op ∈ ops, op.Valid e.target) {rs : List Resp} {w : World} (h : run e panics (World.init level mem) ops = .ret (rs, w)) (ha : w.aborted = false)
    (hv : ∀ v ∈ w.vals, v = none) (hb : ∀ b ∈ w.boxes, b = none) (hf : ∀ b, Op.forget b ∉ ops) :
    w.log.Perm (List.range w.made) := by
  have hall := C96_all he hl mem panics ops ho h ha
  obtain ⟨w', vs, bs, h1, h2⟩ := ref_run he panics ops ho (Ref.init hl mem) (SInv.init level) rfl
  rw [h1] at h
  simp only [Outcome.ret.injEq, Prod.mk.injEq] at h
  obtain ⟨_, rfl⟩ := h
  rw [leaked_run ops hf, Spec.held, h2.svals, h2.sboxes, filterMap_none, filterMap_none] at hall
  · simpa [Spec.init, idsAll] using hall
  · intro x hx
    obtain ⟨o, ho, rfl⟩ := List.mem_map.mp hx
    have := hb (o.map ATree.addr) (by rw [h2.wboxes]; exact List.mem_map_of_mem ho)
    cases o with
    | none => rfl
    | some y => cases this
  · intro x hx
    obtain ⟨o, ho, rfl⟩ := List.mem_map.mp hx
    have := hv (o.map AVal.node) (by rw [h2.wvals]; exact List.mem_map_of_mem ho)
    cases o with
    | none => rfl
    | some y => cases this

end Verif.Linked
