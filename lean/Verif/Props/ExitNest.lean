import Mathlib.Data.List.Nodup
import Verif.Proofs.ExitNestSpec
/-! # C102: exit stacks whose values have destructors that use exit stacks -/
namespace Verif
open ExitNest Exit Unsync

set_option autoImplicit false

/-- **C102** Let a program make exit stacks, take slots, pin, read and write values, `set`, `pop_all` and drop stacks, in any order, where the destructor of each pinned value is again a program of this kind, that also reads and writes its own
value and at the end returns or unwinds; so destructors are nested to any depth, and the stacks they use are any but those that are being cleared. Nothing is undefined behaviour, each call gives the answer it gives if stacks were lists of
values, and begins the destructors that it then would; what the program finds in memory are the values of these lists. -/
theorem C102_refines {t : Target} (ops : List Op) (hok : ∀ op ∈ ops, op.Ok t) :
    ∃ w, run .init ops = some ((srun .init ops).1, w) ∧ Shows w (srun .init ops).2 := by
  obtain ⟨w, h, hr⟩ := run_rel ops (init_rel t) hok
  exact ⟨w, h, hr.shows⟩

theorem ExitNest.run_shows {t : Target} {ops : List Op} (hok : ∀ op ∈ ops, op.Ok t) {rs : List Resp} {w : World} (h : run .init ops = some (rs, w)) : Rel t w (srun .init ops).2 := by
  obtain ⟨w', h', hr⟩ := run_rel ops (init_rel t) hok
  rw [h] at h'
  cases h'
  exact hr

theorem ExitNest.Rel.made {t : Target} {w : World} {sw : SWorld} (hr : Rel t w sw) {k : Nat} {st : Stack} (hst : w.stacks[k]? = some st) : sw.made k = st.s.next := by
  obtain ⟨x, hx⟩ := hr.stacks_of hst
  have := (hr.shows.stack k st x hst hx).2.1
  simp only [SWorld.made, hx, this]

/-- **C102** No destructor is ever begun twice, and only destructors of values that were pinned are begun. -/
theorem C102_once {t : Target} {ops : List Op} (hok : ∀ op ∈ ops, op.Ok t) {rs : List Resp} {w : World} (h : run .init ops = some (rs, w)) :
    w.log.Nodup ∧ ∀ k v, (k, v) ∈ w.log → ∃ st, w.stacks[k]? = some st ∧ v < st.s.next := by
  have hr := run_shows hok h
  have hi := srun_inv ops sinit_inv
  have hlog := hr.log
  have hle : ∀ k v, w.log.count (k, v) ≤ if v < (srun .init ops).2.made k then 1 else 0 := by
    intro k v
    have := hi.count k v
    rw [← hlog] at this
    omega
  refine ⟨List.nodup_iff_count_le_one.mpr fun ⟨k, v⟩ => ?_, fun k v hv => ?_⟩
  · have := hle k v
    split at this <;> omega
  · have h1 := hle k v
    have h2 := List.count_pos_iff.mpr hv
    have hlt : v < (srun .init ops).2.made k := Classical.byContradiction fun hn => by rw [if_neg hn] at h1; omega
    cases hst : w.stacks[k]? with
    | none =>
      have : (srun .init ops).2.stacks[k]? = none := by
        rw [List.getElem?_eq_none_iff] at hst ⊢
        rw [hr.len]; exact hst
      simp only [SWorld.made, this] at hlt
      omega
    | some st => exact ⟨st, rfl, by rw [← hr.made hst]; exact hlt⟩

/-- **C102** At every moment each value that was pinned to a stack is at exactly one place: in the stack, waiting while a destructor of an other value of the stack runs, among those whose destructors were begun, or lost. -/
theorem C102_accounted {t : Target} {ops : List Op} (hok : ∀ op ∈ ops, op.Ok t) {rs : List Resp} {w : World} (h : run .init ops = some (rs, w)) {k : Nat} {st : Stack} (hst : w.stacks[k]? = some st) (v : Nat) :
    ((srun .init ops).2.live k).count v + (srun .init ops).2.waiting.count (k, v) + w.log.count (k, v) + (srun .init ops).2.lost.count (k, v) = if v < st.s.next then 1 else 0 := by
  have hr := run_shows hok h
  have := (srun_inv ops sinit_inv).count k v
  rw [hr.log, ← hr.made hst]
  exact this

/-- **C102** No value is lost unless a destructor unwinds. -/
theorem C102_no_loss (ops : List Op) (hp : ∀ op ∈ ops, op ≠ .endDrop true) : (srun .init ops).2.lost = [] := srun_lost ops hp

/-- **C102** If no destructor unwinds: when no destructor is running, each value pinned to a stack that was dropped has had its destructor run, exactly once. -/
theorem C102_all_dropped {t : Target} {ops : List Op} (hok : ∀ op ∈ ops, op.Ok t) (hp : ∀ op ∈ ops, op ≠ .endDrop true) {rs : List Resp} {w : World} (h : run .init ops = some (rs, w)) (hf : w.frames = [])
    {k : Nat} {st : Stack} (hst : w.stacks[k]? = some st) (hd : st.s.alive = false) (v : Nat) : w.log.count (k, v) = if v < st.s.next then 1 else 0 := by
  have hr := run_shows hok h
  obtain ⟨x, hx⟩ := hr.stacks_of hst
  have hac := C102_accounted hok h hst v
  have hal : x.alive = false := by rw [← (hr.shows.stack k st x hst hx).2.2.1]; exact hd
  have hlive : (srun .init ops).2.live k = [] := by simp only [SWorld.live, hx, (srun_inv ops sinit_inv).dead k x hx hal, List.map_nil]
  have hfr : (srun .init ops).2.frames = [] := by have := hr.frames; rw [hf] at this; simpa using this.symm
  rw [hlive, C102_no_loss ops hp] at hac
  simpa [SWorld.waiting, hfr] using hac

/-- **C102** If no destructor unwinds: when no destructor is running, a value is in the linked list of its stack, or its destructor has been run; not both. -/
theorem C102_pinned_or_dropped {t : Target} {ops : List Op} (hok : ∀ op ∈ ops, op.Ok t) (hp : ∀ op ∈ ops, op ≠ .endDrop true) {rs : List Resp} {w : World} (h : run .init ops = some (rs, w)) (hf : w.frames = [])
    {k : Nat} {st : Stack} (hst : w.stacks[k]? = some st) {v : Nat} (hv : v < st.s.next) : (∃ p r, st.s.Pinned p r ∧ r.value = v) ↔ (k, v) ∉ w.log := by
  have hr := run_shows hok h
  obtain ⟨x, hx⟩ := hr.stacks_of hst
  have hac := C102_accounted hok h hst v
  have hfr : (srun .init ops).2.frames = [] := by have := hr.frames; rw [hf] at this; simpa using this.symm
  rw [C102_no_loss ops hp, if_pos hv] at hac
  simp only [SWorld.waiting, hfr, List.flatMap_nil, List.count_nil, Nat.add_zero] at hac
  have hl := hr.shows.linked k st x hst hx (by simp [hfr])
  have h1 : (∃ p r, st.s.Pinned p r ∧ r.value = v) ↔ v ∈ (srun .init ops).2.live k := by
    simp only [SWorld.live, hx, List.mem_map]
    constructor
    · rintro ⟨p, r, hpr⟩
      obtain ⟨e, he, _, he2⟩ := (hl p v).mp ⟨r, hpr⟩
      exact ⟨e, he, he2⟩
    · rintro ⟨e, he, he2⟩
      exact ⟨e.addr, (hl e.addr v).mpr ⟨e, he, rfl, he2⟩⟩
  rw [h1, ← List.count_pos_iff, ← List.count_eq_zero]
  omega

/-- **C102** Last in, first out, whatever destructors do: when a call begins a destructor, then those of all values pinned to this stack later were begun before it (or were lost), and its own was not. -/
theorem C102_newest {t : Target} {ops : List Op} {op : Op} (hok : ∀ o ∈ ops ++ [op], o.Ok t) {rs : List Resp} {w w' : World} (h : run .init ops = some (rs, w)) {k v : Nat}
    (hx : exec w op = some (.running k v, w')) :
    (k, v) ∉ w.log ∧ w'.log = (k, v) :: w.log ∧ ∀ st, w'.stacks[k]? = some st → ∀ u, v < u → u < st.s.next → (k, u) ∈ w.log ∨ (k, u) ∈ (srun .init ops).2.lost := by
  have hr := run_shows (fun o ho => hok o (by simp [ho])) h
  obtain ⟨w2, he, hr2⟩ := exec_rel hr (hok op (by simp))
  rw [hx] at he
  simp only [Option.some.injEq, Prod.mk.injEq] at he
  obtain ⟨he1, rfl⟩ := he
  have hi := srun_inv ops sinit_inv
  have hi2 := sexec_inv hi op
  obtain ⟨f, hf, hfk, hfv, hlog, hlost⟩ := srunning he1.symm
  have hlog' : w'.log = (k, v) :: w.log := by rw [hr2.log, hlog, hr.log]
  have hnd : ((k, v) :: w.log).Nodup := by
    rw [← hlog', hr2.log]
    refine List.nodup_iff_count_le_one.mpr fun ⟨a, b⟩ => ?_
    have := hi2.count a b
    split at this <;> omega
  refine ⟨(List.nodup_cons.mp hnd).1, hlog', fun st hst u hvu hu => ?_⟩
  have hc := hi2.count k u
  rw [if_pos (by rw [hr2.made hst]; exact hu)] at hc
  obtain ⟨y, hy, hy1, _⟩ := hi2.busy f hf
  rw [hfk] at hy
  have hl0 : (sexec (srun .init ops).2 op).2.live k = [] := by simp only [SWorld.live, hy, hy1, List.map_nil]
  have hw0 : (sexec (srun .init ops).2 op).2.waiting.count (k, u) = 0 := by
    rw [List.count_eq_zero]
    intro hm
    simp only [SWorld.waiting, List.mem_flatMap, List.mem_map, Prod.mk.injEq] at hm
    obtain ⟨g, hg, e, he, hge, heu⟩ := hm
    have hgf : g = f := by
      obtain ⟨i, hi', rfl⟩ := List.getElem_of_mem hg
      obtain ⟨j, hj, rfl⟩ := List.getElem_of_mem hf
      have := (List.Nodup.getElem_inj_iff hi2.nodup (i := i) (j := j) (hi := by simpa using hi') (hj := by simpa using hj)).mp (by simp only [List.getElem_map]; rw [hge, hfk])
      subst this; rfl
    subst hgf
    have := (List.pairwise_cons.mp (hi2.order g hg)).1 u (List.mem_map.mpr ⟨e, he, heu⟩)
    rw [hfv] at this
    omega
  rw [hl0, hw0, ← hr2.log, hlog', hlost, List.count_nil, List.count_cons, if_neg (by simp; omega)] at hc
  rcases Nat.eq_zero_or_pos (w.log.count (k, u)) with h0 | h0
  · exact .inr (List.count_pos_iff.mp (by omega))
  · exact .inl (List.count_pos_iff.mp h0)

/-- **C102** The slots of all values in a stack and all open slots are disjoint and in the memory of the stack; and while a stack is being cleared this is so for the value whose destructor runs and those that wait. -/
theorem C102_disjoint {t : Target} {ops : List Op} (hok : ∀ op ∈ ops, op.Ok t) {k : Nat} {x : SStack} (hx : (srun .init ops).2.stacks[k]? = some x) :
    (k ∉ (srun .init ops).2.frames.map (·.stack) →
      (x.live.map Entry.region ++ x.open_.map fun o => (⟨o.1, (pinSlotLayout x.conf.t o.2).size⟩ : Region)).Pairwise Region.Disjoint ∧
      ∀ r ∈ x.live.map Entry.region ++ x.open_.map fun o => (⟨o.1, (pinSlotLayout x.conf.t o.2).size⟩ : Region), r.Within ⟨x.slab.base, x.slab.len⟩) ∧
    ∀ f ∈ (srun .init ops).2.frames, f.stack = k →
      ((f.running :: f.rest).map Entry.region).Pairwise Region.Disjoint ∧ ∀ r ∈ (f.running :: f.rest).map Entry.region, r.Within ⟨x.slab.base, x.slab.len⟩ := by
  obtain ⟨w, _, hr⟩ := run_rel ops (init_rel t) hok
  have hlt : k < w.stacks.length := by rw [← hr.len]; exact (List.getElem?_eq_some_iff.mp hx).1
  obtain ⟨h1, h2⟩ := hr.each k _ x (List.getElem?_eq_getElem hlt) hx
  have hreg : ∀ m, Entry.region ∘ view m = pinRegion := by
    intro m; funext y; simp [Entry.region, view, pinRegion]
  constructor
  · intro hk
    obtain ⟨ev, L, hi⟩ := h1 hk
    have he : x.live.map Entry.region ++ x.open_.map (fun o => (⟨o.1, (pinSlotLayout x.conf.t o.2).size⟩ : Region)) = allocs (w.stacks[k]).conf (w.stacks[k]).s L := by
      rw [hi.live, List.map_map, hreg, hi.open_, hi.conf]; rfl
    rw [he]
    refine ⟨hi.inv.disj, fun r hr' => ?_⟩
    have h3 := hi.inv.inside r hr'
    have h4 := hi.inv.level
    have h5 := hi.slab
    rw [h5]
    exact ⟨h3.1, by simp only; omega⟩
  · intro f hf hfk
    obtain ⟨s0, ev, pre, y, rest, hin⟩ := h2 f hf hfk
    have he : (f.running :: f.rest).map Entry.region = (y :: rest).map pinRegion := by
      rw [hin.running, hin.rest_eq, ← List.map_cons, List.map_map, hreg]
    have hb := hin.busy
    have hsub : ((y :: rest).map pinRegion).Sublist (allocs (w.stacks[k]).conf s0 (pre ++ [y] ++ rest)) := by
      refine List.Sublist.trans ?_ (List.sublist_append_left _ _)
      refine List.Sublist.map _ ?_
      rw [List.append_assoc]
      exact List.sublist_append_right pre (y :: rest)
    rw [he]
    refine ⟨hb.inv.disj.sublist hsub, fun r hr' => ?_⟩
    have h3 := hb.inv.inside r (hsub.subset hr')
    have h4 := hb.inv.level
    rw [hb.slab]
    exact ⟨h3.1, by simp only; omega⟩

/-- **C102** If the destructors do nothing, then `pop_all` does what it does in the model of a single stack (C34–C37): the stack is in the same state afterwards. -/
theorem C102_agrees {t : Target} {ops : List Op} (hok : ∀ op ∈ ops, op.Ok t) {rs : List Resp} {w : World} (h : run .init ops = some (rs, w)) {k : Nat} {st : Stack} (hst : w.idle k = some st)
    {s' : EState} (hx : eexec st.conf st.s .popAll = .ret .unit s') :
    ∃ rs' w', run w (.popAll k :: List.replicate ((srun .init ops).2.live k).length (.endDrop false)) = some (rs', w') ∧
      w'.stacks[k]? = some ⟨st.conf, s', []⟩ ∧ w'.frames = w.frames ∧ w'.log = ((srun .init ops).2.live k).reverse.map (fun v => (k, v)) ++ w.log := by
  have hr := run_shows hok h
  rcases hr.idle k with ⟨h1, _⟩ | ⟨st', x, h1, _, hst', hx', hk, ev, L, hi⟩
  · rw [h1] at hst; cases hst
  rw [h1] at hst
  cases hst
  have hi' := hi.inv.close st.s.alive
  have hspec := innerPopAll_spec hi'
  simp only [eexec, popAll] at hx
  rw [hspec] at hx
  have hdu : dropUntil st.s.panics (L.map (·.2.value)) st.s.dropped = (false, (L.map (·.2.value)).reverse ++ st.s.dropped) := by
    refine dropUntil_all _ _ _ fun v hv => hi.quiet v ?_
    obtain ⟨y, hy, rfl⟩ := List.mem_map.mp hv
    exact (hi.inv.fresh y hy).2
  simp only [hdu] at hx
  rcases deref_cases st.conf with hd | hd
  · simp [hd] at hx
  · simp only [hd] at hx
    rw [if_neg (by simp)] at hx
    simp only [EOut.ret.injEq, true_and] at hx
    obtain ⟨r, w1, rs1, w2, k1, k2, k3, k4, k5⟩ := loop_agrees hd (k := k) L (w := w.put k { st with s := { st.s with top := none, open_ := [], alive := Goal.leaves .pop st.s.alive }, refs := [] })
      (put_self hst') rfl hi.inv.chain
    have hlen : ((srun .init ops).2.live k).length = L.length := by simp [SWorld.live, hx', hi.live]
    have hlive : (srun .init ops).2.live k = L.map (·.2.value) := by
      simp only [SWorld.live, hx', hi.live, List.map_map]; rfl
    have hex : exec w (.popAll k) = some (r, w1) := by simp only [exec, h1, clear]; exact k1
    refine ⟨r :: rs1, w2, ?_, ?_, k3, ?_⟩
    · simp only [run, hex, hlen, k2]
    · have hlt := (List.getElem?_eq_some_iff.mp hst').1
      rw [k4]
      simp only [World.put, List.set_set, List.getElem?_set_self hlt, Option.some.injEq, Stack.mk.injEq, true_and, and_true]
      rw [← hx]
      simp [clearedState, Goal.leaves, MemBump.reset]
    · rw [k5, hlive, ← List.map_reverse, ← List.map_reverse, List.map_map]; rfl

end Verif
