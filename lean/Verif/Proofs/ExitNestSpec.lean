import Verif.Proofs.ExitNest
/-! # Exit stacks that are used by destructors: what is true of the specification -/
namespace Verif.ExitNest
open Exit Unsync

set_option autoImplicit false

theorem SWorld.live_put {w : SWorld} {k : Nat} {x x' : SStack} (h : w.stacks[k]? = some x) (j : Nat) : (w.put k x').live j = if j = k then x'.live.map (·.value) else w.live j := by
  by_cases hj : j = k
  · subst hj; simp only [SWorld.live, sput_self h, if_true]
  · simp only [SWorld.live, sput_ne hj, if_neg hj]

theorem SWorld.made_put {w : SWorld} {k : Nat} {x x' : SStack} (h : w.stacks[k]? = some x) (j : Nat) : (w.put k x').made j = if j = k then x'.made else w.made j := by
  by_cases hj : j = k
  · subst hj; simp only [SWorld.made, sput_self h, if_true]
  · simp only [SWorld.made, sput_ne hj, if_neg hj]

theorem count_pairs (k : Nat) (l : List Entry) (j v : Nat) : (l.map fun e => (k, e.value)).count (j, v) = if j = k then (l.map (·.value)).count v else 0 := by
  induction l with
  | nil => simp
  | cons e l ih =>
    simp only [List.map_cons, List.count_cons, ih, beq_iff_eq, Prod.mk.injEq]
    by_cases hj : j = k
    · subst hj; simp
    · simp [hj, Ne.symm hj]

/-- Everything that must hold of the specification. -/
structure SInv (w : SWorld) : Prop where
  count : ∀ k v, (w.live k).count v + w.waiting.count (k, v) + w.log.count (k, v) + w.lost.count (k, v) = if v < w.made k then 1 else 0
  busy : ∀ f ∈ w.frames, ∃ x, w.stacks[f.stack]? = some x ∧ x.live = [] ∧ x.open_ = [] ∧ (f.goal ≠ .drop → x.alive = true)
  sorted : ∀ (k : Nat) (x : SStack), w.stacks[k]? = some x → (x.live.map (·.value)).Pairwise (· > ·)
  dead : ∀ (k : Nat) (x : SStack), w.stacks[k]? = some x → x.alive = false → x.live = []
  order : ∀ f ∈ w.frames, (f.running.value :: f.rest.map (·.value)).Pairwise (· > ·)
  nodup : (w.frames.map (·.stack)).Nodup
  begun : ∀ f ∈ w.frames, (f.stack, f.running.value) ∈ w.log

theorem SInv.live_lt {w : SWorld} (h : SInv w) {k v : Nat} (hv : v ∈ w.live k) : v < w.made k := by
  have := h.count k v
  have := List.count_pos_iff.mpr hv
  refine Classical.byContradiction fun hn => ?_
  rw [if_neg hn] at *
  omega

theorem SInv.of_put {w : SWorld} (h : SInv w) {k : Nat} {x x' : SStack} (hx : w.stacks[k]? = some x) (hk : k ∉ w.frames.map (·.stack))
    (hc : ∀ v, (x'.live.map (·.value)).count v + (if v < x.made then 1 else 0) = (x.live.map (·.value)).count v + if v < x'.made then 1 else 0)
    (hs : (x'.live.map (·.value)).Pairwise (· > ·)) (hd : x'.alive = false → x'.live = []) : SInv (w.put k x') := by
  refine ⟨fun j v => ?_, fun f hf => ?_, fun j y hy => ?_, fun j y hy hdy => ?_, h.order, h.nodup, h.begun⟩
  · have hcv := hc v
    have hjv := h.count j v
    rw [SWorld.live_put hx, SWorld.made_put hx]
    simp only [SWorld.waiting, SWorld.put] at hjv ⊢
    by_cases hj : j = k
    · subst hj
      simp only [SWorld.live, SWorld.made, hx, if_true] at hjv ⊢
      omega
    · simp only [if_neg hj]; exact hjv
  · have hne : f.stack ≠ k := fun e => hk (List.mem_map.mpr ⟨f, hf, e⟩)
    rw [sput_ne hne]
    exact h.busy f hf
  · by_cases hj : j = k
    · subst hj; rw [sput_self hx] at hy; cases hy; exact hs
    · rw [sput_ne hj] at hy; exact h.sorted j y hy
  · by_cases hj : j = k
    · subst hj; rw [sput_self hx] at hy; cases hy; exact hd hdy
    · rw [sput_ne hj] at hy; exact h.dead j y hy hdy

/-- The frame of a stack that is being cleared is taken away for the moment: the values `rest` are nowhere. -/
structure Loop (w : SWorld) (k : Nat) (x : SStack) (goal : Goal) (rest : List Entry) : Prop where
  stack : w.stacks[k]? = some x
  empty : x.live = [] ∧ x.open_ = []
  alive : goal ≠ .drop → x.alive = true
  idle : k ∉ w.frames.map (·.stack)
  count : ∀ j v, (w.live j).count v + (if j = k then (rest.map (·.value)).count v else 0) + w.waiting.count (j, v) + w.log.count (j, v) + w.lost.count (j, v) = if v < w.made j then 1 else 0
  rest_sorted : (rest.map (·.value)).Pairwise (· > ·)
  busy : ∀ f ∈ w.frames, ∃ x, w.stacks[f.stack]? = some x ∧ x.live = [] ∧ x.open_ = [] ∧ (f.goal ≠ .drop → x.alive = true)
  sorted : ∀ (k : Nat) (x : SStack), w.stacks[k]? = some x → (x.live.map (·.value)).Pairwise (· > ·)
  dead : ∀ (k : Nat) (x : SStack), w.stacks[k]? = some x → x.alive = false → x.live = []
  order : ∀ f ∈ w.frames, (f.running.value :: f.rest.map (·.value)).Pairwise (· > ·)
  nodup : (w.frames.map (·.stack)).Nodup
  begun : ∀ f ∈ w.frames, (f.stack, f.running.value) ∈ w.log

theorem Loop.next {w : SWorld} {k : Nat} {x : SStack} {goal : Goal} {rest : List Entry} (h : Loop w k x goal rest) : SInv (snext w k x goal rest).2 := by
  cases rest with
  | cons e rest =>
    simp only [snext]
    refine ⟨fun j v => ?_, fun f hf => ?_, h.sorted, h.dead, fun f hf => ?_, by simp only [List.map_cons, List.nodup_cons]; exact ⟨h.idle, h.nodup⟩, fun f hf => ?_⟩
    · have := h.count j v
      change (w.live j).count v + _ + _ + _ = if v < w.made j then 1 else 0
      simp only [SWorld.waiting, List.flatMap_cons, List.count_append, count_pairs, List.count_cons, beq_iff_eq, Prod.mk.injEq, List.map_cons] at this ⊢
      by_cases hj : j = k
      · subst hj
        simp only [if_true, true_and] at this ⊢
        omega
      · simp only [if_neg hj, Ne.symm hj, false_and, if_false] at this ⊢
        omega
    · rcases List.mem_cons.mp hf with rfl | hf
      · exact ⟨x, h.stack, h.empty.1, h.empty.2, h.alive⟩
      · exact h.busy f hf
    · rcases List.mem_cons.mp hf with rfl | hf
      · simpa using h.rest_sorted
      · exact h.order f hf
    · rcases List.mem_cons.mp hf with rfl | hf
      · simp
      · exact List.mem_cons_of_mem _ (h.begun f hf)
  | nil =>
    have hinv : SInv w := ⟨fun j v => by simpa using h.count j v, h.busy, h.sorted, h.dead, h.order, h.nodup, h.begun⟩
    simp only [snext, sfinish]
    split
    · exact hinv
    · cases goal with
      | pop => exact hinv.of_put h.stack h.idle (fun v => rfl) (h.sorted k x h.stack) (h.dead k x h.stack)
      | drop => exact hinv.of_put h.stack h.idle (fun v => rfl) (h.sorted k x h.stack) (h.dead k x h.stack)
      | set bytes =>
        simp only
        split
        · refine hinv.of_put h.stack h.idle (fun v => ?_) (by simp) (fun hd => ?_)
          · simp only [h.empty.1, List.map_cons, List.map_nil, List.count_cons, List.count_nil, beq_iff_eq]
            split <;> split <;> split <;> omega
          · exact absurd (h.alive (by simp)) (by simp only at hd; simp [hd])
        · exact hinv.of_put h.stack h.idle (fun v => rfl) (h.sorted k x h.stack) (h.dead k x h.stack)

theorem SInv.clear {w : SWorld} (h : SInv w) {k : Nat} {x : SStack} (hx : w.stacks[k]? = some x) (hk : k ∉ w.frames.map (·.stack)) (hal : x.alive = true) (goal : Goal) : SInv (sclear w k x goal).2 := by
  simp only [sclear]
  refine Loop.next ⟨sput_self hx, ⟨rfl, rfl⟩, fun hg => by simp [hg, hal], hk, fun j v => ?_, h.sorted k x hx, fun f hf => ?_, fun j y hy => ?_, fun j y hy hd => ?_, h.order, h.nodup, h.begun⟩
  · have := h.count j v
    rw [SWorld.live_put hx, SWorld.made_put hx]
    simp only [SWorld.waiting, SWorld.put] at this ⊢
    by_cases hj : j = k
    · subst hj
      simp only [SWorld.live, SWorld.made, hx, if_true, List.map_nil, List.count_nil] at this ⊢
      omega
    · simp only [if_neg hj]; omega
  · have hne : f.stack ≠ k := fun e => hk (List.mem_map.mpr ⟨f, hf, e⟩)
    rw [sput_ne hne]
    exact h.busy f hf
  · by_cases hj : j = k
    · subst hj; rw [sput_self hx] at hy; cases hy; simp
    · rw [sput_ne hj] at hy; exact h.sorted j y hy
  · by_cases hj : j = k
    · subst hj; rw [sput_self hx] at hy; cases hy; rfl
    · rw [sput_ne hj] at hy; exact h.dead j y hy hd

theorem SWorld.idle_some {w : SWorld} {k : Nat} {x : SStack} (h : w.idle k = some x) : w.stacks[k]? = some x ∧ x.alive = true ∧ k ∉ w.frames.map (·.stack) := by
  simp only [SWorld.idle] at h
  split at h
  · cases h
  · rename_i y hy
    split at h
    · rename_i hc
      cases h
      exact ⟨hy, hc⟩
    · cases h

theorem sexec_inv {w : SWorld} (h : SInv w) (op : Op) : SInv (sexec w op).2 := by
  cases op with
  | new c m =>
    have hlive : ∀ j, ({ w with stacks := w.stacks ++ [⟨c, 0, [], [], 0, true⟩] } : SWorld).live j = w.live j ∧ ({ w with stacks := w.stacks ++ [⟨c, 0, [], [], 0, true⟩] } : SWorld).made j = w.made j := by
      intro j
      simp only [SWorld.live, SWorld.made]
      rcases Nat.lt_trichotomy j w.stacks.length with hj | hj | hj
      · rw [List.getElem?_append_left hj]; exact ⟨rfl, rfl⟩
      · subst hj; simp
      · rw [List.getElem?_eq_none (by simp; omega), List.getElem?_eq_none (by omega)]; exact ⟨rfl, rfl⟩
    have hget : ∀ (j : Nat) (y : SStack), (w.stacks ++ [⟨c, 0, [], [], 0, true⟩])[j]? = some y → w.stacks[j]? = some y ∨ (y.live = [] ∧ y.alive = true) := by
      intro j y hy
      rcases Nat.lt_trichotomy j w.stacks.length with hj | hj | hj
      · rw [List.getElem?_append_left hj] at hy; exact .inl hy
      · subst hj
        simp only [List.getElem?_concat_length, Option.some.injEq] at hy
        subst hy
        exact .inr ⟨rfl, rfl⟩
      · rw [List.getElem?_eq_none (by simp; omega)] at hy; cases hy
    refine ⟨fun j v => ?_, fun f hf => ?_, fun j y hy => ?_, fun j y hy hd => ?_, h.order, h.nodup, h.begun⟩
    · simp only [sexec, (hlive j).1, (hlive j).2]
      exact h.count j v
    · obtain ⟨x, hx, hx'⟩ := h.busy f hf
      refine ⟨x, ?_, hx'⟩
      simp only [sexec]
      rw [List.getElem?_append_left (List.getElem?_eq_some_iff.mp hx).1]; exact hx
    · rcases hget j y hy with hy | hy
      · exact h.sorted j y hy
      · rw [hy.1]; simp
    · rcases hget j y hy with hy | hy
      · exact h.dead j y hy hd
      · exact hy.1
  | slot k T =>
    simp only [sexec]
    split
    · exact h
    · rename_i x hx
      obtain ⟨hx, hal, hk⟩ := SWorld.idle_some hx
      split
      · exact h
      · split
        · exact h
        · exact h.of_put hx hk (fun v => rfl) (h.sorted k x hx) (h.dead k x hx)
  | pin k p T bytes =>
    simp only [sexec]
    split
    · exact h
    · rename_i x hx
      obtain ⟨hx, hal, hk⟩ := SWorld.idle_some hx
      split
      · have hlt : ∀ v ∈ x.live.map (·.value), v < x.made := by
          intro v hv
          have := h.live_lt (k := k) (v := v) (by simpa only [SWorld.live, hx] using hv)
          simpa only [SWorld.made, hx] using this
        refine h.of_put hx hk (fun v => ?_) ?_ (fun hd => by simp only at hd; rw [hal] at hd; cases hd)
        · simp only [List.map_cons, List.count_cons, beq_iff_eq]
          split <;> split <;> split <;> omega
        · simp only [List.map_cons, List.pairwise_cons]
          exact ⟨hlt, h.sorted k x hx⟩
      · exact h
  | write k p off bytes =>
    simp only [sexec]
    split
    · exact h
    · rename_i x hx
      obtain ⟨hx, hal, hk⟩ := SWorld.idle_some hx
      split
      · have he : (x.live.map fun e => if e.addr = p then { e with bytes := patch e.bytes off bytes } else e).map (·.value) = x.live.map (·.value) := by
          simp only [List.map_map]
          refine List.map_congr_left fun e _ => ?_
          simp only [Function.comp_apply]
          split <;> rfl
        refine h.of_put hx hk (fun v => ?_) ?_ (fun hd => ?_)
        · simp only [he]
        · simp only [he]; exact h.sorted k x hx
        · simp only [h.dead k x hx hd, List.map_nil]
      · exact h
  | read k p off len =>
    simp only [sexec]
    split
    · exact h
    · split
      · exact h
      · split <;> exact h
  | writeSelf off bytes =>
    simp only [sexec]
    split
    · exact h
    · rename_i f fs hf
      split
      · exact h
      · split
        · have hnd := h.nodup
          rw [hf] at hnd
          refine ⟨fun j v => ?_, fun g hg => ?_, h.sorted, h.dead, fun g hg => ?_, by simpa using hnd, fun g hg => ?_⟩
          · have := h.count j v
            simp only [SWorld.waiting, SWorld.live, SWorld.made, hf, List.flatMap_cons] at this ⊢
            exact this
          · rcases List.mem_cons.mp hg with rfl | hg
            · exact h.busy f (by rw [hf]; simp)
            · exact h.busy g (by rw [hf]; simp [hg])
          · rcases List.mem_cons.mp hg with rfl | hg
            · exact h.order f (by rw [hf]; simp)
            · exact h.order g (by rw [hf]; simp [hg])
          · rcases List.mem_cons.mp hg with rfl | hg
            · exact h.begun f (by rw [hf]; simp)
            · exact h.begun g (by rw [hf]; simp [hg])
        · exact h
  | readSelf off len =>
    simp only [sexec]
    split
    · exact h
    · split
      · exact h
      · split <;> exact h
  | set k bytes =>
    simp only [sexec]
    split
    · exact h
    · rename_i x hx
      obtain ⟨hx, hal, hk⟩ := SWorld.idle_some hx
      split
      · exact h.clear hx hk hal _
      · exact h
  | popAll k =>
    simp only [sexec]
    split
    · exact h
    · rename_i x hx
      obtain ⟨hx, hal, hk⟩ := SWorld.idle_some hx
      exact h.clear hx hk hal _
  | dropStack k =>
    simp only [sexec]
    split
    · exact h
    · rename_i x hx
      obtain ⟨hx, hal, hk⟩ := SWorld.idle_some hx
      exact h.clear hx hk hal _
  | endDrop panics =>
    simp only [sexec]
    split
    · exact h
    · rename_i f fs hf
      have hnd := h.nodup
      rw [hf, List.map_cons, List.nodup_cons] at hnd
      have hsub : ∀ g ∈ fs, g ∈ w.frames := fun g hg => by rw [hf]; simp [hg]
      split
      · refine ⟨fun j v => ?_, fun g hg => h.busy g (hsub g hg), h.sorted, h.dead, fun g hg => h.order g (hsub g hg), hnd.2, fun g hg => h.begun g (hsub g hg)⟩
        have := h.count j v
        change (w.live j).count v + _ + _ + _ = if v < w.made j then 1 else 0
        simp only [SWorld.waiting, hf, List.flatMap_cons, List.count_append] at this ⊢
        omega
      · split
        · exact h
        · rename_i x hx
          obtain ⟨y, hy, he1, he2, ha⟩ := h.busy f (by rw [hf]; simp)
          rw [hx] at hy
          cases hy
          refine Loop.next ⟨hx, ⟨he1, he2⟩, ha, hnd.1, fun j v => ?_, (List.pairwise_cons.mp (h.order f (by rw [hf]; simp))).2, fun g hg => h.busy g (hsub g hg), h.sorted, h.dead,
            fun g hg => h.order g (hsub g hg), hnd.2, fun g hg => h.begun g (hsub g hg)⟩
          have := h.count j v
          change (w.live j).count v + _ + _ + _ + _ = if v < w.made j then 1 else 0
          simp only [SWorld.waiting, hf, List.flatMap_cons, List.count_append, count_pairs] at this ⊢
          omega

theorem sinit_inv : SInv .init :=
  ⟨fun k v => by simp [SWorld.init, SWorld.live, SWorld.waiting, SWorld.made], by simp [SWorld.init], by simp [SWorld.init], by simp [SWorld.init], by simp [SWorld.init], by simp [SWorld.init], by simp [SWorld.init]⟩

theorem srun_inv : ∀ (ops : List Op) {w : SWorld}, SInv w → SInv (srun w ops).2
  | [], _, h => h
  | op :: ops, _, h => srun_inv ops (sexec_inv h op)

theorem snext_lost (w : SWorld) (k : Nat) (x : SStack) (goal : Goal) (rest : List Entry) : (snext w k x goal rest).2.lost = w.lost := by
  cases rest with
  | cons e rest => rfl
  | nil =>
    simp only [snext, sfinish]
    split
    · rfl
    · cases goal with
      | pop => rfl
      | drop => rfl
      | set bytes =>
        simp only
        split <;> rfl

theorem sclear_lost (w : SWorld) (k : Nat) (x : SStack) (goal : Goal) : (sclear w k x goal).2.lost = w.lost := by
  simp only [sclear, snext_lost]; rfl

/-- Only a destructor that unwinds loses values. -/
theorem sexec_lost (w : SWorld) {op : Op} (h : op ≠ .endDrop true) : (sexec w op).2.lost = w.lost := by
  cases op with
  | endDrop panics =>
    cases panics with
    | true => exact absurd rfl h
    | false =>
      simp only [sexec]
      split
      · rfl
      · rw [if_neg (by simp)]
        split
        · rfl
        · rw [snext_lost]
  | new c m => rfl
  | slot k T => simp only [sexec]; repeat' split
                all_goals rfl
  | pin k p T bytes => simp only [sexec]; repeat' split
                       all_goals rfl
  | write k p off bytes => simp only [sexec]; repeat' split
                           all_goals rfl
  | read k p off len => simp only [sexec]; repeat' split
                        all_goals rfl
  | writeSelf off bytes => simp only [sexec]; repeat' split
                           all_goals rfl
  | readSelf off len => simp only [sexec]; repeat' split
                        all_goals rfl
  | set k bytes =>
    simp only [sexec]
    split
    · rfl
    · split
      · exact sclear_lost ..
      · rfl
  | popAll k =>
    simp only [sexec]
    split
    · rfl
    · exact sclear_lost ..
  | dropStack k =>
    simp only [sexec]
    split
    · rfl
    · exact sclear_lost ..

theorem srun_lost : ∀ (ops : List Op) {w : SWorld}, (∀ op ∈ ops, op ≠ .endDrop true) → (srun w ops).2.lost = w.lost
  | [], _, _ => rfl
  | op :: ops, w, h => by
    show (srun (sexec w op).2 ops).2.lost = w.lost
    rw [srun_lost ops (fun o ho => h o (by simp [ho])), sexec_lost w (h op (by simp))]

/-! ## Beginning a destructor -/

/-- A call that begins a destructor. -/
def Begins (w w' : SWorld) (k v : Nat) : Prop :=
  ∃ f ∈ w'.frames, f.stack = k ∧ f.running.value = v ∧ w'.log = (k, v) :: w.log ∧ w'.lost = w.lost

theorem snext_begins {w : SWorld} {k j v : Nat} {x : SStack} {goal : Goal} {rest : List Entry} (h : (snext w k x goal rest).1 = .running j v) : Begins w (snext w k x goal rest).2 j v := by
  cases rest with
  | cons e rest =>
    simp only [snext, Resp.running.injEq] at h ⊢
    obtain ⟨rfl, rfl⟩ := h
    exact ⟨_, by simp; exact .inl rfl, rfl, rfl, rfl, rfl⟩
  | nil =>
    simp only [snext, sfinish] at h
    split at h
    · cases h
    · cases goal with
      | pop => cases h
      | drop => cases h
      | set bytes =>
        simp only at h
        split at h <;> cases h

theorem srunning {w : SWorld} {op : Op} {k v : Nat} (h : (sexec w op).1 = .running k v) : Begins w (sexec w op).2 k v := by
  have hclear : ∀ (j : Nat) (x : SStack) (goal : Goal), (sclear w j x goal).1 = .running k v → Begins w (sclear w j x goal).2 k v := by
    intro j x goal h
    simp only [sclear] at h ⊢
    exact snext_begins h
  cases op with
  | new c m => cases h
  | slot i T => simp only [sexec] at h; split at h; · cases h
                split at h; · cases h
                split at h <;> cases h
  | pin i p T bytes => simp only [sexec] at h; split at h; · cases h
                       split at h <;> cases h
  | write i p off bytes => simp only [sexec] at h; split at h; · cases h
                           split at h <;> cases h
  | read i p off len => simp only [sexec] at h; split at h; · cases h
                        split at h; · cases h
                        split at h <;> cases h
  | writeSelf off bytes => simp only [sexec] at h; split at h; · cases h
                           split at h; · cases h
                           split at h <;> cases h
  | readSelf off len => simp only [sexec] at h; split at h; · cases h
                        split at h; · cases h
                        split at h <;> cases h
  | set i bytes =>
    simp only [sexec] at h ⊢
    split at h
    · cases h
    · split at h
      · rename_i hl
        rw [if_pos hl]; exact hclear _ _ _ h
      · cases h
  | popAll i =>
    simp only [sexec] at h ⊢
    split at h
    · cases h
    · exact hclear _ _ _ h
  | dropStack i =>
    simp only [sexec] at h ⊢
    split at h
    · cases h
    · exact hclear _ _ _ h
  | endDrop panics =>
    simp only [sexec] at h ⊢
    split at h
    · cases h
    · split at h
      · cases h
      · split at h
        · cases h
        · rename_i hp _ _ _
          simp only [hp]
          exact snext_begins (w := { w with frames := _ }) h

end Verif.ExitNest
