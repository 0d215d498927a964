import Verif.Proofs.Borrows
/-! # Stacks with a block of shared-mutable items

The stacks of a type with interior mutability: references to parts of it on top, then the pointers derived from shared references, then the owner. -/
set_option autoImplicit false
namespace Verif.Borrows

/-- A stack in three parts. -/
structure Col where
  above : List Item
  blk : List Item
  base : List Item

def Col.st (c : Col) : List Item := c.above ++ (c.blk ++ c.base)

/-- `w` is the tag of the owner, `n` the next tag. -/
structure Col.Ok (w n : Nat) (c : Col) : Prop where
  base : ∃ p rest, c.base = ⟨w, p⟩ :: rest ∧ p.grants .write = true
  noRW : ∀ i ∈ c.above, i.perm ≠ .sharedRW
  blk : ∀ i ∈ c.blk, i.perm = .sharedRW
  sorted : Sorted c.above
  nodup : (c.st.map Item.tag).Nodup
  fresh : ∀ i ∈ c.st, i.tag < n

theorem sorted_iff {st : List Item} : Sorted st ↔ (st.map Item.tag).Pairwise (fun x y => y < x) := by
  unfold Sorted; rw [List.pairwise_map]

theorem Col.Ok.shrink {w n : Nat} {c : Col} (h : c.Ok w n) {A B : List Item} (hA : (A.map Item.tag).Sublist (c.above.map Item.tag)) (hn : ∀ i ∈ A, i.perm ≠ .sharedRW)
    (hB : B.Sublist c.blk) : (⟨A, B, c.base⟩ : Col).Ok w n := by
  have hs : ((⟨A, B, c.base⟩ : Col).st.map Item.tag).Sublist (c.st.map Item.tag) := by
    unfold Col.st
    simp only [List.map_append]
    exact hA.append ((hB.map _).append (List.Sublist.refl _))
  refine ⟨h.base, hn, fun i hi => h.blk i (hB.subset hi), sorted_iff.2 ((sorted_iff.1 h.sorted).sublist hA), h.nodup.sublist hs, ?_⟩
  intro i hi
  obtain ⟨j, hj, e⟩ := List.mem_map.1 (hs.subset (List.mem_map.2 ⟨i, hi, rfl⟩))
  rw [← e]; exact h.fresh j hj

theorem Col.Ok.mono {w n n' : Nat} {c : Col} (h : c.Ok w n) (hn : n ≤ n') : c.Ok w n' :=
  ⟨h.base, h.noRW, h.blk, h.sorted, h.nodup, fun i hi => Nat.lt_of_lt_of_le (h.fresh i hi) hn⟩

/-- Push of a fresh reference. -/
theorem Col.Ok.push {w n : Nat} {c : Col} (h : c.Ok w n) {p : Perm} (hp : p ≠ .sharedRW) : (⟨⟨n, p⟩ :: c.above, c.blk, c.base⟩ : Col).Ok w (n + 1) := by
  refine ⟨h.base, ?_, h.blk, ?_, ?_, ?_⟩
  · intro i hi
    rcases List.mem_cons.1 hi with rfl | hi
    · exact hp
    · exact h.noRW i hi
  · exact List.pairwise_cons.2 ⟨fun j hj => h.fresh j (List.mem_append_left _ hj), h.sorted⟩
  · change ((⟨n, p⟩ :: c.st).map Item.tag).Nodup
    rw [List.map_cons, List.nodup_cons]
    refine ⟨fun hm => ?_, h.nodup⟩
    obtain ⟨j, hj, e⟩ := List.mem_map.1 hm
    have := h.fresh j hj
    simp only at e
    omega
  · intro i hi
    change i ∈ ⟨n, p⟩ :: c.st at hi
    rcases List.mem_cons.1 hi with rfl | hi
    · exact Nat.lt_succ_self _
    · exact Nat.lt_succ_of_lt (h.fresh i hi)

/-- The stack splits at the granting item. -/
theorem split_nodup {a : Access} {t : Nat} {pre post : List Item} {g : Item} (hn : ((pre ++ g :: post).map Item.tag).Nodup) (hg : g.is a t = true) :
    (pre ++ g :: post).takeWhile (fun i => !i.is a t) = pre ∧ (pre ++ g :: post).dropWhile (fun i => !i.is a t) = g :: post := by
  have ht : g.tag = t := by
    unfold Item.is at hg
    rw [Bool.and_eq_true] at hg
    exact of_decide_eq_true hg.1
  have hp : ∀ i ∈ pre, (!i.is a t) = true := by
    intro i hi
    have hne : i.tag ≠ t := by
      intro e
      rw [List.map_append, List.nodup_append] at hn
      exact hn.2.2 i.tag (List.mem_map.2 ⟨i, hi, rfl⟩) g.tag (List.mem_map.2 ⟨g, List.mem_cons_self .., rfl⟩) (e.trans ht.symm)
    unfold Item.is
    simp [hne]
  rw [List.takeWhile_append_of_pos hp, List.dropWhile_append_of_pos hp]
  simp [hg]

theorem takeWhile_none {A : List Item} (hA : ∀ i ∈ A, i.perm ≠ .sharedRW) : A.takeWhile (fun i => i.perm == .sharedRW) = [] ∧ A.dropWhile (fun i => i.perm == .sharedRW) = A := by
  cases A with
  | nil => exact ⟨rfl, rfl⟩
  | cons x xs =>
    have := hA x (List.mem_cons_self ..)
    have e : (x.perm == Perm.sharedRW) = false := by simpa using this
    simp [List.takeWhile_cons, List.dropWhile_cons, e]

/-- The shared-mutable items directly above the granting one. -/
theorem run_above {A B : List Item} (hA : ∀ i ∈ A, i.perm ≠ .sharedRW) (hB : ∀ i ∈ B, i.perm = .sharedRW) :
    ((A ++ B).reverse.takeWhile (fun i => i.perm == .sharedRW)).reverse = B ∧ ((A ++ B).reverse.dropWhile (fun i => i.perm == .sharedRW)).reverse = A := by
  have hp : ∀ i ∈ B.reverse, (i.perm == Perm.sharedRW) = true := by
    intro i hi
    simpa using hB i (List.mem_reverse.1 hi)
  have hA' : ∀ i ∈ A.reverse, i.perm ≠ .sharedRW := fun i hi => hA i (List.mem_reverse.1 hi)
  rw [List.reverse_append, List.takeWhile_append_of_pos hp, List.dropWhile_append_of_pos hp, (takeWhile_none hA').1, (takeWhile_none hA').2]
  simp

theorem map_disable_blk {B : List Item} (hB : ∀ i ∈ B, i.perm = .sharedRW) : B.map Item.disable = B := by
  have : B.map Item.disable = B.map id := List.map_congr_left (fun i hi => Item.disable_of i (by rw [hB i hi]; decide))
  rw [this, List.map_id]

theorem map_disable_tags (A : List Item) : (A.map Item.disable).map Item.tag = A.map Item.tag := by
  rw [List.map_map]
  exact List.map_congr_left (fun i _ => Item.disable_tag i)

theorem disable_noRW {A : List Item} (hA : ∀ i ∈ A, i.perm ≠ .sharedRW) : ∀ i ∈ A.map Item.disable, i.perm ≠ .sharedRW := by
  intro i hi
  obtain ⟨j, hj, rfl⟩ := List.mem_map.1 hi
  unfold Item.disable
  split
  · intro e; cases e
  · exact hA j hj

theorem is_blk (t : Nat) (a : Access) : (⟨t, .sharedRW⟩ : Item).is a t = true := by
  unfold Item.is; simp [Perm.grants]

/-- Access by a shared-mutable pointer. -/
theorem Col.Ok.accessBlk {w n : Nat} {c : Col} (h : c.Ok w n) {a : Access} {t : Nat} (ht : (⟨t, .sharedRW⟩ : Item) ∈ c.blk) :
    ∃ A, accessByte a t c.st = some (⟨A, c.blk, c.base⟩ : Col).st ∧ (⟨A, c.blk, c.base⟩ : Col).Ok w n ∧ (a = .read → ∀ i ∈ c.above, i.perm ≠ .unique → i ∈ A) := by
  obtain ⟨pre, post, e⟩ := List.append_of_mem ht
  have hst : c.st = (c.above ++ pre) ++ ⟨t, .sharedRW⟩ :: (post ++ c.base) := by
    unfold Col.st; rw [e]; simp
  obtain ⟨s1, s2⟩ := split_nodup (a := a) (hst ▸ h.nodup) (is_blk t a)
  have hpre : ∀ i ∈ pre, i.perm = .sharedRW := fun i hi => h.blk i (by rw [e]; exact List.mem_append_left _ hi)
  cases a with
  | read =>
    refine ⟨c.above.map Item.disable, ?_, h.shrink ?_ (disable_noRW h.noRW) (List.Sublist.refl _), ?_⟩
    · unfold accessByte
      rw [hst]
      simp only [s1, s2]
      unfold Col.st
      simp only [e, List.map_append, map_disable_blk hpre, List.append_assoc, List.cons_append]
    · rw [map_disable_tags]; exact List.Sublist.refl _
    · intro _ i hi hp
      exact List.mem_map.2 ⟨i, hi, Item.disable_of i hp⟩
  | write =>
    refine ⟨[], ?_, h.shrink (List.nil_sublist _) (by simp) (List.Sublist.refl _), fun e => by cases e⟩
    unfold accessByte
    rw [hst]
    simp only [s1, s2, (run_above h.noRW hpre).1, if_true]
    unfold Col.st
    simp only [e, List.append_assoc, List.cons_append, List.nil_append]

/-- Write by the owner. -/
theorem Col.Ok.accessBase {w n : Nat} {c : Col} (h : c.Ok w n) : ∃ B, accessByte .write w c.st = some (⟨[], B, c.base⟩ : Col).st ∧ (⟨[], B, c.base⟩ : Col).Ok w n := by
  obtain ⟨p, rest, e, hp⟩ := h.base
  have hst : c.st = (c.above ++ c.blk) ++ ⟨w, p⟩ :: rest := by
    unfold Col.st; rw [e]; simp
  obtain ⟨s1, s2⟩ := split_nodup (a := .write) (t := w) (hst ▸ h.nodup) (by unfold Item.is; simp [hp])
  by_cases hc : p = .sharedRW
  · refine ⟨c.blk, ?_, h.shrink (List.nil_sublist _) (by simp) (List.Sublist.refl _)⟩
    unfold accessByte
    rw [hst]
    simp only [s1, s2, (run_above h.noRW h.blk).1, if_pos hc]
    unfold Col.st
    simp only [e, List.nil_append]
  · refine ⟨[], ?_, h.shrink (List.nil_sublist _) (by simp) (List.nil_sublist _)⟩
    unfold accessByte
    rw [hst]
    simp only [s1, s2, if_neg hc]
    unfold Col.st
    simp only [e, List.nil_append]

/-- Access by a reference. -/
theorem Col.Ok.accessRef {w n : Nat} {c : Col} (h : c.Ok w n) {a : Access} {t : Nat} {g : Item} (hg : g ∈ c.above) (hi : g.is a t = true) :
    ∃ A, accessByte a t c.st = some (⟨A, c.blk, c.base⟩ : Col).st ∧ (⟨A, c.blk, c.base⟩ : Col).Ok w n ∧
      ∀ i ∈ c.above, (i.tag ≤ t ∨ (a = .read ∧ i.perm ≠ .unique)) → i ∈ A := by
  obtain ⟨pre, post, e⟩ := List.append_of_mem hg
  have ht : g.tag = t := by
    unfold Item.is at hi
    rw [Bool.and_eq_true] at hi
    exact of_decide_eq_true hi.1
  have hst : c.st = pre ++ g :: (post ++ (c.blk ++ c.base)) := by
    unfold Col.st; rw [e]; simp
  obtain ⟨s1, s2⟩ := split_nodup (a := a) (hst ▸ h.nodup) hi
  have hso : ∀ i ∈ pre, t < i.tag := by
    intro i hi'
    have := List.pairwise_append.1 (e ▸ h.sorted : Sorted (pre ++ g :: post))
    rw [← ht]
    exact this.2.2 i hi' g (List.mem_cons_self ..)
  cases a with
  | read =>
    refine ⟨pre.map Item.disable ++ g :: post, ?_, h.shrink ?_ ?_ (List.Sublist.refl _), ?_⟩
    · unfold accessByte
      rw [hst]
      simp only [s1, s2]
      unfold Col.st
      simp only [List.append_assoc, List.cons_append]
    · rw [e, List.map_append, List.map_append, map_disable_tags]; exact List.Sublist.refl _
    · intro i hi'
      rcases List.mem_append.1 hi' with hi' | hi'
      · exact disable_noRW (fun j hj => h.noRW j (by rw [e]; exact List.mem_append_left _ hj)) i hi'
      · exact h.noRW i (by rw [e]; exact List.mem_append_right _ hi')
    · intro i hi' hc
      rw [e] at hi'
      rcases List.mem_append.1 hi' with h' | h'
      · refine List.mem_append_left _ (List.mem_map.2 ⟨i, h', Item.disable_of i ?_⟩)
        rcases hc with hc | hc
        · have := hso i h'; omega
        · exact hc.2
      · exact List.mem_append_right _ h'
  | write =>
    refine ⟨g :: post, ?_, h.shrink ?_ ?_ (List.Sublist.refl _), ?_⟩
    · unfold accessByte
      rw [hst]
      simp only [s1, s2, if_neg (h.noRW g hg)]
      unfold Col.st
      simp only [List.cons_append]
    · rw [e, List.map_append]; exact List.sublist_append_right _ _
    · intro i hi'
      exact h.noRW i (by rw [e]; exact List.mem_append_right _ hi')
    · intro i hi' hc
      rw [e] at hi'
      rcases List.mem_append.1 hi' with h' | h'
      · rcases hc with hc | hc
        · have := hso i h'; omega
        · exact absurd hc.1 (by decide)
      · exact h'

/-- The new item of a shared-mutable retag. -/
theorem Col.Ok.insert {w n : Nat} {c : Col} (h : c.Ok w n) {t : Nat} (ht : t = w ∨ (⟨t, .sharedRW⟩ : Item) ∈ c.blk) :
    ∃ B, insertByte n t c.st = some (⟨c.above, B, c.base⟩ : Col).st ∧ (⟨c.above, B, c.base⟩ : Col).Ok w (n + 1) ∧ (∀ i ∈ c.blk, i ∈ B) ∧ (⟨n, .sharedRW⟩ : Item) ∈ B := by
  have key : ∀ B : List Item, List.Perm B (⟨n, .sharedRW⟩ :: c.blk) → (⟨c.above, B, c.base⟩ : Col).Ok w (n + 1) ∧ (∀ i ∈ c.blk, i ∈ B) ∧ (⟨n, .sharedRW⟩ : Item) ∈ B := by
    intro B hB
    have hperm : List.Perm (⟨c.above, B, c.base⟩ : Col).st (⟨n, .sharedRW⟩ :: c.st) := by
      unfold Col.st
      refine ((hB.append_right c.base).append_left c.above).trans ?_
      exact List.perm_middle
    refine ⟨⟨h.base, h.noRW, ?_, h.sorted, ?_, ?_⟩, ?_, ?_⟩
    · intro i hi
      rcases List.mem_cons.1 (hB.mem_iff.1 hi) with rfl | hi
      · rfl
      · exact h.blk i hi
    · rw [(hperm.map Item.tag).nodup_iff, List.map_cons, List.nodup_cons]
      refine ⟨fun hm => ?_, h.nodup⟩
      obtain ⟨j, hj, e⟩ := List.mem_map.1 hm
      have := h.fresh j hj
      simp only at e
      omega
    · intro i hi
      rcases List.mem_cons.1 (hperm.mem_iff.1 hi) with rfl | hi
      · exact Nat.lt_succ_self _
      · exact Nat.lt_succ_of_lt (h.fresh i hi)
    · exact fun i hi => hB.mem_iff.2 (List.mem_cons_of_mem _ hi)
    · exact hB.mem_iff.2 (List.mem_cons_self ..)
  rcases ht with rfl | ht
  · obtain ⟨p, rest, e, hp⟩ := h.base
    have hst : c.st = (c.above ++ c.blk) ++ ⟨t, p⟩ :: rest := by
      unfold Col.st; rw [e]; simp
    obtain ⟨s1, s2⟩ := split_nodup (a := .write) (t := t) (hst ▸ h.nodup) (by unfold Item.is; simp [hp])
    by_cases hc : p = .sharedRW
    · refine ⟨⟨n, .sharedRW⟩ :: c.blk, ?_, key _ (List.Perm.refl _)⟩
      unfold insertByte
      rw [hst]
      simp only [s1, s2, (run_above h.noRW h.blk).1, (run_above h.noRW h.blk).2, if_pos hc]
      unfold Col.st
      simp only [e, List.cons_append]
    · refine ⟨c.blk ++ [⟨n, .sharedRW⟩], ?_, key _ (List.perm_append_comm)⟩
      unfold insertByte
      rw [hst]
      simp only [s1, s2, if_neg hc]
      unfold Col.st
      simp only [e, List.append_assoc, List.cons_append, List.nil_append]
  · obtain ⟨pre, post, e⟩ := List.append_of_mem ht
    have hst : c.st = (c.above ++ pre) ++ ⟨t, .sharedRW⟩ :: (post ++ c.base) := by
      unfold Col.st; rw [e]; simp
    obtain ⟨s1, s2⟩ := split_nodup (a := .write) (hst ▸ h.nodup) (is_blk t .write)
    have hpre : ∀ i ∈ pre, i.perm = .sharedRW := fun i hi => h.blk i (by rw [e]; exact List.mem_append_left _ hi)
    refine ⟨⟨n, .sharedRW⟩ :: c.blk, ?_, key _ (List.Perm.refl _)⟩
    unfold insertByte
    rw [hst]
    simp only [s1, s2, (run_above h.noRW hpre).1, (run_above h.noRW hpre).2, if_true]
    unfold Col.st
    simp only [e, List.append_assoc, List.cons_append]

end Verif.Borrows
