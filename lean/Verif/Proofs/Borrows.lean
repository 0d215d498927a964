import Verif.Spec.Borrows
/-! # Lemmas about Stacked Borrows -/
set_option autoImplicit false
namespace Verif.Borrows

/-- Tags decrease from the top to the bottom. -/
def Sorted (st : List Item) : Prop := st.Pairwise (fun i j => j.tag < i.tag)

theorem Item.disable_tag (i : Item) : i.disable.tag = i.tag := by
  unfold Item.disable; split <;> rfl

theorem Item.disable_of (i : Item) (h : i.perm ≠ .unique) : i.disable = i := by
  unfold Item.disable; rw [if_neg h]

/-- In a sorted stack with a granting item the items above it are those with larger tags. -/
theorem split_sorted {a : Access} {t : Nat} {st : List Item} (hs : Sorted st) {g : Item} (hg : g ∈ st) (hi : g.is a t = true) :
    ∃ above below, st = above ++ g :: below ∧ st.takeWhile (fun i => !i.is a t) = above ∧ st.dropWhile (fun i => !i.is a t) = g :: below ∧
      ∀ i ∈ above, t < i.tag := by
  have ht : g.tag = t := by
    unfold Item.is at hi
    rw [Bool.and_eq_true] at hi
    exact of_decide_eq_true hi.1
  induction st with
  | nil => cases hg
  | cons x xs ih =>
    rw [Sorted, List.pairwise_cons] at hs
    rcases List.mem_cons.1 hg with rfl | hg'
    · exact ⟨[], xs, rfl, by simp [List.takeWhile_cons, hi], by simp [List.dropWhile_cons, hi], by simp⟩
    · have hx : t < x.tag := ht ▸ hs.1 g hg'
      have hn : x.is a t = false := by
        unfold Item.is
        have : (x.tag == t) = false := by simp; omega
        rw [this]; rfl
      obtain ⟨ab, be, h1, h2, h3, h4⟩ := ih hs.2 hg'
      refine ⟨x :: ab, be, by rw [h1]; rfl, ?_, ?_, ?_⟩
      · simp [List.takeWhile_cons, hn, h2]
      · simp [List.dropWhile_cons, hn, h3]
      · intro i hi'
        rcases List.mem_cons.1 hi' with rfl | hi'
        · exact hx
        · exact h4 i hi'

/-- What an access does to a sorted stack. -/
theorem accessByte_spec {a : Access} {t : Nat} {st : List Item} (hs : Sorted st) {g : Item} (hg : g ∈ st) (hi : g.is a t = true) :
    ∃ l, accessByte a t st = some l ∧ Sorted l ∧ (∀ i ∈ l, ∃ j ∈ st, j.tag = i.tag) ∧
      ∀ i ∈ st, (i.tag ≤ t ∨ (a = .read ∧ i.perm ≠ .unique)) → i ∈ l := by
  obtain ⟨above, below, h1, h2, h3, h4⟩ := split_sorted hs hg hi
  have hs' : Sorted (above ++ g :: below) := h1 ▸ hs
  have hp := List.pairwise_append.1 hs'
  cases a with
  | read =>
    refine ⟨above.map Item.disable ++ g :: below, ?_, ?_, ?_, ?_⟩
    · unfold accessByte; simp only [h2, h3]
    · refine List.pairwise_append.2 ⟨?_, hp.2.1, ?_⟩
      · rw [List.pairwise_map]
        exact hp.1.imp (fun {x y} h => by rw [Item.disable_tag, Item.disable_tag]; exact h)
      · intro x hx y hy
        obtain ⟨z, hz, rfl⟩ := List.mem_map.1 hx
        rw [Item.disable_tag]
        exact hp.2.2 z hz y hy
    · intro i hi'
      rcases List.mem_append.1 hi' with h | h
      · obtain ⟨z, hz, rfl⟩ := List.mem_map.1 h
        exact ⟨z, by rw [h1]; exact List.mem_append_left _ hz, (Item.disable_tag z).symm⟩
      · exact ⟨i, by rw [h1]; exact List.mem_append_right _ h, rfl⟩
    · intro i hi' hc
      rw [h1] at hi'
      rcases List.mem_append.1 hi' with h | h
      · refine List.mem_append_left _ (List.mem_map.2 ⟨i, h, Item.disable_of i ?_⟩)
        rcases hc with hc | hc
        · have := h4 i h; omega
        · exact hc.2
      · exact List.mem_append_right _ h
  | write =>
    have key : ∀ (pre : List Item), pre.Sublist above →
        Sorted (pre ++ g :: below) ∧ (∀ i ∈ pre ++ g :: below, ∃ j ∈ st, j.tag = i.tag) ∧
        ∀ i ∈ st, (i.tag ≤ t ∨ (Access.write = .read ∧ i.perm ≠ .unique)) → i ∈ pre ++ g :: below := by
      intro pre hsub
      have hsub' : (pre ++ g :: below).Sublist st := h1 ▸ List.Sublist.append hsub (List.Sublist.refl _)
      refine ⟨List.Pairwise.sublist hsub' hs, fun i hi' => ⟨i, hsub'.subset hi', rfl⟩, ?_⟩
      intro i hi' hc
      rw [h1] at hi'
      rcases List.mem_append.1 hi' with h | h
      · have := h4 i h
        rcases hc with hc | hc
        · omega
        · exact absurd hc.1 (by decide)
      · exact List.mem_append_right _ h
    by_cases hr : g.perm = .sharedRW
    · refine ⟨(above.reverse.takeWhile (fun i => i.perm == .sharedRW)).reverse ++ g :: below, ?_, key _ ?_⟩
      · unfold accessByte; simp only [h2, h3]; rw [if_pos hr]
      · have := (List.takeWhile_sublist (fun i : Item => i.perm == .sharedRW) (l := above.reverse)).reverse
        rwa [List.reverse_reverse] at this
    · refine ⟨g :: below, ?_, key [] (List.nil_sublist _)⟩
      unfold accessByte; simp only [h2, h3]; rw [if_neg hr]

/-- The stacks are in order and contain no tag from the future. -/
structure Mem.Good (m : Mem) : Prop where
  sorted : ∀ b, Sorted (m.stack b)
  fresh : ∀ b, ∀ i ∈ m.stack b, i.tag < m.next

/-- The tag permits the access for all bytes of the range. -/
def Mem.Has (m : Mem) (a : Access) (t lo hi : Nat) : Prop :=
  ∀ b, lo ≤ b → b < hi → ∃ i ∈ m.stack b, i.is a t = true

/-- What changes by an access to these bytes with tag `t`: other bytes keep everything, and these all items not above the tag, for reading also the ones which are not unique. -/
structure Mem.Upd (a : Access) (t lo hi : Nat) (m m' : Mem) : Prop where
  out : ∀ b, (b < lo ∨ hi ≤ b) → m'.stack b = m.stack b
  keep : ∀ b, ∀ i ∈ m.stack b, (i.tag ≤ t ∨ (a = .read ∧ i.perm ≠ .unique)) → i ∈ m'.stack b
  next : m.next ≤ m'.next

theorem Mem.access_spec {m : Mem} (hm : m.Good) {a : Access} {t lo hi : Nat} (h : m.Has a t lo hi) :
    ∃ m', m.access a t lo hi = some m' ∧ m'.Good ∧ Mem.Upd a t lo hi m m' ∧ m'.next = m.next := by
  have hb : ∀ b, lo ≤ b → b < hi → ∃ l, accessByte a t (m.stack b) = some l ∧ Sorted l ∧ (∀ i ∈ l, ∃ j ∈ m.stack b, j.tag = i.tag) ∧
      ∀ i ∈ m.stack b, (i.tag ≤ t ∨ (a = .read ∧ i.perm ≠ .unique)) → i ∈ l := by
    intro b h1 h2
    obtain ⟨g, hg, hi'⟩ := h b h1 h2
    exact accessByte_spec (hm.sorted b) hg hi'
  refine ⟨{ m with stack := fun b => if lo ≤ b ∧ b < hi then (accessByte a t (m.stack b)).getD [] else m.stack b }, ?_, ⟨?_, ?_⟩, ⟨?_, ?_, ?_⟩, rfl⟩
  · unfold Mem.access
    apply if_pos
    rw [List.all_eq_true]
    intro b hb'
    rw [List.mem_range'_1] at hb'
    obtain ⟨l, hl, _⟩ := hb b hb'.1 (by omega)
    rw [hl]; rfl
  · intro b
    by_cases hc : lo ≤ b ∧ b < hi
    · obtain ⟨l, hl, h1, _⟩ := hb b hc.1 hc.2
      simp only [if_pos hc, hl]; exact h1
    · simp only [if_neg hc]; exact hm.sorted b
  · intro b i hi'
    by_cases hc : lo ≤ b ∧ b < hi
    · obtain ⟨l, hl, _, h1, _⟩ := hb b hc.1 hc.2
      simp only [if_pos hc, hl] at hi'
      obtain ⟨j, hj, hjt⟩ := h1 i hi'
      exact hjt ▸ hm.fresh b j hj
    · simp only [if_neg hc] at hi'; exact hm.fresh b i hi'
  · intro b hb'
    simp only [if_neg (show ¬(lo ≤ b ∧ b < hi) by omega)]
  · intro b i hi' hc'
    by_cases hc : lo ≤ b ∧ b < hi
    · obtain ⟨l, hl, _, _, h1⟩ := hb b hc.1 hc.2
      simp only [if_pos hc, hl]; exact h1 i hi' hc'
    · simp only [if_neg hc]; exact hi'
  · exact Nat.le_refl _

/-- The access that making a reference is. -/
def accessOf (mutable : Bool) : Access := if mutable then .write else .read
/-- The permission of a reference. -/
def permOf (mutable : Bool) : Perm := if mutable then .unique else .sharedRO

theorem Mem.retag_spec {m : Mem} (hm : m.Good) {mu : Bool} {t lo hi : Nat} (h : m.Has (accessOf mu) t lo hi) :
    ∃ m', m.retag mu t lo hi = some (m.next, m') ∧ m'.Good ∧ Mem.Upd (accessOf mu) t lo hi m m' ∧ m'.next = m.next + 1 ∧
      ∀ b, lo ≤ b → b < hi → ⟨m.next, permOf mu⟩ ∈ m'.stack b := by
  obtain ⟨m1, e, hg, hu, hn⟩ := Mem.access_spec hm h
  refine ⟨⟨fun b => if lo ≤ b ∧ b < hi then ⟨m1.next, permOf mu⟩ :: m1.stack b else m1.stack b, m1.next + 1⟩, ?_, ⟨?_, ?_⟩, ⟨?_, ?_, ?_⟩, ?_, ?_⟩
  · unfold Mem.retag
    change (m.access (accessOf mu) t lo hi).bind _ = _
    rw [e, ← hn]
    rfl
  · intro b
    by_cases hc : lo ≤ b ∧ b < hi
    · simp only [if_pos hc]
      exact List.pairwise_cons.2 ⟨fun j hj => hg.fresh b j hj, hg.sorted b⟩
    · simp only [if_neg hc]; exact hg.sorted b
  · intro b i hi'
    by_cases hc : lo ≤ b ∧ b < hi
    · simp only [if_pos hc] at hi'
      rcases List.mem_cons.1 hi' with rfl | hi'
      · exact Nat.lt_succ_self _
      · exact Nat.lt_succ_of_lt (hg.fresh b i hi')
    · simp only [if_neg hc] at hi'; exact Nat.lt_succ_of_lt (hg.fresh b i hi')
  · intro b hb
    simp only [if_neg (show ¬(lo ≤ b ∧ b < hi) by omega)]
    exact hu.out b hb
  · intro b i hi' hc'
    have := hu.keep b i hi' hc'
    by_cases hc : lo ≤ b ∧ b < hi
    · simp only [if_pos hc]; exact List.mem_cons_of_mem _ this
    · simp only [if_neg hc]; exact this
  · change m.next ≤ m1.next + 1; omega
  · change m1.next + 1 = m.next + 1; omega
  · intro b h1 h2
    simp only [if_pos (show lo ≤ b ∧ b < hi from ⟨h1, h2⟩), hn]
    exact List.mem_cons_self ..

end Verif.Borrows
