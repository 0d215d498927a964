import Verif.Proofs.GlobalRaces
/-!
# C93: programs that use the global allocator have no data races because of it

In the memory model of the language, for any number of threads; see `Spec/GlobalRaces` for the notions.
-/
set_option autoImplicit false
namespace Verif.Bump.Conc
open MM
variable {n : Nat} {e : Env} {X : Graph n GAct} {src : MM.Ev n → MM.Ev n}

/-- **C93** No two accesses race, of the program or of the allocator. -/
theorem C93_race_free (he : e.Valid) (hi : X.initial ≤ e.len) (hp : GPossible X) (hx : GExecutes e X) (hd : Disciplined X src) (a b : MM.Ev n) : ¬ Race X a b := by
  rintro ⟨hne, h1, h2, p, h3, h4, h5⟩
  rcases accesses_ordered he hi hp hx hd h3 h4 hne h5 with h | h
  · exact h1 h
  · exact h2 h

/-- **C93** If two blocks overlap, then one of them was passed to the allocator before the other one was received. -/
theorem C93_one_owner (he : e.Valid) (hi : X.initial ≤ e.len) (hp : GPossible X) (hx : GExecutes e X) (hd : Disciplined X src) {r s : MM.Ev n} {b c : Block}
    (hr : Gives X r b) (hs : Gives X s c) (hne : r ≠ s) (ho : ¬ b.region.Disjoint c.region) :
    (∃ i d, Takes X i d ∧ src i = r ∧ X.hb i s) ∨ ∃ i d, Takes X i d ∧ src i = s ∧ X.hb i r := by
  obtain ⟨q, hq, hq'⟩ : ∃ q, b.region.Has q ∧ c.region.Has q := Classical.byContradiction fun h => ho fun q hh => h ⟨q, hh⟩
  obtain ⟨g, m, h1⟩ := exists_root hp.1 hx hd r (by obtain ⟨_, _, h, _⟩ := hr; exact ⟨_, h⟩) b hr
  obtain ⟨g', m', h2⟩ := exists_root hp.1 hx hd s (by obtain ⟨_, _, h, _⟩ := hs; exact ⟨_, h⟩) c hs
  obtain ⟨reg, h3, h4⟩ := h1.region hd _ hr
  obtain ⟨reg', h5, h6⟩ := h2.region hd _ hs
  cases grants_same he hi hp hx hd h3 h5 (within_has h4 hq) (within_has h6 hq')
  have key : ∀ {r s : MM.Ev n} {m m' : Nat}, Root X src r g m → Root X src s g m' → m < m' → ∃ i d, Takes X i d ∧ src i = r ∧ X.hb i s := by
    intro r s m m' h1 h2 hlt
    obtain ⟨r0, t, i, k', c, c', k1, k2, k3, k4, k5, k6, k7⟩ := h2.anc hp.1 hd hlt
    cases k1.unique hd h1
    refine ⟨_, _, k2, k3, ?_⟩
    obtain ⟨_, _, hat, _⟩ := k6
    rcases k7 with k7 | k7
    · rw [← k7]; exact sb_hb hp.1 k4 hat
    · exact hp.1.hb_trans _ _ _ (sb_hb hp.1 k4 hat) k7
  rcases Nat.lt_trichotomy m m' with h | rfl | h
  · exact .inl (key h1 h2 h)
  · exact absurd (h1.unique hd h2) hne
  · exact .inr (key h2 h1 h)

/-- **C93** Every block is in the storage of the allocator. -/
theorem C93_in_storage (he : e.Valid) (hi : X.initial ≤ e.len) (hp : GPossible X) (hx : GExecutes e X) (hd : Disciplined X src) {r : MM.Ev n} {b : Block} (hr : Gives X r b) :
    b.region.Within ⟨e.base, e.len⟩ := by
  obtain ⟨g, m, h1⟩ := exists_root hp.1 hx hd r (by obtain ⟨_, _, h, _⟩ := hr; exact ⟨_, h⟩) b hr
  obtain ⟨reg, h3, h4⟩ := h1.region hd _ hr
  exact within_trans h4 (grants_apart he hi hp hx hd h3 h3).1

/-- **C93** No call has undefined behaviour: source and destination of a copy never overlap. -/
theorem C93_no_ub (he : e.Valid) (hi : X.initial ≤ e.len) (hp : GPossible X) (hx : GExecutes e X) (hd : Disciplined X src) {a : MM.Ev n} {op : Op} {r : Res} (ha : X.At a (.ret op r)) : r ≠ .ub := by
  obtain ⟨t, k⟩ := a
  obtain ⟨l', hl'⟩ := hx.1 t
  obtain ⟨⟨i, h1, h2, h3⟩, h4, -⟩ := at_ret (valid_inv hx t) hl' ha
  rcases h4 with h4 | ⟨b, h4, reg, ⟨j, call, r', h5, h6, h7, h8⟩, h9⟩
  · exact h4
  · exfalso
    have htk : Takes X (t, i) b := ⟨op, h2, h4⟩
    obtain ⟨h10, h11⟩ := hd.taken _ _ htk
    obtain ⟨g, m, h12⟩ := exists_root hp.1 hx hd (src (t, i)) (by obtain ⟨_, _, h, _⟩ := h10; exact ⟨_, h⟩) b h10
    obtain ⟨reg', h13, h14⟩ := h12.region hd _ h10
    obtain ⟨q, hq, hq'⟩ : ∃ q, reg.Has q ∧ b.region.Has q := Classical.byContradiction fun h => h9 fun q hh => h ⟨q, hh⟩
    cases grants_same he hi hp hx hd (g := (t, j)) ⟨_, _, h6, h7⟩ h13 hq (within_has h14 hq')
    obtain ⟨r0, h15, h16⟩ := h12.first hp.1 hd
    have hb : X.hb r0 (t, i) := by
      rcases h16 with rfl | h16
      · exact h11
      · exact hp.1.hb_trans _ _ _ h16 h11
    cases h15 with
    | @own _ k0 _ _ _ k1 k2 k3 k4 k5 =>
      obtain ⟨_, _, hat, _⟩ := k1
      have hle : k ≤ k0 := Nat.le_of_not_lt fun hlt => h8 k0 _ _ k2 hlt hat
      exact hp.1.hb_irrefl _ (hp.1.hb_trans _ _ _ hb (sb_hb hp.1 (Nat.lt_of_lt_of_le h1 hle) hat))

end Verif.Bump.Conc
