import Verif.Proofs.GlobalContents
/-!
# C94: what programs read from blocks of the global allocator

In the memory model of the language; see `Spec/GlobalContents` for what is expected.
-/
set_option autoImplicit false
namespace Verif.Bump.Conc
open MM
variable {n : Nat} {e : Env} {X : Graph n GAct} {src : MM.Ev n → MM.Ev n}

/-- **C94** A read gets what the block holds: what was written there last through this block, or zero, the value, or what was in the block that was reallocated. -/
theorem C94_contents (he : e.Valid) (hi : X.initial ≤ e.len) (hp : GPossible X) (hx : GExecutes e X) (hd : Disciplined X src) (hv : ReadsVisible X) {u : MM.Ev n} {b : Block} {o : Nat} {v v' : Byte}
    (hu : X.At u (.userRead (b.ptr + o) v)) (hb : Gives X (src u) b) (hh : Holds X src u (src u) o v') : v = v' := by
  have huse : UserUses X u (b.ptr + o) := .inl ⟨v, hu⟩
  obtain ⟨b', h1, h2, -⟩ := hd.used u _ huse
  cases gives_unique hb h1
  obtain ⟨w, hw⟩ := hh.last he hi hp hx hd hv b hb (by have := h2.2; simp only [Block.region] at this; omega) (user_through hd huse)
  exact hw.read hv (.inl hu)

/-- **C94** What a block holds is unique, when it is passed to `realloc` or `dealloc` and at every access through it. -/
theorem C94_unique (he : e.Valid) (hi : X.initial ≤ e.len) (hp : GPossible X) (hx : GExecutes e X) (hd : Disciplined X src) (hv : ReadsVisible X) {a : MM.Ev n} {b : Block} {o : Nat} {v v' : Byte}
    (ha : (∃ p, UserUses X a p) ∨ ∃ c, Takes X a c) (hb : Gives X (src a) b) (ho : o < b.layout.size) (hh : Holds X src a (src a) o v) (hh' : Holds X src a (src a) o v') : v = v' := by
  have ht : Through X src a (src a) := by
    rcases ha with ⟨p, h⟩ | ⟨c, h⟩
    · exact user_through hd h
    · exact take_through hd h
  obtain ⟨w, h1, h2, h3⟩ := hh.last he hi hp hx hd hv b hb ho ht
  obtain ⟨w', h4, h5, h6⟩ := hh'.last he hi hp hx hd hv b hb ho ht
  have : w = w' := by
    rcases h3 w' h4.writes h5 with h | h
    · exact h.symm
    · rcases h6 w h1.writes h2 with h' | h'
      · exact h'
      · exact absurd (hp.1.hb_trans _ _ _ h h') (hp.1.hb_irrefl _)
  subst this
  exact h1.unique h4

end Verif.Bump.Conc
