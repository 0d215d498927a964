import Verif.Props.Compare
import Verif.Cases.Boxes
import Verif.Cases.FixedVec
import Verif.Cases.Rc
/-!
# Concrete cases for C76

Two vectors of different capacity, `[1, 2]` and `[1, 3]`; two boxes; two `Rc`s of the same block.
-/
namespace Verif.CasesCompare
open Verif

section
open FVec
abbrev pair : List (Op Nat) := [.new 4096 16, .new 8192 8, .push 0 1, .push 0 2, .push 1 1, .push 1 3]
abbrev w : World Nat := CasesFixedVec.world pair
theorem reach : Reach .w64 ⟨4, 4⟩ true demoPanics w := CasesFixedVec.reach (by decide +kernel)
theorem shows0 : Shows .w64 ⟨4, 4⟩ true demoPanics w 0 [1, 2] := CasesFixedVec.shows_ reach (by decide +kernel) (by decide +kernel)
theorem shows1 : Shows .w64 ⟨4, 4⟩ true demoPanics w 1 [1, 3] := CasesFixedVec.shows_ reach (by decide +kernel) (by decide +kernel)
theorem ent {i : Nat} (h : (w.ents i).isSome = true) : ∃ e, w.ents i = some e := Option.isSome_iff_exists.mp h

example : ∃ e f, w.ents 0 = some e ∧ w.ents 1 = some f ∧ Cmp.FixedVec.eq u32Traits w.heap e.vec f.vec = .ret false ∧ Cmp.FixedVec.lt u32Traits w.heap e.vec f.vec = .ret true :=
  let ⟨e, he⟩ := ent (i := 0) (by decide +kernel)
  let ⟨f, hf⟩ := ent (i := 1) (by decide +kernel)
  let ⟨h1, h2, _⟩ := C76_vec_order u32Traits_lawful he hf shows0 shows1
  ⟨e, f, he, hf, h1.trans (by decide), h2.trans (by decide)⟩
example : ∃ e f, w.ents 0 = some e ∧ w.ents 1 = some f ∧ ∃ p, Cmp.FixedVec.partialCmp u32Traits w.heap e.vec f.vec = .ret p ∧ Cmp.Lexicographic u32Traits.partialCmp [1, 2] [1, 3] p :=
  let ⟨e, he⟩ := ent (i := 0) (by decide +kernel)
  let ⟨f, hf⟩ := ent (i := 1) (by decide +kernel)
  let ⟨_, p, _, _, _, _, h4, h5, _⟩ := C76_vec_compare u32Traits he hf shows0 shows1
  ⟨e, f, he, hf, p, h4, h5⟩
example : ∃ e f, w.ents 0 = some e ∧ w.ents 1 = some f ∧ Cmp.FixedVec.hash u32Traits w.heap f.vec = .ret [.usize 2, .bytes [1], .bytes [3]] :=
  let ⟨e, he⟩ := ent (i := 0) (by decide +kernel)
  let ⟨f, hf⟩ := ent (i := 1) (by decide +kernel)
  ⟨e, f, he, hf, (C76_vec_hash (d := u32Traits) hf he shows1 shows0).2.1⟩
end

example : ∃ s, Owned.BReach s ∧ Forwards u32Traits 0 1 (Cmp.WBox.eq u32Traits s.st 7 8) (Cmp.WBox.ne u32Traits s.st 7 8) (Cmp.WBox.lt u32Traits s.st 7 8) (Cmp.WBox.le u32Traits s.st 7 8) (Cmp.WBox.ge u32Traits s.st 7 8)
    (Cmp.WBox.gt u32Traits s.st 7 8) (Cmp.WBox.partialCmp u32Traits s.st 7 8) (Cmp.WBox.cmp u32Traits s.st 7 8) (Cmp.WBox.hash u32Traits s.st 7) := by
  obtain ⟨s, h, h1, h2, h3, h4, _⟩ := CasesBoxes.breach
  obtain ⟨v, hv, hw, _⟩ := C51_readable_is_live h h1
  obtain ⟨v', hv', hw', _⟩ := C51_readable_is_live h h3
  have e : v = 0 := by cases (show s.st.mem 7 = some v from hw.1).symm.trans h2; rfl
  have e' : v' = 1 := by cases (show s.st.mem 8 = some v' from hw'.1).symm.trans h4; rfl
  subst e e'
  exact ⟨s, h, C76_box u32Traits hv hv'⟩
example := C76_rc u32Traits (CasesRc.mid_shows 0 (by decide +kernel)) (CasesRc.mid_shows 1 (by decide +kernel))
end Verif.CasesCompare
