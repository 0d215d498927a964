import Verif.Proofs.FillDrops
/-! # C101: filling neither loses a value nor destroys one twice -/
set_option autoImplicit false
namespace Verif.FillDrops
open Verif Fill FVec

variable {C α E V : Type}

/-- **C101** `Vec` and `VecDeque`, `()`, `Option`, and slices of which the elements are swapped, run no destructor at all. -/
theorem C101_nothing : DestroysNothing (vecFill (α := α) (V := V)) ∧ DestroysNothing (vecDequeFill (α := α) (V := V)) ∧ DestroysNothing (unitFill (V := V)) ∧ DestroysNothing (optionFill (α := α) (V := V)) ∧
    DestroysNothing (swapFill (α := α) (V := V)) := ⟨vec_nothing, vecDeque_nothing, unit_nothing, option_nothing, swap_nothing⟩

/-- **C101** For `Vec`, `VecDeque`, `()` and `Option` all values are afterwards in the container, or were destroyed exactly once. (With C101_nothing: are in the container.) -/
theorem C101_conserves (vals : α → List V) : Conserves (vecFill (V := V)) (vecVals vals) vals ∧ Conserves (vecDequeFill (V := V)) (vecVals vals) vals ∧ Conserves (unitFill (V := V)) (fun _ => []) (fun _ => []) ∧
    Conserves (optionFill (V := V)) (optionVals vals) vals :=
  ⟨conserves_of_lawful vec_agrees vec_nothing C63_vec.1 fun h => by unfold vecVals; rw [h.1, List.flatMap_append],
   conserves_of_lawful vecDeque_agrees vecDeque_nothing C63_vec.2 fun h => by unfold vecVals; rw [h.1, List.flatMap_append],
   conserves_of_lawful (cvals := fun _ => []) (vals := fun _ => []) unit_agrees unit_nothing C63_unit (fun {_ new _} _ => by induction new <;> simp_all),
   conserves_of_lawful option_agrees option_nothing C63_option fun h => by unfold optionVals; rw [h, List.flatMap_append]⟩

/-- **C101** For slices, whatever destructors of the elements panic: all values are in the slice or were destroyed exactly once. -/
theorem C101_slice (panics : V → Bool) (vals : α → List V) : Conserves (iterMutFill panics vals) (sliceVals vals) vals := iterMut_conserves panics vals

/-- **C101** Exactly: the elements are overwritten one by one, and each one that is overwritten is destroyed then. A panic of its destructor ends the call; the item is in the slice all the same, and the `IterMut` has advanced past it. -/
theorem C101_slice_exact {panics : V → Bool} {vals : α → List V} {ι : Type} {next : Next ι α} {fuel : Nat} {c c' : IterMut α} {i i' : ι} {e : Ended} {d : List V}
    (h : (iterMutFill panics vals).fill fuel next c i = some (e, c', i', d)) :
    ∃ n new, i' = after next i n ∧ Overwrites panics vals (c.slice.drop c.pos) (answers next i n) new d e ∧
      c'.slice = c.slice.take c.pos ++ new ++ c.slice.drop (c.pos + new.length) ∧ c'.pos = c.pos + new.length := iterMut_exact fuel h

/-- **C101** Swapping the elements with variables `xs` (which include those that the iterator gives): each value is in the slice or in one of the variables, as before. -/
theorem C101_swap {ι : Type} {next : Next ι Nat} (vals : α → List V) {xs : List Nat} (hn : xs.Nodup) {fuel : Nat} {s s' : SwapState α} {i i' : ι} {e : Ended} {d : List V} (h : (swapFill (V := V)).fill fuel next s i = some (e, s', i', d)) :
    ∃ n, i' = after next i n ∧ ((∀ x, .item x ∈ answers next i n → x ∈ xs) →
      (sliceVals vals s'.it ++ (xs.map s'.vars).flatMap vals).Perm (sliceVals vals s.it ++ (xs.map s.vars).flatMap vals)) := by
  simp only [swapFill] at h
  split at h
  · cases h
  · rename_i u s1 i1 hl
    cases h
    exact swapLoop_perm vals hn fuel hl

/-- **C101** A `Result` with a container for which this is true; so it is true for all containers that can be made from those above. Items for which there is no room, and the container that is replaced by an error, are destroyed, exactly once; also if some of these
destructors panic. -/
theorem C101_result {F : FillImpl C α V} {cvals : C → List V} {vals : α → List V} (hF : Conserves F cvals vals) (evals : E → List V) (panics : V → Bool) :
    Conserves (resultFill (E := E) panics cvals vals F) (resultVals cvals evals) (resultVals vals evals) := result_conserves hF evals panics

/-- **C101** Exactly what filling a `Result` destroys, if no destructor panics: of the `Ok` items `good` before the first other answer those for which there is no room, in order; and then the container with what was stored in it, if that answer is an error. -/
theorem C101_result_exact {F : FillImpl C α V} {G : Fill.FillImpl C α} {room : C → Option Nat} {Stored : C → List α → C → Prop} (ha : Agrees F G) (hd : DestroysNothing F) (hG : OneByOne G room Stored)
    {cvals : C → List V} {vals : α → List V} (hc : Conserves F cvals vals) (hs : ∀ {c a c'}, Stored c [a] c' → (cvals c').Perm (cvals c ++ vals a))
    {panics : V → Bool} (hp : ∀ v, panics v = false) {ι : Type} {next : Next ι (Except E α)} {good : List α} {c : C} {i : ι} {fuel : Nat}
    (hans : answers next i good.length = good.map (fun a => .item (.ok a))) (hstop : ∀ a, (next (after next i good.length)).1 ≠ .item (.ok a)) (hf : good.length < fuel) :
    ∃ c' lost, Stored c (match room c with | none => good | some r => good.take r) c' ∧ lost = (match room c with | none => [] | some r => (good.drop r).flatMap vals) ∧
      (resultFill panics cvals vals F).fill fuel next (.ok c) i = some (match (next (after next i good.length)).1 with
        | .item (.error e) => (.ok, .error e, after next i (good.length + 1), lost ++ cvals c')
        | .panic => (.panic, .ok c', after next i (good.length + 1), lost)
        | _ => (.ok, .ok c', after next i (good.length + 1), lost)) := by
  obtain ⟨c', l, h1, h2, h3⟩ := resultLoop_exact ha hd hG hc hs hp good c i fuel hans hstop hf
  refine ⟨c', _, h1, rfl, ?_⟩
  simp only [resultFill]
  rw [h2]
  rcases hx : next (after next i good.length) with ⟨p, j⟩
  rw [hx] at h3 hstop
  cases p with
  | done => cases h3; rfl
  | panic => cases h3; rfl
  | item x =>
    cases x with
    | ok a => exact absurd rfl (hstop a)
    | error e => cases h3; simp only [destroy_quiet hp]; rfl

/-- **C101** `fill_and_keep_tail`: after the call the iterator has been asked a number of times, its further items are still there; the others are accounted for. -/
theorem C101_keep_tail {F : FillImpl C α V} {cvals : C → List V} {vals : α → List V} (hF : Conserves F cvals vals) {ι : Type} {next : Next ι α} {fuel : Nat} {c c' : C} {i i' : ι} {e : Ended} {d : List V}
    (h : fillAndKeepTail F fuel next c i = some (e, c', i', d)) :
    ∃ n rest, i' = after next i n ∧ (cvals c ++ taken vals (answers next i n)).Perm (rest ++ d) ∧ (e ≠ .abort → rest = cvals c') := hF h

/-- **C101** `checked_fill`, likewise. It gives a result exactly if nothing unwound, and that is the iterator exactly if it did not end. -/
theorem C101_checked {F : FillImpl C α V} {cvals : C → List V} {vals : α → List V} (hF : Conserves F cvals vals) {ι : Type} {next : Next ι α} {fuel : Nat} {c c' : C} {i i' : ι} {e : Ended} {r : Option (Option ι)} {d : List V}
    (h : checkedFill F fuel next c i = some (e, r, c', i', d)) :
    ∃ n rest, i' = after next i n ∧ (cvals c ++ taken vals (answers next i n)).Perm (rest ++ d) ∧ (e ≠ .abort → rest = cvals c') ∧
      (e ≠ .ok → r = none) ∧ (e = .ok → (.done ∉ answers next i n → r = some (some i')) ∧ (.done ∈ answers next i n → r = some none)) := by
  simp only [checkedFill, fillAndKeepTail] at h
  split at h
  · cases h
  · rename_i e1 c1 i1 b o d1 hf
    cases h
    obtain ⟨n, rest, h1, h2, h3⟩ := hF hf
    obtain ⟨m, b', o', k1, k2, k3⟩ := overflow_taken (next := next) vals n i
    rw [k1] at h1
    cases h1
    rw [k2] at h2
    refine ⟨m, rest, rfl, h2, h3, fun he => by rw [if_neg he], fun he => ⟨fun hn => ?_, fun hn => ?_⟩⟩
    · rw [if_pos he, if_pos (k3.mpr hn)]
    · rw [if_pos he, if_neg (fun h => k3.mp h hn)]

/-- **C101** Where no destructor panics these functions are those of C63 to C66. -/
theorem C101_agrees {panics : V → Bool} (hp : ∀ v, panics v = false) (vals : α → List V) :
    Agrees (vecFill (α := α) (V := V)) Fill.vecFill ∧ Agrees (vecDequeFill (α := α) (V := V)) Fill.vecDequeFill ∧ Agrees (unitFill (V := V)) Fill.unitFill ∧ Agrees (optionFill (α := α) (V := V)) Fill.optionFill ∧
    Agrees (iterMutFill panics vals) Fill.iterMutFill ∧ Agrees (swapFill (α := α) (V := V)) Fill.swapFill ∧
    ∀ {C : Type} {F : FillImpl C α V} {G : Fill.FillImpl C α} (cvals : C → List V), Agrees F G → Agrees (resultFill (E := E) panics cvals vals F) (Fill.resultFill G) :=
  ⟨vec_agrees, vecDeque_agrees, unit_agrees, option_agrees, iterMut_agrees hp vals, swap_agrees, fun cvals ha => result_agrees ha hp cvals vals⟩

end Verif.FillDrops
