import Verif.Spec.Fill
import Verif.Spec.FixedVec
import Verif.Proofs.Basic
import Mathlib.Data.List.Basic
/-! # C63-C66: the crate `fill` -/
namespace Verif
open FVec Fill

section
variable {α ι C : Type} {next : Next ι α}

theorem wf_push {r : Option Nat} {log : List (Poll α)} {new : List α} {u : Bool} (h : WellFilled r log new u) (a : α) : WellFilled (r.map (· + 1)) (.item a :: log) (a :: new) u := by
  cases h with
  | full new => exact .full (a :: new)
  | ended new h => exact .ended (a :: new) (fun k hk => by
      cases r with
      | none => cases hk
      | some r => cases hk; have := h r rfl; simp; omega)
  | panicked new h => exact .panicked (a :: new) (fun k hk => by
      cases r with
      | none => cases hk
      | some r => cases hk; have := h r rfl; simp; omega)

theorem wf_done {r : Option Nat} (h : r ≠ some 0) : WellFilled (α := α) r [.done] [] false := .ended [] fun k hk => Nat.pos_of_ne_zero fun h0 => h (by rw [hk, h0])
theorem wf_panic {r : Option Nat} (h : r ≠ some 0) : WellFilled (α := α) r [.panic] [] true := .panicked [] fun k hk => Nat.pos_of_ne_zero fun h0 => h (by rw [hk, h0])

/-! ## Containers -/

/-- The `Vec` or `VecDeque` with items appended, without reallocation. -/
def Fill.Vec.Stored (v : Vec α) (new : List α) (v' : Vec α) : Prop := v'.items = v.items ++ new ∧ v'.cap = v.cap
def Fill.Vec.room (v : Vec α) : Option Nat := some (v.cap - v.items.length)

theorem vecLoop_spec (n : Nat) : ∀ (v : Vec α) (i : ι), v.items.length + n ≤ v.cap ∨ n = 0 →
    ∃ k new, (vecLoop next n v i).2.2 = after next i k ∧ WellFilled (some n) (answers next i k) new (vecLoop next n v i).1 ∧ v.Stored new (vecLoop next n v i).2.1 := by
  induction n with
  | zero => exact fun v i _ => ⟨0, [], rfl, .full [], by simp [vecLoop, Vec.Stored]⟩
  | succ n ih =>
    intro v i h
    unfold vecLoop
    rcases hx : next i with ⟨p, j⟩
    cases p with
    | done => exact ⟨1, [], by simp [after, hx], by simpa [answers, hx] using wf_done (by simp), by simp [Vec.Stored]⟩
    | panic => exact ⟨1, [], by simp [after, hx], by simpa [answers, hx] using wf_panic (by simp), by simp [Vec.Stored]⟩
    | item a =>
      have hlt : v.items.length < v.cap := by omega
      obtain ⟨k, new, h1, h2, h3⟩ := ih (v.push a) j (.inl (by simp [Vec.push, hlt]; omega))
      refine ⟨k + 1, a :: new, by simp only [h1, after, hx], ?_, ?_⟩
      · have := wf_push h2 a
        simpa only [answers, hx, Option.map] using this
      · obtain ⟨h3, h4⟩ := h3
        exact ⟨by simp only [h3]; simp [Vec.push], by simp only [h4]; simp [Vec.push, hlt]⟩

theorem vec_lawful : Lawful (vecFill (α := α)) Vec.room Vec.Stored where
  fills := by
    intro ι next fuel c c' i i' u h
    obtain ⟨k, new, h1, h2, h3⟩ := vecLoop_spec (next := next) (c.cap - c.items.length) c i (by omega)
    have h := Option.some.inj h
    rw [h] at h1 h2 h3
    exact ⟨k, new, h1, h2, h3⟩
  returns := fun _ => ⟨_, rfl⟩

/-- `()` takes everything and stores nothing. -/
theorem unitLoop_spec {next : Next ι Unit} (fuel : Nat) : ∀ {i i' : ι} {u : Bool}, unitLoop next fuel i = some (u, (), i') →
    ∃ k new, i' = after next i k ∧ WellFilled none (answers next i k) new u := by
  induction fuel with
  | zero => intro i i' u h; cases h
  | succ fuel ih =>
    intro i i' u h
    unfold unitLoop at h
    rcases hx : next i with ⟨p, j⟩
    rw [hx] at h
    cases p with
    | done => cases h; exact ⟨1, [], by simp [after, hx], by simpa [answers, hx] using wf_done (by simp)⟩
    | panic => cases h; exact ⟨1, [], by simp [after, hx], by simpa [answers, hx] using wf_panic (by simp)⟩
    | item a =>
      obtain ⟨k, new, h1, h2⟩ := ih h
      exact ⟨k + 1, a :: new, by simp only [h1, after, hx], by simpa only [answers, hx, Option.map] using wf_push h2 a⟩

theorem unit_lawful : Lawful unitFill (fun _ => none) (fun _ _ _ => True) where
  fills := by
    intro ι next fuel c c' i i' u h
    obtain ⟨k, new, h1, h2⟩ := unitLoop_spec fuel h
    exact ⟨k, new, h1, h2, trivial⟩
  returns := by
    intro ι next fuel c i h
    simp only [reduceCtorEq, false_or] at h
    obtain ⟨k, hk, h⟩ := h
    show ∃ r, unitLoop next fuel i = some r
    induction fuel generalizing i k with
    | zero => omega
    | succ fuel ih =>
      unfold unitLoop
      rcases hx : next i with ⟨p, j⟩
      cases p with
      | done => exact ⟨_, rfl⟩
      | panic => exact ⟨_, rfl⟩
      | item a =>
        cases k with
        | zero => exact absurd (by simp [after, hx]) (h a)
        | succ k => exact ih k (by omega) (by simpa only [after, hx] using h)

/-- The option holds the item. -/
def Fill.optStored (c : Option α) (new : List α) (c' : Option α) : Prop := c'.toList = c.toList ++ new
def Fill.optRoom : Option α → Option Nat
  | none => some 1
  | some _ => some 0

theorem option_lawful : Lawful (optionFill (α := α)) optRoom optStored where
  fills := by
    intro ι next fuel c c' i i' u h
    cases c with
    | some a => cases h; exact ⟨0, [], rfl, .full [], by simp [optStored]⟩
    | none =>
      simp only [optionFill] at h
      rcases hx : next i with ⟨p, j⟩
      rw [hx] at h
      cases p with
      | done => cases h; exact ⟨1, [], by simp [after, hx], by simpa [answers, hx, optRoom] using wf_done (r := some 1) (by simp), rfl⟩
      | panic => cases h; exact ⟨1, [], by simp [after, hx], by simpa [answers, hx, optRoom] using wf_panic (r := some 1) (by simp), rfl⟩
      | item a => cases h; exact ⟨1, [a], by simp [after, hx], by simpa [answers, hx, optRoom] using WellFilled.full [a], rfl⟩
  returns := by
    intro ι next fuel c i _
    cases c with
    | some a => exact ⟨_, rfl⟩
    | none =>
      simp only [optionFill]
      rcases hx : next i with ⟨p, j⟩
      cases p <;> exact ⟨_, rfl⟩

/-- The next elements of the slice are overwritten, the others are unchanged; the iterator has advanced by the number of items. -/
def Fill.IterMut.Stored (c : IterMut α) (new : List α) (c' : IterMut α) : Prop :=
  c'.slice = c.slice.take c.pos ++ new ++ c.slice.drop (c.pos + new.length) ∧ c'.pos = c.pos + new.length
def Fill.IterMut.room (c : IterMut α) : Option Nat := some c.len

theorem IterMut.stored_nil (c : IterMut α) : c.Stored [] c := by simp [IterMut.Stored]

theorem IterMut.stored_cons {c c' : IterMut α} {a : α} {new : List α} (hp : c.len ≠ 0) (h : IterMut.Stored ⟨c.slice.set c.pos a, c.pos + 1⟩ new c') : c.Stored (a :: new) c' := by
  obtain ⟨h1, h2⟩ := h
  simp only [IterMut.len] at hp
  refine ⟨?_, by simp only [h2, List.length_cons]; omega⟩
  simp only [h1, List.length_cons]
  rw [List.take_set, List.take_add_one, List.getElem?_eq_getElem (by omega), Option.toList_some]
  rw [List.drop_set, if_pos (by omega), show c.pos + 1 + new.length = c.pos + (new.length + 1) by omega]
  rw [List.set_append_right _ _ (by rw [List.length_take]; omega)]
  rw [show c.pos - (List.take c.pos c.slice).length = 0 by rw [List.length_take]; omega, List.set_cons_zero]
  simp

theorem iterMut_lawful : Lawful (iterMutFill (α := α)) IterMut.room IterMut.Stored where
  fills := by
    intro ι next fuel c c' i i' u h
    simp only [iterMutFill] at h
    induction fuel generalizing c i with
    | zero => cases h
    | succ fuel ih =>
      unfold iterMutLoop at h
      by_cases hl : c.len ≠ 0
      · rw [if_pos hl] at h
        rcases hx : next i with ⟨p, j⟩
        rw [hx] at h
        cases p with
        | done => cases h; exact ⟨1, [], by simp [after, hx], by simpa [answers, hx] using wf_done (by simpa [IterMut.room] using hl), IterMut.stored_nil _⟩
        | panic => cases h; exact ⟨1, [], by simp [after, hx], by simpa [answers, hx] using wf_panic (by simpa [IterMut.room] using hl), IterMut.stored_nil _⟩
        | item a =>
          obtain ⟨k, new, h1, h2, h3⟩ := ih h
          refine ⟨k + 1, a :: new, by simp only [h1, after, hx], ?_, IterMut.stored_cons hl h3⟩
          have := wf_push h2 a
          simp only [IterMut.room, IterMut.len, List.length_set, Option.map] at this hl ⊢
          rw [show c.slice.length - (c.pos + 1) + 1 = c.slice.length - c.pos by omega] at this
          simpa only [answers, hx] using this
      · rw [if_neg hl] at h
        have : c.room = some 0 := by simp only [IterMut.room]; congr 1; omega
        cases h
        exact ⟨0, [], rfl, by rw [this]; exact .full [], IterMut.stored_nil _⟩
  returns := by
    intro ι next fuel c i h
    simp only [iterMutFill]
    obtain ⟨k, hk, h⟩ := h
    induction fuel generalizing c i k with
    | zero => omega
    | succ fuel ih =>
      unfold iterMutLoop
      by_cases hl : c.len ≠ 0
      · rw [if_pos hl]
        rcases hx : next i with ⟨p, j⟩
        cases p with
        | done => exact ⟨_, rfl⟩
        | panic => exact ⟨_, rfl⟩
        | item a =>
          cases k with
          | zero =>
            rcases h with h | h
            · simp only [IterMut.room, Option.some.injEq] at h; omega
            · exact absurd (by simp [after, hx]) (h a)
          | succ k =>
            refine ih k (by omega) ?_
            rcases h with h | h
            · refine .inl ?_
              simp only [IterMut.room, IterMut.len, Option.some.injEq, List.length_set] at h ⊢; omega
            · exact .inr (by simpa only [after, hx] using h)
      · rw [if_neg hl]; exact ⟨_, rfl⟩

/-- The next elements of the slice are swapped with the variables. (References `&mut T` that exist at the same time are to different variables.) -/
def Fill.SwapState.Stored (c : SwapState α) (new : List Nat) (c' : SwapState α) : Prop :=
  new.Nodup → IterMut.Stored c.it (new.map c.vars) c'.it ∧ (∀ y, y ∉ new → c'.vars y = c.vars y) ∧ ∀ k x, new[k]? = some x → c.it.slice[c.it.pos + k]? = some (c'.vars x)
def Fill.SwapState.room (c : SwapState α) : Option Nat := some c.it.len

theorem SwapState.stored_nil (c : SwapState α) : c.Stored [] c := fun _ => ⟨IterMut.stored_nil _, fun _ _ => rfl, by simp⟩

theorem SwapState.stored_cons {c c' : SwapState α} {x : Nat} {new : List Nat} (hp : c.it.len ≠ 0) (h : (c.swap x).Stored new c') : c.Stored (x :: new) c' := by
  intro hn
  rw [List.nodup_cons] at hn
  obtain ⟨h1, h2, h3⟩ := h hn.2
  simp only [IterMut.len] at hp
  have hlt : c.it.pos < c.it.slice.length := by omega
  have e : c.swap x = ⟨⟨c.it.slice.set c.it.pos (c.vars x), c.it.pos + 1⟩, fun y => if y = x then c.it.slice[c.it.pos] else c.vars y⟩ := by
    unfold SwapState.swap
    rw [List.getElem?_eq_getElem hlt]
  rw [e] at h1 h2 h3
  have hmap : new.map (fun y => if y = x then c.it.slice[c.it.pos] else c.vars y) = new.map c.vars := by
    apply List.map_congr_left
    intro y hy
    have hne : y ≠ x := fun he => hn.1 (he ▸ hy)
    simp [hne]
  simp only [hmap] at h1
  refine ⟨IterMut.stored_cons hp h1, fun y hy => ?_, fun k y hy => ?_⟩
  · rw [List.mem_cons, not_or] at hy
    rw [h2 y hy.2]
    exact if_neg hy.1
  · cases k with
    | zero =>
      simp only [List.getElem?_cons_zero, Option.some.injEq] at hy
      subst hy
      rw [h2 x hn.1, Nat.add_zero, List.getElem?_eq_getElem hlt]
      simp
    | succ k =>
      have := h3 k y (by simpa using hy)
      rw [← this]
      simp only [List.getElem?_set]
      rw [if_neg (by omega), show c.it.pos + 1 + k = c.it.pos + (k + 1) by omega]

theorem swap_len (c : SwapState α) (x : Nat) (hp : c.it.len ≠ 0) : (c.swap x).it.len = c.it.len - 1 := by
  simp only [IterMut.len] at hp
  unfold SwapState.swap
  rw [List.getElem?_eq_getElem (by omega)]
  simp only [IterMut.len, List.length_set]
  omega

theorem swap_lawful : Lawful (swapFill (α := α)) SwapState.room SwapState.Stored where
  fills := by
    intro ι next fuel c c' i i' u h
    simp only [swapFill] at h
    induction fuel generalizing c i with
    | zero => cases h
    | succ fuel ih =>
      unfold swapLoop at h
      by_cases hl : c.it.len ≠ 0
      · rw [if_pos hl] at h
        rcases hx : next i with ⟨p, j⟩
        rw [hx] at h
        cases p with
        | done => cases h; exact ⟨1, [], by simp [after, hx], by simpa [answers, hx] using wf_done (by simpa [SwapState.room] using hl), SwapState.stored_nil _⟩
        | panic => cases h; exact ⟨1, [], by simp [after, hx], by simpa [answers, hx] using wf_panic (by simpa [SwapState.room] using hl), SwapState.stored_nil _⟩
        | item a =>
          obtain ⟨k, new, h1, h2, h3⟩ := ih h
          refine ⟨k + 1, a :: new, by simp only [h1, after, hx], ?_, SwapState.stored_cons hl h3⟩
          have := wf_push h2 a
          simp only [SwapState.room, Option.map, swap_len c a hl] at this ⊢
          rw [show c.it.len - 1 + 1 = c.it.len by omega] at this
          simpa only [answers, hx] using this
      · rw [if_neg hl] at h
        have : c.room = some 0 := by simp only [SwapState.room]; congr 1; omega
        cases h
        exact ⟨0, [], rfl, by rw [this]; exact .full [], SwapState.stored_nil _⟩
  returns := by
    intro ι next fuel c i h
    simp only [swapFill]
    obtain ⟨k, hk, h⟩ := h
    induction fuel generalizing c i k with
    | zero => omega
    | succ fuel ih =>
      unfold swapLoop
      by_cases hl : c.it.len ≠ 0
      · rw [if_pos hl]
        rcases hx : next i with ⟨p, j⟩
        cases p with
        | done => exact ⟨_, rfl⟩
        | panic => exact ⟨_, rfl⟩
        | item a =>
          cases k with
          | zero =>
            rcases h with h | h
            · simp only [SwapState.room, Option.some.injEq] at h; omega
            · exact absurd (by simp [after, hx]) (h a)
          | succ k =>
            refine ih k (by omega) ?_
            rcases h with h | h
            · refine .inl ?_
              simp only [SwapState.room, Option.some.injEq, swap_len c a hl] at h ⊢; omega
            · exact .inr (by simpa only [after, hx] using h)
      · rw [if_neg hl]; exact ⟨_, rfl⟩

/-! ## C63 -/

/-- **C63** `Vec` and `VecDeque`: for every iterator, the items asked for are exactly the ones appended, up to the capacity, which does not change; afterwards the iterator is not asked any more. -/
theorem C63_vec : Lawful (vecFill (α := α)) Vec.room Vec.Stored ∧ Lawful (vecDequeFill (α := α)) Vec.room Vec.Stored := ⟨vec_lawful, vec_lawful⟩
/-- **C63** `Option`: the same with a capacity of one. -/
theorem C63_option : Lawful (optionFill (α := α)) optRoom optStored := option_lawful
/-- **C63** `()` asks for items until the first `None`. -/
theorem C63_unit : Lawful unitFill (fun _ => none) (fun _ _ _ => True) := unit_lawful

theorem mem_answers_map {new : List α} {p : Poll α} (h : p ∈ new.map Poll.item) : ∃ a, p = .item a := by
  obtain ⟨a, _, rfl⟩ := List.mem_map.mp h; exact ⟨a, rfl⟩

/-- **C63** `fill_and_keep_tail` on every well-behaved container, for every iterator: what the iterator would have answered is the items stored, followed by what the returned iterator answers; nothing is lost except possibly one `None` (if the
iterator ended before the container was full). -/
theorem C63_keep_tail {F : FillImpl C α} {room : C → Option Nat} {Stored : C → List α → C → Prop} (hF : Lawful F room Stored) {fuel : Nat} {c c' : C} {i i' : ι}
    (h : fillAndKeepTail F fuel next c i = some (false, c', i')) :
    ∃ new, Stored c new c' ∧ ((room c = some new.length ∧ ∀ n, answers next i (new.length + n) = new.map .item ++ answers next i' n) ∨
      (room c ≠ some new.length ∧ ∀ n, answers next i (new.length + 1 + n) = new.map .item ++ .done :: answers next i' n)) := by
  obtain ⟨n, new, rfl, h2, h3⟩ := hF.fills h
  have hsplit : ∀ (n m : Nat) (i : ι), answers next i (n + m) = answers next i n ++ answers next (after next i n) m := by
    intro n
    induction n with
    | zero => intro m i; simp [answers, after]
    | succ n ih => intro m i; rw [show n + 1 + m = (n + m) + 1 by omega]; simp only [answers, after, ih, List.cons_append]
  have hlen : ∀ (n : Nat) (i : ι), (answers next i n).length = n := by
    intro n
    induction n with
    | zero => intro i; rfl
    | succ n ih => intro i; simp [answers, ih]
  refine ⟨new, h3, ?_⟩
  generalize hr : room c = r at h2
  generalize hlog : answers next i n = log at h2
  have hl := hlen n i
  rw [hlog] at hl
  cases h2 with
  | full =>
    simp only [List.length_map] at hl
    subst hl
    exact .inl ⟨rfl, fun m => by rw [hsplit, hlog]⟩
  | ended _ hlt =>
    simp only [List.length_append, List.length_map, List.length_singleton] at hl
    subst hl
    refine .inr ⟨fun he => ?_, fun m => by rw [hsplit, hlog]; simp⟩
    have := hlt _ he
    omega

theorem count_answers (t : Target) (checks : Bool) (n : Nat) : ∀ (i : ι) (k : Nat), k < t.W → (checks = false ∨ ∀ p ∈ answers (countNext t checks next) (i, k) n, p ≠ .panic) →
    answers (countNext t checks next) (i, k) n = answers next i n ∧ (after (countNext t checks next) (i, k) n).1 = after next i n ∧
      (after (countNext t checks next) (i, k) n).2 = (k + ((answers next i n).filterMap Poll.item?).length) % t.W ∧
      (checks = true → k + ((answers next i n).filterMap Poll.item?).length < t.W) := by
  induction n with
  | zero => intro i k hk _; exact ⟨rfl, rfl, by simp [after, answers, Nat.mod_eq_of_lt hk], fun _ => by simpa [answers] using hk⟩
  | succ n ih =>
    intro i k hk hnp
    have hW : 0 < t.W := by omega
    rcases hx : next i with ⟨p, j⟩
    have key : ∀ (p' : Poll α) (k' : Nat), countNext t checks next (i, k) = (p', (j, k')) → p' = p → k' < t.W →
        ((k' + ((answers next j n).filterMap Poll.item?).length) % t.W = (k + ((p :: answers next j n).filterMap Poll.item?).length) % t.W) →
        (checks = true → k' + ((answers next j n).filterMap Poll.item?).length < t.W → k + ((p :: answers next j n).filterMap Poll.item?).length < t.W) →
        (answers (countNext t checks next) (i, k) (n + 1) = answers next i (n + 1) ∧ (after (countNext t checks next) (i, k) (n + 1)).1 = after next i (n + 1) ∧
        (after (countNext t checks next) (i, k) (n + 1)).2 = (k + ((answers next i (n + 1)).filterMap Poll.item?).length) % t.W ∧
        (checks = true → k + ((answers next i (n + 1)).filterMap Poll.item?).length < t.W)) := by
      intro p' k' e1 e2 hk' e3 e4
      obtain ⟨h1, h2, h3, h4⟩ := ih j k' hk' (hnp.imp id fun h q hq => h q (by simp only [answers, e1]; exact List.mem_cons_of_mem _ hq))
      show answers (countNext t checks next) (i, k) (n + 1) = answers next i (n + 1) ∧ (after (countNext t checks next) (i, k) (n + 1)).1 = after next i (n + 1) ∧
        (after (countNext t checks next) (i, k) (n + 1)).2 = (k + ((answers next i (n + 1)).filterMap Poll.item?).length) % t.W ∧
        (checks = true → k + ((answers next i (n + 1)).filterMap Poll.item?).length < t.W)
      simp only [answers, after, e1, hx, e2]
      exact ⟨by rw [h1], h2, by rw [h3, e3], fun hc => e4 hc (h4 hc)⟩
    cases p with
    | done => exact key .done k (by simp [countNext, hx]) rfl hk rfl (fun _ h => h)
    | panic => exact key .panic k (by simp [countNext, hx]) rfl hk rfl (fun _ h => h)
    | item a =>
      by_cases hlt : k + 1 < t.W
      · exact key (.item a) (k + 1) (by simp [countNext, hx, hlt]) rfl hlt (by simp [Poll.item?]; congr 1; omega) (by simp [Poll.item?]; omega)
      · cases checks with
        | false =>
          refine key (.item a) ((k + 1) % t.W) (by simp [countNext, hx, hlt]) rfl (Nat.mod_lt _ hW) ?_ (by simp)
          simp [Poll.item?]
          rw [show k + (List.length (List.filterMap Poll.item? (answers next j n)) + 1) = k + 1 + List.length (List.filterMap Poll.item? (answers next j n)) by omega]
        | true =>
          exfalso
          rcases hnp with hnp | hnp
          · cases hnp
          · exact hnp .panic (by simp [answers, countNext, hx, hlt]) rfl

theorem wf_items {r : Option Nat} {log : List (Poll α)} {new : List α} {u : Bool} (h : WellFilled r log new u) : log.filterMap Poll.item? = new ∧ (u = false → ∀ p ∈ log, p ≠ .panic) := by
  have hm : ∀ l : List α, (l.map Poll.item).filterMap Poll.item? = l := by
    intro l; induction l with
    | nil => rfl
    | cons a l ih => simp [Poll.item?, ih]
  cases h with
  | full => exact ⟨hm _, fun _ p hp => by obtain ⟨a, rfl⟩ := mem_answers_map hp; exact fun h => by cases h⟩
  | ended => refine ⟨by simp [List.filterMap_append, hm, Poll.item?], fun _ p hp => ?_⟩
             rcases List.mem_append.mp hp with hp | hp
             · obtain ⟨a, rfl⟩ := mem_answers_map hp; exact fun h => by cases h
             · cases List.mem_singleton.mp hp; exact fun h => by cases h
  | panicked => exact ⟨by simp [List.filterMap_append, hm, Poll.item?], fun h => by cases h⟩

/-- **C63** `fill_count` on every well-behaved container: when it returns, the count is the number of items stored (modulo the size of `usize`, if there can be so many items and overflow is not checked). -/
theorem C63_fill_count {F : FillImpl C α} {room : C → Option Nat} {Stored : C → List α → C → Prop} (hF : Lawful F room Stored) {t : Target} {checks : Bool} {fuel : Nat} {c c' : C} {i i' : ι} {cnt : Nat}
    (h : fillCount t checks F fuel next c i = some (some cnt, c', i')) :
    ∃ n new, i' = after next i n ∧ WellFilled (room c) (answers next i n) new false ∧ Stored c new c' ∧ cnt = new.length % t.W ∧ (checks = true ∨ new.length < t.W → cnt = new.length) := by
  unfold fillCount at h
  cases hf : F.fill fuel (countNext t checks next) c (i, 0) with
  | none => rw [hf] at h; cases h
  | some x =>
    obtain ⟨u, c2, j, k⟩ := x
    rw [hf] at h
    cases u with
    | true => cases h
    | false =>
      cases h
      obtain ⟨n, new, h1, h2, h3⟩ := hF.fills hf
      have hW : 0 < t.W := by cases t <;> decide
      obtain ⟨k1, k2⟩ := wf_items h2
      obtain ⟨e1, e2, e3, e4⟩ := count_answers t checks n i 0 hW (next := next) (.inr (k2 rfl))
      rw [e1] at h2 k1
      rw [k1, Nat.zero_add] at e3 e4
      rw [← h1] at e2 e3
      refine ⟨n, new, e2, h2, h3, e3, fun hc => ?_⟩
      rw [show cnt = _ from e3]
      exact Nat.mod_eq_of_lt (hc.elim e4 id)

/-- **C63** A full container is not changed and the iterator is not asked. -/
theorem C63_full {F : FillImpl C α} {room : C → Option Nat} {Stored : C → List α → C → Prop} (hF : Lawful F room Stored) {fuel : Nat} {c c' : C} {i i' : ι} {u : Bool} (hr : room c = some 0)
    (h : F.fill fuel next c i = some (u, c', i')) : u = false ∧ i' = i ∧ Stored c [] c' := by
  obtain ⟨n, new, h1, h2, h3⟩ := hF.fills h
  rw [hr] at h2
  generalize hlog : answers next i n = log at h2
  generalize hz : some 0 = z at h2
  cases h2 with
  | full =>
    have : new = [] := List.length_eq_zero_iff.mp (Option.some.inj hz).symm
    subst this
    cases n with
    | zero => exact ⟨rfl, h1, h3⟩
    | succ n => simp [answers] at hlog
  | ended _ hlt => have := hlt 0 hz.symm; omega
  | panicked _ hlt => have := hlt 0 hz.symm; omega

/-! ## C64 -/

theorem overflow_next (i : ι) (ov : Bool) : overflowNext (fuseNext next) ((i, false), ov) =
    match next i with
    | (.item a, j) => (.item a, ((j, false), ov))
    | (.done, j) => (.done, ((j, true), false))
    | (.panic, j) => (.panic, ((j, false), ov)) := by
  rcases hx : next i with ⟨p, j⟩
  cases p <;> simp [overflowNext, fuseNext, hx]

/-- The iterator which `checked_fill` uses. -/
theorem overflow_answers (new : List α) : ∀ (n : Nat) (i : ι) (last : List (Poll α)), answers (overflowNext (fuseNext next)) ((i, false), true) n = new.map .item ++ last → last = [] ∨ last = [.done] ∨ last = [.panic] →
    answers next i n = new.map .item ++ last ∧ (after (overflowNext (fuseNext next)) ((i, false), true) n).1.1 = after next i n ∧
      (last = [] → (after (overflowNext (fuseNext next)) ((i, false), true) n).2 = true) ∧ (last = [.done] → (after (overflowNext (fuseNext next)) ((i, false), true) n).2 = false) := by
  induction new with
  | nil =>
    intro n i last h hl
    cases n with
    | zero =>
      simp only [answers, List.map_nil, List.nil_append] at h
      subst h
      exact ⟨rfl, rfl, fun _ => rfl, fun h => by cases h⟩
    | succ n =>
      simp only [answers, List.map_nil, List.nil_append] at h
      rcases hl with rfl | rfl | rfl
      · cases h
      · rcases hx : next i with ⟨p, j⟩
        have hn : n = 0 := by
          cases n with
          | zero => rfl
          | succ n => simp [answers] at h
        subst hn
        simp only [overflow_next, hx, answers] at h
        cases p <;> simp at h
        exact ⟨by simp [answers, hx], by simp [after, overflow_next, hx], (fun h => by cases h), fun _ => by simp [after, overflow_next, hx]⟩
      · rcases hx : next i with ⟨p, j⟩
        have hn : n = 0 := by
          cases n with
          | zero => rfl
          | succ n => simp [answers] at h
        subst hn
        simp only [overflow_next, hx, answers] at h
        cases p <;> simp at h
        exact ⟨by simp [answers, hx], by simp [after, overflow_next, hx], (fun h => by cases h), (fun h => by cases h)⟩
  | cons a new ih =>
    intro n i last h hl
    cases n with
    | zero => simp [answers] at h
    | succ n =>
      rcases hx : next i with ⟨p, j⟩
      simp only [answers, overflow_next, hx, List.map_cons, List.cons_append, List.cons.injEq] at h
      cases p with
      | done => simp at h
      | panic => simp at h
      | item b =>
        obtain ⟨h1, h2⟩ := h
        simp only [Poll.item.injEq] at h1
        subst h1
        obtain ⟨k1, k2, k3, k4⟩ := ih n j last h2 hl
        simp only [answers, after, overflow_next, hx]
        exact ⟨by simp [k1], k2, k3, k4⟩

/-- **C64** `checked_fill` on every well-behaved container, for every iterator: some items of the iterator were stored. Either the container was filled up, then the iterator is returned, and it goes on with the item following the ones stored; or the iterator
ended (at its first `None`, also if it is not fused) and there is still room, then `None` is returned. -/
theorem C64_checked_fill {F : FillImpl C α} {room : C → Option Nat} {Stored : C → List α → C → Prop} (hF : Lawful F room Stored) {fuel : Nat} {c c' : C} {i i' : ι} {r : Option ι}
    (h : checkedFill F fuel next c i = some (some r, c', i')) :
    ∃ new, Stored c new c' ∧ ((room c = some new.length ∧ answers next i new.length = new.map .item ∧ r = some (after next i new.length) ∧ i' = after next i new.length) ∨
      ((∀ k, room c = some k → new.length < k) ∧ answers next i (new.length + 1) = new.map .item ++ [.done] ∧ r = none ∧ i' = after next i (new.length + 1))) := by
  unfold checkedFill fillAndKeepTail at h
  cases hf : F.fill fuel (overflowNext (fuseNext next)) c ((i, false), true) with
  | none => rw [hf] at h; cases h
  | some x =>
    obtain ⟨u, c2, ⟨j, e⟩, ov⟩ := x
    rw [hf] at h
    cases u with
    | true => cases h
    | false =>
      obtain ⟨n, new, h1, h2, h3⟩ := hF.fills hf
      have hlen : ∀ (n : Nat) (i : ι), (answers next i n).length = n := by
        intro n
        induction n with
        | zero => intro i; rfl
        | succ n ih => intro i; simp [answers, ih]
      cases h
      refine ⟨new, h3, ?_⟩
      generalize hr : room c = r at h2
      generalize hlog : answers (overflowNext (fuseNext next)) ((i, false), true) n = log at h2
      cases h2 with
      | full =>
        obtain ⟨k1, k2, k3, _⟩ := overflow_answers new n i [] (by simpa using hlog) (.inl rfl)
        have := hlen n i
        rw [k1] at this
        simp at this
        subst this
        rw [← h1] at k2 k3
        have k2 : i' = after next i new.length := k2
        have k3 : ov = true := k3 rfl
        exact .inl ⟨rfl, by simpa using k1, by simp [k3, k2], k2⟩
      | ended _ hlt =>
        obtain ⟨k1, k2, _, k3⟩ := overflow_answers new n i [.done] hlog (.inr (.inl rfl))
        have := hlen n i
        rw [k1] at this
        simp at this
        subst this
        rw [← h1] at k2 k3
        have k2 : i' = after next i (new.length + 1) := k2
        have k3 : ov = false := k3 rfl
        exact .inr ⟨hlt, k1, by simp [k3], k2⟩

/-- **C64** If the container is full the iterator is returned without being asked. -/
theorem C64_full {F : FillImpl C α} {room : C → Option Nat} {Stored : C → List α → C → Prop} (hF : Lawful F room Stored) {fuel : Nat} {c c' : C} {i i' : ι} {r : Option ι} (hr : room c = some 0)
    (h : checkedFill F fuel next c i = some (some r, c', i')) : r = some i ∧ i' = i ∧ Stored c [] c' := by
  obtain ⟨new, h1, ⟨h2, _, h3, h4⟩ | ⟨h2, _⟩⟩ := C64_checked_fill hF h
  · rw [hr] at h2
    have : new = [] := List.length_eq_zero_iff.mp (Option.some.inj h2).symm
    subst this
    exact ⟨h3, h4, h1⟩
  · have := h2 0 hr; omega

/-- What the iterator of `checked_fill` is after `n` calls: the given one after `m ≤ n` calls, of which at most the last was answered with `None`. -/
theorem overflow_after (n : Nat) (i : ι) : ∃ m ≤ n, (∀ k, k + 1 < m → (answers next i m)[k]? ≠ some .done) ∧
    ((.done ∉ answers next i m ∧ m = n ∧ after (overflowNext (fuseNext next)) ((i, false), true) n = ((after next i m, false), true)) ∨
      (0 < m ∧ (answers next i m)[m - 1]? = some .done ∧ after (overflowNext (fuseNext next)) ((i, false), true) n = ((after next i m, true), false))) := by
  induction n generalizing i with
  | zero => exact ⟨0, Nat.le_refl _, by simp, .inl ⟨by simp [answers], rfl, rfl⟩⟩
  | succ n ih =>
    rcases hx : next i with ⟨p, j⟩
    by_cases hp : p = .done
    · subst hp
      have fused : ∀ n, after (overflowNext (fuseNext next)) ((j, true), false) n = ((j, true), false) := by
        intro n
        induction n with
        | zero => rfl
        | succ n ih =>
          have e : overflowNext (fuseNext next) ((j, true), false) = (.done, ((j, true), false)) := by simp [overflowNext, fuseNext]
          simp only [after, e, ih]
      refine ⟨1, by omega, by intro k hk; omega, .inr ⟨Nat.one_pos, by simp [answers, hx], ?_⟩⟩
      simp only [after, overflow_next, hx, fused]
    · obtain ⟨m, h1, h2, h3⟩ := ih j
      have e : (overflowNext (fuseNext next) ((i, false), true)).2 = ((j, false), true) := by
        rw [overflow_next, hx]
        cases p <;> first | rfl | exact absurd rfl hp
      refine ⟨m + 1, by omega, fun k hk => ?_, ?_⟩
      · cases k with
        | zero => simpa [answers, hx] using hp
        | succ k => simpa [answers, hx] using h2 k (by omega)
      · rcases h3 with ⟨a, b, c⟩ | ⟨a, b, c⟩
        · refine .inl ⟨?_, by omega, ?_⟩
          · simp only [answers, hx, List.mem_cons, not_or]
            exact ⟨fun h => hp h.symm, a⟩
          · simp only [after, e, c, hx]
        · refine .inr ⟨by omega, ?_, ?_⟩
          · obtain ⟨k, rfl⟩ : ∃ k, m = k + 1 := ⟨m - 1, by omega⟩
            simpa [answers, hx] using b
          · simp only [after, e, c, hx]

/-- **C64** `checked_fill` returns (or unwinds) if there is finite room or the iterator has an answer that is not an item. (It needs no more rounds than the room, respectively the number of items.) -/
theorem C64_returns {F : FillImpl C α} {room : C → Option Nat} {Stored : C → List α → C → Prop} (hF : Lawful F room Stored) {fuel : Nat} {c : C} {i : ι} {k : Nat} (hr : room c = some k ∨ ∀ a, (next (after next i k)).1 ≠ .item a) (hk : k < fuel) :
    ∃ r, checkedFill F fuel next c i = some r := by
  have h : room c = some k ∨ ∀ a, (overflowNext (fuseNext next) (after (overflowNext (fuseNext next)) ((i, false), true) k)).1 ≠ .item a := by
    refine hr.imp id fun h a => ?_
    obtain ⟨m, -, -, ⟨-, rfl, e⟩ | ⟨-, -, e⟩⟩ := overflow_after (next := next) k i
    · rw [e, overflow_next]
      rcases hx : next (after next i m) with ⟨p, j⟩
      have := h a
      rw [hx] at this
      cases p <;> first | exact this | simp
    · rw [e]; simp [overflowNext, fuseNext]
  obtain ⟨x, hx⟩ := hF.returns (next := overflowNext (fuseNext next)) (i := ((i, false), true)) ⟨k, hk, h⟩
  simp only [checkedFill, fillAndKeepTail, hx]
  exact ⟨_, rfl⟩

/-- **C64** With every container, even one that is not well-behaved but goes on asking (all that is known is that it does nothing to the iterator but call `next`): an iterator is not asked again after its first `None`, and `checked_fill` returns it exactly if it did
not end. -/
theorem C64_not_asked_again {F : FillImpl C α} {fuel : Nat} {c c' : C} {i i' : ι} {r : Option ι}
    (hF : ∀ c' (u : Bool) (s' : (ι × Bool) × Bool), F.fill fuel (overflowNext (fuseNext next)) c ((i, false), true) = some (u, c', s') → ∃ n, s' = after (overflowNext (fuseNext next)) ((i, false), true) n)
    (h : checkedFill F fuel next c i = some (some r, c', i')) :
    ∃ m, i' = after next i m ∧ (∀ k, k + 1 < m → (answers next i m)[k]? ≠ some .done) ∧
      ((r = some i' ∧ .done ∉ answers next i m) ∨ (r = none ∧ 0 < m ∧ (answers next i m)[m - 1]? = some .done)) := by
  unfold checkedFill fillAndKeepTail at h
  cases hf : F.fill fuel (overflowNext (fuseNext next)) c ((i, false), true) with
  | none => rw [hf] at h; cases h
  | some x =>
    obtain ⟨u, c2, ⟨j, e⟩, ov⟩ := x
    obtain ⟨n, hn⟩ := hF _ _ _ hf
    obtain ⟨m, _, h2, h3⟩ := overflow_after (next := next) n i
    rw [hf] at h
    cases u with
    | true => cases h
    | false =>
      rcases h3 with ⟨a, b, d⟩ | ⟨a, b, d⟩ <;> rw [d] at hn <;> cases hn <;> cases h
      · exact ⟨m, rfl, h2, .inl ⟨rfl, a⟩⟩
      · exact ⟨m, rfl, h2, .inr ⟨rfl, a, b⟩⟩

/-- A container that asks three times, whatever the answers are. -/
def Fill.stubborn : FillImpl (List Nat) Nat where
  fill _ next c i := some (false, c ++ (answers next i 3).filterMap (fun p => match p with | .item a => some a | _ => none), after next i 3)
/-- On an iterator that has 7, then `None`, then 8: the 8 is still to come. -/
example : ∃ m, after (fun n : Nat => ((if n = 0 then .item 7 else if n = 1 then .done else .item 8 : FVec.Poll Nat), n + 1)) 0 m = 2 ∧
    checkedFill Fill.stubborn 9 (fun n : Nat => ((if n = 0 then .item 7 else if n = 1 then .done else .item 8 : FVec.Poll Nat), n + 1)) [] 0 = some (some none, [7], 2) := ⟨2, rfl, rfl⟩
example {next : Next ι Nat} {i i' : ι} {c' : List Nat} {r : Option ι} (h : checkedFill Fill.stubborn 9 next [] i = some (some r, c', i')) := C64_not_asked_again (fun _ _ _ e => ⟨3, by simp only [Fill.stubborn, Option.some.injEq, Prod.mk.injEq] at e; exact e.2.2.symm⟩) h

/-! ## C65 -/

/-- **C65** An `Option` asks for exactly one item if it is `None`, and none if it is `Some`. -/
theorem C65_option {c c' : Option α} {i i' : ι} {fuel : Nat} {u : Bool} (h : (optionFill (α := α)).fill fuel next c i = some (u, c', i')) :
    (∀ a, c = some a → c' = c ∧ i' = i ∧ u = false) ∧
    (c = none → i' = (next i).2 ∧ match (next i).1 with | .item a => c' = some a ∧ u = false | .done => c' = none ∧ u = false | .panic => c' = none ∧ u = true) := by
  cases c with
  | some a => cases h; exact ⟨fun _ _ => ⟨rfl, rfl, rfl⟩, fun h => by cases h⟩
  | none =>
    refine ⟨(fun a h => by cases h), fun _ => ?_⟩
    simp only [optionFill] at h
    rcases hx : next i with ⟨p, j⟩
    rw [hx] at h
    cases p <;> cases h <;> simp

/-- **C65** An `Err` is full. -/
theorem C65_err {E : Type} {F : FillImpl C α} {next : Next ι (Except E α)} {fuel : Nat} {e : E} {i : ι} : (resultFill F).fill fuel next (.error e) i = some (false, .error e, i) := rfl

/-- Filling one more item. -/
structure Fill.OneByOne (F : FillImpl C α) (room : C → Option Nat) (Stored : C → List α → C → Prop) : Prop extends Lawful F room Stored where
  nil : ∀ {c c'}, Stored c [] c' ↔ c' = c
  append : ∀ {c c' c'' a new}, Stored c [a] c' → Stored c' new c'' → Stored c (a :: new) c''
  less : ∀ {c c' a r}, Stored c [a] c' → room c = some (r + 1) → room c' = some r
  unlimited : ∀ {c c' a}, Stored c [a] c' → room c = none → room c' = none

variable {E : Type}

theorem fill_once {F : FillImpl C α} {room : C → Option Nat} {Stored : C → List α → C → Prop} (hF : OneByOne F room Stored) (fuel : Nat) (c : C) (a : α) :
    ∃ c' i', F.fill (fuel + 2) onceNext c (some a) = some (false, c', i') ∧ (room c ≠ some 0 → Stored c [a] c') ∧ (room c = some 0 → c' = c) := by
  obtain ⟨⟨u, c', i'⟩, h⟩ := hF.returns (next := onceNext) (fuel := fuel + 2) (c := c) (i := some a) ⟨1, by omega, .inr (fun b hb => by cases hb)⟩
  obtain ⟨n, new, h1, h2, h3⟩ := hF.fills h
  generalize hr : room c = r at h2
  have hdone : ∀ n, answers onceNext (none : Option α) n = List.replicate n .done := by
    intro n
    induction n with
    | zero => rfl
    | succ n ih => simp only [answers, onceNext, ih, List.replicate_succ]
  have hans : ∀ n, answers onceNext (some a) (n + 1) = .item a :: List.replicate n .done := by
    intro n
    simp only [answers, onceNext, hdone]
  have hnew : u = false ∧ (new = [a] ∨ new = [] ∧ r = some 0) := by
    cases n with
    | zero =>
      generalize hlog : answers onceNext (some a) 0 = log at h2
      simp only [answers] at hlog
      cases h2 with
      | full =>
        have : new = [] := by simpa using hlog.symm
        subst this
        exact ⟨rfl, .inr ⟨rfl, rfl⟩⟩
      | ended => simp at hlog
      | panicked => simp at hlog
    | succ n =>
      rw [hans] at h2
      generalize hlog : Poll.item a :: List.replicate n .done = log at h2
      have hi := (wf_items h2).1
      rw [← hlog] at hi
      simp only [Poll.item?, List.filterMap_cons] at hi
      have : List.filterMap Poll.item? (List.replicate n (Poll.done : Poll α)) = [] := by
        rw [List.filterMap_eq_nil_iff]
        intro p hp
        rw [(List.mem_replicate.mp hp).2]
        rfl
      rw [this] at hi
      cases h2 with
      | full => exact ⟨rfl, .inl hi.symm⟩
      | ended => exact ⟨rfl, .inl hi.symm⟩
      | panicked =>
        exfalso
        have : Poll.panic ∈ (Poll.item a :: List.replicate n .done) := by rw [hlog]; simp
        rcases List.mem_cons.mp this with h | h
        · cases h
        · cases (List.mem_replicate.mp h).2
  obtain ⟨rfl, hnew⟩ := hnew
  refine ⟨c', i', h, fun hne => ?_, fun h0 => ?_⟩
  · rcases hnew with rfl | ⟨rfl, h0⟩
    · exact h3
    · exact absurd h0 hne
  · rcases hnew with rfl | ⟨rfl, _⟩
    · exfalso
      generalize hlog : answers onceNext (some a) n = log at h2
      generalize hn : [a] = new at h2
      subst h0
      generalize hz : some 0 = z at h2
      cases h2 with
      | full => subst hn; simp at hz
      | ended _ hlt => have := hlt 0 hz.symm; omega
    · exact hF.nil.mp h3

/-- The `Ok` items of the answers, up to the first answer that is none. -/
def Fill.oks : List (Poll (Except E α)) → List α
  | .item (.ok a) :: ps => a :: oks ps
  | _ => []

theorem resultLoop_spec {F : FillImpl C α} {room : C → Option Nat} {Stored : C → List α → C → Prop} (hF : OneByOne F room Stored) {next : Next ι (Except E α)} (good : List α) :
    ∀ (c : C) (i : ι) (fuel : Nat), answers next i good.length = good.map (fun a => .item (.ok a)) → (∀ a, (next (after next i good.length)).1 ≠ .item (.ok a)) → good.length < fuel →
    ∃ c', resultLoop F next fuel c i = some ((match (next (after next i good.length)).1 with | .item (.error e) => .err e | .panic => .unwound | _ => .ret), c', after next i (good.length + 1)) ∧
      Stored c (match room c with | none => good | some r => good.take r) c' := by
  induction good with
  | nil =>
    intro c i fuel _ hstop hf
    obtain ⟨fuel, rfl⟩ : ∃ f, fuel = f + 1 := ⟨fuel - 1, by simp at hf; omega⟩
    refine ⟨c, ?_, by cases room c <;> simp [hF.nil]⟩
    simp only [List.length_nil, after] at hstop ⊢
    unfold resultLoop
    rcases hx : next i with ⟨p, j⟩
    rw [hx] at hstop
    cases p with
    | done => rfl
    | panic => rfl
    | item x =>
      cases x with
      | error e => rfl
      | ok a => exact absurd rfl (hstop a)
  | cons a good ih =>
    intro c i fuel hans hstop hf
    obtain ⟨fuel, rfl⟩ : ∃ f, fuel = f + 1 := ⟨fuel - 1, by simp at hf; omega⟩
    rcases hx : next i with ⟨p, j⟩
    simp only [List.length_cons, answers, hx, List.map_cons, List.cons.injEq] at hans
    obtain ⟨rfl, hans⟩ := hans
    simp only [List.length_cons, after, hx] at hstop
    obtain ⟨c1, i1, h1, h2, h3⟩ := fill_once hF fuel c a
    obtain ⟨c', k1, k2⟩ := ih c1 j fuel hans hstop (by simp at hf; omega)
    refine ⟨c', ?_, ?_⟩
    · unfold resultLoop
      simp only [hx, h1, k1, List.length_cons, after]
    · cases hr : room c with
      | none =>
        have hs := h2 (by rw [hr]; simp)
        rw [hF.unlimited hs hr] at k2
        exact hF.append hs k2
      | some r =>
        cases r with
        | zero =>
          have := h3 hr
          subst this
          rw [hr] at k2
          simpa using k2
        | succ r =>
          have hs := h2 (by rw [hr]; simp)
          rw [hF.less hs hr] at k2
          exact hF.append hs k2

/-- **C65** `Result` with a container that has room for all `Ok` items before the first other answer: exactly these are stored, one further answer is taken; if that is an error then it replaces the container.
Missing: if there are more items then further ones are taken from the iterator and lost, see `C65_violated`, and it may not return at all, see `C65_violated_diverges`. -/
theorem C65_result_partial {F : FillImpl C α} {room : C → Option Nat} {Stored : C → List α → C → Prop} (hF : OneByOne F room Stored) {next : Next ι (Except E α)} {good : List α} {c : C} {i : ι} {fuel : Nat}
    (hans : answers next i good.length = good.map (fun a => .item (.ok a))) (hstop : ∀ a, (next (after next i good.length)).1 ≠ .item (.ok a)) (hf : good.length < fuel)
    (hroom : ∀ r, room c = some r → good.length ≤ r) :
    ∃ c', Stored c good c' ∧ (resultFill F).fill fuel next (.ok c) i = some (match (next (after next i good.length)).1 with
      | .item (.error e) => (false, .error e, after next i (good.length + 1))
      | .panic => (true, .ok c', after next i (good.length + 1))
      | _ => (false, .ok c', after next i (good.length + 1))) := by
  obtain ⟨c', h1, h2⟩ := resultLoop_spec hF good c i fuel hans hstop hf
  refine ⟨c', ?_, ?_⟩
  · cases hr : room c with
    | none => rw [hr] at h2; exact h2
    | some r => rw [hr] at h2; simpa [List.take_of_length_le (hroom r hr)] using h2
  · simp only [resultFill, h1]
    rcases hp : (next (after next i good.length)).1 with x | _ | _
    · cases x with
      | error e => rfl
      | ok a => exact absurd hp (hstop a)
    · rfl
    · rfl

/-- **C65** Exactly what filling a `Result` does, for every container and every iterator that has some answer other than `Ok`: all items before this answer are taken from the iterator, as many of them as there is room for are stored (all, if the room
is unlimited) and the others are lost; the answer is taken too; if it is an error then it replaces the container. -/
theorem C65_result_exact {F : FillImpl C α} {room : C → Option Nat} {Stored : C → List α → C → Prop} (hF : OneByOne F room Stored) {next : Next ι (Except E α)} {good : List α} {c : C} {i : ι} {fuel : Nat}
    (hans : answers next i good.length = good.map (fun a => .item (.ok a))) (hstop : ∀ a, (next (after next i good.length)).1 ≠ .item (.ok a)) (hf : good.length < fuel) :
    ∃ c', Stored c (match room c with | none => good | some r => good.take r) c' ∧ (resultFill F).fill fuel next (.ok c) i = some (match (next (after next i good.length)).1 with
      | .item (.error e) => (false, .error e, after next i (good.length + 1))
      | .panic => (true, .ok c', after next i (good.length + 1))
      | _ => (false, .ok c', after next i (good.length + 1))) := by
  obtain ⟨c', h1, h2⟩ := resultLoop_spec hF good c i fuel hans hstop hf
  refine ⟨c', h2, ?_⟩
  simp only [resultFill, h1]
  rcases hx : (next (after next i good.length)).1 with a | _ | _
  · cases a with
    | ok a => exact absurd hx (hstop a)
    | error e => rfl
  · rfl
  · rfl

/-- **C65** is violated whenever the iterator has more `Ok` items than there is room: all of them are taken from the iterator, but only the first ones stored, the others are lost. In particular this holds for a full container (`r = 0`), which takes everything. -/
theorem C65_violated {F : FillImpl C α} {room : C → Option Nat} {Stored : C → List α → C → Prop} (hF : OneByOne F room Stored) {next : Next ι (Except E α)} {good : List α} {c : C} {i : ι} {fuel r : Nat}
    (hans : answers next i good.length = good.map (fun a => .item (.ok a))) (hstop : (next (after next i good.length)).1 = .done) (hf : good.length < fuel) (hr : room c = some r) :
    ∃ c', Stored c (good.take r) c' ∧ (resultFill F).fill fuel next (.ok c) i = some (false, .ok c', after next i (good.length + 1)) := by
  obtain ⟨c', h1, h2⟩ := resultLoop_spec hF good c i fuel hans (by rw [hstop]; exact fun a h => by cases h) hf
  rw [hr] at h2
  refine ⟨c', h2, ?_⟩
  simp only [resultFill, h1, hstop]

/-- **C65** is violated: for an infinite iterator of `Ok` items the call never returns, also if the container is full from the beginning. -/
theorem C65_violated_diverges {F : FillImpl C α} {next : Next ι (Except E α)} (hans : ∀ j : ι, ∃ a, (next j).1 = .item (.ok a)) (hF : ∀ fuel c a, ∃ c' i', F.fill (fuel + 2) onceNext c (some a) = some (false, c', i')) {c : C} {i : ι} (fuel : Nat) :
    (resultFill F).fill fuel next (.ok c) i = none := by
  have : ∀ c i, resultLoop F next fuel c i = none := by
    induction fuel with
    | zero => intro c i; rfl
    | succ fuel ih =>
      intro c i
      obtain ⟨a, ha⟩ := hans i
      rcases hx : next i with ⟨p, j⟩
      rw [hx] at ha
      simp only at ha
      subst ha
      obtain ⟨c', i', h⟩ := hF fuel c a
      unfold resultLoop
      simp only [hx, h, ih]
  simp only [resultFill, this]

/-! ## C66 -/

/-- **C66** Filling through `slice::IterMut`: the items asked for overwrite the next elements in order, one to one; all others are unchanged. -/
theorem C66_iter_mut : Lawful (iterMutFill (α := α)) IterMut.room IterMut.Stored := iterMut_lawful
/-- **C66** With references: the elements are swapped with the variables, one to one. -/
theorem C66_iter_mut_swap : Lawful (swapFill (α := α)) SwapState.room SwapState.Stored := swap_lawful

/-- **C66** For a whole slice and an iterator of `m` items: the first `min n m` elements are overwritten. -/
theorem C66_slice {slice : List α} {items : List α} (fuel : Nat) (hf : slice.length < fuel) :
    ∃ rest, (iterMutFill (α := α)).fill fuel (fun l => match l with | [] => (.done, []) | a :: l => (.item a, l)) ⟨slice, 0⟩ items =
      some (false, ⟨items.take slice.length ++ slice.drop items.length, min slice.length items.length⟩, rest) ∧ rest = items.drop slice.length := by
  let nx : Next (List α) α := fun l => match l with | [] => (.done, []) | a :: l => (.item a, l)
  obtain ⟨⟨u, c', rest⟩, h⟩ := iterMut_lawful.returns (next := nx) (fuel := fuel) (c := ⟨slice, 0⟩) (i := items) ⟨slice.length, hf, .inl rfl⟩
  obtain ⟨n, new, h1, h2, h3⟩ := iterMut_lawful.fills h
  have hafter : ∀ (n : Nat) (l : List α), after nx l n = l.drop n := by
    intro n
    induction n with
    | zero => intro l; rfl
    | succ n ih => intro l; cases l <;> simp [after, nx, ih]
  have hitems : ∀ (n : Nat) (l : List α), (answers nx l n).filterMap Poll.item? = l.take n := by
    intro n
    induction n with
    | zero => intro l; rfl
    | succ n ih =>
      intro l
      cases l with
      | nil =>
        have := ih []
        simp only [answers, nx, List.filterMap_cons, Poll.item?]
        simpa using this
      | cons a l => simp only [answers, nx, List.filterMap_cons, Poll.item?, List.take_succ_cons]; rw [← ih l]
  have hnopanic : ∀ (n : Nat) (l : List α), Poll.panic ∉ answers nx l n := by
    intro n
    induction n with
    | zero => intro l; simp [answers]
    | succ n ih => intro l; cases l <;> simp [answers, nx, ih]
  have hlen : ∀ (n : Nat) (l : List α), (answers nx l n).length = n := by
    intro n
    induction n with
    | zero => intro l; rfl
    | succ n ih => intro l; simp [answers, ih]
  have hdone : ∀ (n : Nat) (l : List α), Poll.done ∈ answers nx l n → l.length < n := by
    intro n
    induction n with
    | zero => intro l; simp [answers]
    | succ n ih =>
      intro l hl
      cases l with
      | nil => simp
      | cons a l =>
        simp only [answers, nx, List.mem_cons, reduceCtorEq, false_or] at hl
        have := ih l hl
        simp; omega
  have hi := (wf_items h2).1
  rw [hitems] at hi
  generalize hr : IterMut.room (⟨slice, 0⟩ : IterMut α) = r at h2
  have hr' : r = some slice.length := by rw [← hr]; rfl
  subst hr'
  generalize hlog : answers nx items n = log at h2
  have hl := hlen n items
  rw [hlog] at hl
  have key : u = false ∧ rest = items.drop slice.length ∧ new = items.take slice.length := by
    generalize hz : some slice.length = z at h2
    cases h2 with
    | full =>
      have hz := Option.some.inj hz
      simp only [List.length_map] at hl
      rw [← hl] at hi h1
      rw [← hz] at hi h1
      exact ⟨rfl, by rw [h1, hafter], hi.symm⟩
    | ended _ hlt =>
      have hlt := hlt _ hz.symm
      have := hdone n items (by rw [hlog]; simp)
      simp only [List.length_append, List.length_map, List.length_singleton] at hl
      have hni : new = items := by rw [← hi]; exact List.take_of_length_le (by omega)
      rw [hni] at hlt
      exact ⟨rfl, by rw [h1, hafter, List.drop_of_length_le (by omega), List.drop_of_length_le (by omega)], by rw [hni, List.take_of_length_le (by omega)]⟩
    | panicked => exact absurd (by rw [hlog]; simp) (hnopanic n items)
  obtain ⟨rfl, rfl, rfl⟩ := key
  refine ⟨_, ?_, rfl⟩
  show (iterMutFill (α := α)).fill fuel nx ⟨slice, 0⟩ items = _
  rw [h]
  obtain ⟨k1, k2⟩ := h3
  cases c' with
  | mk sl pos =>
    simp only [List.length_take] at k1 k2
    subst k1 k2
    simp only [List.take_zero, List.nil_append, Nat.zero_add]
    congr 4
    rcases Nat.le_total slice.length items.length with h | h
    · rw [Nat.min_eq_left h, List.drop_of_length_le (Nat.le_refl _), List.drop_of_length_le h]
    · rw [Nat.min_eq_right h]

/-! ## Examples -/

theorem vec_oneByOne : OneByOne (vecFill (α := α)) Vec.room Vec.Stored where
  toLawful := vec_lawful
  nil := by
    intro c c'
    constructor
    · rintro ⟨h1, h2⟩
      cases c; cases c'
      simp only [List.append_nil] at h1 h2
      rw [h1, h2]
    · rintro rfl; simp [Vec.Stored]
  append := by
    rintro c c' c'' a new ⟨h1, h2⟩ ⟨h3, h4⟩
    exact ⟨by rw [h3, h1]; simp, by rw [h4, h2]⟩
  less := by
    rintro c c' a r ⟨h1, h2⟩ h
    simp only [Vec.room, Option.some.injEq, h1, h2, List.length_append, List.length_singleton] at h ⊢
    omega
  unlimited := by rintro c c' a _ h; cases h

theorem option_oneByOne : OneByOne (optionFill (α := α)) optRoom optStored where
  toLawful := option_lawful
  nil := by
    intro c c'
    simp only [optStored, List.append_nil]
    constructor
    · intro h; cases c <;> cases c' <;> simp_all
    · rintro rfl; rfl
  append := by
    intro c c' c'' a new h1 h2
    simp only [optStored] at *
    rw [h2, h1]; simp
  less := by
    intro c c' a r h1 h2
    cases c with
    | some b => cases h2
    | none =>
      cases h2
      cases c' with
      | none => simp [optStored] at h1
      | some b => rfl
  unlimited := by intro c c' a _ h; cases c <;> cases h

/-- The iterator `k..`. -/
def Fill.from_ : Next Nat Nat := fun k => (.item k, k + 1)
example : (optionFill (α := Nat)).fill 9 from_ none 42 = some (false, some 42, 43) := rfl
example : checkedFill (optionFill (α := Nat)) 9 from_ none 0 = some (some (some 1), some 0, 1) := rfl
example : checkedFill (optionFill (α := Nat)) 9 onceNext none none = some (some none, none, none) := rfl
example : (vecFill (α := Nat)).fill 9 from_ ⟨4, [7]⟩ 10 = some (false, ⟨4, [7, 10, 11, 12]⟩, 13) := by decide
example : fillCount .w64 true (vecFill (α := Nat)) 9 from_ ⟨4, [7]⟩ 10 = some (some 3, ⟨4, [7, 10, 11, 12]⟩, 13) := by decide +kernel
example : (iterMutFill (α := Nat)).fill 9 from_ ⟨[1, 2, 3], 1⟩ 10 = some (false, ⟨[1, 10, 11], 3⟩, 12) := by decide
example : ((swapFill (α := Nat)).fill 9 from_ ⟨⟨[1, 2, 3], 1⟩, fun x => 100 + x⟩ 10).map (fun r => (r.1, r.2.1.it, [10, 11, 12].map r.2.1.vars, r.2.2)) = some (false, ⟨[1, 110, 111], 3⟩, [2, 3, 112], 12) := by decide
/-- All of 0, 1, ..., 4 are taken, but only 0 is stored. -/
example : (resultFill (E := Nat) (optionFill (α := Nat))).fill 9 (fun k => if k < 5 then (.item (.ok k), k + 1) else (.done, k + 1)) (.ok none) 0 = some (false, .ok (some 0), 6) := by rfl
/-- The call does not return. -/
example (fuel : Nat) : (resultFill (E := Nat) (optionFill (α := Nat))).fill fuel (fun k => (.item (.ok k), k + 1)) (.ok (some 3)) 0 = none :=
  C65_violated_diverges (fun j => ⟨j, rfl⟩) (fun _ c _ => by cases c <;> exact ⟨_, _, rfl⟩) fuel
example : ∃ c', optStored none ([4] : List Nat) c' ∧
    (resultFill (E := Nat) optionFill).fill 9 (fun k => if k < 5 then (.item (.ok k), k + 1) else (.item (.error 8), k + 1)) (.ok none) 4 = some (false, .error 8, 6) :=
  C65_result_partial (E := Nat) option_oneByOne (next := fun k => if k < 5 then (.item (.ok k), k + 1) else (.item (.error 8), k + 1)) (good := [4]) (i := 4) (fuel := 9) rfl (fun a h => by cases h) (by decide) (by
    intro r h; cases h; decide)

end
end Verif
