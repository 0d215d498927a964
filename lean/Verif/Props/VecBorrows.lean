import Verif.Proofs.VecBorrowsStep
/-! # C103: `FixedVec` respects the aliasing rules -/
set_option autoImplicit false
namespace Verif.VecBorrows
open Verif.Borrows

/-- No undefined behaviour: whatever program the borrow checker accepts, every access it and the methods it calls make is permitted by Stacked Borrows (and inside of the memory). -/
theorem C103_defined {sz : Nat} {s₀ s : St} (h₀ : Start sz s₀) (hr : Reach sz s₀ s) {a : Act} (hp : Permitted s a) : ∃ s', step sz s a = some s' := by
  obtain ⟨w, lo, hi, h⟩ := h₀.inv
  obtain ⟨s', e, _⟩ := (hr.inv h).step hp
  exact ⟨s', e⟩

/-- The references which were not ended can be used: for reading, and the mutable ones for writing, everywhere in their range. -/
theorem C103_refs_usable {sz : Nat} {s₀ s : St} (h₀ : Start sz s₀) (hr : Reach sz s₀ s) {r : Ref} (h : r ∈ s.refs) :
    (∃ m, s.mem.access .read r.tag r.lo r.hi = some m) ∧ (r.mutable = true → ∃ m, s.mem.access .write r.tag r.lo r.hi = some m) := by
  obtain ⟨w, lo, hi, hi'⟩ := h₀.inv
  have hinv := hr.inv hi'
  refine ⟨?_, fun hm => ?_⟩
  · obtain ⟨m, e, _⟩ := Mem.access_spec hinv.root.good ((hinv.backed r h).has (a := .read) (fun e => by cases e) (Nat.le_refl _) (Nat.le_refl _))
    exact ⟨m, e⟩
  · obtain ⟨m, e, _⟩ := Mem.access_spec hinv.root.good ((hinv.backed r h).has (a := .write) (fun _ => hm) (Nat.le_refl _) (Nat.le_refl _))
    exact ⟨m, e⟩

/-- Methods of one vector leave the references to elements of the others usable, also if both were split from one and share their memory. -/
theorem C103_other_vectors {sz : Nat} {s s' : St} {a : Act} {k : Nat} (ha : a.vec? = some k) (hs : step sz s a = some s') {r : Ref} (h : r ∈ s.refs) (ho : r.owner ≠ k) : r ∈ s'.refs := by
  have e1 : r ∈ endRefs k s.refs := mem_endRefs.2 ⟨h, ho⟩
  have e2 : r ∈ endMutRefs k s.refs := mem_endMutRefs.2 ⟨h, Or.inl ho⟩
  have op : ∀ (x : Option (Vec × Mem)), (do let (v, m) ← x; pure (s.setVec k v m)) = some s' → r ∈ s'.refs := by
    intro x hx
    cases x with
    | none => cases hx
    | some p => obtain ⟨v, m⟩ := p; cases hx; exact e1
  have rt : ∀ (x : Option (Nat × Mem)) (f : Nat → Ref) (l : List Ref), r ∈ l →
      (do let p ← x; pure { s with mem := p.2, refs := f p.1 :: l }) = some s' → r ∈ s'.refs := by
    intro x f l hl hx
    cases x with
    | none => cases hx
    | some p => obtain ⟨t, m⟩ := p; cases hx; exact List.mem_cons_of_mem _ hl
  cases a <;> first | (cases ha; done) | (injection ha with ha; subst ha)
  all_goals simp only [step] at hs
  all_goals
    split at hs
    · cases hs; exact h
  all_goals first
    | exact op _ hs
    | (cases hs; exact e1)
    | exact rt _ (fun t => ⟨t, _, _, _, _, _⟩) _ e1 hs
    | exact rt _ (fun t => ⟨t, _, _, _, _, _⟩) _ e2 hs
    | (split at hs <;> (cases hs; exact e1))
    | (split at hs
       · cases hs; exact h
       · exact op _ hs)
    | (split at hs
       · cases hs; exact h
       · rename_i d _
         cases hx : Verif.VecBorrows.drainNext sz d s.mem with
         | none => rw [hx] at hs; cases hs
         | some p => obtain ⟨d', m⟩ := p; rw [hx] at hs; cases hs; exact e1)
    | (split at hs
       · cases hs; exact h
       · rename_i d _
         cases hx : Verif.VecBorrows.drainNextBack sz d s.mem with
         | none => rw [hx] at hs; cases hs
         | some p => obtain ⟨d', m⟩ := p; rw [hx] at hs; cases hs; exact e1)
    | (split at hs
       · cases hs; exact h
       · refine rt _ (fun t => ⟨t, _, _, _, _, _⟩) _ ?_ hs
         split <;> assumption)

/-- Reading a vector by `&self` leaves the shared references to its elements usable. -/
theorem C103_shared_refs {sz : Nat} {s s' : St} {k : Nat} (hs : step sz s (.asSlice k) = some s') {r : Ref} (h : r ∈ s.refs) (hm : r.mutable = false) : r ∈ s'.refs := by
  have e2 : r ∈ endMutRefs k s.refs := mem_endMutRefs.2 ⟨h, Or.inr hm⟩
  simp only [step] at hs
  split at hs
  · cases hs; exact h
  · rename_i v _
    cases hx : asSlice sz v s.mem with
    | none => rw [hx] at hs; cases hs
    | some p => obtain ⟨t, m⟩ := p; rw [hx] at hs; cases hs; exact List.mem_cons_of_mem _ e2

/-- A pointer from `as_mut_ptr` stays usable for the whole capacity the vector had, initialised or not, whatever happens to the vector afterwards. -/
theorem C103_as_mut_ptr {sz : Nat} {s₀ s s' : St} (h₀ : Start sz s₀) (hr : Reach sz s₀ s) {k : Nat} {v : Vec} (hv : s.vecs[k]? = some v) (hp : Permitted s (.asMutPtr k))
    {s₁ : St} (hs : step sz s (.asMutPtr k) = some s₁) (hr' : Reach sz s₁ s') (a : Access) {lo hi : Nat}
    (hlo : (asMutPtr v).off ≤ lo) (hhi : hi ≤ (asMutPtr v).off + v.uninit.cap * sz) : ∃ m, s'.mem.access a (asMutPtr v).tag lo hi = some m := by
  obtain ⟨w, l, h, hi'⟩ := h₀.inv
  have hinv := hr.inv hi'
  obtain ⟨s₁', e, hinv1⟩ := hinv.step hp
  rw [hs] at e
  cases e
  have hinv' := hr'.inv hinv1
  have hvo := hinv.vecs v (List.mem_of_getElem? hv)
  obtain ⟨m, e, _⟩ := hinv'.root.access (x := lo) (y := hi) (Nat.le_trans hvo.lo hlo) (Nat.le_trans hhi hvo.hi) a
  exact ⟨m, by change s'.mem.access a v.uninit.ptr.tag lo hi = _; rw [hvo.tag]; exact e⟩

/-- The references that the methods return are to exactly the elements: `as_slice`, `as_mut_slice`. -/
theorem C103_slice {sz : Nat} {s s' : St} {k : Nat} {v : Vec} (hv : s.vecs[k]? = some v) (mutable : Bool)
    (hs : step sz s (if mutable then .asMutSlice k else .asSlice k) = some s') :
    ∃ r rest, s'.refs = r :: rest ∧ r.mutable = mutable ∧ r.owner = k ∧ r.lo = v.uninit.ptr.off ∧ r.hi = v.uninit.ptr.off + v.length * sz ∧ s'.vecs = s.vecs := by
  cases mutable with
  | true =>
    rw [if_pos rfl] at hs
    simp only [step, hv] at hs
    cases hx : asMutSlice sz v s.mem with
    | none => rw [hx] at hs; cases hs
    | some p => obtain ⟨t, m⟩ := p; rw [hx] at hs; cases hs; exact ⟨_, _, rfl, rfl, rfl, rfl, rfl, rfl⟩
  | false =>
    rw [if_neg (by decide)] at hs
    simp only [step, hv] at hs
    cases hx : asSlice sz v s.mem with
    | none => rw [hx] at hs; cases hs
    | some p => obtain ⟨t, m⟩ := p; rw [hx] at hs; cases hs; exact ⟨_, _, rfl, rfl, rfl, rfl, rfl, rfl⟩

/-- The lengths afterwards, as for any vector: a full vector takes no more, `truncate` and a drained range remove just these. (All destructors return; without undefined behaviour.) -/
theorem C103_lengths {sz : Nat} {s s' : St} {k : Nat} {v : Vec} (hv : s.vecs[k]? = some v) (hl : v.length ≤ v.uninit.cap) {a : Act} (hs : step sz s a = some s') :
    (a = .push k → ∃ v', s'.vecs[k]? = some v' ∧ v'.uninit = v.uninit ∧ v'.length = min (v.length + 1) v.uninit.cap) ∧
    (a = .pop k → ∃ v', s'.vecs[k]? = some v' ∧ v'.uninit = v.uninit ∧ v'.length = v.length - 1) ∧
    (∀ n ran, a = .truncate k n ran → v.length - n ≤ ran → ∃ v', s'.vecs[k]? = some v' ∧ v'.uninit = v.uninit ∧ v'.length = min v.length n) ∧
    (∀ n, a = .fill k n → ∃ v', s'.vecs[k]? = some v' ∧ v'.uninit = v.uninit ∧ v'.length = min (v.length + n) v.uninit.cap) ∧
    (∀ n, n ≤ v.uninit.cap → a = .splitBorrowed k n → ∃ v' u, s'.vecs[k]? = some v' ∧ s'.vecs.getLast? = some u ∧ v'.uninit = v.uninit ∧ v'.length = min v.length n ∧
      u.uninit.cap = v.uninit.cap - n ∧ u.length = v.length - n ∧ u.uninit.ptr.off = v.uninit.ptr.off + n * sz) ∧
    (∀ n, n ≤ v.uninit.cap → a = .splitShrink k n → ∃ v' u, s'.vecs[k]? = some v' ∧ s'.vecs.getLast? = some u ∧ v'.uninit.cap = n ∧ v'.uninit.ptr = v.uninit.ptr ∧
      v'.length = min v.length n ∧ u.uninit.cap = v.uninit.cap - n ∧ u.length = v.length - n ∧ u.uninit.ptr.off = v.uninit.ptr.off + n * sz) := by
  have op : ∀ (x : Option (Vec × Mem)), (do let (v, m) ← x; pure (s.setVec k v m)) = some s' → ∃ v' m, x = some (v', m) ∧ s'.vecs[k]? = some v' := by
    intro x hx
    cases x with
    | none => cases hx
    | some p => obtain ⟨v', m⟩ := p; cases hx; exact ⟨v', m, rfl, get_set_self hv⟩
  refine ⟨?_, ?_, ?_, ?_, ?_, ?_⟩
  · rintro rfl
    simp only [step, hv] at hs
    obtain ⟨v', m, e, h'⟩ := op _ hs
    obtain ⟨b, l⟩ := push_len hl e
    exact ⟨v', h', b, l⟩
  · rintro rfl
    simp only [step, hv] at hs
    obtain ⟨v', m, e, h'⟩ := op _ hs
    obtain ⟨b, l⟩ := pop_len hl e
    exact ⟨v', h', b, l⟩
  · rintro n ran rfl hr
    simp only [step, hv] at hs
    obtain ⟨v', m, e, h'⟩ := op _ hs
    obtain ⟨b, l⟩ := truncate_len hr e
    exact ⟨v', h', b, l⟩
  · rintro n rfl
    simp only [step, hv] at hs
    obtain ⟨v', m, e, h'⟩ := op _ hs
    obtain ⟨b, l⟩ := fill_len n v s.mem hl e
    exact ⟨v', h', b, l⟩
  · rintro n hn rfl
    simp only [step, hv, splitBorrowed, Buf.splitAt, if_pos hn] at hs
    cases hs
    refine ⟨{ v with length := v.length - (v.length - n) }, _, ?_, List.getLast?_concat .., rfl, by simp only; omega, rfl, rfl, rfl⟩
    rw [List.getElem?_append_left (by rw [List.length_set]; exact (List.getElem?_eq_some_iff.1 hv).1)]
    exact get_set_self hv
  · rintro n hn rfl
    simp only [step, hv, splitShrink, Buf.splitAt, if_pos hn] at hs
    cases hs
    refine ⟨{ v with uninit := ⟨v.uninit.ptr, n⟩, length := v.length - (v.length - n) }, _, ?_, List.getLast?_concat .., rfl, rfl, by simp only; omega, rfl, rfl, rfl⟩
    rw [List.getElem?_append_left (by rw [List.length_set]; exact (List.getElem?_eq_some_iff.1 hv).1)]
    exact get_set_self hv

/-- A drain removes its range: when it was dropped, with any number of elements taken from either end before (`d.start`, `d.stop`), the vector has the elements before and after the range.
If it is forgotten, or a destructor panicked before all elements of the range were taken, those before it. -/
theorem C103_drain_length {sz : Nat} {v : Vec} {a b : Nat} (hab : a ≤ b) (hb : b ≤ v.length) :
    ∃ d, (drain sz v a b).drain = some d ∧ (drain sz v a b).length = a ∧ d.elements = (asMutPtr v).add sz a ∧ d.start = 0 ∧ d.stop = b - a ∧
      ∀ (st en ran : Nat) (v' : Vec) (m m' : Mem), st ≤ en → drainDrop sz (drain sz v a b) { d with start := st, stop := en } ran m = some (v', m') →
        v'.drain = none ∧ (en - st ≤ ran → v'.length = v.length - (b - a)) ∧ (ran < en - st → v'.length = a) := by
  refine ⟨⟨0, b - a, b - a, v.length - b, (asMutPtr v).add sz a⟩, by unfold drain; rw [if_pos ⟨hab, hb⟩], by unfold drain; rw [if_pos ⟨hab, hb⟩], rfl, rfl, rfl, ?_⟩
  intro st en ran v' m m' hse e
  have hl : (drain sz v a b).length = a := by unfold drain; rw [if_pos ⟨hab, hb⟩]
  unfold drainDrop at e
  cases hx : drainSome sz (min ran (en - st)) ⟨st, en, b - a, v.length - b, (asMutPtr v).add sz a⟩ m with
  | none => simp only [hx, Option.bind_eq_bind, Option.bind_none] at e; cases e
  | some p =>
    obtain ⟨d1, m1⟩ := p
    simp only [hx, Option.bind_eq_bind, Option.bind_some] at e
    obtain ⟨q1, q2, q3⟩ := drainSome_len _ _ _ (by simp only; omega) hx
    simp only at q1 q2 q3
    by_cases hc : d1.start = d1.stop ∧ d1.tailLen ≠ 0
    · rw [if_pos hc] at e
      cases hy : m1.access .read (d1.elements.add sz d1.tail).tag (d1.elements.add sz d1.tail).off ((d1.elements.add sz d1.tail).off + d1.tailLen * sz) with
      | none => simp only [hy, Option.bind_none] at e; cases e
      | some m2 =>
        simp only [hy, Option.bind_some] at e
        cases hz : m2.access .write d1.elements.tag d1.elements.off (d1.elements.off + d1.tailLen * sz) with
        | none => simp only [hz, Option.bind_none] at e; cases e
        | some m3 =>
          simp only [hz, Option.bind_some, Option.pure_def, Option.some.injEq, Prod.mk.injEq] at e
          obtain ⟨e, -⟩ := e
          subst e
          refine ⟨rfl, fun _ => ?_, fun hlt => ?_⟩
          · simp only [hl]; omega
          · exfalso; omega
    · rw [if_neg hc] at e
      simp only [Option.pure_def, Option.some.injEq, Prod.mk.injEq] at e
      obtain ⟨e, -⟩ := e
      subst e
      refine ⟨rfl, fun hle => ?_, fun _ => hl⟩
      simp only [hl]
      have : d1.tailLen = 0 := by
        apply Classical.byContradiction
        intro hn
        exact hc ⟨by omega, hn⟩
      omega

end Verif.VecBorrows
