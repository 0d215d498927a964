import Verif.Proofs.BumpBorrowsKept
/-! # C104: `Bump` and `LeakBox` do not violate the aliasing rules -/
set_option autoImplicit false
namespace Verif.BumpBorrows
open Verif Verif.Borrows
open Verif.VecBorrows (Ref mem_endRefs mem_endMutRefs mem_keepRefs)

/-- No undefined behaviour: whatever program the borrow checker accepts, every access it and the methods it calls make is permitted by Stacked Borrows (and inside of the object). -/
theorem C104_defined {o : Obj} (ho : o.Valid) {w : Nat} {s₀ s : St} (h₀ : Start o w s₀) (hr : Reach o w s₀ s) {a : Act} (hp : Permitted o w s a) : ∃ s', step o w s a = some s' := by
  obtain ⟨col, h⟩ := hr.inv ho h₀.inv
  obtain ⟨s', _, e, _⟩ := h.step ho hp
  exact ⟨s', e⟩

/-- The references which were not ended can be used: for reading, and the mutable ones for writing, everywhere in their range. -/
theorem C104_refs_usable {o : Obj} (ho : o.Valid) {w : Nat} {s₀ s : St} (h₀ : Start o w s₀) (hr : Reach o w s₀ s) {r : Ref} (h : r ∈ s.refs) :
    (∃ m, s.mem.access .read r.tag r.lo r.hi = some m) ∧ (r.mutable = true → ∃ m, s.mem.access .write r.tag r.lo r.hi = some m) := by
  obtain ⟨col, hi⟩ := hr.inv ho h₀.inv
  have hb := hi.ref_range ho h
  refine ⟨?_, fun hm => ?_⟩
  · obtain ⟨m, _, e, _⟩ := accessRef hi.p.cov hb.1 hb.2 ((hi.refs r h).is (a := .read) (fun e => by cases e) (Nat.le_refl _) (Nat.le_refl _))
    exact ⟨m, e⟩
  · obtain ⟨m, _, e, _⟩ := accessRef hi.p.cov hb.1 hb.2 ((hi.refs r h).is (a := .write) (fun _ => hm) (Nat.le_refl _) (Nat.le_refl _))
    exact ⟨m, e⟩

/-- References to different allocations are to different bytes, all in the storage. -/
theorem C104_disjoint {o : Obj} (ho : o.Valid) {w : Nat} {s₀ s : St} (h₀ : Start o w s₀) (hr : Reach o w s₀ s) {r : Ref} (h : r ∈ s.refs) :
    o.env.base ≤ r.lo ∧ r.hi ≤ o.env.base + o.env.len ∧ ∀ q ∈ s.refs, q.owner ≠ r.owner → r.hi ≤ q.lo ∨ q.hi ≤ r.lo := by
  obtain ⟨col, hi⟩ := hr.inv ho h₀.inv
  exact inv_disjoint hi h

/-- Whatever is done with the `Bump` by `&self` — allocate, read the level, share it — or with other allocations, the references to the elements of this allocation stay usable. Only `reset`, which needs `&mut`, ends them. -/
theorem C104_other {o : Obj} (ho : o.Valid) {w : Nat} {s₀ s s' : St} (h₀ : Start o w s₀) (hr : Reach o w s₀ s) {a : Act} (hp : Permitted o w s a) (hs : step o w s a = some s')
    {r : Ref} (h : r ∈ s.refs) (hn : a ≠ .reset) (ha : ¬ a.On r.owner) : r ∈ s'.refs := by
  obtain ⟨col, hi⟩ := hr.inv ho h₀.inv
  exact inv_other hi hp hs h hn ha

/-- An allocation of a layout gives, if anything, a fresh piece of the storage above everything allocated before, with its size and alignment; nothing else is changed. -/
theorem C104_alloc {o : Obj} (ho : o.Valid) {w : Nat} {s₀ s s' : St} (h₀ : Start o w s₀) (hr : Reach o w s₀ s) {t : Nat} {l : Layout} {at_ : Option Nat}
    (hp : Permitted o w s (.alloc t l at_)) (hs : step o w s (.alloc t l at_) = some s') :
    s'.refs = s.refs ∧ s'.shares = s.shares ∧ s.level ≤ s'.level ∧
    ((s'.pieces = s.pieces ∧ s'.level = s.level) ∨
      ∃ p, s'.pieces = s.pieces ++ [p] ∧ p.kind = .raw ∧ p.hi = p.lo + l.size ∧ l.align ∣ p.lo ∧ o.env.base + s.level ≤ p.lo ∧ p.hi = o.env.base + s'.level ∧
        p.hi ≤ o.env.base + o.env.len ∧ ∀ q ∈ s.pieces, q.hi ≤ p.lo) := by
  obtain ⟨col, hi⟩ := hr.inv ho h₀.inv
  exact inv_allocated ho hi hp hs

/-- `leak`, `uninit` of an allocation, `LeakBox::leak`: a `&mut` to exactly its bytes, the only reference to them; the allocation can not be used otherwise any more. -/
theorem C104_give {o : Obj} {w : Nat} {s s' : St} {j : Nat} {p : Piece} (hj : s.pieces[j]? = some p) {a : Act} (ha : a = .leak j ∨ a = .uninit j ∨ a = .boxLeak j)
    (hs : step o w s a = some s') : ∃ r rest, s'.refs = r :: rest ∧ r.mutable = true ∧ r.lo = p.lo ∧ r.hi = p.hi ∧ r.owner = j ∧ (∀ q ∈ rest, q ∈ s.refs ∧ q.owner ≠ j) ∧ s'.Is j .gone ∧ s'.level = s.level := by
  have giv : ∀ (x : Option (Nat × Borrows.Mem)), s.give j p .gone x = some s' → ∃ r rest, s'.refs = r :: rest ∧ r.mutable = true ∧ r.lo = p.lo ∧ r.hi = p.hi ∧ r.owner = j ∧
      (∀ q ∈ rest, q ∈ s.refs ∧ q.owner ≠ j) ∧ s'.Is j .gone ∧ s'.level = s.level := by
    intro x hx
    cases x with
    | none => cases hx
    | some q =>
      obtain ⟨t, m⟩ := q
      cases hx
      refine ⟨⟨t, true, p.lo, p.hi, j, []⟩, _, rfl, rfl, rfl, rfl, rfl, fun q hq => mem_endRefs.1 hq, ⟨{ p with kind := .gone }, ?_, rfl⟩, rfl⟩
      obtain ⟨hl, _⟩ := List.getElem?_eq_some_iff.1 hj
      simp only
      rw [List.getElem?_set_self hl]
  rcases ha with rfl | rfl | rfl <;> (simp only [step, hj] at hs; exact giv _ hs)

/-- `LeakBox::deref`, `deref_mut`: references to exactly the bytes of the allocation; the shared ones to it stay usable if another is made. -/
theorem C104_deref {o : Obj} {w : Nat} {s s' : St} {j : Nat} {p : Piece} (hj : s.pieces[j]? = some p) {mutable : Bool} (hs : step o w s (.deref j mutable) = some s') :
    ∃ r rest, s'.refs = r :: rest ∧ r.mutable = mutable ∧ r.lo = p.lo ∧ r.hi = p.hi ∧ r.owner = j ∧ (∀ q ∈ rest, q ∈ s.refs) ∧ (mutable = true → ∀ q ∈ rest, q.owner ≠ j) ∧
      (mutable = false → ∀ q ∈ s.refs, q.mutable = false → q ∈ rest) ∧ s'.pieces = s.pieces ∧ s'.level = s.level := by
  simp only [step, hj] at hs
  cases hx : deref p mutable s.mem with
  | none => rw [hx] at hs; cases hs
  | some q =>
    rw [hx] at hs
    cases hs
    refine ⟨_, _, rfl, rfl, rfl, rfl, rfl, ?_, ?_, ?_, rfl, rfl⟩
    · intro q hq
      cases mutable with
      | true => exact (mem_endRefs.1 hq).1
      | false => exact (mem_endMutRefs.1 hq).1
    · rintro rfl q hq
      exact (mem_endRefs.1 hq).2
    · rintro rfl q hq hm
      exact mem_endMutRefs.2 ⟨hq, Or.inr hm⟩

/-- Making a `LeakBox` (`boxed`, `leak_box`, `from_raw`), `into_raw`, `take` and drop of it: the kind of the allocation afterwards. References to all other allocations are kept. -/
theorem C104_own {o : Obj} {w : Nat} {s s' : St} {j : Nat} {p : Piece} (hj : s.pieces[j]? = some p) {a : Act} {k : Kind}
    (ha : (a = .boxed j ∧ k = .box) ∨ (a = .fromRaw j ∧ k = .box) ∨ (a = .intoRaw j ∧ k = .raw) ∨ (a = .take j ∧ k = .raw) ∨ (a = .dropBox j ∧ k = .gone)) (hs : step o w s a = some s') :
    s'.pieces = s.pieces.set j { p with kind := k } ∧ s'.level = s.level ∧ s'.shares = s.shares ∧ ∀ r, r ∈ s'.refs ↔ r ∈ s.refs ∧ r.owner ≠ j := by
  have own : ∀ (x : Option Borrows.Mem), s.own j p k x = some s' → s'.pieces = s.pieces.set j { p with kind := k } ∧ s'.level = s.level ∧ s'.shares = s.shares ∧
      ∀ r, r ∈ s'.refs ↔ r ∈ s.refs ∧ r.owner ≠ j := by
    intro x hx
    cases x with
    | none => cases hx
    | some m => cases hx; exact ⟨rfl, rfl, rfl, fun r => mem_endRefs⟩
  rcases ha with ⟨rfl, rfl⟩ | ⟨rfl, rfl⟩ | ⟨rfl, rfl⟩ | ⟨rfl, rfl⟩ | ⟨rfl, rfl⟩ <;> (simp only [step, hj] at hs; exact own _ hs)

/-- Using a reference keeps it, those it was reborrowed from, and, for reading, all the shared ones. A reborrowed one is for exactly the bytes asked for and keeps the same. -/
theorem C104_refs {o : Obj} {w : Nat} {s s' : St} {r : Ref} (h : r ∈ s.refs) :
    (∀ a lo hi, step o w s (.use r a lo hi) = some s' → s'.pieces = s.pieces ∧ s'.level = s.level ∧ s'.shares = s.shares ∧
      ∀ q ∈ s.refs, (q = r ∨ q.tag ∈ r.from_ ∨ (a = .read ∧ q.mutable = false)) → q ∈ s'.refs) ∧
    (∀ mutable lo hi, step o w s (.reborrow r mutable lo hi) = some s' → s'.pieces = s.pieces ∧ s'.level = s.level ∧ s'.shares = s.shares ∧
      (∃ q rest, s'.refs = q :: rest ∧ q.mutable = mutable ∧ q.lo = lo ∧ q.hi = hi ∧ q.owner = r.owner ∧ r.tag ∈ q.from_ ∧ ∀ t ∈ r.from_, t ∈ q.from_) ∧
      ∀ q ∈ s.refs, (q = r ∨ q.tag ∈ r.from_ ∨ (mutable = false ∧ q.mutable = false)) → q ∈ s'.refs) := by
  refine ⟨fun a lo hi hs => ?_, fun mu lo hi hs => ?_⟩
  · simp only [step] at hs
    cases hx : s.mem.access a r.tag lo hi with
    | none => rw [hx] at hs; cases hs
    | some m =>
      rw [hx] at hs; cases hs
      refine ⟨rfl, rfl, rfl, fun q hq hc => mem_keepRefs.2 ⟨hq, ?_⟩⟩
      rcases hc with rfl | hc | hc
      · exact Or.inl rfl
      · exact Or.inr (Or.inl hc)
      · exact Or.inr (Or.inr (Or.inr hc))
  · simp only [step] at hs
    cases hx : s.mem.retag mu r.tag lo hi with
    | none => rw [hx] at hs; cases hs
    | some m =>
      rw [hx] at hs; cases hs
      refine ⟨rfl, rfl, rfl, ⟨_, _, rfl, rfl, rfl, rfl, rfl, List.mem_cons_self .., fun t ht => List.mem_cons_of_mem _ ht⟩, fun q hq hc => List.mem_cons_of_mem _ (mem_keepRefs.2 ⟨hq, ?_⟩)⟩
      rcases hc with rfl | hc | ⟨rfl, hc⟩
      · exact Or.inl rfl
      · exact Or.inr (Or.inl hc)
      · exact Or.inr (Or.inr (Or.inr ⟨rfl, hc⟩))

/-- `reset` gives all of the storage back: afterwards the level is 0 and nothing refers to it. -/
theorem C104_reset {o : Obj} (ho : o.Valid) {w : Nat} {s₀ s s' : St} (h₀ : Start o w s₀) (hr : Reach o w s₀ s) (hs : step o w s .reset = some s') :
    s'.level = 0 ∧ s'.pieces = [] ∧ s'.refs = [] ∧ s'.shares = [] ∧
    ∀ (l : Layout), 0 < l.size → 0 < l.align → l.align ∣ o.env.base → l.size ≤ o.env.len →
      ∃ s'' p, step o w s' (.alloc w l none) = some s'' ∧ s''.pieces = [p] ∧ p.lo = o.env.base ∧ p.hi = o.env.base + l.size := by
  obtain ⟨col, hi⟩ := (hr.step (show Permitted o w s .reset from trivial) hs).inv ho h₀.inv
  have hfacts : s'.level = 0 ∧ s'.pieces = [] ∧ s'.refs = [] ∧ s'.shares = [] := by
    simp only [step, reset] at hs
    cases hx : s.mem.retag true w o.lo o.hi with
    | none => rw [hx] at hs; cases hs
    | some q =>
      rw [hx] at hs
      simp only [Option.bind_eq_bind, Option.bind_some] at hs
      cases hy : q.2.access .write q.1 o.cell o.cellEnd with
      | none => rw [hy] at hs; cases hs
      | some m => rw [hy] at hs; cases hs; exact ⟨rfl, rfl, rfl, rfl⟩
  obtain ⟨f1, f2, f3, f4⟩ := hfacts
  refine ⟨f1, f2, f3, f4, fun l hsz hal hd hle => ?_⟩
  have hpl : o.env.slab.place l 0 = some ⟨o.env.base, l.size⟩ := by
    rw [Slab.place_eq_some]
    have hau : alignUp l.align (o.env.slab.base + 0) = o.env.base := alignUp_of_dvd hal hd
    have hbase : o.env.slab.base = o.env.base := rfl
    have hlen : o.env.slab.len = o.env.len := rfl
    exact ⟨hau.symm, by simp only; omega, by simp only; omega⟩
  obtain ⟨s'', _, e, _⟩ := hi.step ho (a := .alloc w l none) ⟨Or.inl rfl, hsz, hal, fun n hn => by cases hn⟩
  refine ⟨s'', ?_⟩
  have e' := e
  simp only [step, tryAlloc] at e'
  cases hx : s'.mem.retagCell w o.env.base (o.env.base + o.env.len) with
  | none => rw [hx] at e'; cases e'
  | some q =>
    rw [hx] at e'
    simp only [Option.bind_eq_bind, Option.bind_some] at e'
    cases hy : touchCell o w .write q.2 with
    | none => rw [hy] at e'; cases e'
    | some m =>
      rw [hy] at e'
      simp only [Option.bind_some, f1, f2, Bump.tryAllocSeq_spec ho.env (Nat.zero_le _) hsz hal, hpl] at e'
      cases e'
      exact ⟨_, e, rfl, rfl, rfl⟩

end Verif.BumpBorrows
