import Verif.Proofs.RcBorrowsStep
/-! # C105: `Rc` and `Weak` do not violate the aliasing rules -/
set_option autoImplicit false
namespace Verif.RcBorrows
open Verif.Borrows
open Verif.VecBorrows (Ref endRefs endMutRefs mem_endRefs mem_endMutRefs mem_keepRefs)

/-- No undefined behaviour: whatever program the borrow checker accepts (and which does not call `Weak::try_unwrap` during the destructor of the value), every access it and the methods it calls make is permitted by Stacked Borrows (and inside of the memory). -/
theorem C105_defined_partial {bs : List Box} {s₀ s : St} (h₀ : Start bs s₀) (hr : Reach bs s₀ s) {a : Act} (hp : Permitted bs s a) : ∃ s', step bs s a = some s' := by
  obtain ⟨col, h⟩ := hr.inv h₀.env h₀.inv
  obtain ⟨s', _, e, _⟩ := h.step h₀.env hp
  exact ⟨s', e⟩

/-- The references which were not ended can be used: for reading, and the mutable ones for writing, everywhere in their range. -/
theorem C105_refs_usable_partial {bs : List Box} {s₀ s : St} (h₀ : Start bs s₀) (hr : Reach bs s₀ s) {r : Ref} (h : r ∈ s.refs) :
    (∃ m, s.heap.mem.access .read r.tag r.lo r.hi = some m) ∧ (r.mutable = true → ∃ m, s.heap.mem.access .write r.tag r.lo r.hi = some m) := by
  obtain ⟨col, hi⟩ := hr.inv h₀.env h₀.inv
  have hin : ∀ b, r.lo ≤ b → b < r.hi → ∃ w, owners bs b = some w := fun b h1 h2 => hi.ref_in h₀.env h h1 h2
  refine ⟨?_, fun hm => ?_⟩
  · obtain ⟨m, _, e, _⟩ := chg_ref hi.cov hin ((hi.refs r h).is (a := .read) (fun e => by cases e) (Nat.le_refl _) (Nat.le_refl _))
    exact ⟨m, e⟩
  · obtain ⟨m, _, e, _⟩ := chg_ref hi.cov hin ((hi.refs r h).is (a := .write) (fun _ => hm) (Nat.le_refl _) (Nat.le_refl _))
    exact ⟨m, e⟩

/-- A mutable reference from one handle (by `get_mut`, or that of a destructor) does not overlap any reference from another handle. -/
theorem C105_exclusive_partial {bs : List Box} {s₀ s : St} (h₀ : Start bs s₀) (hr : Reach bs s₀ s) {r q : Ref} (h : r ∈ s.refs) (hm : r.mutable = true) (hq : q ∈ s.refs) (hne : q.owner ≠ r.owner) :
    r.hi ≤ q.lo ∨ q.hi ≤ r.lo := by
  obtain ⟨col, hi⟩ := hr.inv h₀.env h₀.inv
  obtain ⟨x, A, x1, x2, x3, x4, x5⟩ := (hi.refs r h).owner
  obtain ⟨y, B, y1, y2, y3, y4, y5⟩ := (hi.refs q hq).owner
  by_cases hb : y.box = x.box
  · exfalso
    have hc := hi.c.pair _ _ y x hne y1 x1 hb
    rcases x2 with x2 | x2
    · have := (hi.refs r h).excl hm x x1 x2 q.owner y hne y1 hb
      rcases y2 with y2 | y2 <;> rw [y2] at this <;> cases this
    · rw [x2] at hc
      rcases y2 with y2 | y2 <;> rw [y2] at hc <;> cases hc
  · have := h₀.env.other x3 y3 (Ne.symm hb)
    have hA := h₀.valid A (List.mem_of_getElem? x3)
    have hB := h₀.valid B (List.mem_of_getElem? y3)
    have := hA.value; have := hA.strong; have := hA.weak
    have := hB.value; have := hB.strong; have := hB.weak
    omega

/-- Every reference is to the value of a box whose `Rc` it came from, which exists still, or runs the destructor. -/
theorem C105_alive_partial {bs : List Box} {s₀ s : St} (h₀ : Start bs s₀) (hr : Reach bs s₀ s) {r : Ref} (h : r ∈ s.refs) :
    ∃ x B, s.handles[r.owner]? = some x ∧ (x.kind = .rc ∨ x.kind = .dying) ∧ bs[x.box]? = some B ∧ B.lo ≤ r.lo ∧ r.hi ≤ B.vhi := by
  obtain ⟨col, hi⟩ := hr.inv h₀.env h₀.inv
  exact (hi.refs r h).owner

theorem call_refs {B : Box} {s s' : St} {i : Nat} {x : Handle} {a : Act} (hs : call B s i x a = some s') {r : Ref} (h : r ∈ s.refs) (hne : r.owner ≠ i) : r ∈ s'.refs := by
  have h1 : r ∈ endRefs i s.refs := mem_endRefs.2 ⟨h, hne⟩
  have h2 : r ∈ endMutRefs i s.refs := mem_endMutRefs.2 ⟨h, Or.inl hne⟩
  cases a with
  | endDrop | fromRaw | forget => cases hs; exact h1
  | use | reborrow => cases hs; exact h
  | new | tryUnwrap | intoRaw | useRaw | dropWeak | tryUnwrapWeak =>
    obtain ⟨_, _, hs⟩ := Option.bind_eq_some_iff.1 hs
    cases hs; exact h1
  | clone | downgrade | strongCount | weakCount | upgrade | cloneWeak | strongCountWeak | weakCountWeak =>
    obtain ⟨_, _, hs⟩ := Option.bind_eq_some_iff.1 hs
    cases hs; exact h2
  | deref =>
    obtain ⟨_, _, hs⟩ := Option.bind_eq_some_iff.1 hs
    cases hs; exact List.mem_cons_of_mem _ h2
  | getMut | dropRc =>
    obtain ⟨⟨t, _⟩, _, hs⟩ := Option.bind_eq_some_iff.1 hs
    cases t with
    | none => cases hs; exact h1
    | some t => cases hs; exact List.mem_cons_of_mem _ h1

/-- Whatever is done with other handles — also to the same value: clone, count, drop them, make and drop `Weak`s, try to unwrap — and with their references, the references of this one stay usable. -/
theorem C105_other_partial {bs : List Box} {s₀ s s' : St} (h₀ : Start bs s₀) (hr : Reach bs s₀ s) {a : Act} (hp : Permitted bs s a) (hs : step bs s a = some s')
    {r : Ref} (h : r ∈ s.refs) (hne : r.owner ≠ a.handle) : r ∈ s'.refs := by
  have keep : ∀ (q : Ref), q ∈ s.refs → r.owner ≠ q.owner → ∀ (acc : Access) (lo hi : Nat), (acc = .write → q.mutable = true) → q.lo ≤ lo → hi ≤ q.hi → r ∈ VecBorrows.keepRefs acc q.tag q.from_ lo hi s.refs := by
    intro q hq hne' acc lo hi hw h1 h2
    by_cases hqm : q.mutable = true
    · have := C105_exclusive_partial h₀ hr hq hqm h hne'
      exact mem_keepRefs.2 ⟨h, Or.inr (Or.inr (Or.inl (by omega)))⟩
    · by_cases hrm : r.mutable = true
      · have := C105_exclusive_partial h₀ hr h hrm hq (Ne.symm hne')
        exact mem_keepRefs.2 ⟨h, Or.inr (Or.inr (Or.inl (by omega)))⟩
      · have : acc = .read := by
          cases acc with
          | read => rfl
          | write => exact absurd (hw rfl) hqm
        exact mem_keepRefs.2 ⟨h, Or.inr (Or.inr (Or.inr ⟨this, by simpa using hrm⟩))⟩
  have gen : (match s.handles[a.handle]? with
        | none => some s
        | some x => match bs[x.box]? with
          | none => some s
          | some B => call B s a.handle x a) = some s' → r ∈ s'.refs := by
    intro e
    cases hx : s.handles[a.handle]? with
    | none => rw [hx] at e; cases e; exact h
    | some x =>
      rw [hx] at e
      simp only at e
      cases hB : bs[x.box]? with
      | none => rw [hB] at e; cases e; exact h
      | some B => rw [hB] at e; exact call_refs e h hne
  cases a with
  | use q acc lo hi =>
    obtain ⟨hq, hw, h1, h2⟩ := hp
    obtain ⟨m, _, hs⟩ := Option.bind_eq_some_iff.1 hs
    cases hs
    exact keep q hq hne acc lo hi hw h1 h2
  | reborrow q mu lo hi =>
    obtain ⟨hq, hw, h1, _, h2⟩ := hp
    obtain ⟨m, _, hs⟩ := Option.bind_eq_some_iff.1 hs
    cases hs
    refine List.mem_cons_of_mem _ (keep q hq hne _ lo hi (fun e => hw ?_) h1 h2)
    cases mu with
    | true => rfl
    | false => cases e
  | _ => exact gen hs

/-- The counters: as long as the box is in use, `strong` is the number of owners of the value (`Rc`s, or the result of `into_raw`), `weak` that of the `Weak`s, and one more if there is an owner. -/
theorem C105_counts_partial {bs : List Box} {s₀ s : St} (h₀ : Start bs s₀) (hr : Reach bs s₀ s) {k : Nat} (hk : k < bs.length) (hm : ∀ x ∈ s.handles, x.box = k → x.kind ≠ .mem) :
    s.heap.strong k = s.handles.countP (fun x => x.box == k && (x.kind == .rc || x.kind == .raw)) ∧
    s.heap.weak k = s.handles.countP (fun x => x.box == k && x.kind == .weak) + (if s.heap.strong k = 0 then 0 else 1) := by
  obtain ⟨col, hi⟩ := hr.inv h₀.env h₀.inv
  obtain ⟨h1, h2⟩ := hi.c.cnt k hk hm
  refine ⟨h1, ?_⟩
  rw [h1]; exact h2

/-- Memory is given back (by `Rc::into_raw` or `Weak::try_unwrap`) only when nobody else has a pointer to it, so no reference to the value exists. -/
theorem C105_returned_partial {bs : List Box} {s₀ s : St} (h₀ : Start bs s₀) (hr : Reach bs s₀ s) {i : Nat} {x : Handle} (hx : s.handles[i]? = some x) (hk : x.kind = .raw ∨ x.kind = .mem) :
    (∀ (j : Nat) (y : Handle), j ≠ i → s.handles[j]? = some y → y.box = x.box → y.kind = .gone) ∧ ∀ B, bs[x.box]? = some B → ∀ r ∈ s.refs, r.hi ≤ B.lo ∨ B.hi ≤ r.lo := by
  obtain ⟨col, hi⟩ := hr.inv h₀.env h₀.inv
  have hg : ∀ (j : Nat) (y : Handle), j ≠ i → s.handles[j]? = some y → y.box = x.box → y.kind = .gone :=
    fun j y hj hy hb => compat_only hk (hi.c.pair i j x y (Ne.symm hj) hx hy hb.symm)
  refine ⟨hg, fun B hB r hr => ?_⟩
  obtain ⟨y, C, o1, o2, o3, o4, o5⟩ := (hi.refs r hr).owner
  by_cases hb : y.box = x.box
  · exfalso
    by_cases hj : r.owner = i
    · rw [hj, hx] at o1; cases o1
      rcases o2 with o2 | o2 <;> rw [o2] at hk <;> simp at hk
    · have := hg _ y hj o1 hb
      rcases o2 with o2 | o2 <;> rw [o2] at this <;> cases this
  · have := h₀.env.other o3 hB hb
    have hv := h₀.valid C (List.mem_of_getElem? o3)
    have := hv.value; have := hv.strong; have := hv.weak
    omega

/-- All other pointers to the value of the handle are gone. -/
def St.Sole (s : St) (i : Nat) (x : Handle) : Prop := ∀ (j : Nat) (y : Handle), j ≠ i → s.handles[j]? = some y → y.box = x.box → y.kind = .gone

/-- No other `Rc` to the value of the handle. -/
def St.Last (s : St) (i : Nat) (x : Handle) : Prop := ∀ (j : Nat) (y : Handle), j ≠ i → s.handles[j]? = some y → y.box = x.box → y.kind ≠ .rc

section
variable {bs : List Box} {s₀ s s' : St} {i : Nat} {x : Handle} {B : Box}

/-- `Rc::get_mut` gives a reference to the value exactly if there is no other pointer to it. -/
theorem C105_get_mut_partial (h₀ : Start bs s₀) (hr : Reach bs s₀ s) (hx : s.handles[i]? = some x) (hk : x.kind = .rc) (hB : bs[x.box]? = some B) (hs : step bs s (.getMut i) = some s') :
    (s.Sole i x ∧ ∃ t, s'.refs = ⟨t, true, B.lo, B.vhi, i, []⟩ :: endRefs i s.refs) ∨ (¬ s.Sole i x ∧ s'.refs = endRefs i s.refs) := by
  obtain ⟨col, h⟩ := hr.inv h₀.env h₀.inv
  have hm := List.mem_of_getElem? hB
  have hu := h.c.unique_iff hx hk
  simp only [step, Act.handle, hx, hB, call] at hs
  rcases getMut_chg (st := s.heap.strong) (wk := s.heap.weak) (k := x.box) (h₀.valid B hm) (h₀.env.own B hm) h.cov with ⟨hn, m', col', e, u⟩ | ⟨hn, t, m', col', e, u, _⟩
  · simp only [e, Option.bind_eq_bind, Option.bind_some, Option.pure_def] at hs
    cases hs
    exact Or.inr ⟨fun hS => hn (hu.2 hS), rfl⟩
  · simp only [e, Option.bind_eq_bind, Option.bind_some, Option.pure_def] at hs
    cases hs
    exact Or.inl ⟨hu.1 hn, t, rfl⟩

/-- Dropping an `Rc` runs the destructor of the value, with a `&mut` to it, exactly if it was the last `Rc`. -/
theorem C105_drop_partial (h₀ : Start bs s₀) (hr : Reach bs s₀ s) (hx : s.handles[i]? = some x) (hk : x.kind = .rc) (hB : bs[x.box]? = some B) (hs : step bs s (.dropRc i) = some s') :
    (s.Last i x ∧ s'.handles = s.handles.set i ⟨x.box, .dying⟩ ∧ ∃ t, s'.refs = ⟨t, true, B.lo, B.vhi, i, []⟩ :: endRefs i s.refs) ∨
    (¬ s.Last i x ∧ s'.handles = s.handles.set i ⟨x.box, .gone⟩ ∧ s'.refs = endRefs i s.refs) := by
  obtain ⟨col, h⟩ := hr.inv h₀.env h₀.inv
  have hm := List.mem_of_getElem? hB
  have hu := h.c.last_iff hx hk
  obtain ⟨a1, _⟩ := h.c.at hx (by rw [hk]; decide) (by rw [hk]; decide)
  have hpos := countP_pos_of hx (isS_iff.2 ⟨rfl, Or.inl hk⟩)
  simp only [step, Act.handle, hx, hB, call] at hs
  rcases dropRc_chg (st := s.heap.strong) (wk := s.heap.weak) (k := x.box) (h₀.valid B hm) (h₀.env.own B hm) h.cov with ⟨hn, m', col', e, u⟩ | ⟨hn, t, m', col', e, u, _⟩
  · simp only [e, Option.bind_eq_bind, Option.bind_some, Option.pure_def] at hs
    cases hs
    refine Or.inr ⟨fun hS => ?_, rfl, rfl⟩
    have := hu.2 hS
    omega
  · simp only [e, Option.bind_eq_bind, Option.bind_some, Option.pure_def] at hs
    cases hs
    exact Or.inl ⟨hu.1 (by omega), rfl, t, rfl⟩

/-- `Rc::try_unwrap` takes the value exactly if this is the last `Rc`; the `Rc` is a `Weak` then. -/
theorem C105_try_unwrap_partial (h₀ : Start bs s₀) (hr : Reach bs s₀ s) (hx : s.handles[i]? = some x) (hk : x.kind = .rc) (hB : bs[x.box]? = some B) (hs : step bs s (.tryUnwrap i) = some s') :
    (s.Last i x ∧ s'.handles = s.handles.set i ⟨x.box, .weak⟩) ∨ (¬ s.Last i x ∧ s'.handles = s.handles) := by
  obtain ⟨col, h⟩ := hr.inv h₀.env h₀.inv
  have hm := List.mem_of_getElem? hB
  have hu := h.c.last_iff hx hk
  have hset : s.handles.set i ⟨x.box, .rc⟩ = s.handles := by rw [← hk]; exact set_same hx
  simp only [step, Act.handle, hx, hB, call] at hs
  rcases tryUnwrap_chg (st := s.heap.strong) (wk := s.heap.weak) (k := x.box) (h₀.valid B hm) (h₀.env.own B hm) h.cov with ⟨hn, m', col', e, u⟩ | ⟨hn, m', col', e, u⟩
  · simp only [e, Option.bind_eq_bind, Option.bind_some, Option.pure_def] at hs
    cases hs
    exact Or.inr ⟨fun hS => hn (hu.2 hS), hset⟩
  · simp only [e, Option.bind_eq_bind, Option.bind_some, Option.pure_def] at hs
    cases hs
    exact Or.inl ⟨hu.1 hn, rfl⟩

/-- `Rc::into_raw` gives the memory exactly if there is no other pointer to it. -/
theorem C105_into_raw_partial (h₀ : Start bs s₀) (hr : Reach bs s₀ s) (hx : s.handles[i]? = some x) (hk : x.kind = .rc) (hB : bs[x.box]? = some B) (hs : step bs s (.intoRaw i) = some s') :
    (s.Sole i x ∧ s'.handles = s.handles.set i ⟨x.box, .raw⟩) ∨ (¬ s.Sole i x ∧ s'.handles = s.handles) := by
  obtain ⟨col, h⟩ := hr.inv h₀.env h₀.inv
  have hm := List.mem_of_getElem? hB
  have hu := h.c.unique_iff hx hk
  have hset : s.handles.set i ⟨x.box, .rc⟩ = s.handles := by rw [← hk]; exact set_same hx
  simp only [step, Act.handle, hx, hB, call] at hs
  obtain ⟨m', col', e, u⟩ := isUnique_chg (st := s.heap.strong) (wk := s.heap.weak) (k := x.box) (h₀.valid B hm) (h₀.env.own B hm) h.cov
  simp only [e, Option.bind_eq_bind, Option.bind_some, Option.pure_def] at hs
  cases hs
  by_cases hn : s.heap.strong x.box = 1 ∧ s.heap.weak x.box = 1
  · refine Or.inl ⟨hu.1 hn, ?_⟩
    simp only [St.turn, decide_eq_true hn, if_true]
  · refine Or.inr ⟨fun hS => hn (hu.2 hS), ?_⟩
    simp only [St.turn, decide_eq_false hn, Bool.false_eq_true, if_false]
    exact hset

/-- `Weak::upgrade` gives a new `Rc` exactly if there is one. -/
theorem C105_upgrade_partial (h₀ : Start bs s₀) (hr : Reach bs s₀ s) (hx : s.handles[i]? = some x) (hk : x.kind = .weak) (hB : bs[x.box]? = some B) (hs : step bs s (.upgrade i) = some s') :
    ((∃ (j : Nat) (y : Handle), s.handles[j]? = some y ∧ y.box = x.box ∧ y.kind = .rc) ∧ s'.handles = s.handles ++ [⟨x.box, .rc⟩]) ∨
    ((¬ ∃ (j : Nat) (y : Handle), s.handles[j]? = some y ∧ y.box = x.box ∧ y.kind = .rc) ∧ s'.handles = s.handles) := by
  obtain ⟨col, h⟩ := hr.inv h₀.env h₀.inv
  have hm := List.mem_of_getElem? hB
  have hu := h.c.owner_iff hx hk
  simp only [step, Act.handle, hx, hB, call] at hs
  rcases upgrade_chg (st := s.heap.strong) (wk := s.heap.weak) (k := x.box) (h₀.valid B hm) (h₀.env.own B hm) h.cov with ⟨hn, m', col', e, u⟩ | ⟨hn, m', col', e, u⟩
  · simp only [e, Option.bind_eq_bind, Option.bind_some, Option.pure_def] at hs
    cases hs
    exact Or.inr ⟨fun ⟨j, y, h1, h2, h3⟩ => hu.1 hn j y h1 h2 h3, rfl⟩
  · simp only [e, Option.bind_eq_bind, Option.bind_some, Option.pure_def] at hs
    cases hs
    refine Or.inl ⟨Classical.byContradiction fun hne => hn (hu.2 (fun j y h1 h2 h3 => hne ⟨j, y, h1, h2, h3⟩)), rfl⟩

/-- `Weak::try_unwrap` gives the memory exactly if there is no other pointer to it. -/
theorem C105_weak_unwrap_partial (h₀ : Start bs s₀) (hr : Reach bs s₀ s) (hx : s.handles[i]? = some x) (hk : x.kind = .weak) (hd : ¬ s.Dying x.box) (hB : bs[x.box]? = some B)
    (hs : step bs s (.tryUnwrapWeak i) = some s') :
    (s.Sole i x ∧ s'.handles = s.handles.set i ⟨x.box, .mem⟩) ∨ (¬ s.Sole i x ∧ s'.handles = s.handles) := by
  obtain ⟨col, h⟩ := hr.inv h₀.env h₀.inv
  have hm := List.mem_of_getElem? hB
  have hu := h.c.lastWeak_iff hx hk (fun y hy hb e => hd ⟨y, hy, hb, e⟩)
  have hset : s.handles.set i ⟨x.box, .weak⟩ = s.handles := by rw [← hk]; exact set_same hx
  simp only [step, Act.handle, hx, hB, call] at hs
  rcases weakTryUnwrap_chg (st := s.heap.strong) (wk := s.heap.weak) (k := x.box) (h₀.valid B hm) (h₀.env.own B hm) h.cov with ⟨hn, m', col', e, u⟩ | ⟨hn, m', col', e, u⟩
  · simp only [e, Option.bind_eq_bind, Option.bind_some, Option.pure_def] at hs
    cases hs
    exact Or.inr ⟨fun hS => hn (hu.2 hS), hset⟩
  · simp only [e, Option.bind_eq_bind, Option.bind_some, Option.pure_def] at hs
    cases hs
    exact Or.inl ⟨hu.1 hn, rfl⟩

/-- `Deref` gives a shared reference to the value. -/
theorem C105_deref_partial (h₀ : Start bs s₀) (hr : Reach bs s₀ s) (hx : s.handles[i]? = some x) (hB : bs[x.box]? = some B) (hs : step bs s (.deref i) = some s') :
    ∃ t, s'.refs = ⟨t, false, B.lo, B.vhi, i, []⟩ :: endMutRefs i s.refs ∧ s'.handles = s.handles := by
  obtain ⟨col, h⟩ := hr.inv h₀.env h₀.inv
  have hm := List.mem_of_getElem? hB
  simp only [step, Act.handle, hx, hB, call] at hs
  obtain ⟨t, m', col', e, _⟩ := deref_chg (st := s.heap.strong) (wk := s.heap.weak) (h₀.valid B hm) (h₀.env.own B hm) h.cov
  simp only [e, Option.bind_eq_bind, Option.bind_some, Option.pure_def] at hs
  cases hs
  exact ⟨t, rfl, rfl⟩

/-- `clone`, `downgrade` and `Weak::clone` give a new `Rc`, `Weak` to the same value, `new` makes memory an `Rc`. -/
theorem C105_handles_partial (h₀ : Start bs s₀) (hr : Reach bs s₀ s) (hx : s.handles[i]? = some x) (hB : bs[x.box]? = some B) :
    (step bs s (.clone i) = some s' → s'.handles = s.handles ++ [⟨x.box, .rc⟩]) ∧ (step bs s (.downgrade i) = some s' → s'.handles = s.handles ++ [⟨x.box, .weak⟩]) ∧
    (step bs s (.cloneWeak i) = some s' → s'.handles = s.handles ++ [⟨x.box, .weak⟩]) ∧ (step bs s (.new i) = some s' → s'.handles = s.handles.set i ⟨x.box, .rc⟩) ∧
    (step bs s (.dropWeak i) = some s' → s'.handles = s.handles.set i ⟨x.box, .gone⟩) ∧ (step bs s (.endDrop i) = some s' → s'.handles = s.handles.set i ⟨x.box, .gone⟩) := by
  refine ⟨fun hs => ?_, fun hs => ?_, fun hs => ?_, fun hs => ?_, fun hs => ?_, fun hs => ?_⟩ <;> simp only [step, Act.handle, hx, hB, call] at hs
  all_goals first | (obtain ⟨_, _, hs⟩ := Option.bind_eq_some_iff.1 hs; cases hs; rfl) | (cases hs; rfl)

end

/-- Memory for one box, and nothing else. -/
def oneBox : Box := ⟨0, 4, 8, 16, 16, 24, 24, 0⟩
def oneStart : St := ⟨⟨⟨fun b => if b < 24 then [⟨0, .unique⟩] else [], 1⟩, fun _ => 0, fun _ => 0⟩, [⟨0, .mem⟩], []⟩

theorem oneStart_start : Start [oneBox] oneStart := by
  refine ⟨?_, List.pairwise_singleton _ _, ?_, rfl, rfl⟩
  · intro B hB
    rw [List.mem_singleton.1 hB]
    exact ⟨by decide, by decide, by decide⟩
  · intro B hB b _ h2
    rw [List.mem_singleton.1 hB] at h2 ⊢
    have h2' : b < 24 := h2
    have e : oneStart.heap.mem.stack b = [⟨0, .unique⟩] := if_pos h2'
    rw [e]
    refine ⟨.unique, [], rfl, rfl, by simp, ?_⟩
    intro i hi
    rw [List.mem_singleton.1 hi]
    exact Nat.zero_lt_one

/-- The program of the counterexample: an `Rc`, a `Weak` to it, the `Rc` is dropped. -/
def drop0 : St := (step [oneBox] oneStart (.new 0)).getD oneStart
def drop1 : St := (step [oneBox] drop0 (.downgrade 0)).getD oneStart
def drop2 : St := (step [oneBox] drop1 (.dropRc 0)).getD oneStart
def drop3 : St := (step [oneBox] drop2 (.tryUnwrapWeak 1)).getD oneStart
def drop4 : St := (step [oneBox] drop3 (.useRaw 1 .write 0 4)).getD oneStart

theorem getD_step {bs : List Box} {s d : St} {a : Act} (h : (step bs s a).isSome = true) : step bs s a = some ((step bs s a).getD d) := by
  cases e : step bs s a with
  | none => rw [e] at h; cases h
  | some s' => rfl

/-- What is missing: `Drop for Rc` gives up its `Weak` before the destructor of the value runs. If a `Weak` is unwrapped by this destructor, it gives the memory of the value that is
being dropped; after a write to this memory the `&mut self` of the destructor, which the compiler permits to be used still, cannot be used any more: undefined behaviour. -/
theorem C105_violated_unwrap_in_drop : ∃ (bs : List Box) (s₀ s s₁ s₂ : St) (r : Ref), Start bs s₀ ∧ Reach bs s₀ s ∧ s.Is 0 .dying ∧ s.Is 1 .weak ∧ r ∈ s.refs ∧ r.owner = 0 ∧ r.mutable = true ∧
    step bs s (.tryUnwrapWeak 1) = some s₁ ∧ s₁.Is 1 .mem ∧ Permitted bs s₁ (.useRaw 1 .write r.lo r.hi) ∧ step bs s₁ (.useRaw 1 .write r.lo r.hi) = some s₂ ∧
    Permitted bs s₂ (.use r .read r.lo r.hi) ∧ step bs s₂ (.use r .read r.lo r.hi) = none := by
  refine ⟨[oneBox], oneStart, drop2, drop3, drop4, ⟨16, true, 0, 4, 0, []⟩, oneStart_start, ?_, ⟨⟨0, .dying⟩, by decide +kernel, rfl⟩, ⟨⟨0, .weak⟩, by decide +kernel, rfl⟩, by decide +kernel, rfl, rfl,
    getD_step (by decide +kernel), ⟨⟨0, .mem⟩, by decide +kernel, rfl⟩, ⟨⟨0, .mem⟩, oneBox, by decide +kernel, rfl, by decide, Or.inr ⟨rfl, by decide⟩⟩, getD_step (by decide +kernel),
    ⟨by decide +kernel, fun _ => rfl, Nat.le_refl _, Nat.le_refl _⟩, ?_⟩
  · have h0 : Reach [oneBox] oneStart drop0 := Reach.refl.step (a := .new 0) ⟨⟨0, .mem⟩, rfl, rfl⟩ (getD_step (by decide +kernel))
    have h1 : Reach [oneBox] oneStart drop1 := h0.step (a := .downgrade 0) ⟨⟨0, .rc⟩, by decide +kernel, rfl⟩ (getD_step (by decide +kernel))
    exact h1.step (a := .dropRc 0) ⟨⟨0, .rc⟩, by decide +kernel, rfl⟩ (getD_step (by decide +kernel))
  · exact Option.isNone_iff_eq_none.1 (by decide +kernel)

end Verif.RcBorrows
