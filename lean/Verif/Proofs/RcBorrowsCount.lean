import Verif.Proofs.RcBorrows
/-! # Proofs about the pointers of `Rc` and `Weak`: the counters and the handles -/
set_option autoImplicit false
namespace Verif.RcBorrows

theorem countP_at {α : Type} {p : α → Bool} {l : List α} {i : Nat} {x : α} (h : l[i]? = some x) :
    l.countP p = (l.take i).countP p + (if p x then 1 else 0) + (l.drop (i + 1)).countP p := by
  obtain ⟨hi, e⟩ := List.getElem?_eq_some_iff.1 h
  conv => lhs; rw [← List.take_append_drop i l, List.drop_eq_getElem_cons hi, e]
  rw [List.countP_append, List.countP_cons]
  omega

theorem take_at {α : Type} {l : List α} {i j : Nat} {x y : α} (h : l[i]? = some x) (hj : l[j]? = some y) (hij : j ≠ i) : y ∈ l.take i ∨ y ∈ l.drop (i + 1) := by
  by_cases hlt : j < i
  · left
    exact List.mem_of_getElem? (i := j) (by rw [List.getElem?_take_of_lt hlt]; exact hj)
  · right
    refine List.mem_of_getElem? (i := j - (i + 1)) ?_
    rw [List.getElem?_drop, show i + 1 + (j - (i + 1)) = j by omega]; exact hj

theorem countP_one {α : Type} {p : α → Bool} {l : List α} {i j : Nat} {x y : α} (h : l[i]? = some x) (hx : p x = true) (hc : l.countP p = 1) (hj : l[j]? = some y) (hij : j ≠ i) : p y = false := by
  rw [countP_at h, if_pos hx] at hc
  have h1 : (l.take i).countP p = 0 := by omega
  have h2 : (l.drop (i + 1)).countP p = 0 := by omega
  rw [List.countP_eq_zero] at h1 h2
  rcases take_at h hj hij with hm | hm
  · simpa using h1 y hm
  · simpa using h2 y hm

theorem countP_pos_of {α : Type} {p : α → Bool} {l : List α} {i : Nat} {x : α} (h : l[i]? = some x) (hx : p x = true) : 0 < l.countP p := by
  rw [countP_at h, if_pos hx]; omega

theorem countP_only {α : Type} {p : α → Bool} {l : List α} {i : Nat} {x : α} (h : l[i]? = some x) (ho : ∀ j y, j ≠ i → l[j]? = some y → p y = false) : l.countP p = if p x then 1 else 0 := by
  obtain ⟨hi, e⟩ := List.getElem?_eq_some_iff.1 h
  have h1 : (l.take i).countP p = 0 := by
    rw [List.countP_eq_zero]
    intro y hy
    obtain ⟨j, hj, e⟩ := List.mem_iff_getElem.1 hy
    rw [List.length_take] at hj
    rw [List.getElem_take] at e
    rw [ho j y (by omega) (by rw [← e]; exact List.getElem?_eq_getElem (by omega))]
    decide
  have h2 : (l.drop (i + 1)).countP p = 0 := by
    rw [List.countP_eq_zero]
    intro y hy
    obtain ⟨j, hj, e⟩ := List.mem_iff_getElem.1 hy
    rw [List.length_drop] at hj
    rw [List.getElem_drop] at e
    rw [ho (i + 1 + j) y (by omega) (by rw [← e]; exact List.getElem?_eq_getElem (by omega))]
    decide
  rw [countP_at h, h1, h2]; omega

theorem countP_set' {α : Type} {p : α → Bool} {l : List α} {i : Nat} {x : α} (h : l[i]? = some x) (y : α) :
    (l.set i y).countP p + (if p x then 1 else 0) = l.countP p + (if p y then 1 else 0) := by
  obtain ⟨hi, e⟩ := List.getElem?_eq_some_iff.1 h
  have h' : (l.set i y)[i]? = some y := by rw [List.getElem?_set]; simp [hi]
  rw [countP_at h', countP_at h, List.take_set_of_le (Nat.le_refl _), List.drop_set_of_lt (show i < i + 1 by omega)]
  omega

/-- Which handles can exist at the same time. -/
def compat : Kind → Kind → Bool
  | .gone, _ | _, .gone => true
  | .rc, .rc | .rc, .weak | .weak, .rc | .weak, .weak | .weak, .dying | .dying, .weak => true
  | _, _ => false

theorem compat_comm (a b : Kind) : compat a b = compat b a := by cases a <;> cases b <;> rfl

/-- Owners of the value in the box `k`. -/
def isS (k : Nat) (x : Handle) : Bool := x.box == k && (x.kind == .rc || x.kind == .raw)
/-- `Weak` to the box `k`. -/
def isW (k : Nat) (x : Handle) : Bool := x.box == k && x.kind == .weak

theorem isS_iff {k : Nat} {x : Handle} : isS k x = true ↔ x.box = k ∧ (x.kind = .rc ∨ x.kind = .raw) := by unfold isS; simp
theorem isW_iff {k : Nat} {x : Handle} : isW k x = true ↔ x.box = k ∧ x.kind = .weak := by unfold isW; simp

/-- Handles and counters. -/
structure CInv (n : Nat) (hs : List Handle) (st wk : Nat → Nat) : Prop where
  box : ∀ x ∈ hs, x.box < n
  pair : ∀ (i j : Nat) (x y : Handle), i ≠ j → hs[i]? = some x → hs[j]? = some y → x.box = y.box → compat x.kind y.kind = true
  cnt : ∀ k, k < n → (∀ x ∈ hs, x.box = k → x.kind ≠ .mem) → st k = hs.countP (isS k) ∧ wk k = hs.countP (isW k) + (if hs.countP (isS k) = 0 then 0 else 1)

section
variable {n : Nat} {hs : List Handle} {st wk : Nat → Nat} {i : Nat} {x : Handle}

theorem CInv.noMem (h : CInv n hs st wk) (hx : hs[i]? = some x) (hg : x.kind ≠ .gone) (hm : x.kind ≠ .mem) : ∀ y ∈ hs, y.box = x.box → y.kind ≠ .mem := by
  intro y hy hb e
  obtain ⟨j, hj, ey⟩ := List.mem_iff_getElem.1 hy
  have hj' : hs[j]? = some y := by rw [← ey]; exact List.getElem?_eq_getElem hj
  by_cases hij : i = j
  · subst hij; rw [hx] at hj'; cases hj'; exact hm e
  · have := h.pair i j x y hij hx hj' hb.symm
    rw [e] at this
    cases hk : x.kind <;> simp_all [compat]

/-- The counters of the box of a handle. -/
theorem CInv.at (h : CInv n hs st wk) (hx : hs[i]? = some x) (hg : x.kind ≠ .gone) (hm : x.kind ≠ .mem) :
    st x.box = hs.countP (isS x.box) ∧ wk x.box = hs.countP (isW x.box) + (if hs.countP (isS x.box) = 0 then 0 else 1) := h.cnt _ (h.box x (List.mem_of_getElem? hx)) (h.noMem hx hg hm)

theorem get_set_iff {y z : Handle} {j : Nat} (hx : hs[i]? = some x) : (hs.set i y)[j]? = some z ↔ (j = i ∧ z = y) ∨ (j ≠ i ∧ hs[j]? = some z) := by
  obtain ⟨hi, _⟩ := List.getElem?_eq_some_iff.1 hx
  rw [List.getElem?_set]
  by_cases hij : i = j
  · subst hij
    rw [if_pos rfl, if_pos hi]
    constructor
    · intro h; cases h; exact Or.inl ⟨rfl, rfl⟩
    · rintro (⟨_, rfl⟩ | ⟨h, _⟩)
      · rfl
      · exact absurd rfl h
  · rw [if_neg hij]
    constructor
    · intro h; exact Or.inr ⟨fun e => hij e.symm, h⟩
    · rintro (⟨e, _⟩ | ⟨_, h⟩)
      · exact absurd e.symm hij
      · exact h

theorem get_append_iff {y z : Handle} {j : Nat} : (hs ++ [y])[j]? = some z ↔ (j = hs.length ∧ z = y) ∨ hs[j]? = some z := by
  by_cases hj : j < hs.length
  · rw [List.getElem?_append_left hj]
    constructor
    · exact Or.inr
    · rintro (⟨e, _⟩ | h)
      · omega
      · exact h
  · rw [List.getElem?_append_right (by omega)]
    have hn : hs[j]? = none := List.getElem?_eq_none (by omega)
    rw [hn]
    by_cases he : j = hs.length
    · subst he; simp [eq_comm]
    · rw [List.getElem?_eq_none (by simp; omega)]; simp [he]

theorem count_other {k : Nat} {p : Nat → Handle → Bool} (hp : ∀ k z, p k z = true → z.box = k) {y : Handle} (hx : hs[i]? = some x) (hy : y.box = x.box) (hk : k ≠ x.box) :
    (hs.set i y).countP (p k) = hs.countP (p k) := by
  have := countP_set' (p := p k) hx y
  have h1 : p k x = false := by cases h : p k x with | false => rfl | true => exact absurd (hp _ _ h).symm hk
  have h2 : p k y = false := by cases h : p k y with | false => rfl | true => exact absurd ((hp _ _ h).symm.trans hy) hk
  rw [h1, h2] at this
  simpa using this

/-- A handle becomes another, which is compatible with the others. -/
theorem CInv.set (h : CInv n hs st wk) (hx : hs[i]? = some x) {kd : Kind} {st' wk' : Nat → Nat}
    (hp : ∀ (j : Nat) (y : Handle), j ≠ i → hs[j]? = some y → y.box = x.box → compat kd y.kind = true)
    (h1 : ∀ k, k ≠ x.box → st' k = st k ∧ wk' k = wk k)
    (h2 : kd ≠ .mem → st' x.box = (hs.set i ⟨x.box, kd⟩).countP (isS x.box) ∧
      wk' x.box = (hs.set i ⟨x.box, kd⟩).countP (isW x.box) + (if (hs.set i ⟨x.box, kd⟩).countP (isS x.box) = 0 then 0 else 1)) :
    CInv n (hs.set i ⟨x.box, kd⟩) st' wk' := by
  obtain ⟨hi, _⟩ := List.getElem?_eq_some_iff.1 hx
  refine ⟨?_, ?_, ?_⟩
  · intro y hy
    rcases List.mem_or_eq_of_mem_set hy with hy | rfl
    · exact h.box y hy
    · exact h.box x (List.mem_of_getElem? hx)
  · intro a b y z hab hy hz hbox
    rcases (get_set_iff hx).1 hy with ⟨e1, e2⟩ | ⟨ha, hy'⟩
    · subst e1; subst e2
      rcases (get_set_iff hx).1 hz with ⟨e3, _⟩ | ⟨hb, hz'⟩
      · exact absurd e3.symm hab
      · exact hp b z hb hz' hbox.symm
    · rcases (get_set_iff hx).1 hz with ⟨e3, e4⟩ | ⟨hb, hz'⟩
      · subst e3; subst e4; rw [compat_comm]; exact hp a y ha hy' hbox
      · exact h.pair a b y z hab hy' hz' hbox
  · intro k hkn hk
    by_cases e : k = x.box
    · subst e
      refine h2 (hk ⟨x.box, kd⟩ ?_ rfl)
      exact List.mem_of_getElem? (i := i) ((get_set_iff hx).2 (Or.inl ⟨rfl, rfl⟩))
    · rw [(h1 k e).1, (h1 k e).2, count_other (p := isS) (fun k z h => (isS_iff.1 h).1) (k := k) (y := ⟨x.box, kd⟩) hx rfl e, count_other (p := isW) (fun k z h => (isW_iff.1 h).1) (k := k) (y := ⟨x.box, kd⟩) hx rfl e]
      refine h.cnt k hkn (fun y hy hb => ?_)
      obtain ⟨j, hj, ey⟩ := List.mem_iff_getElem.1 hy
      have hj' : hs[j]? = some y := by rw [← ey]; exact List.getElem?_eq_getElem hj
      have hji : j ≠ i := by
        rintro rfl
        rw [hx] at hj'; cases hj'
        exact e hb.symm
      exact hk y (List.mem_of_getElem? (i := j) ((get_set_iff hx).2 (Or.inr ⟨hji, hj'⟩))) hb

/-- A new handle to the box of one which is compatible with all that can exist with that. -/
theorem CInv.append (h : CInv n hs st wk) (hx : hs[i]? = some x) (hg : x.kind ≠ .gone) (hm : x.kind ≠ .mem) {kd : Kind} {st' wk' : Nat → Nat}
    (hp : ∀ (j : Nat) (y : Handle), hs[j]? = some y → y.box = x.box → compat kd y.kind = true)
    (h1 : ∀ k, k ≠ x.box → st' k = st k ∧ wk' k = wk k)
    (h2 : st' x.box = (hs ++ [(⟨x.box, kd⟩ : Handle)]).countP (isS x.box) ∧
      wk' x.box = (hs ++ [(⟨x.box, kd⟩ : Handle)]).countP (isW x.box) + (if (hs ++ [(⟨x.box, kd⟩ : Handle)]).countP (isS x.box) = 0 then 0 else 1)) :
    CInv n (hs ++ [(⟨x.box, kd⟩ : Handle)]) st' wk' := by
  refine ⟨?_, ?_, ?_⟩
  · intro y hy
    rcases List.mem_append.1 hy with hy | hy
    · exact h.box y hy
    · cases List.mem_singleton.1 hy; exact h.box x (List.mem_of_getElem? hx)
  · intro a b y z hab hy hz hbox
    rcases get_append_iff.1 hy with ⟨e1, e2⟩ | hy'
    · subst e1; subst e2
      rcases get_append_iff.1 hz with ⟨e3, _⟩ | hz'
      · exact absurd e3.symm hab
      · exact hp b z hz' hbox.symm
    · rcases get_append_iff.1 hz with ⟨e3, e4⟩ | hz'
      · subst e3; subst e4; rw [compat_comm]; exact hp a y hy' hbox
      · exact h.pair a b y z hab hy' hz' hbox
  · intro k hkn hk
    by_cases e : k = x.box
    · subst e; exact h2
    · have c1 : (hs ++ [(⟨x.box, kd⟩ : Handle)]).countP (isS k) = hs.countP (isS k) := by
        rw [List.countP_append]; simp [isS, Ne.symm e]
      have c2 : (hs ++ [(⟨x.box, kd⟩ : Handle)]).countP (isW k) = hs.countP (isW k) := by
        rw [List.countP_append]; simp [isW, Ne.symm e]
      rw [(h1 k e).1, (h1 k e).2, c1, c2]
      exact h.cnt k hkn (fun y hy => hk y (List.mem_append_left _ hy))

theorem set_counts (hx : hs[i]? = some x) (kd : Kind) :
    (hs.set i ⟨x.box, kd⟩).countP (isS x.box) + (if x.kind = .rc ∨ x.kind = .raw then 1 else 0) = hs.countP (isS x.box) + (if kd = .rc ∨ kd = .raw then 1 else 0) ∧
    (hs.set i ⟨x.box, kd⟩).countP (isW x.box) + (if x.kind = .weak then 1 else 0) = hs.countP (isW x.box) + (if kd = .weak then 1 else 0) := by
  have h1 := countP_set' (p := isS x.box) hx ⟨x.box, kd⟩
  have h2 := countP_set' (p := isW x.box) hx ⟨x.box, kd⟩
  simp only [isS_iff, isW_iff, true_and] at h1 h2
  exact ⟨h1, h2⟩

theorem append_counts (kd : Kind) (k : Nat) :
    (hs ++ [(⟨k, kd⟩ : Handle)]).countP (isS k) = hs.countP (isS k) + (if kd = .rc ∨ kd = .raw then 1 else 0) ∧
    (hs ++ [(⟨k, kd⟩ : Handle)]).countP (isW k) = hs.countP (isW k) + (if kd = .weak then 1 else 0) := by
  rw [List.countP_append, List.countP_append]
  constructor
  · cases kd <;> simp [isS]
  · cases kd <;> simp [isW]

/-- The only `Rc`, without `Weak`. -/
theorem CInv.unique (h : CInv n hs st wk) (hx : hs[i]? = some x) (hk : x.kind = .rc) (hu : st x.box = 1 ∧ wk x.box = 1) : ∀ j y, j ≠ i → hs[j]? = some y → y.box = x.box → y.kind = .gone := by
  intro j y hj hy hb
  obtain ⟨c1, c2⟩ := h.at hx (by rw [hk]; decide) (by rw [hk]; decide)
  have hp := h.pair i j x y (Ne.symm hj) hx hy hb.symm
  have e1 : hs.countP (isS x.box) = 1 := by omega
  rw [if_neg (by omega)] at c2
  have e2 : hs.countP (isW x.box) = 0 := by omega
  have f1 := countP_one hx (isS_iff.2 ⟨rfl, Or.inl hk⟩) e1 hy hj
  have f2 : isW x.box y = false := by simpa using (List.countP_eq_zero.1 e2) y (List.mem_of_getElem? hy)
  rw [hk] at hp
  cases hky : y.kind with
  | rc => rw [isS_iff.2 ⟨hb, Or.inl hky⟩] at f1; cases f1
  | weak => rw [isW_iff.2 ⟨hb, hky⟩] at f2; cases f2
  | gone => rfl
  | _ => rw [hky] at hp; cases hp

/-- The last `Rc`. -/
theorem CInv.last (h : CInv n hs st wk) (hx : hs[i]? = some x) (hk : x.kind = .rc) (hu : st x.box = 1) : ∀ j y, j ≠ i → hs[j]? = some y → y.box = x.box → y.kind = .weak ∨ y.kind = .gone := by
  intro j y hj hy hb
  obtain ⟨c1, _⟩ := h.at hx (by rw [hk]; decide) (by rw [hk]; decide)
  have hp := h.pair i j x y (Ne.symm hj) hx hy hb.symm
  have f1 := countP_one hx (isS_iff.2 ⟨rfl, Or.inl hk⟩) (by omega) hy hj
  rw [hk] at hp
  cases hky : y.kind with
  | rc => rw [isS_iff.2 ⟨hb, Or.inl hky⟩] at f1; cases f1
  | weak => exact Or.inl rfl
  | gone => exact Or.inr rfl
  | _ => rw [hky] at hp; cases hp

/-- The last `Weak`, and no `Rc`. -/
theorem CInv.lastWeak (h : CInv n hs st wk) (hx : hs[i]? = some x) (hk : x.kind = .weak) (hu : st x.box = 0 ∧ wk x.box = 1) (hd : ∀ y ∈ hs, y.box = x.box → y.kind ≠ .dying) :
    ∀ j y, j ≠ i → hs[j]? = some y → y.box = x.box → y.kind = .gone := by
  intro j y hj hy hb
  obtain ⟨c1, c2⟩ := h.at hx (by rw [hk]; decide) (by rw [hk]; decide)
  have hp := h.pair i j x y (Ne.symm hj) hx hy hb.symm
  have e1 : hs.countP (isS x.box) = 0 := by omega
  rw [if_pos e1] at c2
  have f1 : isS x.box y = false := by simpa using (List.countP_eq_zero.1 e1) y (List.mem_of_getElem? hy)
  have f2 := countP_one hx (isW_iff.2 ⟨rfl, hk⟩) (by omega) hy hj
  rw [hk] at hp
  cases hky : y.kind with
  | rc => rw [isS_iff.2 ⟨hb, Or.inl hky⟩] at f1; cases f1
  | weak => rw [isW_iff.2 ⟨hb, hky⟩] at f2; cases f2
  | gone => rfl
  | dying => exact absurd hky (hd y (List.mem_of_getElem? hy) hb)
  | _ => rw [hky] at hp; cases hp

theorem CInv.unique_iff (h : CInv n hs st wk) (hx : hs[i]? = some x) (hk : x.kind = .rc) :
    (st x.box = 1 ∧ wk x.box = 1) ↔ ∀ (j : Nat) (y : Handle), j ≠ i → hs[j]? = some y → y.box = x.box → y.kind = .gone := by
  refine ⟨h.unique hx hk, fun hg => ?_⟩
  obtain ⟨c1, c2⟩ := h.at hx (by rw [hk]; decide) (by rw [hk]; decide)
  have o1 : hs.countP (isS x.box) = 1 := by
    rw [countP_only hx (fun j y h1 h2 => by
      cases hS : isS x.box y with
      | false => rfl
      | true => have := isS_iff.1 hS; rw [hg j y h1 h2 this.1] at this; simp at this)]
    rw [if_pos (isS_iff.2 ⟨rfl, Or.inl hk⟩)]
  have o2 : hs.countP (isW x.box) = 0 := by
    rw [countP_only hx (fun j y h1 h2 => by
      cases hS : isW x.box y with
      | false => rfl
      | true => have := isW_iff.1 hS; rw [hg j y h1 h2 this.1] at this; simp at this)]
    rw [if_neg (by rw [isW_iff, hk]; simp)]
  rw [o1] at c1 c2
  rw [o2] at c2
  exact ⟨c1, by rw [c2]; rfl⟩

theorem CInv.last_iff (h : CInv n hs st wk) (hx : hs[i]? = some x) (hk : x.kind = .rc) :
    st x.box = 1 ↔ ∀ (j : Nat) (y : Handle), j ≠ i → hs[j]? = some y → y.box = x.box → y.kind ≠ .rc := by
  constructor
  · intro hu j y h1 h2 h3 e
    rcases h.last hx hk hu j y h1 h2 h3 with e' | e' <;> rw [e] at e' <;> cases e'
  · intro hg
    obtain ⟨c1, c2⟩ := h.at hx (by rw [hk]; decide) (by rw [hk]; decide)
    rw [c1, countP_only hx (fun j y h1 h2 => by
      cases hS : isS x.box y with
      | false => rfl
      | true =>
        obtain ⟨e1, e2⟩ := isS_iff.1 hS
        have hp := h.pair i j x y (Ne.symm h1) hx h2 e1.symm
        rw [hk] at hp
        rcases e2 with e2 | e2
        · exact absurd e2 (hg j y h1 h2 e1)
        · rw [e2] at hp; cases hp)]
    rw [if_pos (isS_iff.2 ⟨rfl, Or.inl hk⟩)]

theorem CInv.owner_iff (h : CInv n hs st wk) (hx : hs[i]? = some x) (hk : x.kind = .weak) :
    st x.box = 0 ↔ ∀ (j : Nat) (y : Handle), hs[j]? = some y → y.box = x.box → y.kind ≠ .rc := by
  obtain ⟨c1, c2⟩ := h.at hx (by rw [hk]; decide) (by rw [hk]; decide)
  rw [c1, List.countP_eq_zero]
  constructor
  · intro hz j y hy hb e
    exact hz y (List.mem_of_getElem? hy) (isS_iff.2 ⟨hb, Or.inl e⟩)
  · intro hg y hy hS
    obtain ⟨e1, e2⟩ := isS_iff.1 hS
    obtain ⟨j, hj, ey⟩ := List.mem_iff_getElem.1 hy
    have hj' : hs[j]? = some y := by rw [← ey]; exact List.getElem?_eq_getElem hj
    rcases e2 with e2 | e2
    · exact hg j y hj' e1 e2
    · have hne : i ≠ j := by
        rintro rfl
        rw [hx] at hj'; cases hj'
        rw [hk] at e2; cases e2
      have hp := h.pair i j x y hne hx hj' e1.symm
      rw [hk, e2] at hp; cases hp

theorem CInv.lastWeak_iff (h : CInv n hs st wk) (hx : hs[i]? = some x) (hk : x.kind = .weak) (hd : ∀ y ∈ hs, y.box = x.box → y.kind ≠ .dying) :
    (st x.box = 0 ∧ wk x.box = 1) ↔ ∀ (j : Nat) (y : Handle), j ≠ i → hs[j]? = some y → y.box = x.box → y.kind = .gone := by
  refine ⟨fun hu => h.lastWeak hx hk hu hd, fun hg => ?_⟩
  obtain ⟨c1, c2⟩ := h.at hx (by rw [hk]; decide) (by rw [hk]; decide)
  have o1 : hs.countP (isS x.box) = 0 := by
    rw [countP_only hx (fun j y h1 h2 => by
      cases hS : isS x.box y with
      | false => rfl
      | true => have := isS_iff.1 hS; rw [hg j y h1 h2 this.1] at this; simp at this)]
    rw [if_neg (by rw [isS_iff, hk]; simp)]
  have o2 : hs.countP (isW x.box) = 1 := by
    rw [countP_only hx (fun j y h1 h2 => by
      cases hS : isW x.box y with
      | false => rfl
      | true => have := isW_iff.1 hS; rw [hg j y h1 h2 this.1] at this; simp at this)]
    rw [if_pos (isW_iff.2 ⟨rfl, hk⟩)]
  rw [o1] at c1 c2
  rw [o2] at c2
  exact ⟨c1, by rw [c2]; rfl⟩

end
end Verif.RcBorrows
