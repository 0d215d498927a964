import Verif.Proofs.RcBorrowsCount
/-! # The actions keep the pointers of `Rc` and `Weak` usable -/
set_option autoImplicit false
namespace Verif.RcBorrows
open Verif.Borrows
open Verif.VecBorrows (Ref keepRefs endRefs endMutRefs mem_endRefs mem_endMutRefs mem_keepRefs permOf_false)

/-- The boxes, and the owners of their bytes. -/
structure Env (W : Nat → Option Nat) (bs : List Box) : Prop where
  valid : ∀ B ∈ bs, B.Valid
  apart : Apart bs
  own : ∀ B ∈ bs, In W B

theorem Env.other {W : Nat → Option Nat} {bs : List Box} (h : Env W bs) {k l : Nat} {A B : Box} (hA : bs[k]? = some A) (hB : bs[l]? = some B) (hkl : k ≠ l) : A.hi ≤ B.lo ∨ B.hi ≤ A.lo := by
  obtain ⟨h1, e1⟩ := List.getElem?_eq_some_iff.1 hA
  obtain ⟨h2, e2⟩ := List.getElem?_eq_some_iff.1 hB
  have := List.pairwise_iff_getElem.1 h.apart
  by_cases hlt : k < l
  · have := this k l h1 h2 hlt; rw [e1, e2] at this; exact this
  · have := this l k h2 h1 (by omega); rw [e1, e2] at this; exact this.symm

/-- The reference may be used, and is to the value of its owner. -/
structure RefOk (bs : List Box) (hs : List Handle) (m : Mem) (col : Nat → Col) (r : Ref) : Prop where
  lt : r.tag < m.next
  from_ : ∀ i ∈ r.from_, i < r.tag
  owner : ∃ x B, hs[r.owner]? = some x ∧ (x.kind = .rc ∨ x.kind = .dying) ∧ bs[x.box]? = some B ∧ B.lo ≤ r.lo ∧ r.hi ≤ B.vhi
  item : ∀ b, r.lo ≤ b → b < r.hi → (⟨r.tag, permOf r.mutable⟩ : Item) ∈ (col b).above
  excl : r.mutable = true → ∀ x, hs[r.owner]? = some x → x.kind = .rc → ∀ (j : Nat) (y : Handle), j ≠ r.owner → hs[j]? = some y → y.box = x.box → y.kind = .gone

structure Inv (W : Nat → Option Nat) (bs : List Box) (s : St) (col : Nat → Col) : Prop where
  cov : Cov W s.heap.mem col
  c : CInv bs.length s.handles s.heap.strong s.heap.weak
  refs : ∀ r ∈ s.refs, RefOk bs s.handles s.heap.mem col r

/-- Only the handle `i` and new ones to its box differ. -/
structure Turn (hs : List Handle) (i : Nat) (x : Handle) (hs' : List Handle) : Prop where
  old : ∀ (j : Nat) (y : Handle), j ≠ i → hs[j]? = some y → hs'[j]? = some y
  new : ∀ (j : Nat) (z : Handle), hs'[j]? = some z → (j ≠ i ∧ hs[j]? = some z) ∨ z.box = x.box

theorem Turn.refl (hs : List Handle) (i : Nat) {x : Handle} (hx : hs[i]? = some x) : Turn hs i x hs :=
  ⟨fun _ _ _ h => h, fun j z h => by
    by_cases e : j = i
    · subst e; rw [hx] at h; cases h; exact Or.inr rfl
    · exact Or.inl ⟨e, h⟩⟩

theorem Turn.set {hs : List Handle} {i : Nat} {x : Handle} (hx : hs[i]? = some x) (kd : Kind) : Turn hs i x (hs.set i ⟨x.box, kd⟩) :=
  ⟨fun _ _ hj h => (get_set_iff hx).2 (Or.inr ⟨hj, h⟩), fun j z h => by
    rcases (get_set_iff hx).1 h with ⟨_, e⟩ | h'
    · subst e; exact Or.inr rfl
    · exact Or.inl h'⟩

theorem Turn.append {hs : List Handle} {i : Nat} {x : Handle} (hx : hs[i]? = some x) (kd : Kind) : Turn hs i x (hs ++ [⟨x.box, kd⟩]) :=
  ⟨fun _ _ _ h => get_append_iff.2 (Or.inr h), fun j z h => by
    rcases get_append_iff.1 h with ⟨_, e⟩ | h'
    · subst e; exact Or.inr rfl
    · exact (Turn.refl hs i hx).new j z h'⟩

section
variable {W : Nat → Option Nat} {bs : List Box} {s : St} {col col' : Nat → Col} {i : Nat} {x : Handle} {B : Box} {m' : Mem} {hs' : List Handle} {P : Nat → Item → Prop} {r : Ref}

/-- What the method keeps of references of other handles. -/
def Keeps (hs : List Handle) (i : Nat) (x : Handle) (B : Box) (P : Nat → Item → Prop) : Prop :=
  ((∀ (j : Nat) (y : Handle), j ≠ i → hs[j]? = some y → y.box = x.box → y.kind ≠ .dying) ∧ ∀ b it, b < B.vhi → it.perm ≠ .unique → P b it) ∨ (∀ b it, b < B.vhi → P b it) ∨
    (∀ (j : Nat) (y : Handle), j ≠ i → hs[j]? = some y → y.box = x.box → y.kind ≠ .rc ∧ y.kind ≠ .dying)

/-- References of other handles. -/
theorem Inv.other (h : Inv W bs s col) (hE : Env W bs) (hx : s.handles[i]? = some x) (hg : x.kind ≠ .gone) (hB : bs[x.box]? = some B) (ht : Turn s.handles i x hs')
    (u : Chg W B.lo B.hi P s.heap.mem col m' col') (hP : Keeps s.handles i x B P) (hr : r ∈ s.refs) (hne : r.owner ≠ i) : RefOk bs hs' m' col' r := by
  have hk := h.refs r hr
  obtain ⟨y, C, o1, o2, o3, o4, o5⟩ := hk.owner
  refine ⟨Nat.lt_of_lt_of_le hk.lt u.next, hk.from_, ⟨y, C, ht.old _ _ hne o1, o2, o3, o4, o5⟩, ?_, ?_⟩
  · intro b h1 h2
    have hit := hk.item b h1 h2
    by_cases hbox : y.box = x.box
    · rw [hbox, hB] at o3; cases o3
      rcases hP with ⟨p1, p2⟩ | p | p
      · refine u.keep b _ hit (p2 b _ (by omega) ?_)
        intro e
        have hm : r.mutable = true := by
          cases hm : r.mutable with
          | true => rfl
          | false => rw [hm] at e; exact absurd e permOf_false
        rcases o2 with o2 | o2
        · exact hg (hk.excl hm y o1 o2 i x (Ne.symm hne) hx hbox.symm)
        · exact p1 r.owner y hne o1 hbox o2
      · exact u.keep b _ hit (p b _ (by omega))
      · obtain ⟨q1, q2⟩ := p r.owner y hne o1 hbox
        rcases o2 with o2 | o2
        · exact absurd o2 q1
        · exact absurd o2 q2
    · have := hE.other o3 hB hbox
      have hv := (hE.valid C (List.mem_of_getElem? o3)); have := hv.value; have := hv.strong; have := hv.weak
      rw [u.out b (by omega)]; exact hit
  · intro hm z hz hzk j w hj hw hwb
    rw [ht.old _ _ hne o1] at hz; cases hz
    rcases ht.new j w hw with ⟨hji, hw'⟩ | hwx
    · exact hk.excl hm y o1 hzk j w hj hw' hwb
    · exact absurd (hk.excl hm y o1 hzk i x (Ne.symm hne) hx (hwx.symm.trans hwb)) hg

/-- Shared references of the handle. -/
theorem Inv.same (h : Inv W bs s col) (hx : s.handles[i]? = some x) (hB : bs[x.box]? = some B) (hx' : hs'[i]? = some x)
    (u : Chg W B.lo B.hi P s.heap.mem col m' col') (hP : ∀ b it, b < B.vhi → it.perm ≠ .unique → P b it) (hr : r ∈ s.refs) (he : r.owner = i) (hm : r.mutable = false) : RefOk bs hs' m' col' r := by
  have hk := h.refs r hr
  obtain ⟨y, C, o1, o2, o3, o4, o5⟩ := hk.owner
  rw [he, hx] at o1; cases o1
  rw [hB] at o3; cases o3
  refine ⟨Nat.lt_of_lt_of_le hk.lt u.next, hk.from_, ⟨x, B, by rw [he]; exact hx', o2, hB, o4, o5⟩, ?_, fun hm' => by rw [hm] at hm'; cases hm'⟩
  intro b h1 h2
  exact u.keep b _ (hk.item b h1 h2) (hP b _ (by omega) (by rw [hm]; exact permOf_false))

/-- A method which ends all references of the handle. -/
theorem Inv.turn (h : Inv W bs s col) (hE : Env W bs) (hx : s.handles[i]? = some x) (hg : x.kind ≠ .gone) (hB : bs[x.box]? = some B) (ht : Turn s.handles i x hs') {st wk : Nat → Nat}
    (hc : CInv bs.length hs' st wk) (u : Chg W B.lo B.hi P s.heap.mem col m' col') (hP : Keeps s.handles i x B P) : Inv W bs ⟨⟨m', st, wk⟩, hs', endRefs i s.refs⟩ col' := by
  refine ⟨u.cov, hc, fun r hr => ?_⟩
  obtain ⟨h1, h2⟩ := mem_endRefs.1 hr
  exact h.other hE hx hg hB ht u hP h1 h2

/-- One which ends the mutable ones. -/
theorem Inv.look (h : Inv W bs s col) (hE : Env W bs) (hx : s.handles[i]? = some x) (hg : x.kind ≠ .gone) (hB : bs[x.box]? = some B) (ht : Turn s.handles i x hs') (hx' : hs'[i]? = some x)
    {st wk : Nat → Nat} (hc : CInv bs.length hs' st wk) (u : Chg W B.lo B.hi P s.heap.mem col m' col') (hP : Keeps s.handles i x B P)
    (hP' : ∀ b it, b < B.vhi → it.perm ≠ .unique → P b it) : Inv W bs ⟨⟨m', st, wk⟩, hs', endMutRefs i s.refs⟩ col' := by
  refine ⟨u.cov, hc, fun r hr => ?_⟩
  obtain ⟨h1, h2⟩ := mem_endMutRefs.1 hr
  by_cases he : r.owner = i
  · exact h.same hx hB hx' u hP' h1 he (h2.resolve_left (fun hn => hn he))
  · exact h.other hE hx hg hB ht u hP h1 he

theorem CInv.same {n : Nat} {hs : List Handle} {st wk st' wk' : Nat → Nat} (h : CInv n hs st wk) (h1 : st' = st) (h2 : wk' = wk) : CInv n hs st' wk' := by subst h1; subst h2; exact h

theorem RefOk.is {bs : List Box} {hs : List Handle} {m : Mem} {col : Nat → Col} {r : Ref} (h : RefOk bs hs m col r) {a : Access} (ha : a = .write → r.mutable = true) {x y : Nat} (hx : r.lo ≤ x) (hy : y ≤ r.hi) :
    ∀ b, x ≤ b → b < y → ∃ g ∈ (col b).above, g.is a r.tag = true := by
  intro b h1 h2
  refine ⟨_, h.item b (by omega) (by omega), is_refl _ _ _ ?_⟩
  cases a with
  | read => cases r.mutable <;> rfl
  | write => rw [ha rfl]; rfl

theorem Inv.ref_in (h : Inv W bs s col) (hE : Env W bs) (hr : r ∈ s.refs) {b : Nat} (h1 : r.lo ≤ b) (h2 : b < r.hi) : ∃ w, W b = some w := by
  obtain ⟨y, C, o1, o2, o3, o4, o5⟩ := (h.refs r hr).owner
  have hm := List.mem_of_getElem? o3
  have hv := hE.valid C hm
  have := hv.value; have := hv.strong; have := hv.weak
  exact ⟨_, hE.own C hm b (by omega) (by omega)⟩

/-- The references kept by a use of one. -/
theorem Inv.kept (h : Inv W bs s col) {a : Access} (hr : r ∈ s.refs) {lo hi : Nat} (u : Chg W lo hi (fun _ i => i.tag ≤ r.tag ∨ (a = .read ∧ i.perm ≠ .unique)) s.heap.mem col m' col')
    {q : Ref} (hq : q ∈ keepRefs a r.tag r.from_ lo hi s.refs) : RefOk bs s.handles m' col' q := by
  obtain ⟨hq1, hq2⟩ := mem_keepRefs.1 hq
  have hq' := h.refs q hq1
  refine ⟨Nat.lt_of_lt_of_le hq'.lt u.next, hq'.from_, hq'.owner, fun b h1 h2 => ?_, hq'.excl⟩
  have hit := hq'.item b h1 h2
  rcases hq2 with e | e | e | ⟨e1, e2⟩
  · exact u.keep b _ hit (Or.inl (by simp only; omega))
  · exact u.keep b _ hit (Or.inl (by have := (h.refs r hr).from_ _ e; simp only; omega))
  · by_cases he : hi ≤ lo
    · rw [u.out b (by omega)]; exact hit
    · rw [u.out b (by omega)]; exact hit
  · exact u.keep b _ hit (Or.inr ⟨e1, by simp only [e2]; exact permOf_false⟩)

theorem set_same {hs : List Handle} {i : Nat} {x : Handle} (hx : hs[i]? = some x) : hs.set i x = hs := by
  obtain ⟨hi, e⟩ := List.getElem?_eq_some_iff.1 hx
  rw [← e, List.set_getElem_self]

theorem compat_rc {a : Kind} (h : compat .rc a = true) : a = .rc ∨ a = .weak ∨ a = .gone := by cases a <;> simp_all [compat]
theorem compat_weak {a : Kind} (h : compat .weak a = true) : a = .rc ∨ a = .weak ∨ a = .dying ∨ a = .gone := by cases a <;> simp_all [compat]
theorem compat_only {a b : Kind} (hb : b = .raw ∨ b = .mem) (h : compat b a = true) : a = .gone := by rcases hb with rfl | rfl <;> cases a <;> simp_all [compat]
theorem compat_gone (a : Kind) : compat .gone a = true := by cases a <;> rfl
theorem compat_gone' (a : Kind) : compat a .gone = true := by cases a <;> rfl

theorem Inv.call (h : Inv W bs s col) (hE : Env W bs) (hx : s.handles[i]? = some x) (hB : bs[x.box]? = some B) {a : Act} (ha : a.handle = i) (hp : Permitted bs s a) : ∃ s' col', call B s i x a = some s' ∧ ((∃ r b lo hi, a = .use r b lo hi) ∨ (∃ r b lo hi, a = .reborrow r b lo hi) ∨ Inv W bs s' col') := by
  have hm := List.mem_of_getElem? hB
  have hv := hE.valid B hm
  have hin := hE.own B hm
  have hvv := hv.value; have hvs := hv.strong; have hvw := hv.weak
  have hc := h.c
  have hi := (List.getElem?_eq_some_iff.1 hx).1
  have is : ∀ k, s.Is i k → x.kind = k := by
    intro k ⟨y, hy, e⟩
    rw [hx] at hy; cases hy; exact e
  obtain ⟨⟨m, st, wk⟩, hs, refs⟩ := s
  have hcov : Cov W m col := h.cov
  simp only at hx hc hi
  have app : (hs ++ [(⟨x.box, .rc⟩ : Handle)])[i]? = some x := get_append_iff.2 (Or.inr hx)
  have app' : (hs ++ [(⟨x.box, .weak⟩ : Handle)])[i]? = some x := get_append_iff.2 (Or.inr hx)
  have pairs : ∀ (j : Nat) (y : Handle), j ≠ i → hs[j]? = some y → y.box = x.box → compat x.kind y.kind = true := fun j y hj hy hb => hc.pair i j x y (Ne.symm hj) hx hy hb.symm
  have keepRc : x.kind = .rc → Keeps hs i x B (fun b i => b < B.vhi ∧ i.perm ≠ .unique) := by
    refine fun e => Or.inl ⟨fun j y h1 h2 h3 h4 => ?_, fun _ _ h1 h2 => ⟨h1, h2⟩⟩
    have := pairs j y h1 h2 h3
    rw [e, h4] at this; cases this
  have keepWk : Keeps hs i x B (fun b _ => b < B.vhi) := Or.inr (Or.inl (fun _ _ h1 => h1))
  have none : ∀ (hg : ∀ (j : Nat) (y : Handle), j ≠ i → hs[j]? = some y → y.box = x.box → y.kind = .gone ∨ y.kind = .weak) (P : Nat → Item → Prop), Keeps hs i x B P := by
    intro hg P
    refine Or.inr (Or.inr (fun j y h1 h2 h3 => ?_))
    rcases hg j y h1 h2 h3 with e | e <;> rw [e] <;> decide
  cases a with
  | new j =>
    obtain rfl : i = j := ha.symm
    have hk := is _ hp
    obtain ⟨m', col', e, u⟩ := new_chg (st := st) (wk := wk) (k := x.box) hin hcov
    have hgone : ∀ (j : Nat) (y : Handle), j ≠ i → hs[j]? = some y → y.box = x.box → y.kind = .gone := fun j y hj hy hb => compat_only (Or.inr hk) (pairs j y hj hy hb)
    refine ⟨⟨⟨m', upd st x.box 1, upd wk x.box 1⟩, hs.set i ⟨x.box, .rc⟩, endRefs i refs⟩, col', by simp only [RcBorrows.call, e, St.turn, Option.bind_eq_bind, Option.bind_some, Option.pure_def], Or.inr (Or.inr ?_)⟩
    refine h.turn hE hx (by rw [hk]; decide) hB (Turn.set hx _) ?_ u (none (fun j y h1 h2 h3 => Or.inl (hgone j y h1 h2 h3)) _)
    refine hc.set hx (fun j y h1 h2 h3 => by rw [hgone j y h1 h2 h3]; rfl) (fun k hk => ⟨upd_ne _ hk, upd_ne _ hk⟩) (fun _ => ?_)
    obtain ⟨c1, c2⟩ := set_counts hx .rc
    have o1 : hs.countP (isS x.box) = 0 := by
      rw [countP_only hx (fun j y h1 h2 => by
        cases hS : isS x.box y with
        | false => rfl
        | true => have := isS_iff.1 hS; rw [hgone j y h1 h2 this.1] at this; simp at this)]
      rw [if_neg (by rw [isS_iff, hk]; simp)]
    have o2 : hs.countP (isW x.box) = 0 := by
      rw [countP_only hx (fun j y h1 h2 => by
        cases hS : isW x.box y with
        | false => rfl
        | true => have := isW_iff.1 hS; rw [hgone j y h1 h2 this.1] at this; simp at this)]
      rw [if_neg (by rw [isW_iff, hk]; simp)]
    rw [hk, o1] at c1
    rw [hk, o2] at c2
    simp only [reduceCtorEq, or_self, or_false, or_true, true_or, false_or, ↓reduceIte, Nat.add_zero] at c1 c2
    rw [c1, c2, upd_self, upd_self]
    exact ⟨rfl, rfl⟩
  | clone j =>
    obtain rfl : i = j := ha.symm
    have hk := is _ hp
    obtain ⟨m', col', e, u⟩ := incStrong_chg (st := st) (wk := wk) (k := x.box) hv hin hcov
    obtain ⟨a1, a2⟩ := hc.at hx (by rw [hk]; decide) (by rw [hk]; decide)
    obtain ⟨c1, c2⟩ := append_counts (hs := hs) .rc x.box
    refine ⟨⟨⟨m', upd st x.box (st x.box + 1), wk⟩, hs ++ [⟨x.box, .rc⟩], endMutRefs i refs⟩, col', by simp only [RcBorrows.call, e, St.look, Option.bind_eq_bind, Option.bind_some, Option.pure_def], Or.inr (Or.inr ?_)⟩
    refine h.look hE hx (by rw [hk]; decide) hB (Turn.append hx _) app ?_ u (keepRc hk) (fun _ _ h1 h2 => ⟨h1, h2⟩)
    refine hc.append hx (by rw [hk]; decide) (by rw [hk]; decide) ?_ (fun k hk => ⟨upd_ne _ hk, rfl⟩) ?_
    · intro j y hy hb
      by_cases hj : j = i
      · subst hj; rw [hx] at hy; cases hy; rw [hk]; rfl
      · have := pairs j y hj hy hb; rw [hk] at this; exact this
    · have hpos := countP_pos_of hx (isS_iff.2 ⟨rfl, Or.inl hk⟩)
      simp only [reduceCtorEq, or_self, or_false, or_true, true_or, false_or, ↓reduceIte, Nat.add_zero] at c1 c2
      rw [c1, c2, upd_self, a1, a2]
      rw [if_neg (by omega), if_neg (by omega)]
      exact ⟨rfl, rfl⟩
  | downgrade j =>
    obtain rfl : i = j := ha.symm
    have hk := is _ hp
    obtain ⟨m', col', e, u⟩ := incWeak_chg (st := st) (wk := wk) (k := x.box) hv hin hcov
    obtain ⟨a1, a2⟩ := hc.at hx (by rw [hk]; decide) (by rw [hk]; decide)
    obtain ⟨c1, c2⟩ := append_counts (hs := hs) .weak x.box
    refine ⟨⟨⟨m', st, upd wk x.box (wk x.box + 1)⟩, hs ++ [⟨x.box, .weak⟩], endMutRefs i refs⟩, col', by simp only [RcBorrows.call, e, St.look, Option.bind_eq_bind, Option.bind_some, Option.pure_def], Or.inr (Or.inr ?_)⟩
    refine h.look hE hx (by rw [hk]; decide) hB (Turn.append hx _) app' ?_ u (keepRc hk) (fun _ _ h1 h2 => ⟨h1, h2⟩)
    refine hc.append hx (by rw [hk]; decide) (by rw [hk]; decide) ?_ (fun k hk => ⟨rfl, upd_ne _ hk⟩) ?_
    · intro j y hy hb
      by_cases hj : j = i
      · subst hj; rw [hx] at hy; cases hy; rw [hk]; rfl
      · have := pairs j y hj hy hb; rw [hk] at this
        rcases compat_rc this with e | e | e <;> rw [e] <;> rfl
    · have hpos := countP_pos_of hx (isS_iff.2 ⟨rfl, Or.inl hk⟩)
      simp only [reduceCtorEq, or_self, or_false, or_true, true_or, false_or, ↓reduceIte, Nat.add_zero] at c1 c2
      rw [c1, c2, upd_self, a2]
      exact ⟨a1, by omega⟩
  | strongCount j =>
    obtain rfl : i = j := ha.symm
    have hk := is _ hp
    obtain ⟨m', col', e, u⟩ := rcStrong_chg (st := st) (wk := wk) (k := x.box) hv hin hcov
    refine ⟨⟨⟨m', st, wk⟩, hs, endMutRefs i refs⟩, col', by simp only [RcBorrows.call, e, St.look, Option.bind_eq_bind, Option.bind_some, Option.pure_def], Or.inr (Or.inr ?_)⟩
    exact h.look hE hx (by rw [hk]; decide) hB (Turn.refl hs i hx) hx hc u (keepRc hk) (fun _ _ h1 h2 => ⟨h1, h2⟩)
  | weakCount j =>
    obtain rfl : i = j := ha.symm
    have hk := is _ hp
    obtain ⟨m', col', e, u⟩ := rcWeak_chg (st := st) (wk := wk) (k := x.box) hv hin hcov
    refine ⟨⟨⟨m', st, wk⟩, hs, endMutRefs i refs⟩, col', by simp only [RcBorrows.call, e, St.look, Option.bind_eq_bind, Option.bind_some, Option.pure_def], Or.inr (Or.inr ?_)⟩
    exact h.look hE hx (by rw [hk]; decide) hB (Turn.refl hs i hx) hx hc u (keepRc hk) (fun _ _ h1 h2 => ⟨h1, h2⟩)
  | deref j =>
    obtain rfl : i = j := ha.symm
    have hk := is _ hp
    obtain ⟨t, m', col', e, u, n, it⟩ := deref_chg (st := st) (wk := wk) hv hin hcov
    refine ⟨⟨⟨m', st, wk⟩, hs, ⟨t, false, B.lo, B.vhi, i, []⟩ :: endMutRefs i refs⟩, col', by simp only [RcBorrows.call, e, St.look, Option.bind_eq_bind, Option.bind_some, Option.pure_def], Or.inr (Or.inr ?_)⟩
    have h0 := h.look hE hx (by rw [hk]; decide) hB (Turn.refl hs i hx) hx hc u (keepRc hk) (fun _ _ h1 h2 => ⟨h1, h2⟩)
    refine ⟨h0.cov, h0.c, fun r hr => ?_⟩
    rcases List.mem_cons.1 hr with rfl | hr'
    · exact ⟨n, by simp, ⟨x, B, hx, Or.inl hk, hB, Nat.le_refl _, Nat.le_refl _⟩, it, fun e => by cases e⟩
    · exact h0.refs r hr'
  | getMut j =>
    obtain rfl : i = j := ha.symm
    have hk := is _ hp
    rcases getMut_chg (st := st) (wk := wk) (k := x.box) hv hin hcov with ⟨_, m', col', e, u⟩ | ⟨hu, t, m', col', e, u, n, it⟩
    · refine ⟨⟨⟨m', st, wk⟩, hs, endRefs i refs⟩, col', by simp only [RcBorrows.call, e, Option.bind_eq_bind, Option.bind_some, Option.pure_def], Or.inr (Or.inr ?_)⟩
      exact h.turn hE hx (by rw [hk]; decide) hB (Turn.refl hs i hx) hc u (keepRc hk)
    · have hg := hc.unique hx hk hu
      refine ⟨⟨⟨m', st, wk⟩, hs, ⟨t, true, B.lo, B.vhi, i, []⟩ :: endRefs i refs⟩, col', by simp only [RcBorrows.call, e, Option.bind_eq_bind, Option.bind_some, Option.pure_def], Or.inr (Or.inr ?_)⟩
      have h0 := h.turn hE hx (by rw [hk]; decide) hB (Turn.refl hs i hx) hc u (none (fun j y h1 h2 h3 => Or.inl (hg j y h1 h2 h3)) _)
      refine ⟨h0.cov, h0.c, fun r hr => ?_⟩
      rcases List.mem_cons.1 hr with rfl | hr'
      · exact ⟨n, by simp, ⟨x, B, hx, Or.inl hk, hB, Nat.le_refl _, Nat.le_refl _⟩, it, fun _ y hy _ => by rw [hx] at hy; cases hy; exact hg⟩
      · exact h0.refs r hr'
  | dropRc j =>
    obtain rfl : i = j := ha.symm
    have hk := is _ hp
    obtain ⟨a1, a2⟩ := hc.at hx (by rw [hk]; decide) (by rw [hk]; decide)
    have hpos := countP_pos_of hx (isS_iff.2 ⟨rfl, Or.inl hk⟩)
    rcases dropRc_chg (st := st) (wk := wk) (k := x.box) hv hin hcov with ⟨hu, m', col', e, u⟩ | ⟨hu, t, m', col', e, u, n, it⟩
    · refine ⟨⟨⟨m', upd st x.box (st x.box - 1), wk⟩, hs.set i ⟨x.box, .gone⟩, endRefs i refs⟩, col', by simp only [RcBorrows.call, e, St.turn, Option.bind_eq_bind, Option.bind_some, Option.pure_def], Or.inr (Or.inr ?_)⟩
      refine h.turn hE hx (by rw [hk]; decide) hB (Turn.set hx _) ?_ u (keepRc hk)
      refine hc.set hx (fun j y h1 h2 h3 => compat_gone _) (fun k hk => ⟨upd_ne _ hk, rfl⟩) (fun _ => ?_)
      obtain ⟨c1, c2⟩ := set_counts hx .gone
      rw [hk] at c1 c2
      simp only [reduceCtorEq, or_self, or_false, or_true, true_or, false_or, ↓reduceIte, Nat.add_zero] at c1 c2
      rw [c2, upd_self, a2, a1, if_neg (by omega), if_neg (by omega)]
      exact ⟨by omega, rfl⟩
    · have hg := hc.last hx hk (by omega)
      refine ⟨⟨⟨m', upd st x.box (st x.box - 1), upd wk x.box (wk x.box - 1)⟩, hs.set i ⟨x.box, .dying⟩, ⟨t, true, B.lo, B.vhi, i, []⟩ :: endRefs i refs⟩, col',
        by simp only [RcBorrows.call, e, St.turn, Option.bind_eq_bind, Option.bind_some, Option.pure_def], Or.inr (Or.inr ?_)⟩
      have h0 : Inv W bs ⟨⟨m', upd st x.box (st x.box - 1), upd wk x.box (wk x.box - 1)⟩, hs.set i ⟨x.box, .dying⟩, endRefs i refs⟩ col' := by
        refine h.turn hE hx (by rw [hk]; decide) hB (Turn.set hx _) ?_ u (none (fun j y h1 h2 h3 => (hg j y h1 h2 h3).symm) _)
        refine hc.set hx (fun j y h1 h2 h3 => ?_) (fun k hk => ⟨upd_ne _ hk, upd_ne _ hk⟩) (fun _ => ?_)
        · rcases hg j y h1 h2 h3 with e | e <;> rw [e] <;> rfl
        · obtain ⟨c1, c2⟩ := set_counts hx .dying
          rw [hk] at c1 c2
          simp only [reduceCtorEq, or_self, or_false, or_true, true_or, false_or, ↓reduceIte, Nat.add_zero] at c1 c2
          rw [c2, upd_self, upd_self, a2, a1, if_neg (by omega), if_pos (by omega)]
          exact ⟨by omega, by omega⟩
      refine ⟨h0.cov, h0.c, fun r hr => ?_⟩
      rcases List.mem_cons.1 hr with rfl | hr'
      · have hi' : (hs.set i ⟨x.box, .dying⟩)[i]? = some ⟨x.box, .dying⟩ := (get_set_iff hx).2 (Or.inl ⟨rfl, rfl⟩)
        exact ⟨n, by simp, ⟨⟨x.box, .dying⟩, B, hi', Or.inr rfl, hB, Nat.le_refl _, Nat.le_refl _⟩, it, fun _ y hy hyk => by simp only [hi'] at hy; cases hy; cases hyk⟩
      · exact h0.refs r hr'
  | endDrop j =>
    obtain rfl : i = j := ha.symm
    have hk := is _ hp
    obtain ⟨a1, a2⟩ := hc.at hx (by rw [hk]; decide) (by rw [hk]; decide)
    refine ⟨⟨⟨m, st, wk⟩, hs.set i ⟨x.box, .gone⟩, endRefs i refs⟩, col, rfl, Or.inr (Or.inr ?_)⟩
    refine h.turn hE hx (by rw [hk]; decide) hB (Turn.set hx _) ?_ (Chg.refl hcov) keepWk
    refine hc.set hx (fun j y h1 h2 h3 => compat_gone _) (fun k hk => ⟨rfl, rfl⟩) (fun _ => ?_)
    obtain ⟨c1, c2⟩ := set_counts hx .gone
    rw [hk] at c1 c2
    simp only [reduceCtorEq, or_self, or_false, or_true, true_or, false_or, ↓reduceIte, Nat.add_zero] at c1 c2
    rw [c1, c2]
    exact ⟨a1, a2⟩
  | tryUnwrap j =>
    obtain rfl : i = j := ha.symm
    have hk := is _ hp
    obtain ⟨a1, a2⟩ := hc.at hx (by rw [hk]; decide) (by rw [hk]; decide)
    have hset : hs.set i ⟨x.box, .rc⟩ = hs := by rw [← hk]; exact set_same hx
    rcases tryUnwrap_chg (st := st) (wk := wk) (k := x.box) hv hin hcov with ⟨hu, m', col', e, u⟩ | ⟨hu, m', col', e, u⟩
    · refine ⟨⟨⟨m', st, wk⟩, hs.set i ⟨x.box, .rc⟩, endRefs i refs⟩, col', by simp only [RcBorrows.call, e, St.turn, Option.bind_eq_bind, Option.bind_some, Option.pure_def]; rfl, Or.inr (Or.inr ?_)⟩
      rw [hset]
      exact h.turn hE hx (by rw [hk]; decide) hB (Turn.refl hs i hx) hc u (keepRc hk)
    · have hg := hc.last hx hk hu
      refine ⟨⟨⟨m', upd st x.box (st x.box - 1), wk⟩, hs.set i ⟨x.box, .weak⟩, endRefs i refs⟩, col', by simp only [RcBorrows.call, e, St.turn, Option.bind_eq_bind, Option.bind_some, Option.pure_def]; rfl, Or.inr (Or.inr ?_)⟩
      refine h.turn hE hx (by rw [hk]; decide) hB (Turn.set hx _) ?_ u (keepRc hk)
      refine hc.set hx (fun j y h1 h2 h3 => ?_) (fun k hk => ⟨upd_ne _ hk, rfl⟩) (fun _ => ?_)
      · rcases hg j y h1 h2 h3 with e | e <;> rw [e] <;> rfl
      · obtain ⟨c1, c2⟩ := set_counts hx .weak
        rw [hk] at c1 c2
        simp only [reduceCtorEq, or_self, or_false, or_true, true_or, false_or, ↓reduceIte, Nat.add_zero] at c1 c2
        rw [c2, upd_self, a2, if_neg (by omega), if_pos (by omega)]
        exact ⟨by omega, by omega⟩
  | intoRaw j =>
    obtain rfl : i = j := ha.symm
    have hk := is _ hp
    obtain ⟨a1, a2⟩ := hc.at hx (by rw [hk]; decide) (by rw [hk]; decide)
    have hset : hs.set i ⟨x.box, .rc⟩ = hs := by rw [← hk]; exact set_same hx
    obtain ⟨m', col', e, u⟩ := isUnique_chg (st := st) (wk := wk) (k := x.box) hv hin hcov
    by_cases hu : st x.box = 1 ∧ wk x.box = 1
    · have hg := hc.unique hx hk hu
      rw [decide_eq_true hu] at e
      refine ⟨⟨⟨m', st, wk⟩, hs.set i ⟨x.box, .raw⟩, endRefs i refs⟩, col', by simp only [RcBorrows.call, e, St.turn, Option.bind_eq_bind, Option.bind_some, Option.pure_def]; rfl, Or.inr (Or.inr ?_)⟩
      refine h.turn hE hx (by rw [hk]; decide) hB (Turn.set hx _) ?_ u (keepRc hk)
      refine hc.set hx (fun j y h1 h2 h3 => by rw [hg j y h1 h2 h3]; rfl) (fun k hk => ⟨rfl, rfl⟩) (fun _ => ?_)
      obtain ⟨c1, c2⟩ := set_counts hx .raw
      rw [hk] at c1 c2
      simp only [reduceCtorEq, or_self, or_false, or_true, true_or, false_or, ↓reduceIte, Nat.add_zero] at c1 c2
      rw [Nat.add_right_cancel c1, c2]
      exact ⟨a1, a2⟩
    · rw [decide_eq_false hu] at e
      refine ⟨⟨⟨m', st, wk⟩, hs.set i ⟨x.box, .rc⟩, endRefs i refs⟩, col', by simp only [RcBorrows.call, e, St.turn, Option.bind_eq_bind, Option.bind_some, Option.pure_def]; rfl, Or.inr (Or.inr ?_)⟩
      rw [hset]
      exact h.turn hE hx (by rw [hk]; decide) hB (Turn.refl hs i hx) hc u (keepRc hk)
  | fromRaw j =>
    obtain rfl : i = j := ha.symm
    have hk := is _ hp
    obtain ⟨a1, a2⟩ := hc.at hx (by rw [hk]; decide) (by rw [hk]; decide)
    refine ⟨⟨⟨m, st, wk⟩, hs.set i ⟨x.box, .rc⟩, endRefs i refs⟩, col, rfl, Or.inr (Or.inr ?_)⟩
    refine h.turn hE hx (by rw [hk]; decide) hB (Turn.set hx _) ?_ (Chg.refl hcov) keepWk
    refine hc.set hx (fun j y h1 h2 h3 => ?_) (fun k hk => ⟨rfl, rfl⟩) (fun _ => ?_)
    · rw [compat_only (Or.inl hk) (pairs j y h1 h2 h3)]; rfl
    · obtain ⟨c1, c2⟩ := set_counts hx .rc
      rw [hk] at c1 c2
      simp only [reduceCtorEq, or_self, or_false, or_true, true_or, false_or, ↓reduceIte, Nat.add_zero] at c1 c2
      rw [Nat.add_right_cancel c1, c2]
      exact ⟨a1, a2⟩
  | forget j =>
    obtain rfl : i = j := ha.symm
    have hk := is _ hp
    refine ⟨⟨⟨m, st, wk⟩, hs.set i ⟨x.box, .mem⟩, endRefs i refs⟩, col, rfl, Or.inr (Or.inr ?_)⟩
    refine h.turn hE hx (by rw [hk]; decide) hB (Turn.set hx _) ?_ (Chg.refl hcov) keepWk
    refine hc.set hx (fun j y h1 h2 h3 => ?_) (fun k hk => ⟨rfl, rfl⟩) (fun hne => absurd rfl hne)
    rw [compat_only (Or.inl hk) (pairs j y h1 h2 h3)]; rfl
  | useRaw j acc lo hi =>
    obtain rfl : i = j := ha.symm
    obtain ⟨x', B', q1, q2, q3, q4⟩ := hp
    simp only at q1
    have e1 : x' = x := by
      have := q1.symm.trans hx
      cases this; rfl
    subst e1
    rw [hB] at q2; cases q2
    have hk : x'.kind = .raw ∨ x'.kind = .mem := q4.imp And.left And.left
    have hhi : hi ≤ B.hi := by rcases q4 with q4 | q4 <;> omega
    obtain ⟨m', col', e, n, u⟩ := chg_base (x := lo) (y := hi) (t := B.tag) hcov acc (fun b h1 h2 => hin b (by omega) (by omega))
    refine ⟨⟨⟨m', st, wk⟩, hs, endRefs i refs⟩, col', by simp only [RcBorrows.call, e, Option.bind_eq_bind, Option.bind_some, Option.pure_def], Or.inr (Or.inr ?_)⟩
    refine h.turn hE hx (by rcases hk with e | e <;> rw [e] <;> decide) hB (Turn.refl hs i hx) hc (P := fun _ _ => False) (u.mono q3 hhi (fun _ _ h => h.elim)) (none (fun j y h1 h2 h3 => Or.inl ?_) _)
    exact compat_only hk (pairs j y h1 h2 h3)
  | upgrade j =>
    obtain rfl : i = j := ha.symm
    have hk := is _ hp
    obtain ⟨a1, a2⟩ := hc.at hx (by rw [hk]; decide) (by rw [hk]; decide)
    rcases upgrade_chg (st := st) (wk := wk) (k := x.box) hv hin hcov with ⟨hu, m', col', e, u⟩ | ⟨hu, m', col', e, u⟩
    · refine ⟨⟨⟨m', st, wk⟩, hs, endMutRefs i refs⟩, col', by simp only [RcBorrows.call, e, St.look, Option.bind_eq_bind, Option.bind_some, Option.pure_def]; rfl, Or.inr (Or.inr ?_)⟩
      exact h.look hE hx (by rw [hk]; decide) hB (Turn.refl hs i hx) hx hc u keepWk (fun _ _ h _ => h)
    · refine ⟨⟨⟨m', upd st x.box (st x.box + 1), wk⟩, hs ++ [⟨x.box, .rc⟩], endMutRefs i refs⟩, col', by simp only [RcBorrows.call, e, St.look, Option.bind_eq_bind, Option.bind_some, Option.pure_def]; rfl, Or.inr (Or.inr ?_)⟩
      have hex : ∀ (y : Handle), y ∈ hs → y.box = x.box → y.kind ≠ .dying := by
        intro y hy hb hd
        have hpos : 0 < hs.countP (isS x.box) := by omega
        obtain ⟨z, hz, hz'⟩ := List.countP_pos_iff.1 hpos
        obtain ⟨z1, z2⟩ := isS_iff.1 hz'
        obtain ⟨jy, hjy, ey⟩ := List.mem_iff_getElem.1 hy
        obtain ⟨jz, hjz, ez⟩ := List.mem_iff_getElem.1 hz
        have hne : jz ≠ jy := by
          rintro rfl
          rw [ey] at ez
          rw [← ez, hd] at z2
          simp at z2
        have := hc.pair jz jy z y hne (by rw [← ez]; exact List.getElem?_eq_getElem hjz) (by rw [← ey]; exact List.getElem?_eq_getElem hjy) (z1.trans hb.symm)
        rw [hd] at this
        rcases z2 with z2 | z2 <;> rw [z2] at this <;> cases this
      refine h.look hE hx (by rw [hk]; decide) hB (Turn.append hx _) app ?_ u (Or.inl ⟨fun j y h1 h2 h3 => hex y (List.mem_of_getElem? h2) h3, fun _ _ h1 h2 => ⟨h1, h2⟩⟩) (fun _ _ h1 h2 => ⟨h1, h2⟩)
      obtain ⟨c1, c2⟩ := append_counts (hs := hs) .rc x.box
      refine hc.append hx (by rw [hk]; decide) (by rw [hk]; decide) ?_ (fun k hk => ⟨upd_ne _ hk, rfl⟩) ?_
      · intro j y hy hb
        by_cases hj : j = i
        · subst hj; rw [hx] at hy; cases hy; rw [hk]; rfl
        · have := pairs j y hj hy hb; rw [hk] at this
          rcases compat_weak this with e | e | e | e
          · rw [e]; rfl
          · rw [e]; rfl
          · exact absurd e (hex y (List.mem_of_getElem? hy) hb)
          · rw [e]; rfl
      · simp only [reduceCtorEq, or_self, or_false, or_true, true_or, false_or, ↓reduceIte, Nat.add_zero] at c1 c2
        rw [c1, c2, upd_self, a1, a2]
        rw [if_neg (by omega), if_neg (by omega)]
        exact ⟨rfl, rfl⟩
  | cloneWeak j =>
    obtain rfl : i = j := ha.symm
    have hk := is _ hp
    obtain ⟨m', col', e, u⟩ := weakInc_chg (st := st) (wk := wk) (k := x.box) hv hin hcov
    obtain ⟨a1, a2⟩ := hc.at hx (by rw [hk]; decide) (by rw [hk]; decide)
    obtain ⟨c1, c2⟩ := append_counts (hs := hs) .weak x.box
    refine ⟨⟨⟨m', st, upd wk x.box (wk x.box + 1)⟩, hs ++ [⟨x.box, .weak⟩], endMutRefs i refs⟩, col', by simp only [RcBorrows.call, e, St.look, Option.bind_eq_bind, Option.bind_some, Option.pure_def], Or.inr (Or.inr ?_)⟩
    refine h.look hE hx (by rw [hk]; decide) hB (Turn.append hx _) app' ?_ u keepWk (fun _ _ h _ => h)
    refine hc.append hx (by rw [hk]; decide) (by rw [hk]; decide) ?_ (fun k hk => ⟨rfl, upd_ne _ hk⟩) ?_
    · intro j y hy hb
      by_cases hj : j = i
      · subst hj; rw [hx] at hy; cases hy; rw [hk]; rfl
      · have := pairs j y hj hy hb; rw [hk] at this; exact this
    · simp only [reduceCtorEq, or_self, or_false, or_true, true_or, false_or, ↓reduceIte, Nat.add_zero] at c1 c2
      rw [c1, c2, upd_self, a2]
      exact ⟨a1, by omega⟩
  | strongCountWeak j =>
    obtain rfl : i = j := ha.symm
    have hk := is _ hp
    obtain ⟨m', col', e, u⟩ := weakStrong_chg (st := st) (wk := wk) (k := x.box) hv hin hcov
    refine ⟨⟨⟨m', st, wk⟩, hs, endMutRefs i refs⟩, col', by simp only [RcBorrows.call, e, St.look, Option.bind_eq_bind, Option.bind_some, Option.pure_def], Or.inr (Or.inr ?_)⟩
    exact h.look hE hx (by rw [hk]; decide) hB (Turn.refl hs i hx) hx hc u keepWk (fun _ _ h _ => h)
  | weakCountWeak j =>
    obtain rfl : i = j := ha.symm
    have hk := is _ hp
    obtain ⟨m', col', e, u⟩ := weakWeak_chg (st := st) (wk := wk) (k := x.box) hv hin hcov
    refine ⟨⟨⟨m', st, wk⟩, hs, endMutRefs i refs⟩, col', by simp only [RcBorrows.call, e, St.look, Option.bind_eq_bind, Option.bind_some, Option.pure_def], Or.inr (Or.inr ?_)⟩
    exact h.look hE hx (by rw [hk]; decide) hB (Turn.refl hs i hx) hx hc u keepWk (fun _ _ h _ => h)
  | dropWeak j =>
    obtain rfl : i = j := ha.symm
    have hk := is _ hp
    obtain ⟨m', col', e, u⟩ := weakDec_chg (st := st) (wk := wk) (k := x.box) hv hin hcov
    obtain ⟨a1, a2⟩ := hc.at hx (by rw [hk]; decide) (by rw [hk]; decide)
    have hpos := countP_pos_of hx (isW_iff.2 ⟨rfl, hk⟩)
    refine ⟨⟨⟨m', st, upd wk x.box (wk x.box - 1)⟩, hs.set i ⟨x.box, .gone⟩, endRefs i refs⟩, col', by simp only [RcBorrows.call, e, St.turn, Option.bind_eq_bind, Option.bind_some, Option.pure_def], Or.inr (Or.inr ?_)⟩
    refine h.turn hE hx (by rw [hk]; decide) hB (Turn.set hx _) ?_ u keepWk
    refine hc.set hx (fun j y h1 h2 h3 => compat_gone _) (fun k hk => ⟨rfl, upd_ne _ hk⟩) (fun _ => ?_)
    obtain ⟨c1, c2⟩ := set_counts hx .gone
    rw [hk] at c1 c2
    simp only [reduceCtorEq, or_self, or_false, or_true, true_or, false_or, ↓reduceIte, Nat.add_zero] at c1 c2
    rw [c1, upd_self, a2]
    exact ⟨a1, by omega⟩
  | tryUnwrapWeak j =>
    obtain rfl : i = j := ha.symm
    obtain ⟨hp1, hd⟩ := hp
    have hk := is _ hp1
    obtain ⟨a1, a2⟩ := hc.at hx (by rw [hk]; decide) (by rw [hk]; decide)
    have hset : hs.set i ⟨x.box, .weak⟩ = hs := by rw [← hk]; exact set_same hx
    rcases weakTryUnwrap_chg (st := st) (wk := wk) (k := x.box) hv hin hcov with ⟨_, m', col', e, u⟩ | ⟨hu, m', col', e, u⟩
    · refine ⟨⟨⟨m', st, wk⟩, hs.set i ⟨x.box, .weak⟩, endRefs i refs⟩, col', by simp only [RcBorrows.call, e, St.turn, Option.bind_eq_bind, Option.bind_some, Option.pure_def]; rfl, Or.inr (Or.inr ?_)⟩
      rw [hset]
      exact h.turn hE hx (by rw [hk]; decide) hB (Turn.refl hs i hx) hc u keepWk
    · have hg := hc.lastWeak hx hk hu (fun y hy hb e => hd x hx ⟨y, hy, hb, e⟩)
      refine ⟨⟨⟨m', st, upd wk x.box (wk x.box - 1)⟩, hs.set i ⟨x.box, .mem⟩, endRefs i refs⟩, col', by simp only [RcBorrows.call, e, St.turn, Option.bind_eq_bind, Option.bind_some, Option.pure_def]; rfl, Or.inr (Or.inr ?_)⟩
      refine h.turn hE hx (by rw [hk]; decide) hB (Turn.set hx _) ?_ u keepWk
      exact hc.set hx (fun j y h1 h2 h3 => by rw [hg j y h1 h2 h3]; rfl) (fun k hk => ⟨rfl, upd_ne _ hk⟩) (fun hne => absurd rfl hne)
  | use r a lo hi => exact ⟨_, col, rfl, Or.inl ⟨r, a, lo, hi, rfl⟩⟩
  | reborrow r a lo hi => exact ⟨_, col, rfl, Or.inr (Or.inl ⟨r, a, lo, hi, rfl⟩)⟩

theorem Inv.step (h : Inv W bs s col) (hE : Env W bs) {a : Act} (hp : Permitted bs s a) : ∃ s' col', RcBorrows.step bs s a = some s' ∧ Inv W bs s' col' := by
  have gen : (∀ r b lo hi, a ≠ .use r b lo hi) → (∀ r b lo hi, a ≠ .reborrow r b lo hi) →
      (match s.handles[a.handle]? with
        | none => some s
        | some x => match bs[x.box]? with
          | none => some s
          | some B => RcBorrows.call B s a.handle x a) = RcBorrows.step bs s a →
      ∃ s' col', RcBorrows.step bs s a = some s' ∧ Inv W bs s' col' := by
    intro h1 h2 e
    rw [← e]
    cases hx : s.handles[a.handle]? with
    | none => exact ⟨s, col, rfl, h⟩
    | some x =>
      have hb := h.c.box x (List.mem_of_getElem? hx)
      have hB : bs[x.box]? = some bs[x.box] := List.getElem?_eq_getElem hb
      simp only [hB]
      obtain ⟨s', col', e, hi⟩ := h.call hE hx hB rfl hp
      rcases hi with ⟨r, b, lo, hi, e'⟩ | ⟨r, b, lo, hi, e'⟩ | hi
      · exact absurd e' (h1 r b lo hi)
      · exact absurd e' (h2 r b lo hi)
      · exact ⟨s', col', e, hi⟩
  cases a with
  | use r acc lo hi =>
    obtain ⟨hr, hm, h1, h2⟩ := hp
    have hk := h.refs r hr
    obtain ⟨m', col', e, n, u⟩ := chg_ref (x := lo) (y := hi) h.cov (fun b q1 q2 => h.ref_in hE hr (by omega) (by omega)) (hk.is hm h1 h2)
    refine ⟨{ s with heap := { s.heap with mem := m' }, refs := keepRefs acc r.tag r.from_ lo hi s.refs }, col', ?_, u.cov, h.c, fun q hq => h.kept hr u hq⟩
    simp only [RcBorrows.step, e, Option.bind_eq_bind, Option.bind_some, Option.pure_def]
  | reborrow r mu lo hi =>
    obtain ⟨hr, hm, h1, h2, h3⟩ := hp
    have hk := h.refs r hr
    have hm' : accessOf mu = .write → r.mutable = true := fun e => hm (by cases mu with | true => rfl | false => cases e)
    obtain ⟨m1, col1, e1, n1, u1⟩ := chg_ref (x := lo) (y := hi) h.cov (fun b q1 q2 => h.ref_in hE hr (by omega) (by omega)) (hk.is hm' h1 h3)
    obtain ⟨m', col', e, n, u, i⟩ := chg_retag (mu := mu) e1 n1 u1
    refine ⟨{ s with heap := { s.heap with mem := m' }, refs := ⟨s.heap.mem.next, mu, lo, hi, r.owner, r.tag :: r.from_⟩ :: keepRefs (accessOf mu) r.tag r.from_ lo hi s.refs }, col', ?_, u.cov, h.c, ?_⟩
    · simp only [RcBorrows.step, e, Option.bind_eq_bind, Option.bind_some, Option.pure_def]
      rfl
    · intro q hq
      rcases List.mem_cons.1 hq with rfl | hq'
      · refine ⟨by simp only; omega, ?_, ?_, i, fun e => hk.excl (hm e)⟩
        · intro x hx
          have := hk.lt
          rcases List.mem_cons.1 hx with rfl | hx'
          · exact this
          · exact Nat.lt_trans (hk.from_ x hx') this
        · obtain ⟨y, C, o1, o2, o3, o4, o5⟩ := hk.owner
          exact ⟨y, C, o1, o2, o3, by simp only; omega, by simp only; omega⟩
      · exact h.kept hr u hq'
  | _ => exact gen (fun _ _ _ _ e => by cases e) (fun _ _ _ _ e => by cases e) rfl

end

/-- The owners of the bytes. -/
def owners (bs : List Box) (b : Nat) : Option Nat := (bs.find? (fun B => decide (B.lo ≤ b ∧ b < B.hi))).map Box.tag

theorem owners_in {bs : List Box} (h : Apart bs) : ∀ B ∈ bs, In (owners bs) B := by
  intro B hB b h1 h2
  induction bs with
  | nil => cases hB
  | cons A rest ih =>
    unfold Apart at h
    rw [List.pairwise_cons] at h
    unfold owners
    rw [List.find?_cons]
    rcases List.mem_cons.1 hB with rfl | hB'
    · rw [show decide (B.lo ≤ b ∧ b < B.hi) = true from decide_eq_true ⟨h1, h2⟩]; rfl
    · have := h.1 B hB'
      rw [show decide (A.lo ≤ b ∧ b < A.hi) = false from decide_eq_false (by omega)]
      exact ih h.2 hB'

theorem owners_mem {bs : List Box} {b w : Nat} (h : owners bs b = some w) : ∃ B ∈ bs, B.lo ≤ b ∧ b < B.hi ∧ B.tag = w := by
  unfold owners at h
  obtain ⟨B, hB, e⟩ := Option.map_eq_some_iff.1 h
  have := List.find?_some hB
  simp only [decide_eq_true_eq] at this
  exact ⟨B, List.mem_of_find?_eq_some hB, this.1, this.2, e⟩

theorem Start.env {bs : List Box} {s : St} (h : Start bs s) : Env (owners bs) bs := ⟨h.valid, h.apart, owners_in h.apart⟩

theorem Start.inv {bs : List Box} {s : St} (h : Start bs s) : ∃ col, Inv (owners bs) bs s col := by
  have hget : ∀ (j : Nat) (y : Handle), s.handles[j]? = some y → y = ⟨j, .mem⟩ ∧ j < bs.length := by
    intro j y hy
    rw [h.handles, List.getElem?_map] at hy
    obtain ⟨k, hk, e⟩ := Option.map_eq_some_iff.1 hy
    obtain ⟨hlt, e'⟩ := List.getElem?_eq_some_iff.1 hk
    rw [List.getElem_range] at e'
    subst e'
    rw [List.length_range] at hlt
    exact ⟨e.symm, hlt⟩
  refine ⟨fun b => ⟨[], [], s.heap.mem.stack b⟩, ?_, ⟨?_, ?_, ?_⟩, by rw [h.refs]; simp⟩
  · intro b w hw
    obtain ⟨B, hB, h1, h2, e⟩ := owners_mem hw
    obtain ⟨p, rest, e1, hp, hn, hf⟩ := h.stack B hB b h1 h2
    subst e
    exact ⟨rfl, ⟨p, rest, e1, hp⟩, by simp, by simp, List.Pairwise.nil, hn, hf⟩
  · intro x hx
    obtain ⟨j, hj, e⟩ := List.mem_iff_getElem.1 hx
    obtain ⟨e1, e2⟩ := hget j x (by rw [← e]; exact List.getElem?_eq_getElem hj)
    rw [e1]; exact e2
  · intro i j x y hij hx hy hb
    rw [(hget i x hx).1, (hget j y hy).1] at hb
    exact absurd hb hij
  · intro k hlt hk
    have hm : (⟨k, .mem⟩ : Handle) ∈ s.handles := by
      rw [h.handles]; exact List.mem_map.2 ⟨k, List.mem_range.2 hlt, rfl⟩
    exact absurd rfl (hk _ hm rfl)

theorem Reach.inv {bs : List Box} {s₀ s : St} (hr : Reach bs s₀ s) {W : Nat → Option Nat} (hE : Env W bs) (h : ∃ col, Inv W bs s₀ col) : ∃ col, Inv W bs s col := by
  induction hr with
  | refl => exact h
  | step _ hp hs ih =>
    obtain ⟨col, hi⟩ := ih
    obtain ⟨s', col', e, hi'⟩ := hi.step hE hp
    rw [hs] at e
    cases e
    exact ⟨col', hi'⟩

end Verif.RcBorrows
