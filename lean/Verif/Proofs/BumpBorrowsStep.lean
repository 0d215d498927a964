import Verif.Proofs.BumpBorrows
/-! # The actions keep the pointers of `Bump` and `LeakBox` usable -/
set_option autoImplicit false
namespace Verif.BumpBorrows
open Verif Verif.Borrows
open Verif.VecBorrows (Ref Ptr keepRefs endRefs endMutRefs mem_endRefs mem_endMutRefs mem_keepRefs permOf_false)

/-- The allocation without its kind. -/
def Piece.key (p : Piece) : Piece := { p with kind := .gone }

theorem set_key {ps : List Piece} {j : Nat} {p : Piece} (h : ps[j]? = some p) (k : Kind) : (ps.set j { p with kind := k }).map Piece.key = ps.map Piece.key := by
  obtain ⟨hj, e⟩ := List.getElem?_eq_some_iff.1 h
  rw [List.map_set]
  apply List.ext_getElem?
  intro i
  rw [List.getElem?_set]
  split
  · rename_i hi
    subst hi
    rw [if_pos (by rw [List.length_map]; exact hj), List.getElem?_map, h]
    rfl
  · rfl

/-- The reference may be used, and lies in its allocation. -/
structure RefOk (m : Borrows.Mem) (ks : List Piece) (col : Nat → Col) (r : Ref) : Prop where
  lt : r.tag < m.next
  from_ : ∀ i ∈ r.from_, i < r.tag
  owner : ∃ p, ks[r.owner]? = some p ∧ p.lo ≤ r.lo ∧ r.hi ≤ p.hi
  item : ∀ b, r.lo ≤ b → b < r.hi → (⟨r.tag, permOf r.mutable⟩ : Item) ∈ (col b).above

/-- The invariant but for the references. -/
structure InvP (o : Obj) (w : Nat) (m : Borrows.Mem) (lvl : Nat) (shares : List Nat) (ks : List Piece) (col : Nat → Col) : Prop where
  cov : Cov o w m col
  level : lvl ≤ o.env.len
  shares : ∀ t ∈ shares, Blk col t o.lo o.hi
  pieces : ∀ p ∈ ks, o.env.base ≤ p.lo ∧ p.lo ≤ p.hi ∧ p.hi ≤ o.env.base + lvl ∧ Blk col p.tag p.lo p.hi
  apart : ks.Pairwise (fun p q => p.hi ≤ q.lo)

structure Inv (o : Obj) (w : Nat) (s : St) (col : Nat → Col) : Prop where
  p : InvP o w s.mem s.level s.shares (s.pieces.map Piece.key) col
  refs : ∀ r ∈ s.refs, RefOk s.mem (s.pieces.map Piece.key) col r

theorem InvP.upd {o : Obj} {w x y level : Nat} {m m' : Borrows.Mem} {shares : List Nat} {ks : List Piece} {col col' : Nat → Col}
    (h : InvP o w m level shares ks col) (u : Upd o w x y m col m' col') : InvP o w m' level shares ks col' :=
  ⟨u.cov, h.level, fun t ht => (h.shares t ht).upd u, fun p hp => let ⟨a, b, c, d⟩ := h.pieces p hp; ⟨a, b, c, d.upd u⟩, h.apart⟩

theorem RefOk.frame {o : Obj} {w x y : Nat} {m m' : Borrows.Mem} {ks : List Piece} {col col' : Nat → Col} {r : Ref} (h : RefOk m ks col r) (u : Upd o w x y m col m' col')
    (hd : r.hi ≤ x ∨ y ≤ r.lo) : RefOk m' ks col' r :=
  ⟨Nat.lt_of_lt_of_le h.lt u.next, h.from_, h.owner, fun b h1 h2 => by rw [u.out b (by omega)]; exact h.item b h1 h2⟩

/-- Items that matter are kept. -/
theorem RefOk.keep {o : Obj} {w x y : Nat} {m m' : Borrows.Mem} {ks : List Piece} {col col' : Nat → Col} {r : Ref} (h : RefOk m ks col r) (u : Upd o w x y m col m' col')
    (hk : ∀ b, (⟨r.tag, permOf r.mutable⟩ : Item) ∈ (col b).above → (⟨r.tag, permOf r.mutable⟩ : Item) ∈ (col' b).above) : RefOk m' ks col' r :=
  ⟨Nat.lt_of_lt_of_le h.lt u.next, h.from_, h.owner, fun b h1 h2 => hk b (h.item b h1 h2)⟩

theorem InvP.other {o : Obj} {w level : Nat} {m : Borrows.Mem} {shares : List Nat} {ks : List Piece} {col : Nat → Col}
    (h : InvP o w m level shares ks col) {i j : Nat} {p q : Piece} (hp : ks[i]? = some p) (hq : ks[j]? = some q) (hij : i ≠ j) : p.hi ≤ q.lo ∨ q.hi ≤ p.lo := by
  obtain ⟨h1, e1⟩ := List.getElem?_eq_some_iff.1 hp
  obtain ⟨h2, e2⟩ := List.getElem?_eq_some_iff.1 hq
  have := List.pairwise_iff_getElem.1 h.apart
  by_cases hlt : i < j
  · have := this i j h1 h2 hlt; rw [e1, e2] at this; exact Or.inl this
  · have := this j i h2 h1 (by omega); rw [e1, e2] at this; exact Or.inr this

theorem get_key {s : St} {j : Nat} {p : Piece} (h : s.pieces[j]? = some p) : (s.pieces.map Piece.key)[j]? = some p.key := by
  rw [List.getElem?_map, h]; rfl

theorem Inv.piece {o : Obj} {w : Nat} {s : St} {col : Nat → Col} (h : Inv o w s col) (ho : o.Valid) {j : Nat} {p : Piece} (hp : s.pieces[j]? = some p) :
    o.lo ≤ p.lo ∧ p.lo ≤ p.hi ∧ p.hi ≤ o.hi ∧ Blk col p.tag p.lo p.hi := by
  obtain ⟨a, b, c, d⟩ := h.p.pieces p.key (List.mem_of_getElem? (get_key hp))
  have a' : o.env.base ≤ p.lo := a
  have b' : p.lo ≤ p.hi := b
  have c' : p.hi ≤ o.env.base + s.level := c
  have := ho.storage
  have := h.p.level
  exact ⟨by omega, b', by omega, d⟩

/-- References to other allocations. -/
theorem Inv.foreign {o : Obj} {w : Nat} {s : St} {col : Nat → Col} (h : Inv o w s col) {j : Nat} {p : Piece} (hp : s.pieces[j]? = some p) {x y : Nat} (hx : p.lo ≤ x) (hy : y ≤ p.hi)
    {m' : Borrows.Mem} {col' : Nat → Col} (u : Upd o w x y s.mem col m' col') {r : Ref} (hr : r ∈ s.refs) (hne : r.owner ≠ j) : RefOk m' (s.pieces.map Piece.key) col' r := by
  have hk := h.refs r hr
  obtain ⟨q, q1, q2, q3⟩ := hk.owner
  have := h.p.other q1 (get_key hp) hne
  have e1 : p.key.lo = p.lo := rfl
  have e2 : p.key.hi = p.hi := rfl
  exact hk.frame u (by omega)

theorem Inv.own {o : Obj} {w : Nat} {s : St} {col : Nat → Col} (h : Inv o w s col) {j : Nat} {p : Piece} (hp : s.pieces[j]? = some p) (k : Kind) {x y : Nat} (hx : p.lo ≤ x) (hy : y ≤ p.hi)
    {m' : Borrows.Mem} {col' : Nat → Col} (u : Upd o w x y s.mem col m' col') :
    Inv o w { s with mem := m', pieces := s.pieces.set j { p with kind := k }, refs := endRefs j s.refs } col' := by
  refine ⟨?_, ?_⟩
  · simp only [set_key hp]; exact h.p.upd u
  · intro r hr
    simp only [set_key hp]
    obtain ⟨h1, h2⟩ := mem_endRefs.1 hr
    exact h.foreign hp hx hy u h1 h2

theorem Inv.give {o : Obj} {w : Nat} {s : St} {col : Nat → Col} (h : Inv o w s col) {j : Nat} {p : Piece} (hp : s.pieces[j]? = some p) (k : Kind)
    {m' : Borrows.Mem} {col' : Nat → Col} (u : Upd o w p.lo p.hi s.mem col m' col') {t : Nat} (ht : t < m'.next) (hi : ∀ b, p.lo ≤ b → b < p.hi → (⟨t, .unique⟩ : Item) ∈ (col' b).above) :
    Inv o w { s with mem := m', pieces := s.pieces.set j { p with kind := k }, refs := ⟨t, true, p.lo, p.hi, j, []⟩ :: endRefs j s.refs } col' := by
  have h0 := h.own hp k (Nat.le_refl _) (Nat.le_refl _) u
  refine ⟨h0.p, ?_⟩
  intro r hr
  rcases List.mem_cons.1 hr with rfl | hr
  · simp only [set_key hp]
    exact ⟨ht, by simp, ⟨p.key, get_key hp, Nat.le_refl _, Nat.le_refl _⟩, hi⟩
  · exact h0.refs r hr

theorem Inv.deref {o : Obj} {w : Nat} {s : St} {col : Nat → Col} (h : Inv o w s col) (ho : o.Valid) {j : Nat} {p : Piece} (hp : s.pieces[j]? = some p) (mu : Bool) :
    ∃ s' col', (do let (t, m) ← BumpBorrows.deref p mu s.mem
                   pure { s with mem := m, refs := ⟨t, mu, p.lo, p.hi, j, []⟩ :: (if mu then endRefs j s.refs else endMutRefs j s.refs) }) = some s' ∧ Inv o w s' col' := by
  obtain ⟨b1, b2, b3, b4⟩ := h.piece ho hp
  obtain ⟨m', col', e, n, u, k, i⟩ := retagBlk h.p.cov b1 b3 b4 mu
  refine ⟨{ s with mem := m', refs := ⟨s.mem.next, mu, p.lo, p.hi, j, []⟩ :: (if mu then endRefs j s.refs else endMutRefs j s.refs) }, col',
    by unfold BumpBorrows.deref; simp only [e, Option.bind_eq_bind, Option.bind_some, Option.pure_def], h.p.upd u, ?_⟩
  intro r hr
  rcases List.mem_cons.1 hr with rfl | hr
  · exact ⟨by simp only; omega, by simp, ⟨p.key, get_key hp, Nat.le_refl _, Nat.le_refl _⟩, i⟩
  · cases mu with
    | true =>
      obtain ⟨h1, h2⟩ := mem_endRefs.1 hr
      exact h.foreign hp (Nat.le_refl _) (Nat.le_refl _) u h1 h2
    | false =>
      obtain ⟨h1, h2⟩ := mem_endMutRefs.1 hr
      rcases h2 with h2 | h2
      · exact h.foreign hp (Nat.le_refl _) (Nat.le_refl _) u h1 h2
      · exact (h.refs r h1).keep u (fun b hb => k rfl b _ hb (by rw [h2]; exact permOf_false))

theorem Inv.cell {o : Obj} {w : Nat} {s : St} {col : Nat → Col} (h : Inv o w s col) (ho : o.Valid) {m' : Borrows.Mem} {col' : Nat → Col}
    (u : Upd o w o.cell o.cellEnd s.mem col m' col') : Inv o w { s with mem := m' } col' := by
  refine ⟨h.p.upd u, ?_⟩
  intro r hr
  have hk := h.refs r hr
  obtain ⟨q, q1, q2, q3⟩ := hk.owner
  obtain ⟨a, _, c, _⟩ := h.p.pieces q (List.mem_of_getElem? q1)
  have := h.p.level
  exact hk.frame u (by have := ho.apart; omega)

theorem Inv.ref_range {o : Obj} {w : Nat} {s : St} {col : Nat → Col} (h : Inv o w s col) (ho : o.Valid) {r : Ref} (hr : r ∈ s.refs) : o.lo ≤ r.lo ∧ r.hi ≤ o.hi := by
  obtain ⟨q, q1, q2, q3⟩ := (h.refs r hr).owner
  obtain ⟨a, _, c, _⟩ := h.p.pieces q (List.mem_of_getElem? q1)
  have := h.p.level
  have := ho.storage
  omega

theorem RefOk.is {m : Borrows.Mem} {ks : List Piece} {col : Nat → Col} {r : Ref} (h : RefOk m ks col r) {a : Access} (ha : a = .write → r.mutable = true) {x y : Nat} (hx : r.lo ≤ x) (hy : y ≤ r.hi) :
    ∀ b, x ≤ b → b < y → ∃ g ∈ (col b).above, g.is a r.tag = true := by
  intro b h1 h2
  refine ⟨_, h.item b (by omega) (by omega), ?_⟩
  unfold Item.is
  cases a with
  | read => cases r.mutable <;> simp [permOf, Perm.grants]
  | write => rw [ha rfl]; simp [permOf, Perm.grants]

/-- The references kept by a use of one. -/
theorem Inv.kept {o : Obj} {w : Nat} {s : St} {col : Nat → Col} (h : Inv o w s col) {a : Access} {r : Ref} (hr : r ∈ s.refs) {x y : Nat} {m' : Borrows.Mem} {col' : Nat → Col}
    (u : Upd o w x y s.mem col m' col') (hk : ∀ b, ∀ i ∈ (col b).above, (i.tag ≤ r.tag ∨ (a = .read ∧ i.perm ≠ .unique)) → i ∈ (col' b).above)
    {q : Ref} (hq : q ∈ keepRefs a r.tag r.from_ x y s.refs) : RefOk m' (s.pieces.map Piece.key) col' q := by
  obtain ⟨hq1, hq2⟩ := mem_keepRefs.1 hq
  have hq' := h.refs q hq1
  rcases hq2 with e | e | e | ⟨e1, e2⟩
  · exact hq'.keep u (fun b hb => hk b _ hb (Or.inl (by simp only; omega)))
  · exact hq'.keep u (fun b hb => hk b _ hb (Or.inl (by have := (h.refs r hr).from_ _ e; simp only; omega)))
  · by_cases he : y ≤ x
    · exact ⟨Nat.lt_of_lt_of_le hq'.lt u.next, hq'.from_, hq'.owner, fun b h1 h2 => by rw [u.out b (by omega)]; exact hq'.item b h1 h2⟩
    · exact hq'.frame u (by omega)
  · exact hq'.keep u (fun b hb => hk b _ hb (Or.inr ⟨e1, by simp only [e2]; exact permOf_false⟩))

theorem Inv.alloc {o : Obj} (ho : o.Valid) {w : Nat} {s : St} {col : Nat → Col} (h : Inv o w s col) {t : Nat} (ht : t = w ∨ t ∈ s.shares) {l : Layout} (hs : 0 < l.size) (ha : 0 < l.align)
    {at_ : Option Nat} (hat : ∀ n, at_ = some n → n ≤ o.env.len) : ∃ s' col', tryAlloc o s t l at_ = some s' ∧ Inv o w s' col' := by
  have hlv := h.p.level
  obtain ⟨m1, col1, e1, u1, i1⟩ := retagCell_upd h.p.cov (t := t) ho.storage.1 ho.storage.2
    (ht.imp id (fun hh b h1 h2 => h.p.shares t hh b (by have := ho.storage; omega) (by have := ho.storage; omega))) o.cell o.cellEnd
  obtain ⟨m2, col2, e2, u2⟩ := touchCell_upd ho u1.cov (t := t) (ht.imp id (fun hh => (h.p.shares t hh).upd u1)) .write
  have hinv := h.cell ho (u1.trans u2)
  have hnew : ∀ (a : Alloc), o.env.slab.place l s.level = some a →
      Inv o w { s with mem := m2, level := a.level, pieces := s.pieces ++ [⟨a.ptr, a.ptr + l.size, s.mem.next, .raw⟩] } col2 := by
    intro a hp
    rw [Slab.place_eq_some] at hp
    obtain ⟨k1, k2, k3⟩ := hp
    have hal := le_alignUp ha (o.env.slab.base + s.level)
    have hbase : o.env.slab.base = o.env.base := rfl
    have hlen : o.env.slab.len = o.env.len := rfl
    have hmap : (s.pieces ++ [(⟨a.ptr, a.ptr + l.size, s.mem.next, .raw⟩ : Piece)]).map Piece.key = s.pieces.map Piece.key ++ [⟨a.ptr, a.ptr + l.size, s.mem.next, .gone⟩] := by
      rw [List.map_append]; rfl
    refine ⟨⟨hinv.p.cov, by simp only; omega, hinv.p.shares, ?_, ?_⟩, ?_⟩
    · intro p hp
      simp only [hmap] at hp
      simp only
      rcases List.mem_append.1 hp with hp | hp
      · obtain ⟨q1, q2, q3, q4⟩ := hinv.p.pieces p hp
        simp only at q3
        exact ⟨q1, q2, by omega, q4⟩
      · cases List.mem_singleton.1 hp
        refine ⟨by simp only; omega, by simp only; omega, by simp only; omega, fun b h1 h2 => ?_⟩
        simp only at h1 h2
        exact u2.blk b _ (i1 b (by omega) (by omega))
    · simp only [hmap]
      refine List.pairwise_append.2 ⟨hinv.p.apart, List.pairwise_singleton _ _, ?_⟩
      intro p hp q hq
      cases List.mem_singleton.1 hq
      obtain ⟨q1, q2, q3, q4⟩ := hinv.p.pieces p hp
      simp only at q3
      simp only
      omega
    · intro r hr
      have hk := hinv.refs r hr
      obtain ⟨q, q1, q2, q3⟩ := hk.owner
      simp only [hmap]
      refine ⟨hk.lt, hk.from_, ⟨q, ?_, q2, q3⟩, hk.item⟩
      rw [List.getElem?_append_left (List.getElem?_eq_some_iff.1 q1).1]
      exact q1
  unfold tryAlloc
  simp only [e1, e2, Option.bind_eq_bind, Option.bind_some]
  cases at_ with
  | none =>
    simp only [Bump.tryAllocSeq_spec ho.env hlv hs ha]
    cases hp : o.env.slab.place l s.level with
    | none => exact ⟨_, col2, rfl, hinv⟩
    | some a => exact ⟨_, col2, rfl, hnew a hp⟩
  | some n =>
    simp only [Bump.tryAllocAtSeq_spec ho.env hs ha (hat n rfl)]
    cases hp : o.env.slab.place l n with
    | none => exact ⟨_, col2, rfl, hinv⟩
    | some a =>
      by_cases hc : s.level = n
      · simp only [if_pos hc]; exact ⟨_, col2, rfl, hnew a (hc ▸ hp)⟩
      · simp only [if_neg hc]; exact ⟨_, col2, rfl, hinv⟩

theorem Inv.reset {o : Obj} (ho : o.Valid) {w : Nat} {s : St} {col : Nat → Col} (h : Inv o w s col) : ∃ s' col', BumpBorrows.reset o w s = some s' ∧ Inv o w s' col' := by
  obtain ⟨m1, col1, e1, n1, c1, _, _⟩ := access_col h.p.cov (a := .write) (t := w) (Nat.le_refl _) (Nat.le_refl _) (fun _ _ _ => True)
    (fun b h1 h2 => by
      obtain ⟨B, e, k⟩ := (h.p.cov.ok b h1 h2).accessBase
      exact ⟨[], B, e, k, trivial⟩)
  obtain ⟨col2, u2, _, i2⟩ := push_col c1 o.lo o.hi (p := .unique) (by decide)
  obtain ⟨m3, col3, e3, _, u3, _⟩ := accessRef u2.cov (t := m1.next) (a := .write) ho.cell.1 ho.cell.2
    (fun b h1 h2 => ⟨_, i2 b (by have := ho.cell; omega) (by have := ho.cell; omega), by unfold Item.is; simp [Perm.grants]⟩)
  refine ⟨⟨m3, 0, [], [], []⟩, col3, ?_, ⟨u3.cov, Nat.zero_le _, by simp, by simp, by simp⟩, by simp⟩
  have e2 : s.mem.retag true w o.lo o.hi = some (m1.next, ⟨fun b => if o.lo ≤ b ∧ b < o.hi then ⟨m1.next, .unique⟩ :: m1.stack b else m1.stack b, m1.next + 1⟩) := by
    unfold Mem.retag
    change (s.mem.access .write w o.lo o.hi).bind _ = _
    rw [e1]
    rfl
  unfold BumpBorrows.reset
  simp only [e2, e3, Option.bind_eq_bind, Option.bind_some, Option.pure_def]

theorem Inv.step {o : Obj} (ho : o.Valid) {w : Nat} {s : St} {col : Nat → Col} (h : Inv o w s col) {a : Act} (hp : Permitted o w s a) :
    ∃ s' col', step o w s a = some s' ∧ Inv o w s' col' := by
  have giv : ∀ (j : Nat) (p : Piece), s.pieces[j]? = some p → ∀ (r : Option (Nat × Borrows.Mem)),
      (∃ m' col', r = some (m'.next - 1, m') ∧ 0 < m'.next ∧ Upd o w p.lo p.hi s.mem col m' col' ∧ ∀ b, p.lo ≤ b → b < p.hi → (⟨m'.next - 1, .unique⟩ : Item) ∈ (col' b).above) →
      ∃ s' col', s.give j p .gone r = some s' ∧ Inv o w s' col' := by
    intro j p hj r ⟨m', col', e, n, u, i⟩
    refine ⟨_, col', ?_, h.give hj .gone u (t := m'.next - 1) (by omega) i⟩
    unfold St.give
    rw [e]; rfl
  have own : ∀ (j : Nat) (p : Piece), s.pieces[j]? = some p → ∀ (k : Kind) (r : Option Borrows.Mem) (x y : Nat), p.lo ≤ x → y ≤ p.hi →
      (∃ m' col', r = some m' ∧ Upd o w x y s.mem col m' col') → ∃ s' col', s.own j p k r = some s' ∧ Inv o w s' col' := by
    intro j p hj k r x y hx hy ⟨m', col', e, u⟩
    refine ⟨_, col', ?_, h.own hj k hx hy u⟩
    unfold St.own
    rw [e]; rfl
  have uniq : ∀ (j : Nat) (p : Piece), s.pieces[j]? = some p → ∃ m' col', s.mem.retag true p.tag p.lo p.hi = some (m'.next - 1, m') ∧ 0 < m'.next ∧ Upd o w p.lo p.hi s.mem col m' col' ∧
      ∀ b, p.lo ≤ b → b < p.hi → (⟨m'.next - 1, .unique⟩ : Item) ∈ (col' b).above := by
    intro j p hj
    obtain ⟨b1, b2, b3, b4⟩ := h.piece ho hj
    obtain ⟨m', col', e, n, u, _, i⟩ := retagBlk h.p.cov b1 b3 b4 true
    have hn : m'.next - 1 = s.mem.next := by omega
    exact ⟨m', col', by rw [hn]; exact e, by omega, u, by rw [hn]; exact i⟩
  have acc : ∀ (j : Nat) (p : Piece), s.pieces[j]? = some p → ∀ (a : Access) (x y : Nat), p.lo ≤ x → y ≤ p.hi → ∃ m' col', s.mem.access a p.tag x y = some m' ∧ Upd o w x y s.mem col m' col' := by
    intro j p hj a x y hx hy
    obtain ⟨b1, b2, b3, b4⟩ := h.piece ho hj
    obtain ⟨m', col', e, n, u, _⟩ := accessBlk h.p.cov (x := x) (y := y) (by omega) (by omega) (fun b h1 h2 => b4 b (by omega) (by omega)) a
    exact ⟨m', col', e, u⟩
  cases a with
  | share t =>
    have ht : t = w ∨ Blk col t o.lo o.hi := hp.imp id (h.p.shares t)
    obtain ⟨m', col', e, n, c, ab, bl, i⟩ := retagCell h.p.cov (Nat.le_refl _) (Nat.le_refl _) ht
    have u : Upd o w 0 0 s.mem col m' col' := ⟨c, by omega, fun b _ => ab b, bl⟩
    refine ⟨{ s with mem := m', shares := s.mem.next :: s.shares }, col', ?_, ⟨u.cov, h.p.level, ?_, (h.p.upd u).pieces, h.p.apart⟩, ?_⟩
    · simp only [BumpBorrows.step, e, Option.bind_eq_bind, Option.bind_some, Option.pure_def]
    · intro x hx
      rcases List.mem_cons.1 hx with rfl | hx
      · exact i
      · exact (h.p.upd u).shares x hx
    · exact fun r hr => (h.refs r hr).frame u (by omega)
  | level t =>
    obtain ⟨m', col', e, u⟩ := touchCell_upd ho h.p.cov (t := t) (hp.imp id (h.p.shares t)) .read
    refine ⟨{ s with mem := m' }, col', ?_, h.cell ho u⟩
    simp only [BumpBorrows.step, e, Option.bind_eq_bind, Option.bind_some, Option.pure_def]
  | alloc t l at_ => exact h.alloc ho hp.1 hp.2.1 hp.2.2.1 hp.2.2.2
  | reset => exact h.reset ho
  | leak j =>
    obtain ⟨p, hj, _⟩ := hp
    simp only [BumpBorrows.step, hj]
    refine giv j p hj _ ?_
    obtain ⟨b1, b2, b3, b4⟩ := h.piece ho hj
    obtain ⟨m1, col1, e1, u1⟩ := acc j p hj .write p.lo p.hi (Nat.le_refl _) (Nat.le_refl _)
    obtain ⟨m', col', e, n, u, _, i⟩ := retagBlk u1.cov b1 b3 (b4.upd u1) true
    have hn : m'.next - 1 = m1.next := by omega
    refine ⟨m', col', ?_, by omega, u1.trans u, by rw [hn]; exact i⟩
    unfold leak
    rw [hn]
    simp only [e1, e, Option.bind_eq_bind, Option.bind_some]
  | boxed j =>
    obtain ⟨p, hj, _⟩ := hp
    simp only [BumpBorrows.step, hj]
    exact own j p hj _ _ p.lo p.hi (Nat.le_refl _) (Nat.le_refl _) (acc j p hj .write _ _ (Nat.le_refl _) (Nat.le_refl _))
  | uninit j =>
    obtain ⟨p, hj, _⟩ := hp
    simp only [BumpBorrows.step, hj]
    exact giv j p hj _ (uniq j p hj)
  | useRaw j a lo hi =>
    obtain ⟨⟨p, hj, _⟩, hb⟩ := hp
    obtain ⟨h1, h2⟩ := hb p hj
    simp only [BumpBorrows.step, hj]
    exact own j p hj _ _ lo hi h1 h2 (acc j p hj a _ _ h1 h2)
  | deref j mu =>
    obtain ⟨p, hj, _⟩ := hp
    simp only [BumpBorrows.step, hj]
    exact h.deref ho hj mu
  | boxLeak j =>
    obtain ⟨p, hj, _⟩ := hp
    simp only [BumpBorrows.step, hj]
    exact giv j p hj _ (uniq j p hj)
  | intoRaw j | fromRaw j =>
    obtain ⟨p, hj, _⟩ := hp
    simp only [BumpBorrows.step, hj]
    exact own j p hj _ _ p.lo p.hi (Nat.le_refl _) (Nat.le_refl _) ⟨s.mem, col, rfl, Upd.refl h.p.cov⟩
  | take j =>
    obtain ⟨p, hj, _⟩ := hp
    simp only [BumpBorrows.step, hj]
    exact own j p hj _ _ p.lo p.hi (Nat.le_refl _) (Nat.le_refl _) (acc j p hj .read _ _ (Nat.le_refl _) (Nat.le_refl _))
  | dropBox j =>
    obtain ⟨p, hj, _⟩ := hp
    obtain ⟨b1, b2, b3, b4⟩ := h.piece ho hj
    simp only [BumpBorrows.step, hj]
    exact own j p hj _ _ p.lo p.hi (Nat.le_refl _) (Nat.le_refl _) (dropElem_upd h.p.cov b1 b3 b2 b4)
  | use r a lo hi =>
    obtain ⟨hr, hm, h1, h2⟩ := hp
    have hb := h.ref_range ho hr
    obtain ⟨m', col', e, n, u, k⟩ := accessRef h.p.cov (x := lo) (y := hi) (by omega) (by omega) ((h.refs r hr).is hm h1 h2)
    refine ⟨{ s with mem := m', refs := keepRefs a r.tag r.from_ lo hi s.refs }, col', ?_, h.p.upd u, fun q hq => h.kept hr u k hq⟩
    simp only [BumpBorrows.step, e, Option.bind_eq_bind, Option.bind_some, Option.pure_def]
  | reborrow r mu lo hi =>
    obtain ⟨hr, hm, h1, h2, h3⟩ := hp
    have hb := h.ref_range ho hr
    have hk := h.refs r hr
    have hm' : accessOf mu = .write → r.mutable = true := fun e => hm (by cases mu with | true => rfl | false => cases e)
    obtain ⟨m', col', e, n, u, k, i⟩ := retagRef h.p.cov (x := lo) (y := hi) (by omega) (by omega) (hk.is hm' h1 h3)
    refine ⟨{ s with mem := m', refs := ⟨s.mem.next, mu, lo, hi, r.owner, r.tag :: r.from_⟩ :: keepRefs (accessOf mu) r.tag r.from_ lo hi s.refs }, col', ?_, h.p.upd u, ?_⟩
    · simp only [BumpBorrows.step, e, Option.bind_eq_bind, Option.bind_some, Option.pure_def]
      rfl
    · intro q hq
      rcases List.mem_cons.1 hq with rfl | hq
      · refine ⟨by simp only; omega, ?_, ?_, i⟩
        · intro x hx
          have := hk.lt
          rcases List.mem_cons.1 hx with rfl | hx
          · exact this
          · exact Nat.lt_trans (hk.from_ x hx) this
        · obtain ⟨p, p1, p2, p3⟩ := hk.owner
          exact ⟨p, p1, by simp only; omega, by simp only; omega⟩
      · exact h.kept hr u k hq

theorem Start.inv {o : Obj} {w : Nat} {s : St} (h : Start o w s) : ∃ col, Inv o w s col := by
  refine ⟨fun b => ⟨[], [], s.mem.stack b⟩, ⟨⟨?_, ?_⟩, h.level, by rw [h.shares]; simp, by rw [h.pieces]; simp, by rw [h.pieces]; simp⟩, by rw [h.refs]; simp⟩
  · exact fun b _ _ => rfl
  · intro b h1 h2
    obtain ⟨p, rest, e, hp, hn, hf⟩ := h.stack b h1 h2
    exact ⟨⟨p, rest, e, hp⟩, by simp, by simp, List.Pairwise.nil, hn, hf⟩

theorem Reach.inv {o : Obj} (ho : o.Valid) {w : Nat} {s₀ s : St} (hr : Reach o w s₀ s) (h : ∃ col, Inv o w s₀ col) : ∃ col, Inv o w s col := by
  induction hr with
  | refl => exact h
  | step _ hp hs ih =>
    obtain ⟨col, hi⟩ := ih
    obtain ⟨s', col', e, hi'⟩ := hi.step ho hp
    rw [hs] at e
    cases e
    exact ⟨col', hi'⟩

end Verif.BumpBorrows
