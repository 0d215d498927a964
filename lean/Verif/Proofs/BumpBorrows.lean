import Verif.Spec.BumpBorrows
import Verif.Proofs.BorrowsCol
import Verif.Proofs.VecBorrowsStep
import Verif.Proofs.BumpGlobal
/-! # Proofs about the pointers of `Bump` and `LeakBox` -/
set_option autoImplicit false
namespace Verif.BumpBorrows
open Verif Verif.Borrows
open Verif.VecBorrows (Ref Ptr dropElem keepRefs endRefs endMutRefs readElem writeElem)

/-- The stacks of the object. -/
structure Cov (o : Obj) (w : Nat) (m : Borrows.Mem) (col : Nat → Col) : Prop where
  stack : ∀ b, o.lo ≤ b → b < o.hi → m.stack b = (col b).st
  ok : ∀ b, o.lo ≤ b → b < o.hi → (col b).Ok w m.next

/-- What changes when these bytes are used. -/
structure Upd (o : Obj) (w x y : Nat) (m : Borrows.Mem) (col : Nat → Col) (m' : Borrows.Mem) (col' : Nat → Col) : Prop where
  cov : Cov o w m' col'
  next : m.next ≤ m'.next
  out : ∀ b, (b < x ∨ y ≤ b) → (col' b).above = (col b).above
  blk : ∀ b, ∀ i ∈ (col b).blk, i ∈ (col' b).blk

theorem Upd.trans {o : Obj} {w x y : Nat} {m m' m'' : Borrows.Mem} {col col' col'' : Nat → Col} (h : Upd o w x y m col m' col') (h' : Upd o w x y m' col' m'' col'') :
    Upd o w x y m col m'' col'' :=
  ⟨h'.cov, Nat.le_trans h.next h'.next, fun b hb => (h'.out b hb).trans (h.out b hb), fun b i hi => h'.blk b i (h.blk b i hi)⟩

theorem Upd.refl {o : Obj} {w x y : Nat} {m : Borrows.Mem} {col : Nat → Col} (h : Cov o w m col) : Upd o w x y m col m col :=
  ⟨h, Nat.le_refl _, fun _ _ => rfl, fun _ _ hi => hi⟩

theorem Upd.mono {o : Obj} {w x y x' y' : Nat} {m m' : Borrows.Mem} {col col' : Nat → Col} (h : Upd o w x y m col m' col') (hx : x' ≤ x) (hy : y ≤ y') : Upd o w x' y' m col m' col' :=
  ⟨h.cov, h.next, fun b hb => h.out b (by omega), h.blk⟩

/-- The tag of a shared-mutable pointer to all of these bytes. -/
def Blk (col : Nat → Col) (t x y : Nat) : Prop := ∀ b, x ≤ b → b < y → (⟨t, .sharedRW⟩ : Item) ∈ (col b).blk

theorem Blk.upd {o : Obj} {w x y t lo hi : Nat} {m m' : Borrows.Mem} {col col' : Nat → Col} (h : Blk col t lo hi) (u : Upd o w x y m col m' col') : Blk col' t lo hi :=
  fun b h1 h2 => u.blk b _ (h b h1 h2)

/-- Access, byte by byte. -/
theorem access_col {o : Obj} {w : Nat} {m : Borrows.Mem} {col : Nat → Col} (hc : Cov o w m col) {a : Access} {t x y : Nat} (hx : o.lo ≤ x) (hy : y ≤ o.hi)
    (P : Nat → List Item → List Item → Prop)
    (h : ∀ b, x ≤ b → b < y → ∃ A B, accessByte a t (col b).st = some (⟨A, B, (col b).base⟩ : Col).st ∧ (⟨A, B, (col b).base⟩ : Col).Ok w m.next ∧ P b A B) :
    ∃ m' col', m.access a t x y = some m' ∧ m'.next = m.next ∧ Cov o w m' col' ∧ (∀ b, (b < x ∨ y ≤ b) → col' b = col b) ∧
      ∀ b, x ≤ b → b < y → P b (col' b).above (col' b).blk := by
  have h' : ∀ b, ∃ c : Col, (x ≤ b ∧ b < y → accessByte a t (col b).st = some c.st ∧ c.Ok w m.next ∧ P b c.above c.blk) ∧ (¬(x ≤ b ∧ b < y) → c = col b) := by
    intro b
    by_cases hb : x ≤ b ∧ b < y
    · obtain ⟨A, B, e⟩ := h b hb.1 hb.2
      exact ⟨⟨A, B, (col b).base⟩, fun _ => e, fun hn => absurd hb hn⟩
    · exact ⟨col b, fun hh => absurd hh hb, fun _ => rfl⟩
  obtain ⟨col', hcol⟩ := Classical.axiomOfChoice h'
  refine ⟨⟨fun b => if x ≤ b ∧ b < y then (accessByte a t (m.stack b)).getD [] else m.stack b, m.next⟩, col', ?_, rfl, ⟨?_, ?_⟩, ?_, ?_⟩
  · unfold Mem.access
    apply if_pos
    rw [List.all_eq_true]
    intro b hb
    rw [List.mem_range'_1] at hb
    have h1 : x ≤ b ∧ b < y := ⟨hb.1, by omega⟩
    rw [hc.stack b (by omega) (by omega), ((hcol b).1 h1).1]; rfl
  · intro b h1 h2
    simp only
    by_cases hb : x ≤ b ∧ b < y
    · rw [if_pos hb, hc.stack b h1 h2, ((hcol b).1 hb).1]; rfl
    · rw [if_neg hb, (hcol b).2 hb]; exact hc.stack b h1 h2
  · intro b h1 h2
    by_cases hb : x ≤ b ∧ b < y
    · exact ((hcol b).1 hb).2.1
    · rw [(hcol b).2 hb]; exact hc.ok b h1 h2
  · exact fun b hb => (hcol b).2 (by omega)
  · exact fun b h1 h2 => ((hcol b).1 ⟨h1, h2⟩).2.2

theorem accessBlk {o : Obj} {w : Nat} {m : Borrows.Mem} {col : Nat → Col} (hc : Cov o w m col) {t x y : Nat} (hx : o.lo ≤ x) (hy : y ≤ o.hi) (ht : Blk col t x y) (a : Access) :
    ∃ m' col', m.access a t x y = some m' ∧ m'.next = m.next ∧ Upd o w x y m col m' col' ∧
      (a = .read → ∀ b, ∀ i ∈ (col b).above, i.perm ≠ .unique → i ∈ (col' b).above) := by
  obtain ⟨m', col', e, n, c, out, p⟩ := access_col hc (a := a) (t := t) hx hy (fun b A B => B = (col b).blk ∧ (a = .read → ∀ i ∈ (col b).above, i.perm ≠ .unique → i ∈ A))
    (fun b h1 h2 => by
      obtain ⟨A, e, k, q⟩ := (hc.ok b (by omega) (by omega)).accessBlk (a := a) (ht b h1 h2)
      exact ⟨A, _, e, k, rfl, q⟩)
  refine ⟨m', col', e, n, ⟨c, by omega, fun b hb => by rw [out b hb], fun b i hi => ?_⟩, fun ha b i hi hp => ?_⟩
  · by_cases hb : x ≤ b ∧ b < y
    · rw [(p b hb.1 hb.2).1]; exact hi
    · rw [out b (by omega)]; exact hi
  · by_cases hb : x ≤ b ∧ b < y
    · exact (p b hb.1 hb.2).2 ha i hi hp
    · rw [out b (by omega)]; exact hi

theorem accessRef {o : Obj} {w : Nat} {m : Borrows.Mem} {col : Nat → Col} (hc : Cov o w m col) {t x y : Nat} (hx : o.lo ≤ x) (hy : y ≤ o.hi) {a : Access}
    (ht : ∀ b, x ≤ b → b < y → ∃ g ∈ (col b).above, g.is a t = true) :
    ∃ m' col', m.access a t x y = some m' ∧ m'.next = m.next ∧ Upd o w x y m col m' col' ∧
      (∀ b, ∀ i ∈ (col b).above, (i.tag ≤ t ∨ (a = .read ∧ i.perm ≠ .unique)) → i ∈ (col' b).above) := by
  obtain ⟨m', col', e, n, c, out, p⟩ := access_col hc (a := a) (t := t) hx hy
    (fun b A B => B = (col b).blk ∧ ∀ i ∈ (col b).above, (i.tag ≤ t ∨ (a = .read ∧ i.perm ≠ .unique)) → i ∈ A)
    (fun b h1 h2 => by
      obtain ⟨g, hg, hi⟩ := ht b h1 h2
      obtain ⟨A, e, k, q⟩ := (hc.ok b (by omega) (by omega)).accessRef (a := a) hg hi
      exact ⟨A, _, e, k, rfl, q⟩)
  refine ⟨m', col', e, n, ⟨c, by omega, fun b hb => by rw [out b hb], fun b i hi => ?_⟩, fun b i hi hp => ?_⟩
  · by_cases hb : x ≤ b ∧ b < y
    · rw [(p b hb.1 hb.2).1]; exact hi
    · rw [out b (by omega)]; exact hi
  · by_cases hb : x ≤ b ∧ b < y
    · exact (p b hb.1 hb.2).2 i hi hp
    · rw [out b (by omega)]; exact hi

/-- The second half of a retag. -/
theorem push_col {o : Obj} {w : Nat} {m : Borrows.Mem} {col : Nat → Col} (hc : Cov o w m col) (x y : Nat) {p : Perm} (hp : p ≠ .sharedRW) :
    ∃ col', Upd o w x y m col ⟨fun b => if x ≤ b ∧ b < y then ⟨m.next, p⟩ :: m.stack b else m.stack b, m.next + 1⟩ col' ∧
      (∀ b, ∀ i ∈ (col b).above, i ∈ (col' b).above) ∧ ∀ b, x ≤ b → b < y → (⟨m.next, p⟩ : Item) ∈ (col' b).above := by
  refine ⟨fun b => if x ≤ b ∧ b < y then ⟨⟨m.next, p⟩ :: (col b).above, (col b).blk, (col b).base⟩ else col b, ⟨⟨?_, ?_⟩, Nat.le_succ _, ?_, ?_⟩, ?_, ?_⟩
  · intro b h1 h2
    simp only
    by_cases hb : x ≤ b ∧ b < y
    · rw [if_pos hb, if_pos hb, hc.stack b h1 h2]; rfl
    · rw [if_neg hb, if_neg hb]; exact hc.stack b h1 h2
  · intro b h1 h2
    simp only
    by_cases hb : x ≤ b ∧ b < y
    · rw [if_pos hb]; exact (hc.ok b h1 h2).push hp
    · rw [if_neg hb]; exact (hc.ok b h1 h2).mono (Nat.le_succ _)
  · intro b hb
    rw [if_neg (by omega)]
  · intro b i hi
    by_cases hb : x ≤ b ∧ b < y
    · rw [if_pos hb]; exact hi
    · rw [if_neg hb]; exact hi
  · intro b i hi
    simp only
    by_cases hb : x ≤ b ∧ b < y
    · rw [if_pos hb]; exact List.mem_cons_of_mem _ hi
    · rw [if_neg hb]; exact hi
  · intro b h1 h2
    simp only
    rw [if_pos ⟨h1, h2⟩]; exact List.mem_cons_self ..

theorem permOf_ne (mu : Bool) : permOf mu ≠ .sharedRW := by cases mu <;> (intro e; cases e)

theorem retagBlk {o : Obj} {w : Nat} {m : Borrows.Mem} {col : Nat → Col} (hc : Cov o w m col) {t x y : Nat} (hx : o.lo ≤ x) (hy : y ≤ o.hi) (ht : Blk col t x y) (mu : Bool) :
    ∃ m' col', m.retag mu t x y = some (m.next, m') ∧ m'.next = m.next + 1 ∧ Upd o w x y m col m' col' ∧
      (mu = false → ∀ b, ∀ i ∈ (col b).above, i.perm ≠ .unique → i ∈ (col' b).above) ∧ ∀ b, x ≤ b → b < y → (⟨m.next, permOf mu⟩ : Item) ∈ (col' b).above := by
  obtain ⟨m1, col1, e1, n1, u1, k1⟩ := accessBlk hc hx hy ht (accessOf mu)
  obtain ⟨col2, u2, k2, i2⟩ := push_col u1.cov x y (permOf_ne mu)
  refine ⟨_, col2, ?_, congrArg (· + 1) n1, u1.trans u2, ?_, ?_⟩
  · unfold Mem.retag
    change (m.access (accessOf mu) t x y).bind _ = _
    rw [e1, ← n1]
    rfl
  · intro hm b i hi hp
    exact k2 b i (k1 (by rw [hm]; rfl) b i hi hp)
  · rw [← n1]; exact i2

theorem retagRef {o : Obj} {w : Nat} {m : Borrows.Mem} {col : Nat → Col} (hc : Cov o w m col) {t x y : Nat} (hx : o.lo ≤ x) (hy : y ≤ o.hi) {mu : Bool}
    (ht : ∀ b, x ≤ b → b < y → ∃ g ∈ (col b).above, g.is (accessOf mu) t = true) :
    ∃ m' col', m.retag mu t x y = some (m.next, m') ∧ m'.next = m.next + 1 ∧ Upd o w x y m col m' col' ∧
      (∀ b, ∀ i ∈ (col b).above, (i.tag ≤ t ∨ (accessOf mu = .read ∧ i.perm ≠ .unique)) → i ∈ (col' b).above) ∧ ∀ b, x ≤ b → b < y → (⟨m.next, permOf mu⟩ : Item) ∈ (col' b).above := by
  obtain ⟨m1, col1, e1, n1, u1, k1⟩ := accessRef hc hx hy ht
  obtain ⟨col2, u2, k2, i2⟩ := push_col u1.cov x y (permOf_ne mu)
  refine ⟨_, col2, ?_, congrArg (· + 1) n1, u1.trans u2, ?_, ?_⟩
  · unfold Mem.retag
    change (m.access (accessOf mu) t x y).bind _ = _
    rw [e1, ← n1]
    rfl
  · intro b i hi hp
    exact k2 b i (k1 b i hi hp)
  · rw [← n1]; exact i2

theorem retagCell {o : Obj} {w : Nat} {m : Borrows.Mem} {col : Nat → Col} (hc : Cov o w m col) {t x y : Nat} (hx : o.lo ≤ x) (hy : y ≤ o.hi) (ht : t = w ∨ Blk col t x y) :
    ∃ m' col', m.retagCell t x y = some (m.next, m') ∧ m'.next = m.next + 1 ∧ Cov o w m' col' ∧ (∀ b, (col' b).above = (col b).above) ∧
      (∀ b, ∀ i ∈ (col b).blk, i ∈ (col' b).blk) ∧ Blk col' m.next x y := by
  have h' : ∀ b, ∃ B : List Item, (x ≤ b ∧ b < y → insertByte m.next t (col b).st = some (⟨(col b).above, B, (col b).base⟩ : Col).st ∧
      (⟨(col b).above, B, (col b).base⟩ : Col).Ok w (m.next + 1) ∧ (∀ i ∈ (col b).blk, i ∈ B) ∧ (⟨m.next, .sharedRW⟩ : Item) ∈ B) ∧ (¬(x ≤ b ∧ b < y) → B = (col b).blk) := by
    intro b
    by_cases hb : x ≤ b ∧ b < y
    · obtain ⟨B, e⟩ := (hc.ok b (by omega) (by omega)).insert (t := t) (ht.imp id (fun h => h b hb.1 hb.2))
      exact ⟨B, fun _ => e, fun hn => absurd hb hn⟩
    · exact ⟨(col b).blk, fun hh => absurd hh hb, fun _ => rfl⟩
  obtain ⟨B, hB⟩ := Classical.axiomOfChoice h'
  refine ⟨⟨fun b => if x ≤ b ∧ b < y then (insertByte m.next t (m.stack b)).getD [] else m.stack b, m.next + 1⟩, fun b => ⟨(col b).above, B b, (col b).base⟩, ?_, rfl, ⟨?_, ?_⟩, ?_, ?_, ?_⟩
  · unfold Mem.retagCell
    apply if_pos
    rw [List.all_eq_true]
    intro b hb
    rw [List.mem_range'_1] at hb
    have h1 : x ≤ b ∧ b < y := ⟨hb.1, by omega⟩
    rw [hc.stack b (by omega) (by omega), ((hB b).1 h1).1]; rfl
  · intro b h1 h2
    simp only
    by_cases hb : x ≤ b ∧ b < y
    · rw [if_pos hb, hc.stack b h1 h2, ((hB b).1 hb).1]; rfl
    · rw [if_neg hb, (hB b).2 hb]; exact hc.stack b h1 h2
  · intro b h1 h2
    by_cases hb : x ≤ b ∧ b < y
    · exact ((hB b).1 hb).2.1
    · rw [(hB b).2 hb]; exact (hc.ok b h1 h2).mono (Nat.le_succ _)
  · exact fun _ => rfl
  · intro b i hi
    by_cases hb : x ≤ b ∧ b < y
    · exact ((hB b).1 hb).2.2.1 i hi
    · simp only [(hB b).2 hb]; exact hi
  · exact fun b h1 h2 => ((hB b).1 ⟨h1, h2⟩).2.2.2

theorem retagCell_upd {o : Obj} {w : Nat} {m : Borrows.Mem} {col : Nat → Col} (hc : Cov o w m col) {t x y : Nat} (hx : o.lo ≤ x) (hy : y ≤ o.hi) (ht : t = w ∨ Blk col t x y) (x' y' : Nat) :
    ∃ m' col', m.retagCell t x y = some (m.next, m') ∧ Upd o w x' y' m col m' col' ∧ Blk col' m.next x y := by
  obtain ⟨m', col', e, n, c, ab, bl, i⟩ := retagCell hc hx hy ht
  exact ⟨m', col', e, ⟨c, by omega, fun b _ => ab b, bl⟩, i⟩

theorem touchCell_upd {o : Obj} (ho : o.Valid) {w : Nat} {m : Borrows.Mem} {col : Nat → Col} (hc : Cov o w m col) {t : Nat} (ht : t = w ∨ Blk col t o.lo o.hi) (a : Access) :
    ∃ m' col', touchCell o t a m = some m' ∧ Upd o w o.cell o.cellEnd m col m' col' := by
  obtain ⟨m1, col1, e1, u1, i1⟩ := retagCell_upd hc (t := t) ho.cell.1 ho.cell.2 (ht.imp id (fun h b h1 h2 => h b (by have := ho.cell; omega) (by have := ho.cell; omega))) o.cell o.cellEnd
  obtain ⟨m2, col2, e2, _, u2, _⟩ := accessBlk u1.cov ho.cell.1 ho.cell.2 i1 a
  refine ⟨m2, col2, ?_, u1.trans u2⟩
  unfold touchCell
  simp only [e1, e2, Option.bind_eq_bind, Option.bind_some]

theorem dropElem_upd {o : Obj} {w : Nat} {m : Borrows.Mem} {col : Nat → Col} (hc : Cov o w m col) {p : Piece} (hx : o.lo ≤ p.lo) (hy : p.hi ≤ o.hi) (hlt : p.lo ≤ p.hi) (ht : Blk col p.tag p.lo p.hi) :
    ∃ m' col', dropBox p m = some m' ∧ Upd o w p.lo p.hi m col m' col' := by
  obtain ⟨m1, col1, e1, _, u1, _, i1⟩ := retagBlk hc hx hy ht true
  have is1 : ∀ b, p.lo ≤ b → b < p.hi → ∃ g ∈ (col1 b).above, g.is .read m.next = true := fun b h1 h2 => ⟨_, i1 b h1 h2, by unfold Item.is; simp [permOf, Perm.grants]⟩
  obtain ⟨m2, col2, e2, _, u2, k2⟩ := accessRef u1.cov hx hy is1
  have is2 : ∀ b, p.lo ≤ b → b < p.hi → ∃ g ∈ (col2 b).above, g.is .write m.next = true :=
    fun b h1 h2 => ⟨_, k2 b _ (i1 b h1 h2) (Or.inl (Nat.le_refl _)), by unfold Item.is; simp [permOf, Perm.grants]⟩
  obtain ⟨m3, col3, e3, _, u3, _⟩ := accessRef u2.cov hx hy is2
  refine ⟨m3, col3, ?_, (u1.trans u2).trans u3⟩
  have hs : p.lo + (p.hi - p.lo) = p.hi := by omega
  unfold dropBox dropElem readElem writeElem
  simp only [hs, e1, e2, e3, Option.bind_eq_bind, Option.bind_some]

end Verif.BumpBorrows
