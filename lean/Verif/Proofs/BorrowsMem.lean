import Verif.Proofs.BorrowsCol
/-! # Memory whose stacks are of this form -/
set_option autoImplicit false
namespace Verif.Borrows

/-- Read by the owner. -/
theorem Col.Ok.readBase {w n : Nat} {c : Col} (h : c.Ok w n) :
    ∃ A, accessByte .read w c.st = some (⟨A, c.blk, c.base⟩ : Col).st ∧ (⟨A, c.blk, c.base⟩ : Col).Ok w n ∧ ∀ i ∈ c.above, i.perm ≠ .unique → i ∈ A := by
  obtain ⟨p, rest, e, hp⟩ := h.base
  have hst : c.st = (c.above ++ c.blk) ++ ⟨w, p⟩ :: rest := by
    unfold Col.st; rw [e]; simp
  obtain ⟨s1, s2⟩ := split_nodup (a := .read) (t := w) (hst ▸ h.nodup) (by unfold Item.is; cases p <;> simp_all [Perm.grants])
  refine ⟨c.above.map Item.disable, ?_, h.shrink ?_ (disable_noRW h.noRW) (List.Sublist.refl _), ?_⟩
  · unfold accessByte
    rw [hst]
    simp only [s1, s2]
    unfold Col.st
    simp only [e, List.map_append, map_disable_blk h.blk, List.append_assoc]
  · rw [map_disable_tags]; exact List.Sublist.refl _
  · intro i hi hp
    exact List.mem_map.2 ⟨i, hi, Item.disable_of i hp⟩

/-- The stacks of the bytes in `W`, which gives the tags of their owners. -/
def Cov (W : Nat → Option Nat) (m : Mem) (col : Nat → Col) : Prop := ∀ b w, W b = some w → m.stack b = (col b).st ∧ (col b).Ok w m.next

/-- What changes when bytes from `x` below `y` are used: references to others stay, and those `P`. -/
structure Chg (W : Nat → Option Nat) (x y : Nat) (P : Nat → Item → Prop) (m : Mem) (col : Nat → Col) (m' : Mem) (col' : Nat → Col) : Prop where
  cov : Cov W m' col'
  next : m.next ≤ m'.next
  out : ∀ b, (b < x ∨ y ≤ b) → (col' b).above = (col b).above
  keep : ∀ b, ∀ i ∈ (col b).above, P b i → i ∈ (col' b).above

section
variable {W : Nat → Option Nat} {x y : Nat} {P : Nat → Item → Prop} {m m' m'' : Mem} {col col' col'' : Nat → Col}

theorem Chg.refl (h : Cov W m col) : Chg W x y P m col m col := ⟨h, Nat.le_refl _, fun _ _ => rfl, fun _ _ h _ => h⟩

theorem Chg.trans (h : Chg W x y P m col m' col') (h' : Chg W x y P m' col' m'' col'') : Chg W x y P m col m'' col'' :=
  ⟨h'.cov, Nat.le_trans h.next h'.next, fun b hb => (h'.out b hb).trans (h.out b hb), fun b i hi hP => h'.keep b i (h.keep b i hi hP) hP⟩

theorem Chg.mono (h : Chg W x y P m col m' col') {x' y' : Nat} {P' : Nat → Item → Prop} (hx : x' ≤ x) (hy : y ≤ y') (hP : ∀ b i, P' b i → P b i ∨ b < x ∨ y ≤ b) : Chg W x' y' P' m col m' col' := by
  refine ⟨h.cov, h.next, fun b hb => h.out b (by omega), fun b i hi h' => ?_⟩
  rcases hP b i h' with h' | h'
  · exact h.keep b i hi h'
  · rw [h.out b h']; exact hi

/-- Anything done to these bytes only, byte by byte. -/
theorem chg_bytes (hc : Cov W m col) {f : Nat → List Item → Option (List Item)} {n : Nat} (hn : m.next ≤ n) (hin : ∀ b, x ≤ b → b < y → ∃ w, W b = some w) (Q : Nat → Col → Prop)
    (h : ∀ b w, x ≤ b → b < y → W b = some w → ∃ c : Col, f b (col b).st = some c.st ∧ c.Ok w n ∧ (∀ i ∈ (col b).above, P b i → i ∈ c.above) ∧ Q b c) :
    (List.range' x (y - x)).all (fun b => (f b (m.stack b)).isSome) = true ∧
    ∃ col', Chg W x y P m col ⟨fun b => if x ≤ b ∧ b < y then (f b (m.stack b)).getD [] else m.stack b, n⟩ col' ∧ (∀ b, x ≤ b → b < y → Q b (col' b)) := by
  have h' : ∀ b, ∃ c : Col, (x ≤ b ∧ b < y → f b (col b).st = some c.st ∧ (∀ w, W b = some w → c.Ok w n) ∧ (∀ i ∈ (col b).above, P b i → i ∈ c.above) ∧ Q b c) ∧ (¬(x ≤ b ∧ b < y) → c = col b) := by
    intro b
    by_cases hb : x ≤ b ∧ b < y
    · obtain ⟨w, hw⟩ := hin b hb.1 hb.2
      obtain ⟨c, h1, h2, h3, h4⟩ := h b w hb.1 hb.2 hw
      exact ⟨c, fun _ => ⟨h1, fun w' hw' => by rw [hw] at hw'; cases hw'; exact h2, h3, h4⟩, fun hn => absurd hb hn⟩
    · exact ⟨col b, fun hh => absurd hh hb, fun _ => rfl⟩
  obtain ⟨col', hcol⟩ := Classical.axiomOfChoice h'
  refine ⟨?_, col', ⟨?_, hn, ?_, ?_⟩, ?_⟩
  · rw [List.all_eq_true]
    intro b hb
    rw [List.mem_range'_1] at hb
    have h1 : x ≤ b ∧ b < y := ⟨hb.1, by omega⟩
    obtain ⟨w, hw⟩ := hin b h1.1 h1.2
    rw [(hc b w hw).1, ((hcol b).1 h1).1]; rfl
  · intro b w hw
    by_cases hb : x ≤ b ∧ b < y
    · refine ⟨?_, ((hcol b).1 hb).2.1 w hw⟩
      simp only [if_pos hb]
      rw [(hc b w hw).1, ((hcol b).1 hb).1]; rfl
    · simp only [if_neg hb, (hcol b).2 hb]
      exact ⟨(hc b w hw).1, (hc b w hw).2.mono hn⟩
  · exact fun b hb => by rw [(hcol b).2 (by omega)]
  · intro b i hi hP
    by_cases hb : x ≤ b ∧ b < y
    · exact ((hcol b).1 hb).2.2.1 i hi hP
    · rw [(hcol b).2 hb]; exact hi
  · exact fun b h1 h2 => ((hcol b).1 ⟨h1, h2⟩).2.2.2

theorem chg_access (hc : Cov W m col) {a : Access} {t : Nat} (hin : ∀ b, x ≤ b → b < y → ∃ w, W b = some w) (Q : Nat → Col → Prop)
    (h : ∀ b w, x ≤ b → b < y → W b = some w → ∃ c : Col, accessByte a t (col b).st = some c.st ∧ c.Ok w m.next ∧ (∀ i ∈ (col b).above, P b i → i ∈ c.above) ∧ Q b c) :
    ∃ m' col', m.access a t x y = some m' ∧ m'.next = m.next ∧ Chg W x y P m col m' col' ∧ ∀ b, x ≤ b → b < y → Q b (col' b) := by
  obtain ⟨h1, col', h2, h3⟩ := chg_bytes hc (f := fun _ => accessByte a t) (Nat.le_refl _) hin Q h
  exact ⟨_, col', if_pos h1, rfl, h2, h3⟩

/-- Access by the owner: reads keep the shared references. -/
theorem chg_base (hc : Cov W m col) (a : Access) {t : Nat} (hin : ∀ b, x ≤ b → b < y → W b = some t) :
    ∃ m' col', m.access a t x y = some m' ∧ m'.next = m.next ∧ Chg W x y (fun _ i => a = .read ∧ i.perm ≠ .unique) m col m' col' := by
  obtain ⟨m', col', h1, h2, h3, _⟩ := chg_access (P := fun _ i => a = .read ∧ i.perm ≠ .unique) hc (a := a) (t := t) (fun b h1 h2 => ⟨t, hin b h1 h2⟩) (fun _ _ => True) (by
    intro b w b1 b2 hw
    rw [hin b b1 b2] at hw; cases hw
    cases a with
    | read =>
      obtain ⟨A, e, k, q⟩ := (hc b t (hin b b1 b2)).2.readBase
      exact ⟨_, e, k, fun i hi hP => q i hi hP.2, trivial⟩
    | write =>
      obtain ⟨B, e, k⟩ := (hc b t (hin b b1 b2)).2.accessBase
      exact ⟨_, e, k, fun i hi hP => (by cases hP.1), trivial⟩)
  exact ⟨m', col', h1, h2, h3⟩

/-- Access by a shared-mutable pointer. -/
theorem chg_blk (hc : Cov W m col) (a : Access) {t : Nat} (hin : ∀ b, x ≤ b → b < y → ∃ w, W b = some w) (ht : ∀ b, x ≤ b → b < y → (⟨t, .sharedRW⟩ : Item) ∈ (col b).blk) :
    ∃ m' col', m.access a t x y = some m' ∧ m'.next = m.next ∧ Chg W x y (fun _ i => a = .read ∧ i.perm ≠ .unique) m col m' col' := by
  obtain ⟨m', col', h1, h2, h3, _⟩ := chg_access (P := fun _ i => a = .read ∧ i.perm ≠ .unique) hc (a := a) (t := t) hin (fun _ _ => True) (by
    intro b w b1 b2 hw
    obtain ⟨A, e, k, q⟩ := (hc b w hw).2.accessBlk (a := a) (ht b b1 b2)
    exact ⟨_, e, k, fun i hi hP => q hP.1 i hi hP.2, trivial⟩)
  exact ⟨m', col', h1, h2, h3⟩

/-- Access by a reference. -/
theorem chg_ref (hc : Cov W m col) {a : Access} {t : Nat} (hin : ∀ b, x ≤ b → b < y → ∃ w, W b = some w) (ht : ∀ b, x ≤ b → b < y → ∃ g ∈ (col b).above, g.is a t = true) :
    ∃ m' col', m.access a t x y = some m' ∧ m'.next = m.next ∧ Chg W x y (fun _ i => i.tag ≤ t ∨ (a = .read ∧ i.perm ≠ .unique)) m col m' col' := by
  obtain ⟨m', col', h1, h2, h3, _⟩ := chg_access (P := fun _ i => i.tag ≤ t ∨ (a = .read ∧ i.perm ≠ .unique)) hc (a := a) (t := t) hin (fun _ _ => True) (by
    intro b w b1 b2 hw
    obtain ⟨g, hg, hi⟩ := ht b b1 b2
    obtain ⟨A, e, k, q⟩ := (hc b w hw).2.accessRef (a := a) hg hi
    exact ⟨_, e, k, q, trivial⟩)
  exact ⟨m', col', h1, h2, h3⟩

/-- The second half of a retag. -/
theorem chg_push (hc : Cov W m col) (x y : Nat) {p : Perm} (hp : p ≠ .sharedRW) :
    ∃ col', Chg W x y (fun _ _ => True) m col ⟨fun b => if x ≤ b ∧ b < y then ⟨m.next, p⟩ :: m.stack b else m.stack b, m.next + 1⟩ col' ∧
      ∀ b, x ≤ b → b < y → (⟨m.next, p⟩ : Item) ∈ (col' b).above := by
  refine ⟨fun b => if x ≤ b ∧ b < y then ⟨⟨m.next, p⟩ :: (col b).above, (col b).blk, (col b).base⟩ else col b, ⟨?_, Nat.le_succ _, ?_, ?_⟩, ?_⟩
  · intro b w hw
    by_cases hb : x ≤ b ∧ b < y
    · simp only [if_pos hb]
      exact ⟨by rw [(hc b w hw).1]; rfl, (hc b w hw).2.push hp⟩
    · simp only [if_neg hb]
      exact ⟨(hc b w hw).1, (hc b w hw).2.mono (Nat.le_succ _)⟩
  · intro b hb
    rw [if_neg (by omega)]
  · intro b i hi _
    by_cases hb : x ≤ b ∧ b < y
    · rw [if_pos hb]; exact List.mem_cons_of_mem _ hi
    · rw [if_neg hb]; exact hi
  · intro b h1 h2
    simp only
    rw [if_pos ⟨h1, h2⟩]; exact List.mem_cons_self ..

theorem permOf_ne_rw (mu : Bool) : permOf mu ≠ .sharedRW := by cases mu <;> (intro e; cases e)

/-- A retag after an access which is possible. -/
theorem chg_retag {m1 : Mem} {col1 : Nat → Col} {mu : Bool} {t : Nat} (e1 : m.access (accessOf mu) t x y = some m1) (n1 : m1.next = m.next) (u1 : Chg W x y P m col m1 col1) :
    ∃ m' col', m.retag mu t x y = some (m.next, m') ∧ m'.next = m.next + 1 ∧ Chg W x y P m col m' col' ∧ ∀ b, x ≤ b → b < y → (⟨m.next, permOf mu⟩ : Item) ∈ (col' b).above := by
  obtain ⟨col2, u2, i2⟩ := chg_push u1.cov x y (permOf_ne_rw mu)
  refine ⟨_, col2, ?_, congrArg (· + 1) n1, u1.trans (u2.mono (Nat.le_refl _) (Nat.le_refl _) (fun _ _ _ => Or.inl trivial)), ?_⟩
  · unfold Mem.retag
    change (m.access (accessOf mu) t x y).bind _ = _
    rw [e1, ← n1]
    rfl
  · rw [← n1]; exact i2

/-- The new item of a shared-mutable retag, from the owner or a shared-mutable pointer. -/
theorem chg_retagCell (hc : Cov W m col) {t : Nat} (hin : ∀ b, x ≤ b → b < y → ∃ w, W b = some w)
    (ht : ∀ b, x ≤ b → b < y → W b = some t ∨ (⟨t, .sharedRW⟩ : Item) ∈ (col b).blk) :
    ∃ m' col', m.retagCell t x y = some (m.next, m') ∧ Chg W x y (fun _ _ => True) m col m' col' ∧ ∀ b, x ≤ b → b < y → (⟨m.next, .sharedRW⟩ : Item) ∈ (col' b).blk := by
  obtain ⟨h1, col', h2, h3⟩ := chg_bytes (P := fun _ _ => True) hc (f := fun _ => insertByte m.next t) (Nat.le_succ _) hin (fun _ c => (⟨m.next, .sharedRW⟩ : Item) ∈ c.blk) (by
    intro b w b1 b2 hw
    obtain ⟨B, e, k, _, q⟩ := (hc b w hw).2.insert (t := t) ((ht b b1 b2).imp (fun h => by rw [hw] at h; cases h; rfl) id)
    exact ⟨_, e, k, fun i hi _ => hi, q⟩)
  exact ⟨_, col', if_pos h1, h2, h3⟩

/-- A `&` to something with `UnsafeCell`s, from the owner. -/
theorem chg_retagShared (hc : Cov W m col) {cell : Nat → Bool} {t : Nat} (hin : ∀ b, x ≤ b → b < y → W b = some t) :
    ∃ m' col', m.retagShared cell t x y = some (m.next, m') ∧ Chg W x y (fun _ i => i.perm ≠ .unique) m col m' col' ∧
      ∀ b, x ≤ b → b < y → (cell b = true → (⟨m.next, .sharedRW⟩ : Item) ∈ (col' b).blk) ∧ (cell b = false → (⟨m.next, .sharedRO⟩ : Item) ∈ (col' b).above) := by
  obtain ⟨h1, col', h2, h3⟩ := chg_bytes (P := fun _ i => i.perm ≠ .unique) hc (f := fun b => shareByte (cell b) m.next t) (Nat.le_succ _) (fun b b1 b2 => ⟨t, hin b b1 b2⟩)
    (fun b c => (cell b = true → (⟨m.next, .sharedRW⟩ : Item) ∈ c.blk) ∧ (cell b = false → (⟨m.next, .sharedRO⟩ : Item) ∈ c.above)) (by
    intro b w b1 b2 hw
    rw [hin b b1 b2] at hw; cases hw
    have hk := (hc b t (hin b b1 b2)).2
    unfold shareByte
    cases hcell : cell b with
    | true =>
      obtain ⟨B, e, k, _, q⟩ := hk.insert (t := t) (Or.inl rfl)
      exact ⟨_, e, k, fun i hi _ => hi, fun _ => q, fun h => by cases h⟩
    | false =>
      obtain ⟨A, e, k, q⟩ := hk.readBase
      refine ⟨⟨⟨m.next, .sharedRO⟩ :: A, (col b).blk, (col b).base⟩, ?_, k.push (by decide), fun i hi hP => List.mem_cons_of_mem _ (q i hi hP), fun h => (by cases h), fun _ => List.mem_cons_self ..⟩
      simp only [e, Option.map_some, if_neg Bool.false_ne_true]
      rfl)
  exact ⟨_, col', if_pos h1, h2, h3⟩

end
end Verif.Borrows
