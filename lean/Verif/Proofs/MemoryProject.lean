import Verif.Proofs.MemoryModel
/-! # The part of an execution that is about the atomic object -/
set_option autoImplicit false
namespace Verif.MM
variable {n : Nat} {A B : Type}

/-- The index in `l` of the `j`th entry that is kept by `f`. -/
def emb (f : A → Option B) : List A → Nat → Nat
  | [], _ => 0
  | x :: xs, j => match f x with
    | none => emb f xs j + 1
    | some _ => match j with
      | 0 => 0
      | j + 1 => emb f xs j + 1

/-- How many entries are kept before the index `k`. -/
def pos (f : A → Option B) (l : List A) (k : Nat) : Nat := ((l.take k).filterMap f).length

variable {f : A → Option B}

theorem emb_spec : ∀ {l : List A} {j : Nat} {y : B}, (l.filterMap f)[j]? = some y → ∃ x, l[emb f l j]? = some x ∧ f x = some y
  | [], j, y, h => by simp at h
  | x :: xs, j, y, h => by
    rw [List.filterMap_cons] at h
    cases hx : f x with
    | none =>
      rw [hx] at h
      obtain ⟨z, h1, h2⟩ := emb_spec h
      exact ⟨z, by simpa [emb, hx] using h1, h2⟩
    | some w =>
      rw [hx] at h
      cases j with
      | zero =>
        simp only [List.getElem?_cons_zero, Option.some.injEq] at h
        exact ⟨x, by simp [emb, hx], by rw [hx, h]⟩
      | succ j =>
        obtain ⟨z, h1, h2⟩ := emb_spec (l := xs) (j := j) (y := y) (by simpa using h)
        exact ⟨z, by simpa [emb, hx] using h1, h2⟩

theorem emb_lt : ∀ {l : List A} {i j : Nat}, i < j → j < (l.filterMap f).length → emb f l i < emb f l j
  | [], i, j, _, h => by simp at h
  | x :: xs, i, j, hij, h => by
    rw [List.filterMap_cons] at h
    cases hx : f x with
    | none =>
      rw [hx] at h
      have := emb_lt (l := xs) hij h
      simp only [emb, hx]
      omega
    | some w =>
      rw [hx] at h
      cases j with
      | zero => omega
      | succ j =>
        cases i with
        | zero => simp [emb, hx]
        | succ i =>
          have := emb_lt (l := xs) (i := i) (j := j) (by omega) (by simpa using h)
          simp only [emb, hx]
          omega

theorem pos_spec : ∀ {l : List A} {k : Nat} {x : A} {y : B}, l[k]? = some x → f x = some y → (l.filterMap f)[pos f l k]? = some y ∧ emb f l (pos f l k) = k
  | [], k, x, y, h, _ => by simp at h
  | z :: zs, k, x, y, h, hy => by
    cases k with
    | zero =>
      simp only [List.getElem?_cons_zero, Option.some.injEq] at h
      subst h
      simp [pos, hy, emb]
    | succ k =>
      obtain ⟨h1, h2⟩ := pos_spec (l := zs) (k := k) (by simpa using h) hy
      cases hz : f z with
      | none => simpa [pos, List.filterMap_cons, hz, emb] using ⟨h1, h2⟩
      | some w => simpa [pos, List.filterMap_cons, hz, emb] using ⟨h1, h2⟩

namespace Graph
variable (X : Graph n A) (f)
/-- The event of `X` for an event of the part. -/
def up (a : Ev n) : Ev n := (a.1, emb f (X.acts a.1) a.2)
def down (a : Ev n) : Ev n := (a.1, pos f (X.acts a.1) a.2)
/-- The part of the execution whose actions are kept by `f`. -/
def part : Graph n B where
  acts := fun t => (X.acts t).filterMap f
  initial := X.initial
  rf := fun a => (X.rf (X.up f a)).map (X.down f)
  mo := fun a b => X.mo (X.up f a) (X.up f b)
  hb := fun a b => X.hb (X.up f a) (X.up f b)
variable {X f} {K : Kind A} {K' : Kind B}

theorem up_at {a : Ev n} {y : B} (h : (X.part f).At a y) : ∃ x, X.At (X.up f a) x ∧ f x = some y := emb_spec h
theorem down_at {a : Ev n} {x : A} {y : B} (h : X.At a x) (hy : f x = some y) : (X.part f).At (X.down f a) y ∧ X.up f (X.down f a) = a := by
  obtain ⟨h1, h2⟩ := pos_spec (f := f) h hy
  exact ⟨h1, by simp only [up, down, h2]⟩
theorem up_inj {a b : Ev n} (ha : (X.part f).IsEvent a) (hb : (X.part f).IsEvent b) (h : X.up f a = X.up f b) : a = b := by
  obtain ⟨t, j⟩ := a
  obtain ⟨u, k⟩ := b
  simp only [up, Prod.mk.injEq] at h
  obtain ⟨rfl, h⟩ := h
  have h1 : j < ((X.acts t).filterMap f).length := (isEvent_iff _).mp ha
  have h2 : k < ((X.acts t).filterMap f).length := (isEvent_iff _).mp hb
  rcases Nat.lt_trichotomy j k with h3 | rfl | h3
  · have := emb_lt (f := f) h3 h2; omega
  · rfl
  · have := emb_lt (f := f) h3 h1; omega

/-- The actions that are not kept are not about the object. -/
structure Faithful (K : Kind A) (K' : Kind B) (f : A → Option B) : Prop where
  reads : ∀ x, K.reads x = (f x).bind K'.reads
  writes : ∀ x, K.writes x = (f x).bind K'.writes

theorem up_reads (hf : Faithful K K' f) {a : Ev n} {v : Nat} (h : (X.part f).Reads K' a v) : X.Reads K (X.up f a) v := by
  obtain ⟨y, h1, h2⟩ := h
  obtain ⟨x, h3, h4⟩ := up_at h1
  exact ⟨x, h3, by rw [hf.reads, h4]; exact h2⟩
theorem up_writes (hf : Faithful K K' f) {a : Ev n} {v : Nat} (h : (X.part f).Writes K' a v) : X.Writes K (X.up f a) v := by
  obtain ⟨y, h1, h2⟩ := h
  obtain ⟨x, h3, h4⟩ := up_at h1
  exact ⟨x, h3, by rw [hf.writes, h4]; exact h2⟩
theorem down_writes (hf : Faithful K K' f) {a : Ev n} {v : Nat} (h : X.Writes K a v) : (X.part f).Writes K' (X.down f a) v ∧ X.up f (X.down f a) = a := by
  obtain ⟨x, h1, h2⟩ := h
  rw [hf.writes] at h2
  cases hx : f x with
  | none => rw [hx] at h2; cases h2
  | some y =>
    rw [hx] at h2
    obtain ⟨h3, h4⟩ := down_at h1 hx
    exact ⟨⟨y, h3, h2⟩, h4⟩
theorem up_isRead (hf : Faithful K K' f) {a : Ev n} (h : (X.part f).IsRead K' a) : X.IsRead K (X.up f a) := h.imp fun _ => up_reads hf
theorem up_isWrite (hf : Faithful K K' f) {a : Ev n} (h : (X.part f).IsWrite K' a) : X.IsWrite K (X.up f a) := h.imp fun _ => up_writes hf
theorem Writes.isEvent {K : Kind A} {a : Ev n} {v : Nat} (h : X.Writes K a v) : X.IsEvent a := h.imp fun _ h => h.1
theorem IsWrite.isEvent {K : Kind A} {a : Ev n} (h : X.IsWrite K a) : X.IsEvent a := let ⟨_, h⟩ := h; h.isEvent
theorem IsRead.isEvent {K : Kind A} {a : Ev n} (h : X.IsRead K a) : X.IsEvent a := let ⟨_, _, h, _⟩ := h; ⟨_, h⟩

/-- What a read of the part reads from. -/
theorem up_rf (hf : Faithful K K' f) (hw : X.WellFormed K) {r : Ev n} (hr : (X.part f).IsRead K' r) :
    ((X.part f).rf r = none ∧ X.rf (X.up f r) = none) ∨ ∃ w, (X.part f).rf r = some w ∧ X.rf (X.up f r) = some (X.up f w) ∧ (X.part f).IsWrite K' w := by
  obtain ⟨v, hv⟩ := hr
  have h := hw.rf_value _ _ (up_reads hf hv)
  cases hx : X.rf (X.up f r) with
  | none => exact .inl ⟨by simp only [part, hx, Option.map_none], rfl⟩
  | some w =>
    rw [hx] at h
    obtain ⟨h1, h2⟩ := down_writes hf h
    exact .inr ⟨X.down f w, by simp only [part, hx, Option.map_some], by rw [h2], ⟨v, h1⟩⟩

theorem wellFormed_part (hf : Faithful K K' f) (hw : X.WellFormed K) : (X.part f).WellFormed K' where
  sb := fun t j k h1 h2 => by
    have hk : ∃ y, ((X.acts t).filterMap f)[k]? = some y := ⟨_, List.getElem?_eq_getElem h2⟩
    obtain ⟨y, hy⟩ := hk
    obtain ⟨x, hx, _⟩ := emb_spec hy
    exact hw.sb t _ _ (emb_lt h1 h2) (List.getElem?_eq_some_iff.mp hx).1
  hb_irrefl := fun a => hw.hb_irrefl _
  hb_trans := fun a b c => hw.hb_trans _ _ _
  mo_irrefl := fun a => hw.mo_irrefl _
  mo_trans := fun a b c => hw.mo_trans _ _ _
  mo_total := fun a b ha hb => by
    rcases hw.mo_total _ _ (up_isWrite hf ha) (up_isWrite hf hb) with h | h
    · exact .inl (up_inj ha.isEvent hb.isEvent h)
    · exact .inr h
  rf_value := fun r v hr => by
    have h := hw.rf_value _ _ (up_reads hf hr)
    show match (X.rf (X.up f r)).map (X.down f) with | none => v = X.initial | some w => (X.part f).Writes K' w v
    cases hx : X.rf (X.up f r) with
    | none => rw [hx] at h; exact h
    | some w => rw [hx] at h; exact (down_writes hf h).1

theorem cob_part (hf : Faithful K K' f) (hw : X.WellFormed K) {a b : Ev n} (h : (X.part f).Cob K' a b) : X.Cob K (X.up f a) (X.up f b) := by
  rcases h with ⟨h1, h2, h3⟩ | ⟨h1, h2⟩ | ⟨h1, h2, h3, h4⟩
  · exact .inl ⟨up_isWrite hf h1, up_isWrite hf h2, h3⟩
  · rcases up_rf hf hw h1 with ⟨h3, _⟩ | ⟨w, h3, h4, _⟩
    · rw [h3] at h2; cases h2
    · rw [h3] at h2
      cases h2
      exact .inr (.inl ⟨up_isRead hf h1, h4⟩)
  · refine .inr (.inr ⟨up_isRead hf h1, up_isWrite hf h2, fun h => h3 (up_inj h1.isEvent h2.isEvent h), ?_⟩)
    rcases up_rf hf hw h1 with ⟨h5, h6⟩ | ⟨w, h5, h6, _⟩
    · exact .inl h6
    · rcases h4 with h4 | ⟨w', h4, h7⟩
      · rw [h4] at h5; cases h5
      · rw [h5] at h4
        cases h4
        exact .inr ⟨_, h6, h7⟩

theorem seqCst_part (hf : Faithful K K' f) (hw : X.WellFormed K) (h : X.SeqCst K) : (X.part f).SeqCst K' := by
  obtain ⟨S, h1, h2, h3, h4, h5⟩ := h
  have hat : ∀ a, (X.part f).Atomic K' a → X.Atomic K (X.up f a) := fun a h => h.imp (up_isRead hf) (up_isWrite hf)
  have hev : ∀ a, (X.part f).Atomic K' a → (X.part f).IsEvent a := fun a h => h.elim IsRead.isEvent IsWrite.isEvent
  refine ⟨fun a b => S (X.up f a) (X.up f b), fun a => h1 _, fun a b c => h2 _ _ _, fun a b ha hb => ?_, fun a b ha hb => h4 _ _ (hat a ha) (hat b hb), fun a b h => h5 _ _ (cob_part hf hw h)⟩
  exact (h3 _ _ (hat a ha) (hat b hb)).imp (up_inj (hev a ha) (hev b hb)) id

theorem coherent_part (hf : Faithful K K' f) (hw : X.WellFormed K) (h : X.Coherent K) : (X.part f).Coherent K' where
  write_write := fun a b ha hb => h.write_write _ _ (up_isWrite hf ha) (up_isWrite hf hb)
  read_read := fun a b w ha hb hab hr => by
    rcases up_rf hf hw ha with ⟨h1, _⟩ | ⟨w0, h1, h2, _⟩
    · rw [h1] at hr; cases hr
    rw [h1] at hr
    cases hr
    obtain ⟨w', h3, h4⟩ := h.read_read _ _ _ (up_isRead hf ha) (up_isRead hf hb) hab h2
    rcases up_rf hf hw hb with ⟨_, h5⟩ | ⟨w1, h5, h6, h7⟩
    · rw [h5] at h3; cases h3
    rw [h6] at h3
    cases h3
    obtain ⟨v, hv⟩ := ha
    obtain ⟨w2, h8, _, hw2⟩ : ∃ w2, (X.part f).rf a = some w2 ∧ X.rf (X.up f a) = some (X.up f w2) ∧ (X.part f).IsWrite K' w2 := by
      rcases up_rf hf hw ⟨v, hv⟩ with ⟨h8, _⟩ | h8
      · rw [h8] at h1; cases h1
      · exact h8
    rw [h1] at h8
    cases h8
    exact ⟨w1, h5, h4.imp (up_inj h7.isEvent hw2.isEvent) id⟩
  read_write := fun a b w ha hb hab hr => by
    rcases up_rf hf hw ha with ⟨h1, _⟩ | ⟨w0, h1, h2, _⟩
    · rw [h1] at hr; cases hr
    rw [h1] at hr
    cases hr
    exact h.read_write _ _ _ (up_isRead hf ha) (up_isWrite hf hb) hab h2
  write_read := fun a b ha hb hab => by
    obtain ⟨w, h1, h2⟩ := h.write_read _ _ (up_isWrite hf ha) (up_isRead hf hb) hab
    rcases up_rf hf hw hb with ⟨_, h5⟩ | ⟨w1, h5, h6, h7⟩
    · rw [h5] at h1; cases h1
    rw [h6] at h1
    cases h1
    exact ⟨w1, h5, h2.imp (up_inj h7.isEvent ha.isEvent) id⟩
  rmw := fun a hr hwr => by
    have := h.rmw _ (up_isRead hf hr) (up_isWrite hf hwr)
    rcases up_rf hf hw hr with ⟨h1, h2⟩ | ⟨w, h1, h2, _⟩
    · rw [h1]
      rw [h2] at this
      exact fun w hw' => this _ (up_isWrite hf hw')
    · rw [h1]
      rw [h2] at this
      exact ⟨this.1, fun w' hw' => this.2 _ (up_isWrite hf hw')⟩

end Graph
end Verif.MM
