import Verif.Props.Chain
import Verif.Proofs.BumpBoxes
import Verif.Props.RcMem
import Verif.Spec.ChainMem
/-! Proofs about `Chain` on bytes: it refines the model with records. -/
namespace Verif.Unsync.ChainMem
open Verif

theorem storeNext_of_not_mem {c : Cfg} {m : Mem} {a x : Nat} {p : Option LPtr} (h : ¬ (a ≤ x ∧ x < a + 2 * c.t.wordBytes)) : storeNext c m a p x = m x := by
  cases p <;> simp only [storeNext] <;> rw [storeUsize_of_not_mem (by omega), storeUsize_of_not_mem (by omega)]

theorem loadNext_congr {c : Cfg} {m m' : Mem} {a : Nat} (h : ∀ x, a ≤ x → x < a + 2 * c.t.wordBytes → m' x = m x) : loadNext c m' a = loadNext c m a := by
  have h1 : loadUsize c.t m' a = loadUsize c.t m a := loadUsize_congr fun x h1 h2 => h x h1 (by omega)
  have h2 : loadUsize c.t m' (a + c.t.wordBytes) = loadUsize c.t m (a + c.t.wordBytes) := loadUsize_congr fun x h1 h2 => h x (by omega) (by omega)
  simp only [loadNext, h1, h2]

/-- The pointer can be stored. -/
def PtrOk (t : Target) (p : Option LPtr) : Prop := ∀ q, p = some q → 0 < q.addr ∧ q.addr < t.W ∧ q.cap < t.W

theorem loadNext_storeNext {c : Cfg} {m : Mem} {a : Nat} {p : Option LPtr} (h : PtrOk c.t p) : loadNext c (storeNext c m a p) a = p := by
  cases p with
  | none =>
    have hW : 0 < c.t.W := by unfold Target.W; exact Nat.pow_pos (by decide)
    have h1 : loadUsize c.t (storeNext c m a none) a = 0 := by
      rw [storeNext, loadUsize_other (.inl (Nat.le_refl _)), loadUsize_storeUsize _ _ _ hW]
    rw [loadNext, if_pos h1]
  | some q =>
    obtain ⟨h1, h2, h3⟩ := h q rfl
    have k1 : loadUsize c.t (storeNext c m a (some q)) a = q.addr := by
      rw [storeNext, loadUsize_other (.inl (Nat.le_refl _)), loadUsize_storeUsize _ _ _ h2]
    have k2 : loadUsize c.t (storeNext c m a (some q)) (a + c.t.wordBytes) = q.cap := by
      rw [storeNext, loadUsize_storeUsize _ _ _ h3]
    rw [loadNext, if_neg (by omega), k1, k2]

/-- The bytes hold the records of the links, and the rest of each link is as in the memory `m`. -/
structure HRel (c : Cfg) (b : BHeap) (h : LHeap) (m : Mem) : Prop where
  same : ∀ a, b.block a = (h.link a).map fun r => (r.layout, r.serial)
  next : ∀ a r, h.link a = some r → loadNext c b.mem a = r.next
  freed : b.freed = h.freed
  room : ∀ a r, h.link a = some r → 2 * c.t.wordBytes ≤ r.layout.size
  disj : ∀ a a' r r', h.link a = some r → h.link a' = some r' → a ≠ a' → Region.Disjoint ⟨a, r.layout.size⟩ ⟨a', r'.layout.size⟩
  bytes : ∀ a r, h.link a = some r → ∀ x, a + 2 * c.t.wordBytes ≤ x → x < a + r.layout.size → b.mem x = m x

variable {c : Cfg}

theorem HRel.block {b : BHeap} {h : LHeap} {m : Mem} (hr : HRel c b h m) {a : Nat} {rec : LinkRec} (hl : h.link a = some rec) :
    b.block a = some (rec.layout, rec.serial) := by rw [hr.same, hl]; rfl

theorem HRel.set {b : BHeap} {h : LHeap} {m : Mem} (hr : HRel c b h m) {a : Nat} {rec : LinkRec} (hl : h.link a = some rec) {p : Option LPtr} (hp : PtrOk c.t p) :
    HRel c { b with mem := storeNext c b.mem a p } (h.set a (some { rec with next := p })) m := by
  have hlink : ∀ x r, (h.set a (some { rec with next := p })).link x = some r → (x = a ∧ r = { rec with next := p }) ∨ (x ≠ a ∧ h.link x = some r) := by
    intro x r hx
    simp only [LHeap.set] at hx
    by_cases hxa : x = a
    · rw [if_pos hxa] at hx; cases hx; exact .inl ⟨hxa, rfl⟩
    · rw [if_neg hxa] at hx; exact .inr ⟨hxa, hx⟩
  have hsame : ∀ x r, (h.set a (some { rec with next := p })).link x = some r → ∃ r', h.link x = some r' ∧ r'.layout = r.layout := by
    intro x r hx
    rcases hlink x r hx with ⟨rfl, rfl⟩ | ⟨_, h2⟩
    · exact ⟨rec, hl, rfl⟩
    · exact ⟨r, h2, rfl⟩
  have hout : ∀ x r, x ≠ a → h.link x = some r → ∀ y, x ≤ y → y < x + r.layout.size → ¬ (a ≤ y ∧ y < a + 2 * c.t.wordBytes) := by
    intro x r hne hx y h1 h2 h3
    have := hr.room a rec hl
    exact hr.disj x a r rec hx hl hne y ⟨⟨h1, h2⟩, ⟨h3.1, by show y < a + rec.layout.size; omega⟩⟩
  refine ⟨?_, ?_, hr.freed, ?_, ?_, ?_⟩
  · intro x
    show b.block x = _
    simp only [LHeap.set]
    by_cases hx : x = a
    · subst hx; rw [if_pos rfl, hr.block hl]; rfl
    · rw [if_neg hx]; exact hr.same x
  · intro x r hx
    rcases hlink x r hx with ⟨rfl, rfl⟩ | ⟨h1, h2⟩
    · exact loadNext_storeNext hp
    · rw [← hr.next x r h2]
      have := hr.room x r h2
      exact loadNext_congr fun y k1 k2 => storeNext_of_not_mem (hout x r h1 h2 y k1 (by omega))
  · intro x r hx
    obtain ⟨r', k1, k2⟩ := hsame x r hx
    rw [← k2]; exact hr.room x r' k1
  · intro x y r r' hx hy hne
    obtain ⟨r1, k1, k2⟩ := hsame x r hx
    obtain ⟨r2, k3, k4⟩ := hsame y r' hy
    rw [← k2, ← k4]; exact hr.disj x y r1 r2 k1 k3 hne
  · intro x r hx y k1 k2
    show storeNext c b.mem a p y = m y
    rcases hlink x r hx with ⟨rfl, rfl⟩ | ⟨h1, h2⟩
    · rw [storeNext_of_not_mem (by omega)]; exact hr.bytes x rec hl y k1 k2
    · rw [storeNext_of_not_mem (hout x r h1 h2 y (by omega) k2)]; exact hr.bytes x r h2 y k1 k2

theorem PtrOk.none (t : Target) : PtrOk t none := fun _ h => by cases h

theorem takeNext_rel {b : BHeap} {h h' : LHeap} {m : Mem} (hr : HRel c b h m) {p : LPtr} {q : Option LPtr} (hx : Unsync.Link.takeNext h p = .ret (q, h')) :
    ∃ b', Link.takeNext c b p = .ret (q, b') ∧ HRel c b' h' m := by
  unfold Unsync.Link.takeNext at hx
  cases hl : h.link p.addr with
  | none => rw [hl] at hx; cases hx
  | some rec =>
    rw [hl] at hx
    cases hx
    refine ⟨_, ?_, hr.set hl (PtrOk.none _)⟩
    simp only [Link.takeNext, hr.block hl, hr.next _ _ hl, pure]

theorem free_rel {b : BHeap} {h h' : LHeap} {m : Mem} (hr : HRel c b h m) {p : LPtr} (hx : Unsync.Link.free c.t h p = .ret h') :
    ∃ b', Link.free c b p = .ret b' ∧ HRel c b' h' m := by
  unfold Unsync.Link.free at hx
  cases hl : h.link p.addr with
  | none => rw [hl] at hx; cases hx
  | some rec =>
    rw [hl] at hx
    simp only at hx
    by_cases hlay : linkLayoutForValue c.t p ≠ rec.layout
    · rw [if_pos hlay] at hx; cases hx
    · rw [if_neg hlay] at hx
      cases hx
      refine ⟨_, by simp only [Link.free, hr.block hl]; rw [if_neg hlay]; rfl, ?_⟩
      have hlink : ∀ x r, (h.set p.addr none).link x = some r → x ≠ p.addr ∧ h.link x = some r := by
        intro x r hx
        simp only [LHeap.set] at hx
        by_cases hxa : x = p.addr
        · rw [if_pos hxa] at hx; cases hx
        · rw [if_neg hxa] at hx; exact ⟨hxa, hx⟩
      have hkeep : ∀ x r, (h.set p.addr none).link x = some r → ∀ y, x ≤ y → y < x + r.layout.size → scribble c b.mem p.addr rec.layout.size y = b.mem y := by
        intro x r hx y k1 k2
        obtain ⟨h1, h2⟩ := hlink x r hx
        simp only [scribble]
        rw [if_neg]
        intro h3
        exact hr.disj x p.addr r rec h2 hl h1 y ⟨⟨k1, k2⟩, h3⟩
      refine ⟨?_, ?_, ?_, ?_, ?_, ?_⟩
      · intro x
        show (if x = p.addr then none else b.block x) = Option.map _ (if x = p.addr then none else h.link x)
        by_cases hx : x = p.addr
        · rw [if_pos hx, if_pos hx]; rfl
        · rw [if_neg hx, if_neg hx]; exact hr.same x
      · intro x r hx
        have := hr.room x r (hlink x r hx).2
        rw [← hr.next x r (hlink x r hx).2]
        exact loadNext_congr fun y k1 k2 => hkeep x r hx y k1 (by omega)
      · show rec.serial :: b.freed = rec.serial :: h.freed
        rw [hr.freed]
      · intro x r hx; exact hr.room x r (hlink x r hx).2
      · intro x y r r' hx hy; exact hr.disj x y r r' (hlink x r hx).2 (hlink y r' hy).2
      · intro x r hx y k1 k2
        show scribble c b.mem p.addr rec.layout.size y = m y
        rw [hkeep x r hx y (by omega) k2]
        exact hr.bytes x r (hlink x r hx).2 y k1 k2

theorem bind_ret {α β : Type} {x : Outcome α} {f : α → Outcome β} {y : β} (h : (x >>= f) = .ret y) : ∃ z, x = .ret z ∧ f z = .ret y := by
  cases x with
  | ret z => exact ⟨z, rfl, h⟩
  | ub => cases h
  | panic => cases h

theorem dropLoop_rel {db : BHeap → LPtr → Outcome BHeap} {dr : LHeap → LPtr → Outcome LHeap} {m : Mem}
    (hd : ∀ b h h' p, HRel c b h m → dr h p = .ret h' → ∃ b', db b p = .ret b' ∧ HRel c b' h' m) :
    ∀ (fuel : Nat) {b : BHeap} {h h' : LHeap} {r : Option LPtr}, HRel c b h m → Unsync.Link.dropLoop dr fuel h r = .ret h' →
      ∃ b', Link.dropLoop c db fuel b r = .ret b' ∧ HRel c b' h' m
  | fuel, b, h, h', none, hr, hx => by
    have : h' = h := by cases fuel <;> (cases hx; rfl)
    subst this
    exact ⟨b, by cases fuel <;> rfl, hr⟩
  | 0, b, h, h', some p, hr, hx => by cases hx
  | fuel + 1, b, h, h', some p, hr, hx => by
    unfold Unsync.Link.dropLoop at hx
    obtain ⟨⟨q, h1⟩, k1, hx⟩ := bind_ret hx
    obtain ⟨h2, k2, hx⟩ := bind_ret hx
    obtain ⟨b1, l1, r1⟩ := takeNext_rel hr k1
    obtain ⟨b2, l2, r2⟩ := hd _ _ _ _ r1 k2
    obtain ⟨b3, l3, r3⟩ := dropLoop_rel hd fuel r2 hx
    exact ⟨b3, by simp only [Link.dropLoop, l1, l2, l3, bind, Outcome.bind], r3⟩

theorem dropBox_rel {m : Mem} : ∀ (depth : Nat) {fuel : Nat} {b : BHeap} {h h' : LHeap} {p : LPtr}, HRel c b h m → Unsync.Link.dropBox c.t depth fuel h p = .ret h' →
    ∃ b', Link.dropBox c depth fuel b p = .ret b' ∧ HRel c b' h' m
  | 0, _, _, _, _, _, _, hx => by cases hx
  | depth + 1, fuel, b, h, h', p, hr, hx => by
    unfold Unsync.Link.dropBox at hx
    obtain ⟨⟨q, h1⟩, k1, hx⟩ := bind_ret hx
    obtain ⟨h2, k2, hx⟩ := bind_ret hx
    obtain ⟨b1, l1, r1⟩ := takeNext_rel hr k1
    obtain ⟨b2, l2, r2⟩ := dropLoop_rel (db := Link.dropBox c depth fuel) (dr := Unsync.Link.dropBox c.t depth fuel) (fun _ _ _ _ hr hx => dropBox_rel depth hr hx) fuel r1 k2
    obtain ⟨b3, l3, r3⟩ := free_rel r2 hx
    exact ⟨b3, by simp only [Link.dropBox, l1, l2, l3, bind, Outcome.bind], r3⟩

theorem setNext_rel {m : Mem} {depth fuel : Nat} {b : BHeap} {h h' : LHeap} {p : LPtr} {q : Option LPtr} (hr : HRel c b h m) (hq : PtrOk c.t q)
    (hx : Unsync.Link.setNext c.t depth fuel h p q = .ret h') : ∃ b', Link.setNext c depth fuel b p q = .ret b' ∧ HRel c b' h' m := by
  unfold Unsync.Link.setNext at hx
  cases hl : h.link p.addr with
  | none => rw [hl] at hx; cases hx
  | some rec =>
    rw [hl] at hx
    simp only at hx
    have hset := hr.set hl hq
    simp only [Link.setNext, hr.block hl, hr.next _ _ hl]
    cases hn : rec.next with
    | none =>
      rw [hn] at hx
      cases hx
      exact ⟨_, rfl, hset⟩
    | some old =>
      rw [hn] at hx
      exact dropBox_rel depth hset hx

/-! ## The operations -/

/-- The state on bytes and the state with records. -/
structure Rel (c : Cfg) (b : BState) (s : CState) : Prop where
  roots : b.roots = s.roots
  serials : b.serials = s.serials
  granted : b.granted = s.granted
  heap : HRel c b.heap s.heap s.mem

theorem ptrOk {t : Target} {s : CState} {P : Nat → List LPtr} (hi : CInv t s P) {h : Nat} {r : Option LPtr} (hr : s.roots h = some r) : PtrOk t r := by
  intro q hq
  subst hq
  obtain ⟨qs, rec, hPc, hl, hlay, _⟩ := (hi.chained h _ hr).some_cons
  have hmem : q ∈ P h := by rw [hPc]; simp
  obtain ⟨k1, _, k3⟩ := hi.linkok _ _ hl
  have hb := q.block_size t
  have hpos := t.wordBytes_pos
  rw [hlay] at k3
  simp only [LPtr.block] at hb
  exact ⟨k1, by omega, by omega⟩

/-- What is possible on bytes is possible with records. -/
theorem allowed_rel {b : BState} {s : CState} (hr : Rel c b s) {op : COp} (ha : (BOp.call op).Allowed c b) : op.Allowed c.t s := by
  cases op with
  | new h size heap =>
    obtain ⟨h1, h2, h3⟩ := ha
    refine ⟨by rw [← hr.roots]; exact h1, h2, fun a L ha hL => ?_⟩
    obtain ⟨k1, k2, k3, k4⟩ := h3 a L ha hL
    exact ⟨k1, k2, k3, fun a' rec hl => k4 a' rec.layout rec.serial (hr.heap.block hl)⟩
  | bumpBox h T => exact ⟨by rw [← hr.roots]; exact ha.1, ha.2⟩
  | chain h d => exact ⟨by rw [← hr.roots]; exact ha.1, by rw [← hr.roots]; exact ha.2.1, ha.2.2⟩
  | capacity h => show s.roots h ≠ none; rw [← hr.roots]; exact ha
  | remaining h => show s.roots h ≠ none; rw [← hr.roots]; exact ha
  | drop h => show s.roots h ≠ none; rw [← hr.roots]; exact ha
  | write h blk off bytes => exact ⟨by rw [← hr.granted]; exact ha.1, ha.2⟩

theorem level_rel {b : BState} {s : CState} {P : Nat → List LPtr} (hr : Rel c b s) (hi : CInv c.t s P) {h : Nat} {p : LPtr} (hp : p ∈ P h) :
    (p.asBump c.t).level c.t b.heap.mem = (p.asBump c.t).level c.t s.mem := by
  obtain ⟨rec, h1, h2⟩ := hi.alloc hp
  have hb := p.block_size c.t
  simp only [LPtr.block, ← h2] at hb
  apply level_congr
  intro x k1 k2
  exact hr.heap.bytes _ _ h1 x k1 (by omega)

/-- A change of the memory that is the same on both sides and only within the data of a link. -/
theorem HRel.inside {b : BHeap} {h : LHeap} {m m1 m2 : Mem} (hr : HRel c b h m) {a : Nat} {rec : LinkRec} (hl : h.link a = some rec)
    (hsame : ∀ x, (b.mem x = m x → m1 x = m2 x))
    (hout : ∀ x, ¬ (a + 2 * c.t.wordBytes ≤ x ∧ x < a + rec.layout.size) → m1 x = b.mem x) :
    HRel c { b with mem := m1 } h m2 := by
  refine ⟨hr.same, ?_, hr.freed, hr.room, hr.disj, ?_⟩
  · intro x r hx
    rw [← hr.next x r hx]
    have := hr.room x r hx
    refine loadNext_congr fun y k1 k2 => hout y fun k3 => ?_
    by_cases hxa : x = a
    · subst hxa; omega
    · exact hr.disj x a r rec hx hl hxa y ⟨⟨k1, by show y < x + r.layout.size; omega⟩, ⟨by show a ≤ y; omega, k3.2⟩⟩
  · intro x r hx y k1 k2
    exact hsame y (hr.bytes x r hx y k1 k2)

theorem new_rel {b : BState} {s s' : CState} (hr : Rel c b s) {h size : Nat} {heap : Option Nat} {r : CRet}
    (ha : (COp.new h size heap).Allowed c.t s) (hx : chainNew c.t s h size heap = .ret (r, s')) : ∃ b', bNew c b h size heap = .ret (r, b') ∧ Rel c b' s' := by
  unfold chainNew at hx
  unfold bNew
  cases hL : linkLayoutFromSize c.t size with
  | none => rw [hL] at hx; cases hx; exact ⟨b, rfl, hr⟩
  | some L =>
    rw [hL] at hx
    cases heap with
    | none => cases hx; exact ⟨b, rfl, hr⟩
    | some a =>
      cases hx
      refine ⟨_, rfl, ?_⟩
      obtain ⟨_, _, h3⟩ := ha
      obtain ⟨ha0, haw, hanw, hdis⟩ := h3 a L rfl hL
      obtain ⟨hLe, _⟩ := linkLayoutFromSize_some hL
      have hroom : 3 * c.t.wordBytes ≤ L.size := by
        have := LPtr.block_size c.t ⟨0, size⟩
        simp only [LPtr.block, ← hLe] at this
        omega
      have hW : 0 < c.t.W := by unfold Target.W; exact Nat.pow_pos (by decide)
      have hpos := c.t.wordBytes_pos
      have hfresh : s.heap.link a = none := by
        cases hl : s.heap.link a with
        | none => rfl
        | some rec =>
          have := hr.heap.room a rec hl
          exact absurd ⟨⟨Nat.le_refl _, by show a < a + L.size; omega⟩, ⟨Nat.le_refl _, by show a < a + rec.layout.size; omega⟩⟩ (hdis a rec hl a)
      have hz : ∀ x, a ≤ x → x < a + L.size → ∀ m, writeZeros m a L.size x = 0 := by
        intro x k1 k2 m
        obtain ⟨i, rfl⟩ := Nat.exists_eq_add_of_le k1
        simp only [writeZeros]
        rw [writeBytes_of_mem (by rw [List.length_replicate]; omega)]
        simp
      have ho : ∀ x, ¬ (a ≤ x ∧ x < a + L.size) → ∀ m, writeZeros m a L.size x = m x := by
        intro x k m
        exact writeBytes_of_not_mem (by rw [List.length_replicate]; exact k)
      have hlink : ∀ x r, (s.heap.set a (some ⟨L, none, s.serials⟩)).link x = some r → (x = a ∧ r = ⟨L, none, s.serials⟩) ∨ (x ≠ a ∧ s.heap.link x = some r) := by
        intro x r hx
        simp only [LHeap.set] at hx
        by_cases hxa : x = a
        · rw [if_pos hxa] at hx; cases hx; exact .inl ⟨hxa, rfl⟩
        · rw [if_neg hxa] at hx; exact .inr ⟨hxa, hx⟩
      have hother : ∀ x r, s.heap.link x = some r → ∀ y, x ≤ y → y < x + r.layout.size → ¬ (a ≤ y ∧ y < a + L.size) := by
        intro x r hx y k1 k2 k3
        exact hdis x r hx y ⟨k3, ⟨k1, k2⟩⟩
      refine ⟨?_, ?_, hr.granted, ⟨?_, ?_, hr.heap.freed, ?_, ?_, ?_⟩⟩
      · funext x
        show (if x = h then _ else b.roots x) = if x = h then _ else s.roots x
        rw [hr.roots]
      · show b.serials + 1 = s.serials + 1
        rw [hr.serials]
      · intro x
        show (if x = a then some (L, b.serials) else b.heap.block x) = Option.map _ (if x = a then _ else s.heap.link x)
        by_cases hxa : x = a
        · rw [if_pos hxa, if_pos hxa, hr.serials]; rfl
        · rw [if_neg hxa, if_neg hxa]; exact hr.heap.same x
      · intro x r hx
        show loadNext c (writeZeros b.heap.mem a L.size) x = r.next
        rcases hlink x r hx with ⟨rfl, rfl⟩ | ⟨h1, h2⟩
        · have : loadUsize c.t (writeZeros b.heap.mem x L.size) x = 0 := by
            have : loadUsize c.t (writeZeros b.heap.mem x L.size) x = loadUsize c.t (storeUsize c.t (fun _ => 0) x 0) x := by
              rw [loadUsize_storeUsize _ _ _ hW]
              have hrep : readBytes (writeZeros b.heap.mem x L.size) x c.t.wordBytes = List.replicate c.t.wordBytes 0 := by
                apply List.ext_getElem
                · simp [readBytes]
                · intro i k1 k2
                  simp only [readBytes, List.getElem_map, List.getElem_range, List.getElem_replicate]
                  simp only [List.length_replicate] at k2
                  exact hz _ (by omega) (by omega) _
              rw [loadUsize, hrep, leNat_replicate_zero]
            rw [this, loadUsize_storeUsize _ _ _ hW]
          simp only [loadNext, this, if_true]
        · rw [← hr.heap.next x r h2]
          have := hr.heap.room x r h2
          exact loadNext_congr fun y k1 k2 => ho y (hother x r h2 y k1 (by omega)) _
      · intro x r hx
        rcases hlink x r hx with ⟨rfl, rfl⟩ | ⟨h1, h2⟩
        · show 2 * c.t.wordBytes ≤ L.size
          omega
        · exact hr.heap.room x r h2
      · intro x y r r' hx hy hne
        rcases hlink x r hx with ⟨rfl, rfl⟩ | ⟨h1, h2⟩
        · rcases hlink y r' hy with ⟨rfl, rfl⟩ | ⟨h3, h4⟩
          · exact absurd rfl hne
          · exact hdis y r' h4
        · rcases hlink y r' hy with ⟨rfl, rfl⟩ | ⟨h3, h4⟩
          · exact (hdis x r h2).symm
          · exact hr.heap.disj x y r r' h2 h4 hne
      · intro x r hx y k1 k2
        show writeZeros b.heap.mem a L.size y = writeZeros s.mem a L.size y
        rcases hlink x r hx with ⟨rfl, rfl⟩ | ⟨h1, h2⟩
        · rw [hz y (by omega) k2, hz y (by omega) k2]
        · have hno := hother x r h2 y (by omega) k2
          rw [ho y hno, ho y hno]
          exact hr.heap.bytes x r h2 y k1 k2

theorem bumpBox_rel {b : BState} {s s' : CState} {P : Nat → List LPtr} (hr : Rel c b s) (hi : CInv c.t s P) {h : Nat} {T : Layout} {r : CRet}
    (hT : T.ValidType c.t) (hx : chainBumpBox c.t s h T = .ret (r, s')) : ∃ b', bBumpBox c b h T = .ret (r, b') ∧ Rel c b' s' := by
  unfold chainBumpBox at hx
  unfold bBumpBox
  rw [show b.roots h = s.roots h by rw [hr.roots]]
  cases hro : s.roots h with
  | none => rw [hro] at hx; cases hx
  | some ro =>
    rw [hro] at hx
    cases ro with
    | none => cases hx; exact ⟨b, rfl, hr⟩
    | some root =>
      obtain ⟨qs, rec, hPc, hl, hlay, _⟩ := (hi.chained h _ hro).some_cons
      have hmem : root ∈ P h := by rw [hPc]; simp
      have hv := hi.valid hmem
      have hcap : (root.asBump c.t).level c.t s.mem ≤ (root.asBump c.t).cap := (hi.cap h root hmem).2
      have hlev := level_rel hr hi hmem
      have hal : 0 < T.align := by
        obtain ⟨⟨k, hk⟩, _⟩ := hT.1
        rw [hk]; exact Nat.pow_pos (by decide)
      simp only [hl, BumpBoxes.bumpBox_spec hv hcap hal] at hx
      simp only [hr.heap.block hl, BumpBoxes.bumpBox_spec hv (m := b.heap.mem) (by rw [hlev]; exact hcap) hal, hlev]
      by_cases h0 : T.size = 0
      · rw [if_pos h0] at hx ⊢
        cases hx
        exact ⟨b, rfl, hr⟩
      · rw [if_neg h0] at hx ⊢
        cases hpl : ((root.asBump c.t).slab c.t).place T ((root.asBump c.t).level c.t s.mem) with
        | none =>
          rw [hpl] at hx
          cases hx
          exact ⟨_, rfl, hr⟩
        | some al =>
          rw [hpl] at hx
          cases hx
          refine ⟨_, rfl, hr.roots, hr.serials, by show _ :: b.granted = _ :: s.granted; rw [hr.granted], ?_⟩
          have hb := root.block_size c.t
          simp only [LPtr.block, ← hlay] at hb
          refine hr.heap.inside hl (m1 := storeUsize c.t b.heap.mem (root.asBump c.t).addr al.level) ?_ ?_
          · intro x hxe
            simp only [storeUsize, writeBytes]
            rw [hxe]
          · intro x hno
            apply storeUsize_of_not_mem
            simp only [LPtr.asBump]
            omega

theorem capacity_rel {b : BState} {s : CState} (hr : Rel c b s) {h : Nat} : bCapacity b h = chainCapacity s h := by
  unfold bCapacity chainCapacity
  rw [hr.roots]
  cases s.roots h with
  | none => rfl
  | some ro =>
    cases ro with
    | none => rfl
    | some root =>
      simp only [hr.heap.same]
      cases s.heap.link root.addr <;> rfl

theorem remaining_rel {b : BState} {s : CState} {P : Nat → List LPtr} (hr : Rel c b s) (hi : CInv c.t s P) {h : Nat} : bRemaining c b h = chainRemaining c.t s h := by
  unfold bRemaining chainRemaining
  rw [capacity_rel hr, show b.roots h = s.roots h by rw [hr.roots]]
  cases hro : s.roots h with
  | none => rfl
  | some ro =>
    cases ro with
    | none => rfl
    | some root =>
      obtain ⟨qs, rec, hPc, hl, hlay, _⟩ := (hi.chained h _ hro).some_cons
      have hmem : root ∈ P h := by rw [hPc]; simp
      simp only [hr.heap.block hl, hl, level_rel hr hi hmem]

theorem chain_rel {b : BState} {s s' : CState} {P : Nat → List LPtr} (hr : Rel c b s) (hi : CInv c.t s P) {h d : Nat} {r : CRet}
    (hx : chainChain c.t s h d = .ret (r, s')) : ∃ b', bChain c b h d = .ret (r, b') ∧ Rel c b' s' := by
  unfold chainChain at hx
  unfold bChain
  rw [show b.roots h = s.roots h by rw [hr.roots], show b.roots d = s.roots d by rw [hr.roots]]
  cases hrh : s.roots h with
  | none => rw [hrh] at hx; cases hx
  | some selfBump =>
    cases hrd : s.roots d with
    | none => rw [hrh, hrd] at hx; cases hx
    | some newRoot =>
      rw [hrh, hrd] at hx
      cases newRoot with
      | none =>
        cases hx
        refine ⟨_, rfl, ?_, hr.serials, ?_, hr.heap⟩
        · funext x
          simp only [BState.setRoot, CState.setRoot, hr.roots]
        · simp only [BState.setRoot, CState.setRoot, hr.granted]
      | some root =>
        simp only at hx ⊢
        obtain ⟨s1, hx1, hx2⟩ := bind_ret hx
        obtain ⟨hp, hx3, hx4⟩ := bind_ret hx1
        cases hx4
        cases hx2
        obtain ⟨b', hb1, hb2⟩ := setNext_rel hr.heap (ptrOk hi hrh) hx3
        have hb1' : Link.setNext c chainDepth ((b.setRoot h (some none)).serials + 1) (b.setRoot h (some none)).heap root selfBump = .ret b' := by
          rw [← hb1]; simp only [BState.setRoot, CState.setRoot, hr.serials]
        refine ⟨{ ((((({ (b.setRoot h (some none)) with heap := b' } : BState).setRoot h (some (some root))).setRoot d (some none)) : BState).setRoot d none)
            with granted := b.granted.filter fun g => g.1 ≠ d }, by rw [hb1']; rfl, ?_, hr.serials, ?_, hb2⟩
        · funext x
          simp only [BState.setRoot, CState.setRoot, hr.roots]
        · simp only [BState.setRoot, CState.setRoot, hr.granted]

theorem drop_rel {b : BState} {s s' : CState} (hr : Rel c b s) {h : Nat} {r : CRet}
    (hx : chainDrop c.t s h = .ret (r, s')) : ∃ b', bDrop c b h = .ret (r, b') ∧ Rel c b' s' := by
  unfold chainDrop at hx
  unfold bDrop
  rw [show b.roots h = s.roots h by rw [hr.roots]]
  cases hrh : s.roots h with
  | none => rw [hrh] at hx; cases hx
  | some root =>
    rw [hrh] at hx
    obtain ⟨hp, hx1, hx2⟩ := bind_ret hx
    cases hx2
    obtain ⟨b', hb1, hb2⟩ := dropLoop_rel (db := Link.dropBox c chainDepth (s.serials + 1)) (dr := Unsync.Link.dropBox c.t chainDepth (s.serials + 1)) (fun _ _ _ _ hr hx => dropBox_rel chainDepth hr hx) _ hr.heap hx1
    have hb1' : Link.dropLoop c (Link.dropBox c chainDepth (b.serials + 1)) (b.serials + 1) b.heap root = .ret b' := by
      rw [← hb1]; simp only [hr.serials]
    refine ⟨{ (({ b with heap := b' } : BState).setRoot h none) with granted := b.granted.filter fun g => g.1 ≠ h },
      by simp only [hb1', bind, Outcome.bind]; rfl, ?_, hr.serials, ?_, hb2⟩
    · funext x
      simp only [BState.setRoot, CState.setRoot, hr.roots]
    · simp only [BState.setRoot, CState.setRoot, hr.granted]

theorem write_rel {b : BState} {s : CState} {P : Nat → List LPtr} (hr : Rel c b s) (hi : CInv c.t s P) {h : Nat} {blk : Block} {off : Nat} {bytes : List Byte}
    (ha : (COp.write h blk off bytes).Allowed c.t s) :
    Rel c { b with heap := { b.heap with mem := writeBytes b.heap.mem (blk.ptr + off) bytes } } { s with mem := writeBytes s.mem (blk.ptr + off) bytes } := by
  obtain ⟨hg, hoff⟩ := ha
  obtain ⟨p, hp, k1, k2, _, _⟩ := hi.grants _ hg
  obtain ⟨rec, hl, hlay⟩ := hi.alloc hp
  have hcap := (hi.cap _ p hp).2
  have hb := p.block_size c.t
  simp only [LPtr.block, ← hlay] at hb
  simp only [LPtr.data] at k1 k2
  refine ⟨hr.roots, hr.serials, hr.granted, hr.heap.inside hl ?_ ?_⟩
  · intro x hxe
    simp only [writeBytes]
    rw [hxe]
  · intro x hno
    apply writeBytes_of_not_mem
    omega

theorem call_rel {b : BState} {s s' : CState} {P : Nat → List LPtr} (hr : Rel c b s) (hi : CInv c.t s P) {op : COp} {r : CRet}
    (ha : op.Allowed c.t s) (hx : cexec c.t s op = .ret (r, s')) : ∃ b', bexec c b (.call op) = .ret (r, b') ∧ Rel c b' s' := by
  cases op with
  | new h size heap => exact new_rel hr ha hx
  | bumpBox h T => exact bumpBox_rel hr hi ha.2 hx
  | chain h d => exact chain_rel hr hi hx
  | capacity h =>
    simp only [cexec] at hx
    obtain ⟨n, h1, h2⟩ := bind_ret hx
    cases h2
    exact ⟨b, by simp only [bexec, capacity_rel hr, h1]; rfl, hr⟩
  | remaining h =>
    simp only [cexec] at hx
    simp only [bexec, remaining_rel hr hi]
    cases hrem : chainRemaining c.t s h with
    | ub => rw [hrem] at hx; cases hx
    | panic => rw [hrem] at hx; cases hx; exact ⟨b, rfl, hr⟩
    | ret n => rw [hrem] at hx; cases hx; exact ⟨b, rfl, hr⟩
  | drop h => exact drop_rel hr hx
  | write h blk off bytes =>
    cases hx
    exact ⟨_, rfl, write_rel hr hi ha⟩

theorem elsewhere_rel {b : BState} {s : CState} (hr : Rel c b s) {a : Nat} {bytes : List Byte} (ha : (BOp.elsewhere a bytes).Allowed c b) :
    Rel c { b with heap := { b.heap with mem := writeBytes b.heap.mem a bytes } } s := by
  have hkeep : ∀ x r, s.heap.link x = some r → ∀ y, x ≤ y → y < x + r.layout.size → writeBytes b.heap.mem a bytes y = b.heap.mem y := by
    intro x r hx y k1 k2
    apply writeBytes_of_not_mem
    intro k3
    exact ha x r.layout r.serial (hr.heap.block hx) y ⟨k3, ⟨k1, k2⟩⟩
  refine ⟨hr.roots, hr.serials, hr.granted, hr.heap.same, ?_, hr.heap.freed, hr.heap.room, hr.heap.disj, ?_⟩
  · intro x r hx
    rw [← hr.heap.next x r hx]
    have := hr.heap.room x r hx
    exact loadNext_congr fun y k1 k2 => hkeep x r hx y k1 (by omega)
  · intro x r hx y k1 k2
    show writeBytes b.heap.mem a bytes y = _
    rw [hkeep x r hx y (by omega) k2]
    exact hr.heap.bytes x r hx y k1 k2

/-! ## The model with records and the lists of slabs -/

def view (t : Target) (m : Mem) (p : LPtr) : SLink := ⟨p.addr, p.cap, p.level t m⟩

/-- The lists are the paths. -/
def SRel (t : Target) (s : CState) (P : Nat → List LPtr) (σ : Chains) : Prop :=
  ∀ h, σ h = (s.roots h).map fun _ => (P h).map (view t s.mem)

theorem view_congr {t : Target} {m m' : Mem} {ps : List LPtr} (h : ∀ p ∈ ps, p.level t m' = p.level t m) : ps.map (view t m') = ps.map (view t m) := by
  apply List.map_congr_left
  intro p hp
  simp only [view, h p hp]

theorem sexec_rel {t : Target} {s s' : CState} {P : Nat → List LPtr} {σ : Chains} (hi : CInv t s P) (hs : SRel t s P σ) {op : COp} {r : CRet}
    (ha : op.Allowed t s) (hx : cexec t s op = .ret (r, s')) :
    ∃ P', CInv t s' P' ∧ (sexec t σ (.call op)).1 = r ∧ SRel t s' P' (sexec t σ (.call op)).2 := by
  cases op with
  | new h size hp =>
    cases hL : linkLayoutFromSize t size with
    | none =>
      simp only [cexec, chainNew, hL] at hx
      cases hx
      refine ⟨P, hi, ?_, ?_⟩ <;> simp only [sexec, hL]
      exact hs
    | some L =>
      cases hp with
      | none =>
        simp only [cexec, chainNew, hL] at hx
        cases hx
        refine ⟨P, hi, ?_, ?_⟩ <;> simp only [sexec, hL]
        exact hs
      | some a =>
        obtain ⟨s1, h1, h2, _, _, h3, h4, h5⟩ := chainNew_inv hi ha hL rfl
        rw [h1] at hx
        cases hx
        refine ⟨_, h2, ?_, ?_⟩ <;> simp only [sexec, hL]
        intro x
        simp only [Chains.set, h3]
        by_cases hxh : x = h
        · subst hxh
          simp only [if_true, pathSet_same, Option.map_some, List.map_cons, List.map_nil, view, h5]
        · simp only [if_neg hxh, pathSet_other P _ hxh, hs x]
          congr 1
          funext _
          refine (view_congr fun p hp => ?_).symm
          obtain ⟨rec, k1, k2⟩ := hi.alloc hp
          have hd := (ha.2.2 a L rfl hL).2.2.2 _ _ k1
          have hb := p.block_size t
          simp only [LPtr.block, ← k2] at hb
          exact level_congr fun y y1 y2 => h4 y fun y3 => hd y ⟨y3, ⟨by show p.addr ≤ y; omega, by show y < p.addr + rec.layout.size; omega⟩⟩
  | bumpBox h T =>
    obtain ⟨r1, s1, h1, h2, hroots, _, _, _⟩ := chainBumpBox_inv hi ha
    rw [h1] at hx
    have hx' : r1 = r ∧ s1 = s' := by
      have := Outcome.ret.inj hx
      exact ⟨congrArg Prod.fst this, congrArg Prod.snd this⟩
    obtain ⟨rfl, rfl⟩ := hx'
    refine ⟨P, h2, ?_⟩
    have hT := ha.2
    simp only [cexec, chainBumpBox] at h1
    cases hro : s.roots h with
    | none => exact absurd hro ha.1
    | some ro =>
      rw [hro] at h1
      have hσ : σ h = some ((P h).map (view t s.mem)) := by rw [hs h, hro]; rfl
      cases ro with
      | none =>
        cases h1
        have hP := (hi.chained h _ hro).none_nil
        rw [hP] at hσ
        simp only [sexec, hσ, List.map_nil]
        exact ⟨trivial, hs⟩
      | some root =>
        obtain ⟨qs, rec, hPc, hl, hlay, _⟩ := (hi.chained h _ hro).some_cons
        have hmem : root ∈ P h := by rw [hPc]; simp
        have hv := hi.valid hmem
        have hcap : (root.asBump t).level t s.mem ≤ (root.asBump t).cap := (hi.cap h root hmem).2
        have hal : 0 < T.align := by
          obtain ⟨⟨k, hk⟩, _⟩ := hT.1
          rw [hk]; exact Nat.pow_pos (by decide)
        have hslab : (view t s.mem root).slab t = (root.asBump t).slab t := by
          simp only [MemBump.slab, LPtr.asBump, SLink.slab, view]
          congr 1
          omega
        simp only [hl, BumpBoxes.bumpBox_spec hv hcap hal] at h1
        rw [hPc, List.map_cons] at hσ
        simp only [sexec, hσ, hslab]
        by_cases h0 : T.size = 0
        · rw [if_pos h0] at h1 ⊢
          cases h1
          exact ⟨rfl, hs⟩
        · rw [if_neg h0] at h1 ⊢
          have hlv : (view t s.mem root).level = (root.asBump t).level t s.mem := rfl
          rw [hlv]
          cases hpl : ((root.asBump t).slab t).place T ((root.asBump t).level t s.mem) with
          | none =>
            rw [hpl] at h1
            cases h1
            exact ⟨rfl, hs⟩
          | some al =>
            rw [hpl] at h1
            cases h1
            refine ⟨rfl, fun x => ?_⟩
            have hother : ∀ d, ∀ q ∈ P d, q.addr ≠ root.addr → q.level t (storeUsize t s.mem (root.asBump t).addr al.level) = q.level t s.mem := by
              intro d q hq hne
              apply level_congr
              intro y y1 y2
              apply storeUsize_of_not_mem
              intro y3
              have hb1 := q.block_size t
              have hb2 := root.block_size t
              simp only [LPtr.asBump] at y3
              exact hi.blocks hq hmem hne y ⟨⟨by show q.addr ≤ y; omega, by show y < q.addr + (q.block t).size; omega⟩,
                ⟨by show root.addr ≤ y; omega, by show y < root.addr + (root.block t).size; omega⟩⟩
            have hW : al.level < t.W := by
              have hk : al.level ≤ root.cap := by
                simp only [Slab.place] at hpl
                split at hpl
                · cases hpl
                  simp only [MemBump.slab, LPtr.asBump] at *
                  omega
                · cases hpl
              have := (hi.cap h root hmem).1
              have := Bump.isizeMax_lt t
              omega
            have hfront : root.level t (storeUsize t s.mem (root.asBump t).addr al.level) = al.level := loadUsize_storeUsize _ _ _ hW
            simp only [Chains.set]
            by_cases hxh : x = h
            · subst hxh
              have hnd := hi.nodup x
              rw [hPc, List.map_cons, List.nodup_cons] at hnd
              rw [if_pos rfl, hro, hPc]
              simp only [Option.map_some, List.map_cons]
              congr 1
              congr 1
              · simp only [view, hfront]
              · refine (view_congr fun p hp => ?_).symm
                refine hother x p (by rw [hPc]; simp [hp]) fun he => hnd.1 ?_
                rw [← he]; exact List.mem_map.mpr ⟨p, hp, rfl⟩
            · rw [if_neg hxh, hs x]
              congr 1
              funext _
              refine (view_congr fun p hp => ?_).symm
              exact hother x p hp fun he => hi.apart x h hxh p hp root hmem he
  | chain h d =>
    obtain ⟨s1, P', h1, h2, h3, h4, h5, h6, h7, _, h9, _, _, h12⟩ := chainChain_inv hi ha.1 ha.2.1 ha.2.2
    rw [h1] at hx
    cases hx
    refine ⟨P', h2, rfl, fun x => ?_⟩
    simp only [sexec, Chains.set]
    by_cases hxd : x = d
    · subst hxd
      rw [if_pos rfl, h6]; rfl
    · rw [if_neg hxd]
      by_cases hxh : x = h
      · subst hxh
        rw [if_pos rfl, hs x, hs d]
        cases hrx : s.roots x with
        | none => exact absurd hrx ha.1
        | some ro =>
          cases hrd : s.roots d with
          | none => exact absurd hrd ha.2.1
          | some rd =>
            have hroot : s'.roots x ≠ none := by
              intro hn
              cases rd with
              | some rd => rw [h12 rd hrd] at hn; cases hn
              | none =>
                simp only [cexec, chainChain, hrx, hrd, bind, Outcome.bind, pure] at h1
                have h1 := (Prod.ext_iff.mp (Outcome.ret.inj h1)).2
                simp only at h1
                rw [← h1] at hn
                simp only [CState.setRoot, if_neg hxd, if_true] at hn
                cases hn
            cases hrx' : s'.roots x with
            | none => exact absurd hrx' hroot
            | some _ => simp only [Option.map_some, Option.getD_some, h4, h9, List.map_append, List.map_take]
      · rw [if_neg hxh, hs x, h7 x hxh hxd, h3 x hxh hxd, h9]
  | capacity h =>
    cases hro : s.roots h with
    | none => exact absurd hro ha
    | some ro =>
      have hσ : σ h = some ((P h).map (view t s.mem)) := by rw [hs h, hro]; rfl
      cases ro with
      | none =>
        simp only [cexec, chainCapacity, hro, pure, bind, Outcome.bind] at hx
        cases hx
        have hP := (hi.chained h _ hro).none_nil
        exact ⟨P, hi, by simp only [sexec, hσ, hP]; rfl, hs⟩
      | some root =>
        obtain ⟨qs, rec, hPc, _⟩ := (hi.chained h _ hro).some_cons
        simp only [cexec, (hi.remaining hro).1, pure, bind, Outcome.bind] at hx
        cases hx
        exact ⟨P, hi, by simp only [sexec, hσ, hPc]; rfl, hs⟩
  | remaining h =>
    cases hro : s.roots h with
    | none => exact absurd hro ha
    | some ro =>
      have hσ : σ h = some ((P h).map (view t s.mem)) := by rw [hs h, hro]; rfl
      cases ro with
      | none =>
        simp only [cexec, chainRemaining, hro, pure] at hx
        cases hx
        have hP := (hi.chained h _ hro).none_nil
        exact ⟨P, hi, by simp only [sexec, hσ, hP]; rfl, hs⟩
      | some root =>
        obtain ⟨qs, rec, hPc, _⟩ := (hi.chained h _ hro).some_cons
        simp only [cexec, (hi.remaining hro).2, pure] at hx
        cases hx
        exact ⟨P, hi, by simp only [sexec, hσ, hPc]; rfl, hs⟩
  | drop h =>
    obtain ⟨s1, h1, h2, _, h4, _, h6, _⟩ := chainDrop_inv hi ha
    rw [h1] at hx
    cases hx
    refine ⟨_, h2, rfl, fun x => ?_⟩
    simp only [sexec, Chains.set, h6, h4]
    by_cases hxh : x = h
    · rw [if_pos hxh, if_pos hxh]; rfl
    · rw [if_neg hxh, if_neg hxh, pathSet_other P _ hxh]; exact hs x
  | write h blk off bytes =>
    cases hx
    obtain ⟨h1, h2⟩ := write_inv hi ha
    refine ⟨P, h1, rfl, fun x => ?_⟩
    simp only [sexec, hs x]
    congr 1
    funext _
    exact (view_congr fun p hp => h2 x p hp).symm

/-! ## Runs -/

/-- The three models together. -/
def Sim (c : Cfg) (b : BState) (σ : Chains) : Prop := ∃ s P, CReach c.t s ∧ CInv c.t s P ∧ Rel c b s ∧ SRel c.t s P σ

theorem Sim.init (c : Cfg) (m : Mem) : Sim c (.init m) fun _ => none := by
  refine ⟨⟨⟨fun _ => none, []⟩, m, fun _ => none, 0, []⟩, fun _ => [], .init, ?_, ⟨rfl, rfl, rfl, ?_⟩, ?_⟩
  · refine ⟨?_, ?_, ?_, ?_, ?_, ⟨?_, ?_, ?_, ?_⟩, ?_, ?_, ?_, ?_, ?_⟩ <;> simp
  · refine ⟨?_, ?_, rfl, ?_, ?_, ?_⟩ <;> simp [BState.init]
  · intro h; rfl

theorem Sim.step {b : BState} {σ : Chains} (hs : Sim c b σ) {op : BOp} (ha : op.Allowed c b) :
    ∃ r b', bexec c b op = .ret (r, b') ∧ (sexec c.t σ op).1 = r ∧ Sim c b' (sexec c.t σ op).2 := by
  obtain ⟨s, P, hre, hi, hr, hsr⟩ := hs
  cases op with
  | elsewhere a bytes => exact ⟨.unit, _, rfl, rfl, s, P, hre, hi, elsewhere_rel hr ha, hsr⟩
  | call op =>
    have ha' := allowed_rel hr ha
    obtain ⟨r, s', _, h1, _, _⟩ := cexec_inv hi ha'
    obtain ⟨b', h2, h3⟩ := call_rel hr hi ha' h1
    obtain ⟨P', h4, h5, h6⟩ := sexec_rel hi hsr ha' h1
    exact ⟨r, b', h2, h5, s', P', .step hre ha' h1, h4, h3, h6⟩

theorem Sim.run : ∀ (ops : List BOp) {b : BState} {σ : Chains}, Sim c b σ → SafeRun c b ops →
    ∃ b', brun c b ops = .ret ((srun c.t σ ops).1, b') ∧ Sim c b' (srun c.t σ ops).2
  | [], b, _, hs, _ => ⟨b, rfl, hs⟩
  | op :: ops, b, σ, hs, ⟨ha, hrest⟩ => by
    obtain ⟨r, b1, h1, h2, h3⟩ := hs.step ha
    obtain ⟨b2, h4, h5⟩ := Sim.run ops h3 (hrest r b1 h1)
    refine ⟨b2, ?_, h5⟩
    simp only [brun, h1, h4, bind, Outcome.bind, pure, srun, h2]

theorem found_of {b : BState} {s : CState} {P : Nat → List LPtr} (hr : Rel c b s) (hi : CInv c.t s P) {h : Nat} : ∀ {ps : List LPtr} {r : Option LPtr}, Chained c.t s.heap r ps → (∀ p ∈ ps, p ∈ P h) →
    Found c b.heap r (ps.map (view c.t s.mem))
  | [], none, _, _ => trivial
  | p :: ps, some _, ⟨h1, rec, h2, h3, h4⟩, hall => by
    cases h1
    refine ⟨⟨rec.serial, by rw [hr.heap.block h2, h3]⟩, ?_, ?_⟩
    · have := level_rel hr hi (hall p (by simp))
      simp only [view, LPtr.level, ← this]
      rfl
    · rw [hr.heap.next _ _ h2]
      exact found_of hr hi h4 fun q hq => hall q (by simp [hq])
  | [], some _, h, _ => absurd h id
  | _ :: _, none, h, _ => absurd h id

theorem Sim.shows {b : BState} {σ : Chains} (hs : Sim c b σ) : Shows c b σ := by
  obtain ⟨s, P, _, hi, hr, hsr⟩ := hs
  refine ⟨?_, ?_, ?_⟩
  · intro h
    rw [hsr h, hr.roots, Option.map_eq_none_iff]
  · intro h r ls h1 h2
    rw [hr.roots] at h1
    rw [hsr h, h1] at h2
    cases h2
    exact found_of hr hi (hi.chained h r h1) fun _ h => h
  · intro a
    rw [hr.heap.same]
    constructor
    · intro hne
      cases hl : s.heap.link a with
      | none => rw [hl] at hne; exact absurd rfl hne
      | some rec =>
        obtain ⟨h, p, hp, rfl⟩ := hi.covered a rec hl
        cases hro : s.roots h with
        | none => rw [hi.gone h hro] at hp; cases hp
        | some r => exact ⟨h, _, view c.t s.mem p, by rw [hsr h, hro]; rfl, List.mem_map.mpr ⟨p, hp, rfl⟩, rfl⟩
    · rintro ⟨h, ls, l, h1, h2, rfl⟩
      rw [hsr h] at h1
      cases hro : s.roots h with
      | none => rw [hro] at h1; cases h1
      | some r =>
        rw [hro] at h1
        cases h1
        obtain ⟨p, hp, rfl⟩ := List.mem_map.mp h2
        obtain ⟨rec, k1, _⟩ := hi.alloc hp
        show Option.map _ (s.heap.link p.addr) ≠ none
        rw [k1]
        simp

end Verif.Unsync.ChainMem
