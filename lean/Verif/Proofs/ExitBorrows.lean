import Verif.Spec.ExitBorrows
import Verif.Proofs.BumpBorrowsKept
import Mathlib.Data.List.Perm.Basic
/-! # The pointers in the list of `ExitStack` stay usable -/
set_option autoImplicit false
namespace Verif.ExitBorrows
open Verif Verif.Borrows
open Verif.VecBorrows (Ref mem_endRefs mem_keepRefs)
open Verif.BumpBorrows (Obj Inv Piece)

/-- A pointer which is made from no other, and from which all of its allocation are. -/
structure Root (b : BumpBorrows.St) (r : Ref) : Prop where
  mem : r ∈ b.refs
  mutable : r.mutable = true
  from_ : r.from_ = []
  only : ∀ q ∈ b.refs, q.owner = r.owner → q = r ∨ r.tag ∈ q.from_

theorem Root.of_refs {b b' : BumpBorrows.St} {r : Ref} (h : Root b r) (e : b'.refs = b.refs) : Root b' r :=
  ⟨e ▸ h.mem, h.mutable, h.from_, fun q hq => h.only q (e ▸ hq)⟩

theorem step_use {o : Obj} {w : Nat} {b b' : BumpBorrows.St} {q : Ref} {a : Access} {lo hi : Nat} (hs : BumpBorrows.step o w b (.use q a lo hi) = some b') :
    b'.refs = VecBorrows.keepRefs a q.tag q.from_ lo hi b.refs := by
  simp only [BumpBorrows.step] at hs
  cases hx : b.mem.access a q.tag lo hi with
  | none => rw [hx] at hs; cases hs
  | some m => rw [hx] at hs; cases hs; rfl

theorem step_reborrow {o : Obj} {w : Nat} {b b' : BumpBorrows.St} {q : Ref} {mu : Bool} {lo hi : Nat} (hs : BumpBorrows.step o w b (.reborrow q mu lo hi) = some b') :
    ∃ t, b'.refs = ⟨t, mu, lo, hi, q.owner, q.tag :: q.from_⟩ :: VecBorrows.keepRefs (if mu then .write else .read) q.tag q.from_ lo hi b.refs := by
  simp only [BumpBorrows.step] at hs
  cases hx : b.mem.retag mu q.tag lo hi with
  | none => rw [hx] at hs; cases hs
  | some m => rw [hx] at hs; cases hs; exact ⟨_, rfl⟩

/-- Whichever reference is used: the pointers that others are made from stay. -/
theorem Root.kept {o : Obj} {w : Nat} {b b' : BumpBorrows.St} {col : Nat → Col} (hv : Inv o w b col) {r : Ref} (h : Root b r) {q : Ref} (hq : q ∈ b.refs) {a : BumpBorrows.Act}
    (ha : (∃ c lo hi, a = .use q c lo hi) ∨ ∃ mu lo hi, a = .reborrow q mu lo hi) (hp : BumpBorrows.Permitted o w b a) (hs : BumpBorrows.step o w b a = some b') : Root b' r := by
  have hon : q.owner ≠ r.owner → r ∈ b'.refs := fun hne =>
    BumpBorrows.inv_other hv hp hs h.mem (by rcases ha with ⟨_, _, _, rfl⟩ | ⟨_, _, _, rfl⟩ <;> (intro e; cases e))
      (by rcases ha with ⟨_, _, _, rfl⟩ | ⟨_, _, _, rfl⟩ <;> exact hne)
  have hsame : q.owner = r.owner → r.tag = q.tag ∨ r.tag ∈ q.from_ := fun e => (h.only q hq e).imp (fun e => by rw [e]) id
  rcases ha with ⟨c, lo, hi, rfl⟩ | ⟨mu, lo, hi, rfl⟩
  · have e := step_use hs
    refine ⟨?_, h.mutable, h.from_, fun q' hq' => h.only q' ?_⟩
    · by_cases ho : q.owner = r.owner
      · rw [e]
        exact mem_keepRefs.2 ⟨h.mem, (hsame ho).imp id Or.inl⟩
      · exact hon ho
    · rw [e] at hq'
      exact (mem_keepRefs.1 hq').1
  · obtain ⟨t, e⟩ := step_reborrow hs
    refine ⟨?_, h.mutable, h.from_, fun q' hq' ho' => ?_⟩
    · by_cases ho : q.owner = r.owner
      · rw [e]
        exact List.mem_cons_of_mem _ (mem_keepRefs.2 ⟨h.mem, (hsame ho).imp id Or.inl⟩)
      · exact hon ho
    · rw [e] at hq'
      rcases List.mem_cons.1 hq' with rfl | hq'
      · refine Or.inr ?_
        rcases hsame ho' with e | e
        · exact List.mem_cons.2 (Or.inl e)
        · exact List.mem_cons_of_mem _ e
      · exact h.only q' (mem_keepRefs.1 hq').1 ho'

/-- One that is used can be used again: for instance as it was before. -/
theorem step_share {o : Obj} {w : Nat} {b b' : BumpBorrows.St} {t : Nat} (hs : BumpBorrows.step o w b (.share t) = some b') : b'.refs = b.refs := by
  simp only [BumpBorrows.step] at hs
  cases hx : b.mem.retagCell t o.lo o.hi with
  | none => rw [hx] at hs; cases hs
  | some q => rw [hx] at hs; cases hs; rfl

theorem step_level {o : Obj} {w : Nat} {b b' : BumpBorrows.St} {t : Nat} (hs : BumpBorrows.step o w b (.level t) = some b') : b'.refs = b.refs ∧ b'.shares = b.shares ∧ b'.pieces = b.pieces := by
  simp only [BumpBorrows.step] at hs
  cases hx : BumpBorrows.touchCell o t .read b.mem with
  | none => rw [hx] at hs; cases hs
  | some q => rw [hx] at hs; cases hs; exact ⟨rfl, rfl, rfl⟩

theorem owner_lt {o : Obj} {w : Nat} {b : BumpBorrows.St} {col : Nat → Col} (hv : Inv o w b col) {r : Ref} (h : r ∈ b.refs) : r.owner < b.pieces.length := by
  obtain ⟨p, hp, _⟩ := (hv.refs r h).owner
  obtain ⟨hl, _⟩ := List.getElem?_eq_some_iff.1 hp
  rw [List.length_map] at hl
  exact hl

/-- The invariant. -/
structure EInv (o : Obj) (w : Nat) (s : St) : Prop where
  bump : ∃ col, Inv o w s.bump col
  root : ∀ r, r ∈ s.slots ∨ r ∈ s.chain.map Pinned.ref → Root s.bump r
  value : ∀ p ∈ s.chain, (p.ref.lo ≤ p.vlo ∧ p.vlo ≤ p.vhi ∧ p.vhi ≤ p.ref.hi) ∧ ∀ d ∈ p.dtor, p.vlo ≤ d.2.1 ∧ d.2.2 ≤ p.vhi
  apart : ((s.slots ++ s.chain.map Pinned.ref).map Ref.owner).Nodup

theorem Start.einv {o : Obj} {w : Nat} {s : St} (h : Start o w s) : EInv o w s :=
  ⟨h.bump.inv, by rw [h.slots, h.chain]; simp, by rw [h.chain]; simp, by rw [h.slots, h.chain]; simp⟩

/-- `slot`. -/
theorem EInv.slot {o : Obj} (ho : o.Valid) {w : Nat} {s : St} (h : EInv o w s) {t : Nat} {l : Layout} (ht : t = w ∨ t ∈ s.bump.shares) (h1 : 0 < l.size) (h2 : 0 < l.align) :
    ∃ s', slot o w s t l = some s' ∧ EInv o w s' ∧ (∀ r ∈ s.bump.refs, r ∈ s'.bump.refs) := by
  obtain ⟨col, hv⟩ := h.bump
  have p1 : BumpBorrows.Permitted o w s.bump (.level t) := ht
  obtain ⟨b, colb, eb, vb⟩ := hv.step ho p1
  obtain ⟨rb, sb, pb⟩ := step_level eb
  have p2 : BumpBorrows.Permitted o w b (.alloc t l none) := ⟨by rw [sb]; exact ht, h1, h2, fun n e => by cases e⟩
  obtain ⟨c, colc, ec, vc⟩ := vb.step ho p2
  obtain ⟨rc, _, _, hc⟩ := BumpBorrows.inv_allocated ho vb p2 ec
  rcases hc with ⟨hc, _⟩ | ⟨p, hc, hk, _⟩
  · refine ⟨{ s with bump := c }, ?_, ⟨⟨colc, vc⟩, fun r hr => (h.root r hr).of_refs (by rw [rc, rb]), h.value, h.apart⟩, fun r hr => by change r ∈ c.refs; rw [rc, rb]; exact hr⟩
    unfold ExitBorrows.slot
    rw [eb]
    change (BumpBorrows.step o w b (.alloc t l none)).bind _ = _
    rw [ec]
    change (if c.pieces.length = b.pieces.length then _ else _) = _
    rw [if_pos (by rw [hc])]
    rfl
  · have hj : c.pieces[b.pieces.length]? = some p := by rw [hc]; simp
    have p3 : BumpBorrows.Permitted o w c (.uninit b.pieces.length) := ⟨p, hj, hk⟩
    obtain ⟨d, cold, ed, vd⟩ := vc.step ho p3
    obtain ⟨r₁, rest, e1, e2, e3, e4⟩ : ∃ r rest, d.refs = r :: rest ∧ r.mutable = true ∧ r.from_ = [] ∧ r.owner = b.pieces.length ∧ rest = VecBorrows.endRefs b.pieces.length c.refs := by
      have hs := ed
      simp only [BumpBorrows.step, hj] at hs
      cases hx : BumpBorrows.uninit p c.mem with
      | none => rw [hx] at hs; cases hs
      | some q => rw [hx] at hs; cases hs; exact ⟨_, _, rfl, rfl, rfl, rfl, rfl⟩
    have old : ∀ r ∈ s.bump.refs, r ∈ c.refs ∧ r.owner ≠ b.pieces.length := fun r hr =>
      ⟨by rw [rc, rb]; exact hr, by have := owner_lt hv hr; rw [pb]; omega⟩
    have keep : ∀ r ∈ s.bump.refs, r ∈ d.refs := fun r hr => by
      rw [e1, e4.2]
      exact List.mem_cons_of_mem _ (mem_endRefs.2 (old r hr))
    refine ⟨⟨d, d.refs.take 1 ++ s.slots, s.chain⟩, ?_, ⟨⟨cold, vd⟩, ?_, h.value, ?_⟩, keep⟩
    · unfold ExitBorrows.slot
      rw [eb]
      change (BumpBorrows.step o w b (.alloc t l none)).bind _ = _
      rw [ec]
      change (if c.pieces.length = b.pieces.length then _ else _) = _
      rw [if_neg (by rw [hc, List.length_append, List.length_singleton]; omega)]
      rw [ed]
      rfl
    · have new : Root d r₁ := by
        refine ⟨by rw [e1]; exact List.mem_cons_self, e2, e3, fun q hq ho' => ?_⟩
        rw [e1] at hq
        rcases List.mem_cons.1 hq with e | hq
        · exact Or.inl e
        · rw [e4.2] at hq
          exact absurd (ho'.trans e4.1) (mem_endRefs.1 hq).2
      have ors : ∀ r, r ∈ s.slots ∨ r ∈ s.chain.map Pinned.ref → Root d r := by
        intro r hr
        have hR := h.root r hr
        refine ⟨keep r hR.mem, hR.mutable, hR.from_, fun q hq ho' => ?_⟩
        rw [e1] at hq
        rcases List.mem_cons.1 hq with e | hq
        · have := (old r hR.mem).2
          rw [e, e4.1] at ho'
          exact absurd ho'.symm this
        · rw [e4.2] at hq
          have := (mem_endRefs.1 hq).1
          rw [rc, rb] at this
          exact hR.only q this ho'
      intro r hr
      rcases hr with hr | hr
      · rcases List.mem_append.1 hr with hr | hr
        · rw [e1] at hr
          rw [List.mem_singleton.1 hr]
          exact new
        · exact ors r (Or.inl hr)
      · exact ors r (Or.inr hr)
    · rw [e1]
      change (r₁.owner :: (s.slots ++ s.chain.map Pinned.ref).map Ref.owner).Nodup
      refine List.nodup_cons.2 ⟨fun hm => ?_, h.apart⟩
      obtain ⟨q, hq, e⟩ := List.mem_map.1 hm
      have := (old q (h.root q (List.mem_append.1 hq)).mem).2
      omega

/-- A reference is used. -/
theorem EInv.using {o : Obj} (ho : o.Valid) {w : Nat} {b : BumpBorrows.St} (hv : ∃ col, Inv o w b col) {q : Ref} (hq : q ∈ b.refs) {a : BumpBorrows.Act}
    (ha : (∃ c lo hi, a = .use q c lo hi) ∨ ∃ mu lo hi, a = .reborrow q mu lo hi) (hp : BumpBorrows.Permitted o w b a) :
    ∃ b', BumpBorrows.step o w b a = some b' ∧ (∃ col, Inv o w b' col) ∧ (∀ r, Root b r → Root b' r) ∧ ∀ r ∈ b.refs, r.owner ≠ q.owner → r ∈ b'.refs := by
  obtain ⟨col, hv⟩ := hv
  obtain ⟨b', col', e, v⟩ := hv.step ho hp
  refine ⟨b', e, ⟨col', v⟩, fun r h => h.kept hv hq ha hp e, fun r hr hne => ?_⟩
  exact BumpBorrows.inv_other hv hp e hr (by rcases ha with ⟨_, _, _, rfl⟩ | ⟨_, _, _, rfl⟩ <;> (intro e; cases e))
      (by rcases ha with ⟨_, _, _, rfl⟩ | ⟨_, _, _, rfl⟩ <;> exact fun e => hne e.symm)

theorem runDtor_ok {o : Obj} (ho : o.Valid) {w : Nat} {q : Ref} (hm : q.mutable = true) : ∀ (ds : List (Access × Nat × Nat)) (b : BumpBorrows.St), (∃ col, Inv o w b col) → q ∈ b.refs →
    (∀ d ∈ ds, q.lo ≤ d.2.1 ∧ d.2.2 ≤ q.hi) → ∃ b', runDtor o w q b ds = some b' ∧ (∃ col, Inv o w b' col) ∧ ∀ r, Root b r → Root b' r
  | [], b, hv, _, _ => ⟨b, rfl, hv, fun _ h => h⟩
  | d :: ds, b, hv, hq, hb => by
    obtain ⟨b1, e1, v1, r1, _⟩ := EInv.using ho hv hq (a := .use q d.1 d.2.1 d.2.2) (Or.inl ⟨_, _, _, rfl⟩) ⟨hq, fun _ => hm, hb d List.mem_cons_self⟩
    have hq1 : q ∈ b1.refs := by
      rw [step_use e1]
      exact mem_keepRefs.2 ⟨hq, Or.inl rfl⟩
    obtain ⟨b2, e2, v2, r2⟩ := runDtor_ok ho hm ds b1 v1 hq1 (fun d hd => hb d (List.mem_cons_of_mem _ hd))
    refine ⟨b2, ?_, v2, fun r h => r2 r (r1 r h)⟩
    unfold runDtor
    rw [e1]
    exact e2

theorem dropOne_ok {o : Obj} (ho : o.Valid) {w : Nat} {b : BumpBorrows.St} (hv : ∃ col, Inv o w b col) {p : Pinned} (hR : Root b p.ref) (hb : (p.ref.lo ≤ p.vlo ∧ p.vlo ≤ p.vhi ∧ p.vhi ≤ p.ref.hi) ∧ ∀ d ∈ p.dtor, p.vlo ≤ d.2.1 ∧ d.2.2 ≤ p.vhi) :
    ∃ b', dropOne o w b p = some b' ∧ (∃ col, Inv o w b' col) ∧ ∀ r, Root b r → Root b' r := by
  obtain ⟨b1, e1, v1, r1, _⟩ := EInv.using ho hv hR.mem (a := .reborrow p.ref true p.vlo p.vhi) (Or.inr ⟨_, _, _, rfl⟩) ⟨hR.mem, fun _ => hR.mutable, hb.1⟩
  obtain ⟨t, f1⟩ := step_reborrow e1
  obtain ⟨b2, e2, v2, r2⟩ := runDtor_ok ho (q := ⟨t, true, p.vlo, p.vhi, p.ref.owner, p.ref.tag :: p.ref.from_⟩) rfl p.dtor b1 v1 (by rw [f1]; exact List.mem_cons_self) hb.2
  have hR2 := r2 _ (r1 _ hR)
  obtain ⟨b3, e3, v3, r3, _⟩ := EInv.using ho v2 hR2.mem (a := .use p.ref .read p.ref.lo p.vlo) (Or.inl ⟨_, _, _, rfl⟩)
    ⟨hR2.mem, fun e => (by cases e), Nat.le_refl _, by omega⟩
  refine ⟨b3, ?_, v3, fun r h => r3 r (r2 r (r1 r h))⟩
  unfold dropOne
  rw [e1]
  simp only [f1, e2, e3, Option.bind_eq_bind, Option.bind_some, Option.pure_def]

theorem dropAll_ok {o : Obj} (ho : o.Valid) {w : Nat} : ∀ (ps : List Pinned) (b : BumpBorrows.St), (∃ col, Inv o w b col) → (∀ p ∈ ps, Root b p.ref) →
    (∀ p ∈ ps, (p.ref.lo ≤ p.vlo ∧ p.vlo ≤ p.vhi ∧ p.vhi ≤ p.ref.hi) ∧ ∀ d ∈ p.dtor, p.vlo ≤ d.2.1 ∧ d.2.2 ≤ p.vhi) → ∃ b', dropAll o w b ps = some b' ∧ ∃ col, Inv o w b' col
  | [], b, hv, _, _ => ⟨b, rfl, hv⟩
  | p :: ps, b, hv, hR, hb => by
    obtain ⟨b1, e1, v1, r1⟩ := dropOne_ok ho hv (hR p List.mem_cons_self) (hb p List.mem_cons_self)
    obtain ⟨b2, e2, v2⟩ := dropAll_ok ho ps b1 v1 (fun q hq => r1 _ (hR q (List.mem_cons_of_mem _ hq))) (fun q hq => hb q (List.mem_cons_of_mem _ hq))
    refine ⟨b2, ?_, v2⟩
    unfold dropAll
    rw [e1]
    exact e2

theorem mutSelf_ok {o : Obj} {w : Nat} {b : BumpBorrows.St} {col : Nat → Col} (h : Inv o w b col) :
    ∃ b' col', mutSelf o w true b = some b' ∧ Inv o w { b' with shares := [], pieces := [], refs := [] } col' := by
  obtain ⟨m1, col1, e1, n1, c1, _, _⟩ := BumpBorrows.access_col h.p.cov (a := .write) (t := w) (Nat.le_refl _) (Nat.le_refl _) (fun _ _ _ => True)
    (fun b h1 h2 => by
      obtain ⟨B, e, k⟩ := (h.p.cov.ok b h1 h2).accessBase
      exact ⟨[], B, e, k, trivial⟩)
  obtain ⟨col2, u2, _, _⟩ := BumpBorrows.push_col c1 o.lo o.hi (p := .unique) (by decide)
  refine ⟨{ b with mem := ⟨fun b => if o.lo ≤ b ∧ b < o.hi then ⟨m1.next, .unique⟩ :: m1.stack b else m1.stack b, m1.next + 1⟩ }, col2, ?_,
    ⟨u2.cov, h.p.level, by simp, by simp, by simp⟩, by simp⟩
  have e2 : b.mem.retag true w o.lo o.hi = some (m1.next, ⟨fun b => if o.lo ≤ b ∧ b < o.hi then ⟨m1.next, .unique⟩ :: m1.stack b else m1.stack b, m1.next + 1⟩) := by
    unfold Mem.retag
    change (b.mem.access .write w o.lo o.hi).bind _ = _
    rw [e1]
    rfl
  unfold mutSelf
  simp only [e2, if_pos, Option.bind_eq_bind, Option.bind_some, Option.pure_def]

theorem reset_frame (o : Obj) (w : Nat) (b : BumpBorrows.St) : BumpBorrows.reset o w { b with shares := [], pieces := [], refs := [] } = BumpBorrows.reset o w b := rfl

theorem EInv.popAll {o : Obj} (ho : o.Valid) {w : Nat} {s : St} (h : EInv o w s) {unpin : Bool} (hu : unpin = false ∨ s.chain = []) :
    ∃ s', popAll o w unpin s = some s' ∧ EInv o w s' := by
  obtain ⟨b1, b2, e1, e2, col, v2⟩ : ∃ b1 b2, mutSelf o w unpin s.bump = some b1 ∧ dropAll o w b1 s.chain = some b2 ∧ ∃ col, Inv o w { b2 with shares := [], pieces := [], refs := [] } col := by
    cases unpin with
    | false =>
      obtain ⟨b2, e2, col, v2⟩ := dropAll_ok ho s.chain s.bump h.bump (fun p hp => h.root _ (Or.inr (List.mem_map.2 ⟨p, hp, rfl⟩))) h.value
      exact ⟨s.bump, b2, rfl, e2, col, ⟨v2.p.cov, v2.p.level, by simp, by simp, by simp⟩, by simp⟩
    | true =>
      rcases hu with hu | hu
      · cases hu
      · obtain ⟨col, hv⟩ := h.bump
        obtain ⟨b1, col1, e1, v1⟩ := mutSelf_ok hv
        exact ⟨b1, b1, e1, by rw [hu]; rfl, col1, v1⟩
  obtain ⟨b3, col3, e3, v3⟩ := v2.reset ho
  rw [reset_frame] at e3
  refine ⟨⟨b3, [], []⟩, ?_, ⟨col3, v3⟩, by simp, by simp, by simp⟩
  unfold ExitBorrows.popAll
  rw [e1]
  change (dropAll o w b1 s.chain).bind _ = _
  rw [e2]
  change (BumpBorrows.reset o w b2).bind _ = _
  rw [e3]
  rfl

/-- `pin`. -/
theorem EInv.pin {o : Obj} (ho : o.Valid) {w : Nat} {s : St} (h : EInv o w s) {i vlo vhi : Nat} {dtor : List (Access × Nat × Nat)} {r : Ref} (hr : s.slots[i]? = some r) (hb : r.lo ≤ vlo ∧ vlo ≤ vhi ∧ vhi ≤ r.hi)
    (hd : ∀ d ∈ dtor, vlo ≤ d.2.1 ∧ d.2.2 ≤ vhi) : ∃ s', pin o w s i vlo vhi dtor = some s' ∧ EInv o w s' ∧ ∀ q ∈ s.bump.refs, q.owner ≠ r.owner → q ∈ s'.bump.refs := by
  have hR := h.root r (Or.inl (List.mem_of_getElem? hr))
  obtain ⟨b1, e1, v1, r1, k1⟩ := EInv.using ho h.bump hR.mem (a := .use r .write r.lo r.hi) (Or.inl ⟨_, _, _, rfl⟩) ⟨hR.mem, fun _ => hR.mutable, Nat.le_refl _, Nat.le_refl _⟩
  have hR1 := r1 _ hR
  obtain ⟨b2, e2, v2, r2, k2⟩ := EInv.using ho v1 hR1.mem (a := .reborrow r true vlo vhi) (Or.inr ⟨_, _, _, rfl⟩) ⟨hR1.mem, fun _ => hR1.mutable, hb⟩
  refine ⟨⟨b2, s.slots.eraseIdx i, ⟨r, vlo, vhi, dtor⟩ :: s.chain⟩, ?_, ⟨v2, ?_, ?_, ?_⟩, fun q hq hne => k2 q (k1 q hq hne) hne⟩
  · unfold ExitBorrows.pin
    rw [hr]
    change (BumpBorrows.step o w s.bump (.use r .write r.lo r.hi)).bind _ = _
    rw [e1]
    change (BumpBorrows.step o w b1 (.reborrow r true vlo vhi)).bind _ = _
    rw [e2]
    rfl
  · intro q hq
    refine r2 q (r1 q ?_)
    rcases hq with hq | hq
    · exact h.root q (Or.inl (List.mem_of_mem_eraseIdx hq))
    · rcases List.mem_cons.1 hq with e | hq
      · have e' : q = r := e
        rw [e']; exact hR
      · exact h.root q (Or.inr hq)
  · intro p hp
    rcases List.mem_cons.1 hp with rfl | hp
    · exact ⟨hb, hd⟩
    · exact h.value p hp
  · obtain ⟨hl, e⟩ := List.getElem?_eq_some_iff.1 hr
    have hp : (s.slots.eraseIdx i ++ r :: s.chain.map Pinned.ref).Perm (s.slots ++ s.chain.map Pinned.ref) :=
      List.perm_middle.trans ((e ▸ List.getElem_cons_eraseIdx_perm hl : (r :: s.slots.eraseIdx i).Perm s.slots).append_right _)
    exact (hp.map Ref.owner).nodup_iff.2 h.apart

/-- One action. -/
theorem EInv.step {o : Obj} (ho : o.Valid) {w : Nat} {s : St} (h : EInv o w s) {unpin : Bool} {a : Act} (hp : Permitted w unpin s a) :
    ∃ s', step o w unpin s a = some s' ∧ EInv o w s' := by
  obtain ⟨hp, hu⟩ := hp
  have acc : ∀ (q : Ref) (c : BumpBorrows.Act), q ∈ s.bump.refs → ((∃ d lo hi, c = .use q d lo hi) ∨ ∃ mu lo hi, c = .reborrow q mu lo hi) → BumpBorrows.Permitted o w s.bump c →
      ∃ s', (BumpBorrows.step o w s.bump c).bind (fun b => some { s with bump := b }) = some s' ∧ EInv o w s' := by
    intro q c hq hc hc'
    obtain ⟨b, e, v, hr, _⟩ := EInv.using ho h.bump hq hc hc'
    exact ⟨{ s with bump := b }, by rw [e]; rfl, v, fun r hr' => hr r (h.root r hr'), h.value, h.apart⟩
  cases a with
  | share t =>
    obtain ⟨col, hv⟩ := h.bump
    have p1 : BumpBorrows.Permitted o w s.bump (.share t) := hp
    obtain ⟨b, colb, eb, vb⟩ := hv.step ho p1
    refine ⟨{ s with bump := b }, ?_, ⟨colb, vb⟩, fun r hr => (h.root r hr).of_refs (step_share eb), h.value, h.apart⟩
    change (BumpBorrows.step o w s.bump (.share t)).bind _ = _
    rw [eb]; rfl
  | slot t l =>
    obtain ⟨s', e, i, _⟩ := EInv.slot ho h hp.1 hp.2.1 hp.2.2
    exact ⟨s', e, i⟩
  | pin i vlo vhi dtor =>
    obtain ⟨⟨r, hr, hb⟩, hd⟩ := hp
    obtain ⟨s', e, i, _⟩ := EInv.pin ho h hr hb hd
    exact ⟨s', e, i⟩
  | popAll => exact EInv.popAll ho h (hu rfl)
  | use r a lo hi => exact acc r _ hp.1 (Or.inl ⟨_, _, _, rfl⟩) ⟨hp.1, hp.2.2.1, hp.2.2.2⟩
  | reborrow r mu lo hi => exact acc r _ hp.1 (Or.inr ⟨_, _, _, rfl⟩) ⟨hp.1, hp.2.2.1, hp.2.2.2⟩

theorem Reach.einv {o : Obj} (ho : o.Valid) {w : Nat} {unpin : Bool} {s₀ s : St} (hr : Reach o w unpin s₀ s) (h : EInv o w s₀) : EInv o w s := by
  induction hr with
  | refl => exact h
  | step _ hp hs ih =>
    obtain ⟨s', e, hi'⟩ := EInv.step ho ih hp
    rw [hs] at e
    cases e
    exact hi'

/-! ### A unique borrow of the stack -/

theorem accessByte_sub {t : Nat} {st st' : List Item} (h : accessByte .write t st = some st') : ∀ i ∈ st', i ∈ st := by
  unfold accessByte at h
  simp only at h
  have e := List.takeWhile_append_dropWhile (p := fun i : Item => !i.is .write t) (l := st)
  split at h
  · cases h
  · rename_i g below hd
    rw [hd] at e
    intro i hi
    rw [← e]
    split at h <;> cases h
    · rcases List.mem_append.1 hi with hi | hi
      · exact List.mem_append_left _ (List.mem_reverse.1 ((List.takeWhile_prefix _).subset (List.mem_reverse.1 hi)))
      · exact List.mem_append_right _ hi
    · exact List.mem_append_right _ hi

theorem accessByte_none {a : Access} {t : Nat} {st : List Item} (h : ∀ i ∈ st, i.tag ≠ t) : accessByte a t st = none := by
  have e : st.dropWhile (fun i => !i.is a t) = [] := by
    induction st with
    | nil => rfl
    | cons i st ih =>
      have hi : i.is a t = false := by
        unfold Item.is
        have := h i List.mem_cons_self
        simp [this]
      rw [List.dropWhile_cons, if_pos (by rw [hi]; rfl)]
      exact ih (fun j hj => h j (List.mem_cons_of_mem _ hj))
  unfold accessByte
  simp only
  rw [e]

theorem access_none {m : Borrows.Mem} {a : Access} {t lo hi : Nat} (hlt : lo < hi) (h : ∀ i ∈ m.stack lo, i.tag ≠ t) : m.access a t lo hi = none := by
  unfold Mem.access
  apply if_neg
  intro hall
  rw [List.all_eq_true] at hall
  have := hall lo (List.mem_range'_1.2 ⟨Nat.le_refl _, by omega⟩)
  rw [accessByte_none h] at this
  cases this

theorem access_out {m m' : Borrows.Mem} {a : Access} {t lo hi b : Nat} (h : m.access a t lo hi = some m') (hb : b < lo ∨ hi ≤ b) : m'.stack b = m.stack b := by
  unfold Mem.access at h
  split at h
  · cases h
    simp only
    rw [if_neg (by omega)]
  · cases h

theorem retag_out {m m' : Borrows.Mem} {mu : Bool} {t n lo hi b : Nat} (h : m.retag mu t lo hi = some (n, m')) (hb : b < lo ∨ hi ≤ b) : m'.stack b = m.stack b := by
  unfold Mem.retag at h
  cases h1 : m.access (if mu then .write else .read) t lo hi with
  | none => rw [h1] at h; cases h
  | some m1 =>
    rw [h1] at h
    cases h
    change (if lo ≤ b ∧ b < hi then _ else m1.stack b) = _
    rw [if_neg (by omega)]
    exact access_out h1 hb

/-- After a unique borrow of all, no reference that was made before is in any stack. -/
theorem mutSelf_ends {o : Obj} (ho : o.Valid) {w : Nat} {b b' : BumpBorrows.St} {col : Nat → Col} (hv : Inv o w b col) {r : Ref} (hr : r ∈ b.refs) (h : mutSelf o w true b = some b') {x : Nat} (h1 : r.lo ≤ x) (h2 : x < r.hi) :
    ∀ i ∈ b'.mem.stack x, i.tag ≠ r.tag := by
  have hb := hv.ref_range ho hr
  have hR := hv.refs r hr
  have hc := hv.p.cov.ok x (by omega) (by omega)
  have hs := hv.p.cov.stack x (by omega) (by omega)
  have hit := hR.item x h1 h2
  obtain ⟨B, e, k⟩ := hc.accessBase
  unfold mutSelf at h
  simp only [if_pos, Option.bind_eq_bind, Option.pure_def] at h
  unfold Mem.retag at h
  cases e1 : b.mem.access .write w o.lo o.hi with
  | none => simp [e1] at h
  | some m1 =>
    simp only [if_pos, e1, Option.bind_eq_bind, Option.bind_some, Option.pure_def] at h
    cases h
    have hx : o.lo ≤ x ∧ x < o.hi := by omega
    have e2 : m1.stack x = (⟨[], B, (col x).base⟩ : Col).st ∧ m1.next = b.mem.next := by
      unfold Mem.access at e1
      split at e1
      · cases e1
        simp only
        rw [if_pos hx, hs, e]
        exact ⟨rfl, trivial⟩
      · cases e1
    intro i hi
    change i ∈ (if o.lo ≤ x ∧ x < o.hi then ⟨m1.next, .unique⟩ :: m1.stack x else m1.stack x) at hi
    rw [if_pos hx, e2.1, e2.2] at hi
    have hlt := hR.lt
    rcases List.mem_cons.1 hi with rfl | hi
    · simp only; omega
    · intro et
      have hsub : i ∈ (col x).st := accessByte_sub e i hi
      have hn := hc.nodup
      unfold Col.st at hn hsub
      rw [List.map_append] at hn
      have hdis := (List.nodup_append.1 hn).2.2
      have hta : r.tag ∈ (col x).above.map Item.tag := List.mem_map.2 ⟨_, hit, rfl⟩
      rcases List.mem_append.1 hsub with ha | hbb
      · rcases List.mem_append.1 (show i ∈ [] ++ (B ++ (col x).base) from hi) with hi | hi
        · cases hi
        · rcases List.mem_append.1 hi with hi | hi
          · exact hc.noRW i ha (k.blk i hi)
          · exact hdis r.tag hta i.tag (List.mem_map.2 ⟨i, List.mem_append_right _ hi, rfl⟩) et.symm
      · exact hdis r.tag hta i.tag (List.mem_map.2 ⟨i, hbb, rfl⟩) et.symm

theorem runDtor_out {o : Obj} {w x : Nat} {q : Ref} : ∀ (ds : List (Access × Nat × Nat)) (b b' : BumpBorrows.St), (∀ d ∈ ds, x < d.2.1) → runDtor o w q b ds = some b' → b'.mem.stack x = b.mem.stack x
  | [], b, b', _, h => by cases h; rfl
  | d :: ds, b, b', hd, h => by
    unfold runDtor at h
    simp only [BumpBorrows.step, Option.bind_eq_bind, Option.pure_def] at h
    cases hx : b.mem.access d.1 q.tag d.2.1 d.2.2 with
    | none => rw [hx] at h; cases h
    | some m =>
      rw [hx] at h
      simp only [Option.bind_some] at h
      rw [runDtor_out ds _ b' (fun d hd' => hd d (List.mem_cons_of_mem _ hd')) h]
      exact access_out hx (Or.inl (hd d List.mem_cons_self))

theorem dropOne_none {o : Obj} {w : Nat} {b : BumpBorrows.St} {p : Pinned} (hd : ∀ d ∈ p.dtor, p.vlo ≤ d.2.1 ∧ d.2.2 ≤ p.vhi) (hlt : p.ref.lo < p.vlo) (h : ∀ i ∈ b.mem.stack p.ref.lo, i.tag ≠ p.ref.tag) : dropOne o w b p = none := by
  unfold dropOne
  cases h1 : BumpBorrows.step o w b (.reborrow p.ref true p.vlo p.vhi) with
  | none => rfl
  | some b1 =>
    obtain ⟨t, f1⟩ := step_reborrow h1
    have g1 : b1.mem.stack p.ref.lo = b.mem.stack p.ref.lo := by
      simp only [BumpBorrows.step] at h1
      cases hx : b.mem.retag true p.ref.tag p.vlo p.vhi with
      | none => rw [hx] at h1; cases h1
      | some q => rw [hx] at h1; cases h1; exact retag_out hx (Or.inl hlt)
    simp only [f1, Option.bind_eq_bind, Option.bind_some]
    cases h2 : runDtor o w ⟨t, true, p.vlo, p.vhi, p.ref.owner, p.ref.tag :: p.ref.from_⟩ b1 p.dtor with
    | none => rfl
    | some b2 =>
      have g2 : b2.mem.stack p.ref.lo = b1.mem.stack p.ref.lo := runDtor_out p.dtor b1 b2 (fun d h => by have := hd d h; omega) h2
      simp only [Option.bind_some, BumpBorrows.step]
      rw [access_none hlt (by rw [g2, g1]; exact h)]
      rfl

end Verif.ExitBorrows
