import Verif.Proofs.ExitBorrows
/-! # C107: `ExitStack` and the aliasing rules -/
set_option autoImplicit false
namespace Verif.ExitBorrows
open Verif Verif.Borrows
open Verif.VecBorrows (Ref mem_endRefs mem_keepRefs)
open Verif.BumpBorrows (Obj Inv Piece)

/-- No undefined behaviour, if an `Unpin` stack is not cleared with values in it: whatever program the borrow checker accepts, every access it, the methods and the destructors make is permitted by Stacked Borrows (and inside of the object). Not for
each program that is `Allowed`, see `C107_violated_unpin`. -/
theorem C107_defined_partial {o : Obj} (ho : o.Valid) {w : Nat} {unpin : Bool} {s₀ s : St} (h₀ : Start o w s₀) (hr : Reach o w unpin s₀ s) {a : Act} (hp : Permitted w unpin s a) :
    ∃ s', step o w unpin s a = some s' := by
  obtain ⟨s', e, _⟩ := EInv.step ho (hr.einv ho h₀.einv) hp
  exact ⟨s', e⟩

/-- The references which the program still has can be used. -/
theorem C107_usable_partial {o : Obj} (ho : o.Valid) {w : Nat} {unpin : Bool} {s₀ s : St} (h₀ : Start o w s₀) (hr : Reach o w unpin s₀ s) {r : Ref} (h : r ∈ s.bump.refs) :
    (∃ m, s.bump.mem.access .read r.tag r.lo r.hi = some m) ∧ (r.mutable = true → ∃ m, s.bump.mem.access .write r.tag r.lo r.hi = some m) := by
  obtain ⟨col, hi⟩ := (hr.einv ho h₀.einv).bump
  have hb := hi.ref_range ho h
  refine ⟨?_, fun hm => ?_⟩
  · obtain ⟨m, _, e, _⟩ := BumpBorrows.accessRef hi.p.cov hb.1 hb.2 ((hi.refs r h).is (a := .read) (fun e => by cases e) (Nat.le_refl _) (Nat.le_refl _))
    exact ⟨m, e⟩
  · obtain ⟨m, _, e, _⟩ := BumpBorrows.accessRef hi.p.cov hb.1 hb.2 ((hi.refs r h).is (a := .write) (fun _ => hm) (Nat.le_refl _) (Nat.le_refl _))
    exact ⟨m, e⟩

/-- At any time, all of the handles in the list and the slots which are not used yet can be used, all of their memory, for reading and writing: whatever was done with the references to the values, and to the stack. -/
theorem C107_handles_partial {o : Obj} (ho : o.Valid) {w : Nat} {unpin : Bool} {s₀ s : St} (h₀ : Start o w s₀) (hr : Reach o w unpin s₀ s) {r : Ref} (h : r ∈ s.slots ∨ ∃ p ∈ s.chain, p.ref = r) :
    (∃ m, s.bump.mem.access .read r.tag r.lo r.hi = some m) ∧ ∃ m, s.bump.mem.access .write r.tag r.lo r.hi = some m := by
  have hR := (hr.einv ho h₀.einv).root r (h.imp id (fun ⟨p, hp, e⟩ => List.mem_map.2 ⟨p, hp, e⟩))
  obtain ⟨h1, h2⟩ := C107_usable_partial ho h₀ hr hR.mem
  exact ⟨h1, h2 hR.mutable⟩

/-- Slots and values are all in different memory. -/
theorem C107_apart_partial {o : Obj} (ho : o.Valid) {w : Nat} {unpin : Bool} {s₀ s : St} (h₀ : Start o w s₀) (hr : Reach o w unpin s₀ s) :
    (s.slots ++ s.chain.map Pinned.ref).Pairwise (fun p q => p.hi ≤ q.lo ∨ q.hi ≤ p.lo) := by
  have hE := hr.einv ho h₀.einv
  obtain ⟨col, hi⟩ := hE.bump
  have hn := hE.apart
  refine List.Pairwise.imp_of_mem ?_ (List.pairwise_map.1 hn)
  intro p q hp hq hne
  exact (BumpBorrows.inv_disjoint hi (hE.root p (List.mem_append.1 hp)).mem).2.2 q (hE.root q (List.mem_append.1 hq)).mem (fun e => hne e.symm)

/-- A reference to a value is not ended by taking slots from the stack or sharing it, by pinning to another slot, or by use of others' references. -/
theorem C107_stays_partial {o : Obj} (ho : o.Valid) {w : Nat} {unpin : Bool} {s₀ s s' : St} (h₀ : Start o w s₀) (hr : Reach o w unpin s₀ s) {a : Act} (hp : Permitted w unpin s a)
    (hs : step o w unpin s a = some s') {r : Ref} (h : r ∈ s.bump.refs)
    (ha : match a with
      | .share _ | .slot .. => True
      | .pin i _ _ _ => ∀ q, s.slots[i]? = some q → q.owner ≠ r.owner
      | .use q .. | .reborrow q .. => q.owner ≠ r.owner
      | .popAll => False) : r ∈ s'.bump.refs := by
  have hE := hr.einv ho h₀.einv
  obtain ⟨hp, _⟩ := hp
  cases a with
  | share t =>
    change (BumpBorrows.step o w s.bump (.share t)).bind (fun b => some { s with bump := b }) = some s' at hs
    cases hx : BumpBorrows.step o w s.bump (.share t) with
    | none => rw [hx] at hs; cases hs
    | some b =>
      rw [hx] at hs; cases hs
      change r ∈ b.refs
      rw [step_share hx]; exact h
  | slot t l =>
    obtain ⟨s1, e, _, k⟩ := EInv.slot ho hE hp.1 hp.2.1 hp.2.2
    have hs' : slot o w s t l = some s' := hs
    rw [e] at hs'; cases hs'
    exact k r h
  | pin i vlo vhi dtor =>
    obtain ⟨⟨q, hq, hb⟩, hd⟩ := hp
    obtain ⟨s1, e, _, k⟩ := EInv.pin ho hE hq hb hd
    have hs' : pin o w s i vlo vhi dtor = some s' := hs
    rw [e] at hs'; cases hs'
    exact k r h (fun e => ha q hq e.symm)
  | popAll => exact ha.elim
  | use q c lo hi =>
    obtain ⟨b, e, _, _, k⟩ := EInv.using ho hE.bump hp.1 (a := .use q c lo hi) (Or.inl ⟨_, _, _, rfl⟩) ⟨hp.1, hp.2.2.1, hp.2.2.2⟩
    change (BumpBorrows.step o w s.bump (.use q c lo hi)).bind (fun b => some { s with bump := b }) = some s' at hs
    rw [e] at hs; cases hs
    exact k r h (fun e => ha e.symm)
  | reborrow q mu lo hi =>
    obtain ⟨b, e, _, _, k⟩ := EInv.using ho hE.bump hp.1 (a := .reborrow q mu lo hi) (Or.inr ⟨_, _, _, rfl⟩) ⟨hp.1, hp.2.2.1, hp.2.2.2⟩
    change (BumpBorrows.step o w s.bump (.reborrow q mu lo hi)).bind (fun b => some { s with bump := b }) = some s' at hs
    rw [e] at hs; cases hs
    exact k r h (fun e => ha e.symm)

theorem alloc_room {o : Obj} (ho : o.Valid) {w : Nat} {b c : BumpBorrows.St} {col : Nat → Col} (hv : Inv o w b col) {t : Nat} {l : Layout} (hs : 0 < l.size) (ha : 0 < l.align)
    (e : BumpBorrows.step o w b (.alloc t l none) = some c) {x : Nat} (h1 : o.env.base + b.level ≤ x) (h2 : l.align ∣ x) (h3 : x + l.size ≤ o.env.base + o.env.len) : c.pieces.length ≠ b.pieces.length := by
  have hx := alignUp_le ha h1 h2
  obtain ⟨a, hpl⟩ : ∃ a, o.env.slab.place l b.level = some a :=
    ⟨⟨alignUp l.align (o.env.base + b.level), alignUp l.align (o.env.base + b.level) + l.size - o.env.base⟩,
      Slab.place_eq_some.2 ⟨rfl, by change alignUp l.align (o.env.base + b.level) + l.size ≤ o.env.base + o.env.len; omega, rfl⟩⟩
  simp only [BumpBorrows.step, BumpBorrows.tryAlloc, Bump.tryAllocSeq_spec ho.env hv.p.level hs ha, hpl] at e
  cases hx : b.mem.retagCell t o.env.base (o.env.base + o.env.len) with
  | none => rw [hx] at e; cases e
  | some q =>
    rw [hx] at e
    simp only [Option.bind_eq_bind, Option.bind_some] at e
    cases hy : BumpBorrows.touchCell o t .write q.2 with
    | none => rw [hy] at e; cases e
    | some m => rw [hy] at e; cases e; simp

/-- `slot` gives, exactly if there is room, a slot of the size and alignment which were asked for, above all that is in use; values, the other slots and references are not changed. -/
theorem C107_slot_partial {o : Obj} (ho : o.Valid) {w : Nat} {unpin : Bool} {s₀ s s' : St} (h₀ : Start o w s₀) (hr : Reach o w unpin s₀ s) {t : Nat} {l : Layout} (hp : Permitted w unpin s (.slot t l))
    (hs : step o w unpin s (.slot t l) = some s') :
    s'.chain = s.chain ∧ ((s'.slots = s.slots ∧ s'.bump.level = s.bump.level ∧ ¬ ∃ x, o.env.base + s.bump.level ≤ x ∧ l.align ∣ x ∧ x + l.size ≤ o.env.base + o.env.len) ∨
      ∃ r, s'.slots = r :: s.slots ∧ r ∈ s'.bump.refs ∧ r.mutable = true ∧ r.hi = r.lo + l.size ∧ l.align ∣ r.lo ∧ o.env.base + s.bump.level ≤ r.lo ∧ r.hi = o.env.base + s'.bump.level ∧ r.hi ≤ o.env.base + o.env.len) := by
  obtain ⟨⟨ht, h1, h2⟩, _⟩ := hp
  obtain ⟨col, hv⟩ := (hr.einv ho h₀.einv).bump
  have p1 : BumpBorrows.Permitted o w s.bump (.level t) := ht
  obtain ⟨b, colb, eb, vb⟩ := hv.step ho p1
  obtain ⟨rb, sb, pb⟩ := step_level eb
  have lb : b.level = s.bump.level := by
    simp only [BumpBorrows.step] at eb
    cases hx : BumpBorrows.touchCell o t .read s.bump.mem with
    | none => rw [hx] at eb; cases eb
    | some q => rw [hx] at eb; cases eb; rfl
  have p2 : BumpBorrows.Permitted o w b (.alloc t l none) := ⟨by rw [sb]; exact ht, h1, h2, fun n e => by cases e⟩
  obtain ⟨c, colc, ec, vc⟩ := vb.step ho p2
  have hs' : slot o w s t l = some s' := hs
  unfold slot at hs'
  simp only [eb, ec, Option.bind_eq_bind, Option.bind_some, Option.pure_def] at hs'
  obtain ⟨rc, _, _, hc⟩ := BumpBorrows.inv_allocated ho vb p2 ec
  rcases hc with ⟨hc, hl⟩ | ⟨p, hc, hk, q1, q2, q3, q4, q5, _⟩
  · rw [if_pos (by rw [hc])] at hs'
    cases hs'
    refine ⟨rfl, Or.inl ⟨rfl, hl.trans lb, fun ⟨x, x1, x2, x3⟩ => ?_⟩⟩
    exact alloc_room ho vb h1 h2 ec (by rw [lb]; exact x1) x2 x3 (by rw [hc])
  · have hj : c.pieces[b.pieces.length]? = some p := by rw [hc]; simp
    rw [if_neg (by rw [hc, List.length_append, List.length_singleton]; omega)] at hs'
    simp only [BumpBorrows.step, hj] at hs'
    cases hx : BumpBorrows.uninit p c.mem with
    | none => rw [hx] at hs'; cases hs'
    | some q =>
      rw [hx] at hs'
      cases hs'
      exact ⟨rfl, Or.inr ⟨_, rfl, List.mem_cons_self, rfl, q1, q2, by rw [← lb]; exact q3, q4, q5⟩⟩

/-- `pin` gives a `&mut` to exactly the value, made from the slot, whose handle is the first in the list. -/
theorem C107_pin_partial {o : Obj} {w : Nat} {unpin : Bool} {s s' : St} {i vlo vhi : Nat} {dtor : List (Access × Nat × Nat)} {r : Ref} (hr : s.slots[i]? = some r) (hs : step o w unpin s (.pin i vlo vhi dtor) = some s') :
    ∃ v rest, s'.bump.refs = v :: rest ∧ v.mutable = true ∧ v.lo = vlo ∧ v.hi = vhi ∧ v.owner = r.owner ∧ v.from_ ≠ [] ∧ s'.slots = s.slots.eraseIdx i ∧ s'.chain = ⟨r, vlo, vhi, dtor⟩ :: s.chain := by
  have hs' : pin o w s i vlo vhi dtor = some s' := hs
  unfold pin at hs'
  simp only [hr, Option.bind_eq_bind, Option.pure_def] at hs'
  cases h1 : BumpBorrows.step o w s.bump (.use r .write r.lo r.hi) with
  | none => rw [h1] at hs'; cases hs'
  | some b =>
    rw [h1] at hs'
    simp only [Option.bind_some] at hs'
    cases h2 : BumpBorrows.step o w b (.reborrow r true vlo vhi) with
    | none => rw [h2] at hs'; cases hs'
    | some c =>
      rw [h2] at hs'; cases hs'
      obtain ⟨t, e⟩ := step_reborrow h2
      exact ⟨_, _, e, rfl, rfl, rfl, rfl, List.cons_ne_nil _ _, rfl, rfl⟩

/-- `pop_all` and the destructor of the stack leave no slots, no values and no references. -/
theorem C107_cleared_partial {o : Obj} {w : Nat} {unpin : Bool} {s s' : St} (hs : step o w unpin s .popAll = some s') :
    s'.slots = [] ∧ s'.chain = [] ∧ s'.bump.refs = [] ∧ s'.bump.shares = [] ∧ s'.bump.level = 0 := by
  have hs' : popAll o w unpin s = some s' := hs
  unfold popAll at hs'
  simp only [Option.bind_eq_bind, Option.pure_def] at hs'
  cases h1 : mutSelf o w unpin s.bump with
  | none => rw [h1] at hs'; cases hs'
  | some b =>
    rw [h1] at hs'
    simp only [Option.bind_some] at hs'
    cases h2 : dropAll o w b s.chain with
    | none => rw [h2] at hs'; cases hs'
    | some c =>
      rw [h2] at hs'
      simp only [Option.bind_some] at hs'
      cases h3 : BumpBorrows.step o w c .reset with
      | none => rw [h3] at hs'; cases hs'
      | some d =>
        rw [h3] at hs'; cases hs'
        change BumpBorrows.reset o w c = some d at h3
        unfold BumpBorrows.reset at h3
        simp only [Option.bind_eq_bind, Option.pure_def] at h3
        cases h4 : c.mem.retag true w o.lo o.hi with
        | none => rw [h4] at h3; cases h3
        | some x =>
          rw [h4] at h3
          simp only [Option.bind_some] at h3
          cases h5 : x.2.access .write x.1 o.cell o.cellEnd with
          | none => rw [h5] at h3; cases h3
          | some y => rw [h5] at h3; cases h3; exact ⟨rfl, rfl, rfl, rfl, rfl⟩

/-- Whatever a program did before: if the stack is `Unpin`, and any value is pinned to it (the slot has bytes for the link, as all have), then clearing or dropping the stack is undefined behaviour. -/
theorem C107_violated_unpin_always {o : Obj} (ho : o.Valid) {w : Nat} {s₀ s : St} (h₀ : Start o w s₀) (hr : Reach o w true s₀ s) (hc : s.chain ≠ []) (hl : ∀ p ∈ s.chain, p.ref.lo < p.vlo) :
    step o w true s .popAll = none := by
  have hE := hr.einv ho h₀.einv
  obtain ⟨col, hi⟩ := hE.bump
  change popAll o w true s = none
  unfold popAll
  cases h1 : mutSelf o w true s.bump with
  | none => rfl
  | some b =>
    cases h2 : s.chain with
    | nil => exact absurd h2 hc
    | cons p ps =>
      have hp : p ∈ s.chain := by rw [h2]; exact List.mem_cons_self
      have hR := hE.root p.ref (Or.inr (List.mem_map.2 ⟨p, hp, rfl⟩))
      have hv := hE.value p hp
      have hlt := hl p hp
      have := mutSelf_ends ho hi hR.mem h1 (Nat.le_refl _) (by omega)
      simp only [Option.bind_eq_bind, Option.bind_some, dropAll, dropOne_none hv.2 hlt this, Option.bind_none]

end Verif.ExitBorrows
