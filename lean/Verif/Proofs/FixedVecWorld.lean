import Verif.Proofs.FixedVec
/-! # The simulation between `FixedVec`s in memory and lists -/
namespace Verif.FVec
open Verif Uninit

variable {V : Type}

def DrainPart (t : Target) (T : Layout) (h : Heap V) (f : FixedVec) : Option Drain → Option (SDrain V) → Prop
  | none, none => True
  | some d, some sd => DrainRel T h.mem f.uninit.addr f.length d sd ∧ f.length + d.tail + d.tailLen ≤ f.uninit.capacity t
  | _, _ => False

structure EntRel (t : Target) (T : Layout) (h : Heap V) (e : Entry) (se : SVec V) : Prop where
  ok : VecOk t T e.vec
  len : e.vec.length = se.items.length
  cap : se.cap = e.vec.uninit.capacity t
  items : Holds T h.mem e.vec.uninit.addr se.items
  borrows : e.borrows = se.borrows
  drain : DrainPart t T h e.vec e.drain se.drain

def EntsRel (t : Target) (T : Layout) (h : Heap V) : Option Entry → Option (SVec V) → Prop
  | none, none => True
  | some e, some se => EntRel t T h e se
  | _, _ => False

/-- Relation of two vectors: the second one borrows from the first one, or they are independent. -/
def Sep (T : Layout) (i : Nat) (e : Entry) (j : Nat) (f : Entry) : Prop :=
  (i ∈ f.borrows → e.drain = none ∧ e.vec.uninit.addr + e.vec.length * T.size ≤ f.vec.uninit.addr ∧
    f.vec.uninit.addr + f.vec.uninit.len ≤ e.vec.uninit.addr + e.vec.uninit.len) ∧
  (i ∉ f.borrows → j ∉ e.borrows → e.region.Disjoint f.region)

structure WRel (t : Target) (T : Layout) (w : World V) (sw : SWorld V) : Prop where
  next : w.next = sw.next
  log : w.heap.log = sw.dropped
  ents : ∀ i, EntsRel t T w.heap (w.ents i) (sw.vecs i)
  bound : ∀ i e, w.ents i = some e → i < w.next ∧ ∀ k ∈ e.borrows, k < w.next
  sep : ∀ i j e f, i ≠ j → w.ents i = some e → w.ents j = some f → Sep T i e j f

/-- Nothing borrows from it. -/
def Free (w : World V) (i : Nat) : Prop := ∀ j e', w.ents j = some e' → i ∉ e'.borrows

theorem WRel.get {t : Target} {T : Layout} {w : World V} {sw : SWorld V} (r : WRel t T w sw) {i : Nat} {e : Entry} (he : w.ents i = some e) :
    ∃ se, sw.vecs i = some se ∧ EntRel t T w.heap e se := by
  have := r.ents i
  rw [he] at this
  cases hs : sw.vecs i with
  | none => rw [hs] at this; exact this.elim
  | some se => rw [hs] at this; exact ⟨se, rfl, this⟩

/-- Bytes from the start of the memory that may hold values. -/
def used (T : Layout) (e : Entry) : Nat := (e.vec.length + match e.drain with | none => 0 | some d => d.tail + d.tailLen) * T.size

theorem used_le {t : Target} {T : Layout} {h : Heap V} {e : Entry} {se : SVec V} (r : EntRel t T h e se) : used T e ≤ e.vec.uninit.len := by
  have h2 : e.vec.uninit.capacity t * e.vec.uninit.T.size ≤ e.vec.uninit.len := cap_mul_le
  rw [r.ok.elem] at h2
  refine Nat.le_trans (Nat.mul_le_mul_right _ ?_) h2
  have hd := r.drain
  cases he : e.drain with
  | none => simpa using r.ok.fits
  | some d =>
    rw [he] at hd
    cases hs : se.drain with
    | none => rw [hs] at hd; exact hd.elim
    | some sd => rw [hs] at hd; have := hd.2; simp only; omega

theorem holds_kept_sub {T : Layout} {R : Region} {m m' : Nat → Option V} (hk : Kept T R m m') {p a n : Nat} {xs : List V} (h : Holds T m p xs)
    (h1 : a ≤ p) (h2 : p + xs.length * T.size ≤ a + n) (hd : Region.Disjoint ⟨a, n⟩ R) : Holds T m' p xs := by
  refine holds_kept hk h fun x hx => hd x ⟨?_, hx.2⟩
  have := hx.1
  simp only [Region.Has] at *
  omega

theorem entRel_kept {t : Target} {T : Layout} {R : Region} {h h' : Heap V} {e : Entry} {se : SVec V} (r : EntRel t T h e se) (hk : Kept T R h.mem h'.mem)
    (hd : Region.Disjoint ⟨e.vec.uninit.addr, used T e⟩ R) : EntRel t T h' e se := by
  have hu : e.vec.length * T.size ≤ used T e := Nat.mul_le_mul_right _ (Nat.le_add_right _ _)
  refine ⟨r.ok, r.len, r.cap, holds_kept_sub hk r.items (Nat.le_refl _) (by rw [← r.len]; omega) hd, r.borrows, ?_⟩
  have hdr := r.drain
  cases he : e.drain with
  | none =>
    rw [he] at hdr
    cases hs : se.drain with
    | none => trivial
    | some sd => rw [hs] at hdr; exact hdr.elim
  | some d =>
    rw [he] at hdr
    cases hs : se.drain with
    | none => rw [hs] at hdr; exact hdr.elim
    | some sd =>
      rw [hs] at hdr
      obtain ⟨⟨r1, r2, r3, r4, r5, r6⟩, hc⟩ := hdr
      have hused : used T e = e.vec.length * T.size + d.tail * T.size + d.tailLen * T.size := by
        simp only [used, he, Nat.add_mul, Nat.add_assoc]
      have hend : d.start * T.size + sd.rest.length * T.size ≤ d.tail * T.size := by
        rw [← Nat.add_mul]; exact Nat.mul_le_mul_right _ (by omega)
      refine ⟨⟨r1, r2, r3, r4, ?_, ?_⟩, hc⟩
      · exact holds_kept_sub hk r5 (by omega) (by omega) hd
      · exact holds_kept_sub hk r6 (by omega) (by rw [← r4]; omega) hd

/-- Changes in the memory of a vector that nothing borrows from do not affect the others. -/
theorem others_kept {t : Target} {T : Layout} {w : World V} {sw : SWorld V} (r : WRel t T w sw) {i : Nat} {e : Entry} (he : w.ents i = some e) (hfree : Free w i)
    {h' : Heap V} (hk : Kept T e.region w.heap.mem h'.mem) {j : Nat} (hj : j ≠ i) : EntsRel t T h' (w.ents j) (sw.vecs j) := by
  cases hf : w.ents j with
  | none =>
    have := r.ents j
    rw [hf] at this
    cases hs : sw.vecs j with
    | none => trivial
    | some _ => rw [hs] at this; exact this.elim
  | some f =>
    obtain ⟨sf, hs, hr⟩ := r.get hf
    rw [hs]
    refine entRel_kept hr hk ?_
    have hsep := r.sep j i f e hj hf he
    have hu := used_le hr
    by_cases hb : j ∈ e.borrows
    · obtain ⟨h1, h2, h3⟩ := hsep.1 hb
      have : used T f = f.vec.length * T.size := by simp [used, h1]
      rw [this]
      intro x hx
      simp only [Region.Has, Entry.region] at hx
      omega
    · have hdis := hsep.2 hb (hfree j f hf)
      intro x hx
      refine hdis x ?_
      simp only [Region.Has, Entry.region] at hx ⊢
      omega

/-- Update of one vector. -/
theorem rel_update {t : Target} {T : Layout} {w : World V} {sw : SWorld V} (r : WRel t T w sw) {i : Nat} {e : Entry} (he : w.ents i = some e) (hfree : Free w i)
    {e' : Entry} {se' : SVec V} {h' : Heap V} (hk : Kept T e.region w.heap.mem h'.mem) (hr : EntRel t T h' e' se') (hreg : e'.region.Within e.region) (hb : e'.borrows = e.borrows)
    {tk hd dr lk : List V} (hlog : h'.log = dr) :
    WRel t T { w.set i (some e') with heap := h' } { sw.set i (some se') with taken := tk, handed := hd, dropped := dr, leaked := lk } := by
  have hothers := fun j hj => others_kept r he hfree hk (j := j) hj
  refine ⟨r.next, hlog, fun j => ?_, fun j f hf => ?_, fun j k f g hjk hf hg => ?_⟩
  · simp only [World.set, SWorld.set]
    split
    · exact hr
    · exact hothers j (by assumption)
  · simp only [World.set] at hf
    split at hf
    · cases hf; rename_i hji; subst hji; rw [hb]; exact r.bound _ _ he
    · exact r.bound _ _ hf
  · simp only [World.set] at hf hg
    simp only [Region.Within, Entry.region] at hreg
    split at hf
    · cases hf
      rename_i hji
      subst hji
      rw [if_neg (Ne.symm hjk)] at hg
      refine ⟨fun h => absurd h (hfree _ _ hg), fun h1 h2 x hx => ?_⟩
      rw [hb] at h2
      refine (r.sep _ _ _ _ hjk he hg).2 h1 h2 x ?_
      simp only [Region.Has, Entry.region] at hx ⊢
      omega
    · split at hg
      · cases hg
        rename_i hki
        subst hki
        have hs := r.sep _ _ _ _ hjk hf he
        refine ⟨fun h => ?_, fun h1 h2 x hx => ?_⟩
        · rw [hb] at h
          obtain ⟨h1, h2, h3⟩ := hs.1 h
          exact ⟨h1, by omega, by omega⟩
        · rw [hb] at h1
          refine hs.2 h1 h2 x ?_
          simp only [Region.Has, Entry.region] at hx ⊢
          omega
      · exact r.sep _ _ _ _ hjk hf hg

/-- A vector goes away. -/
theorem rel_remove {t : Target} {T : Layout} {w : World V} {sw : SWorld V} (r : WRel t T w sw) {i : Nat}
    {h' : Heap V} (hm : h'.mem = w.heap.mem) {tk hd dr lk : List V} (hlog : h'.log = dr) :
    WRel t T { w.set i none with heap := h' } { sw.set i none with taken := tk, handed := hd, dropped := dr, leaked := lk } := by
  refine ⟨r.next, hlog, fun j => ?_, fun j f hf => ?_, fun j k f g hjk hf hg => ?_⟩
  · simp only [World.set, SWorld.set]
    split
    · trivial
    · have := r.ents j
      cases hf : w.ents j with
      | none =>
        rw [hf] at this
        cases hs : sw.vecs j with
        | none => trivial
        | some sf => rw [hs] at this; exact this.elim
      | some f =>
        rw [hf] at this
        cases hs : sw.vecs j with
        | none => rw [hs] at this; exact this.elim
        | some sf =>
          rw [hs] at this
          exact entRel_kept (R := ⟨0, 0⟩) this (by rw [hm]; exact .refl) (fun x hx => by have := hx.2; simp only [Region.Has] at this; omega)
  · simp only [World.set] at hf
    split at hf
    · cases hf
    · exact r.bound _ _ hf
  · simp only [World.set] at hf hg
    split at hf
    · cases hf
    · split at hg
      · cases hg
      · exact r.sep _ _ _ _ hjk hf hg

/-- A new vector. -/
theorem rel_add {t : Target} {T : Layout} {w : World V} {sw : SWorld V} (r : WRel t T w sw) {g : Entry} {sg : SVec V} (hr : EntRel t T w.heap g sg)
    (hb : ∀ k ∈ g.borrows, k < w.next) (hsep : ∀ j f, w.ents j = some f → Sep T j f w.next g) {tk hd lk : List V} :
    WRel t T { w.set w.next (some g) with next := w.next + 1 } { sw.set sw.next (some sg) with next := sw.next + 1, taken := tk, handed := hd, leaked := lk } := by
  refine ⟨by simp [r.next], r.log, fun j => ?_, fun j f hf => ?_, fun j k f f' hjk hf hg => ?_⟩
  · simp only [World.set, SWorld.set, r.next]
    split
    · exact hr
    · exact r.ents j
  · simp only [World.set] at hf ⊢
    split at hf
    · cases hf
      rename_i hj
      exact ⟨by omega, fun k hk => by have := hb k hk; omega⟩
    · have := r.bound _ _ hf
      exact ⟨by omega, fun k hk => by have := this.2 k hk; omega⟩
  · simp only [World.set] at hf hg
    split at hf
    · rename_i hj
      cases hf
      rw [if_neg (by omega)] at hg
      have := hsep k f' hg
      rw [hj]
      refine ⟨fun h => ?_, fun h1 h2 x hx => (this.2 h2 h1) x hx.symm⟩
      have := (r.bound _ _ hg).2 _ h
      omega
    · split at hg
      · rename_i hk
        cases hg
        rw [hk]
        exact hsep j f hf
      · exact r.sep _ _ _ _ hjk hf hg

end Verif.FVec
