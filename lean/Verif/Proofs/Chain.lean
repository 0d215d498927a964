import Verif.Props.UnsyncMem
import Verif.Model.Chain
import Mathlib.Data.List.Perm.Subperm
import Mathlib.Data.List.Nodup
/-! Proofs about `Chain`. -/
namespace Verif.Unsync
open Verif

theorem linkLayoutForValue_eq (t : Target) (p : LPtr) :
    linkLayoutForValue t p = ⟨2 * t.wordBytes + alignUp t.wordBytes (t.wordBytes + p.cap), t.wordBytes⟩ := by
  have hpos := t.wordBytes_pos
  have h1 : t.wordBytes ∣ 2 * t.wordBytes := Nat.dvd_mul_left _ _
  simp only [linkLayoutForValue, nextLayout, MemBump.layoutForValue]
  rw [alignUp_of_dvd hpos h1, alignUp_of_dvd hpos (Nat.dvd_add h1 (dvd_alignUp _ _))]

theorem linkLayoutFromSize_some {t : Target} {size : Nat} {L : Layout} (h : linkLayoutFromSize t size = some L) :
    L = linkLayoutForValue t ⟨0, size⟩ ∧ L.size + (t.wordBytes - 1) ≤ t.isizeMax := by
  have hpos := t.wordBytes_pos
  have h1 : t.wordBytes ∣ 2 * t.wordBytes := Nat.dvd_mul_left _ _
  unfold linkLayoutFromSize at h
  rw [layoutFromSize_eq] at h
  by_cases hb : t.isizeMax < t.wordBytes + size + (t.wordBytes - 1)
  · rw [if_pos hb] at h; cases h
  · rw [if_neg hb] at h
    simp only [layoutExtend, nextLayout, alignUp_of_dvd hpos h1, Nat.max_self, layoutFromSizeAlign] at h
    by_cases hc : 2 * t.wordBytes + alignUp t.wordBytes (t.wordBytes + size) + (t.wordBytes - 1) ≤ t.isizeMax
    · rw [if_pos hc] at h
      cases h
      exact ⟨(linkLayoutForValue_eq t ⟨0, size⟩).symm, hc⟩
    · rw [if_neg hc] at h; cases h

/-- The pointers starting from `r` are the list. -/
def Chained (t : Target) (h : LHeap) : Option LPtr → List LPtr → Prop
  | none, [] => True
  | some p, q :: ps => p = q ∧ ∃ rec, h.link p.addr = some rec ∧ rec.layout = linkLayoutForValue t p ∧ Chained t h rec.next ps
  | _, _ => False

theorem Chained.congr {t : Target} {h h' : LHeap} : ∀ {r : Option LPtr} {ps : List LPtr}, Chained t h r ps →
    (∀ a ∈ ps.map LPtr.addr, h'.link a = h.link a) → Chained t h' r ps
  | none, [], _, _ => trivial
  | some p, q :: ps, ⟨h1, rec, h2, h3, h4⟩, hc => by
    subst h1
    refine ⟨rfl, rec, ?_, h3, Chained.congr h4 fun a ha => hc a (by simp [ha])⟩
    rw [hc p.addr (by simp), h2]
  | none, _ :: _, h, _ => absurd h id
  | some _, [], h, _ => absurd h id

theorem Chained.mem {t : Target} {h : LHeap} : ∀ {r : Option LPtr} {ps : List LPtr}, Chained t h r ps → ∀ p ∈ ps,
    ∃ rec, h.link p.addr = some rec ∧ rec.layout = linkLayoutForValue t p
  | none, [], _, p, hp => by cases hp
  | some q, _ :: ps, ⟨h1, rec, h2, h3, h4⟩, p, hp => by
    subst h1
    rcases List.mem_cons.mp hp with rfl | hp
    · exact ⟨rec, h2, h3⟩
    · exact Chained.mem h4 p hp
  | none, _ :: _, h, _, _ => absurd h id
  | some _, [], h, _, _ => absurd h id

theorem Chained.some_cons {t : Target} {h : LHeap} {p : LPtr} {ps : List LPtr} (hc : Chained t h (some p) ps) :
    ∃ qs rec, ps = p :: qs ∧ h.link p.addr = some rec ∧ rec.layout = linkLayoutForValue t p ∧ Chained t h rec.next qs := by
  cases ps with
  | nil => exact absurd hc id
  | cons q qs => obtain ⟨rfl, rec, h1, h2, h3⟩ := hc; exact ⟨qs, rec, rfl, h1, h2, h3⟩

theorem Chained.none_nil {t : Target} {h : LHeap} {ps : List LPtr} (hc : Chained t h none ps) : ps = [] := by
  cases ps with
  | nil => rfl
  | cons q qs => exact absurd hc id

def serialOf (h : LHeap) (p : LPtr) : Nat :=
  match h.link p.addr with
  | some rec => rec.serial
  | none => 0

/-- The heap without the links of the list. -/
def LHeap.without (h : LHeap) (ps : List LPtr) (freed : List Nat) : LHeap :=
  ⟨fun a => if a ∈ ps.map LPtr.addr then none else h.link a, freed⟩

theorem dropBox_leaf {t : Target} {d fuel : Nat} {h : LHeap} {p : LPtr} {rec : LinkRec} (hl : h.link p.addr = some rec)
    (hn : rec.next = none) (hlay : rec.layout = linkLayoutForValue t p) :
    Link.dropBox t (d + 1) fuel h p = .ret (h.without [p] (rec.serial :: h.freed)) := by
  have hloop : ∀ (g : LHeap), Link.dropLoop (Link.dropBox t d fuel) fuel g none = .ret g := by
    intro g; cases fuel <;> rfl
  simp only [Link.dropBox, Link.takeNext, hl, bind, Outcome.bind, pure, hn, hloop, Link.free, LHeap.set, if_true, hlay, ne_eq,
    not_true_eq_false, if_false]
  congr 1
  simp only [LHeap.without, List.map_cons, List.map_nil, List.mem_singleton]
  congr 1
  funext a
  by_cases ha : a = p.addr <;> simp [ha]

theorem dropLoop_spec {t : Target} {d f : Nat} : ∀ {ps : List LPtr} {fuel : Nat} {h : LHeap} {r : Option LPtr},
    Chained t h r ps → (ps.map LPtr.addr).Nodup → ps.length ≤ fuel →
    Link.dropLoop (Link.dropBox t (d + 1) f) fuel h r = .ret (h.without ps ((ps.map (serialOf h)).reverse ++ h.freed)) := by
  intro ps
  induction ps with
  | nil =>
    intro fuel h r hc _ _
    cases r with
    | some _ => exact absurd hc id
    | none =>
      have : h.without [] (([].map (serialOf h)).reverse ++ h.freed) = h := by
        simp [LHeap.without]
      rw [this]
      cases fuel <;> rfl
  | cons p ps ih =>
    intro fuel h r hc hnd hlen
    cases r with
    | none => exact absurd hc id
    | some q =>
      obtain ⟨rfl, rec, h1, h2, h3⟩ := hc
      cases fuel with
      | zero => simp at hlen
      | succ fuel =>
        rw [List.map_cons, List.nodup_cons] at hnd
        simp only [List.length_cons] at hlen
        simp only [Link.dropLoop, Link.takeNext, h1, bind, Outcome.bind, pure]
        rw [dropBox_leaf (rec := { rec with next := none }) (by simp [LHeap.set]) rfl h2]
        simp only
        generalize hh : LHeap.without _ [q] _ = h'
        have hlink : ∀ a, a ≠ q.addr → h'.link a = h.link a := by
          intro a ha
          rw [← hh]
          simp [LHeap.without, LHeap.set, ha]
        have hne : ∀ a ∈ ps.map LPtr.addr, a ≠ q.addr := fun a ha h => hnd.1 (h ▸ ha)
        rw [ih (h3.congr fun a ha => hlink a (hne a ha)) hnd.2 (by omega)]
        have hser : ps.map (serialOf h') = ps.map (serialOf h) := by
          apply List.map_congr_left
          intro x hx
          unfold serialOf
          rw [hlink _ (hne _ (List.mem_map.mpr ⟨x, hx, rfl⟩))]
        have hfr : h'.freed = rec.serial :: h.freed := by rw [← hh]; rfl
        have hsq : serialOf h q = rec.serial := by unfold serialOf; rw [h1]
        rw [hser, hfr]
        congr 1
        simp only [LHeap.without, List.map_cons, List.reverse_cons, List.append_assoc, hsq]
        congr 1
        funext a
        by_cases ha : a = q.addr
        · subst ha
          simp only [hnd.1, if_false, List.mem_cons, true_or, if_true]
          rw [← hh]
          simp [LHeap.without]
        · simp [ha, hlink a ha]

theorem dropBox_spec {t : Target} {d fuel : Nat} {h : LHeap} {p : LPtr} {ps : List LPtr} (hc : Chained t h (some p) (p :: ps))
    (hnd : ((p :: ps).map LPtr.addr).Nodup) (hlen : ps.length ≤ fuel) :
    Link.dropBox t (d + 2) fuel h p = .ret (h.without (p :: ps) (serialOf h p :: (ps.map (serialOf h)).reverse ++ h.freed)) := by
  obtain ⟨_, rec, h1, h2, h3⟩ := hc
  rw [List.map_cons, List.nodup_cons] at hnd
  have hne : ∀ a ∈ ps.map LPtr.addr, a ≠ p.addr := fun a ha h => hnd.1 (h ▸ ha)
  unfold Link.dropBox
  simp only [Link.takeNext, h1, bind, Outcome.bind, pure]
  generalize hh : LHeap.set h p.addr _ = h'
  have hlink : ∀ a, a ≠ p.addr → h'.link a = h.link a := by
    intro a ha
    rw [← hh]
    simp [LHeap.set, ha]
  rw [dropLoop_spec (h3.congr fun a ha => hlink a (hne a ha)) hnd.2 hlen]
  have hser : ps.map (serialOf h') = ps.map (serialOf h) := by
    apply List.map_congr_left
    intro x hx
    unfold serialOf
    rw [hlink _ (hne _ (List.mem_map.mpr ⟨x, hx, rfl⟩))]
  have hfr : h'.freed = h.freed := by rw [← hh]; rfl
  have hsq : serialOf h p = rec.serial := by unfold serialOf; rw [h1]
  have hp : (h'.without ps ((ps.map (serialOf h')).reverse ++ h'.freed)).link p.addr = some { rec with next := none } := by
    simp only [LHeap.without, hnd.1, if_false]
    rw [← hh]; simp [LHeap.set]
  simp only [Link.free, hp, h2, ne_eq, not_true_eq_false, if_false, pure]
  congr 1
  simp only [LHeap.without, LHeap.set, hser, hfr, hsq, List.map_cons, List.cons_append]
  congr 1
  funext a
  by_cases ha : a = p.addr
  · simp [ha]
  · simp [ha, hlink a ha]

/-! Serial numbers -/

structure SInv (h : LHeap) (n : Nat) : Prop where
  inj : ∀ a a' rec rec', h.link a = some rec → h.link a' = some rec' → rec.serial = rec'.serial → a = a'
  nodup : h.freed.Nodup
  iff : ∀ k, k < n ↔ (k ∈ h.freed ∨ ∃ a rec, h.link a = some rec ∧ rec.serial = k)
  excl : ∀ k ∈ h.freed, ∀ a rec, h.link a = some rec → rec.serial ≠ k

theorem SInv.without {h : LHeap} {n : Nat} (hi : SInv h n) {ps : List LPtr} (hnd : (ps.map LPtr.addr).Nodup)
    (hall : ∀ p ∈ ps, ∃ rec, h.link p.addr = some rec) {fr : List Nat} (hfr : fr.Perm (ps.map (serialOf h) ++ h.freed)) :
    SInv (h.without ps fr) n := by
  have hlink : ∀ {a rec}, (h.without ps fr).link a = some rec → a ∉ ps.map LPtr.addr ∧ h.link a = some rec := by
    intro a rec hr
    simp only [LHeap.without] at hr
    split at hr
    · cases hr
    · exact ⟨by assumption, hr⟩
  have hser : ∀ {p rec}, h.link p.addr = some rec → serialOf h p = rec.serial := by
    intro p rec hr; unfold serialOf; rw [hr]
  have hmem : ∀ {k}, k ∈ fr ↔ ((∃ p ∈ ps, serialOf h p = k) ∨ k ∈ h.freed) := by
    intro k
    rw [hfr.mem_iff, List.mem_append, List.mem_map]
  refine ⟨?_, ?_, ?_, ?_⟩
  · intro a a' rec rec' h1 h2
    exact hi.inj a a' rec rec' (hlink h1).2 (hlink h2).2
  · show fr.Nodup
    rw [hfr.nodup_iff, List.nodup_append]
    refine ⟨?_, hi.nodup, ?_⟩
    · have h2 : ps.Nodup := List.Nodup.of_map _ hnd
      refine List.Nodup.map_on ?_ h2
      intro p hp q hq hpq
      obtain ⟨rp, hrp⟩ := hall p hp
      obtain ⟨rq, hrq⟩ := hall q hq
      rw [hser hrp, hser hrq] at hpq
      have := hi.inj _ _ _ _ hrp hrq hpq
      exact List.inj_on_of_nodup_map hnd hp hq this
    · intro k hk k' hk' hkk
      subst hkk
      obtain ⟨p, hp, rfl⟩ := List.mem_map.mp hk
      obtain ⟨rp, hrp⟩ := hall p hp
      exact hi.excl _ hk' _ _ hrp (hser hrp).symm
  · intro k
    rw [hi.iff k]
    show (k ∈ h.freed ∨ _) ↔ (k ∈ fr ∨ _)
    rw [hmem]
    constructor
    · rintro (hk | ⟨a, rec, ha, hk⟩)
      · exact .inl (.inr hk)
      · by_cases hm : a ∈ ps.map LPtr.addr
        · obtain ⟨p, hp, rfl⟩ := List.mem_map.mp hm
          exact .inl (.inl ⟨p, hp, by rw [hser ha, hk]⟩)
        · exact .inr ⟨a, rec, by simp only [LHeap.without, hm, if_false]; exact ha, hk⟩
    · rintro ((⟨p, hp, hk⟩ | hk) | ⟨a, rec, ha, hk⟩)
      · obtain ⟨rp, hrp⟩ := hall p hp
        exact .inr ⟨_, rp, hrp, by rw [← hser hrp, hk]⟩
      · exact .inl hk
      · exact .inr ⟨a, rec, (hlink ha).2, hk⟩
  · intro k hk a rec ha
    have hk : k ∈ fr := hk
    rw [hmem] at hk
    rcases hk with ⟨p, hp, hk⟩ | hk
    · obtain ⟨rp, hrp⟩ := hall p hp
      intro he
      rw [hser hrp] at hk
      have := hi.inj _ _ _ _ (hlink ha).2 hrp (by rw [he, hk])
      exact (hlink ha).1 (List.mem_map.mpr ⟨p, hp, this.symm⟩)
    · exact hi.excl k hk a rec (hlink ha).2

/-- A path is not longer than the number of allocations. -/
theorem SInv.length_le {h : LHeap} {n : Nat} (hi : SInv h n) {ps : List LPtr} (hnd : (ps.map LPtr.addr).Nodup)
    (hall : ∀ p ∈ ps, ∃ rec, h.link p.addr = some rec) : ps.length ≤ n := by
  have hser : ∀ {p rec}, h.link p.addr = some rec → serialOf h p = rec.serial := by
    intro p rec hr; unfold serialOf; rw [hr]
  have h1 : (ps.map (serialOf h)).Nodup := by
    refine List.Nodup.map_on ?_ (List.Nodup.of_map _ hnd)
    intro p hp q hq hpq
    obtain ⟨rp, hrp⟩ := hall p hp
    obtain ⟨rq, hrq⟩ := hall q hq
    rw [hser hrp, hser hrq] at hpq
    exact List.inj_on_of_nodup_map hnd hp hq (hi.inj _ _ _ _ hrp hrq hpq)
  have h2 : ps.map (serialOf h) ⊆ List.range n := by
    intro k hk
    obtain ⟨p, hp, rfl⟩ := List.mem_map.mp hk
    obtain ⟨rp, hrp⟩ := hall p hp
    rw [List.mem_range]
    exact (hi.iff _).mpr (.inr ⟨_, rp, hrp, (hser hrp).symm⟩)
  have := (List.subperm_of_subset h1 h2).length_le
  simpa using this

/-! The invariant -/

/-- First byte of the data of a link. -/
def LPtr.data (t : Target) (p : LPtr) : Nat := p.addr + 3 * t.wordBytes
def LPtr.level (t : Target) (m : Mem) (p : LPtr) : Nat := (p.asBump t).level t m

structure CInv (t : Target) (s : CState) (P : Nat → List LPtr) : Prop where
  chained : ∀ c r, s.roots c = some r → Chained t s.heap r (P c)
  gone : ∀ c, s.roots c = none → P c = []
  nodup : ∀ c, ((P c).map LPtr.addr).Nodup
  apart : ∀ c d, c ≠ d → ∀ p ∈ P c, ∀ q ∈ P d, p.addr ≠ q.addr
  covered : ∀ a rec, s.heap.link a = some rec → ∃ c, ∃ p ∈ P c, p.addr = a
  serials : SInv s.heap s.serials
  linkok : ∀ a rec, s.heap.link a = some rec → 0 < a ∧ t.wordBytes ∣ a ∧ a + rec.layout.size ≤ t.W
  linkdisj : ∀ a a' rec rec', s.heap.link a = some rec → s.heap.link a' = some rec' → a ≠ a' →
    Region.Disjoint ⟨a, rec.layout.size⟩ ⟨a', rec'.layout.size⟩
  cap : ∀ c, ∀ p ∈ P c, p.cap ≤ t.isizeMax ∧ p.level t s.mem ≤ p.cap
  grants : ∀ g ∈ s.granted, ∃ p ∈ P g.1, p.data t ≤ g.2.ptr ∧ g.2.ptr + g.2.layout.size ≤ p.data t + p.level t s.mem ∧
    0 < g.2.layout.size ∧ g.2.layout.align ∣ g.2.ptr
  gdisj : (s.granted.map fun g => g.2.region).Pairwise Region.Disjoint

theorem CInv.alloc {t : Target} {s : CState} {P : Nat → List LPtr} (hi : CInv t s P) {c : Nat} {p : LPtr} (hp : p ∈ P c) :
    ∃ rec, s.heap.link p.addr = some rec ∧ rec.layout = linkLayoutForValue t p := by
  cases hr : s.roots c with
  | none => rw [hi.gone c hr] at hp; cases hp
  | some r => exact (hi.chained c r hr).mem p hp

/-- The bytes of the allocated block of a link. -/
def LPtr.block (t : Target) (p : LPtr) : Region := ⟨p.addr, (linkLayoutForValue t p).size⟩

theorem LPtr.block_size (t : Target) (p : LPtr) : 3 * t.wordBytes + p.cap ≤ (p.block t).size := by
  have := le_alignUp t.wordBytes_pos (t.wordBytes + p.cap)
  simp only [LPtr.block, linkLayoutForValue_eq]
  omega

theorem CInv.valid {t : Target} {s : CState} {P : Nat → List LPtr} (hi : CInv t s P) {c : Nat} {p : LPtr} (hp : p ∈ P c) :
    (p.asBump t).Valid t := by
  obtain ⟨rec, h1, h2⟩ := hi.alloc hp
  obtain ⟨k1, k2, k3⟩ := hi.linkok _ _ h1
  have hb := p.block_size t
  rw [h2] at k3
  simp only [LPtr.block] at hb
  refine ⟨by show 0 < p.addr + _; omega, ?_, by show p.addr + 2 * t.wordBytes + t.wordBytes + p.cap ≤ _; omega, (hi.cap c p hp).1⟩
  exact Nat.dvd_add k2 (Nat.dvd_mul_left _ _)

/-- Blocks of different links are disjoint. -/
theorem CInv.blocks {t : Target} {s : CState} {P : Nat → List LPtr} (hi : CInv t s P) {c d : Nat} {p q : LPtr} (hp : p ∈ P c) (hq : q ∈ P d)
    (hne : p.addr ≠ q.addr) : (p.block t).Disjoint (q.block t) := by
  obtain ⟨r1, h1, h2⟩ := hi.alloc hp
  obtain ⟨r2, h3, h4⟩ := hi.alloc hq
  have := hi.linkdisj _ _ _ _ h1 h3 hne
  rw [h2, h4] at this
  exact this

/-- The same link in two paths has the same handle and pointer. -/
theorem CInv.unique {t : Target} {s : CState} {P : Nat → List LPtr} (hi : CInv t s P) {c d : Nat} {p q : LPtr} (hp : p ∈ P c) (hq : q ∈ P d)
    (he : p.addr = q.addr) : c = d ∧ p = q := by
  have hcd : c = d := Classical.byContradiction fun h => hi.apart c d h p hp q hq he
  subst hcd
  exact ⟨rfl, List.inj_on_of_nodup_map (hi.nodup c) hp hq he⟩

theorem level_congr {t : Target} {m m' : Mem} {p : LPtr} (h : ∀ x, p.addr + 2 * t.wordBytes ≤ x → x < p.addr + 3 * t.wordBytes → m' x = m x) :
    p.level t m' = p.level t m := by
  apply loadUsize_congr
  intro x h1 h2
  simp only [LPtr.asBump] at h1 h2
  exact h x h1 (by omega)

end Verif.Unsync
