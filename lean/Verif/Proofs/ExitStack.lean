import Mathlib.Data.List.Perm.Subperm
import Verif.Spec.ExitStack
import Verif.Props.UnsyncMem
/-! # Invariants of the exit stack -/
namespace Verif.Exit
open Verif Unsync

theorem Conf.memBump_valid {c : Conf} (hc : c.Valid) : (⟨c.addr, (pinSlotLayout c.t c.M).size⟩ : MemBump).Valid c.t := by
  have hap := hc.slot.1.1.pos
  have hpos := c.t.wordBytes_pos
  have h1 : c.t.wordBytes ∣ (c.memory.layout c.t).align := by
    have h2 : (c.memory.layout c.t).align = max c.t.wordBytes (pinSlotLayout c.t c.M).align := rfl
    have h3 : c.t.wordBytes ≤ (pinSlotLayout c.t c.M).align := Nat.le_max_left _ _
    rw [h2, Nat.max_eq_right h3]
    exact (word_isPow2 c.t).dvd_of_le hc.slot.1.1 h3
  have hs : c.t.wordBytes + (pinSlotLayout c.t c.M).size ≤ (c.memory.layout c.t).size := by
    have a1 := le_alignUp hap c.t.wordBytes
    have a2 := le_alignUp (a := max c.t.wordBytes (pinSlotLayout c.t c.M).align) (by omega)
      (alignUp (pinSlotLayout c.t c.M).align c.t.wordBytes + (pinSlotLayout c.t c.M).size)
    simp only [Conf.memory, TBump.layout]
    omega
  have hnw := hc.no_wrap
  exact ⟨hc.pos, Nat.dvd_trans h1 hc.aligned, by simp only; omega, by have := hc.slot.1.2; simp only; omega⟩

theorem deref_cases (c : Conf) : c.memory.deref c.t c.debug = .panic ∨
    c.memory.deref c.t c.debug = .ret ⟨c.addr, (pinSlotLayout c.t c.M).size⟩ := by
  simp only [TBump.deref]
  split
  · exact .inl rfl
  · exact .inr rfl

theorem pinSlot_size_pos {t : Target} {T : Layout} (h : 0 < T.align) : 0 < (pinSlotLayout t T).size := by
  have hpos := t.wordBytes_pos
  have a1 := le_alignUp h (2 * t.wordBytes)
  have a2 := le_alignUp (a := max t.wordBytes T.align) (by omega) (alignUp T.align (2 * t.wordBytes) + T.size)
  simp only [pinSlotLayout]
  omega

/-! Dropping -/

/-- Drop values until a destructor panics: whether one did, and the log. -/
def dropUntil (panics : Nat → Bool) : List Nat → List Nat → Bool × List Nat
  | [], d => (false, d)
  | v :: vs, d => if panics v then (true, v :: d) else dropUntil panics vs (v :: d)

theorem dropUntil_prefix (panics : Nat → Bool) (vs d : List Nat) :
    ∃ pre post, vs = pre ++ post ∧ (dropUntil panics vs d).2 = pre.reverse ++ d ∧ ((dropUntil panics vs d).1 = false → post = []) ∧
      ((dropUntil panics vs d).1 = true → ∃ v ini, pre = ini ++ [v] ∧ panics v = true) := by
  induction vs generalizing d with
  | nil => exact ⟨[], [], rfl, rfl, fun _ => rfl, fun h => by cases h⟩
  | cons v vs ih =>
    by_cases hp : panics v = true
    · simp only [dropUntil, hp, if_true]
      exact ⟨[v], vs, rfl, rfl, (fun h => by cases h), fun _ => ⟨v, [], rfl, hp⟩⟩
    · simp only [dropUntil, hp]
      obtain ⟨pre, post, h1, h2, h3, h4⟩ := ih (v :: d)
      refine ⟨v :: pre, post, by rw [h1]; rfl, by simp [h2], by simpa using h3, fun h => ?_⟩
      obtain ⟨w, ini, e, hw⟩ := h4 (by simpa using h)
      exact ⟨w, v :: ini, by rw [e]; rfl, hw⟩

theorem dropUntil_of_no_panic (panics : Nat → Bool) (vs d : List Nat)
    (h : ∀ v ∈ (dropUntil panics vs d).2, panics v = false) :
    (dropUntil panics vs d).1 = false ∧ (dropUntil panics vs d).2 = vs.reverse ++ d := by
  obtain ⟨pre, post, h1, h2, h3, h4⟩ := dropUntil_prefix panics vs d
  have : (dropUntil panics vs d).1 = false := by
    by_contra hc
    obtain ⟨v, ini, e, hv⟩ := h4 (by simpa using hc)
    have := h v (by rw [h2, e]; simp)
    rw [hv] at this; cases this
  refine ⟨this, ?_⟩
  rw [h2, h1, h3 this, List.append_nil]

theorem dropUntil_all (panics : Nat → Bool) (vs d : List Nat) (h : ∀ v ∈ vs, panics v = false) :
    dropUntil panics vs d = (false, vs.reverse ++ d) := by
  induction vs generalizing d with
  | nil => rfl
  | cons v vs ih =>
    simp only [dropUntil, h v (by simp)]
    rw [if_neg (by simp), ih _ (fun w hw => h w (by simp [hw]))]
    simp

theorem Lifo.clear_eq (vs d : List Nat) : Lifo.clear vs d = ⟨[], vs.reverse ++ d⟩ := by
  induction vs generalizing d with
  | nil => rfl
  | cons v vs ih => simp [Lifo.clear, ih]

/-! The linked list -/

/-- The linked list starting at `top` is exactly `L`. -/
def Chain (slots : Nat → Option SlotRec) : Option Nat → List (Nat × SlotRec) → Prop
  | top, [] => top = none
  | top, x :: L => top = some x.1 ∧ slots x.1 = some x.2 ∧ Chain slots x.2.link L

theorem Chain.congr {slots slots' : Nat → Option SlotRec} {top : Option Nat} {L : List (Nat × SlotRec)}
    (h : Chain slots top L) (he : ∀ x ∈ L, slots' x.1 = slots x.1) : Chain slots' top L := by
  induction L generalizing top with
  | nil => exact h
  | cons x L ih => exact ⟨h.1, (he x (by simp)).trans h.2.1, ih h.2.2 (fun y hy => he y (by simp [hy]))⟩

theorem popLoop_spec {L : List (Nat × SlotRec)} : ∀ {fuel : Nat} {s : EState} {top : Option Nat},
    Chain s.slots top L → L.length ≤ fuel →
    popLoop fuel s top =
      if (dropUntil s.panics (L.map (·.2.value)) s.dropped).1 = true then
        .unwound { s with dropped := (dropUntil s.panics (L.map (·.2.value)) s.dropped).2 }
      else .ret () { s with dropped := (dropUntil s.panics (L.map (·.2.value)) s.dropped).2 } := by
  induction L with
  | nil =>
    intro fuel s top h _
    cases (show top = none from h)
    cases fuel <;> simp [popLoop, dropUntil]
  | cons x L ih =>
    intro fuel s top h hl
    obtain ⟨h1, h2, h3⟩ := h
    subst h1
    cases fuel with
    | zero => simp at hl
    | succ fuel =>
      simp only [popLoop, h2, dropValue, List.map_cons, dropUntil]
      by_cases hp : s.panics x.2.value = true
      · simp only [hp, if_true]
        cases fuel <;> rfl
      · simp only [hp]
        have := ih (fuel := fuel) (s := { s with dropped := x.2.value :: s.dropped }) (top := x.2.link) h3 (by simpa using hl)
        simpa using this

theorem Chain.pinned {s : EState} {L : List (Nat × SlotRec)} : ∀ {top : Option Nat}, Chain s.slots top L →
    (top = s.top ∨ ∃ p r, s.Pinned p r ∧ r.link = top) → ∀ x ∈ L, s.Pinned x.1 x.2 := by
  induction L with
  | nil => intro _ _ _ x hx; cases hx
  | cons y L ih =>
    intro top h ht
    obtain ⟨h1, h2, h3⟩ := h
    have hy : s.Pinned y.1 y.2 := by
      rcases ht with ht | ⟨p, r, hp, hr⟩
      · exact .top (ht.symm.trans h1) h2
      · exact .link hp (hr.trans h1) h2
    intro x hx
    rcases List.mem_cons.mp hx with rfl | hx
    · exact hy
    · exact ih h3 (.inr ⟨_, _, hy, rfl⟩) x hx

theorem Chain.next_mem {slots : Nat → Option SlotRec} {L : List (Nat × SlotRec)} : ∀ {top : Option Nat}, Chain slots top L →
    ∀ x ∈ L, ∀ q r, x.2.link = some q → slots q = some r → (q, r) ∈ L := by
  induction L with
  | nil => intro _ _ x hx; cases hx
  | cons y L ih =>
    intro top h x hx q r hl hr
    obtain ⟨h1, h2, h3⟩ := h
    rcases List.mem_cons.mp hx with rfl | hx
    · cases L with
      | nil => rw [show x.2.link = none from h3] at hl; cases hl
      | cons z L =>
        obtain ⟨k1, k2, k3⟩ := h3
        rw [k1] at hl; cases hl
        rw [hr] at k2; cases k2
        simp
    · exact List.mem_cons_of_mem _ (ih h3 x hx q r hl hr)

theorem Chain.pinned_iff {s : EState} {L : List (Nat × SlotRec)} (h : Chain s.slots s.top L) {p : Nat} {r : SlotRec} :
    s.Pinned p r ↔ (p, r) ∈ L := by
  constructor
  · intro hp
    induction hp with
    | top ht hr =>
      cases L with
      | nil => rw [show s.top = none from h] at ht; cases ht
      | cons z L =>
        obtain ⟨k1, k2, k3⟩ := h
        rw [k1] at ht; cases ht
        rw [hr] at k2; cases k2
        simp
    | link _ hl hr ih => exact h.next_mem _ ih _ _ hl hr
  · intro hp
    exact Chain.pinned h (.inl rfl) _ hp

/-! The invariant -/

def pinRegion (x : Nat × SlotRec) : Region := ⟨x.1, x.2.layout.size⟩
def openRegion (c : Conf) (x : Nat × Layout) : Region := ⟨x.1, (pinSlotLayout c.t x.2).size⟩
/-- Everything handed out that is still in use. -/
def allocs (c : Conf) (s : EState) (L : List (Nat × SlotRec)) : List Region := L.map pinRegion ++ s.open_.map (openRegion c)

structure EInv (c : Conf) (s : EState) (ev : List EEvent) (L : List (Nat × SlotRec)) : Prop where
  chain : Chain s.slots s.top L
  nodup : (L.map (·.2.value)).Nodup
  fresh : ∀ x ∈ L, x.2.value < s.next ∧ x.2.value ∉ s.dropped
  dropped_nodup : s.dropped.Nodup
  dropped_lt : ∀ v ∈ s.dropped, v < s.next
  level : loadUsize c.t s.mem c.addr ≤ (pinSlotLayout c.t c.M).size
  nonempty : ∀ r ∈ allocs c s L, 0 < r.size
  inside : ∀ r ∈ allocs c s L, c.addr + c.t.wordBytes ≤ r.start ∧ r.start + r.size ≤ c.addr + c.t.wordBytes + loadUsize c.t s.mem c.addr
  disj : (allocs c s L).Pairwise Region.Disjoint
  calm : (∀ v ∈ s.dropped, s.panics v = false) →
    Lifo.run ev = ⟨L.map (·.2.value), s.dropped⟩ ∧ ∀ v < s.next, v ∈ L.map (·.2.value) ∨ v ∈ s.dropped

theorem EInv.length_le {c : Conf} {s : EState} {ev : List EEvent} {L : List (Nat × SlotRec)} (h : EInv c s ev L) : L.length ≤ s.next := by
  have : L.map (·.2.value) ⊆ List.range s.next := by
    intro v hv
    obtain ⟨x, hx, rfl⟩ := List.mem_map.mp hv
    exact List.mem_range.mpr (h.fresh x hx).1
  have := (List.subperm_of_subset h.nodup this).length_le
  simpa using this

theorem Lifo.run_append (ev : List EEvent) (e : EEvent) : Lifo.run (ev ++ [e]) = (Lifo.run ev).step e := by
  simp [Lifo.run, List.foldl_append]

/-- The state after clearing, with log `d` and memory `m`. -/
abbrev clearedState (s : EState) (d : List Nat) (m : Mem) : EState := { s with top := none, dropped := d, mem := m }

/-- Clearing: exactly what happens. -/
theorem innerPopAll_spec {c : Conf} {s : EState} {ev : List EEvent} {L : List (Nat × SlotRec)} (hi : EInv c s ev L) :
    innerPopAll c s =
      if (dropUntil s.panics (L.map (·.2.value)) s.dropped).1 = true ∨ c.memory.deref c.t c.debug = .panic then
        .unwound (clearedState s (dropUntil s.panics (L.map (·.2.value)) s.dropped).2 s.mem)
      else .ret () (clearedState s (dropUntil s.panics (L.map (·.2.value)) s.dropped).2 (storeUsize c.t s.mem c.addr 0)) := by
  have hl := hi.length_le
  have := popLoop_spec (fuel := s.next + 1) (s := { s with top := none }) hi.chain (by omega)
  simp only [innerPopAll, this]
  by_cases hp : (dropUntil s.panics (L.map (·.2.value)) s.dropped).1 = true
  · simp [hp]
  · simp only [hp, false_or]
    rcases deref_cases c with hd | hd
    · simp [hd]
    · simp [hd, MemBump.reset]

/-- After clearing the invariant holds with nothing pinned. -/
theorem EInv.cleared {c : Conf} {s : EState} {ev : List EEvent} {L : List (Nat × SlotRec)} (hi : EInv c s ev L) (ho : s.open_ = [])
    (m : Mem) (hm : loadUsize c.t m c.addr ≤ (pinSlotLayout c.t c.M).size) :
    EInv c (clearedState s (dropUntil s.panics (L.map (·.2.value)) s.dropped).2 m) (ev ++ [.cleared]) [] := by
  obtain ⟨pre, post, h1, h2, h3, h4⟩ := dropUntil_prefix s.panics (L.map (·.2.value)) s.dropped
  have hmem : ∀ v ∈ pre, v < s.next ∧ v ∉ s.dropped := by
    intro v hv
    have : v ∈ L.map (·.2.value) := by rw [h1]; simp [hv]
    obtain ⟨x, hx, rfl⟩ := List.mem_map.mp this
    exact hi.fresh x hx
  have hnd : pre.Nodup := by
    have := hi.nodup
    rw [h1] at this
    exact (List.nodup_append.mp this).1
  have hempty : allocs c (clearedState s (dropUntil s.panics (L.map (·.2.value)) s.dropped).2 m) [] = [] := by simp [allocs, ho]
  refine ⟨rfl, by simp, by simp, ?_, ?_, hm, by simp [hempty], by simp [hempty], by simp [hempty], ?_⟩
  · simp only [h2]
    refine List.nodup_append.mpr ⟨(List.reverse_perm pre).nodup_iff.mpr hnd, hi.dropped_nodup, ?_⟩
    intro a ha b hb e
    subst e
    exact (hmem a (List.mem_reverse.mp ha)).2 hb
  · simp only [h2]
    intro v hv
    rcases List.mem_append.mp hv with hv | hv
    · exact (hmem v (List.mem_reverse.mp hv)).1
    · exact hi.dropped_lt v hv
  · simp only
    intro hcalm
    obtain ⟨k1, k2⟩ := dropUntil_of_no_panic _ _ _ hcalm
    rw [k2] at hcalm
    obtain ⟨c1, c2⟩ := hi.calm (fun v hv => hcalm v (by simp [hv]))
    refine ⟨?_, fun v hv => .inr ?_⟩
    · rw [Lifo.run_append, c1, k2]
      simp [Lifo.step, Lifo.clear_eq]
    · rw [k2]
      rcases c2 v hv with h | h
      · simp only [List.mem_append, List.mem_reverse]; exact .inl h
      · simp only [List.mem_append, List.mem_reverse]; exact .inr h

/-- Asking for a slot: what happens. -/
theorem slot_spec {c : Conf} (hc : c.Valid) {s : EState} (hl : loadUsize c.t s.mem c.addr ≤ (pinSlotLayout c.t c.M).size) {T : Layout}
    (ha : 0 < T.align) :
    (c.memory.deref c.t c.debug = .panic ∧ slot c s T = .unwound s) ∨
    (c.memory.deref c.t c.debug ≠ .panic ∧
      match Slab.place ⟨c.addr + c.t.wordBytes, (pinSlotLayout c.t c.M).size⟩ (pinSlotLayout c.t T) (loadUsize c.t s.mem c.addr) with
      | none => slot c s T = .ret none s
      | some a => slot c s T = .ret (some a.ptr) { s with mem := storeUsize c.t s.mem c.addr a.level }) := by
  have hv := Conf.memBump_valid hc
  rcases deref_cases c with hd | hd
  · exact .inl ⟨hd, by simp [slot, hd]⟩
  · refine .inr ⟨by rw [hd]; simp, ?_⟩
    have hs : 0 < (pinSlotLayout c.t T).size := pinSlot_size_pos ha
    have ha' : 0 < (pinSlotLayout c.t T).align := by simp only [pinSlotLayout]; omega
    have := tryAllocAt_spec hv s.mem hs ha' (g := loadUsize c.t s.mem c.addr) hl
    simp only [slot, hd, MemBump.bumpBox, MemBump.getAt, MemBump.level, this, MemBump.slab]
    cases hp : Slab.place ⟨c.addr + c.t.wordBytes, (pinSlotLayout c.t c.M).size⟩ (pinSlotLayout c.t T) (loadUsize c.t s.mem c.addr) with
    | none => rfl
    | some a => simp [atResult, MemBump.level, bind, Outcome.bind, pure, Except.map]

theorem EInv.congr_ev {c : Conf} {s : EState} {ev ev' : List EEvent} {L : List (Nat × SlotRec)} (hi : EInv c s ev L) (h : ev' = ev) : EInv c s ev' L := h ▸ hi

theorem EInv.slotted {c : Conf} (hc : c.Valid) {s : EState} {ev : List EEvent} {L : List (Nat × SlotRec)} (hi : EInv c s ev L)
    {T : Layout} (ha : 0 < T.align) {a : Alloc}
    (hp : Slab.place ⟨c.addr + c.t.wordBytes, (pinSlotLayout c.t c.M).size⟩ (pinSlotLayout c.t T) (loadUsize c.t s.mem c.addr) = some a) :
    EInv c { s with mem := storeUsize c.t s.mem c.addr a.level, open_ := (a.ptr, T) :: s.open_ } ev L ∧
    (∀ r ∈ allocs c s L, r.Disjoint ⟨a.ptr, (pinSlotLayout c.t T).size⟩) ∧ c.addr + c.t.wordBytes ≤ a.ptr := by
  have hv := Conf.memBump_valid hc
  have hW := Bump.isizeMax_lt c.t
  obtain ⟨p1, p2, p3, p4, p5⟩ := place_level (by simp only [pinSlotLayout]; omega) hp
  simp only at p2 p3 p4
  have hlev : loadUsize c.t (storeUsize c.t s.mem c.addr a.level) c.addr = a.level :=
    loadUsize_storeUsize _ _ _ (by have := hv.cap_le; simp only at this; omega)
  have hdj : ∀ r ∈ allocs c s L, r.Disjoint ⟨a.ptr, (pinSlotLayout c.t T).size⟩ := by
    intro r hr
    have := hi.inside r hr
    exact Region.disjoint_of_le (by simp only; omega)
  have hall : ∀ r, r ∈ allocs c { s with mem := storeUsize c.t s.mem c.addr a.level, open_ := (a.ptr, T) :: s.open_ } L ↔
      r = ⟨a.ptr, (pinSlotLayout c.t T).size⟩ ∨ r ∈ allocs c s L := by
    intro r
    simp only [allocs, List.map_cons, List.mem_append, List.mem_cons, openRegion]
    tauto
  refine ⟨⟨hi.chain, hi.nodup, hi.fresh, hi.dropped_nodup, hi.dropped_lt, by simp only [hlev]; exact p2, ?_, ?_, ?_, hi.calm⟩, hdj, by omega⟩
  · intro r hr
    rcases (hall r).mp hr with rfl | hr
    · exact pinSlot_size_pos ha
    · exact hi.nonempty r hr
  · intro r hr
    simp only [hlev]
    rcases (hall r).mp hr with rfl | hr
    · simp only; omega
    · have := hi.inside r hr
      omega
  · have hperm : (allocs c { s with mem := storeUsize c.t s.mem c.addr a.level, open_ := (a.ptr, T) :: s.open_ } L).Perm
        (⟨a.ptr, (pinSlotLayout c.t T).size⟩ :: allocs c s L) := by
      simp only [allocs, List.map_cons, openRegion]
      exact List.perm_middle
    refine (hperm.pairwise_iff (fun h => Region.Disjoint.symm h)).mpr (List.pairwise_cons.mpr ⟨fun r hr => (hdj r hr).symm, hi.disj⟩)

/-- Pinning into a slot. -/
theorem EInv.pinned {c : Conf} {s : EState} {ev : List EEvent} {L : List (Nat × SlotRec)} (hi : EInv c s ev L)
    {p : Nat} {T : Layout} (ho : (p, T) ∈ s.open_) {bytes : List Byte} (hb : bytes.length = (pinSlotLayout c.t T).size) :
    EInv c { (pin c s p T bytes) with open_ := s.open_.erase (p, T) } (ev ++ [.pinned s.next])
      ((p, ⟨s.top, s.next, pinSlotLayout c.t T⟩) :: L) := by
  have hopen : s.open_.Perm ((p, T) :: s.open_.erase (p, T)) := List.perm_cons_erase ho
  have hperm : (allocs c s L).Perm (⟨p, (pinSlotLayout c.t T).size⟩ :: (L.map pinRegion ++ (s.open_.erase (p, T)).map (openRegion c))) := by
    have : (s.open_.map (openRegion c)).Perm (⟨p, (pinSlotLayout c.t T).size⟩ :: (s.open_.erase (p, T)).map (openRegion c)) := hopen.map _
    exact (List.Perm.append_left _ this).trans List.perm_middle
  have hmemp : (⟨p, (pinSlotLayout c.t T).size⟩ : Region) ∈ allocs c s L := hperm.mem_iff.mpr (by simp)
  have hins := hi.inside _ hmemp
  simp only at hins
  have hlev : loadUsize c.t (writeBytes s.mem p bytes) c.addr = loadUsize c.t s.mem c.addr :=
    loadUsize_congr fun x h1 h2 => writeBytes_of_not_mem (by omega)
  have hpw := (hperm.pairwise_iff (fun h => Region.Disjoint.symm h)).mp hi.disj
  obtain ⟨hpw1, hpw2⟩ := List.pairwise_cons.mp hpw
  have hsz := hi.nonempty _ hmemp
  have hslots : ∀ x ∈ L, x.1 ≠ p ∧ ¬ (p < x.1 + x.2.layout.size ∧ x.1 < p + (pinSlotLayout c.t T).size) := by
    intro x hx
    have hx' : pinRegion x ∈ L.map pinRegion ++ (s.open_.erase (p, T)).map (openRegion c) :=
      List.mem_append_left _ (List.mem_map_of_mem hx)
    have hd := hpw1 _ hx'
    have hne := hi.nonempty (pinRegion x) (List.mem_append_left _ (List.mem_map_of_mem hx))
    rw [Region.disjoint_iff] at hd
    simp only [pinRegion] at hd hsz hne
    constructor
    · omega
    · omega
  have hrec : ∀ x ∈ L, (pin c s p T bytes).slots x.1 = s.slots x.1 := by
    intro x hx
    obtain ⟨h1, h2⟩ := hslots x hx
    have hsl : s.slots x.1 = some x.2 := by
      have := Chain.pinned hi.chain (.inl rfl) x hx
      cases this with
      | top _ h => exact h
      | link _ _ h => exact h
    simp only [pin, writeSlot, h1, if_false, hsl, h2]
  have hlt : ∀ v ∈ L.map (·.2.value), v < s.next := by
    intro v hv
    obtain ⟨x, hx, rfl⟩ := List.mem_map.mp hv
    exact (hi.fresh x hx).1
  refine ⟨⟨rfl, by simp [pin, writeSlot], ?_⟩, ?_, ?_, hi.dropped_nodup, ?_, ?_, ?_, ?_, ?_, ?_⟩
  · exact Chain.congr hi.chain (fun x hx => hrec x hx)
  · simp only [List.map_cons, List.nodup_cons]
    exact ⟨fun h => Nat.lt_irrefl _ (hlt _ h), hi.nodup⟩
  · intro x hx
    rcases List.mem_cons.mp hx with rfl | hx
    · exact ⟨by simp [pin, writeSlot], fun h => Nat.lt_irrefl _ (hi.dropped_lt _ h)⟩
    · have := hi.fresh x hx
      exact ⟨by simp only [pin, writeSlot]; omega, this.2⟩
  · intro v hv
    have := hi.dropped_lt v hv
    simp only [pin, writeSlot]; omega
  · simp only [pin, writeSlot, hlev]; exact hi.level
  · intro r hr
    exact hi.nonempty r (hperm.mem_iff.mpr (by simpa [allocs, pinRegion, pin] using hr))
  · intro r hr
    have := hi.inside r (hperm.mem_iff.mpr (by simpa [allocs, pinRegion, pin] using hr))
    simp only [pin, writeSlot, hlev]; exact this
  · exact hpw
  · intro hcalm
    obtain ⟨c1, c2⟩ := hi.calm hcalm
    refine ⟨?_, fun v hv => ?_⟩
    · rw [Lifo.run_append, c1]
      rfl
    · by_cases hv' : v = s.next
      · exact .inl (by simp [hv'])
      · have : v < s.next := by
          simp only [pin, writeSlot] at hv; omega
        rcases c2 v this with h | h
        · exact .inl (by simp only [List.map_cons, List.mem_cons]; exact .inr h)
        · exact .inr h

/-- Slots that are dropped without being used. -/
theorem EInv.close {c : Conf} {s : EState} {ev : List EEvent} {L : List (Nat × SlotRec)} (hi : EInv c s ev L) (alive : Bool) :
    EInv c { s with open_ := [], alive := alive } ev L := by
  have hsub : (allocs c { s with open_ := [], alive := alive } L).Sublist (allocs c s L) := by
    simp [allocs]
  exact ⟨hi.chain, hi.nodup, hi.fresh, hi.dropped_nodup, hi.dropped_lt, hi.level, fun r hr => hi.nonempty r (hsub.subset hr),
    fun r hr => hi.inside r (hsub.subset hr), hi.disj.sublist hsub, hi.calm⟩

/-- A write of the user into a pinned value. -/
theorem EInv.written {c : Conf} {s : EState} {ev : List EEvent} {L : List (Nat × SlotRec)} (hi : EInv c s ev L)
    {p : Nat} {r : SlotRec} (hp : (p, r) ∈ L) {off : Nat} {bytes : List Byte} :
    EInv c { s with mem := writeBytes s.mem (p + off) bytes } ev L := by
  have hins := hi.inside (pinRegion (p, r)) (List.mem_append_left _ (List.mem_map_of_mem hp))
  simp only [pinRegion] at hins
  have hlev : loadUsize c.t (writeBytes s.mem (p + off) bytes) c.addr = loadUsize c.t s.mem c.addr :=
    loadUsize_congr fun x h1 h2 => writeBytes_of_not_mem (by omega)
  exact ⟨hi.chain, hi.nodup, hi.fresh, hi.dropped_nodup, hi.dropped_lt, by simp only [hlev]; exact hi.level, hi.nonempty,
    fun r hr => by simp only [hlev]; exact hi.inside r hr, hi.disj, hi.calm⟩

theorem storeZero_level {c : Conf} (m : Mem) : loadUsize c.t (storeUsize c.t m c.addr 0) c.addr = 0 :=
  loadUsize_storeUsize _ _ _ (by have := Bump.isizeMax_lt c.t; omega)

/-- What is true after clearing. -/
structure Cleared (c : Conf) (s : EState) (ev : List EEvent) (L : List (Nat × SlotRec)) (s' : EState) : Prop where
  inv : EInv c s' (ev ++ [.cleared]) []
  dropped : s'.dropped = (dropUntil s.panics (L.map (·.2.value)) s.dropped).2
  next : s'.next = s.next
  open_ : s'.open_ = []
  alive : s'.alive = s.alive
  panics : s'.panics = s.panics

/-- Clearing keeps the invariant: it never aborts and there is no undefined behaviour. -/
theorem innerPopAll_inv {c : Conf} {s : EState} {ev : List EEvent} {L : List (Nat × SlotRec)} (hi : EInv c s ev L) (ho : s.open_ = []) :
    ∃ s', Cleared c s ev L s' ∧
      ((innerPopAll c s = .unwound s' ∧ ((dropUntil s.panics (L.map (·.2.value)) s.dropped).1 = true ∨ c.memory.deref c.t c.debug = .panic)) ∨
       innerPopAll c s = .ret () s' ∧ (dropUntil s.panics (L.map (·.2.value)) s.dropped).1 = false ∧ loadUsize c.t s'.mem c.addr = 0 ∧
         c.memory.deref c.t c.debug ≠ .panic) := by
  rw [innerPopAll_spec hi]
  split
  · rename_i h
    exact ⟨_, ⟨hi.cleared ho _ hi.level, rfl, rfl, ho, rfl, rfl⟩, .inl ⟨rfl, h⟩⟩
  · rename_i h
    have := storeZero_level (c := c) s.mem
    exact ⟨_, ⟨hi.cleared ho _ (by rw [this]; omega), rfl, rfl, ho, rfl, rfl⟩, .inr ⟨rfl, by simpa using fun h' => h (.inl h'), this, fun hd => h (.inr hd)⟩⟩

theorem eexec_set_of_cleared {c : Conf} {s s1 : EState} {bytes : List Byte} (h : innerPopAll c { s with open_ := [] } = .ret () s1) :
    ∀ x, slot c s1 c.M = x → eexec c s (.set bytes) = match x with
      | .ret (some p) s => .ret (.addr p) (pin c s p c.M bytes)
      | .ret none s => .unwound s
      | .unwound s => .unwound s
      | .abort => .abort
      | .ub => .ub := by
  intro x hx
  simp only [eexec, set, popAll]
  rw [h]
  simp only [hx]
  rcases x with ⟨_ | _, _⟩ | _ | _ | _ <;> rfl

/-- What an operation can not do. -/
structure Frame (s : EState) (L : List (Nat × SlotRec)) (s' : EState) (L' : List (Nat × SlotRec)) : Prop where
  done : s'.alive = false → L' = []
  panics : s'.panics = s.panics
  next : s.next ≤ s'.next
  pinned : ∀ x ∈ L', x ∈ L ∨ x.2.value = s.next
  dropped : ∀ v ∈ s'.dropped, v ∈ s.dropped ∨ v ∈ L.map (·.2.value)

theorem Cleared.frame {c : Conf} {s s' : EState} {ev : List EEvent} {L : List (Nat × SlotRec)} {o : List (Nat × Layout)} {al : Bool}
    (h : Cleared c { s with open_ := o, alive := al } ev L s') : Frame s L s' [] := by
  refine ⟨fun _ => rfl, h.panics, Nat.le_of_eq h.next.symm, by simp, fun v hv => ?_⟩
  rw [h.dropped] at hv
  obtain ⟨pre, post, h1, h2, -⟩ := dropUntil_prefix s.panics (L.map (·.2.value)) s.dropped
  simp only [h2, List.mem_append, List.mem_reverse] at hv
  rcases hv with hv | hv
  · exact .inr (by rw [h1]; simp [hv])
  · exact .inl hv

/-- One operation: the invariant is preserved, whether it returns or panics; nothing else can happen. -/
theorem eexec_inv {c : Conf} (hc : c.Valid) {s : EState} {ev : List EEvent} {L : List (Nat × SlotRec)} (hi : EInv c s ev L)
    {op : EOp} (ha : op.Allowed c s) :
    ∃ s' L', ((∃ r, eexec c s op = .ret r s' ∧ EInv c s' (ev ++ op.events s false) L') ∨
      (eexec c s op = .unwound s' ∧ EInv c s' (ev ++ op.events s true) L')) ∧ Frame s L s' L' := by
  cases op with
  | slot T =>
    obtain ⟨hal, hT, hT'⟩ := ha
    rcases slot_spec hc hi.level (T := T) hT.1.1.pos with ⟨_, h⟩ | ⟨_, h⟩
    · exact ⟨s, L, .inr ⟨by simp [eexec, h], by simpa [EOp.events] using hi⟩, ⟨by simp [hal], rfl, Nat.le_refl _, fun _ h => .inl h, fun _ h => .inl h⟩⟩
    · split at h
      · exact ⟨s, L, .inl ⟨.none, by simp [eexec, h], by simpa [EOp.events] using hi⟩, ⟨by simp [hal], rfl, Nat.le_refl _, fun _ h => .inl h, fun _ h => .inl h⟩⟩
      · rename_i a hp
        exact ⟨{ s with mem := storeUsize c.t s.mem c.addr a.level, open_ := (a.ptr, T) :: s.open_ }, L, .inl ⟨.addr a.ptr, by simp only [eexec, h], by simpa [EOp.events] using (hi.slotted hc hT.1.1.pos hp).1⟩, ⟨by simp [hal], rfl, Nat.le_refl _, fun _ h => .inl h, fun _ h => .inl h⟩⟩
  | pin p T bytes =>
    obtain ⟨hal, ho, hb⟩ := ha
    exact ⟨_, _, .inl ⟨.addr p, rfl, hi.pinned ho hb⟩, ⟨by simp [pin, writeSlot, hal], rfl, by simp [pin, writeSlot],
      fun x h => by rcases List.mem_cons.mp h with rfl | h; exacts [.inr rfl, .inl h], fun _ h => .inl h⟩⟩
  | write p off bytes =>
    obtain ⟨hal, r, hp, _, _⟩ := ha
    exact ⟨_, _, .inl ⟨.unit, rfl, by simpa [EOp.events] using hi.written (hi.chain.pinned_iff.mp hp)⟩, ⟨by simp [hal], rfl, Nat.le_refl _, fun _ h => .inl h, fun _ h => .inl h⟩⟩
  | popAll =>
    have hi' := hi.close s.alive
    obtain ⟨s1, hcl, h⟩ := innerPopAll_inv hi' rfl
    refine ⟨s1, [], ?_, hcl.frame⟩
    rcases h with ⟨h, _⟩ | ⟨h, _⟩
    · exact .inr ⟨by simp only [eexec, popAll]; rw [h], hcl.inv⟩
    · exact .inl ⟨.unit, by simp only [eexec, popAll]; rw [h], hcl.inv⟩
  | drop =>
    have hi' := hi.close false
    obtain ⟨s1, hcl, h⟩ := innerPopAll_inv hi' rfl
    refine ⟨s1, [], ?_, hcl.frame⟩
    rcases h with ⟨h, _⟩ | ⟨h, _⟩
    · exact .inr ⟨by simp only [eexec, Exit.drop]; rw [h], hcl.inv⟩
    · exact .inl ⟨.unit, by simp only [eexec, Exit.drop]; rw [h], hcl.inv⟩
  | set bytes =>
    obtain ⟨hal, hb⟩ := ha
    have hi' := hi.close s.alive
    obtain ⟨s1, hcl, h⟩ := innerPopAll_inv hi' rfl
    rcases h with ⟨h, _⟩ | ⟨h, _⟩
    · exact ⟨s1, [], .inr ⟨by simp only [eexec, set, popAll]; rw [h], by simpa [EOp.events] using hcl.inv⟩, hcl.frame⟩
    · have hM := hc.M.1.1.pos
      have hset := eexec_set_of_cleared (bytes := bytes) h
      rcases slot_spec hc hcl.inv.level hM with ⟨_, h2⟩ | ⟨_, h2⟩
      · exact ⟨s1, [], .inr ⟨hset _ h2, by simpa [EOp.events] using hcl.inv⟩, hcl.frame⟩
      · split at h2
        · exact ⟨s1, [], .inr ⟨hset _ h2, by simpa [EOp.events] using hcl.inv⟩, hcl.frame⟩
        · rename_i a hp
          have h3 := (hcl.inv.slotted hc hM hp).1.pinned (p := a.ptr) (T := c.M) (bytes := bytes) (by simp) hb
          refine ⟨_, [(a.ptr, ⟨s1.top, s1.next, pinSlotLayout c.t c.M⟩)], .inl ⟨.addr a.ptr, hset _ h2, ?_⟩,
            ⟨by simp [pin, writeSlot, hcl.alive, hal], by simpa [pin, writeSlot] using hcl.panics, by simp [pin, writeSlot, hcl.next],
              fun x h => by rw [List.mem_singleton] at h; subst h; exact .inr hcl.next, hcl.frame.dropped⟩⟩
          have e : ev ++ EOp.events s false (.set bytes) = ev ++ [.cleared] ++ [.pinned s1.next] := by
            simp [EOp.events, hcl.next]
          rw [e]
          convert h3 using 1
          simp [pin, writeSlot, hcl.open_]

theorem EReach.inv {c : Conf} (hc : c.Valid) {s : EState} {ev : List EEvent} (h : EReach c s ev) :
    ∃ L, EInv c s ev L ∧ (s.alive = false → L = []) := by
  induction h with
  | init h =>
    refine ⟨[], ⟨rfl, by simp, by simp, by simp, by simp, by rw [h]; omega, by simp [allocs], by simp [allocs], by simp [allocs], fun _ => ⟨rfl, by simp⟩⟩, by simp⟩
  | ret _ ha hx ih =>
    obtain ⟨L, hi, _⟩ := ih
    obtain ⟨s', L', h, hfr⟩ := eexec_inv hc hi ha
    rcases h with ⟨r, h, hinv⟩ | ⟨h, hinv⟩
    · rw [hx] at h; cases h; exact ⟨L', hinv, hfr.done⟩
    · rw [hx] at h; cases h
  | unwound _ ha hx ih =>
    obtain ⟨L, hi, _⟩ := ih
    obtain ⟨s', L', h, hfr⟩ := eexec_inv hc hi ha
    rcases h with ⟨r, h, hinv⟩ | ⟨h, hinv⟩
    · rw [hx] at h; cases h
    · rw [hx] at h; cases h; exact ⟨L', hinv, hfr.done⟩

end Verif.Exit
