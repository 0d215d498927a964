import Verif.Proofs.ExitStack
import Verif.Spec.ExitNest
/-! # Exit stacks that are used by destructors: the model refines the specification -/
namespace Verif.ExitNest
open Exit Unsync

set_option autoImplicit false

/-! ## Bytes -/

theorem readBytes_part (m : Mem) (p n k l : Nat) (hk : k + l ≤ n) : ((readBytes m p n).drop k).take l = readBytes m (p + k) l := by
  apply List.ext_getElem?
  intro i
  simp only [readBytes, List.getElem?_take, List.getElem?_drop, List.getElem?_map]
  split
  · rename_i hi
    rw [List.getElem?_range (by omega), List.getElem?_range hi]
    simp [Nat.add_assoc]
  · rename_i hi
    rw [List.getElem?_eq_none (by simp; omega)]
    simp

theorem readBytes_three (m : Mem) (p a b c : Nat) : readBytes m p (a + b + c) = readBytes m p a ++ readBytes m (p + a) b ++ readBytes m (p + (a + b)) c := by
  simp only [readBytes, List.range_add, List.map_append, List.map_map, List.append_assoc]
  congr 2
  · apply List.map_congr_left; intro i _; simp [Nat.add_assoc]
  · apply List.map_congr_left; intro i _; simp [Nat.add_assoc]

theorem readBytes_patch (m : Mem) (p n off : Nat) (bs : List Byte) (h : off + bs.length ≤ n) :
    readBytes (writeBytes m (p + off) bs) p n = patch (readBytes m p n) off bs := by
  obtain ⟨r, rfl⟩ := Nat.le.dest h
  rw [readBytes_three, readBytes_three, patch]
  have h1 : readBytes (writeBytes m (p + off) bs) p off = readBytes m p off := readBytes_congr fun x _ _ => writeBytes_of_not_mem (by omega)
  have h2 : readBytes (writeBytes m (p + off) bs) (p + (off + bs.length)) r = readBytes m (p + (off + bs.length)) r := readBytes_congr fun x _ _ => writeBytes_of_not_mem (by omega)
  rw [h1, h2, readBytes_writeBytes_self]
  congr 1
  · simp [List.take_append]
  · simp [List.drop_append]

theorem length_patch {bs new : List Byte} {off : Nat} (h : off + new.length ≤ bs.length) : (patch bs off new).length = bs.length := by
  simp only [patch, List.length_append, List.length_take, List.length_drop]
  omega

/-! ## The debug assertion -/

theorem deref_eq {c : Conf} (hc : c.Valid) : c.memory.deref c.t c.debug =
    if (c.debug && decide (c.t.wordBytes < c.M.align)) = true then .panic else .ret ⟨c.addr, (pinSlotLayout c.t c.M).size⟩ := by
  have hpos := c.t.wordBytes_pos
  have hMa := hc.M.1.1.pos
  have hlay : c.memory.layout c.t ≠ (⟨c.addr, (pinSlotLayout c.t c.M).size⟩ : MemBump).layoutForValue c.t ↔ c.t.wordBytes < c.M.align := by
    simp only [Conf.memory, TBump.layout, MemBump.layoutForValue]
    have halign : (pinSlotLayout c.t c.M).align = max c.t.wordBytes c.M.align := rfl
    rw [halign]
    by_cases hlt : c.t.wordBytes < c.M.align
    · simp only [hlt, iff_true]
      intro he
      have := congrArg Layout.align he
      simp only at this
      omega
    · have hm : max c.t.wordBytes c.M.align = c.t.wordBytes := by omega
      simp only [hlt, iff_false, hm, Nat.max_self, alignUp_of_dvd hpos (Nat.dvd_refl _)]
      simp only [ne_eq, not_true_eq_false, not_false_eq_true]
  simp only [TBump.deref]
  by_cases hdb : c.debug = true
  · by_cases hlt : c.t.wordBytes < c.M.align
    · rw [if_pos ⟨hdb, hlay.mpr hlt⟩]; simp [hdb, hlt]
    · rw [if_neg fun h => hlt (hlay.mp h.2)]; simp [hdb, hlt]; rfl
  · rw [if_neg fun h => hdb h.1]; simp [hdb]; rfl

/-! ## The relation -/

def view (m : Mem) (y : Nat × SlotRec) : Entry := ⟨y.1, y.2.value, readBytes m y.1 y.2.layout.size⟩
def refOf (y : Nat × SlotRec) : Nat × Nat := (y.1, y.2.layout.size)

structure Same (t : Target) (st : Stack) (x : SStack) : Prop where
  conf : x.conf = st.conf
  valid : st.conf.Valid
  target : st.conf.t = t
  level : x.level = loadUsize st.conf.t st.s.mem st.conf.addr
  made : x.made = st.s.next
  alive : x.alive = st.s.alive
  open_ : x.open_ = st.s.open_

structure Idle (t : Target) (st : Stack) (x : SStack) (ev : List EEvent) (L : List (Nat × SlotRec)) : Prop extends Same t st x where
  inv : EInv st.conf st.s ev L
  live : x.live = L.map (view st.s.mem)
  refs : st.refs = L.map refOf
  quiet : ∀ v, v ∉ st.s.dropped → st.s.panics v = false

/-- A stack that is being cleared: `pre` is done, `rest` is not. -/
structure Busy (t : Target) (st : Stack) (x : SStack) (s0 : EState) (ev : List EEvent) (pre rest : List (Nat × SlotRec)) : Prop extends Same t st x where
  inv : EInv st.conf s0 ev (pre ++ rest)
  live : x.live = []
  refs : st.refs = []
  closed : s0.open_ = []
  quiet : ∀ v, v ∉ s0.dropped → s0.panics v = false
  state : st.s = { s0 with top := none, dropped := (pre.map (·.2.value)).reverse ++ s0.dropped }

def GoalOk (c : Conf) (g : Goal) : Prop := ∀ bytes, g = .set bytes → bytes.length = (pinSlotLayout c.t c.M).size

structure InFrame (t : Target) (st : Stack) (x : SStack) (f : SFrame) (s0 : EState) (ev : List EEvent) (pre : List (Nat × SlotRec)) (y : Nat × SlotRec) (rest : List (Nat × SlotRec)) : Prop where
  busy : Busy t st x s0 ev (pre ++ [y]) rest
  running : f.running = view st.s.mem y
  rest_eq : f.rest = rest.map (view st.s.mem)
  goal : GoalOk st.conf f.goal

def Each (t : Target) (w : World) (sw : SWorld) (k : Nat) : Prop := ∀ st x, w.stacks[k]? = some st → sw.stacks[k]? = some x →
  (k ∉ sw.frames.map (·.stack) → ∃ ev L, Idle t st x ev L) ∧ ∀ f ∈ sw.frames, f.stack = k → ∃ s0 ev pre y rest, InFrame t st x f s0 ev pre y rest

structure Base (w : World) (sw : SWorld) : Prop where
  len : sw.stacks.length = w.stacks.length
  frames : w.frames = sw.frames.map fun f => ⟨f.stack, f.running.addr, f.goal⟩
  nodup : (sw.frames.map (·.stack)).Nodup
  bound : ∀ f ∈ sw.frames, f.stack < w.stacks.length
  log : w.log = sw.log

structure Rel (t : Target) (w : World) (sw : SWorld) : Prop extends Base w sw where
  each : ∀ k, Each t w sw k

theorem Each.congr {t : Target} {w w' : World} {sw sw' : SWorld} {k : Nat} (h : Each t w sw k) (hw : w'.stacks[k]? = w.stacks[k]?) (hs : sw'.stacks[k]? = sw.stacks[k]?)
    (hf : ∀ f : SFrame, f.stack = k → (f ∈ sw'.frames ↔ f ∈ sw.frames)) : Each t w' sw' k := by
  intro st x h1 h2
  rw [hw] at h1
  rw [hs] at h2
  obtain ⟨k1, k2⟩ := h st x h1 h2
  refine ⟨fun hn => k1 fun hm => hn ?_, fun f hf' hfk => k2 f ((hf f hfk).mp hf') hfk⟩
  obtain ⟨f, hfm, hfk⟩ := List.mem_map.mp hm
  exact List.mem_map.mpr ⟨f, (hf f hfk).mpr hfm, hfk⟩

theorem Base.stacks_of {w : World} {sw : SWorld} (h : Base w sw) {k : Nat} {st : Stack} (hs : w.stacks[k]? = some st) : ∃ x, sw.stacks[k]? = some x := by
  obtain ⟨hlt, _⟩ := List.getElem?_eq_some_iff.mp hs
  exact ⟨sw.stacks[k]'(by rw [h.len]; exact hlt), List.getElem?_eq_getElem (by rw [h.len]; exact hlt)⟩

theorem Base.frameStacks {w : World} {sw : SWorld} (h : Base w sw) : w.frames.map (·.stack) = sw.frames.map (·.stack) := by
  rw [h.frames]; simp [Function.comp_def]

/-- A stack changes, no frame does. -/
theorem Base.put {w : World} {sw : SWorld} (h : Base w sw) (k : Nat) (st : Stack) (x : SStack) : Base (w.put k st) (sw.put k x) :=
  ⟨by simp [World.put, SWorld.put, h.len], h.frames, h.nodup, by simpa [World.put, SWorld.put] using h.bound, h.log⟩

theorem put_self {w : World} {k : Nat} {st st' : Stack} (h : w.stacks[k]? = some st) : (w.put k st').stacks[k]? = some st' := by
  obtain ⟨hlt, _⟩ := List.getElem?_eq_some_iff.mp h
  simp [World.put, hlt]

theorem sput_self {w : SWorld} {k : Nat} {x x' : SStack} (h : w.stacks[k]? = some x) : (w.put k x').stacks[k]? = some x' := by
  obtain ⟨hlt, _⟩ := List.getElem?_eq_some_iff.mp h
  simp [SWorld.put, hlt]

theorem put_ne {w : World} {k j : Nat} {st' : Stack} (h : j ≠ k) : (w.put k st').stacks[j]? = w.stacks[j]? := by
  simp [World.put, List.getElem?_set_ne (Ne.symm h)]

theorem sput_ne {w : SWorld} {k j : Nat} {x' : SStack} (h : j ≠ k) : (w.put k x').stacks[j]? = w.stacks[j]? := by
  simp [SWorld.put, List.getElem?_set_ne (Ne.symm h)]

/-- A stack that no destructor of it runs on is put back. -/
theorem rel_put {t : Target} {w : World} {sw : SWorld} (h : Base w sw) {k : Nat} (ho : ∀ j, j ≠ k → Each t w sw j) (hk : k ∉ sw.frames.map (·.stack)) {st st' : Stack} {x x' : SStack}
    (hst : w.stacks[k]? = some st) (hx : sw.stacks[k]? = some x) (hi : ∃ ev L, Idle t st' x' ev L) : Rel t (w.put k st') (sw.put k x') := by
  refine ⟨h.put k st' x', fun j => ?_⟩
  by_cases hj : j = k
  · subst hj
    intro a b ha hb
    rw [put_self hst] at ha
    rw [sput_self hx] at hb
    cases ha; cases hb
    exact ⟨fun _ => hi, fun f hf hfk => absurd (List.mem_map.mpr ⟨f, hf, hfk⟩) hk⟩
  · exact (ho j hj).congr (put_ne hj) (sput_ne hj) fun f _ => Iff.rfl

theorem SWorld.put_eq {w : SWorld} {k : Nat} {x : SStack} (h : w.stacks[k]? = some x) : w.put k x = w := by
  obtain ⟨hlt, he⟩ := List.getElem?_eq_some_iff.mp h
  have : w.stacks.set k x = w.stacks := by rw [← he]; exact List.set_getElem_self hlt
  simp only [SWorld.put, this]

theorem World.put_eq {w : World} {k : Nat} {x : Stack} (h : w.stacks[k]? = some x) : w.put k x = w := by
  obtain ⟨hlt, he⟩ := List.getElem?_eq_some_iff.mp h
  have : w.stacks.set k x = w.stacks := by rw [← he]; exact List.set_getElem_self hlt
  simp only [World.put, this]

/-! ## The linked list -/

theorem chain_split {slots : Nat → Option SlotRec} {y : Nat × SlotRec} {rest : List (Nat × SlotRec)} : ∀ {pre : List (Nat × SlotRec)} {top : Option Nat},
    Chain slots top (pre ++ [y] ++ rest) → slots y.1 = some y.2 ∧ Chain slots y.2.link rest
  | [], _, h => ⟨h.2.1, h.2.2⟩
  | _ :: _, _, h => chain_split h.2.2

/-- Slots in memory do not contain the level. -/
theorem view_level {c : Conf} {s : EState} {ev : List EEvent} {L : List (Nat × SlotRec)} (hi : EInv c s ev L) (n : Nat) : ∀ y ∈ L, view (storeUsize c.t s.mem c.addr n) y = view s.mem y := by
  intro y hy
  have := hi.inside (pinRegion y) (List.mem_append_left _ (List.mem_map_of_mem hy))
  simp only [pinRegion] at this
  simp only [view, Entry.mk.injEq, true_and]
  exact readBytes_congr fun x _ _ => storeUsize_of_not_mem (by omega)

/-- Other slots are not changed by a write into one. -/
theorem view_write {c : Conf} {s : EState} {ev : List EEvent} {L : List (Nat × SlotRec)} (hi : EInv c s ev L) {z : Nat × SlotRec} (hz : z ∈ L) {off : Nat} {bytes : List Byte}
    (hb : off + bytes.length ≤ z.2.layout.size) : ∀ y ∈ L,
      view (writeBytes s.mem (z.1 + off) bytes) y = if y.1 = z.1 then { view s.mem y with bytes := patch (view s.mem y).bytes off bytes } else view s.mem y := by
  intro y hy
  have hpw : (L.map pinRegion).Pairwise Region.Disjoint := (List.pairwise_append.mp hi.disj).1
  rw [List.pairwise_map] at hpw
  have hny := hi.nonempty (pinRegion y) (List.mem_append_left _ (List.mem_map_of_mem hy))
  have hnz := hi.nonempty (pinRegion z) (List.mem_append_left _ (List.mem_map_of_mem hz))
  by_cases e : y = z
  · subst e
    rw [if_pos rfl]
    simp only [view, readBytes_patch _ _ _ _ _ hb]
  · have hd : (pinRegion y).Disjoint (pinRegion z) := by
      obtain ⟨i, hi', rfl⟩ := List.getElem_of_mem hy
      obtain ⟨j, hj, rfl⟩ := List.getElem_of_mem hz
      rcases Nat.lt_trichotomy i j with h | h | h
      · exact List.pairwise_iff_getElem.mp hpw i j hi' hj h
      · subst h; exact absurd rfl e
      · exact (List.pairwise_iff_getElem.mp hpw j i hj hi' h).symm
    rw [Region.disjoint_iff] at hd
    simp only [pinRegion] at hd hny hnz
    rw [if_neg (by omega)]
    simp only [view, Entry.mk.injEq, true_and]
    exact readBytes_congr fun x _ _ => writeBytes_of_not_mem (by omega)

theorem view_pin {c : Conf} {s : EState} {ev : List EEvent} {L : List (Nat × SlotRec)} (hi : EInv c s ev L) {p : Nat} {T : Layout} (ho : (p, T) ∈ s.open_) {bytes : List Byte}
    (hb : bytes.length = (pinSlotLayout c.t T).size) : ∀ y ∈ L, view (writeBytes s.mem p bytes) y = view s.mem y := by
  intro y hy
  have hd := (List.pairwise_append.mp hi.disj).2.2 _ (List.mem_map_of_mem hy) _ (List.mem_map_of_mem ho)
  have hny := hi.nonempty (pinRegion y) (List.mem_append_left _ (List.mem_map_of_mem hy))
  have hnz := hi.nonempty (openRegion c (p, T)) (List.mem_append_right _ (List.mem_map_of_mem ho))
  rw [Region.disjoint_iff] at hd
  simp only [pinRegion, openRegion] at hd hny hnz
  simp only [view, Entry.mk.injEq, true_and]
  exact readBytes_congr fun x _ _ => writeBytes_of_not_mem (by omega)

/-! ## Operations on an idle stack -/

theorem Same.asserts {t : Target} {st : Stack} {x : SStack} (h : Same t st x) :
    st.conf.memory.deref st.conf.t st.conf.debug = if x.asserts = true then .panic else .ret ⟨st.conf.addr, (pinSlotLayout st.conf.t st.conf.M).size⟩ := by
  rw [deref_eq h.valid]; simp only [SStack.asserts, h.conf]

theorem Same.slab {t : Target} {st : Stack} {x : SStack} (h : Same t st x) : x.slab = ⟨st.conf.addr + st.conf.t.wordBytes, (pinSlotLayout st.conf.t st.conf.M).size⟩ := by
  simp only [SStack.slab, h.conf]

theorem Idle.slotted {t : Target} {st : Stack} {x : SStack} {ev : List EEvent} {L : List (Nat × SlotRec)} (h : Idle t st x ev L) {T : Layout} (ha : 0 < T.align) {a : Alloc}
    (hp : x.slab.place (pinSlotLayout x.conf.t T) x.level = some a) :
    Idle t { st with s := { st.s with mem := storeUsize st.conf.t st.s.mem st.conf.addr a.level, open_ := (a.ptr, T) :: st.s.open_ } }
      { x with level := a.level, open_ := (a.ptr, T) :: x.open_ } ev L := by
  rw [h.slab, h.conf, h.level] at hp
  have hle := (place_level (by simp only [pinSlotLayout]; omega) hp).2.1
  have hlev : loadUsize st.conf.t (storeUsize st.conf.t st.s.mem st.conf.addr a.level) st.conf.addr = a.level :=
    loadUsize_storeUsize _ _ _ (by have := (Conf.memBump_valid h.valid).cap_le; have := Bump.isizeMax_lt st.conf.t; simp only at *; omega)
  exact { conf := h.conf, valid := h.valid, target := h.target, level := hlev.symm, made := h.made, alive := h.alive, open_ := by simp only [h.open_]
          inv := (h.inv.slotted h.valid ha hp).1
          live := by rw [h.live]; exact (List.map_congr_left (view_level h.inv _)).symm
          refs := h.refs, quiet := h.quiet }

theorem Idle.pinned {t : Target} {st : Stack} {x : SStack} {ev : List EEvent} {L : List (Nat × SlotRec)} (h : Idle t st x ev L) {p : Nat} {T : Layout} (ho : (p, T) ∈ st.s.open_) {bytes : List Byte}
    (hb : bytes.length = (pinSlotLayout st.conf.t T).size) :
    ∃ ev' L', Idle t { st with s := { Exit.pin st.conf st.s p T bytes with open_ := st.s.open_.erase (p, T) }, refs := (p, (pinSlotLayout st.conf.t T).size) :: st.refs }
      { x with live := ⟨p, x.made, bytes⟩ :: x.live, open_ := x.open_.erase (p, T), made := x.made + 1 } ev' L' := by
  have hi := h.inv.pinned ho hb
  refine ⟨_, _, { conf := h.conf, valid := h.valid, target := h.target, level := ?_, made := ?_, alive := h.alive, open_ := ?_, inv := hi, live := ?_, refs := ?_, quiet := h.quiet }⟩
  · have hins := h.inv.inside (openRegion st.conf (p, T)) (List.mem_append_right _ (List.mem_map_of_mem ho))
    simp only [openRegion] at hins
    simp only [pin, writeSlot, h.level]
    exact (loadUsize_congr fun x h1 h2 => writeBytes_of_not_mem (by omega)).symm
  · simp only [pin, writeSlot, h.made]
  · simp only [h.open_]
  · simp only [List.map_cons, pin, writeSlot]
    rw [h.live, ← List.map_congr_left (view_pin h.inv ho hb)]
    congr 1
    simp only [view, h.made, Entry.mk.injEq, true_and]
    rw [← hb, readBytes_writeBytes_self]
  · simp only [List.map_cons, refOf, h.refs]

theorem mem_refs {L : List (Nat × SlotRec)} {m : Mem} {t : Target} {p off len : Nat} :
    (L.map refOf).any (fun r => decide (r.1 = p ∧ 2 * t.wordBytes ≤ off ∧ off + len ≤ r.2)) = true ↔ ∃ e ∈ L.map (view m), e.addr = p ∧ e.Has t off len := by
  simp only [List.any_eq_true, List.mem_map, decide_eq_true_eq]
  constructor
  · rintro ⟨_, ⟨y, hy, rfl⟩, h1, h2, h3⟩
    exact ⟨_, ⟨y, hy, rfl⟩, h1, h2, by simpa [view, refOf] using h3⟩
  · rintro ⟨_, ⟨y, hy, rfl⟩, h1, h2, h3⟩
    exact ⟨_, ⟨y, hy, rfl⟩, h1, h2, by simpa [view, refOf] using h3⟩

theorem Idle.written {t : Target} {st : Stack} {x : SStack} {ev : List EEvent} {L : List (Nat × SlotRec)} (h : Idle t st x ev L) {p off : Nat} {bytes : List Byte}
    (he : ∃ e ∈ x.live, e.addr = p ∧ e.Has x.conf.t off bytes.length) :
    Idle t { st with s := { st.s with mem := writeBytes st.s.mem (p + off) bytes } }
      { x with live := x.live.map fun e => if e.addr = p then { e with bytes := patch e.bytes off bytes } else e } ev L := by
  obtain ⟨e, hm, rfl, hh⟩ := he
  rw [h.live] at hm
  obtain ⟨z, hz, rfl⟩ := List.mem_map.mp hm
  have hb : off + bytes.length ≤ z.2.layout.size := by simpa [view] using hh.2
  have hins := h.inv.inside (pinRegion z) (List.mem_append_left _ (List.mem_map_of_mem hz))
  simp only [pinRegion] at hins
  refine { conf := h.conf, valid := h.valid, target := h.target, level := ?_, made := h.made, alive := h.alive, open_ := h.open_
           inv := h.inv.written hz, live := ?_, refs := h.refs, quiet := h.quiet }
  · rw [h.level]
    exact (loadUsize_congr fun x h1 h2 => writeBytes_of_not_mem (by simp only [view] at *; omega)).symm
  · simp only [h.live, List.map_map]
    exact List.map_congr_left fun y hy => (view_write h.inv hz hb y hy).symm

theorem Idle.found {t : Target} {st : Stack} {x : SStack} {ev : List EEvent} {L : List (Nat × SlotRec)} (h : Idle t st x ev L) {p off len : Nat} :
    (st.refs.any (fun r => decide (r.1 = p ∧ 2 * st.conf.t.wordBytes ≤ off ∧ off + len ≤ r.2)) = true ∧
      ∃ e, x.live.find? (fun e => decide (e.addr = p)) = some e ∧ e.Has x.conf.t off len ∧ readBytes st.s.mem (p + off) len = (e.bytes.drop off).take len) ∨
    (st.refs.any (fun r => decide (r.1 = p ∧ 2 * st.conf.t.wordBytes ≤ off ∧ off + len ≤ r.2)) = false ∧
      ∀ e, x.live.find? (fun e => decide (e.addr = p)) = some e → ¬ e.Has x.conf.t off len) := by
  rw [h.refs, h.live, h.conf]
  cases hf : (L.map (view st.s.mem)).find? (fun e => decide (e.addr = p)) with
  | none =>
    refine .inr ⟨?_, by simp⟩
    rw [Bool.eq_false_iff]
    intro hc
    obtain ⟨e, he, h1, _⟩ := (mem_refs (m := st.s.mem)).mp hc
    have := List.find?_eq_none.mp hf e he
    exact this (by simpa using h1)
  | some e =>
    have hm := List.mem_of_find?_eq_some hf
    have hp : e.addr = p := by simpa using List.find?_some hf
    by_cases hh : e.Has st.conf.t off len
    · refine .inl ⟨(mem_refs (m := st.s.mem)).mpr ⟨e, hm, hp, hh⟩, e, rfl, hh, ?_⟩
      obtain ⟨y, _, rfl⟩ := List.mem_map.mp hm
      have := hh.2
      simp only [view] at hp this ⊢
      subst hp
      rw [readBytes_part _ _ _ _ _ (by simpa using this)]
    · refine .inr ⟨?_, by rintro _ ⟨⟩; exact hh⟩
      rw [Bool.eq_false_iff]
      intro hc
      obtain ⟨e', he', h1, h2⟩ := (mem_refs (m := st.s.mem)).mp hc
      obtain ⟨y, hy, rfl⟩ := List.mem_map.mp hm
      obtain ⟨z, hz, rfl⟩ := List.mem_map.mp he'
      have hv := view_write h.inv hz (off := 0) (bytes := List.replicate z.2.layout.size 0) (by simp) y hy
      have hyz : y.1 = z.1 := by simp only [view] at hp h1; omega
      -- the addresses of different slots differ
      have hlen := h2.2
      have : y = z := by
        refine Classical.byContradiction fun hne => ?_
        have hpw : (L.map pinRegion).Pairwise Region.Disjoint := (List.pairwise_append.mp h.inv.disj).1
        rw [List.pairwise_map] at hpw
        have hny := h.inv.nonempty (pinRegion y) (List.mem_append_left _ (List.mem_map_of_mem hy))
        have hnz := h.inv.nonempty (pinRegion z) (List.mem_append_left _ (List.mem_map_of_mem hz))
        have hd : (pinRegion y).Disjoint (pinRegion z) := by
          obtain ⟨i, hi', rfl⟩ := List.getElem_of_mem hy
          obtain ⟨j, hj, rfl⟩ := List.getElem_of_mem hz
          rcases Nat.lt_trichotomy i j with h | h | h
          · exact List.pairwise_iff_getElem.mp hpw i j hi' hj h
          · subst h; exact absurd rfl hne
          · exact (List.pairwise_iff_getElem.mp hpw j i hj hi' h).symm
        rw [Region.disjoint_iff] at hd
        simp only [pinRegion] at hd hny hnz
        omega
      subst this
      exact hh h2

/-! ## Clearing -/

theorem Busy.finished {t : Target} {st : Stack} {x : SStack} {s0 : EState} {ev : List EEvent} {pre : List (Nat × SlotRec)} (h : Busy t st x s0 ev pre []) (m : Mem)
    (hm : loadUsize st.conf.t m st.conf.addr ≤ (pinSlotLayout st.conf.t st.conf.M).size) :
    Idle t { st with s := { st.s with mem := m } } { x with level := loadUsize st.conf.t m st.conf.addr } (ev ++ [.cleared]) [] := by
  have hi := h.inv
  rw [List.append_nil] at hi
  have hcl := hi.cleared h.closed m hm
  have hdu : dropUntil s0.panics (pre.map (·.2.value)) s0.dropped = (false, (pre.map (·.2.value)).reverse ++ s0.dropped) := by
    refine dropUntil_all _ _ _ fun v hv => h.quiet v ?_
    obtain ⟨y, hy, rfl⟩ := List.mem_map.mp hv
    exact (hi.fresh y hy).2
  rw [hdu] at hcl
  have he : ({ st.s with mem := m } : EState) = clearedState s0 ((pre.map (·.2.value)).reverse ++ s0.dropped) m := by rw [h.state]
  refine { conf := h.conf, valid := h.valid, target := h.target, level := rfl, made := h.made, alive := h.alive, open_ := h.open_, inv := ?_, live := h.live, refs := h.refs, quiet := ?_ }
  · show EInv st.conf { st.s with mem := m } _ _
    rw [he]; exact hcl
  · intro v hv
    have : v ∉ s0.dropped := fun hv' => hv (by simp only [h.state]; exact List.mem_append_right _ hv')
    simpa only [h.state] using h.quiet v this

theorem Busy.finish_rel {t : Target} {w : World} {sw : SWorld} (hbase : Base w sw) {k : Nat} (ho : ∀ j, j ≠ k → Each t w sw j) (hk : k ∉ sw.frames.map (·.stack)) {st : Stack} {x : SStack}
    (hst : w.stacks[k]? = some st) (hx : sw.stacks[k]? = some x) {s0 : EState} {ev : List EEvent} {pre : List (Nat × SlotRec)} (h : Busy t st x s0 ev pre []) {goal : Goal} (hg : GoalOk st.conf goal) :
    ∃ w', finish w k st goal = some ((sfinish sw k x goal).1, w') ∧ Rel t w' (sfinish sw k x goal).2 := by
  have hz := storeZero_level (c := st.conf) st.s.mem
  have hi0 := h.finished (storeUsize st.conf.t st.s.mem st.conf.addr 0) (by rw [hz]; omega)
  rw [hz] at hi0
  by_cases hA : x.asserts = true
  · refine ⟨w, ?_, ?_⟩
    · simp only [finish, sfinish, h.asserts, hA, if_true]
    · have hl : loadUsize st.conf.t st.s.mem st.conf.addr ≤ (pinSlotLayout st.conf.t st.conf.M).size := by
        have := h.inv.level; rw [h.state]; exact this
      have hi := h.finished st.s.mem hl
      rw [← h.level] at hi
      have hr := rel_put hbase ho hk hst hx ⟨_, _, hi⟩
      rw [show sfinish sw k x goal = (.unwound, sw) by simp only [sfinish, if_pos hA]]
      rw [SWorld.put_eq hx, World.put_eq hst] at hr
      exact hr
  · have hd : st.conf.memory.deref st.conf.t st.conf.debug = .ret ⟨st.conf.addr, (pinSlotLayout st.conf.t st.conf.M).size⟩ := by rw [h.asserts, if_neg hA]
    cases goal with
    | pop => exact ⟨_, by simp only [finish, sfinish, hd, if_neg hA]; rfl, by simp only [sfinish, if_neg hA, MemBump.reset]; exact rel_put hbase ho hk hst hx ⟨_, _, hi0⟩⟩
    | drop => exact ⟨_, by simp only [finish, sfinish, hd, if_neg hA]; rfl, by simp only [sfinish, if_neg hA, MemBump.reset]; exact rel_put hbase ho hk hst hx ⟨_, _, hi0⟩⟩
    | set bytes =>
      have hb := hg bytes rfl
      have hM := h.valid.M.1.1.pos
      have hlev : loadUsize st.conf.t (storeUsize st.conf.t st.s.mem st.conf.addr 0) st.conf.addr ≤ (pinSlotLayout st.conf.t st.conf.M).size := by rw [hz]; omega
      rcases slot_spec h.valid (s := { st.s with mem := storeUsize st.conf.t st.s.mem st.conf.addr 0 }) hlev hM with ⟨hp, _⟩ | ⟨_, hs⟩
      · rw [hd] at hp; cases hp
      · simp only [hz] at hs
        have hslab : x.slab.place (pinSlotLayout x.conf.t x.conf.M) 0 = Slab.place ⟨st.conf.addr + st.conf.t.wordBytes, (pinSlotLayout st.conf.t st.conf.M).size⟩ (pinSlotLayout st.conf.t st.conf.M) 0 := by
          rw [h.slab, h.conf]
        simp only [finish, sfinish, hd, hA, hslab]
        cases hpl : Slab.place ⟨st.conf.addr + st.conf.t.wordBytes, (pinSlotLayout st.conf.t st.conf.M).size⟩ (pinSlotLayout st.conf.t st.conf.M) 0 with
        | none =>
          rw [hpl] at hs
          simp only at hs
          simp only [MemBump.reset, hs]
          exact ⟨_, rfl, rel_put hbase ho hk hst hx ⟨_, _, hi0⟩⟩
        | some a =>
          rw [hpl] at hs
          simp only at hs
          simp only [MemBump.reset, hs]
          refine ⟨_, rfl, rel_put hbase ho hk hst hx ?_⟩
          have hsl := hi0.slotted (T := st.conf.M) hM (a := a) (by
            show Slab.place (SStack.slab x) (pinSlotLayout x.conf.t st.conf.M) 0 = some a
            rw [h.slab, h.conf]; exact hpl)
          obtain ⟨ev', L', hp'⟩ := hsl.pinned (p := a.ptr) (T := st.conf.M) (bytes := bytes) (by simp) hb
          refine ⟨ev', L', ?_⟩
          have hso : st.s.open_ = [] := by rw [h.state]; exact h.closed
          have hxo : x.open_ = [] := by rw [h.open_, hso]
          simpa [h.live, hso, hxo, pin, writeSlot, h.refs] using hp'

theorem Busy.advance_rel {t : Target} {w : World} {sw : SWorld} (hbase : Base w sw) {k : Nat} (ho : ∀ j, j ≠ k → Each t w sw j) (hk : k ∉ sw.frames.map (·.stack)) {st : Stack} {x : SStack}
    (hst : w.stacks[k]? = some st) (hx : sw.stacks[k]? = some x) {s0 : EState} {ev : List EEvent} {pre rest : List (Nat × SlotRec)} (h : Busy t st x s0 ev pre rest) {goal : Goal} (hg : GoalOk st.conf goal)
    {chain : Option Nat} (hch : Chain s0.slots chain rest) :
    ∃ w', advance w k goal chain = some ((snext sw k x goal (rest.map (view st.s.mem))).1, w') ∧ Rel t w' (snext sw k x goal (rest.map (view st.s.mem))).2 := by
  cases rest with
  | nil =>
    cases (show chain = none from hch)
    simp only [advance, hst, List.map_nil, snext]
    exact h.finish_rel hbase ho hk hst hx hg
  | cons y rest =>
    obtain ⟨h1, h2, h3⟩ := hch
    subst h1
    have hsl : st.s.slots y.1 = some y.2 := by rw [h.state]; exact h2
    simp only [advance, hst, hsl, List.map_cons, snext]
    refine ⟨_, rfl, ?_⟩
    have hbound : k < w.stacks.length := (List.getElem?_eq_some_iff.mp hst).1
    refine ⟨⟨by simp [World.put, hbase.len], ?_, ?_, ?_, ?_⟩, fun j => ?_⟩
    · simp only [List.map_cons, hbase.frames, view]
    · simp only [List.map_cons, List.nodup_cons]; exact ⟨hk, hbase.nodup⟩
    · intro f hf
      simp only [World.put, List.length_set]
      rcases List.mem_cons.mp hf with rfl | hf
      · exact hbound
      · exact hbase.bound f hf
    · simp only [hbase.log, view]
    · by_cases hj : j = k
      · subst hj
        intro st' x' h1 h2
        rw [show (_ : Option Stack) = _ from put_self (w := w) hst] at h1
        rw [show sw.stacks[j]? = some x' from h2] at hx
        cases h1; cases hx
        refine ⟨fun hn => absurd (by simp) hn, fun f hf hfk => ?_⟩
        rcases List.mem_cons.mp hf with rfl | hf
        · refine ⟨s0, ev, pre, y, rest, ⟨?_, rfl, rfl, hg⟩⟩
          refine { conf := h.conf, valid := h.valid, target := h.target, level := h.level, made := h.made, alive := h.alive, open_ := h.open_
                   inv := by simpa using h.inv, live := h.live, refs := h.refs, closed := h.closed, quiet := h.quiet, state := ?_ }
          simp only [dropValue, h.state, List.map_append, List.map_cons, List.map_nil, List.reverse_append, List.reverse_cons, List.reverse_nil, List.nil_append, List.cons_append]
        · exact absurd (List.mem_map.mpr ⟨f, hf, hfk⟩) hk
      · refine (ho j hj).congr (put_ne hj) rfl fun f hf => ?_
        simp only [List.mem_cons]
        exact ⟨fun h => h.resolve_left fun e => hj (by rw [e] at hf; exact hf.symm), .inr⟩

theorem Idle.clear_rel {t : Target} {w : World} {sw : SWorld} (hr : Rel t w sw) {k : Nat} (hk : k ∉ sw.frames.map (·.stack)) {st : Stack} {x : SStack}
    (hst : w.stacks[k]? = some st) (hx : sw.stacks[k]? = some x) {ev : List EEvent} {L : List (Nat × SlotRec)} (h : Idle t st x ev L) {goal : Goal} (hg : GoalOk st.conf goal) :
    ∃ w', clear w k st goal = some ((sclear sw k x goal).1, w') ∧ Rel t w' (sclear sw k x goal).2 := by
  have hal : (if goal = .drop then false else x.alive) = goal.leaves st.s.alive := by cases goal <;> simp [Goal.leaves, h.alive]
  simp only [clear, sclear]
  have hi := h.inv.close (goal.leaves st.s.alive)
  have hb : Busy t { st with s := { st.s with top := none, open_ := [], alive := goal.leaves st.s.alive }, refs := [] }
      { x with live := [], open_ := [], alive := if goal = .drop then false else x.alive }
      { st.s with open_ := [], alive := goal.leaves st.s.alive } ev [] L :=
    { conf := h.conf, valid := h.valid, target := h.target, level := h.level, made := h.made, alive := hal, open_ := rfl
      inv := hi, live := rfl, refs := rfl, closed := rfl, quiet := h.quiet, state := by simp }
  have := hb.advance_rel (w := w.put k _) (sw := sw.put k _) (hr.put k _ _) (fun j hj => (hr.each j).congr (put_ne hj) (sput_ne hj) fun _ _ => Iff.rfl) hk (put_self hst) (sput_self hx) hg h.inv.chain
  rw [h.live]
  exact this

/-! ## The destructor that is running -/

theorem dropUntil_at (panics : Nat → Bool) : ∀ (pre : List Nat) (v : Nat) (post d : List Nat), (∀ u ∈ pre, panics u = false) → panics v = true →
    dropUntil panics (pre ++ v :: post) d = (true, v :: (pre.reverse ++ d))
  | [], v, post, d, _, h => by simp [dropUntil, h]
  | u :: pre, v, post, d, hp, h => by
    rw [List.cons_append, dropUntil, if_neg (by simp [hp u (by simp)]), dropUntil_at panics pre v post _ (fun a ha => hp a (by simp [ha])) h]
    simp

theorem InFrame.slot {t : Target} {st : Stack} {x : SStack} {f : SFrame} {s0 : EState} {ev : List EEvent} {pre : List (Nat × SlotRec)} {y : Nat × SlotRec} {rest : List (Nat × SlotRec)}
    (h : InFrame t st x f s0 ev pre y rest) : st.s.slots f.running.addr = some y.2 ∧ Chain s0.slots y.2.link rest := by
  obtain ⟨h1, h2⟩ := chain_split h.busy.inv.chain
  refine ⟨?_, h2⟩
  rw [h.running, h.busy.state]
  exact h1

theorem InFrame.unwound {t : Target} {st : Stack} {x : SStack} {f : SFrame} {s0 : EState} {ev : List EEvent} {pre : List (Nat × SlotRec)} {y : Nat × SlotRec} {rest : List (Nat × SlotRec)}
    (h : InFrame t st x f s0 ev pre y rest) :
    ∃ ev L, Idle t { st with s := { st.s with panics := fun v => if v = y.2.value then true else st.s.panics v } } x ev L := by
  have hb := h.busy
  have hi := hb.inv
  have hfresh : ∀ z ∈ pre ++ [y] ++ rest, z.2.value ∉ s0.dropped := fun z hz => (hi.fresh z hz).2
  have hyd := hfresh y (by simp)
  have hi' : EInv st.conf { s0 with panics := fun v => if v = y.2.value then true else s0.panics v } ev (pre ++ [y] ++ rest) :=
    ⟨hi.chain, hi.nodup, hi.fresh, hi.dropped_nodup, hi.dropped_lt, hi.level, hi.nonempty, hi.inside, hi.disj, fun hc => hi.calm fun v hv => by
      have := hc v hv
      simp only at this
      rwa [if_neg (fun e => hyd (by rw [← e]; exact hv))] at this⟩
  have hcl := hi'.cleared hb.closed st.s.mem (by have := hi.level; rw [hb.state]; exact this)
  have hnd : ((pre ++ [y] ++ rest).map (·.2.value)).Nodup := hi.nodup
  have hdu : dropUntil (fun v => if v = y.2.value then true else s0.panics v) ((pre ++ [y] ++ rest).map (·.2.value)) s0.dropped =
      (true, y.2.value :: ((pre.map (·.2.value)).reverse ++ s0.dropped)) := by
    have e : (pre ++ [y] ++ rest).map (·.2.value) = pre.map (·.2.value) ++ y.2.value :: rest.map (·.2.value) := by simp
    rw [e] at hnd ⊢
    refine dropUntil_at _ _ _ _ _ (fun u hu => ?_) (by simp)
    have hne : u ≠ y.2.value := fun e => (List.nodup_append.mp hnd).2.2 u hu _ (by simp) e
    simp only [if_neg hne]
    obtain ⟨z, hz, rfl⟩ := List.mem_map.mp hu
    exact hb.quiet _ (hfresh z (by simp [hz]))
  simp only [hdu] at hcl
  have he : ({ st.s with panics := fun v => if v = y.2.value then true else st.s.panics v } : EState) =
      clearedState { s0 with panics := fun v => if v = y.2.value then true else s0.panics v } (y.2.value :: ((pre.map (·.2.value)).reverse ++ s0.dropped)) st.s.mem := by
    rw [hb.state]; simp [clearedState]
  refine ⟨ev ++ [.cleared], [], { conf := hb.conf, valid := hb.valid, target := hb.target, level := hb.level, made := hb.made, alive := hb.alive, open_ := hb.open_, inv := ?_, live := hb.live, refs := hb.refs, quiet := ?_ }⟩
  · show EInv st.conf { st.s with panics := _ } _ _
    rw [he]; exact hcl
  · intro v hv
    rw [hb.state] at hv
    simp only [List.map_append, List.map_cons, List.map_nil, List.reverse_append, List.reverse_cons, List.reverse_nil, List.nil_append, List.cons_append, List.mem_cons, not_or] at hv
    show (if v = y.2.value then true else st.s.panics v) = false
    rw [if_neg hv.1, hb.state]
    exact hb.quiet v fun h' => hv.2 (List.mem_append_right _ h')

theorem InFrame.written {t : Target} {st : Stack} {x : SStack} {f : SFrame} {s0 : EState} {ev : List EEvent} {pre : List (Nat × SlotRec)} {y : Nat × SlotRec} {rest : List (Nat × SlotRec)}
    (h : InFrame t st x f s0 ev pre y rest) {off : Nat} {bytes : List Byte} (hh : f.running.Has x.conf.t off bytes.length) :
    InFrame t { st with s := { st.s with mem := writeBytes st.s.mem (f.running.addr + off) bytes } } x { f with running := { f.running with bytes := patch f.running.bytes off bytes } }
      { s0 with mem := writeBytes s0.mem (y.1 + off) bytes } ev pre y rest := by
  have hb := h.busy
  have hi := hb.inv
  have hy : y ∈ pre ++ [y] ++ rest := by simp
  have hmem : st.s.mem = s0.mem := by rw [hb.state]
  have hsz : off + bytes.length ≤ y.2.layout.size := by have := hh.2; rw [h.running] at this; simpa [view] using this
  have haddr : f.running.addr = y.1 := by rw [h.running]; rfl
  have hins := hi.inside (pinRegion y) (List.mem_append_left _ (List.mem_map_of_mem hy))
  simp only [pinRegion] at hins
  have hv := view_write hi hy hsz
  refine ⟨{ conf := hb.conf, valid := hb.valid, target := hb.target, level := ?_, made := hb.made, alive := hb.alive, open_ := hb.open_, inv := hi.written hy, live := hb.live, refs := hb.refs
            closed := hb.closed, quiet := hb.quiet, state := ?_ }, ?_, ?_, h.goal⟩
  · rw [hb.level, haddr]
    exact (loadUsize_congr fun x h1 h2 => writeBytes_of_not_mem (by omega)).symm
  · simp only [haddr, hb.state]
  · show ({ f.running with bytes := patch f.running.bytes off bytes } : Entry) = view (writeBytes st.s.mem (f.running.addr + off) bytes) y
    rw [haddr, hmem, hv y hy, if_pos rfl, h.running, hmem]
  · show f.rest = rest.map (view (writeBytes st.s.mem (f.running.addr + off) bytes))
    rw [haddr, hmem, h.rest_eq, hmem]
    refine List.map_congr_left fun z hz => ?_
    rw [hv z (by simp [hz]), if_neg]
    intro e
    have hpw : ((pre ++ [y] ++ rest).map pinRegion).Pairwise Region.Disjoint := (List.pairwise_append.mp hi.disj).1
    rw [List.pairwise_map] at hpw
    have hd := (List.pairwise_append.mp hpw).2.2 y (by simp) z hz
    have hny := hi.nonempty (pinRegion y) (List.mem_append_left _ (List.mem_map_of_mem hy))
    have hnz := hi.nonempty (pinRegion z) (List.mem_append_left _ (List.mem_map_of_mem (by simp [hz])))
    rw [Region.disjoint_iff] at hd
    simp only [pinRegion] at hd hny hnz
    omega

/-! ## One step -/

theorem Rel.idle {t : Target} {w : World} {sw : SWorld} (hr : Rel t w sw) (k : Nat) :
    (w.idle k = none ∧ sw.idle k = none) ∨
    ∃ st x, w.idle k = some st ∧ sw.idle k = some x ∧ w.stacks[k]? = some st ∧ sw.stacks[k]? = some x ∧ k ∉ sw.frames.map (·.stack) ∧ ∃ ev L, Idle t st x ev L := by
  cases hst : w.stacks[k]? with
  | none =>
    refine .inl ⟨by simp [World.idle, hst], ?_⟩
    have : sw.stacks[k]? = none := by
      rw [List.getElem?_eq_none_iff] at hst ⊢
      rw [hr.len]; exact hst
    simp [SWorld.idle, this]
  | some st =>
    obtain ⟨x, hx⟩ := hr.stacks_of hst
    by_cases hk : k ∈ sw.frames.map (·.stack)
    · refine .inl ⟨?_, ?_⟩
      · simp only [World.idle, hst, hr.frameStacks]; rw [if_neg fun h => h.2 hk]
      · simp only [SWorld.idle, hx]; rw [if_neg fun h => h.2 hk]
    · obtain ⟨ev, L, hi⟩ := (hr.each k st x hst hx).1 hk
      by_cases hal : st.s.alive = true
      · refine .inr ⟨st, x, ?_, ?_, rfl, hx, hk, ev, L, hi⟩
        · simp only [World.idle, hst, hr.frameStacks]; rw [if_pos ⟨hal, hk⟩]
        · simp only [SWorld.idle, hx]; rw [if_pos ⟨hi.alive.trans hal, hk⟩]
      · refine .inl ⟨?_, ?_⟩
        · simp only [World.idle, hst]; rw [if_neg fun h => hal h.1]
        · simp only [SWorld.idle, hx]; rw [if_neg fun h => hal (hi.alive.symm.trans h.1)]

/-- The innermost frame. -/
theorem Rel.frame {t : Target} {w : World} {sw : SWorld} (hr : Rel t w sw) {f : SFrame} {fs : List SFrame} (hf : sw.frames = f :: fs) :
    w.frames = ⟨f.stack, f.running.addr, f.goal⟩ :: fs.map (fun f => ⟨f.stack, f.running.addr, f.goal⟩) ∧
    f.stack ∉ fs.map (·.stack) ∧ (fs.map (·.stack)).Nodup ∧
    ∃ st x, w.stacks[f.stack]? = some st ∧ sw.stacks[f.stack]? = some x ∧ ∃ s0 ev pre y rest, InFrame t st x f s0 ev pre y rest := by
  have hnd := hr.nodup
  rw [hf] at hnd
  simp only [List.map_cons, List.nodup_cons] at hnd
  have hlt := hr.bound f (by rw [hf]; simp)
  have hst : w.stacks[f.stack]? = some w.stacks[f.stack] := List.getElem?_eq_getElem hlt
  obtain ⟨x, hx⟩ := hr.stacks_of hst
  refine ⟨by rw [hr.frames, hf]; rfl, hnd.1, hnd.2, _, x, hst, hx, (hr.each _ _ _ hst hx).2 f (by rw [hf]; simp) rfl⟩

/-- The innermost frame ends. -/
theorem Rel.popped {t : Target} {w : World} {sw : SWorld} (hr : Rel t w sw) {f : SFrame} {fs : List SFrame} (hf : sw.frames = f :: fs) (l : List (Nat × Nat)) :
    Base { w with frames := fs.map (fun f => ⟨f.stack, f.running.addr, f.goal⟩) } { sw with frames := fs, lost := l } ∧
    ∀ j, j ≠ f.stack → Each t { w with frames := fs.map (fun f => ⟨f.stack, f.running.addr, f.goal⟩) } { sw with frames := fs, lost := l } j := by
  obtain ⟨_, _, hnd, _⟩ := hr.frame hf
  refine ⟨⟨hr.len, rfl, hnd, fun g hg => hr.bound g (by rw [hf]; exact List.mem_cons_of_mem _ hg), hr.log⟩, fun j hj => (hr.each j).congr rfl rfl fun g hg => ?_⟩
  rw [hf, List.mem_cons]
  exact ⟨.inr, fun h => h.resolve_left fun e => hj (by rw [e] at hg; exact hg.symm)⟩

theorem exec_rel {t : Target} {w : World} {sw : SWorld} (hr : Rel t w sw) {op : Op} (hok : op.Ok t) :
    ∃ w', exec w op = some ((sexec sw op).1, w') ∧ Rel t w' (sexec sw op).2 := by
  cases op with
  | new c m =>
    obtain ⟨hc, ht⟩ := hok
    refine ⟨_, by simp only [exec, sexec, hr.len]; rfl, ?_⟩
    have hz := storeZero_level (c := c) m
    refine ⟨⟨by simp [sexec, hr.len], hr.frames, hr.nodup, fun f hf => by have := hr.bound f hf; simp only [List.length_append]; omega, hr.log⟩, fun j => ?_⟩
    by_cases hj : j < w.stacks.length
    · refine (hr.each j).congr (List.getElem?_append_left hj) (List.getElem?_append_left (by rw [hr.len]; exact hj)) fun _ _ => Iff.rfl
    · by_cases hj' : j = w.stacks.length
      · subst hj'
        intro st x h1 h2
        simp only [List.getElem?_concat_length, Option.some.injEq] at h1
        simp only [sexec, ← hr.len, List.getElem?_concat_length, Option.some.injEq] at h2
        subst h1; subst h2
        refine ⟨fun _ => ⟨[], [], ?_⟩, fun f hf hfk => absurd (hr.bound f hf) (by omega)⟩
        exact { conf := rfl, valid := hc, target := ht, level := hz.symm, made := rfl, alive := rfl, open_ := rfl
                inv := ⟨rfl, by simp, by simp, by simp, by simp, by simp only; rw [hz]; omega, by simp [allocs], by simp [allocs], by simp [allocs], fun _ => ⟨rfl, by simp⟩⟩
                live := rfl, refs := rfl, quiet := fun _ _ => rfl }
      · intro st x h1 _
        simp only at h1
        rw [List.getElem?_eq_none (by simp only [List.length_append, List.length_singleton]; omega)] at h1
        cases h1
  | slot k T =>
    obtain ⟨hT, _⟩ := hok
    simp only [exec, sexec]
    rcases hr.idle k with ⟨h1, h2⟩ | ⟨st, x, h1, h2, hst, hx, hk, ev, L, hi⟩
    · exact ⟨w, by simp [h1, h2], by simpa [h2] using hr⟩
    · simp only [h1, h2]
      rcases slot_spec hi.valid hi.inv.level (T := T) hT.1.1.pos with ⟨hd, hs⟩ | ⟨hd, hs⟩
      · rw [hi.asserts] at hd
        have hA : x.asserts = true := Classical.byContradiction fun hn => by rw [if_neg hn] at hd; cases hd
        simp only [hs, hA, if_true]
        exact ⟨_, rfl, by rw [World.put_eq hst]; exact hr⟩
      · rw [hi.asserts] at hd
        have hA : ¬ x.asserts = true := fun hn => hd (by rw [if_pos hn])
        simp only [hA]
        have hpl : x.slab.place (pinSlotLayout x.conf.t T) x.level = Slab.place ⟨st.conf.addr + st.conf.t.wordBytes, (pinSlotLayout st.conf.t st.conf.M).size⟩ (pinSlotLayout st.conf.t T)
            (loadUsize st.conf.t st.s.mem st.conf.addr) := by rw [hi.slab, hi.conf, hi.level]
        cases hp : x.slab.place (pinSlotLayout x.conf.t T) x.level with
        | none =>
          rw [← hpl, hp] at hs
          simp only at hs
          simp only [hs]
          exact ⟨_, rfl, by rw [World.put_eq hst]; exact hr⟩
        | some a =>
          rw [← hpl, hp] at hs
          simp only at hs
          simp only [hs]
          exact ⟨_, rfl, rel_put hr.toBase (fun j _ => hr.each j) hk hst hx ⟨ev, L, hi.slotted hT.1.1.pos hp⟩⟩
  | pin k p T bytes =>
    simp only [exec, sexec]
    rcases hr.idle k with ⟨h1, h2⟩ | ⟨st, x, h1, h2, hst, hx, hk, ev, L, hi⟩
    · exact ⟨w, by simp [h1, h2], by simpa [h2] using hr⟩
    · simp only [h1, h2, hi.open_, hi.conf]
      by_cases hg : (p, T) ∈ st.s.open_ ∧ bytes.length = (pinSlotLayout st.conf.t T).size
      · simp only [if_pos hg]
        refine ⟨_, rfl, rel_put hr.toBase (fun j _ => hr.each j) hk hst hx ?_⟩
        have := hi.pinned hg.1 hg.2
        rwa [hi.open_, hi.conf] at this
      · simp only [if_neg hg]
        exact ⟨_, rfl, hr⟩
  | write k p off bytes =>
    simp only [exec, sexec]
    rcases hr.idle k with ⟨h1, h2⟩ | ⟨st, x, h1, h2, hst, hx, hk, ev, L, hi⟩
    · exact ⟨w, by simp [h1, h2], by simpa [h2] using hr⟩
    · simp only [h1, h2]
      have hiff := mem_refs (L := L) (m := st.s.mem) (t := st.conf.t) (p := p) (off := off) (len := bytes.length)
      rw [← hi.refs, ← hi.live, ← hi.conf] at hiff
      by_cases hg : ∃ e ∈ x.live, e.addr = p ∧ e.Has x.conf.t off bytes.length
      · rw [hi.conf] at hiff
        rw [if_pos (hiff.mpr (by rw [← hi.conf]; exact hg)), if_pos hg]
        exact ⟨_, rfl, rel_put hr.toBase (fun j _ => hr.each j) hk hst hx ⟨ev, L, hi.written hg⟩⟩
      · rw [hi.conf] at hiff
        rw [if_neg (fun h => hg (by rw [hi.conf]; exact hiff.mp h)), if_neg hg]
        exact ⟨_, rfl, hr⟩
  | read k p off len =>
    simp only [exec, sexec]
    rcases hr.idle k with ⟨h1, h2⟩ | ⟨st, x, h1, h2, hst, hx, hk, ev, L, hi⟩
    · exact ⟨w, by simp [h1, h2], by simpa [h2] using hr⟩
    · simp only [h1, h2]
      rcases hi.found (p := p) (off := off) (len := len) with ⟨ha, e, hf, hh, hb⟩ | ⟨ha, hn⟩
      · simp only [ha, hf, if_pos hh, if_true, hb]
        exact ⟨_, rfl, hr⟩
      · simp only [ha]
        cases hf : x.live.find? (fun e => decide (e.addr = p)) with
        | none => exact ⟨_, rfl, hr⟩
        | some e => simp only [if_neg (hn e hf)]; exact ⟨_, rfl, hr⟩
  | writeSelf off bytes =>
    simp only [exec, sexec]
    cases hf : sw.frames with
    | nil =>
      have : w.frames = [] := by rw [hr.frames, hf]; rfl
      simp only [this]
      exact ⟨_, rfl, hr⟩
    | cons f fs =>
      obtain ⟨hwf, hnf, hnd, st, x, hst, hx, s0, ev, pre, y, rest, hin⟩ := hr.frame hf
      simp only [hwf, hst, hx, hin.slot.1]
      have hsz : (2 * st.conf.t.wordBytes ≤ off ∧ off + bytes.length ≤ y.2.layout.size) ↔ f.running.Has x.conf.t off bytes.length := by
        rw [hin.running, hin.busy.conf]; simp [Entry.Has, view]
      by_cases hg : f.running.Has x.conf.t off bytes.length
      · rw [if_pos (hsz.mpr hg), if_pos hg]
        refine ⟨_, rfl, ⟨⟨by simp [World.put, hr.len], ?_, ?_, ?_, hr.log⟩, fun j => ?_⟩⟩
        · show w.frames = _
          rw [hwf]; rfl
        · simp only [List.map_cons, List.nodup_cons]; exact ⟨hnf, hnd⟩
        · intro g hg
          simp only [World.put, List.length_set]
          rcases List.mem_cons.mp hg with rfl | hg
          · exact hr.bound f (by rw [hf]; simp)
          · exact hr.bound g (by rw [hf]; exact List.mem_cons_of_mem _ hg)
        · by_cases hj : j = f.stack
          · subst hj
            intro st' x' h1 h2
            rw [put_self hst] at h1
            rw [show sw.stacks[f.stack]? = some x' from h2] at hx
            cases h1; cases hx
            refine ⟨fun hn => absurd (by simp) hn, fun g hg' hgk => ?_⟩
            rcases List.mem_cons.mp hg' with rfl | hg'
            · exact ⟨_, ev, pre, y, rest, hin.written hg⟩
            · exact absurd (List.mem_map.mpr ⟨g, hg', hgk⟩) hnf
          · refine (hr.each j).congr (put_ne hj) rfl fun g hgj => ?_
            simp only [hf, List.mem_cons]
            constructor
            · rintro (rfl | h)
              · exact absurd hgj.symm hj
              · exact .inr h
            · rintro (rfl | h)
              · exact absurd hgj.symm hj
              · exact .inr h
      · rw [if_neg (fun h => hg (hsz.mp h)), if_neg hg]
        exact ⟨_, rfl, hr⟩
  | readSelf off len =>
    simp only [exec, sexec]
    cases hf : sw.frames with
    | nil =>
      have : w.frames = [] := by rw [hr.frames, hf]; rfl
      simp only [this]
      exact ⟨_, rfl, hr⟩
    | cons f fs =>
      obtain ⟨hwf, hnf, hnd, st, x, hst, hx, s0, ev, pre, y, rest, hin⟩ := hr.frame hf
      simp only [hwf, hst, hx, hin.slot.1]
      have hsz : (2 * st.conf.t.wordBytes ≤ off ∧ off + len ≤ y.2.layout.size) ↔ f.running.Has x.conf.t off len := by
        rw [hin.running, hin.busy.conf]; simp [Entry.Has, view]
      by_cases hg : f.running.Has x.conf.t off len
      · rw [if_pos (hsz.mpr hg), if_pos hg]
        have := (hsz.mpr hg).2
        refine ⟨w, ?_, hr⟩
        rw [hin.running]
        simp only [view, readBytes_part _ _ _ _ _ this]
      · rw [if_neg (fun h => hg (hsz.mp h)), if_neg hg]
        exact ⟨_, rfl, hr⟩
  | set k bytes =>
    simp only [exec, sexec]
    rcases hr.idle k with ⟨h1, h2⟩ | ⟨st, x, h1, h2, hst, hx, hk, ev, L, hi⟩
    · exact ⟨w, by simp [h1, h2], by simpa [h2] using hr⟩
    · simp only [h1, h2, hi.conf]
      by_cases hg : bytes.length = (pinSlotLayout st.conf.t st.conf.M).size
      · simp only [if_pos hg]
        exact hi.clear_rel hr hk hst hx fun b e => by cases e; exact hg
      · simp only [if_neg hg]
        exact ⟨_, rfl, hr⟩
  | popAll k =>
    simp only [exec, sexec]
    rcases hr.idle k with ⟨h1, h2⟩ | ⟨st, x, h1, h2, hst, hx, hk, ev, L, hi⟩
    · exact ⟨w, by simp [h1, h2], by simpa [h2] using hr⟩
    · simp only [h1, h2]
      exact hi.clear_rel hr hk hst hx fun b e => by cases e
  | dropStack k =>
    simp only [exec, sexec]
    rcases hr.idle k with ⟨h1, h2⟩ | ⟨st, x, h1, h2, hst, hx, hk, ev, L, hi⟩
    · exact ⟨w, by simp [h1, h2], by simpa [h2] using hr⟩
    · simp only [h1, h2]
      exact hi.clear_rel hr hk hst hx fun b e => by cases e
  | endDrop panics =>
    simp only [exec, sexec]
    cases hf : sw.frames with
    | nil =>
      have : w.frames = [] := by rw [hr.frames, hf]; rfl
      simp only [this]
      exact ⟨_, rfl, hr⟩
    | cons f fs =>
      obtain ⟨hwf, hnf, hnd, st, x, hst, hx, s0, ev, pre, y, rest, hin⟩ := hr.frame hf
      simp only [hwf, hst, hx, hin.slot.1]
      cases panics with
      | true =>
        obtain ⟨hb, ho⟩ := hr.popped hf (f.rest.map (fun e => (f.stack, e.value)) ++ sw.lost)
        have := rel_put hb ho hnf hst hx hin.unwound
        rw [SWorld.put_eq (w := { sw with frames := fs, lost := _ }) hx] at this
        simp only [if_true, unwindFlagDrop]
        exact ⟨_, rfl, this⟩
      | false =>
        obtain ⟨hb, ho⟩ := hr.popped hf sw.lost
        have := hin.busy.advance_rel hb ho hnf hst hx hin.goal hin.slot.2
        rw [← hin.rest_eq] at this
        simpa using this

theorem init_rel (t : Target) : Rel t .init .init :=
  ⟨⟨rfl, rfl, by simp [SWorld.init], by simp [SWorld.init], rfl⟩, fun k st x h => by simp [World.init] at h⟩

theorem run_rel {t : Target} : ∀ (ops : List Op) {w : World} {sw : SWorld}, Rel t w sw → (∀ op ∈ ops, op.Ok t) →
    ∃ w', run w ops = some ((srun sw ops).1, w') ∧ Rel t w' (srun sw ops).2
  | [], w, sw, hr, _ => ⟨w, rfl, hr⟩
  | op :: ops, w, sw, hr, hok => by
    obtain ⟨w1, h1, hr1⟩ := exec_rel hr (hok op (by simp))
    obtain ⟨w2, h2, hr2⟩ := run_rel ops hr1 fun o ho => hok o (by simp [ho])
    exact ⟨w2, by simp only [run, h1, h2, srun], hr2⟩

theorem Rel.shows {t : Target} {w : World} {sw : SWorld} (hr : Rel t w sw) : Shows w sw := by
  refine ⟨hr.log, hr.frames, hr.len.symm, fun k st x hst hx => ?_, fun k st x hst hx hk p v => ?_⟩
  · obtain ⟨h1, h2⟩ := hr.each k st x hst hx
    by_cases hk : k ∈ sw.frames.map (·.stack)
    · obtain ⟨f, hf, hfk⟩ := List.mem_map.mp hk
      obtain ⟨s0, ev, pre, y, rest, hin⟩ := h2 f hf hfk
      have hb := hin.busy
      exact ⟨hb.conf.symm, hb.made.symm, hb.alive.symm, hb.open_.symm, hb.level.symm, by rw [hb.refs, hb.live]; rfl, by rw [hb.live]; simp⟩
    · obtain ⟨ev, L, hi⟩ := h1 hk
      refine ⟨hi.conf.symm, hi.made.symm, hi.alive.symm, hi.open_.symm, hi.level.symm, ?_, fun e he => ?_⟩
      · rw [hi.refs, hi.live, List.map_map]
        exact List.map_congr_left fun y _ => by simp [refOf, view]
      · rw [hi.live] at he
        obtain ⟨y, _, rfl⟩ := List.mem_map.mp he
        simp [view]
  · obtain ⟨ev, L, hi⟩ := (hr.each k st x hst hx).1 hk
    rw [hi.live]
    constructor
    · rintro ⟨r, hp, rfl⟩
      exact ⟨_, List.mem_map_of_mem (hi.inv.chain.pinned_iff.mp hp), rfl, rfl⟩
    · rintro ⟨e, he, rfl, rfl⟩
      obtain ⟨y, hy, rfl⟩ := List.mem_map.mp he
      exact ⟨y.2, hi.inv.chain.pinned_iff.mpr hy, rfl⟩

/-! ## Destructors that do nothing -/

theorem run_append : ∀ (a b : List Op) (w : World), run w (a ++ b) = match run w a with
    | none => none
    | some (rs, w) => match run w b with
      | none => none
      | some (rs', w) => some (rs ++ rs', w)
  | [], b, w => by
    simp only [List.nil_append, run]
    cases run w b <;> rfl
  | op :: a, b, w => by
    simp only [List.cons_append, run]
    cases he : exec w op with
    | none => rfl
    | some x =>
      simp only [run_append a b]
      cases run x.2 a with
      | none => rfl
      | some y =>
        simp only
        cases run y.2 b <;> rfl

/-- The loop with destructors that end at once. -/
theorem loop_agrees {c : Conf} {b : MemBump} (hd : c.memory.deref c.t c.debug = .ret b) {k : Nat} : ∀ (L : List (Nat × SlotRec)) {w : World} {st : Stack} {chain : Option Nat},
    w.stacks[k]? = some st → st.conf = c → Chain st.s.slots chain L →
    ∃ r w1 rs w2, advance w k .pop chain = some (r, w1) ∧ run w1 (List.replicate L.length (.endDrop false)) = some (rs, w2) ∧ w2.frames = w.frames ∧
      w2.stacks = w.stacks.set k { st with s := { st.s with dropped := (L.map (·.2.value)).reverse ++ st.s.dropped, mem := b.reset c.t st.s.mem } } ∧
      w2.log = (L.map fun y => (k, y.2.value)).reverse ++ w.log
  | [], w, st, chain, hst, hc, hch => by
    cases (show chain = none from hch)
    subst hc
    have he : advance w k .pop none = some (.unit, w.put k { st with s := { st.s with mem := b.reset st.conf.t st.s.mem } }) := by simp only [advance, hst, finish, hd]
    exact ⟨_, _, [], _, he, rfl, rfl, rfl, rfl⟩
  | y :: L, w, st, chain, hst, hc, hch => by
    obtain ⟨h1, h2, h3⟩ := hch
    subst h1
    have hadv : advance w k .pop (some y.1) = some (.running k y.2.value, { w.put k { st with s := dropValue st.s y.2.value } with frames := ⟨k, y.1, .pop⟩ :: w.frames, log := (k, y.2.value) :: w.log }) := by
      simp only [advance, hst, h2]
    have hself := put_self (w := w) (st' := { st with s := dropValue st.s y.2.value }) hst
    obtain ⟨r, w1, rs, w2, k1, k2, k3, k4, k5⟩ := loop_agrees hd L (w := { w.put k { st with s := dropValue st.s y.2.value } with log := (k, y.2.value) :: w.log }) hself hc h3
    refine ⟨_, _, r :: rs, w2, hadv, ?_, k3, ?_, ?_⟩
    · have hx : exec { w.put k { st with s := dropValue st.s y.2.value } with frames := ⟨k, y.1, .pop⟩ :: w.frames, log := (k, y.2.value) :: w.log } (.endDrop false) = some (r, w1) := by
        simp only [exec]
        rw [show (_ : Option Stack) = _ from hself]
        simp only [show (dropValue st.s y.2.value).slots y.1 = some y.2 from h2]
        rw [if_neg (by simp)]
        exact k1
      simp only [List.length_cons, List.replicate_succ, run, hx, k2]
    · rw [k4]
      simp [World.put, dropValue]
    · rw [k5]; simp

end Verif.ExitNest
