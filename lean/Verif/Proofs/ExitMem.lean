import Verif.Spec.ExitMem
import Verif.Proofs.ExitStack
import Verif.Proofs.BumpBoxes
import Verif.Props.RcMem
/-! Proofs about the exit stack on bytes. -/
namespace Verif.Exit.ExitMem
open Verif Unsync

variable {c : Cfg}

theorem storeHandle_of_not_mem {t : Target} {m : Mem} {a x : Nat} {p : Option Handle} (h : ¬ (a ≤ x ∧ x < a + 2 * t.wordBytes)) : storeHandle t m a p x = m x := by
  cases p <;> simp only [storeHandle]
  · rw [storeUsize_of_not_mem (by omega)]
  · rw [storeUsize_of_not_mem (by omega), storeUsize_of_not_mem (by omega)]

theorem loadHandle_congr {t : Target} {m m' : Mem} {a : Nat} (h : ∀ x, a ≤ x → x < a + 2 * t.wordBytes → m' x = m x) : loadHandle t m' a = loadHandle t m a := by
  have h1 : loadUsize t m' a = loadUsize t m a := loadUsize_congr fun x h1 h2 => h x h1 (by omega)
  have h2 : loadUsize t m' (a + t.wordBytes) = loadUsize t m (a + t.wordBytes) := loadUsize_congr fun x h1 h2 => h x (by omega) (by omega)
  simp only [loadHandle, h1, h2]

theorem loadHandle_none {t : Target} {m : Mem} {a : Nat} : loadHandle t (storeHandle t m a none) a = none := by
  have hW : 0 < t.W := by unfold Target.W; exact Nat.pow_pos (by decide)
  rw [loadHandle, if_pos]
  rw [storeHandle, loadUsize_storeUsize _ _ _ hW]

theorem loadHandle_some {t : Target} {m : Mem} {a : Nat} {q : Handle} (h1 : 0 < q.addr) (h2 : q.addr < t.W) (h3 : q.vtable < t.W) :
    loadHandle t (storeHandle t m a (some q)) a = some q := by
  have k1 : loadUsize t (storeHandle t m a (some q)) a = q.addr := by
    rw [storeHandle, loadUsize_other (.inl (Nat.le_refl _)), loadUsize_storeUsize _ _ _ h2]
  have k2 : loadUsize t (storeHandle t m a (some q)) (a + t.wordBytes) = q.vtable := by
    rw [storeHandle, loadUsize_storeUsize _ _ _ h3]
  rw [loadHandle, if_neg (by omega), k1, k2]

/-- The bytes of a slot. -/
def Cfg.region (c : Cfg) (h : Handle) : Region := ⟨h.addr, (c.slotLayout h.vtable).size⟩

theorem value_in (h : Handle) (ha : 0 < (c.vt.layout h.vtable).align) :
    h.addr + 2 * c.t.wordBytes ≤ c.valueAddr h ∧ c.valueAddr h + c.valueSize h.vtable ≤ h.addr + (c.region h).size := by
  have hpos := c.t.wordBytes_pos
  have a1 := le_alignUp ha (2 * c.t.wordBytes)
  have a2 := le_alignUp (a := max c.t.wordBytes (c.vt.layout h.vtable).align) (by omega)
    (alignUp (c.vt.layout h.vtable).align (2 * c.t.wordBytes) + (c.vt.layout h.vtable).size)
  simp only [Cfg.valueAddr, Cfg.valueSize, Cfg.region, Cfg.slotLayout, pinSlotLayout]
  omega

theorem Found.congr {m m' : Mem} : ∀ {es : List Entry} {r : Option Handle}, Found c m r es → (∀ e ∈ es, 0 < (c.vt.layout e.slot.vtable).align) →
    (∀ e ∈ es, ∀ x, (c.region e.slot).Has x → m' x = m x) → Found c m' r es
  | [], none, _, _, _ => trivial
  | e :: es, some h, ⟨h1, h2, h3⟩, ha, hx => by
    subst h1
    have hv := value_in e.slot (ha e (by simp))
    refine ⟨rfl, ?_, ?_⟩
    · rw [← h2]
      exact readBytes_congr fun x k1 k2 => hx e (by simp) x ⟨by show e.slot.addr ≤ x; omega, by show x < e.slot.addr + (c.region e.slot).size; omega⟩
    · have : loadHandle c.t m' e.slot.addr = loadHandle c.t m e.slot.addr :=
        loadHandle_congr fun x k1 k2 => hx e (by simp) x ⟨k1, by show x < e.slot.addr + (c.region e.slot).size; omega⟩
      rw [this]
      exact Found.congr h3 (fun e' he => ha e' (by simp [he])) fun e' he => hx e' (by simp [he])
  | [], some _, h, _, _ => absurd h id
  | _ :: _, none, h, _, _ => absurd h id

theorem dropInPlace_out {b : BState} {h : Handle} (ha : 0 < (c.vt.layout h.vtable).align) (hd : ∀ ty v, (c.vt.dtor ty v).length = v.length) {x : Nat}
    (hx : ¬ ((c.valueAddr h) ≤ x ∧ x < c.valueAddr h + c.valueSize h.vtable)) : (dropInPlace c b h).mem x = b.mem x := by
  apply writeBytes_of_not_mem
  rw [hd]
  simpa [readBytes] using hx

theorem popLoop_spec (hd : ∀ ty v, (c.vt.dtor ty v).length = v.length) : ∀ {es : List Entry} {fuel : Nat} {b : BState} {r : Option Handle},
    Found c b.mem r es → (∀ e ∈ es, 0 < (c.vt.layout e.slot.vtable).align) → (es.Pairwise fun e f => (c.region e.slot).Disjoint (c.region f.slot)) →
    es.length ≤ fuel → b.live = es.map (·.slot) →
    ∃ b', popLoop c fuel b r = (if (dropFrom c.vt es b.log).1 then .unwound b' else .ret () b') ∧ b'.log = (dropFrom c.vt es b.log).2 ∧
      b'.open_ = b.open_ ∧ b'.alive = b.alive ∧ b'.pins = b.pins ∧ ((dropFrom c.vt es b.log).1 = false → b'.live = []) ∧
      ∀ x, (∀ e ∈ es, ¬ (c.region e.slot).Has x) → b'.mem x = b.mem x := by
  intro es
  induction es with
  | nil =>
    intro fuel b r hf _ _ _ hl
    cases r with
    | some _ => exact absurd hf id
    | none => exact ⟨b, by cases fuel <;> rfl, rfl, rfl, rfl, rfl, fun _ => hl, fun _ _ => rfl⟩
  | cons e es ih =>
    intro fuel b r hf ha hp hlen hl
    cases r with
    | none => exact absurd hf id
    | some h =>
      obtain ⟨h1, h2, h3⟩ := hf
      subst h1
      cases fuel with
      | zero => simp at hlen
      | succ fuel =>
        have hal := ha e (by simp)
        have hv := value_in e.slot hal
        have hlive : e.slot ∈ b.live := by rw [hl]; simp
        rw [List.pairwise_cons] at hp
        simp only [popLoop, hlive, not_true_eq_false, if_false, dropPanics, h2, dropFrom]
        have hlog : (dropInPlace c b e.slot).log = b.log ++ [(some e.slot.addr, e.slot.vtable, e.val)] := by simp only [dropInPlace, h2]
        have hout : ∀ x, ¬ (c.region e.slot).Has x → (dropInPlace c b e.slot).mem x = b.mem x := by
          intro x hx
          apply dropInPlace_out hal hd
          intro k
          exact hx ⟨by show e.slot.addr ≤ x; omega, by show x < e.slot.addr + (c.region e.slot).size; omega⟩
        by_cases hpan : c.vt.panics e.slot.vtable e.val = true
        · simp only [hpan, if_true, unwindFlagDrop]
          refine ⟨dropInPlace c b e.slot, by cases fuel <;> rfl, hlog, rfl, rfl, rfl, fun h => (by cases h), fun x hx => hout x (hx e (by simp))⟩
        · have hpan : c.vt.panics e.slot.vtable e.val = false := by simpa using hpan
          simp only [hpan, Bool.false_eq_true, if_false]
          have hlink : loadHandle c.t (dropInPlace c b e.slot).mem e.slot.addr = loadHandle c.t b.mem e.slot.addr :=
            loadHandle_congr fun x k1 k2 => dropInPlace_out hal hd (by omega)
          rw [hlink]
          have hf' : Found c (dropInPlace c b e.slot).mem (loadHandle c.t b.mem e.slot.addr) es := by
            refine h3.congr (fun f hf => ha f (by simp [hf])) fun f hf x hx => hout x fun hx' => ?_
            exact hp.1 f hf x ⟨hx', hx⟩
          obtain ⟨b', k1, k2, k3, k4, k5, k6, k7⟩ := ih hf' (fun f hf => ha f (by simp [hf])) hp.2 (by simpa using hlen)
            (show (b.live.erase e.slot) = _ by rw [hl]; simp)
          rw [hlog] at k1 k2 k6
          refine ⟨b', k1, k2, k3, k4, k5, k6, fun x hx => ?_⟩
          rw [k7 x fun f hf => hx f (by simp [hf]), hout x (hx e (by simp))]

/-! ## The invariant -/

/-- All slots in use. -/
def SState.slots (s : SState) : List Handle := s.stack.map (·.slot) ++ s.open_

structure WRel (c : Cfg) (b : BState) (s : SState) : Prop where
  shows : Shows c b s
  level_le : s.level ≤ (c.slotLayout c.M).size
  inside : ∀ h ∈ s.slots, c.addr + c.t.wordBytes ≤ h.addr ∧ h.addr + (c.region h).size ≤ c.addr + c.t.wordBytes + s.level
  ok : ∀ h ∈ s.slots, 0 < (c.vt.layout h.vtable).align ∧ h.vtable < c.t.W ∧ IsPow2 (c.vt.layout h.vtable).align ∧ (c.slotLayout h.vtable).align ∣ h.addr
  disj : s.slots.Pairwise fun g h => (c.region g).Disjoint (c.region h)
  pins : s.stack.length ≤ b.pins

theorem memBump_valid (hc : c.Valid) : (⟨c.addr, (c.slotLayout c.M).size⟩ : MemBump).Valid c.t := Conf.memBump_valid hc.conf

theorem memory_size (hc : c.Valid) : c.t.wordBytes + (c.slotLayout c.M).size ≤ (c.conf.memory.layout c.t).size := by
  have hap := hc.conf.slot.1.1.pos
  have a1 := le_alignUp hap c.t.wordBytes
  have hpos := c.t.wordBytes_pos
  have a2 := le_alignUp (a := max c.t.wordBytes (pinSlotLayout c.t c.conf.M).align) (by omega)
    (alignUp (pinSlotLayout c.t c.conf.M).align c.t.wordBytes + (pinSlotLayout c.t c.conf.M).size)
  have a1 : c.t.wordBytes ≤ alignUp (pinSlotLayout c.t c.conf.M).align c.t.wordBytes := a1
  simp only [Conf.memory, TBump.layout]
  simp only [Cfg.slotLayout, Cfg.conf] at *
  omega

/-- The field `top` is apart from level and slots. -/
theorem top_apart (hc : c.Valid) {x : Nat} (h1 : c.addr ≤ x) (h2 : x < c.addr + c.t.wordBytes + (c.slotLayout c.M).size) :
    ¬ (c.topAddr ≤ x ∧ x < c.topAddr + 2 * c.t.wordBytes) := by
  have := memory_size hc
  have := hc.top
  omega

theorem asserts_iff (hc : c.Valid) : c.conf.memory.deref c.t c.debug = if c.asserts then .panic else .ret ⟨c.addr, (c.slotLayout c.M).size⟩ := by
  have hpos := c.t.wordBytes_pos
  have hMa := hc.conf.M.1.1.pos
  have hlay : c.conf.memory.layout c.t ≠ (⟨c.addr, (c.slotLayout c.M).size⟩ : MemBump).layoutForValue c.t ↔ c.t.wordBytes < (c.vt.layout c.M).align := by
    simp only [Conf.memory, TBump.layout, MemBump.layoutForValue]
    have halign : (pinSlotLayout c.conf.t c.conf.M).align = max c.t.wordBytes (c.vt.layout c.M).align := rfl
    rw [halign]
    by_cases hlt : c.t.wordBytes < (c.vt.layout c.M).align
    · simp only [hlt, iff_true]
      intro he
      have := congrArg Layout.align he
      simp only at this
      omega
    · have hm : max c.t.wordBytes (c.vt.layout c.M).align = c.t.wordBytes := by omega
      simp only [hlt, iff_false, hm, Nat.max_self, alignUp_of_dvd hpos (Nat.dvd_refl _)]
      simp only [Cfg.slotLayout, Cfg.conf, ne_eq, not_true_eq_false, not_false_eq_true]
  simp only [TBump.deref, Cfg.asserts]
  by_cases hdb : c.debug = true
  · by_cases hlt : c.t.wordBytes < (c.vt.layout c.M).align
    · rw [if_pos ⟨hdb, hlay.mpr hlt⟩]; simp [hdb, hlt]
    · rw [if_neg fun h => hlt (hlay.mp h.2)]; simp [hdb, hlt]; rfl
  · rw [if_neg fun h => hdb h.1]; simp [hdb]; rfl

theorem pinSlot_pos {ty : Nat} (ha : 0 < (c.vt.layout ty).align) : 0 < (c.slotLayout ty).size ∧ 0 < (c.slotLayout ty).align := by
  refine ⟨pinSlot_size_pos ha, ?_⟩
  have hpos := c.t.wordBytes_pos
  simp only [Cfg.slotLayout, pinSlotLayout]
  omega

theorem slot_eq (hc : c.Valid) {b : BState} {s : SState} (hr : WRel c b s) {ty : Nat} (ha : 0 < (c.vt.layout ty).align) :
    slot c b ty = if c.asserts then .unwound b else
      match c.slab.place (c.slotLayout ty) s.level with
      | none => .ret none b
      | some a => .ret (some a.ptr) { b with mem := storeUsize c.t b.mem c.addr a.level } := by
  have hv := memBump_valid hc
  have hlev : (⟨c.addr, (c.slotLayout c.M).size⟩ : MemBump).level c.t b.mem = s.level := hr.shows.level
  have hle : (⟨c.addr, (c.slotLayout c.M).size⟩ : MemBump).level c.t b.mem ≤ (⟨c.addr, (c.slotLayout c.M).size⟩ : MemBump).cap := by
    rw [hlev]; exact hr.level_le
  obtain ⟨h0, hal⟩ := pinSlot_pos (c := c) ha
  unfold slot
  rw [asserts_iff hc]
  by_cases has : c.asserts = true
  · simp only [has, if_true]
  · simp only [has, if_false]
    simp only [Bool.false_eq_true, if_false, BumpBoxes.bumpBox_spec hv hle hal, if_neg (show ¬ (c.slotLayout ty).size = 0 by omega), hlev]
    have : (⟨c.addr, (c.slotLayout c.M).size⟩ : MemBump).slab c.t = c.slab := rfl
    rw [this]
    cases c.slab.place (c.slotLayout ty) s.level <;> rfl

/-- Storing the level changes nothing else. -/
theorem found_level (hc : c.Valid) {b : BState} {s : SState} (hr : WRel c b s) (n : Nat) :
    Found c (storeUsize c.t b.mem c.addr n) (loadHandle c.t (storeUsize c.t b.mem c.addr n) c.topAddr) s.stack := by
  have hpos := c.t.wordBytes_pos
  have h1 : loadHandle c.t (storeUsize c.t b.mem c.addr n) c.topAddr = loadHandle c.t b.mem c.topAddr := by
    apply loadHandle_congr
    intro x k1 k2
    apply storeUsize_of_not_mem
    intro k3
    exact top_apart hc k3.1 (by omega) ⟨k1, k2⟩
  rw [h1]
  refine hr.shows.stack.congr (fun e he => (hr.ok _ (List.mem_append.mpr (.inl (List.mem_map.mpr ⟨e, he, rfl⟩)))).1) fun e he x hx => ?_
  have := hr.inside e.slot (List.mem_append.mpr (.inl (List.mem_map.mpr ⟨e, he, rfl⟩)))
  apply storeUsize_of_not_mem
  have k1 : e.slot.addr ≤ x := hx.1
  omega

theorem slot_rel (hc : c.Valid) {b : BState} {s : SState} (hr : WRel c b s) {ty : Nat} (ha : 0 < (c.vt.layout ty).align) (h2 : IsPow2 (c.vt.layout ty).align) (hW : ty < c.t.W) :
    (slot c b ty = .unwound b ∧ sslot c s ty = .unwound s) ∨ (slot c b ty = .ret none b ∧ sslot c s ty = .ret none s) ∨
    ∃ p m n, slot c b ty = .ret (some p) { b with mem := m } ∧ sslot c s ty = .ret (some p) { s with level := n } ∧
      WRel c { b with mem := m, open_ := ⟨p, ty⟩ :: b.open_ } { s with level := n, open_ := ⟨p, ty⟩ :: s.open_ } ∧ ∀ x, ¬ c.Own x → m x = b.mem x := by
  rw [slot_eq hc hr ha, sslot]
  by_cases has : c.asserts = true
  · exact .inl (by simp [has])
  · simp only [has]
    simp only [Bool.false_eq_true, if_false]
    cases hp : c.slab.place (c.slotLayout ty) s.level with
    | none => exact .inr (.inl (by simp))
    | some a =>
      refine .inr (.inr ⟨a.ptr, _, a.level, rfl, rfl, ?_, fun x hx => storeUsize_of_not_mem fun k => hx (.inl ⟨k.1, by show x < c.addr + (c.t.wordBytes + _); omega⟩)⟩)
      obtain ⟨hz, hal⟩ := pinSlot_pos (c := c) ha
      obtain ⟨p1, p2, p3, p4, p5⟩ := place_level hal hp
      simp only [Cfg.slab] at p1 p2 p3 p4 p5
      have hv := memBump_valid hc
      have hiW := Bump.isizeMax_lt c.t
      have hcap := hv.cap_le
      simp only at hcap
      refine ⟨⟨found_level hc hr a.level, loadUsize_storeUsize _ _ _ (by omega), hr.shows.live, by show _ :: b.open_ = _ :: s.open_; rw [hr.shows.open_], hr.shows.log, hr.shows.alive⟩,
        p2, ?_, ?_, ?_, hr.pins⟩
      · intro h hh
        simp only [SState.slots, List.mem_append, List.mem_cons] at hh
        have hold : h ∈ s.slots → c.addr + c.t.wordBytes ≤ h.addr ∧ h.addr + (c.region h).size ≤ c.addr + c.t.wordBytes + a.level := by
          intro hh
          have := hr.inside h hh
          omega
        rcases hh with hh | rfl | hh
        · exact hold (List.mem_append.mpr (.inl hh))
        · refine ⟨?_, ?_⟩
          · show c.addr + c.t.wordBytes ≤ a.ptr
            omega
          · show a.ptr + (c.slotLayout ty).size ≤ c.addr + c.t.wordBytes + a.level
            omega
        · exact hold (List.mem_append.mpr (.inr hh))
      · intro h hh
        simp only [SState.slots, List.mem_append, List.mem_cons] at hh
        rcases hh with hh | rfl | hh
        · exact hr.ok h (List.mem_append.mpr (.inl hh))
        · exact ⟨ha, hW, h2, p5⟩
        · exact hr.ok h (List.mem_append.mpr (.inr hh))
      · show (s.stack.map (·.slot) ++ (⟨a.ptr, ty⟩ :: s.open_)).Pairwise _
        rw [(List.perm_middle (l₁ := s.stack.map (·.slot)) (l₂ := s.open_) (a := (⟨a.ptr, ty⟩ : Handle))).pairwise_iff (fun h => Region.Disjoint.symm h), List.pairwise_cons]
        refine ⟨fun h hh => ?_, hr.disj⟩
        have := hr.inside h hh
        intro x ⟨x1, x2⟩
        have k1 : a.ptr ≤ x := x1.1
        have k2 : x < h.addr + (c.region h).size := x2.2
        omega

theorem pin_rel (hc : c.Valid) {b : BState} {s : SState} (hr : WRel c b s) {h : Handle} {value fill : List Byte} (hh : h ∈ s.open_)
    (hval : value.length = c.valueSize h.vtable) (hfill : fill.length = (c.slotLayout h.vtable).size) :
    WRel c { (pin c b h value fill) with open_ := b.open_.erase h } { s with stack := ⟨h, value⟩ :: s.stack, open_ := s.open_.erase h } := by
  have hpos := c.t.wordBytes_pos
  have hmem : h ∈ s.slots := List.mem_append.mpr (.inr hh)
  obtain ⟨hal, hvt, _⟩ := hr.ok h hmem
  obtain ⟨hin1, hin2⟩ := hr.inside h hmem
  have hv := value_in h hal
  have hmv := memBump_valid hc
  have hnw := hmv.no_wrap
  simp only at hnw
  have hll := hr.level_le
  have hz := (pinSlot_pos (c := c) hal).1
  have hregion : (c.region h).size = (c.slotLayout h.vtable).size := rfl
  -- the memory
  have hslot_out : ∀ {x link}, ¬ (c.region h).Has x → writeSlot c b.mem h link value fill x = b.mem x := by
    intro x link hx
    have hx : ¬ (h.addr ≤ x ∧ x < h.addr + (c.region h).size) := hx
    simp only [writeSlot]
    rw [writeBytes_of_not_mem (by rw [hval]; omega), storeHandle_of_not_mem (by omega), writeBytes_of_not_mem (by rw [hfill]; omega)]
  generalize hm : (pin c b h value fill).mem = m'
  have hm' : m' = storeHandle c.t (writeSlot c b.mem h (loadHandle c.t b.mem c.topAddr) value fill) c.topAddr (some h) := hm.symm
  have htop : loadHandle c.t m' c.topAddr = some h := by
    rw [hm']
    exact loadHandle_some (by omega) (by omega) hvt
  have hout : ∀ x, ¬ (c.region h).Has x → ¬ (c.topAddr ≤ x ∧ x < c.topAddr + 2 * c.t.wordBytes) → m' x = b.mem x := by
    intro x h1 h2
    rw [hm', storeHandle_of_not_mem h2, hslot_out h1]
  have hinr : ∀ x, (c.region h).Has x → m' x = writeSlot c b.mem h (loadHandle c.t b.mem c.topAddr) value fill x := by
    intro x hx
    have k1 : h.addr ≤ x := hx.1
    have k2 : x < h.addr + (c.region h).size := hx.2
    rw [hm', storeHandle_of_not_mem (top_apart hc (by omega) (by omega))]
  have hval' : readBytes m' (c.valueAddr h) (c.valueSize h.vtable) = value := by
    rw [readBytes_congr (m := writeSlot c b.mem h (loadHandle c.t b.mem c.topAddr) value fill) fun x k1 k2 => hinr x ⟨by show h.addr ≤ x; omega, by show x < h.addr + (c.region h).size; omega⟩]
    rw [← hval]
    exact readBytes_writeBytes_self _ _ _
  have htopok : loadHandle c.t (storeHandle c.t (writeBytes b.mem h.addr fill) h.addr (loadHandle c.t b.mem c.topAddr)) h.addr = loadHandle c.t b.mem c.topAddr := by
    cases hlt : loadHandle c.t b.mem c.topAddr with
    | none => exact loadHandle_none
    | some q =>
      have hf := hr.shows.stack
      rw [hlt] at hf
      cases hst : s.stack with
      | nil => rw [hst] at hf; exact absurd hf id
      | cons e es =>
        rw [hst] at hf
        have he : e.slot = q := hf.1
        have hq : q ∈ s.slots := by rw [← he]; exact List.mem_append.mpr (.inl (by rw [hst]; simp))
        have k1 := hr.inside q hq
        have k2 := hr.ok q hq
        have k3 := (pinSlot_pos (c := c) k2.1).1
        have k4 : (c.region q).size = (c.slotLayout q.vtable).size := rfl
        exact loadHandle_some (by omega) (by omega) k2.2.1
  have hlink : loadHandle c.t m' h.addr = loadHandle c.t b.mem c.topAddr := by
    rw [← htopok]
    apply loadHandle_congr
    intro x k1 k2
    rw [hinr x ⟨k1, by show x < h.addr + (c.region h).size; omega⟩, writeSlot, writeBytes_of_not_mem (by omega)]
  -- order of the slots
  have hperm : ((⟨h, value⟩ :: s.stack).map (·.slot) ++ s.open_.erase h).Perm s.slots := by
    simp only [List.map_cons, List.cons_append, SState.slots]
    exact List.perm_middle.symm.trans ((List.perm_cons_erase hh).symm.append_left _)
  have hdisj := hr.disj
  rw [← hperm.pairwise_iff (fun h => Region.Disjoint.symm h), List.map_cons, List.cons_append, List.pairwise_cons] at hdisj
  have hfound : Found c m' (loadHandle c.t b.mem c.topAddr) s.stack := by
    refine hr.shows.stack.congr (fun e he => (hr.ok _ (List.mem_append.mpr (.inl (List.mem_map.mpr ⟨e, he, rfl⟩)))).1) fun e he x hx => ?_
    have hes : e.slot ∈ s.slots := List.mem_append.mpr (.inl (List.mem_map.mpr ⟨e, he, rfl⟩))
    have k1 := hr.inside e.slot hes
    have k2 : e.slot.addr ≤ x := hx.1
    have k3 : x < e.slot.addr + (c.region e.slot).size := hx.2
    refine hout x (fun hx' => ?_) (top_apart hc (by omega) (by omega))
    exact hdisj.1 e.slot (List.mem_append.mpr (.inl (List.mem_map.mpr ⟨e, he, rfl⟩))) x ⟨hx', hx⟩
  refine ⟨⟨?_, ?_, ?_, ?_, hr.shows.log, hr.shows.alive⟩, hr.level_le, ?_, ?_, ?_, ?_⟩
  · show Found c (pin c b h value fill).mem (loadHandle c.t (pin c b h value fill).mem c.topAddr) (⟨h, value⟩ :: s.stack)
    rw [hm, htop]
    exact ⟨rfl, hval', by rw [hlink]; exact hfound⟩
  · show loadUsize c.t (pin c b h value fill).mem c.addr = s.level
    rw [hm, ← hr.shows.level]
    apply loadUsize_congr
    intro x k1 k2
    refine hout x (fun hx => ?_) (top_apart hc k1 (by omega))
    have : h.addr ≤ x := hx.1
    omega
  · show h :: b.live = _ :: _
    rw [hr.shows.live]
  · show b.open_.erase h = s.open_.erase h
    rw [hr.shows.open_]
  · intro g hg
    exact hr.inside g (hperm.mem_iff.mp hg)
  · intro g hg
    exact hr.ok g (hperm.mem_iff.mp hg)
  · exact (hperm.pairwise_iff (fun h => Region.Disjoint.symm h)).mpr hr.disj
  · show (_ :: s.stack).length ≤ b.pins + 1
    have := hr.pins
    simp only [List.length_cons]
    omega

theorem clear_rel (hc : c.Valid) {b : BState} {s : SState} (hr : WRel c b s) (al : Bool) :
    ∃ b' s', WRel c b' s' ∧ (∀ x, ¬ c.Own x → b'.mem x = b.mem x) ∧ s'.open_ = [] ∧ s'.stack = [] ∧ ((innerPopAll c { b with open_ := [], alive := al } = .unwound b' ∧ sclear c { s with alive := al } = .unwound s') ∨
      (innerPopAll c { b with open_ := [], alive := al } = .ret () b' ∧ sclear c { s with alive := al } = .ret () s')) := by
  have hpos := c.t.wordBytes_pos
  have hall : ∀ e ∈ s.stack, e.slot ∈ s.slots := fun e he => List.mem_append.mpr (.inl (List.mem_map.mpr ⟨e, he, rfl⟩))
  let b1 : BState := { b with open_ := [], alive := al, mem := storeHandle c.t b.mem c.topAddr none }
  have hf : Found c b1.mem (loadHandle c.t b.mem c.topAddr) s.stack := by
    refine hr.shows.stack.congr (fun e he => (hr.ok _ (hall e he)).1) fun e he x hx => ?_
    have k1 := hr.inside e.slot (hall e he)
    have k2 : e.slot.addr ≤ x := hx.1
    have k3 : x < e.slot.addr + (c.region e.slot).size := hx.2
    have := hr.level_le
    show storeHandle c.t b.mem c.topAddr none x = b.mem x
    exact storeHandle_of_not_mem (top_apart hc (x := x) (by omega) (by omega))
  have hdis : s.stack.Pairwise fun e f => (c.region e.slot).Disjoint (c.region f.slot) := by
    have := (List.pairwise_append.mp hr.disj).1
    rw [List.pairwise_map] at this
    exact this
  obtain ⟨b2, k1, k2, k3, k4, k5, k6, k7⟩ := popLoop_spec hc.dtor (fuel := b.pins + 1) (b := b1) hf (fun e he => (hr.ok _ (hall e he)).1) hdis
    (by have := hr.pins; omega) hr.shows.live
  have hlog : b1.log = s.log := hr.shows.log
  rw [hlog] at k1 k2 k6
  -- the memory outside of the slots
  have htop : loadHandle c.t b2.mem c.topAddr = none := by
    rw [← loadHandle_none (t := c.t) (m := b.mem) (a := c.topAddr)]
    apply loadHandle_congr
    intro x x1 x2
    apply k7
    intro e he hx
    have j1 := hr.inside e.slot (hall e he)
    have j2 : e.slot.addr ≤ x := hx.1
    have j3 : x < e.slot.addr + (c.region e.slot).size := hx.2
    have := hr.level_le
    exact top_apart hc (x := x) (by omega) (by omega) ⟨x1, x2⟩
  have hlev : loadUsize c.t b2.mem c.addr = s.level := by
    rw [← hr.shows.level]
    apply loadUsize_congr
    intro x x1 x2
    rw [k7 x fun e he hx => ?_]
    · show storeHandle c.t b.mem c.topAddr none x = b.mem x
      exact storeHandle_of_not_mem (top_apart hc x1 (by omega))
    · have j1 := hr.inside e.slot (hall e he)
      have j2 : e.slot.addr ≤ x := hx.1
      omega
  have hown : ∀ x, ¬ c.Own x → b2.mem x = b.mem x := by
    intro x hx
    rw [k7 x fun e he hx' => ?_]
    · show storeHandle c.t b.mem c.topAddr none x = b.mem x
      exact storeHandle_of_not_mem fun k => hx (.inr k)
    · have j1 := hr.inside e.slot (hall e he)
      have j2 : e.slot.addr ≤ x := hx'.1
      have j3 : x < e.slot.addr + (c.region e.slot).size := hx'.2
      have := hr.level_le
      exact hx (.inl ⟨by show c.addr ≤ x; omega, by show x < c.addr + (c.t.wordBytes + _); omega⟩)
  have hW : 0 < c.t.W := by unfold Target.W; exact Nat.pow_pos (by decide)
  have hloop : innerPopAll c { b with open_ := [], alive := al } = match popLoop c (b.pins + 1) b1 (loadHandle c.t b.mem c.topAddr) with
      | .ret () s =>
        match c.conf.memory.deref c.t c.debug with
        | .ub => .ub
        | .panic => .unwound s
        | .ret b => .ret () { s with mem := b.reset c.t s.mem }
      | .unwound s => .unwound { s with live := [] }
      | .abort => .abort
      | .ub => .ub := rfl
  rw [hloop, k1]
  simp only [sclear]
  cases hpan : (dropFrom c.vt s.stack s.log).1 with
  | true =>
    refine ⟨{ b2 with live := [] }, { s with stack := [], open_ := [], alive := al, log := (dropFrom c.vt s.stack s.log).2 }, ?_, hown, rfl, rfl, .inl ⟨by simp, by simp⟩⟩
    refine ⟨⟨?_, hlev, rfl, k3, k2, k4⟩, hr.level_le, ?_, ?_, ?_, Nat.zero_le _⟩
    · show Found c b2.mem (loadHandle c.t b2.mem c.topAddr) []
      rw [htop]; trivial
    · intro h hh; cases hh
    · intro h hh; cases hh
    · exact List.Pairwise.nil
  | false =>
    rw [asserts_iff hc]
    have hwr : ∀ n, n ≤ s.level → loadUsize c.t b2.mem c.addr = n → WRel c b2 { s with level := n, stack := [], open_ := [], alive := al, log := (dropFrom c.vt s.stack s.log).2 } := by
      intro n hn hl
      have := hr.level_le
      refine ⟨⟨?_, hl, k6 hpan, k3, k2, k4⟩, by show n ≤ _; omega, ?_, ?_, ?_, Nat.zero_le _⟩
      · show Found c b2.mem (loadHandle c.t b2.mem c.topAddr) []
        rw [htop]; trivial
      · intro h hh; cases hh
      · intro h hh; cases hh
      · exact List.Pairwise.nil
    by_cases has : c.asserts = true
    · refine ⟨b2, { s with stack := [], open_ := [], alive := al, log := (dropFrom c.vt s.stack s.log).2 }, hwr s.level (Nat.le_refl _) hlev, hown, rfl, rfl, .inl ⟨by simp [has], by simp [has]⟩⟩
    · have has : c.asserts = false := by simpa using has
      refine ⟨{ b2 with mem := storeUsize c.t b2.mem c.addr 0 }, { s with level := 0, stack := [], open_ := [], alive := al, log := (dropFrom c.vt s.stack s.log).2 }, ?_, ?_, rfl, rfl, .inr ⟨by simp [has, MemBump.reset], by simp [has]⟩⟩
      rotate_left
      · intro x hx
        rw [← hown x hx]
        exact storeUsize_of_not_mem fun k => hx (.inl ⟨k.1, by show x < c.addr + (c.t.wordBytes + _); omega⟩)
      have hw := hwr s.level (Nat.le_refl _) hlev
      have hfl := found_level hc hw 0
      exact ⟨⟨hfl, loadUsize_storeUsize _ _ _ hW, k6 hpan, k3, k2, k4⟩, Nat.zero_le _, fun h hh => (by cases hh), fun h hh => (by cases hh), List.Pairwise.nil, Nat.zero_le _⟩

theorem Found.write {m m' : Mem} {h : Handle} {value : List Byte} (hl : value.length = c.valueSize h.vtable) (hm : m' = writeBytes m (c.valueAddr h) value) :
    ∀ {es : List Entry} {r : Option Handle}, Found c m r es → (∀ e ∈ es, 0 < (c.vt.layout e.slot.vtable).align) → 0 < (c.vt.layout h.vtable).align →
    (∀ e ∈ es, e.slot ≠ h → (c.region e.slot).Disjoint (c.region h)) →
    Found c m' r (es.map fun e => if e.slot = h then { e with val := value } else e)
  | [], none, _, _, _, _ => trivial
  | e :: es, some q, ⟨h1, h2, h3⟩, ha, hal, hd => by
    subst h1
    have hv := value_in h hal
    have hv' := value_in e.slot (ha e (by simp))
    have hlink : loadHandle c.t m' e.slot.addr = loadHandle c.t m e.slot.addr := by
      apply loadHandle_congr
      intro x k1 k2
      rw [hm]
      apply writeBytes_of_not_mem
      intro k3
      by_cases he : e.slot = h
      · subst he; omega
      · exact hd e (by simp) he x ⟨⟨k1, by show x < e.slot.addr + (c.region e.slot).size; omega⟩, ⟨by show h.addr ≤ x; omega, by show x < h.addr + (c.region h).size; omega⟩⟩
    have ih := Found.write hl hm h3 (fun f hf => ha f (by simp [hf])) hal fun f hf => hd f (by simp [hf])
    rw [List.map_cons]
    by_cases he : e.slot = h
    · rw [if_pos he]
      refine ⟨rfl, ?_, by rw [hlink]; exact ih⟩
      show readBytes m' (c.valueAddr e.slot) _ = value
      rw [he, hm, ← hl]
      exact readBytes_writeBytes_self _ _ _
    · rw [if_neg he]
      refine ⟨rfl, ?_, by rw [hlink]; exact ih⟩
      rw [← h2]
      apply readBytes_congr
      intro x k1 k2
      rw [hm]
      apply writeBytes_of_not_mem
      intro k3
      exact hd e (by simp) he x ⟨⟨by show e.slot.addr ≤ x; omega, by show x < e.slot.addr + (c.region e.slot).size; omega⟩, ⟨by show h.addr ≤ x; omega, by show x < h.addr + (c.region h).size; omega⟩⟩
  | [], some _, h, _, _, _ => absurd h id
  | _ :: _, none, h, _, _, _ => absurd h id

theorem pairwise_apart : ∀ {l : List Handle}, (l.Pairwise fun g h => (c.region g).Disjoint (c.region h)) → ∀ {g h : Handle}, g ∈ l → h ∈ l → g ≠ h →
    (c.region g).Disjoint (c.region h)
  | [], _, _, _, hg, _, _ => by cases hg
  | a :: l, hp, g, h, hg, hh, hne => by
    rw [List.pairwise_cons] at hp
    rcases List.mem_cons.mp hg with rfl | k
    · rcases List.mem_cons.mp hh with rfl | hh
      · exact absurd rfl hne
      · exact hp.1 h hh
    · rcases List.mem_cons.mp hh with rfl | hh
      · exact (hp.1 g k).symm
      · exact pairwise_apart hp.2 k hh hne

theorem write_rel (hc : c.Valid) {b : BState} {s : SState} (hr : WRel c b s) {h : Handle} {value : List Byte} (hh : h ∈ b.live) (hval : value.length = c.valueSize h.vtable) :
    WRel c { b with mem := writeBytes b.mem (c.valueAddr h) value } { s with stack := s.stack.map fun e => if e.slot = h then { e with val := value } else e } := by
  have hpos := c.t.wordBytes_pos
  rw [hr.shows.live] at hh
  have hmem : h ∈ s.slots := List.mem_append.mpr (.inl hh)
  have hok := hr.ok h hmem
  have hin := hr.inside h hmem
  have hv := value_in h hok.1
  have hll := hr.level_le
  have hslots : (s.stack.map fun e => if e.slot = h then { e with val := value } else e).map (·.slot) = s.stack.map (·.slot) := by
    rw [List.map_map]
    apply List.map_congr_left
    intro e _
    simp only [Function.comp]
    split <;> rfl
  have hsl : ({ s with stack := s.stack.map fun e => if e.slot = h then { e with val := value } else e } : SState).slots = s.slots := by
    simp only [SState.slots, hslots]
  have hout : ∀ x, (x < c.addr + c.t.wordBytes ∨ c.topAddr ≤ x ∧ x < c.topAddr + 2 * c.t.wordBytes) → writeBytes b.mem (c.valueAddr h) value x = b.mem x := by
    intro x hx
    apply writeBytes_of_not_mem
    intro k
    rcases hx with hx | hx
    · omega
    · exact top_apart hc (x := x) (by omega) (by omega) hx
  have hdis : ∀ e ∈ s.stack, e.slot ≠ h → (c.region e.slot).Disjoint (c.region h) := by
    intro e he hne
    exact pairwise_apart (List.pairwise_append.mp hr.disj).1 (List.mem_map.mpr ⟨e, he, rfl⟩) hh hne
  refine ⟨⟨?_, ?_, ?_, hr.shows.open_, hr.shows.log, hr.shows.alive⟩, hr.level_le, ?_, ?_, ?_, ?_⟩
  · show Found c (writeBytes b.mem (c.valueAddr h) value) (loadHandle c.t (writeBytes b.mem (c.valueAddr h) value) c.topAddr) _
    rw [loadHandle_congr fun x k1 k2 => hout x (.inr ⟨k1, k2⟩)]
    exact hr.shows.stack.write hval rfl (fun e he => (hr.ok _ (List.mem_append.mpr (.inl (List.mem_map.mpr ⟨e, he, rfl⟩)))).1) hok.1 hdis
  · rw [← hr.shows.level]
    exact loadUsize_congr fun x k1 k2 => hout x (.inl (by omega))
  · show b.live = _
    rw [hslots]; exact hr.shows.live
  · rw [hsl]; exact hr.inside
  · rw [hsl]; exact hr.ok
  · rw [hsl]; exact hr.disj
  · simp only [List.length_map]; exact hr.pins

/-- The outcomes agree. -/
def OutRel (c : Cfg) (x : BOut ERet) (y : SOut ERet) : Prop :=
  match x, y with
  | .ret r b, .ret r' s => r = r' ∧ WRel c b s
  | .unwound b, .unwound s => WRel c b s
  | .abort, .abort => True
  | _, _ => False

theorem dropArgument_rel {b : BState} {s : SState} (hr : WRel c b s) {value : List Byte} :
    OutRel c (match dropArgument c b value with | .ret p s => .ret (.addr (c.valueAddr ⟨p, c.M⟩)) s | .unwound s => .unwound s | .abort => .abort | .ub => .ub) (sdropArgument c s value) := by
  unfold dropArgument sdropArgument
  by_cases hp : c.vt.panics c.M value = true
  · simp only [hp, if_true, OutRel]
  · simp only [hp, if_false]
    simp only [Bool.false_eq_true, if_false]
    exact ⟨⟨hr.shows.stack, hr.shows.level, hr.shows.live, hr.shows.open_, by show b.log ++ _ = s.log ++ _; rw [hr.shows.log], hr.shows.alive⟩, hr.level_le, hr.inside, hr.ok, hr.disj, hr.pins⟩

theorem exec_rel (hc : c.Valid) {b : BState} {s : SState} (hr : WRel c b s) {op : BOp} (ha : op.Allowed c b) : OutRel c (bexec c b op) (sexec c s op) := by
  cases op with
  | slot ty =>
    obtain ⟨_, hW, hT, _⟩ := ha
    have hal : 0 < (c.vt.layout ty).align := hT.1.1.pos
    rcases slot_rel hc hr hal hT.1.1 hW with ⟨h1, h2⟩ | ⟨h1, h2⟩ | ⟨p, m, n, h1, h2, h3, _⟩
    · simp only [bexec, sexec, h1, h2]; exact hr
    · simp only [bexec, sexec, h1, h2]; exact ⟨rfl, hr⟩
    · simp only [bexec, sexec, h1, h2]; exact ⟨rfl, h3⟩
  | pin h value fill =>
    obtain ⟨_, h1, h2, h3⟩ := ha
    exact ⟨rfl, pin_rel hc hr (by rw [← hr.shows.open_]; exact h1) h2 h3⟩
  | popAll =>
    obtain ⟨b', s', hr', _, _, _, ⟨h1, h2⟩ | ⟨h1, h2⟩⟩ := clear_rel hc hr b.alive
    all_goals
      have e1 : ({ b with open_ := [], alive := b.alive } : BState) = { b with open_ := [] } := rfl
      have e2 : ({ s with alive := b.alive } : SState) = s := by rw [hr.shows.alive]
      rw [e1] at h1
      rw [e2] at h2
      simp only [bexec, sexec, h1, h2]
    · exact hr'
    · exact ⟨rfl, hr'⟩
  | drop =>
    obtain ⟨b', s', hr', _, _, _, ⟨h1, h2⟩ | ⟨h1, h2⟩⟩ := clear_rel hc hr false
    all_goals simp only [bexec, sexec, h1, h2]
    · exact hr'
    · exact ⟨rfl, hr'⟩
  | write h value => exact ⟨rfl, write_rel hc hr ha.2.1 ha.2.2⟩
  | set value fill =>
    obtain ⟨_, hval, hfill⟩ := ha
    obtain ⟨b', s', hr', _, ho, hst, hcase⟩ := clear_rel hc hr b.alive
    have e1 : ({ b with open_ := [], alive := b.alive } : BState) = { b with open_ := [] } := rfl
    have e2 : ({ s with alive := b.alive } : SState) = s := by rw [hr.shows.alive]
    rw [e1, e2] at hcase
    rcases hcase with ⟨h1, h2⟩ | ⟨h1, h2⟩
    · simp only [bexec, sexec, set, h1, h2]
      exact dropArgument_rel hr'
    · have hal : 0 < (c.vt.layout c.M).align := hc.conf.M.1.1.pos
      rcases slot_rel hc hr' hal hc.conf.M.1.1 hc.M with ⟨k1, k2⟩ | ⟨k1, k2⟩ | ⟨p, m, n, k1, k2, k3, _⟩
      · simp only [bexec, sexec, set, h1, h2, k1, k2]
        exact dropArgument_rel hr'
      · simp only [bexec, sexec, set, h1, h2, k1, k2]
        exact dropArgument_rel hr'
      · simp only [bexec, sexec, set, h1, h2, k1, k2]
        refine ⟨rfl, ?_⟩
        have hp := pin_rel hc k3 (h := ⟨p, c.M⟩) (value := value) (fill := fill) (by simp) hval hfill
        have hbo : b'.open_ = [] := by rw [hr'.shows.open_, ho]
        have q1 : ({ (pin c { b' with mem := m, open_ := ⟨p, c.M⟩ :: b'.open_ } ⟨p, c.M⟩ value fill) with open_ := (⟨p, c.M⟩ :: b'.open_).erase ⟨p, c.M⟩ } : BState) =
            pin c { b' with mem := m } ⟨p, c.M⟩ value fill := by
          simp only [pin, List.erase_cons_head]
        have q2 : ({ s' with level := n, stack := ⟨⟨p, c.M⟩, value⟩ :: s'.stack, open_ := (⟨p, c.M⟩ :: s'.open_).erase ⟨p, c.M⟩ } : SState) =
            { s' with level := n, stack := [⟨⟨p, c.M⟩, value⟩] } := by
          simp only [List.erase_cons_head, hst]
        rw [← q1, ← q2]
        exact hp

/-- The memory after the call, if the program goes on. -/
def BOut.mem? {α : Type} : BOut α → Option Mem
  | .ret _ b => some b.mem
  | .unwound b => some b.mem
  | _ => none

theorem pin_out {b : BState} {s : SState} (hr : WRel c b s) {h : Handle} {value fill : List Byte} (hh : h ∈ s.open_)
    (hval : value.length = c.valueSize h.vtable) (hfill : fill.length = (c.slotLayout h.vtable).size) {x : Nat} (hx : ¬ c.Own x) :
    (pin c b h value fill).mem x = b.mem x := by
  have hmem : h ∈ s.slots := List.mem_append.mpr (.inr hh)
  obtain ⟨hal, hvt, _⟩ := hr.ok h hmem
  obtain ⟨hin1, hin2⟩ := hr.inside h hmem
  have hv := value_in h hal
  have hll := hr.level_le
  have hregion : (c.region h).size = (c.slotLayout h.vtable).size := rfl
  have h1 : ¬ (h.addr ≤ x ∧ x < h.addr + (c.region h).size) := fun k => hx (.inl ⟨by show c.addr ≤ x; omega, by show x < c.addr + (c.t.wordBytes + _); omega⟩)
  show storeHandle c.t (writeSlot c b.mem h (loadHandle c.t b.mem c.topAddr) value fill) c.topAddr (some h) x = b.mem x
  rw [storeHandle_of_not_mem fun k => hx (.inr k), writeSlot, writeBytes_of_not_mem (by rw [hval]; omega), storeHandle_of_not_mem (by omega), writeBytes_of_not_mem (by rw [hfill]; omega)]

/-- Only bytes of the stack are written. -/
theorem exec_out (hc : c.Valid) {b : BState} {s : SState} (hr : WRel c b s) {op : BOp} (ha : op.Allowed c b) {m : Mem} (hm : (bexec c b op).mem? = some m) {x : Nat} (hx : ¬ c.Own x) : m x = b.mem x := by
  cases op with
  | slot ty =>
    obtain ⟨_, hW, hT, _⟩ := ha
    have hal : 0 < (c.vt.layout ty).align := hT.1.1.pos
    rcases slot_rel hc hr hal hT.1.1 hW with ⟨h1, h2⟩ | ⟨h1, h2⟩ | ⟨p, m', n, h1, h2, h3, h4⟩
    · simp only [bexec, h1, BOut.mem?] at hm; cases hm; rfl
    · simp only [bexec, h1, BOut.mem?] at hm; cases hm; rfl
    · simp only [bexec, h1, BOut.mem?] at hm; cases hm; exact h4 x hx
  | pin h value fill =>
    obtain ⟨_, h1, h2, h3⟩ := ha
    simp only [bexec, BOut.mem?] at hm
    cases hm
    exact pin_out hr (by rw [← hr.shows.open_]; exact h1) h2 h3 hx
  | popAll =>
    obtain ⟨b', s', hr', ho, _, _, ⟨h1, h2⟩ | ⟨h1, h2⟩⟩ := clear_rel hc hr b.alive
    all_goals
      have e1 : ({ b with open_ := [], alive := b.alive } : BState) = { b with open_ := [] } := rfl
      rw [e1] at h1
      simp only [bexec, h1, BOut.mem?] at hm
      cases hm
      exact ho x hx
  | drop =>
    obtain ⟨b', s', hr', ho, _, _, ⟨h1, h2⟩ | ⟨h1, h2⟩⟩ := clear_rel hc hr false
    all_goals
      simp only [bexec, h1, BOut.mem?] at hm
      cases hm
      exact ho x hx
  | write h value =>
    obtain ⟨_, h1, h2⟩ := ha
    simp only [bexec, BOut.mem?] at hm
    cases hm
    have hmem : h ∈ s.slots := List.mem_append.mpr (.inl (by rw [← hr.shows.live]; exact h1))
    obtain ⟨hal, _⟩ := hr.ok h hmem
    obtain ⟨hin1, hin2⟩ := hr.inside h hmem
    have hv := value_in h hal
    have hll := hr.level_le
    exact writeBytes_of_not_mem fun k => hx (.inl ⟨by show c.addr ≤ x; omega, by show x < c.addr + (c.t.wordBytes + _); omega⟩)
  | set value fill =>
    obtain ⟨_, hval, hfill⟩ := ha
    obtain ⟨b', s', hr', ho, hop, hst, hcase⟩ := clear_rel hc hr b.alive
    have e1 : ({ b with open_ := [], alive := b.alive } : BState) = { b with open_ := [] } := rfl
    rw [e1] at hcase
    have harg : ∀ {b1 : BState} {m : Mem}, (match dropArgument c b1 value with | .ret p s => .ret (.addr (c.valueAddr ⟨p, c.M⟩)) s | .unwound s => .unwound s | .abort => .abort | .ub => .ub : BOut ERet).mem? = some m → m = b1.mem := by
      intro b1 m h
      unfold dropArgument at h
      by_cases hp : c.vt.panics c.M value = true
      · simp only [hp, if_true, BOut.mem?] at h; cases h
      · simp only [hp] at h
        simp only [Bool.false_eq_true, if_false, BOut.mem?] at h; cases h; rfl
    rcases hcase with ⟨h1, h2⟩ | ⟨h1, h2⟩
    · simp only [bexec, set, h1] at hm
      rw [harg hm]; exact ho x hx
    · have hal : 0 < (c.vt.layout c.M).align := hc.conf.M.1.1.pos
      rcases slot_rel hc hr' hal hc.conf.M.1.1 hc.M with ⟨k1, k2⟩ | ⟨k1, k2⟩ | ⟨p, m', n, k1, k2, k3, k4⟩
      · simp only [bexec, set, h1, k1] at hm
        rw [harg hm]; exact ho x hx
      · simp only [bexec, set, h1, k1] at hm
        rw [harg hm]; exact ho x hx
      · simp only [bexec, set, h1, k1, BOut.mem?] at hm
        cases hm
        have hp := pin_out k3 (h := ⟨p, c.M⟩) (value := value) (fill := fill) (by simp) hval hfill hx
        exact hp.trans ((k4 x hx).trans (ho x hx))

/-- What the stack shows depends only on its own bytes. -/
theorem WRel.congr {b : BState} {s : SState} (hr : WRel c b s) {m : Mem} (hm : ∀ x, c.Own x → m x = b.mem x) : WRel c { b with mem := m } s := by
  have hpos := c.t.wordBytes_pos
  have hll := hr.level_le
  refine ⟨⟨?_, ?_, hr.shows.live, hr.shows.open_, hr.shows.log, hr.shows.alive⟩, hr.level_le, hr.inside, hr.ok, hr.disj, hr.pins⟩
  · show Found c m (loadHandle c.t m c.topAddr) s.stack
    rw [loadHandle_congr (m := b.mem) fun x k1 k2 => hm x (.inr ⟨k1, k2⟩)]
    refine hr.shows.stack.congr (fun e he => (hr.ok _ (List.mem_append.mpr (.inl (List.mem_map.mpr ⟨e, he, rfl⟩)))).1) fun e he x hx => ?_
    have k1 := hr.inside e.slot (List.mem_append.mpr (.inl (List.mem_map.mpr ⟨e, he, rfl⟩)))
    have k2 : e.slot.addr ≤ x := hx.1
    have k3 : x < e.slot.addr + (c.region e.slot).size := hx.2
    exact hm x (.inl ⟨by show c.addr ≤ x; omega, by show x < c.addr + (c.t.wordBytes + _); omega⟩)
  · rw [← hr.shows.level]
    exact loadUsize_congr fun x k1 k2 => hm x (.inl ⟨k1, by show x < c.addr + (c.t.wordBytes + _); omega⟩)

theorem init_rel (hc : c.Valid) (m : Mem) : WRel c (.init c m) ⟨0, [], [], [], true⟩ := by
  have hpos := c.t.wordBytes_pos
  have hW : 0 < c.t.W := by unfold Target.W; exact Nat.pow_pos (by decide)
  refine ⟨⟨?_, ?_, rfl, rfl, rfl, rfl⟩, Nat.zero_le _, fun h hh => (by cases hh), fun h hh => (by cases hh), List.Pairwise.nil, Nat.zero_le _⟩
  · show Found c _ (loadHandle c.t (storeHandle c.t _ c.topAddr none) c.topAddr) []
    rw [loadHandle_none]; trivial
  · show loadUsize c.t (storeHandle c.t (storeUsize c.t m c.addr 0) c.topAddr none) c.addr = 0
    have h1 : loadUsize c.t (storeHandle c.t (storeUsize c.t m c.addr 0) c.topAddr none) c.addr = loadUsize c.t (storeUsize c.t m c.addr 0) c.addr :=
      loadUsize_congr fun x k1 k2 => storeHandle_of_not_mem (top_apart hc (x := x) k1 (by omega))
    rw [h1]
    exact loadUsize_storeUsize c.t m c.addr hW

theorem run_rel (hc : c.Valid) : ∀ (ops : List BOp) {b : BState} {s : SState}, WRel c b s → SafeRun c b ops →
    ∃ fin, brun c b ops = some ((srun c s ops).1, fin) ∧ (fin = none ↔ (srun c s ops).2 = none) ∧ ∀ b' s', fin = some b' → (srun c s ops).2 = some s' → WRel c b' s'
  | [], b, s, hr, _ => ⟨some b, rfl, by simp [srun], fun b' s' h1 h2 => by cases h1; cases h2; exact hr⟩
  | op :: ops, b, s, hr, ⟨ha, hrest⟩ => by
    have h := exec_rel hc hr ha
    simp only [brun, srun]
    cases hb : bexec c b op with
    | ub => rw [hb] at h; cases hs : sexec c s op <;> rw [hs] at h <;> exact absurd h id
    | abort =>
      rw [hb] at h
      cases hs : sexec c s op with
      | abort => exact ⟨none, rfl, by simp, fun b' s' h1 => by cases h1⟩
      | ret _ _ => rw [hs] at h; exact absurd h id
      | unwound _ => rw [hs] at h; exact absurd h id
    | ret r b1 =>
      rw [hb] at h
      cases hs : sexec c s op with
      | abort => rw [hs] at h; exact absurd h id
      | unwound _ => rw [hs] at h; exact absurd h id
      | ret r' s1 =>
        rw [hs] at h
        obtain ⟨rfl, h⟩ := h
        obtain ⟨fin, k1, k2, k3⟩ := run_rel hc ops h (hrest b1 (.inr ⟨r, hb⟩))
        exact ⟨fin, by simp only [k1, Option.map_some], k2, k3⟩
    | unwound b1 =>
      rw [hb] at h
      cases hs : sexec c s op with
      | abort => rw [hs] at h; exact absurd h id
      | ret _ _ => rw [hs] at h; exact absurd h id
      | unwound s1 =>
        rw [hs] at h
        obtain ⟨fin, k1, k2, k3⟩ := run_rel hc ops h (hrest b1 (.inl hb))
        exact ⟨fin, by simp only [k1, Option.map_some], k2, k3⟩

end Verif.Exit.ExitMem
