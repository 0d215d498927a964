import Mathlib.Data.List.Pairwise
import Verif.Proofs.ExitStack
/-! # C34–C37: the exit stack -/
namespace Verif
open Exit Unsync

/-- No destructor that was run so far panicked. -/
def Exit.EState.Calm (s : EState) : Prop := ∀ v ∈ s.dropped, s.panics v = false

/-! ## C34 -/

/-- **C34** In every history in which no destructor panicked (histories with `slot`, `pin`, `set`, `pop_all`, dropping the stack, in any order,
also with failing allocations): the destructors that ran are those, and ran in the order, of the LIFO specification, the values which are
still alive are those of the specification, and every pinned value was either dropped or is alive, never both; none was dropped twice. -/
theorem C34_lifo {c : Conf} (hc : c.Valid) {s : EState} {ev : List EEvent} (h : EReach c s ev) (hcalm : s.Calm) :
    s.dropped = (Lifo.run ev).dropped ∧
    (∀ v, v ∈ (Lifo.run ev).live ↔ ∃ p r, s.Pinned p r ∧ r.value = v) ∧
    s.dropped.Nodup ∧ (∀ v, v < s.next → (v ∈ (Lifo.run ev).live ↔ v ∉ s.dropped)) := by
  obtain ⟨L, hi, _⟩ := h.inv hc
  obtain ⟨c1, c2⟩ := hi.calm hcalm
  refine ⟨by rw [c1], fun v => ?_, hi.dropped_nodup, fun v hv => ?_⟩
  · rw [c1]
    constructor
    · intro hv
      obtain ⟨x, hx, rfl⟩ := List.mem_map.mp hv
      exact ⟨x.1, x.2, hi.chain.pinned_iff.mpr hx, rfl⟩
    · rintro ⟨p, r, hp, rfl⟩
      exact List.mem_map.mpr ⟨_, hi.chain.pinned_iff.mp hp, rfl⟩
  · rw [c1]
    constructor
    · intro h1 h2
      obtain ⟨x, hx, rfl⟩ := List.mem_map.mp h1
      exact (hi.fresh x hx).2 h2
    · intro h2
      rcases c2 v hv with h | h
      · exact h
      · exact absurd h h2

/-- **C34** Once the stack was dropped every value that was ever pinned was dropped exactly once. -/
theorem C34_all_dropped_once {c : Conf} (hc : c.Valid) {s : EState} {ev : List EEvent} (h : EReach c s ev) (hcalm : s.Calm)
    (hend : s.alive = false) (v : Nat) : s.dropped.count v = if v < s.next then 1 else 0 := by
  obtain ⟨L, hi, hL⟩ := h.inv hc
  cases hL hend
  obtain ⟨_, c2⟩ := hi.calm hcalm
  split
  · rename_i hv
    have : v ∈ s.dropped := by simpa using c2 v hv
    exact Nat.le_antisymm (List.nodup_iff_count.mp hi.dropped_nodup v) (List.count_pos_iff.mpr this)
  · rename_i hv
    exact List.count_eq_zero.mpr fun hm => hv (hi.dropped_lt v hm)

/-- **C34** All values pinned since the last time the stack was cleared are dropped by clearing it, the last one first: the log (latest first) gets the
values in the order of pinning on top. The events are those of a history of operations. -/
theorem C34_reverse_order {c : Conf} (hc : c.Valid) {s : EState} {ev : List EEvent} {vs : List Nat}
    (h : EReach c s (ev ++ [.cleared] ++ vs.map .pinned ++ [.cleared])) (hcalm : s.Calm) :
    s.dropped = vs ++ (Lifo.run (ev ++ [.cleared])).dropped := by
  rw [(C34_lifo hc h hcalm).1]
  have hp : ∀ (l : Lifo) (vs : List Nat), (vs.map EEvent.pinned).foldl Lifo.step l = ⟨vs.reverse ++ l.live, l.dropped⟩ := by
    intro l vs
    induction vs generalizing l with
    | nil => rfl
    | cons v vs ih => simp [ih, Lifo.step]
  have h0 : (Lifo.run (ev ++ [EEvent.cleared])).live = [] := by
    rw [Lifo.run_append]; simp [Lifo.step, Lifo.clear_eq]
  rw [Lifo.run_append]
  have : Lifo.run (ev ++ [.cleared] ++ vs.map .pinned) = ⟨vs.reverse, (Lifo.run (ev ++ [EEvent.cleared])).dropped⟩ := by
    have := hp (Lifo.run (ev ++ [EEvent.cleared])) vs
    rw [h0, List.append_nil] at this
    rw [← this]
    simp only [Lifo.run, List.foldl_append]
  rw [this]
  simp [Lifo.step, Lifo.clear_eq]

/-! ## C35 -/

theorem Exit.EInv.pinned_disjoint {c : Conf} {s : EState} {ev : List EEvent} {L : List (Nat × SlotRec)} (hi : EInv c s ev L)
    {x y : Nat × SlotRec} (hx : x ∈ L) (hy : y ∈ L) (hne : x ≠ y) : (pinRegion x).Disjoint (pinRegion y) := by
  have hd : (L.map pinRegion).Pairwise Region.Disjoint := (List.pairwise_append.mp hi.disj).1
  rw [List.pairwise_map] at hd
  have : Std.Symm (fun a b : Nat × SlotRec => (pinRegion a).Disjoint (pinRegion b)) := ⟨fun _ _ h => Region.Disjoint.symm h⟩
  exact hd.forall hx hy hne


/-- **C35** The program has no undefined behaviour (in particular never uses the memory of a dropped value): every operation in every history, whichever destructors
panic, returns or unwinds. -/
theorem C35_no_ub {c : Conf} (hc : c.Valid) {s : EState} {ev : List EEvent} (h : EReach c s ev) {op : EOp} (ha : op.Allowed c s) :
    ∃ s', (∃ r, eexec c s op = .ret r s') ∨ eexec c s op = .unwound s' := by
  obtain ⟨L, hi, _⟩ := h.inv hc
  obtain ⟨s', L', h, _⟩ := eexec_inv hc hi ha
  rcases h with ⟨r, h, _⟩ | ⟨h, _⟩
  · exact ⟨s', .inl ⟨r, h⟩⟩
  · exact ⟨s', .inr h⟩

/-- **C35** (missing: histories in which a destructor panicked, see `C35_violated_after_panic`.) In every history in which no destructor panicked, any value pinned and not dropped is in
the stack; -/
theorem C35_not_dropped_is_pinned_partial {c : Conf} (hc : c.Valid) {s : EState} {ev : List EEvent} (h : EReach c s ev) (hcalm : s.Calm)
    {v : Nat} (hv : v < s.next) (hd : v ∉ s.dropped) : ∃ p r, s.Pinned p r ∧ r.value = v := by
  have := C34_lifo hc h hcalm
  exact (this.2.1 v).mp ((this.2.2.2 v hv).mpr hd)

/-- **C35** and for values in the stack (in any history): an operation other than clearing the stack leaves them pinned at their address, does
not drop them, and changes their memory only if it is the user's write to that very value. -/
theorem C35_pinned_stays {c : Conf} (hc : c.Valid) {s s' : EState} {ev : List EEvent} (h : EReach c s ev) {op : EOp} (ha : op.Allowed c s)
    (hop : ∀ b, op ≠ .set b) (hop2 : op ≠ .popAll) (hop3 : op ≠ .drop)
    (hx : (∃ r, eexec c s op = .ret r s') ∨ eexec c s op = .unwound s') {p : Nat} {r : SlotRec} (hp : s.Pinned p r) :
    s'.Pinned p r ∧ r.value ∉ s'.dropped ∧
    ((∀ off bytes, op ≠ .write p off bytes) → readBytes s'.mem p r.layout.size = readBytes s.mem p r.layout.size) := by
  obtain ⟨L, hi, _⟩ := h.inv hc
  have hL := hi.chain.pinned_iff.mp hp
  have hin := hi.inside (pinRegion (p, r)) (List.mem_append_left _ (List.mem_map_of_mem hL))
  simp only [pinRegion] at hin
  have hfr := (hi.fresh _ hL).2
  cases op with
  | set b => exact absurd rfl (hop b)
  | popAll => exact absurd rfl hop2
  | drop => exact absurd rfl hop3
  | slot T =>
    obtain ⟨hal, hT, hT'⟩ := ha
    rcases slot_spec hc hi.level (T := T) hT.1.1.pos with ⟨_, h2⟩ | ⟨_, h2⟩
    · simp only [eexec, h2] at hx
      rcases hx with ⟨_, hx⟩ | hx <;> cases hx
      exact ⟨hp, hfr, fun _ => rfl⟩
    · split at h2
      · simp only [eexec, h2] at hx
        rcases hx with ⟨_, hx⟩ | hx <;> cases hx
        exact ⟨hp, hfr, fun _ => rfl⟩
      · rename_i a hpl
        have hi' := (hi.slotted hc hT.1.1.pos hpl).1
        simp only [eexec, h2] at hx
        rcases hx with ⟨_, hx⟩ | hx <;> cases hx
        refine ⟨hi'.chain.pinned_iff.mpr hL, hfr, fun _ => readBytes_congr fun x h1 h2 => storeUsize_of_not_mem (by omega)⟩
  | pin q T bytes =>
    obtain ⟨hal, ho, hb⟩ := ha
    have hi' := hi.pinned ho hb
    simp only [eexec] at hx
    rcases hx with ⟨_, hx⟩ | hx <;> cases hx
    have hmem : (p, r) ∈ (q, ⟨s.top, s.next, pinSlotLayout c.t T⟩) :: L := List.mem_cons_of_mem _ hL
    have hdis := List.rel_of_pairwise_cons hi'.disj (a' := pinRegion (p, r)) (List.mem_append_left _ (List.mem_map_of_mem hL))
    refine ⟨hi'.chain.pinned_iff.mpr hmem, hfr, fun _ => readBytes_congr fun x h1 h2 => ?_⟩
    simp only [pin, writeSlot]
    refine writeBytes_of_not_mem fun hc' => hdis x ⟨?_, ?_⟩
    · simp only [Region.Has, pinRegion]; omega
    · simp only [Region.Has, pinRegion]; omega
  | write q off bytes =>
    obtain ⟨hal, r', hq, h1, h2⟩ := ha
    have hq' := hi.chain.pinned_iff.mp hq
    have hi' := hi.written hq' (off := off) (bytes := bytes)
    simp only [eexec] at hx
    rcases hx with ⟨_, hx⟩ | hx <;> cases hx
    refine ⟨hi'.chain.pinned_iff.mpr hL, hfr, fun hne => readBytes_congr fun x h3 h4 => writeBytes_of_not_mem fun hc' => ?_⟩
    have hpq : (p, r) ≠ (q, r') := fun e => by cases e; exact hne _ _ rfl
    exact hi.pinned_disjoint hL hq' hpq x ⟨by simp only [Region.Has, pinRegion]; omega, by simp only [Region.Has, pinRegion]; omega⟩

/-- **C35** Different pinned values occupy disjoint memory (in any history). -/
theorem C35_pinned_disjoint {c : Conf} (hc : c.Valid) {s : EState} {ev : List EEvent} (h : EReach c s ev) {p q : Nat} {r r' : SlotRec}
    (hp : s.Pinned p r) (hq : s.Pinned q r') (hne : r.value ≠ r'.value) : Region.Disjoint ⟨p, r.layout.size⟩ ⟨q, r'.layout.size⟩ := by
  obtain ⟨L, hi, _⟩ := h.inv hc
  exact hi.pinned_disjoint (hi.chain.pinned_iff.mp hp) (hi.chain.pinned_iff.mp hq) (fun e => by cases e; exact hne rfl)

/-- **C35** A slot handed out does not overlap any value in the stack, nor another slot which is handed out; it lies in the memory of the stack. -/
theorem C35_slot_is_free {c : Conf} (hc : c.Valid) {s s' : EState} {ev : List EEvent} (h : EReach c s ev) {T : Layout}
    (ha : (EOp.slot T).Allowed c s) {q : Nat} (hx : eexec c s (.slot T) = .ret (.addr q) s') :
    (∀ p r, s.Pinned p r → Region.Disjoint ⟨p, r.layout.size⟩ ⟨q, (pinSlotLayout c.t T).size⟩) ∧
    (∀ x ∈ s.open_, Region.Disjoint ⟨x.1, (pinSlotLayout c.t x.2).size⟩ ⟨q, (pinSlotLayout c.t T).size⟩) ∧
    (pinSlotLayout c.t T).align ∣ q ∧
    Region.Within ⟨q, (pinSlotLayout c.t T).size⟩ ⟨c.addr + c.t.wordBytes, (pinSlotLayout c.t c.M).size⟩ := by
  obtain ⟨L, hi, _⟩ := h.inv hc
  obtain ⟨hal, hT, hT'⟩ := ha
  rcases slot_spec hc hi.level (T := T) hT.1.1.pos with ⟨_, h2⟩ | ⟨_, h2⟩
  · simp only [eexec, h2] at hx; cases hx
  · split at h2
    · simp only [eexec, h2] at hx; cases hx
    · rename_i a hpl
      obtain ⟨_, hd, hge⟩ := hi.slotted hc hT.1.1.pos hpl
      obtain ⟨p1, p2, p3, p4, p5⟩ := place_level hT'.1.1.pos hpl
      simp only at p2 p3 p4
      simp only [eexec, h2] at hx
      cases hx
      exact ⟨fun p r hp => hd _ (List.mem_append_left _ (List.mem_map_of_mem (f := pinRegion) (hi.chain.pinned_iff.mp hp))),
        fun x hx => hd _ (List.mem_append_right _ (List.mem_map_of_mem (f := openRegion c) hx)), p5, ⟨by simp only; omega, by simp only; omega⟩⟩

/-! ## C36 -/

/-- **C36** (missing: that the destructors of all remaining values run, which is false, see `C36_violated`.) For every set of panicking destructors: no value
is dropped twice, only pinned values are dropped, and a value whose destructor ran (even if it panicked) is not in the stack any more. -/
theorem C36_no_double_drop_partial {c : Conf} (hc : c.Valid) {s : EState} {ev : List EEvent} (h : EReach c s ev) :
    s.dropped.Nodup ∧ (∀ v ∈ s.dropped, v < s.next) ∧ ∀ p r, s.Pinned p r → r.value ∉ s.dropped := by
  obtain ⟨L, hi, _⟩ := h.inv hc
  exact ⟨hi.dropped_nodup, hi.dropped_lt, fun p r hp => (hi.fresh _ (hi.chain.pinned_iff.mp hp)).2⟩

/-- The values in the stack, from the top. -/
inductive Exit.EState.Stack (s : EState) : Option Nat → List Nat → Prop
  | nil : Stack s none []
  | cons {p : Nat} {r : SlotRec} {vs : List Nat} (hr : s.slots p = some r) (h : Stack s r.link vs) : Stack s (some p) (r.value :: vs)

theorem stack_of_chain {s : EState} {L : List (Nat × SlotRec)} : ∀ {top : Option Nat}, Chain s.slots top L → s.Stack top (L.map (·.2.value)) := by
  induction L with
  | nil => intro top h; cases (show top = none from h); exact .nil
  | cons x L ih => intro top h; obtain ⟨h1, h2, h3⟩ := h; subst h1; exact .cons h2 (ih h3)
theorem stack_unique {s : EState} : ∀ {top : Option Nat} {a b : List Nat}, s.Stack top a → s.Stack top b → a = b := by
  intro top a b h
  induction h generalizing b with
  | nil => intro h'; cases h'; rfl
  | cons hr _ ih =>
    intro h'
    cases h' with
    | cons hr' h'' =>
      rw [hr] at hr'; cases hr'
      rw [ih h'']

/-- **C36 is violated.** In every reachable stack (from the top: values `pre`, whose destructors do not panic, then `v`, whose destructor does, then `rest`), clearing by `pop_all` or by dropping the
stack unwinds after dropping `pre` and `v`: none of the values below is dropped and the stack is empty, -/
theorem C36_panic_drops_prefix {c : Conf} (hc : c.Valid) {s : EState} {ev : List EEvent} (h : EReach c s ev) (hal : s.alive = true)
    {pre rest : List Nat} {v : Nat} (hst : s.Stack s.top (pre ++ v :: rest)) (hpre : ∀ w ∈ pre, s.panics w = false) (hv : s.panics v = true)
    {op : EOp} (hop : op = .popAll ∨ op = .drop) :
    ∃ s', eexec c s op = .unwound s' ∧ s'.dropped = v :: (pre.reverse ++ s.dropped) ∧ s'.top = none ∧ s'.next = s.next := by
  obtain ⟨L, hi, _⟩ := h.inv hc
  have hvals := stack_unique (stack_of_chain hi.chain) hst
  have hdu : ∀ (pre d : List Nat), (∀ w ∈ pre, s.panics w = false) →
      dropUntil s.panics (pre ++ v :: rest) d = (true, v :: (pre.reverse ++ d)) := by
    intro pre
    induction pre with
    | nil => intro d _; simp [dropUntil, hv]
    | cons w pre ih =>
      intro d hw
      simp only [List.cons_append, dropUntil, hw w (by simp)]
      rw [if_neg (by simp), ih _ (fun u hu => hw u (by simp [hu]))]
      simp
  have hd := hdu pre s.dropped hpre
  rw [← hvals] at hd
  rcases hop with rfl | rfl
  · obtain ⟨s1, hcl, h1⟩ := innerPopAll_inv (hi.close s.alive) rfl
    have hd1 := hcl.dropped
    simp only [hd] at h1 hd1
    rcases h1 with ⟨h1, _⟩ | ⟨_, h1, _⟩
    · exact ⟨s1, by simp only [eexec, popAll]; rw [h1], hd1, hcl.inv.chain, hcl.next⟩
    · cases h1
  · obtain ⟨s1, hcl, h1⟩ := innerPopAll_inv (hi.close false) rfl
    have hd1 := hcl.dropped
    simp only [hd] at h1 hd1
    rcases h1 with ⟨h1, _⟩ | ⟨_, h1, _⟩
    · exact ⟨s1, by simp only [eexec, Exit.drop]; rw [h1], hd1, hcl.inv.chain, hcl.next⟩
    · cases h1

/-- A state that can follow. -/
inductive Exit.Later (c : Conf) (s : EState) : EState → Prop
  | refl : Later c s s
  | ret {s' s'' : EState} {op : EOp} {r : ERet} (h : Later c s s') (ha : op.Allowed c s') (hx : eexec c s' op = .ret r s'') : Later c s s''
  | unwound {s' s'' : EState} {op : EOp} (h : Later c s s') (ha : op.Allowed c s') (hx : eexec c s' op = .unwound s'') : Later c s s''

theorem Exit.Later.reach {c : Conf} {s s' : EState} {ev : List EEvent} (h : EReach c s ev) (hl : Later c s s') : ∃ ev', EReach c s' ev' := by
  induction hl with
  | refl => exact ⟨_, h⟩
  | ret _ ha hx ih => obtain ⟨ev', ih⟩ := ih; exact ⟨_, ih.ret ha hx⟩
  | unwound _ ha hx ih => obtain ⟨ev', ih⟩ := ih; exact ⟨_, ih.unwound ha hx⟩

/-- and a pinned value which neither was dropped nor is in the stack is lost: in no continuation its destructor runs. -/
theorem C36_lost_forever {c : Conf} (hc : c.Valid) {s s' : EState} {ev : List EEvent} (h : EReach c s ev) (hl : Later c s s')
    {v : Nat} (hv : v < s.next) (hd : v ∉ s.dropped) (hp : ∀ p r, s.Pinned p r → r.value ≠ v) :
    v ∉ s'.dropped ∧ ∀ p r, s'.Pinned p r → r.value ≠ v := by
  suffices hs : v < s'.next ∧ v ∉ s'.dropped ∧ ∀ p r, s'.Pinned p r → r.value ≠ v from hs.2
  have step : ∀ {s s' : EState} {ev : List EEvent} {op : EOp}, EReach c s ev → op.Allowed c s →
      ((∃ r, eexec c s op = .ret r s') ∨ eexec c s op = .unwound s') →
      (v < s.next ∧ v ∉ s.dropped ∧ ∀ p r, s.Pinned p r → r.value ≠ v) → (v < s'.next ∧ v ∉ s'.dropped ∧ ∀ p r, s'.Pinned p r → r.value ≠ v) := by
    intro s s' ev op h ha hx hs
    obtain ⟨L, hi, _⟩ := h.inv hc
    obtain ⟨s1, L', h1, hfr⟩ := eexec_inv hc hi ha
    have he : s1 = s' ∧ ∃ ev', EInv c s1 ev' L' := by
      rcases h1 with ⟨r, h1, hi'⟩ | ⟨h1, hi'⟩ <;> rw [h1] at hx <;> rcases hx with ⟨_, hx⟩ | hx <;> cases hx <;> exact ⟨rfl, _, hi'⟩
    obtain ⟨rfl, ev', hi'⟩ := he
    refine ⟨Nat.lt_of_lt_of_le hs.1 hfr.next, fun hm => ?_, fun p r hp e => ?_⟩
    · rcases hfr.dropped v hm with h | h
      · exact hs.2.1 h
      · obtain ⟨x, hx, rfl⟩ := List.mem_map.mp h
        exact hs.2.2 x.1 x.2 (hi.chain.pinned_iff.mpr hx) rfl
    · rcases hfr.pinned _ (hi'.chain.pinned_iff.mp hp) with h | h
      · exact hs.2.2 p r (hi.chain.pinned_iff.mpr h) e
      · have := hs.1
        simp only at h
        omega
  induction hl with
  | refl => exact ⟨hv, hd, hp⟩
  | ret hl ha hx ih => obtain ⟨_, hr⟩ := hl.reach h; exact step hr ha (.inl ⟨_, hx⟩) ih
  | unwound hl ha hx ih => obtain ⟨_, hr⟩ := hl.reach h; exact step hr ha (.inr hx) ih

/-! A concrete history, executed. -/
namespace ExitExample

/-- A 64-bit target, release mode, room for a `PinSlot<[u64; 6]>`, i.e. 64 bytes. -/
def conf : Conf := ⟨.w64, false, 4096, ⟨48, 8⟩⟩
theorem conf_valid : conf.Valid :=
  ⟨⟨⟨⟨3, rfl⟩, by decide⟩, by decide⟩, ⟨⟨⟨3, rfl⟩, by decide⟩, by decide⟩, ⟨⟨⟨3, rfl⟩, by decide⟩, by decide⟩, by decide, by decide, by decide⟩

def u64 : Layout := ⟨8, 8⟩
theorem u64_valid : u64.ValidType .w64 := ⟨⟨⟨3, rfl⟩, by decide⟩, by decide⟩
theorem u64_slot_valid : (pinSlotLayout .w64 u64).ValidType .w64 := ⟨⟨⟨3, rfl⟩, by decide⟩, by decide⟩
def bytes : List Byte := List.replicate 24 1

/-- Next state, if the operation returns or unwinds. -/
def next (s : EState) (op : EOp) : EState :=
  match eexec conf s op with
  | .ret _ s => s
  | .unwound s => s
  | _ => s

/-- Two values are pinned; the destructor of the second (number 1) panics if the argument says so. -/
def s0 (p : Bool) : EState := ⟨fun _ => 0, none, fun _ => none, [], 0, [], true, fun v => p && v == 1⟩
def s1 (p : Bool) : EState := next (s0 p) (.slot u64)
def s2 (p : Bool) : EState := next (s1 p) (.pin 4104 u64 bytes)
def s3 (p : Bool) : EState := next (s2 p) (.slot u64)
def s4 (p : Bool) : EState := next (s3 p) (.pin 4128 u64 bytes)

theorem next_reach {s : EState} {ev : List EEvent} {op : EOp} (h : EReach conf s ev) (ha : op.Allowed conf s) :
    ∃ ev', EReach conf (next s op) ev' := by
  obtain ⟨s', hx⟩ := C35_no_ub conf_valid h ha
  rcases hx with ⟨r, hx⟩ | hx
  · exact ⟨_, by simpa [next, hx] using h.ret ha hx⟩
  · exact ⟨_, by simpa [next, hx] using h.unwound ha hx⟩

theorem s4_reach (p : Bool) : ∃ ev, EReach conf (s4 p) ev := by
  have h0 : EReach conf (s0 p) [] := .init (by decide)
  obtain ⟨_, h1⟩ := next_reach h0 (op := .slot u64) ⟨rfl, u64_valid, u64_slot_valid⟩
  obtain ⟨_, h2⟩ := next_reach h1 (op := .pin 4104 u64 bytes) ⟨by cases p <;> rfl, by cases p <;> decide, by decide⟩
  obtain ⟨_, h3⟩ := next_reach h2 (op := .slot u64) ⟨by cases p <;> rfl, u64_valid, u64_slot_valid⟩
  exact next_reach h3 (op := .pin 4128 u64 bytes) ⟨by cases p <;> rfl, by cases p <;> decide, by decide⟩

/-- Both are in the stack. -/
theorem s4_stack (p : Bool) : (s4 p).Stack (s4 p).top [1, 0] := by
  have h1 : (s4 p).top = some 4128 := by cases p <;> rfl
  have h2 : (s4 p).slots 4128 = some ⟨some 4104, 1, ⟨24, 8⟩⟩ := by cases p <;> rfl
  have h3 : (s4 p).slots 4104 = some ⟨none, 0, ⟨24, 8⟩⟩ := by cases p <;> rfl
  rw [h1]
  exact .cons h2 (.cons h3 .nil)
end ExitExample

open ExitExample in
/-- **C36 is violated**, a witness: two values are pinned, the destructor of the upper one panics during `pop_all`; then the destructor of the lower one (number 0)
never runs, whatever happens later, also if the stack is dropped. -/
theorem C36_violated :
    ∃ (c : Conf) (s s' : EState) (ev : List EEvent) (p : Nat) (r : SlotRec), c.Valid ∧ EReach c s ev ∧ s.Pinned p r ∧
      eexec c s .popAll = .unwound s' ∧ ∀ s'', Later c s' s'' → r.value ∉ s''.dropped := by
  obtain ⟨ev, h⟩ := s4_reach true
  obtain ⟨s', hx, hd, htop, hn⟩ := C36_panic_drops_prefix conf_valid h rfl (pre := []) (s4_stack true) (by simp) (by decide) (.inl rfl)
  have h' := h.unwound (show (EOp.popAll).Allowed conf _ from rfl) hx
  refine ⟨conf, s4 true, s', ev, 4104, ⟨none, 0, ⟨24, 8⟩⟩, conf_valid, h, .link (p := 4128) (r := ⟨some 4104, 1, ⟨24, 8⟩⟩) (.top rfl rfl) rfl rfl, hx, fun s'' hl => ?_⟩
  refine (C36_lost_forever conf_valid h' hl (v := 0) (by rw [hn]; decide) (by rw [hd]; decide) ?_).1
  intro p r hp
  exfalso
  induction hp with
  | top ht _ => rw [htop] at ht; cases ht
  | link _ _ _ ih => exact ih

open ExitExample in
/-- **C35 is violated after a destructor panicked**: there is a history with a value pinned at an address whose destructor never ran while its memory is handed out again. -/
theorem C35_violated_after_panic :
    ∃ (c : Conf) (s s' s'' : EState) (ev ev' : List EEvent) (p : Nat) (r : SlotRec) (T : Layout), c.Valid ∧ EReach c s ev ∧ s.Pinned p r ∧ Later c s s' ∧ EReach c s' ev' ∧
      (EOp.slot T).Allowed c s' ∧ eexec c s' (.slot T) = .ret (.addr p) s'' ∧ r.value ∉ s''.dropped := by
  obtain ⟨ev, h⟩ := s4_reach true
  obtain ⟨s5, hs5⟩ : ∃ s5, s5 = next (s4 true) .popAll := ⟨_, rfl⟩
  have hx5 : eexec conf (s4 true) .popAll = .unwound s5 := by rw [hs5]; rfl
  have h5 := h.unwound (show (EOp.popAll).Allowed conf _ from rfl) hx5
  have ha5 : (EOp.popAll).Allowed conf s5 := by rw [hs5]; rfl
  obtain ⟨s6, hs6⟩ : ∃ s6, s6 = next s5 .popAll := ⟨_, rfl⟩
  have hx6 : eexec conf s5 .popAll = .ret .unit s6 := by rw [hs6, hs5]; rfl
  have h6 := h5.ret ha5 hx6
  obtain ⟨s7, hs7⟩ : ∃ s7, s7 = next s6 (.slot u64) := ⟨_, rfl⟩
  refine ⟨conf, s4 true, s6, s7, ev, _, 4104, ⟨none, 0, ⟨24, 8⟩⟩, u64, conf_valid, h,
    .link (p := 4128) (r := ⟨some 4104, 1, ⟨24, 8⟩⟩) (.top rfl rfl) rfl rfl,
    (Later.refl.unwound (show (EOp.popAll).Allowed conf (s4 true) from rfl) hx5).ret ha5 hx6, h6, ⟨by rw [hs6, hs5]; rfl, u64_valid, u64_slot_valid⟩, ?_, ?_⟩
  · rw [hs7, hs6, hs5]; rfl
  · rw [hs7, hs6, hs5]; decide

/-- Hypotheses of the theorems above are met: a reachable state in which two values are pinned and one in which they were dropped. -/
example : ∃ ev, EReach ExitExample.conf (ExitExample.s4 false) ev ∧ (ExitExample.s4 false).Calm ∧ (ExitExample.s4 false).Stack (ExitExample.s4 false).top [1, 0] := by
  obtain ⟨ev, h⟩ := ExitExample.s4_reach false
  exact ⟨ev, h, (by intro v hv; cases hv), ExitExample.s4_stack false⟩
example : (ExitExample.next (ExitExample.s4 false) .drop).dropped = [0, 1] ∧ (ExitExample.next (ExitExample.s4 false) .drop).alive = false := by decide
example : (EOp.write 4104 16 [1, 2]).Allowed ExitExample.conf (ExitExample.s4 false) :=
  ⟨rfl, _, .link (p := 4128) (r := ⟨some 4104, 1, ⟨24, 8⟩⟩) (.top rfl rfl) rfl rfl, by decide, by decide⟩

/-! ## C37 -/

theorem conf_tbump_valid {c : Conf} (hc : c.Valid) : c.memory.Valid c.t := ⟨hc.slot, hc.pos, hc.aligned, hc.no_wrap⟩

/-- **C37** (missing: over-aligned types, for which it is false, see `C37_violated`; and histories where destructors panic.) If the alignment of the type does not exceed the one of the machine word and no destructor of
the values in the stack panics, then `set` succeeds, in every state, however full the stack is; the value is the only one in the stack, at the start of its memory. -/
theorem C37_set_succeeds_partial {c : Conf} (hc : c.Valid) (hal : c.M.align ≤ c.t.wordBytes) {s : EState} {ev : List EEvent} (h : EReach c s ev)
    {bytes : List Byte} (ha : (EOp.set bytes).Allowed c s) (hp : ∀ p r, s.Pinned p r → s.panics r.value = false) :
    ∃ s', eexec c s (.set bytes) = .ret (.addr (c.addr + c.t.wordBytes)) s' ∧
      (∀ p r, s'.Pinned p r ↔ p = c.addr + c.t.wordBytes ∧ r = ⟨none, s.next, pinSlotLayout c.t c.M⟩) ∧
      (∀ p r, s.Pinned p r → r.value ∈ s'.dropped) := by
  obtain ⟨L, hi, _⟩ := h.inv hc
  have hM := hc.M.1.1.pos
  have hal' : c.memory.T.align ≤ c.t.wordBytes := by simp only [Conf.memory, pinSlotLayout]; omega
  obtain ⟨mb, hderef, -⟩ := C27_typed_bump_partial (conf_tbump_valid hc) hal' c.debug
  have hnp : ∀ v ∈ L.map (·.2.value), s.panics v = false := by
    intro v hv
    obtain ⟨x, hx, rfl⟩ := List.mem_map.mp hv
    exact hp _ _ (hi.chain.pinned_iff.mpr hx)
  have hdu := dropUntil_all s.panics _ s.dropped hnp
  obtain ⟨s1, hcl, h1⟩ := innerPopAll_inv (hi.close s.alive) rfl
  have hdr := hcl.dropped
  simp only [hdu] at h1 hdr
  rcases h1 with ⟨_, h1⟩ | ⟨h1, _, hlev, hd⟩
  · rcases h1 with h1 | h1
    · cases h1
    · rw [hderef] at h1; cases h1
  · have hset := eexec_set_of_cleared (bytes := bytes) h1
    have hadv : (pinSlotLayout c.t c.M).align ∣ c.addr + c.t.wordBytes := by
      have e : (pinSlotLayout c.t c.M).align = c.t.wordBytes := by simp only [pinSlotLayout]; omega
      rw [e]
      exact Nat.dvd_add (Conf.memBump_valid hc).aligned (Nat.dvd_refl _)
    have hpl : Slab.place ⟨c.addr + c.t.wordBytes, (pinSlotLayout c.t c.M).size⟩ (pinSlotLayout c.t c.M) (loadUsize c.t s1.mem c.addr) =
        some ⟨c.addr + c.t.wordBytes, (pinSlotLayout c.t c.M).size⟩ := by
      rw [hlev, Slab.place_eq_some]
      simp only [Nat.add_zero, alignUp_of_dvd hc.slot.1.1.pos hadv]
      exact ⟨trivial, Nat.le_refl _, by omega⟩
    rcases slot_spec hc hcl.inv.level hM with ⟨hd', _⟩ | ⟨_, h2⟩
    · exact absurd hd' hd
    · simp only [hpl] at h2
      have h3 := (hcl.inv.slotted hc hM hpl).1.pinned (p := c.addr + c.t.wordBytes) (T := c.M) (bytes := bytes) (by simp) ha.2
      refine ⟨_, hset _ h2, fun p r => ?_, fun p r hp' => ?_⟩
      · have htop : s1.top = none := hcl.inv.chain
        have h4 : Chain _ _ _ := h3.chain
        refine (Chain.pinned_iff (L := [(c.addr + c.t.wordBytes, ⟨s1.top, s1.next, pinSlotLayout c.t c.M⟩)]) ?_).trans ?_
        · exact h4
        · rw [htop, hcl.next]; simp
      · simp only [pin, writeSlot, hdr]
        exact List.mem_append_left _ (List.mem_reverse.mpr (List.mem_map.mpr ⟨_, hi.chain.pinned_iff.mp hp', rfl⟩))

/-- **C37 is violated** for every type with an alignment larger than the machine word: `set` always panics. -/
theorem C37_violated {c : Conf} (hc : c.Valid) (hal : c.t.wordBytes < c.M.align) {s : EState} {ev : List EEvent} (h : EReach c s ev)
    {bytes : List Byte} : ∃ s', eexec c s (.set bytes) = .unwound s' := by
  obtain ⟨L, hi, _⟩ := h.inv hc
  have hM := hc.M.1.1.pos
  have hpos := c.t.wordBytes_pos
  have halign : (pinSlotLayout c.t c.M).align = c.M.align := by simp only [pinSlotLayout]; omega
  obtain ⟨s1, hcl, h1⟩ := innerPopAll_inv (hi.close s.alive) rfl
  rcases h1 with ⟨h1, _⟩ | ⟨h1, _, hlev, hd⟩
  · exact ⟨s1, by simp only [eexec, Exit.set, popAll]; rw [h1]⟩
  · have hset := eexec_set_of_cleared (bytes := bytes) h1
    have hdv : c.M.align ∣ c.addr := by
      have := hc.aligned
      have e : (c.memory.layout c.t).align = c.M.align := by simp only [Conf.memory, TBump.layout, halign]; omega
      rwa [e] at this
    have hpl : Slab.place ⟨c.addr + c.t.wordBytes, (pinSlotLayout c.t c.M).size⟩ (pinSlotLayout c.t c.M) (loadUsize c.t s1.mem c.addr) = none := by
      rw [hlev, Slab.place_eq_none]
      simp only [Nat.add_zero, halign]
      rw [alignUp_add_of_dvd hM hdv]
      obtain ⟨k, hk⟩ := dvd_alignUp c.M.align c.t.wordBytes
      have hle := le_alignUp hM c.t.wordBytes
      have hk0 : k ≠ 0 := by rintro rfl; omega
      have : c.M.align ≤ c.M.align * k := Nat.le_mul_of_pos_right _ (by omega)
      omega
    rcases slot_spec hc hcl.inv.level hM with ⟨hd', _⟩ | ⟨_, h2⟩
    · exact absurd hd' hd
    · simp only [hpl] at h2
      exact ⟨s1, hset _ h2⟩

theorem dropUntil_calm {panics : Nat → Bool} {vs d : List Nat} (h : (dropUntil panics vs d).1 = false) : ∀ v ∈ vs, panics v = false := by
  induction vs generalizing d with
  | nil => intro v hv; simp at hv
  | cons x vs ih =>
    simp only [dropUntil] at h
    split at h
    · cases h
    · rename_i hx
      intro v hv
      rcases List.mem_cons.mp hv with rfl | hv
      · simpa using hx
      · exact ih h v hv

/-- **C37** Exactly when `set` succeeds: the alignment of the type does not exceed the one of the machine word, and no value in the stack has a panicking destructor. Otherwise it unwinds. -/
theorem C37_set_succeeds_iff {c : Conf} (hc : c.Valid) {s : EState} {ev : List EEvent} (h : EReach c s ev) {bytes : List Byte} (ha : (EOp.set bytes).Allowed c s) :
    ((∃ p s', eexec c s (.set bytes) = .ret (.addr p) s') ↔ c.M.align ≤ c.t.wordBytes ∧ ∀ p r, s.Pinned p r → s.panics r.value = false) ∧
    (¬ (c.M.align ≤ c.t.wordBytes ∧ ∀ p r, s.Pinned p r → s.panics r.value = false) → ∃ s', eexec c s (.set bytes) = .unwound s') := by
  have hneg : ¬ (c.M.align ≤ c.t.wordBytes ∧ ∀ p r, s.Pinned p r → s.panics r.value = false) → ∃ s', eexec c s (.set bytes) = .unwound s' := by
    intro hn
    by_cases hal : c.M.align ≤ c.t.wordBytes
    · obtain ⟨L, hi, _⟩ := h.inv hc
      obtain ⟨s1, hcl, h1⟩ := innerPopAll_inv (hi.close s.alive) rfl
      rcases h1 with ⟨h1, _⟩ | ⟨_, h1, _⟩
      · exact ⟨s1, by simp only [eexec, Exit.set, popAll]; rw [h1]⟩
      · exact absurd ⟨hal, fun p r hp => dropUntil_calm h1 _ (List.mem_map.mpr ⟨_, hi.chain.pinned_iff.mp hp, rfl⟩)⟩ hn
    · exact C37_violated hc (by omega) h
  refine ⟨⟨fun ⟨p, s', hx⟩ => ?_, fun ⟨h1, h2⟩ => ?_⟩, hneg⟩
  · by_contra hn
    obtain ⟨s2, h2⟩ := hneg hn
    rw [h2] at hx
    cases hx
  · obtain ⟨s', h3, _⟩ := C37_set_succeeds_partial hc h1 h ha h2
    exact ⟨_, s', h3⟩

/-- A concrete over-aligned configuration. -/
example : Conf.Valid ⟨.w64, true, 4096, ⟨32, 16⟩⟩ :=
  ⟨⟨⟨⟨4, rfl⟩, by decide⟩, by decide⟩, ⟨⟨⟨4, rfl⟩, by decide⟩, by decide⟩, ⟨⟨⟨4, rfl⟩, by decide⟩, by decide⟩, by decide, by decide, by decide⟩
example : (EOp.set (List.replicate 64 0)).Allowed ExitExample.conf (ExitExample.s4 false) := ⟨rfl, by decide⟩

end Verif
