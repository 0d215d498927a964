import Verif.Proofs.ExitMem
import Verif.Props.UnsyncMem
/-! # C85: the exit stack in the bytes of memory -/
namespace Verif
open Exit.ExitMem Exit Unsync

/-- **C85** Let a program take slots, pin values of any types, write to the pinned values, `set`, `pop_all` and drop the stack, in any order, with destructors that change the bytes of their values and that may unwind. No step is undefined
behaviour (no pointer read from the memory is used unless it is to a value whose destructor was not begun), each call gives the answer (address, `None`, unwinding, abort) that it would give if the stack were a list of values, and whoever
follows the pointers in the bytes finds exactly this list, with the bytes that were written last; the destructors that ran, with what they saw, are those of the list. -/
theorem C85_refines {c : Cfg} (hc : c.Valid) (m : Mem) (ops : List BOp) (hs : SafeRun c (.init c m) ops) :
    ∃ fin, brun c (.init c m) ops = some ((srun c ⟨0, [], [], [], true⟩ ops).1, fin) ∧
      (fin = none ↔ (srun c ⟨0, [], [], [], true⟩ ops).2 = none) ∧
      ∀ b s, fin = some b → (srun c ⟨0, [], [], [], true⟩ ops).2 = some s → Shows c b s := by
  obtain ⟨fin, h1, h2, h3⟩ := run_rel hc ops (init_rel hc m) hs
  exact ⟨fin, h1, h2, fun b s hb hs' => (h3 b s hb hs').shows⟩

/-- The stack is in state `b` after a program that is possible. -/
def Exit.ExitMem.Reached (c : Cfg) (m : Mem) (ops : List BOp) (b : BState) : Prop := SafeRun c (.init c m) ops ∧ ∃ rs, brun c (.init c m) ops = some (rs, some b)

theorem Exit.ExitMem.Reached.rel {c : Cfg} (hc : c.Valid) {m : Mem} {ops : List BOp} {b : BState} (h : Reached c m ops b) : ∃ s, WRel c b s := by
  obtain ⟨hs, rs, hb⟩ := h
  obtain ⟨fin, h1, h2, h3⟩ := run_rel hc ops (init_rel hc m) hs
  rw [h1] at hb
  simp only [Option.some.injEq, Prod.mk.injEq] at hb
  obtain ⟨_, rfl⟩ := hb
  cases hs' : (srun c ⟨0, [], [], [], true⟩ ops).2 with
  | none => exact absurd (h2.mpr hs') (by simp)
  | some s => exact ⟨s, h3 b s rfl hs'⟩

/-- The bytes of the value in a slot. -/
def Exit.ExitMem.bytesOf (c : Cfg) (b : BState) (h : Handle) : List Byte := readBytes b.mem (c.valueAddr h) (c.valueSize h.vtable)

theorem Exit.ExitMem.Found.bytes {c : Cfg} {b : BState} : ∀ {es : List Entry} {r : Option Handle}, Found c b.mem r es → ∀ e ∈ es, bytesOf c b e.slot = e.val
  | [], _, _, e, he => by cases he
  | f :: es, none, h, _, _ => absurd h id
  | f :: es, some q, ⟨h1, h2, h3⟩, e, he => by
    rcases List.mem_cons.mp he with rfl | he
    · rw [h1]; exact h2
    · exact Found.bytes h3 e he

/-- **C85** After every program: the slots of all pinned values and of all slots not yet used are pairwise disjoint, they lie in the memory of the stack behind the counter and so do not touch it nor the field `top`, and each pinned
value is in its slot behind the link, aligned for its type. -/
theorem C85_layout {c : Cfg} (hc : c.Valid) {m : Mem} {ops : List BOp} {b : BState} (h : Reached c m ops b) :
    ((b.live ++ b.open_).map fun h => (⟨h.addr, (c.slotLayout h.vtable).size⟩ : Region)).Pairwise Region.Disjoint ∧
    ∀ q ∈ b.live ++ b.open_,
      Region.Within ⟨q.addr, (c.slotLayout q.vtable).size⟩ ⟨c.addr + c.t.wordBytes, (c.slotLayout c.M).size⟩ ∧
      Region.Disjoint ⟨q.addr, (c.slotLayout q.vtable).size⟩ ⟨c.topAddr, 2 * c.t.wordBytes⟩ ∧
      Region.Within ⟨c.valueAddr q, c.valueSize q.vtable⟩ ⟨q.addr + 2 * c.t.wordBytes, (c.slotLayout q.vtable).size - 2 * c.t.wordBytes⟩ ∧
      (c.vt.layout q.vtable).align ∣ c.valueAddr q := by
  obtain ⟨s, hr⟩ := h.rel hc
  have hsl : b.live ++ b.open_ = s.slots := by rw [hr.shows.live, hr.shows.open_]; rfl
  rw [hsl]
  refine ⟨List.pairwise_map.mpr hr.disj, fun q hq => ?_⟩
  have h1 := hr.inside q hq
  obtain ⟨k1, k2, k3, k4⟩ := hr.ok q hq
  have h2 := value_in q k1
  have hl := hr.level_le
  simp only [Cfg.region] at h1 h2
  have h3 : 2 * c.t.wordBytes ≤ (c.slotLayout q.vtable).size := by omega
  refine ⟨⟨h1.1, ?_⟩, ?_, ⟨h2.1, ?_⟩, ?_⟩
  · show q.addr + (c.slotLayout q.vtable).size ≤ c.addr + c.t.wordBytes + (c.slotLayout c.M).size; omega
  · intro x ⟨x1, x2⟩
    have y1 : q.addr ≤ x := x1.1
    have y2 : x < q.addr + (c.slotLayout q.vtable).size := x1.2
    exact top_apart hc (x := x) (by omega) (by omega) ⟨x2.1, x2.2⟩
  · show c.valueAddr q + c.valueSize q.vtable ≤ q.addr + 2 * c.t.wordBytes + ((c.slotLayout q.vtable).size - 2 * c.t.wordBytes); omega
  · refine Nat.dvd_add ?_ (dvd_alignUp _ _)
    refine Nat.dvd_trans ?_ k4
    show (c.vt.layout q.vtable).align ∣ max c.t.wordBytes (c.vt.layout q.vtable).align
    rcases Nat.le_total c.t.wordBytes (c.vt.layout q.vtable).align with hle | hle
    · rw [Nat.max_eq_right hle]
    · rw [Nat.max_eq_left hle]; exact k3.dvd_of_le (word_isPow2 c.t) hle

/-- The operation neither clears the stack nor writes to the value in the slot. -/
def Exit.ExitMem.BOp.Leaves (h : Handle) : BOp → Prop
  | .slot _ => True
  | .pin _ _ _ => True
  | .write g _ => g ≠ h
  | .set _ _ => False
  | .popAll => False
  | .drop => False

theorem Exit.ExitMem.leaves_exec {c : Cfg} {s : SState} {e : Entry} (he : e ∈ s.stack) {op : BOp} (hl : op.Leaves e.slot) :
    ∃ s', (sexec c s op = .unwound s' ∨ ∃ r, sexec c s op = .ret r s') ∧ e ∈ s'.stack := by
  cases op with
  | slot ty =>
    simp only [sexec, sslot]
    by_cases ha : c.asserts = true
    · exact ⟨s, .inl (by simp [ha]), he⟩
    · cases hp : c.slab.place (c.slotLayout ty) s.level with
      | none => exact ⟨s, .inr ⟨.none, by simp [ha]⟩, he⟩
      | some a => exact ⟨{ s with level := a.level, open_ := ⟨a.ptr, ty⟩ :: s.open_ }, .inr ⟨.addr a.ptr, by simp [ha]⟩, he⟩
  | pin h value fill => exact ⟨_, .inr ⟨_, rfl⟩, List.mem_cons_of_mem _ he⟩
  | write g value =>
    refine ⟨_, .inr ⟨_, rfl⟩, List.mem_map.mpr ⟨e, he, ?_⟩⟩
    exact if_neg (Ne.symm hl)
  | set _ _ => exact absurd hl id
  | popAll => exact absurd hl id
  | drop => exact absurd hl id

theorem Exit.ExitMem.leaves_run {c : Cfg} {e : Entry} : ∀ {ops : List BOp} {s : SState}, e ∈ s.stack → (∀ op ∈ ops, op.Leaves e.slot) → ∃ s', (srun c s ops).2 = some s' ∧ e ∈ s'.stack
  | [], s, he, _ => ⟨s, rfl, he⟩
  | op :: ops, s, he, hl => by
    obtain ⟨s1, h1, he1⟩ := leaves_exec (c := c) he (hl op (by simp))
    obtain ⟨s2, h2, he2⟩ := leaves_run (c := c) (ops := ops) he1 fun o ho => hl o (by simp [ho])
    refine ⟨s2, ?_, he2⟩
    rcases h1 with h1 | ⟨r, h1⟩ <;> simp only [srun, h1] <;> exact h2

/-- **C85** A pinned value stays: as long as the stack is not cleared, whatever slots are taken, whatever is pinned and whatever is written to other values, the value stays in its place with the same bytes, and its destructor is not begun. -/
theorem C85_pinned_stays {c : Cfg} (hc : c.Valid) {m : Mem} {ops more : List BOp} {b b' : BState} (h : Reached c m ops b) (hs : SafeRun c b more)
    {rs : List Seen} (hx : brun c b more = some (rs, some b')) {q : Handle} (hq : q ∈ b.live) (hl : ∀ op ∈ more, op.Leaves q) :
    q ∈ b'.live ∧ bytesOf c b' q = bytesOf c b q := by
  obtain ⟨s, hr⟩ := h.rel hc
  rw [hr.shows.live] at hq
  obtain ⟨e, he, rfl⟩ := List.mem_map.mp hq
  obtain ⟨s', h1, he'⟩ := leaves_run (c := c) he hl
  obtain ⟨fin, k1, k2, k3⟩ := run_rel hc more hr hs
  rw [k1] at hx
  simp only [Option.some.injEq, Prod.mk.injEq] at hx
  obtain ⟨_, rfl⟩ := hx
  have hr' := k3 b' s' rfl h1
  refine ⟨by rw [hr'.shows.live]; exact List.mem_map.mpr ⟨e, he', rfl⟩, ?_⟩
  rw [hr'.shows.stack.bytes e he', hr.shows.stack.bytes e he]

/-- **C85** No call writes a byte that is not one of the stack's own (level and slots, and the field `top`), whatever destructors are run by it. -/
theorem C85_own_bytes {c : Cfg} (hc : c.Valid) {m : Mem} {ops : List BOp} {b b' : BState} (h : Reached c m ops b) {op : BOp} (ha : op.Allowed c b)
    (he : bexec c b op = .unwound b' ∨ ∃ r, bexec c b op = .ret r b') {x : Nat}
    (h1 : ¬ Region.Has ⟨c.addr, c.t.wordBytes + (c.slotLayout c.M).size⟩ x) (h2 : ¬ Region.Has ⟨c.topAddr, 2 * c.t.wordBytes⟩ x) : b'.mem x = b.mem x := by
  obtain ⟨s, hr⟩ := h.rel hc
  refine exec_out hc hr ha ?_ fun k => k.elim h1 h2
  rcases he with he | ⟨r, he⟩ <;> rw [he] <;> rfl

/-- **C85** After `Slot::pin` the value is on top of the stack, and in its place are the bytes of the value; the answer is its address. -/
theorem C85_pin {c : Cfg} (hc : c.Valid) {m : Mem} {ops : List BOp} {b : BState} (h : Reached c m ops b) {q : Handle} {value fill : List Byte}
    (ha : BOp.Allowed c b (.pin q value fill)) :
    ∃ b', bexec c b (.pin q value fill) = .ret (.addr (c.valueAddr q)) b' ∧ b'.live = q :: b.live ∧ bytesOf c b' q = value ∧ b'.log = b.log := by
  obtain ⟨s, hr⟩ := h.rel hc
  have hp := pin_rel hc hr (by rw [← hr.shows.open_]; exact ha.2.1) ha.2.2.1 ha.2.2.2
  exact ⟨_, rfl, rfl, hp.shows.stack.bytes ⟨q, value⟩ (by simp), rfl⟩

/-- **C85** After a write to a pinned value its bytes are those written. -/
theorem C85_write {c : Cfg} {b : BState} {q : Handle} {value : List Byte} (ha : BOp.Allowed c b (.write q value)) :
    ∃ b', bexec c b (.write q value) = .ret .unit b' ∧ b'.live = b.live ∧ bytesOf c b' q = value ∧ b'.log = b.log := by
  refine ⟨_, rfl, rfl, ?_, rfl⟩
  show readBytes (writeBytes b.mem (c.valueAddr q) value) (c.valueAddr q) (c.valueSize q.vtable) = value
  rw [← ha.2.2]
  exact readBytes_writeBytes_self _ _ _

theorem Exit.ExitMem.dropFrom_calm {vt : VTables} : ∀ {es : List Entry} {log}, (∀ e ∈ es, vt.panics e.slot.vtable e.val = false) →
    dropFrom vt es log = (false, log ++ es.map fun e => (some e.slot.addr, e.slot.vtable, e.val))
  | [], log, _ => by simp [dropFrom]
  | e :: es, log, h => by
    rw [dropFrom, h e (by simp)]
    simp only [Bool.false_eq_true, if_false]
    rw [dropFrom_calm fun f hf => h f (by simp [hf])]
    simp

theorem Exit.ExitMem.dropFrom_panic {vt : VTables} {e : Entry} {post : List Entry} (hp : vt.panics e.slot.vtable e.val = true) : ∀ {pre : List Entry} {log}, (∀ e ∈ pre, vt.panics e.slot.vtable e.val = false) →
    dropFrom vt (pre ++ e :: post) log = (true, log ++ (pre ++ [e]).map fun e => (some e.slot.addr, e.slot.vtable, e.val))
  | [], log, _ => by simp [dropFrom, hp]
  | f :: pre, log, h => by
    rw [List.cons_append, dropFrom, h f (by simp)]
    simp only [Bool.false_eq_true, if_false]
    rw [dropFrom_panic hp fun f hf => h f (by simp [hf])]
    simp

theorem Exit.ExitMem.clear_out {c : Cfg} (hc : c.Valid) {b : BState} {s : SState} (hr : WRel c b s) :
    ∃ b', bexec c b .popAll = (if (dropFrom c.vt s.stack s.log).1 || c.asserts then .unwound b' else .ret .unit b') ∧ b'.log = (dropFrom c.vt s.stack s.log).2 ∧ b'.live = [] := by
  obtain ⟨b', s', hr', _, _, hst, hcase⟩ := clear_rel hc hr b.alive
  have e1 : ({ b with open_ := [], alive := b.alive } : BState) = { b with open_ := [] } := rfl
  have e2 : ({ s with alive := b.alive } : SState) = s := by rw [hr.shows.alive]
  rw [e1, e2] at hcase
  refine ⟨b', ?_, ?_, by rw [hr'.shows.live, hst]; rfl⟩
  · rcases hcase with ⟨h1, h2⟩ | ⟨h1, h2⟩ <;> simp only [bexec, h1] <;> simp only [sclear] at h2 <;> split at h2 <;> rename_i hcond <;> first | (cases h2) | skip
    · rw [if_pos hcond]
    · rw [if_neg hcond]
  · rw [hr'.shows.log]
    rcases hcase with ⟨_, h2⟩ | ⟨_, h2⟩ <;> simp only [sclear] at h2 <;> split at h2 <;> cases h2 <;> rfl

/-- **C85** `pop_all` runs, if none unwinds, each pinned value's destructor once, the value pinned last first, on the bytes that are in memory when it is called, and leaves the stack empty. -/
theorem C85_pop_all {c : Cfg} (hc : c.Valid) {m : Mem} {ops : List BOp} {b : BState} (h : Reached c m ops b) (hassert : c.t.wordBytes < (c.vt.layout c.M).align → c.debug = false)
    (hcalm : ∀ q ∈ b.live, c.vt.panics q.vtable (bytesOf c b q) = false) :
    ∃ b', bexec c b .popAll = .ret .unit b' ∧ b'.live = [] ∧ b'.log = b.log ++ b.live.map fun q => (some q.addr, q.vtable, bytesOf c b q) := by
  obtain ⟨s, hr⟩ := h.rel hc
  obtain ⟨b', h1, h2, h3⟩ := clear_out hc hr
  have hby := hr.shows.stack.bytes
  have hd := dropFrom_calm (vt := c.vt) (es := s.stack) (log := s.log) fun e he => by
    rw [← hby e he]; exact hcalm _ (by rw [hr.shows.live]; exact List.mem_map.mpr ⟨e, he, rfl⟩)
  have has : c.asserts = false := by
    simp only [Cfg.asserts, Bool.and_eq_false_iff, decide_eq_false_iff_not]
    by_cases hlt : c.t.wordBytes < (c.vt.layout c.M).align
    · exact .inl (hassert hlt)
    · exact .inr hlt
  rw [hd, has] at h1
  rw [hd] at h2
  refine ⟨b', h1, h3, ?_⟩
  rw [h2, hr.shows.log, hr.shows.live, List.map_map]
  have : s.stack.map ((fun q : Handle => (some q.addr, q.vtable, bytesOf c b q)) ∘ (·.slot)) = s.stack.map fun e => (some e.slot.addr, e.slot.vtable, e.val) :=
    List.map_congr_left fun e he => by simp only [Function.comp, hby e he]
  rw [this]

/-- **C85** If a destructor unwinds, those before it and itself have been run, once each, and `pop_all` unwinds; the rest is lost (never dropped: the stack is empty after this). -/
theorem C85_pop_all_unwinds {c : Cfg} (hc : c.Valid) {m : Mem} {ops : List BOp} {b : BState} (h : Reached c m ops b) {pre post : List Handle} {q : Handle} (hsplit : b.live = pre ++ q :: post)
    (hcalm : ∀ p ∈ pre, c.vt.panics p.vtable (bytesOf c b p) = false) (hpanic : c.vt.panics q.vtable (bytesOf c b q) = true) :
    ∃ b', bexec c b .popAll = .unwound b' ∧ b'.live = [] ∧ b'.log = b.log ++ (pre ++ [q]).map fun q => (some q.addr, q.vtable, bytesOf c b q) := by
  obtain ⟨s, hr⟩ := h.rel hc
  obtain ⟨b', h1, h2, h3⟩ := clear_out hc hr
  have hby := hr.shows.stack.bytes
  have hl := hr.shows.live
  rw [hsplit] at hl
  obtain ⟨es, rest, hes, hpre, hrest⟩ := List.map_eq_append_iff.mp hl.symm
  obtain ⟨e, fs, rfl, he, hfs⟩ := List.map_eq_cons_iff.mp hrest
  have hd := dropFrom_panic (vt := c.vt) (e := e) (post := fs) (by rw [← hby e (by simp [hes]), he]; exact hpanic) (pre := es) (log := s.log) fun f hf => by
    rw [← hby f (by simp [hes, hf])]; exact hcalm _ (by rw [← hpre]; exact List.mem_map.mpr ⟨f, hf, rfl⟩)
  rw [← hes] at hd
  rw [hd] at h1 h2
  refine ⟨b', by simpa using h1, h3, ?_⟩
  have h4 : (pre ++ [q]).map (fun q : Handle => (some q.addr, q.vtable, bytesOf c b q)) = (es ++ [e]).map fun e => (some e.slot.addr, e.slot.vtable, e.val) := by
    have h5 : pre ++ [q] = (es ++ [e]).map (·.slot) := by simp [← hpre, ← he]
    rw [h5, List.map_map]
    refine List.map_congr_left fun f hf => ?_
    simp only [Function.comp]
    rw [hby f]
    rw [hes]
    rcases List.mem_append.mp hf with hf | hf
    · exact List.mem_append.mpr (.inl hf)
    · rw [List.mem_singleton] at hf; subst hf; simp
  rw [h2, hr.shows.log, h4]

namespace ExC85

/-- Type 0x40 is `Mem`; 0x41 has one byte, 0x42 is like `u32` and its destructor unwinds if the first byte is 9; destructors fill their value with 0xFF. -/
def vt : VTables where
  layout ty := if ty = 0x40 then ⟨96, 8⟩ else if ty = 0x41 then ⟨1, 1⟩ else if ty = 0x42 then ⟨4, 4⟩ else ⟨0, 1⟩
  dtor _ v := List.replicate v.length 0xFF
  panics ty v := decide (ty = 0x42) && decide (v.head? = some 9)

def cfg : Cfg := ⟨.w64, true, 4096, 0x40, 8192, vt⟩

theorem valid : cfg.Valid where
  conf :=
    { M := ⟨⟨⟨3, rfl⟩, by decide⟩, by decide⟩
      slot := ⟨⟨⟨3, rfl⟩, by decide⟩, by decide⟩
      bump := ⟨⟨⟨3, rfl⟩, by decide⟩, by decide⟩
      pos := by decide
      aligned := by decide
      no_wrap := by decide }
  M := by decide
  top := by decide
  dtor := fun ty v => by simp [cfg, vt]

def dirty : Mem := fun _ => 0xAB
def fill (n : Nat) : List Byte := List.replicate n 0xCD

/-- Three values are pinned, one is written to, then all are dropped; then two more, the upper one's destructor unwinds; `set` and drop. -/
def ops : List BOp := [
  .slot 0x41, .slot 0x42, .slot 0x41,
  .pin ⟨4128, 0x42⟩ [1, 2, 3, 4] (fill 24), .pin ⟨4104, 0x41⟩ [5] (fill 24), .pin ⟨4152, 0x41⟩ [6] (fill 24),
  .write ⟨4104, 0x41⟩ [7], .slot 0x40, .popAll,
  .slot 0x41, .pin ⟨4104, 0x41⟩ [8] (fill 24), .slot 0x42, .pin ⟨4128, 0x42⟩ [9, 9, 9, 9] (fill 24),
  .popAll, .slot 0x42, .pin ⟨4152, 0x42⟩ [3, 3, 3, 3] (fill 24), .popAll, .set (List.replicate 96 4) (fill 112), .drop]

def out (s : BState) (op : BOp) : BState :=
  match bexec cfg s op with
  | .ret _ s => s
  | .unwound s => s
  | _ => s

theorem safe_step {s : BState} {op : BOp} {ops : List BOp} (ha : op.Allowed cfg s) (hn : SafeRun cfg (out s op) ops) : SafeRun cfg s (op :: ops) := by
  refine ⟨ha, fun s' h => ?_⟩
  have : out s op = s' := by rcases h with h | ⟨r, h⟩ <;> simp only [out, h]
  rw [← this]; exact hn

theorem v41 : (vt.layout 0x41).ValidType .w64 ∧ (cfg.slotLayout 0x41).ValidType .w64 := ⟨⟨⟨⟨0, rfl⟩, by decide⟩, by decide⟩, ⟨⟨⟨3, rfl⟩, by decide⟩, by decide⟩⟩
theorem v42 : (vt.layout 0x42).ValidType .w64 ∧ (cfg.slotLayout 0x42).ValidType .w64 := ⟨⟨⟨⟨2, rfl⟩, by decide⟩, by decide⟩, ⟨⟨⟨3, rfl⟩, by decide⟩, by decide⟩⟩
theorem v40 : (vt.layout 0x40).ValidType .w64 ∧ (cfg.slotLayout 0x40).ValidType .w64 := ⟨⟨⟨⟨3, rfl⟩, by decide⟩, by decide⟩, ⟨⟨⟨3, rfl⟩, by decide⟩, by decide⟩⟩

/-- The program is one that is possible. -/
theorem safe : SafeRun cfg (.init cfg dirty) ops := by
  refine safe_step ⟨by decide +kernel, by decide, v41⟩ ?_
  refine safe_step ⟨by decide +kernel, by decide, v42⟩ ?_
  refine safe_step ⟨by decide +kernel, by decide, v41⟩ ?_
  refine safe_step ⟨by decide +kernel, by decide +kernel, by decide, by decide⟩ ?_
  refine safe_step ⟨by decide +kernel, by decide +kernel, by decide, by decide⟩ ?_
  refine safe_step ⟨by decide +kernel, by decide +kernel, by decide, by decide⟩ ?_
  refine safe_step ⟨by decide +kernel, by decide +kernel, by decide⟩ ?_
  refine safe_step ⟨by decide +kernel, by decide, v40⟩ ?_
  refine safe_step (show BState.alive _ = true by decide +kernel) ?_
  refine safe_step ⟨by decide +kernel, by decide, v41⟩ ?_
  refine safe_step ⟨by decide +kernel, by decide +kernel, by decide, by decide⟩ ?_
  refine safe_step ⟨by decide +kernel, by decide, v42⟩ ?_
  refine safe_step ⟨by decide +kernel, by decide +kernel, by decide, by decide⟩ ?_
  refine safe_step (show BState.alive _ = true by decide +kernel) ?_
  refine safe_step ⟨by decide +kernel, by decide, v42⟩ ?_
  refine safe_step ⟨by decide +kernel, by decide +kernel, by decide, by decide⟩ ?_
  refine safe_step (show BState.alive _ = true by decide +kernel) ?_
  refine safe_step ⟨by decide +kernel, by decide, by decide⟩ ?_
  exact safe_step (show BState.alive _ = true by decide +kernel) trivial

/-- The answers and the log, computed on the bytes. -/
example : (match brun cfg (.init cfg dirty) ops with | some (rs, some b) => some (rs, b.log) | _ => none) =
    some ([.ret (.addr 4104), .ret (.addr 4128), .ret (.addr 4152), .ret (.addr 4144), .ret (.addr 4120), .ret (.addr 4168), .ret .unit, .ret .none, .ret .unit,
        .ret (.addr 4104), .ret (.addr 4120), .ret (.addr 4128), .ret (.addr 4144), .unwound, .ret (.addr 4152), .ret (.addr 4168), .ret .unit, .ret (.addr 4120), .ret .unit],
      [(some 4152, 0x41, [6]), (some 4104, 0x41, [7]), (some 4128, 0x42, [1, 2, 3, 4]), (some 4128, 0x42, [9, 9, 9, 9]), (some 4152, 0x42, [3, 3, 3, 3]), (some 4104, 0x40, List.replicate 96 4)]) := by
  decide +kernel
end ExC85

end Verif
