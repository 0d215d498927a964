import Verif.Spec.ExitMove
import Verif.Proofs.ExitMem
import Verif.Props.ExitMem
/-! # C106: an exit stack that is moved -/
namespace Verif
open Exit.ExitMem Exit Unsync

/-- Moving a stack without values. -/
theorem Exit.ExitMem.move_rel {c : Cfg} (hc : c.Valid) {b : BState} {s : SState} (hr : WRel c b s) (hst : s.stack = []) {dst : Nat} (hto : c.addr ≤ dst + c.topAddr) (others : Mem) :
    WRel (c.movedTo dst) { b with mem := c.moveBytes dst b.mem others, live := [], open_ := [] } { s with open_ := [] } := by
  have hsz := memory_size hc
  have hpos := c.t.wordBytes_pos
  have htop : (c.movedTo dst).topAddr = dst + c.topAddr - c.addr := rfl
  have e1 : readBytes (c.moveBytes dst b.mem others) dst c.t.wordBytes = readBytes b.mem c.addr c.t.wordBytes := by
    unfold readBytes
    refine List.map_congr_left fun i hi => ?_
    have hi := List.mem_range.1 hi
    show c.moveBytes dst b.mem others (dst + i) = b.mem (c.addr + i)
    unfold Cfg.moveBytes
    rw [if_pos (Or.inl (by omega))]
    congr 1; omega
  have e2 : readBytes (c.moveBytes dst b.mem others) (c.movedTo dst).topAddr c.t.wordBytes = readBytes b.mem c.topAddr c.t.wordBytes := by
    unfold readBytes
    refine List.map_congr_left fun i hi => ?_
    have hi := List.mem_range.1 hi
    show c.moveBytes dst b.mem others ((c.movedTo dst).topAddr + i) = b.mem (c.topAddr + i)
    unfold Cfg.moveBytes
    rw [if_pos (Or.inr (by omega)), htop]
    congr 1; omega
  have e3 : loadHandle c.t b.mem c.topAddr = none := by
    have := hr.shows.stack
    rw [hst] at this
    cases h : loadHandle c.t b.mem c.topAddr with
    | none => rfl
    | some q => rw [h] at this; exact absurd this id
  have e4 : loadUsize c.t b.mem c.topAddr = 0 := by
    unfold loadHandle at e3
    by_cases h : loadUsize c.t b.mem c.topAddr = 0
    · exact h
    · rw [if_neg h] at e3; cases e3
  have hsl : ({ s with open_ := [] } : SState).slots = [] := by
    show s.stack.map (·.slot) ++ [] = []
    rw [hst]; rfl
  refine ⟨⟨?_, ?_, ?_, rfl, hr.shows.log, hr.shows.alive⟩, hr.level_le, ?_, ?_, ?_, ?_⟩
  · show Found _ _ (loadHandle c.t (c.moveBytes dst b.mem others) (c.movedTo dst).topAddr) s.stack
    have : loadHandle c.t (c.moveBytes dst b.mem others) (c.movedTo dst).topAddr = none := by
      unfold loadHandle
      rw [if_pos]
      unfold loadUsize at e4 ⊢
      rw [e2, e4]
    rw [this, hst]; trivial
  · show loadUsize c.t (c.moveBytes dst b.mem others) dst = s.level
    rw [← hr.shows.level]
    unfold loadUsize
    rw [e1]
  · show [] = s.stack.map (·.slot)
    rw [hst]; rfl
  · intro h hh; rw [hsl] at hh; cases hh
  · intro h hh; rw [hsl] at hh; cases hh
  · rw [hsl]; exact List.Pairwise.nil
  · show s.stack.length ≤ _
    rw [hst]; exact Nat.zero_le _

/-- The invariant. -/
structure Exit.ExitMem.MRel (x : MState) (c : Cfg) (s : SState) : Prop where
  at_ : x.c = c
  valid : c.Valid
  rel : WRel c x.b s
  fresh : x.used = false → s.stack = [] ∧ s.open_ = []

theorem Exit.ExitMem.sclear_empty {c : Cfg} {s s' : SState} (h : sclear c s = .unwound s' ∨ ∃ r, sclear c s = .ret r s') : s'.stack = [] ∧ s'.open_ = [] := by
  unfold sclear at h
  split at h
  rename_i p log e
  split at h <;> (rcases h with h | ⟨r, h⟩ <;> cases h <;> exact ⟨rfl, rfl⟩)

theorem Exit.ExitMem.fresh_exec {c : Cfg} {b : BState} {s s' : SState} (hr : WRel c b s) {o : BOp} (ha : o.Allowed c b) (hp : o.takesPin = false) (h : s.stack = [] ∧ s.open_ = [])
    (he : sexec c s o = .unwound s' ∨ ∃ r, sexec c s o = .ret r s') : s'.stack = [] ∧ s'.open_ = [] := by
  cases o with
  | slot | set | popAll => cases hp
  | pin q v f =>
    have := ha.2.1
    rw [hr.shows.open_, h.2] at this; cases this
  | write q v =>
    have := ha.2.1
    rw [hr.shows.live, h.1] at this; cases this
  | drop =>
    refine sclear_empty (c := c) (s := { s with alive := false }) ?_
    simp only [sexec] at he
    cases e : sclear c { s with alive := false } with
    | ret r s1 => rw [e] at he; rcases he with he | ⟨r, he⟩ <;> cases he; exact Or.inr ⟨_, rfl⟩
    | unwound s1 => rw [e] at he; rcases he with he | ⟨r, he⟩ <;> cases he; exact Or.inl rfl
    | abort => rw [e] at he; rcases he with he | ⟨r, he⟩ <;> cases he

theorem Exit.ExitMem.mrun_rel {may : MState → Prop} (hmay : ∀ s, may s → s.used = false ∨ s.b.live = []) : ∀ (ops : List MOp) {x : MState} {c : Cfg} {s : SState}, MRel x c s → MSafeRun may x ops →
    ∃ fin, mrun x ops = some ((smrun c s ops).1, fin) ∧ (fin = none ↔ (smrun c s ops).2 = none) ∧ ∀ x' c' s', fin = some x' → (smrun c s ops).2 = some (c', s') → MRel x' c' s'
  | [], x, c, s, hr, _ => ⟨some x, rfl, by simp [smrun], fun x' c' s' h1 h2 => by cases h1; cases h2; exact hr⟩
  | .move dst others :: ops, x, c, s, hr, ⟨⟨_, hto, hv, hm⟩, hrest⟩ => by
    obtain ⟨rfl, hc, hw, hf⟩ := hr
    have hst : s.stack = [] := by
      rcases hmay x hm with h | h
      · exact (hf h).1
      · rw [hw.shows.live] at h; exact List.map_eq_nil_iff.1 h
    have hr' : MRel { x with c := x.c.movedTo dst, b := { x.b with mem := x.c.moveBytes dst x.b.mem others, live := [], open_ := [] } } (x.c.movedTo dst) { s with open_ := [] } :=
      ⟨rfl, hv, move_rel hc hw hst hto others, fun _ => ⟨hst, rfl⟩⟩
    obtain ⟨fin, k1, k2, k3⟩ := mrun_rel hmay ops hr' (hrest _ (.inr ⟨_, rfl⟩))
    exact ⟨fin, by simp only [mrun, mexec, smrun, k1, Option.map_some], k2, k3⟩
  | .op o :: ops, x, c, s, hr, ⟨ha, hrest⟩ => by
    obtain ⟨rfl, hc, hw, hf⟩ := hr
    have h := exec_rel hc hw ha
    have hfr : ∀ s', (sexec x.c s o = .unwound s' ∨ ∃ r, sexec x.c s o = .ret r s') → (x.used || o.takesPin) = false → s'.stack = [] ∧ s'.open_ = [] := by
      intro s' he hu
      rw [Bool.or_eq_false_iff] at hu
      exact fresh_exec hw ha hu.2 (hf hu.1) he
    simp only [mrun, smrun, mexec]
    simp only [mexec] at hrest
    cases hb : bexec x.c x.b o with
    | ub => rw [hb] at h; cases hs : sexec x.c s o <;> rw [hs] at h <;> exact absurd h id
    | abort =>
      rw [hb] at h
      cases hs : sexec x.c s o with
      | abort => exact ⟨none, rfl, by simp, fun x' c' s' h1 => by cases h1⟩
      | ret _ _ => rw [hs] at h; exact absurd h id
      | unwound _ => rw [hs] at h; exact absurd h id
    | ret r b1 =>
      rw [hb] at h
      cases hs : sexec x.c s o with
      | abort => rw [hs] at h; exact absurd h id
      | unwound _ => rw [hs] at h; exact absurd h id
      | ret r' s1 =>
        rw [hs] at h hfr
        obtain ⟨rfl, h⟩ := h
        obtain ⟨fin, k1, k2, k3⟩ := mrun_rel hmay ops (x := { x with b := b1, used := x.used || o.takesPin }) ⟨rfl, hc, h, hfr s1 (.inr ⟨r, rfl⟩)⟩
          (hrest _ (.inr ⟨r, by rw [hb]⟩))
        exact ⟨fin, by simp only [k1, Option.map_some], k2, k3⟩
    | unwound b1 =>
      rw [hb] at h
      cases hs : sexec x.c s o with
      | abort => rw [hs] at h; exact absurd h id
      | ret _ _ => rw [hs] at h; exact absurd h id
      | unwound s1 =>
        rw [hs] at h hfr
        obtain ⟨fin, k1, k2, k3⟩ := mrun_rel hmay ops (x := { x with b := b1, used := x.used || o.takesPin }) ⟨rfl, hc, h, hfr s1 (.inl rfl)⟩
          (hrest _ (.inl (by rw [hb])))
        exact ⟨fin, by simp only [k1, Option.map_some], k2, k3⟩

theorem Exit.ExitMem.init_mrel {c : Cfg} (hc : c.Valid) (m : Mem) : MRel (.init c m) c ⟨0, [], [], [], true⟩ := ⟨rfl, hc, init_rel hc m, fun _ => ⟨rfl, rfl⟩⟩

/-- **C106** If `Mem` is not `Unpin`: programs that also move the stack, where the language permits it, are not undefined behaviour; each call gives the answer that it would give if the stack were a list of values, which moving does not
change, and whoever follows the pointers in the bytes finds this list; the destructors that ran, with places and values, are those of the list. -/
theorem C106_not_unpin_partial {c : Cfg} (hc : c.Valid) (m : Mem) (ops : List MOp) (hs : MSafeRun MayNotUnpin (.init c m) ops) :
    ∃ fin, mrun (.init c m) ops = some ((smrun c ⟨0, [], [], [], true⟩ ops).1, fin) ∧ (fin = none ↔ (smrun c ⟨0, [], [], [], true⟩ ops).2 = none) ∧
      ∀ x c' s, fin = some x → (smrun c ⟨0, [], [], [], true⟩ ops).2 = some (c', s) → x.c = c' ∧ Shows c' x.b s := by
  obtain ⟨fin, h1, h2, h3⟩ := mrun_rel (fun _ h => .inl h) ops (init_mrel hc m) hs
  exact ⟨fin, h1, h2, fun x c' s hx hs' => ⟨(h3 x c' s hx hs').at_, (h3 x c' s hx hs').rel.shows⟩⟩

/-- **C106** If `Mem` is `Unpin`, the same is true of programs that do not move the stack as long as a value is pinned: for example, which call `pop_all` before. -/
theorem C106_empty_partial {c : Cfg} (hc : c.Valid) (m : Mem) (ops : List MOp) (hs : MSafeRun MayEmpty (.init c m) ops) :
    ∃ fin, mrun (.init c m) ops = some ((smrun c ⟨0, [], [], [], true⟩ ops).1, fin) ∧ (fin = none ↔ (smrun c ⟨0, [], [], [], true⟩ ops).2 = none) ∧
      ∀ x c' s, fin = some x → (smrun c ⟨0, [], [], [], true⟩ ops).2 = some (c', s) → x.c = c' ∧ Shows c' x.b s := by
  obtain ⟨fin, h1, h2, h3⟩ := mrun_rel (fun _ h => .inr h) ops (init_mrel hc m) hs
  exact ⟨fin, h1, h2, fun x c' s hx hs' => ⟨(h3 x c' s hx hs').at_, (h3 x c' s hx hs').rel.shows⟩⟩

theorem Exit.ExitMem.MReached.rel {may : MState → Prop} (hmay : ∀ s, may s → s.used = false ∨ s.b.live = []) {c : Cfg} (hc : c.Valid) {m : Mem} {ops : List MOp} {x : MState} (h : MReached may c m ops x) :
    ∃ c' s, MRel x c' s := by
  obtain ⟨hs, rs, hb⟩ := h
  obtain ⟨fin, h1, h2, h3⟩ := mrun_rel hmay ops (init_mrel hc m) hs
  rw [h1] at hb
  simp only [Option.some.injEq, Prod.mk.injEq] at hb
  obtain ⟨_, rfl⟩ := hb
  cases hs' : (smrun c ⟨0, [], [], [], true⟩ ops).2 with
  | none => exact absurd (h2.mpr hs') (by simp)
  | some q => exact ⟨q.1, q.2, h3 x q.1 q.2 rfl hs'⟩

/-- **C106** If `Mem` is not `Unpin`, the language does not permit to move the stack while a value is pinned, or a slot is open: pinned values are never moved. -/
theorem C106_never_moved_partial {c : Cfg} (hc : c.Valid) {m : Mem} {ops : List MOp} {x : MState} (h : MReached MayNotUnpin c m ops x) {q : Handle} (hq : q ∈ x.b.live ∨ q ∈ x.b.open_) (dst : Nat) (others : Mem) :
    ¬ MOp.Allowed MayNotUnpin x (.move dst others) := by
  intro ⟨_, _, _, hu⟩
  obtain ⟨c', s, hr⟩ := h.rel (fun _ h => .inl h) hc
  obtain ⟨h1, h2⟩ := hr.fresh hu
  rcases hq with hq | hq
  · rw [hr.rel.shows.live, h1] at hq; cases hq
  · rw [hr.rel.shows.open_, h2] at hq; cases hq

/-- **C106** An answer of `pin` or `set` is an address inside of the stack where it is then, and all pinned values are there, after every program. -/
theorem C106_inside_partial {may : MState → Prop} (hmay : may = MayNotUnpin ∨ may = MayEmpty) {c : Cfg} (hc : c.Valid) {m : Mem} {ops : List MOp} {x : MState} (h : MReached may c m ops x) {q : Handle} (hq : q ∈ x.b.live) :
    ∀ i, x.c.valueAddr q ≤ i → i < x.c.valueAddr q + x.c.valueSize q.vtable → x.c.Own i := by
  obtain ⟨c', s, hr⟩ := h.rel (by rcases hmay with rfl | rfl; exacts [fun _ h => .inl h, fun _ h => .inr h]) hc
  obtain ⟨rfl, hv, hw, _⟩ := hr
  intro i h1 h2
  rw [hw.shows.live] at hq
  have hs : q ∈ s.slots := List.mem_append.mpr (.inl hq)
  have k := hw.inside q hs
  have k' := value_in q (hw.ok q hs).1
  have hl := hw.level_le
  simp only [Cfg.region] at k k'
  exact .inl ⟨by show x.c.addr ≤ i; omega, by show i < x.c.addr + (x.c.t.wordBytes + _); omega⟩

namespace ExC106
open ExC85

/-- A stack with 96 bytes (`[u64; 12]`, which is `Unpin`): a value is pinned, the stack is moved. -/
def ops : List MOp := [.op (.slot 0x41), .op (.pin ⟨4104, 0x41⟩ [5] (fill 24)), .move 16384 dirty]

def out (s : MState) (op : MOp) : MState :=
  match mexec s op with
  | .ret _ s => s
  | .unwound s => s
  | _ => s

theorem safe_step {may : MState → Prop} {s : MState} {op : MOp} {ops : List MOp} (ha : op.Allowed may s) (hn : MSafeRun may (out s op) ops) : MSafeRun may s (op :: ops) := by
  refine ⟨ha, fun s' h => ?_⟩
  have : out s op = s' := by rcases h with h | ⟨r, h⟩ <;> simp only [out, h]
  rw [← this]; exact hn

def s1 : MState := out (.init cfg dirty) (.op (.slot 0x41))
def s2 : MState := out s1 (.op (.pin ⟨4104, 0x41⟩ [5] (fill 24)))
def s3 : MState := out s2 (.move 16384 dirty)

theorem valid_moved (dst : Nat) (h0 : 0 < dst) (h1 : 8 ∣ dst) (h2 : dst + 112 + 8 ≤ Target.w64.W) : (cfg.movedTo dst).Valid where
  conf :=
    { M := valid.conf.M
      slot := valid.conf.slot
      bump := valid.conf.bump
      pos := h0
      aligned := h1
      no_wrap := by
        show dst + (cfg.conf.memory.layout Target.w64).size ≤ Target.w64.W
        have : (cfg.conf.memory.layout Target.w64).size = 120 := by decide +kernel
        omega }
  M := valid.M
  top := by
    refine .inr ?_
    show dst + (cfg.conf.memory.layout Target.w64).size ≤ dst + 8192 - 4096
    have : (cfg.conf.memory.layout Target.w64).size = 120 := by decide +kernel
    omega
  dtor := valid.dtor

end ExC106

open ExC85 ExC106 in
/-- **C106** is violated if `Mem` is `Unpin`, as arrays of integers are: a value is pinned, its borrow ends, the stack is moved, which needs no `unsafe`. Now the pointer in the stack is one to the old place, which is not
in the stack any more. Dropping the stack follows it: undefined behaviour. -/
theorem C106_violated_move_of_unpin : ∃ (c : Cfg) (m : Mem) (ops : List MOp) (s : MState) (q : Handle), c.Valid ∧ MReached MayUnpin c m ops s ∧ loadHandle s.c.t s.b.mem s.c.topAddr = some q ∧ ¬ s.c.Own q.addr ∧
    MOp.Allowed MayUnpin s (.op .drop) ∧ mrun s [.op .drop] = none ∧ mrun s [.op .popAll] = none := by
  refine ⟨cfg, dirty, ExC106.ops, s3, ⟨4104, 0x41⟩, valid, ⟨?_, ?_⟩, by decide +kernel, ?_, (show BState.alive _ = true by decide +kernel), ?_, ?_⟩
  · refine ExC106.safe_step ⟨by decide +kernel, by decide, v41⟩ ?_
    refine ExC106.safe_step ⟨by decide +kernel, by decide +kernel, by decide, by decide⟩ ?_
    refine ExC106.safe_step ⟨by decide +kernel, by decide +kernel, ?_, trivial⟩ trivial
    exact valid_moved 16384 (by decide) (by decide) (by decide +kernel)
  · exact ⟨[.ret (.addr 4104), .ret (.addr 4120), .ret .unit], rfl⟩
  · rintro (h | h)
    · have h1 : 16384 ≤ 4104 := h.1
      exact absurd h1 (by decide)
    · have h1 : 16384 + 8192 - 4096 ≤ 4104 := h.1
      exact absurd h1 (by decide)
  · exact Option.isNone_iff_eq_none.1 (by decide +kernel)
  · exact Option.isNone_iff_eq_none.1 (by decide +kernel)

end Verif
