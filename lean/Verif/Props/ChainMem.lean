import Verif.Proofs.ChainMem
/-! # C84: chains in the bytes of memory -/
namespace Verif
open Unsync Unsync.ChainMem

/-- **C84** Let a program allocate chains, allocate values in them, write anything to the values and to memory that belongs to no link, join and drop chains, in any order. No step is undefined behaviour (no pointer read from the
memory is used that is not of an allocated link, nothing is freed twice or with a wrong layout, whatever freed memory contains), every call gives the answer that it would give if chains were lists of slabs, and whoever follows the
pointers in the bytes of the memory finds exactly these slabs with their levels; nothing else is allocated. -/
theorem C84_refines (c : Cfg) (m : Mem) (ops : List BOp) (hs : SafeRun c (.init m) ops) :
    ∃ b, brun c (.init m) ops = .ret ((srun c.t (fun _ => none) ops).1, b) ∧ Shows c b (srun c.t (fun _ => none) ops).2 := by
  obtain ⟨b, h1, h2⟩ := (Sim.init c m).run ops hs
  exact ⟨b, h1, h2.shows⟩

theorem Unsync.ChainMem.sim_of_run {c : Cfg} {m : Mem} {ops : List BOp} (hs : SafeRun c (.init m) ops) {rs : List CRet} {b : BState}
    (hx : brun c (.init m) ops = .ret (rs, b)) : ∃ σ, Sim c b σ := by
  obtain ⟨b', h1, h2⟩ := (Sim.init c m).run ops hs
  rw [h1] at hx
  cases hx
  exact ⟨_, h2⟩

/-- **C84** After every program: no allocation was freed twice, and each allocation so far was freed or is allocated, not both. -/
theorem C84_freed_once {c : Cfg} {m : Mem} {ops : List BOp} (hs : SafeRun c (.init m) ops) {rs : List CRet} {b : BState} (hx : brun c (.init m) ops = .ret (rs, b)) :
    b.heap.freed.Nodup ∧ (∀ k, k < b.serials ↔ (k ∈ b.heap.freed ∨ ∃ a L, b.heap.block a = some (L, k))) ∧ ∀ a L k, b.heap.block a = some (L, k) → k ∉ b.heap.freed := by
  obtain ⟨σ, s, P, hre, hi, hr, _⟩ := sim_of_run hs hx
  obtain ⟨h1, h2, h3, _, _⟩ := C30_freed_once hre
  have hb : ∀ a L k, b.heap.block a = some (L, k) ↔ ∃ rec, s.heap.link a = some rec ∧ rec.layout = L ∧ rec.serial = k := by
    intro a L k
    rw [hr.heap.same, Option.map_eq_some_iff]
    simp only [Prod.mk.injEq]
  rw [hr.heap.freed, hr.serials]
  refine ⟨h1, fun k => ?_, fun a L k hk => ?_⟩
  · rw [h2 k]
    constructor
    · rintro (h | ⟨a, rec, h3, h4⟩)
      · exact .inl h
      · exact .inr ⟨a, rec.layout, (hb _ _ _).mpr ⟨rec, h3, rfl, h4⟩⟩
    · rintro (h | ⟨a, L, h3⟩)
      · exact .inl h
      · obtain ⟨rec, k1, _, k2⟩ := (hb _ _ _).mp h3
        exact .inr ⟨a, rec, k1, k2⟩
  · obtain ⟨rec, k1, _, rfl⟩ := (hb _ _ _).mp hk
    exact h3 a rec k1

/-- **C84** When all chains are dropped or moved into one that is dropped, everything that was allocated has been freed, once. -/
theorem C84_no_leak {c : Cfg} {m : Mem} {ops : List BOp} (hs : SafeRun c (.init m) ops) {rs : List CRet} {b : BState} (hx : brun c (.init m) ops = .ret (rs, b))
    (hnone : ∀ h, b.roots h = none) : b.heap.freed.Perm (List.range b.serials) ∧ ∀ a, b.heap.block a = none := by
  obtain ⟨σ, s, P, hre, hi, hr, _⟩ := sim_of_run hs hx
  obtain ⟨h1, h2⟩ := C30_no_leak hre (fun h => by rw [← hr.roots]; exact hnone h)
  rw [hr.heap.freed, hr.serials]
  exact ⟨h1, fun a => by rw [hr.heap.same, h2 a]; rfl⟩

/-- **C84** After every program: the borrowed blocks are aligned and do not overlap, each lies in the memory of an allocated link, behind its pointer and counter (three words), and so is apart from the pointers and counters of all links. -/
theorem C84_blocks {c : Cfg} {m : Mem} {ops : List BOp} (hs : SafeRun c (.init m) ops) {rs : List CRet} {b : BState} (hx : brun c (.init m) ops = .ret (rs, b)) :
    (b.granted.map fun g => g.2.region).Pairwise Region.Disjoint ∧
    ∀ h blk, (h, blk) ∈ b.granted → blk.layout.align ∣ blk.ptr ∧
      (∃ a L n, b.heap.block a = some (L, n) ∧ blk.region.Within ⟨a + 3 * c.t.wordBytes, L.size - 3 * c.t.wordBytes⟩) ∧
      ∀ a L n, b.heap.block a = some (L, n) → blk.region.Disjoint ⟨a, 3 * c.t.wordBytes⟩ := by
  obtain ⟨σ, s, P, hre, hi, hr, _⟩ := sim_of_run hs hx
  rw [hr.granted]
  refine ⟨hi.gdisj, fun h blk hg => ?_⟩
  obtain ⟨p, hp, k1, k2, _, k4⟩ := hi.grants _ hg
  obtain ⟨rec, hl, hlay⟩ := hi.alloc hp
  have hcap := (hi.cap _ p hp).2
  have hbs := p.block_size c.t
  simp only [LPtr.block, ← hlay] at hbs
  simp only [LPtr.data] at k1 k2
  refine ⟨k4, ⟨p.addr, rec.layout, rec.serial, hr.heap.block hl, ?_, ?_⟩, ?_⟩
  · show p.addr + 3 * c.t.wordBytes ≤ blk.ptr; exact k1
  · show blk.ptr + blk.layout.size ≤ p.addr + 3 * c.t.wordBytes + (rec.layout.size - 3 * c.t.wordBytes); omega
  · intro a L n ha x ⟨x1, x2⟩
    have x3 : blk.ptr ≤ x := x1.1
    have x4 : x < blk.ptr + blk.layout.size := x1.2
    have x5 : a ≤ x := x2.1
    have x6 : x < a + 3 * c.t.wordBytes := x2.2
    rw [hr.heap.same] at ha
    obtain ⟨rec', hl', he⟩ := Option.map_eq_some_iff.mp ha
    cases he
    by_cases hpa : p.addr = a
    · omega
    · obtain ⟨d, q, hq, rfl⟩ := hi.covered a rec' hl'
      obtain ⟨rec2, hl2, hlay2⟩ := hi.alloc hq
      have hbs2 := q.block_size c.t
      rw [hl'] at hl2
      cases hl2
      simp only [LPtr.block, ← hlay2] at hbs2
      exact hi.linkdisj _ _ _ _ hl hl' hpa x ⟨⟨by show p.addr ≤ x; omega, by show x < p.addr + rec.layout.size; omega⟩, ⟨x5, by show x < q.addr + rec'.layout.size; omega⟩⟩

/-- **C84** Whatever step comes next, the bytes of a borrowed block stay as they are, unless its own chain is dropped or moved or the step is a write to this block. -/
theorem C84_values_kept {c : Cfg} {m : Mem} {ops : List BOp} (hs : SafeRun c (.init m) ops) {rs : List CRet} {b : BState} (hx : brun c (.init m) ops = .ret (rs, b))
    {op : BOp} (ha : op.Allowed c b) {r : CRet} {b' : BState} (hop : bexec c b op = .ret (r, b')) {h : Nat} {blk : Block} (hb : (h, blk) ∈ b.granted)
    (hends : ∀ o, op = .call o → ¬ o.Ends h) :
    (h, blk) ∈ b'.granted ∧ ((∀ h' off bytes, op ≠ .call (.write h' blk off bytes)) → ∀ x, blk.region.Has x → b'.heap.mem x = b.heap.mem x) := by
  obtain ⟨σ, s, P, hre, hi, hr, _⟩ := sim_of_run hs hx
  have hbs : (h, blk) ∈ s.granted := by rw [← hr.granted]; exact hb
  -- a borrowed block is in the part of a link that is the same in both models
  have hin : ∀ {b : BState} {s : CState} {P : Nat → List LPtr}, Rel c b s → CInv c.t s P → (h, blk) ∈ s.granted → ∀ x, blk.region.Has x → b.heap.mem x = s.mem x := by
    intro b s P hr hi hbs x hx
    obtain ⟨p, hp, k1, k2, _, _⟩ := hi.grants _ hbs
    obtain ⟨rec, hl, hlay⟩ := hi.alloc hp
    have hcap := (hi.cap _ p hp).2
    have hz := p.block_size c.t
    simp only [LPtr.block, ← hlay] at hz
    simp only [LPtr.data] at k1 k2
    have x3 : blk.ptr ≤ x := hx.1
    have x4 : x < blk.ptr + blk.layout.size := hx.2
    exact hr.heap.bytes _ _ hl x (by omega) (by omega)
  cases op with
  | elsewhere a bytes =>
    cases hop
    refine ⟨hb, fun _ x hx => ?_⟩
    have := elsewhere_rel hr ha
    rw [hin this hi hbs x hx, hin hr hi hbs x hx]
  | call op =>
    have ha' := allowed_rel hr ha
    obtain ⟨r1, s', P', h1, hi', _⟩ := cexec_inv hi ha'
    obtain ⟨b1, h2, hr'⟩ := call_rel hr hi ha' h1
    rw [h2] at hop
    have hop' := congrArg Prod.snd (Outcome.ret.inj hop)
    simp only at hop'
    subst hop'
    obtain ⟨k1, k2⟩ := C31_blocks_kept hre ha' h1 hbs (hends op rfl)
    refine ⟨by rw [hr'.granted]; exact k1, fun hw x hx => ?_⟩
    rw [hin hr' hi' k1 x hx, hin hr hi hbs x hx]
    exact k2 (fun c' off bytes he => hw c' off bytes (by rw [he])) x hx

/-! ### Example: values of all ones next to the pointers -/
namespace ExC84
def cfg : Cfg := ⟨.w64, 0xDEADBEEF, fun _ => 0xDD⟩
def ones (n : Nat) : List Byte := List.replicate n 0xFF
def ops : List BOp :=
  [.call (.new 0 16 (some 4096)), .call (.new 1 8 (some 8192)), .call (.new 2 32 (some 12288)), .call (.bumpBox 0 ⟨16, 8⟩), .call (.write 0 ⟨4120, ⟨16, 8⟩⟩ 0 (ones 16)), .call (.bumpBox 0 ⟨1, 1⟩),
   .elsewhere 4136 (ones 100), .call (.chain 0 1), .call (.bumpBox 0 ⟨4, 4⟩), .call (.write 0 ⟨8216, ⟨4, 4⟩⟩ 1 (ones 3)), .call (.chain 2 0), .call (.remaining 2), .call (.bumpBox 2 ⟨0, 1⟩), .call (.capacity 2), .call (.drop 2)]
def step (s : BState) (op : BOp) : BState := match bexec cfg s op with | .ret (_, s') => s' | _ => s
def s0 : BState := .init fun _ => 0xAA
def s1 : BState := step s0 (.call (.new 0 16 (some 4096)))
def s2 : BState := step s1 (.call (.new 1 8 (some 8192)))
def s3 : BState := step s2 (.call (.new 2 32 (some 12288)))

theorem safe_step {s : BState} {op : BOp} {ops : List BOp} (ha : op.Allowed cfg s) (hn : SafeRun cfg (step s op) ops) : SafeRun cfg s (op :: ops) := by
  refine ⟨ha, fun r s' h => ?_⟩
  have : step s op = s' := by simp only [step, h]
  rw [← this]; exact hn

/-- The program is one that is possible. -/
theorem safe : SafeRun cfg s0 ops := by
  refine safe_step ⟨rfl, by decide, ?_⟩ ?_
  · intro a L he hL
    cases he; cases hL
    exact ⟨by decide, by decide, by decide, fun a' L' n h => by cases h⟩
  refine safe_step ⟨rfl, by decide, ?_⟩ ?_
  · intro a L he hL
    cases he; cases hL
    refine ⟨by decide, by decide, by decide, fun a' L' n h => ?_⟩
    have h : (if a' = 4096 then some ((⟨40, 8⟩ : Layout), 0) else none) = some (L', n) := h
    by_cases ha : a' = 4096
    · rw [if_pos ha] at h; cases h; subst ha
      intro x ⟨x1, x2⟩
      simp only [Region.Has] at x1 x2; omega
    · rw [if_neg ha] at h; cases h
  refine safe_step ⟨rfl, by decide, ?_⟩ ?_
  · intro a L he hL
    cases he; cases hL
    refine ⟨by decide, by decide, by decide, fun a' L' n h => ?_⟩
    have h : (if a' = 8192 then some ((⟨32, 8⟩ : Layout), 1) else if a' = 4096 then some ((⟨40, 8⟩ : Layout), 0) else none) = some (L', n) := h
    by_cases ha : a' = 8192
    · rw [if_pos ha] at h; cases h; subst ha
      intro x ⟨x1, x2⟩
      simp only [Region.Has] at x1 x2; omega
    · rw [if_neg ha] at h
      by_cases ha : a' = 4096
      · rw [if_pos ha] at h; cases h; subst ha
        intro x ⟨x1, x2⟩
        simp only [Region.Has] at x1 x2; omega
      · rw [if_neg ha] at h; cases h
  have v16 : (⟨16, 8⟩ : Layout).ValidType .w64 := ⟨⟨⟨3, rfl⟩, by decide⟩, by decide⟩
  have v1 : (⟨1, 1⟩ : Layout).ValidType .w64 := ⟨⟨⟨0, rfl⟩, by decide⟩, by decide⟩
  have v4 : (⟨4, 4⟩ : Layout).ValidType .w64 := ⟨⟨⟨2, rfl⟩, by decide⟩, by decide⟩
  have v0 : (⟨0, 1⟩ : Layout).ValidType .w64 := ⟨⟨⟨0, rfl⟩, by decide⟩, by decide⟩
  refine safe_step ⟨by decide +kernel, v16⟩ ?_
  refine safe_step ⟨by decide +kernel, by decide⟩ ?_
  refine safe_step ⟨by decide +kernel, v1⟩ ?_
  refine safe_step ?_ ?_
  · intro a' L' n h
    have h : (if a' = 12288 then some ((⟨56, 8⟩ : Layout), 2) else if a' = 8192 then some ((⟨32, 8⟩ : Layout), 1) else if a' = 4096 then some ((⟨40, 8⟩ : Layout), 0) else none) = some (L', n) := h
    by_cases ha : a' = 12288
    · rw [if_pos ha] at h; cases h; subst ha
      intro x ⟨x1, x2⟩
      simp only [Region.Has, ones, List.length_replicate] at x1 x2; omega
    · rw [if_neg ha] at h
      by_cases ha : a' = 8192
      · rw [if_pos ha] at h; cases h; subst ha
        intro x ⟨x1, x2⟩
        simp only [Region.Has, ones, List.length_replicate] at x1 x2; omega
      · rw [if_neg ha] at h
        by_cases ha : a' = 4096
        · rw [if_pos ha] at h; cases h; subst ha
          intro x ⟨x1, x2⟩
          simp only [Region.Has, ones, List.length_replicate] at x1 x2; omega
        · rw [if_neg ha] at h; cases h
  refine safe_step ⟨by decide +kernel, by decide +kernel, by decide⟩ ?_
  refine safe_step ⟨by decide +kernel, v4⟩ ?_
  refine safe_step ⟨by decide +kernel, by decide⟩ ?_
  refine safe_step ⟨by decide +kernel, by decide +kernel, by decide⟩ ?_
  refine safe_step (show BState.roots _ _ ≠ none by decide +kernel) ?_
  refine safe_step ⟨by decide +kernel, v0⟩ ?_
  refine safe_step (show BState.roots _ _ ≠ none by decide +kernel) ?_
  exact safe_step (show BState.roots _ _ ≠ none by decide +kernel) trivial

/-- The answers, computed on the bytes. -/
example : (match brun cfg s0 ops with | .ret (rs, b) => some (rs, b.heap.freed, b.serials) | _ => none) =
    some ([.unit, .unit, .unit, .ptr 4120, .unit, .err .exhausted, .unit, .unit, .ptr 8216, .unit, .unit, .num 4, .panicked, .num 8, .unit], [2, 1, 0], 3) := by decide +kernel
end ExC84

end Verif
