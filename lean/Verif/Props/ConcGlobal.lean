import Verif.Proofs.ConcGlobalRun
/-!
# C70–C74: `Bump` as global allocator of a multi-threaded program

All theorems quantify over every environment, every number of threads, and every schedule of calls of `GlobalAlloc` and
of the methods of `Bump`, of single steps of their code, and of writes of the users into their blocks.
-/
namespace Verif
open Bump.Conc
open Bump (Env)
variable {n : Nat}

/-! ## An example: two threads -/

/-- 64 bytes at the address 4100. -/
def exC : Env := ⟨.w64, 4100, 64, id⟩
theorem exC_valid : exC.Valid := ⟨by decide, by decide, by decide, fun a h => ⟨h.pos, Nat.dvd_refl a⟩⟩

/-- Thread 0 allocates two bytes and writes into them. Then it grows them to four bytes, while thread 1 requests
two zeroed bytes; their steps are interleaved. -/
def exSetup : List (Event 2) :=
  [.invoke 0 (.alloc ⟨2, 2⟩), .step 0, .step 0, .step 0, .step 0, .step 0, .userWrite ⟨4100, ⟨2, 2⟩⟩ 0 [7, 9]]
def exRace : List (Event 2) :=
  .invoke 1 (.allocZeroed ⟨2, 1⟩) :: ([0, 1, 0, 1, 0, 1, 0, 1, 0, 1, 0, 1, 0, 1, 1, 1, 0, 1, 0, 1, 0, 1] : List (Fin 2)).map .step
def exGrow : Op := .realloc ⟨4100, ⟨2, 2⟩⟩ 4

/-- The state in which thread 0 is about to grow its block. -/
def exS : State 2 := run exC (init 2 0 fun _ => 1) exSetup
/-- Both calls have returned. -/
def exS' : State 2 := run exC (exec exC exS (.invoke 0 exGrow)) exRace

theorem exSetup_valid : ∀ ev ∈ exSetup, Event.Valid .w64 ev := by
  simp only [exSetup, List.mem_cons, List.not_mem_nil, or_false]
  rintro ev (rfl | rfl | rfl | rfl | rfl | rfl | rfl) <;> try trivial
  exact ⟨⟨⟨1, rfl⟩, by decide⟩, by decide⟩
theorem exRace_valid : ∀ ev ∈ exRace, Event.Valid .w64 ev := by
  intro ev hev
  rcases List.mem_cons.mp hev with rfl | h
  · exact ⟨⟨⟨0, rfl⟩, by decide⟩, by decide⟩
  · obtain ⟨t, _, rfl⟩ := List.mem_map.mp h
    trivial
theorem exS_reachable : Reachable exC exS := ⟨0, _, exSetup, by decide, exSetup_valid, rfl⟩
theorem exS'_reachable : Reachable exC exS' := by
  refine ⟨0, fun _ => 1, exSetup ++ .invoke 0 exGrow :: exRace, by decide, ?_, ?_⟩
  · intro ev hev
    rcases List.mem_append.mp hev with h | h
    · exact exSetup_valid ev h
    · rcases List.mem_cons.mp h with rfl | h
      · exact show 0 < 4 by decide
      · exact exRace_valid ev h
  · simp only [exS', exS, run, List.foldl_append, List.foldl_cons]

/-- The race really happens: thread 1 loses the first compare-exchange and repeats; both calls succeed. -/
theorem exS'_result : exS'.live = [⟨4106, ⟨2, 1⟩⟩, ⟨4102, ⟨4, 2⟩⟩] ∧ Bump.Ev.retry 1 ∈ exS'.bump.hist ∧
    readBytes exS'.bump.mem 4102 2 = [7, 9] ∧ readBytes exS'.bump.mem 4106 2 = [0, 0] ∧ exS'.pc 0 = .idle ∧ exS'.pc 1 = .idle := by
  decide +kernel

/-! ## C70 -/

/-- **C70** In every reachable state the blocks owned by users are pairwise disjoint (as list, that is also no block is owned twice),
not null, aligned for their layout, and inside of the storage. -/
theorem C70_live_blocks {e : Env} (he : e.Valid) {s : State n} (hs : Reachable e s) :
    s.live.Pairwise (fun a b => a.region.Disjoint b.region) ∧
    ∀ b ∈ s.live, b.Serves b.layout ∧ 0 < b.layout.size ∧ b.region.Within ⟨e.base, e.len⟩ := by
  have hi := hs.inv he
  refine ⟨hi.sep.one none, fun b hb => ?_⟩
  have hb' := hi.ok none b hb
  obtain ⟨r, hr, hw⟩ := hb'.inside
  have h1 := hi.bump.two.A r hr
  have h2 := hi.bump.one.le
  have h3 := hw.1
  have h4 := hw.2
  refine ⟨⟨ptr_pos he hi (i := none) hb, hb'.aligned, Nat.le_refl _⟩, hb'.pos, ?_, ?_⟩
  · show e.base ≤ b.region.start; omega
  · show b.region.start + b.region.size ≤ e.base + e.len; omega

/-- **C70** Calls of `GlobalAlloc` do not panic and never run into undefined behaviour (the copy in `realloc` does not overlap). -/
theorem C70_no_panic {e : Env} (he : e.Valid) {s : State n} (hs : Reachable e s) {t : Fin n} {op : Op} {r : Res}
    (hr : s.pc t = .ret op r) :
    match op with
    | .alloc _ | .allocZeroed _ | .realloc _ _ => ∃ p, r = .ptr p
    | .dealloc _ => r = .unit
    | .api _ => ∃ r', r = .api r' := by
  have h := (hs.inv he).pcs t
  rw [hr] at h
  have h := h.2.2
  cases op <;> cases r <;> simp only [RetOk] at h <;> simp

/-- **C70** `alloc` and `alloc_zeroed`, when they return `p`: null only if the request does not fit behind the present level; else the
block serves the layout, is in the storage, disjoint from all blocks of users and becomes one of them; and all of its bytes are zero in case of `alloc_zeroed`,
although other threads were running in between. -/
theorem C70_alloc {e : Env} (he : e.Valid) {s : State n} (hs : Reachable e s) {t : Fin n} {op : Op} {l : Layout} {p : Nat}
    (hop : op = .alloc l ∨ op = .allocZeroed l) (hr : s.pc t = .ret op (.ptr p)) :
    (p = 0 → ¬ e.slab.Fits l s.bump.consumed ∧ (exec e s (.step t)).live = s.live) ∧
    (p ≠ 0 → (⟨p, l⟩ : Block).Serves l ∧ Region.Within ⟨p, l.size⟩ ⟨e.base, e.len⟩ ∧
      (∀ b ∈ s.live, Region.Disjoint ⟨p, l.size⟩ b.region) ∧ (exec e s (.step t)).live = ⟨p, l⟩ :: s.live ∧
      (op = .allocZeroed l → ∀ x, Region.Has ⟨p, l.size⟩ x → s.bump.mem x = 0)) := by
  have hi := hs.inv he
  have h := hi.pcs t
  rw [hr] at h
  obtain ⟨_, hv, h⟩ := h
  have hl : l.Valid e.target ∧ 0 < l.size := by rcases hop with rfl | rfl <;> exact hv
  have hnull : p = 0 → e.slab.place l s.bump.consumed = none := by
    rcases hop with rfl | rfl
    · exact h
    · exact h.1
  have hlive : (exec e s (.step t)).live = (op.gives (.ptr p)).toList ++ s.live := by
    simp [exec, step, hr]
  refine ⟨fun h0 => ⟨(Slab.place_none_iff_not_fits hl.1.1.pos).mp (hnull h0), ?_⟩, fun h0 => ?_⟩
  · rw [hlive]; rcases hop with rfl | rfl <;> simp [Op.gives, h0]
  · have hg : op.gives (.ptr p) = some ⟨p, l⟩ := by rcases hop with rfl | rfl <;> simp [Op.gives, h0]
    have hmem : (⟨p, l⟩ : Block) ∈ s.holds (some t) := by simp [State.holds, hr, Pc.owns, hg]
    have hb := hi.ok (some t) _ hmem
    obtain ⟨r, hr', hw⟩ := hb.inside
    have h1 := hi.bump.two.A r hr'
    have h2 := hi.bump.one.le
    have h3 := hw.1
    have h4 := hw.2
    simp only [Block.region] at h3 h4
    refine ⟨⟨h0, hb.aligned, Nat.le_refl _⟩, ⟨?_, ?_⟩, ?_, ?_, ?_⟩
    · show e.base ≤ p; omega
    · show p + l.size ≤ e.base + e.len; omega
    · exact fun b hb => hi.sep.two (some t) none (by simp) _ hmem b hb
    · rw [hlive, hg]; rfl
    · rintro rfl x ⟨hx1, hx2⟩
      obtain ⟨i, rfl⟩ : ∃ i, x = p + i := ⟨x - p, by simp only at hx1; omega⟩
      exact h.2 h0 i (by simp only at hx2; omega)

example : exS'.live.Pairwise (fun a b => a.region.Disjoint b.region) := (C70_live_blocks exC_valid exS'_reachable).1

/-- The hypotheses of `C70_alloc` are met one step before the end of the example. -/
example : (run exC (exec exC exS (.invoke 0 exGrow)) exRace.dropLast).pc 1 = .ret (.allocZeroed ⟨2, 1⟩) (.ptr 4106) := by
  decide +kernel

/-! ## C71 -/

/-- **C71** The bytes of a block which stays with its users do not change, in any schedule in which the users do not write into this
block; whatever all threads do in the meantime: allocate, zero, copy, leak values. -/
theorem C71_contents_stable {e : Env} (he : e.Valid) {s : State n} (hs : Reachable e s) {b : Block}
    {evs : List (Event n)} (hev : ∀ ev ∈ evs, Event.Valid e.target ev)
    (hlive : ∀ pre post, evs = pre ++ post → b ∈ (run e s pre).live)
    (hw : ∀ off bs, Event.userWrite b off bs ∉ evs) :
    readBytes (run e s evs).bump.mem b.ptr b.layout.size = readBytes s.bump.mem b.ptr b.layout.size := by
  suffices h : ∀ x, b.region.Has x → (run e s evs).bump.mem x = s.bump.mem x from
    readBytes_congr fun x h1 h2 => h x ⟨h1, h2⟩
  have hi := hs.inv he
  clear hs
  induction evs generalizing s with
  | nil => exact fun _ _ => rfl
  | cons ev evs ih =>
    intro x hx
    have h1 := frame_exec hi ev (i := none) (hlive [] _ rfl) (fun _ off bs hh => hw off bs (by simp [hh])) (fun t _ hh => by cases hh) hx
    have h2 := ih (s := exec e s ev) (fun ev' h => hev ev' (by simp [h])) (fun pre post h => hlive (ev :: pre) post (by simp [h]))
      (fun off bs h => hw off bs (by simp [h])) (cinv_exec he hi (hev ev (by simp))) x hx
    exact h2.trans h1

/-- **C71** Users read back what they wrote. -/
theorem C71_write_read {e : Env} {s : State n} {b : Block} (hb : b ∈ s.live)
    {off : Nat} {bs : List Byte} (ho : off + bs.length ≤ b.layout.size) :
    readBytes (exec e s (.userWrite b off bs)).bump.mem (b.ptr + off) bs.length = bs := by
  simp only [exec, hb, ho, and_self, if_true, State.poke]
  exact readBytes_writeBytes_self _ _ _

/-- A schedule as in the theorem: the block of thread 0 stays live while thread 1 runs its call. -/
example : let evs := [.invoke 1 (.allocZeroed ⟨2, 1⟩), .step 1, .step 1, .step 1, .step 1, .step 1, .step 1, .step 1, .step 1,
      .step 1, .step 1]
    (∀ k ≤ 11, (⟨4100, ⟨2, 2⟩⟩ : Block) ∈ (run exC exS (evs.take k)).live) ∧
    (run exC exS evs).live.length = 2 ∧ readBytes (run exC exS evs).bump.mem 4100 2 = [7, 9] := by decide +kernel

/-! ## C72 -/

/-- **C72** `realloc` of a block of the users, in any schedule `evs` up to the return of the call with `r`. It returns a pointer `p`.
If it is null then the users have the old block as it was when they called, and the new size
is not a valid layout, or the block has to grow and the request does not fit. Otherwise the users get a block for the new size, in the storage, disjoint from all
blocks which users have now, starting with the contents that the old block had at the call; and a block that does not grow keeps its address. -/
theorem C72_realloc {e : Env} (he : e.Valid) {s : State n} (hs : Reachable e s) {t : Fin n} (hidle : s.pc t = .idle)
    {b : Block} (hb : b ∈ s.live) {ns : Nat} (h0 : 0 < ns) {evs : List (Event n)} (hev : ∀ ev ∈ evs, Event.Valid e.target ev)
    {s' : State n} (hs' : s' = run e (exec e s (.invoke t (.realloc b ns))) evs)
    (hin : ∀ pre post, evs = pre ++ post → (run e (exec e s (.invoke t (.realloc b ns))) pre).pc t ≠ .idle)
    {op : Op} {r : Res} (hend : s'.pc t = .ret op r) :
    op = .realloc b ns ∧ ∃ p, r = .ptr p ∧
      (p = 0 → readBytes s'.bump.mem b.ptr b.layout.size = readBytes s.bump.mem b.ptr b.layout.size ∧
        (exec e s' (.step t)).live = b :: s'.live ∧ (∀ c ∈ s'.live, b.region.Disjoint c.region) ∧
        (¬ (⟨ns, b.layout.align⟩ : Layout).Valid e.target ∨
          (b.layout.size < ns ∧ ¬ e.slab.Fits ⟨ns, b.layout.align⟩ s'.bump.consumed))) ∧
      (p ≠ 0 → (⟨p, ⟨ns, b.layout.align⟩⟩ : Block).Serves ⟨ns, b.layout.align⟩ ∧ Region.Within ⟨p, ns⟩ ⟨e.base, e.len⟩ ∧
        readBytes s'.bump.mem p (min ns b.layout.size) = readBytes s.bump.mem b.ptr (min ns b.layout.size) ∧
        (exec e s' (.step t)).live = ⟨p, ⟨ns, b.layout.align⟩⟩ :: s'.live ∧ (∀ c ∈ s'.live, Region.Disjoint ⟨p, ns⟩ c.region) ∧
        (ns ≤ b.layout.size → p = b.ptr)) := by
  have hi0 := hs.inv he
  have hi1 : CInv e (exec e s (.invoke t (.realloc b ns))) := cinv_exec he hi0 (ev := .invoke t (.realloc b ns)) h0
  have hf1 : Follow s.bump.mem b ns (exec e s (.invoke t (.realloc b ns))).bump.mem ((exec e s (.invoke t (.realloc b ns))).pc t) := by
    simp only [exec, hidle, Op.takes, Option.mem_def, Option.some.injEq, forall_eq', hb, and_self, if_true, State.goto, setPc_self]
    exact ⟨rfl, fun _ _ => rfl⟩
  have key : ∀ (evs : List (Event n)) (s₁ : State n), CInv e s₁ → Follow s.bump.mem b ns s₁.bump.mem (s₁.pc t) →
      (∀ ev ∈ evs, Event.Valid e.target ev) → (∀ pre post, evs = pre ++ post → (run e s₁ pre).pc t ≠ .idle) →
      Follow s.bump.mem b ns (run e s₁ evs).bump.mem ((run e s₁ evs).pc t) := by
    intro evs
    induction evs with
    | nil => exact fun _ _ h _ _ => h
    | cons ev evs ih =>
      intro s₁ hi hf hev hin
      exact ih (exec e s₁ ev) (cinv_exec he hi (hev ev (by simp))) (follow_exec hi hf (hin [ev] evs rfl))
        (fun ev' h => hev ev' (by simp [h])) (fun pre post h => hin (ev :: pre) post (by simp [h]))
  have hf := key evs _ hi1 hf1 hev hin
  have hi' : CInv e s' := by rw [hs']; exact cinv_run he evs hi1 hev
  rw [← hs', hend] at hf
  obtain ⟨rfl, hf⟩ := hf
  have hpo := hi'.pcs t
  rw [hend] at hpo
  obtain ⟨_, _, hret⟩ := hpo
  obtain ⟨p, rfl⟩ : ∃ p, r = .ptr p := by cases r <;> simp only [RetOk] at hret <;> exact ⟨_, rfl⟩
  have hlive : (exec e s' (.step t)).live = ((Op.realloc b ns).gives (.ptr p)).toList ++ s'.live := by
    simp [exec, step, hend]
  have hbv := (hi0.ok none b hb).valid
  refine ⟨rfl, p, rfl, fun hp0 => ?_, fun hp0 => ?_⟩
  · have hmem : b ∈ s'.holds (some t) := by simp [State.holds, hend, Pc.owns, Op.gives, hp0]
    refine ⟨?_, ?_, ?_, ?_⟩
    · exact readBytes_congr fun x h1 h2 => (hf p rfl).1 hp0 x ⟨h1, h2⟩
    · rw [hlive]; simp [Op.gives, hp0]
    · exact fun c hc => hi'.sep.two (some t) none (by simp) _ hmem c hc
    · rcases hret.1 hp0 with h | ⟨h1, h2⟩
      · exact .inl h
      · exact .inr ⟨h1, (Slab.place_none_iff_not_fits (l := ⟨ns, b.layout.align⟩) hbv.1.pos).mp h2⟩
  · have hmem : (⟨p, ⟨ns, b.layout.align⟩⟩ : Block) ∈ s'.holds (some t) := by simp [State.holds, hend, Pc.owns, Op.gives, hp0]
    have hbk := hi'.ok (some t) _ hmem
    obtain ⟨q, hq, hw⟩ := hbk.inside
    have h1 := hi'.bump.two.A q hq
    have h2 := hi'.bump.one.le
    have h3 := hw.1
    have h4 := hw.2
    simp only [Block.region] at h3 h4
    refine ⟨⟨hp0, hbk.aligned, Nat.le_refl _⟩, ⟨?_, ?_⟩, ?_, ?_, ?_, (hret.2 hp0).2⟩
    · show e.base ≤ p; omega
    · show p + ns ≤ e.base + e.len; omega
    · apply List.ext_getElem
      · simp
      · intro i h1 h2
        simp only [length_readBytes] at h1
        simp only [readBytes, List.getElem_map, List.getElem_range]
        exact (hf p rfl).2 hp0 i h1
    · rw [hlive]; simp [Op.gives, hp0]
    · exact fun c hc => hi'.sep.two (some t) none (by simp) _ hmem c hc

/-- The hypotheses are met in the race above: thread 0 returns the block at 4102, after 20 of the 23 events. -/
example : exS.pc 0 = .idle ∧ (⟨4100, ⟨2, 2⟩⟩ : Block) ∈ exS.live ∧
    (∀ k ≤ 20, (run exC (exec exC exS (.invoke 0 exGrow)) (exRace.take k)).pc 0 ≠ .idle) ∧
    (run exC (exec exC exS (.invoke 0 exGrow)) (exRace.take 18)).pc 0 = .copy ⟨4100, ⟨2, 2⟩⟩ 4 4102 2 ∧
    (run exC (exec exC exS (.invoke 0 exGrow)) (exRace.take 20)).pc 0 = .ret exGrow (.ptr 4102) := by decide +kernel

/-- And a `realloc` fails while another thread takes the rest of the memory. -/
example : let s := run exC exS [.invoke 1 (.alloc ⟨60, 1⟩), .step 1, .step 1, .invoke 0 exGrow, .step 0, .step 0, .step 1, .step 0, .step 0,
      .step 1, .step 1, .step 0, .step 0, .step 0]
    s.pc 0 = .ret exGrow (.ptr 0) ∧ readBytes s.bump.mem 4100 2 = [7, 9] := by decide +kernel

/-! ## C73 -/

/-- **C73** Wait-freedom: a call which thread `t` starts returns before the thread has made `2*len + 9` steps, plus one for each byte
which the call has to zero or copy, whatever the other threads do. -/
theorem C73_wait_free {e : Env} (he : e.Valid) {s : State n} (hs : Reachable e s) {t : Fin n} {op : Op} (hop : op.Valid e.target)
    {evs : List (Event n)} (hev : ∀ ev ∈ evs, Event.Valid e.target ev)
    (hcount : 2 * e.len + 9 + op.work ≤ evs.count (.step t))
    (hidle : s.pc t = .idle) :
    ∃ pre post, evs = pre ++ post ∧ (run e s (.invoke t op :: pre)).pc t = .idle := by
  have hi := hs.inv he
  have hi1 : CInv e (exec e s (.invoke t op)) := cinv_exec he hi (ev := .invoke t op) hop
  refine progress he t evs _ hi1 hev ?_
  simp only [exec]
  split
  · simp only [State.goto, setPc_self, crank]
    omega
  · rw [hidle]; simp [crank]

example : 2 * exC.len + 9 + 2 ≤ (List.replicate 139 (Event.step (0 : Fin 2))).count (.step 0) := by decide +kernel

/-! ## C74 -/

/-- The byte which the next step of a thread writes without synchronization, and the byte which it reads. -/
def writesByte (s : State n) (t : Fin n) (x : Nat) : Prop :=
  match s.pc t with
  | .zero l p i => i < l.size ∧ x = p + i
  | .copy b ns dst i => i < min ns b.layout.size ∧ x = dst + i
  | .inner _ => match s.bump.pc t with
    | .write call a => a.ptr ≤ x ∧ x < a.ptr + (Bump.storedValue call).length
    | _ => False
  | _ => False
def readsByte (s : State n) (t : Fin n) (x : Nat) : Prop :=
  match s.pc t with
  | .copy b ns _ i => i < min ns b.layout.size ∧ x = b.ptr + i
  | _ => False

/-- **C74** `writesByte` is right: no step changes any other byte. -/
theorem C74_writes {e : Env} (s : State n) (t : Fin n) {x : Nat} (h : (exec e s (.step t)).bump.mem x ≠ s.bump.mem x) :
    writesByte s t x := by
  unfold writesByte
  simp only [exec, step] at h
  cases hp : s.pc t with
  | idle => simp only [hp] at h; exact absurd rfl h
  | start op =>
    refine absurd ?_ h
    simp only [hp]
    split <;> try rfl
    simp only [Bump.exec]; split <;> rfl
  | ret op r => simp only [hp] at h; exact absurd rfl h
  | zero l p i =>
    simp only [hp] at h ⊢
    split at h
    · rename_i hlt
      exact ⟨hlt, Decidable.byContradiction fun hx => h (poke_mem s hx)⟩
    · exact absurd rfl h
  | copy b ns dst i =>
    simp only [hp] at h ⊢
    split at h
    · rename_i hlt
      exact ⟨hlt, Decidable.byContradiction fun hx => h (poke_mem s hx)⟩
    · exact absurd rfl h
  | inner op =>
    simp only [hp] at h ⊢
    have hb : (Bump.step e s.bump t).mem x ≠ s.bump.mem x := by
      split at h <;> exact h
    cases hq : s.bump.pc t with
    | write call a =>
      simp only
      refine Decidable.byContradiction fun hx => hb ?_
      simp only [Bump.step, hq]
      exact writeBytes_of_not_mem hx
    | idle => exact absurd (by simp [Bump.step, hq]) hb
    | attempt c l re g =>
      refine absurd ?_ hb
      simp only [Bump.step, hq]
      split <;> simp [Bump.State.decide]
    | cas c l re ex at' new =>
      refine absurd ?_ hb
      simp only [Bump.step, hq]
      split
      · split <;> simp [Bump.State.decide]
      · split <;> simp [Bump.State.decide]
    | load c => exact absurd (by simp [Bump.step, hq, Bump.State.decide]) hb
    | ret c r => exact absurd (by simp [Bump.step, hq]) hb

/-- **C74** `readsByte` is right: the values which a step stores, and where the thread continues, do not depend on any other byte of memory
(`s'` differs from `s` only in such bytes). -/
theorem C74_reads {e : Env} (s : State n) (t : Fin n) {m : Mem} (hm : ∀ x, readsByte s t x → m x = s.bump.mem x)
    {s' : State n} (hs' : s' = { s with bump := { s.bump with mem := m } }) :
    (exec e s' (.step t)).pc t = (exec e s (.step t)).pc t ∧
    (exec e s' (.step t)).bump.consumed = (exec e s (.step t)).bump.consumed ∧
    ∀ x, writesByte s t x → (exec e s' (.step t)).bump.mem x = (exec e s (.step t)).bump.mem x := by
  subst hs'
  unfold readsByte at hm
  unfold writesByte
  simp only [exec, step]
  cases hp : s.pc t with
  | idle => simp [hp]
  | start op =>
    simp only
    split
    · simp only [State.goto, Bump.exec]
      split <;> simp
    · simp [State.goto]
    · simp [State.goto]
    · simp [State.goto]
  | ret op r => simp [State.goto]
  | zero l p i =>
    simp only
    split
    · refine ⟨rfl, rfl, ?_⟩
      rintro x ⟨_, rfl⟩
      simp only [State.goto]
      rw [poke_mem_self, poke_mem_self]
    · rename_i hlt
      exact ⟨rfl, rfl, fun x hx => absurd hx.1 hlt⟩
  | copy b ns dst i =>
    rw [hp] at hm
    simp only at hm ⊢
    split
    · rename_i hlt
      refine ⟨rfl, rfl, ?_⟩
      rintro x ⟨_, rfl⟩
      simp only [State.goto]
      rw [poke_mem_self, poke_mem_self]
      exact hm _ ⟨hlt, rfl⟩
    · rename_i hlt
      exact ⟨rfl, rfl, fun x hx => absurd hx.1 hlt⟩
  | inner op =>
    cases hq : s.bump.pc t with
    | write call a =>
      simp only [Bump.step, hq, hp]
      refine ⟨trivial, trivial, fun x hx => ?_⟩
      simp [writeBytes, hx]
    | idle => simp [Bump.step, hq, hp]
    | attempt c l re g =>
      simp only [Bump.step, hq]
      split <;> simp [Bump.State.decide, hp]
    | cas c l re ex at' new =>
      simp only [Bump.step, hq]
      split
      · split <;> simp [Bump.State.decide, hp]
      · split <;> simp [Bump.State.decide, hp]
    | load c => simp [Bump.step, hq, Bump.State.decide, hp]
    | ret c r => simp [Bump.step, hq, State.goto]

/-- **C74** No data races: in no reachable state two threads are about to access the same byte, one of them writing, outside of
the atomic counter. And no thread inside of a call is about to write to or read from a block of the users, which may access it at the same time. -/
theorem C74_no_data_race {e : Env} (he : e.Valid) {s : State n} (hs : Reachable e s) {t : Fin n} {x : Nat} :
    (writesByte s t x → ∀ u, u ≠ t → ¬ writesByte s u x ∧ ¬ readsByte s u x) ∧
    (writesByte s t x ∨ readsByte s t x → ∀ b ∈ s.live, ¬ b.region.Has x) := by
  have hi := hs.inv he
  -- where the accesses are
  have hwr : ∀ t, writesByte s t x → (∃ c ∈ s.holds (some t), c.region.Has x) ∨
      ∃ q, (s.bump.pc t).pending = some q ∧ q.Has x := by
    intro t h
    unfold writesByte at h
    cases hp : s.pc t with
    | idle => rw [hp] at h; exact h.elim
    | start op => rw [hp] at h; exact h.elim
    | ret op r => rw [hp] at h; exact h.elim
    | zero l p i =>
      rw [hp] at h
      obtain ⟨h1, rfl⟩ := h
      exact .inl ⟨⟨p, l⟩, by simp [State.holds, hp, Pc.owns], has_of (b := ⟨p, l⟩) h1⟩
    | copy b ns dst i =>
      rw [hp] at h
      obtain ⟨h1, rfl⟩ := h
      exact .inl ⟨⟨dst, ⟨ns, b.layout.align⟩⟩, by simp [State.holds, hp, Pc.owns],
        has_of (b := ⟨dst, ⟨ns, b.layout.align⟩⟩) (by simp only; omega)⟩
    | inner op =>
      rw [hp] at h
      simp only at h
      split at h
      · rename_i call a hq
        exact .inr (Bump.write_within hi.bump.one hq h)
      · exact h.elim
  have hrd : ∀ t, readsByte s t x → ∃ c ∈ s.holds (some t), c.region.Has x := by
    intro t h
    unfold readsByte at h
    split at h
    · rename_i b ns dst i hp
      obtain ⟨h1, rfl⟩ := h
      exact ⟨b, by simp [State.holds, hp, Pc.owns], has_of (by omega)⟩
    · exact h.elim
  -- pending regions are disjoint from all blocks
  have hpend : ∀ t q i c, (s.bump.pc t).pending = some q → c ∈ s.holds i → ¬ (q.Has x ∧ c.region.Has x) := by
    rintro t q i c hq hc ⟨h1, h2⟩
    obtain ⟨r, hr, hw⟩ := (hi.ok i c hc).inside
    exact (hi.bump.two.C t q hq).2 r hr x ⟨h1, hw.has h2⟩
  refine ⟨fun hw u hu => ⟨fun hw' => ?_, fun hr' => ?_⟩, fun h b hb hx => ?_⟩
  · rcases hwr t hw with ⟨c, hc, hcx⟩ | ⟨q, hq, hqx⟩ <;> rcases hwr u hw' with ⟨d, hd, hdx⟩ | ⟨q', hq', hqx'⟩
    · exact hi.sep.two (some t) (some u) (by simpa using fun h => hu h.symm) c hc d hd x ⟨hcx, hdx⟩
    · exact hpend u q' _ c hq' hc ⟨hqx', hcx⟩
    · exact hpend t q _ d hq hd ⟨hqx, hdx⟩
    · exact hi.bump.two.D t u q q' (fun h => hu h.symm) hq hq' x ⟨hqx, hqx'⟩
  · obtain ⟨d, hd, hdx⟩ := hrd u hr'
    rcases hwr t hw with ⟨c, hc, hcx⟩ | ⟨q, hq, hqx⟩
    · exact hi.sep.two (some t) (some u) (by simpa using fun h => hu h.symm) c hc d hd x ⟨hcx, hdx⟩
    · exact hpend t q _ d hq hd ⟨hqx, hdx⟩
  · have hb' : b ∈ s.holds none := hb
    rcases h with h | h
    · rcases hwr t h with ⟨c, hc, hcx⟩ | ⟨q, hq, hqx⟩
      · exact hi.sep.two (some t) none (by simp) c hc b hb' x ⟨hcx, hx⟩
      · exact hpend t q _ b hq hb' ⟨hqx, hx⟩
    · obtain ⟨d, hd, hdx⟩ := hrd t h
      exact hi.sep.two (some t) none (by simp) d hd b hb' x ⟨hdx, hx⟩

/-- Both threads of the example are at the same time about to write. -/
example : let s := run exC (exec exC exS (.invoke 0 exGrow)) (exRace.take 16)
    s.pc 0 = .copy ⟨4100, ⟨2, 2⟩⟩ 4 4102 1 ∧ s.pc 1 = .zero ⟨2, 1⟩ 4106 0 := by decide +kernel

end Verif
