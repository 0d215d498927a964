import Verif.Props.BumpSafety
import Mathlib.Data.List.Basic
/-!
# C87: levels and addresses are in the order of the allocations

All theorems are about the machine of `Model/Bump`: every environment, number of threads, starting level and schedule.
-/
namespace Verif
open Bump
variable {n : Nat}

/-- Where a call without reset in between finds its memory, given what was known when it started. -/
theorem grant_bounds {e : Env} (he : e.Valid) {s : State n} (hs : Reachable e s)
    {t : Fin n} (hidle : s.pc t = .idle)
    {evs : List (Event n)} (hev : ∀ ev ∈ evs, Event.Valid e.target ev)
    {new : Hist n} (hnew : (run e s evs).hist = new ++ s.hist) (hreset : Ev.reset ∉ new)
    {call : Call} {r : Ret} (hr : Ev.resp t call r ∈ new) {q : Region} (hq : grant call r = some q) :
    e.base + s.consumed ≤ q.start ∧ q.start + q.size ≤ e.base + (run e s evs).consumed := by
  obtain ⟨hval, c, c', hc, hcl, hc', hsp⟩ := (after_run' he (hs.inv he) hev hnew hreset).2 t hidle call r hr
  obtain ⟨l, hl, h0, h1, h2, h3⟩ := (specApply_facts e.zst hval (s := e.slab) hcl hsp).2.2.2 q hq
  have ha := Call.Valid.align_pos hval hl
  have := le_alignUp ha (e.slab.base + c)
  have hb : e.slab.base = e.base := rfl
  omega

/-- **C87** The level that comes with an allocation is the place of its end in the storage. -/
theorem C87_level_is_end {e : Env} (he : e.Valid) {s : State n} (hs : Reachable e s)
    {t : Fin n} {call : Call} {a : Alloc} (hr : Ev.resp t call (.allocation a) ∈ s.hist)
    {l : Layout} (hl : call.layout = some l) (h0 : 0 < l.size) :
    a.ptr + l.size = e.base + a.level := by
  obtain ⟨hval, c, c', hc, hsp⟩ := (hs.inv2 he).S t call _ (.inr (.inl hr))
  have hg : grant call (.allocation a) = some ⟨a.ptr, l.size⟩ := by
    simp only [grant, hl]; rw [if_neg (by omega)]
  obtain ⟨_, _, _, _, _, h3⟩ := (specApply_facts e.zst hval (s := e.slab) hc hsp).2.2.2 _ hg
  have h4 := disclosed_bound hval (s := e.slab) hc hsp (a := a.level) rfl
  have hb : e.slab.base = e.base := rfl
  rcases specApply_cases hsp with ⟨_, h, _⟩ | ⟨l', hl', h⟩
  · cases h
  · rw [hl] at hl'; cases hl'
    have hf : ∀ f, Ret.allocation a ≠ call.failure f := by
      intro f h; cases call <;> cases h
    rcases h with ⟨_, hz, _⟩ | ⟨_, hz, _⟩ | ⟨_, ⟨h, _⟩ | ⟨b, h, hlev, _⟩ | ⟨h, _⟩ | ⟨_, h, _⟩⟩
    · omega
    · omega
    · cases h
    · have : b = a := by cases call <;> simp [Call.success] at h <;> exact h.symm
      subst this
      simp only at h3
      omega
    · exact absurd h (hf _)
    · exact absurd h (hf _)

/-- The regions handed out since the last reset are those of the responses since then. -/
theorem handedOut_eq_sinceReset (h : Hist n) : handedOut h = handedOut (sinceReset h) := by
  induction h with
  | nil => rfl
  | cons ev h ih => cases ev <;> simp [handedOut, sinceReset, ih]

theorem handedOut_sublist {h h' : Hist n} (hsub : h.Sublist h') (hn : Ev.reset ∉ h') :
    (handedOut h).Sublist (handedOut h') := by
  induction hsub with
  | slnil => exact List.Sublist.refl _
  | cons a _ ih =>
    have ih := ih (fun hm => hn (List.mem_cons_of_mem _ hm))
    cases a with
    | reset => exact absurd List.mem_cons_self hn
    | resp t c r => exact ih.trans (List.sublist_append_right _ _)
    | _ => exact ih
  | cons_cons a _ ih =>
    have ih := ih (fun hm => hn (List.mem_cons_of_mem _ hm))
    cases a with
    | reset => exact absurd List.mem_cons_self hn
    | resp t c r => exact List.Sublist.append (List.Sublist.refl _) ih
    | _ => exact ih

theorem reset_not_mem_sinceReset (h : Hist n) : Ev.reset ∉ sinceReset h := by
  induction h with
  | nil => simp [sinceReset]
  | cons ev h ih => cases ev <;> simp [sinceReset, ih]

theorem mem_of_sinceReset {h : Hist n} {ev : Ev n} (hm : ev ∈ sinceReset h) : ev ∈ h := by
  induction h with
  | nil => simp [sinceReset] at hm
  | cons x h ih =>
    cases x <;> simp only [sinceReset, List.mem_cons, List.not_mem_nil] at hm ⊢ <;>
      first
        | exact hm.elim
        | (rcases hm with hm | hm
           · exact .inl hm
           · exact .inr (ih hm))

/-- **C87** Of two allocations made since the last reset, by whichever threads and in whichever order they returned, the one with
the smaller level lies completely in front of the other one. In particular levels of different allocations are different. -/
theorem C87_level_order_is_address_order {e : Env} (he : e.Valid) {s : State n} (hs : Reachable e s)
    {t₁ t₂ : Fin n} {call₁ call₂ : Call} {a₁ a₂ : Alloc}
    (htwo : [Ev.resp t₁ call₁ (.allocation a₁), Ev.resp t₂ call₂ (.allocation a₂)].Sublist (sinceReset s.hist))
    {l₁ l₂ : Layout} (hl₁ : call₁.layout = some l₁) (hl₂ : call₂.layout = some l₂) (h₁ : 0 < l₁.size) (h₂ : 0 < l₂.size) :
    a₁.level ≠ a₂.level ∧ (a₁.level < a₂.level ↔ a₁.ptr + l₁.size ≤ a₂.ptr) ∧
      (a₂.level < a₁.level ↔ a₂.ptr + l₂.size ≤ a₁.ptr) := by
  have m₁ : Ev.resp t₁ call₁ (.allocation a₁) ∈ s.hist := mem_of_sinceReset (htwo.subset (by simp))
  have m₂ : Ev.resp t₂ call₂ (.allocation a₂) ∈ s.hist := mem_of_sinceReset (htwo.subset (by simp))
  have e₁ := C87_level_is_end he hs m₁ hl₁ h₁
  have e₂ := C87_level_is_end he hs m₂ hl₂ h₂
  have hd := (hs.inv2 he).B
  rw [handedOut_eq_sinceReset] at hd
  have hsub := handedOut_sublist htwo (reset_not_mem_sinceReset _)
  have hd := hd.sublist hsub
  have n₁ : l₁.size ≠ 0 := by omega
  have n₂ : l₂.size ≠ 0 := by omega
  simp only [handedOut, grant, hl₁, hl₂, if_neg n₁, if_neg n₂, Option.toList_some, List.append_nil, List.cons_append, List.nil_append,
    List.pairwise_cons, List.mem_singleton, forall_eq, List.not_mem_nil, false_imp_iff, implies_true, List.Pairwise.nil, and_true] at hd
  have hd := (Region.disjoint_iff (r := ⟨a₁.ptr, l₁.size⟩) (s := ⟨a₂.ptr, l₂.size⟩)).1 hd
  simp only at hd
  omega

/-- **C87** Memory is handed out in ascending order of time: what a call gets that started after another one had returned
lies completely behind everything that one got. -/
theorem C87_addresses_ascend {e : Env} (he : e.Valid) {s : State n} (hs : Reachable e s)
    {q₁ : Region} (h₁ : q₁ ∈ handedOut s.hist)
    {t : Fin n} (hidle : s.pc t = .idle)
    {evs : List (Event n)} (hev : ∀ ev ∈ evs, Event.Valid e.target ev)
    {new : Hist n} (hnew : (run e s evs).hist = new ++ s.hist) (hreset : Ev.reset ∉ new)
    {call₂ : Call} {r₂ : Ret} (h₂ : Ev.resp t call₂ r₂ ∈ new) {q₂ : Region} (hq₂ : grant call₂ r₂ = some q₂) :
    q₁.start + q₁.size ≤ q₂.start := by
  have := ((hs.inv2 he).A q₁ h₁).2.1
  have := (grant_bounds he hs hidle hev hnew hreset h₂ hq₂).1
  omega

/-- **C87** A level which somebody has seen separates the memory: calls started later get memory behind it. -/
theorem C87_after_seen_level {e : Env} (he : e.Valid) {s : State n} (hs : Reachable e s)
    {u : Fin n} {call₁ : Call} {r₁ : Ret} {a : Nat}
    (h₁ : Ev.resp u call₁ r₁ ∈ sinceReset s.hist) (ha : disclosed r₁ = some a)
    {t : Fin n} (hidle : s.pc t = .idle)
    {evs : List (Event n)} (hev : ∀ ev ∈ evs, Event.Valid e.target ev)
    {new : Hist n} (hnew : (run e s evs).hist = new ++ s.hist) (hreset : Ev.reset ∉ new)
    {call₂ : Call} {r₂ : Ret} (h₂ : Ev.resp t call₂ r₂ ∈ new) {q : Region} (hq : grant call₂ r₂ = some q) :
    e.base + a ≤ q.start := by
  have := (hs.inv2 he).L u call₁ r₁ a (.inl h₁) ha
  have := (grant_bounds he hs hidle hev hnew hreset h₂ hq).1
  omega

/-- **C87** And all memory that was handed out before the call which saw the level has started is in front of it. -/
theorem C87_before_seen_level {e : Env} (he : e.Valid) {s : State n} (hs : Reachable e s)
    {q : Region} (hq : q ∈ handedOut s.hist)
    {t : Fin n} (hidle : s.pc t = .idle)
    {evs : List (Event n)} (hev : ∀ ev ∈ evs, Event.Valid e.target ev)
    {new : Hist n} (hnew : (run e s evs).hist = new ++ s.hist) (hreset : Ev.reset ∉ new)
    {call : Call} {r : Ret} {a : Nat} (hr : Ev.resp t call r ∈ new) (ha : disclosed r = some a) :
    q.start + q.size ≤ e.base + a := by
  have h1 := ((hs.inv2 he).A q hq).2.1
  obtain ⟨hval, c, c', hc, hcl, _, hsp⟩ := (after_run' he (hs.inv he) hev hnew hreset).2 t hidle call r hr
  have := (disclosed_bound hval (s := e.slab) hcl hsp ha).1
  omega

namespace ExC87

/-- Two threads race with `get`, thread 1 returns first but has the larger level; afterwards thread 0 looks at the level and allocates again. -/
def sched : List (Event 2) :=
  [.invoke 0 (.get u8L), .invoke 1 (.get u64L), .step 0, .step 1, .step 0, .step 1, .step 1, .step 1, .step 1, .step 0]

theorem sched_valid : ∀ ev ∈ sched, Event.Valid .w64 ev := by
  simp only [sched, List.mem_cons, List.not_mem_nil, or_false]
  rintro ev (rfl | rfl | rfl | rfl | rfl | rfl | rfl | rfl | rfl | rfl) <;> try trivial
  · exact ⟨fun l hl => by cases hl; exact u8L_valid, fun l v hl hv => by cases hv⟩
  · exact ⟨fun l hl => by cases hl; exact u64L_valid, fun l v hl hv => by cases hv⟩

def s : State 2 := run exEnv (init 2 0 fun _ => 0) sched
theorem s_reachable : Reachable exEnv s := ⟨0, _, sched, by decide, sched_valid, rfl⟩

/-- The two allocations, in the order of their responses (newest first). -/
theorem two : [Ev.resp 0 (.get u8L) (.allocation ⟨4100, 1⟩), Ev.resp 1 (.get u64L) (.allocation ⟨4104, 12⟩)].Sublist (sinceReset s.hist) := by
  decide

example : (1 : Nat) < 12 ↔ 4100 + 1 ≤ 4104 :=
  (C87_level_order_is_address_order exEnv_valid s_reachable two (l₁ := u8L) (l₂ := u64L) rfl rfl (by decide) (by decide)).2.1

/-- The second part of the program: thread 1 looks at the level, thread 0 allocates. -/
def later : List (Event 2) :=
  [.invoke 1 .level, .step 1, .step 1, .invoke 0 (.leak u8L [9]), .step 0, .step 0, .step 0, .step 0, .step 0, .step 0]

theorem later_valid : ∀ ev ∈ later, Event.Valid .w64 ev := by
  simp only [later, List.mem_cons, List.not_mem_nil, or_false]
  rintro ev (rfl | rfl | rfl | rfl | rfl | rfl | rfl | rfl | rfl | rfl) <;> try trivial
  · exact ⟨(fun l hl => by cases hl), (fun l v hl hv => by cases hv)⟩
  · exact ⟨fun l hl => by cases hl; exact u8L_valid, fun l v hl hv => by cases hl; cases hv; rfl⟩

def new : Hist 2 := (run exEnv s later).hist.take ((run exEnv s later).hist.length - s.hist.length)

theorem new_eq : (run exEnv s later).hist = new ++ s.hist := by decide +kernel

example : 4104 + 8 ≤ 4112 :=
  C87_addresses_ascend exEnv_valid s_reachable (q₁ := ⟨4104, 8⟩) (by decide +kernel) (t := 0) (by decide +kernel) later_valid new_eq
    (by decide +kernel) (call₂ := .leak u8L [9]) (r₂ := .ptr 4112) (by decide +kernel) (q₂ := ⟨4112, 1⟩) (by decide)

example : 4100 + 12 ≤ 4112 :=
  C87_after_seen_level exEnv_valid s_reachable (u := 1) (call₁ := .get u64L) (r₁ := .allocation ⟨4104, 12⟩) (a := 12) (by decide +kernel) rfl
    (t := 0) (by decide +kernel) later_valid new_eq
    (by decide +kernel) (call₂ := .leak u8L [9]) (r₂ := .ptr 4112) (by decide +kernel) (q := ⟨4112, 1⟩) (by decide)

example : 4104 + 8 ≤ 4100 + 12 :=
  C87_before_seen_level exEnv_valid s_reachable (q := ⟨4104, 8⟩) (by decide +kernel) (t := 1) (by decide +kernel) later_valid new_eq
    (by decide +kernel) (call := .level) (r := .level 12) (by decide +kernel) rfl

end ExC87
end Verif
