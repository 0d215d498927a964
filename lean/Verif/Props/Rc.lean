import Verif.Proofs.RcTrace
import Verif.Props.Uninit
import Verif.Props.UnsyncMem
/-!
# Properties C52–C56: reference counted values

`w.hs` are the handles that exist; `handles w.hs k a` is their number of kind `k` for block `a`.
-/
namespace Verif
open RcM Uninit

namespace RcM
variable {V : Type} {t : Target} {checks : Bool} {w : World V}

/-- Everything a block's handles see, in a reachable state. -/
theorem reach_live (hr : Reach t checks w) {h a : Nat} {f : Bool} (hx : w.hs[h]? = some (some ⟨.strong, a, f⟩)) :
    ∃ sw v, WRel w sw ∧ sw.cells a = .live v ∧ w.mem a = ⟨some v, handles w.hs .strong a, handles w.hs .weak a + 1⟩ ∧ 0 < handles w.hs .strong a := by
  obtain ⟨sw, r⟩ := reach_rel hr
  obtain ⟨v, hc, _, hm, hp⟩ := live_of r hx
  exact ⟨sw, v, r, hc, hm, hp⟩

theorem shows_val {h a : Nat} {v : V} (hx : w.hs[h]? = some (some ⟨.strong, a, false⟩)) : Shows t checks w h v ↔ (w.mem a).val = some v := by
  simp only [Shows, exec, usable_block hx]
  cases (w.mem a).val with
  | none => simp
  | some u => simp

theorem step_of (hr : Reach t checks w) {op : Op V} (hp : Permitted w op) (hN : NoOverflow t w op) : ∃ sw w', WRel w sw ∧ exec t checks w op = .ret ((sexec sw op).1, w') ∧ WRel w' (sexec sw op).2 := by
  obtain ⟨sw, r⟩ := reach_rel hr
  obtain ⟨w', e, r'⟩ := sim_step (t := t) (checks := checks) r hp hN
  exact ⟨sw, w', r, e, r'⟩

theorem run_append {ops : List (Op V)} {op : Op V} {w0 w w' : World V} {rs : List (Resp V)} {x : Resp V} (h1 : run t checks w0 ops = .ret (rs, w)) (h2 : exec t checks w op = .ret (x, w')) :
    run t checks w0 (ops ++ [op]) = .ret (rs ++ [x], w') := by
  induction ops generalizing w0 rs with
  | nil =>
    simp only [run, Outcome.ret.injEq, Prod.mk.injEq] at h1
    obtain ⟨rfl, rfl⟩ := h1
    simp only [List.nil_append, run, h2, bind, Outcome.bind, pure]
  | cons o ops ih =>
    simp only [List.cons_append, run, bind, Outcome.bind, pure] at h1 ⊢
    cases e : exec t checks w0 o with
    | panic => rw [e] at h1; cases h1
    | ub => rw [e] at h1; cases h1
    | ret p =>
      rw [e] at h1
      obtain ⟨y, w1⟩ := p
      simp only at h1 ⊢
      cases e1 : run t checks w1 ops with
      | panic => rw [e1] at h1; cases h1
      | ub => rw [e1] at h1; cases h1
      | ret q =>
        rw [e1] at h1
        obtain ⟨ys, w2⟩ := q
        simp only [Outcome.ret.injEq, Prod.mk.injEq] at h1
        obtain ⟨rfl, rfl⟩ := h1
        simp only [ih e1, List.cons_append]

theorem safe_append {ops : List (Op V)} {op : Op V} {w0 : World V} (h1 : SafeRun t checks w0 ops) (h2 : ∀ rs w, run t checks w0 ops = .ret (rs, w) → Permitted w op ∧ NoOverflow t w op) :
    SafeRun t checks w0 (ops ++ [op]) := by
  induction ops generalizing w0 with
  | nil => exact ⟨(h2 _ _ rfl).1, (h2 _ _ rfl).2, fun _ _ _ => trivial⟩
  | cons o ops ih =>
    refine ⟨h1.1, h1.2.1, fun x w' e => ih (h1.2.2 x w' e) fun rs w hr => ?_⟩
    refine h2 (x :: rs) w ?_
    simp only [run, e, hr, bind, Outcome.bind, pure]

/-- Reachable states are closed under permitted calls. -/
theorem Reach.step {w' : World V} (hr : Reach t checks w) {op : Op V} (hp : Permitted w op) (hN : NoOverflow t w op) {x : Resp V} (e : exec t checks w op = .ret (x, w')) : Reach t checks w' := by
  obtain ⟨mem, ops, rs, hs, h⟩ := hr
  refine ⟨mem, ops ++ [op], rs ++ [x], safe_append hs fun rs' u hu => ?_, run_append h e⟩
  rw [h] at hu
  cases hu
  exact ⟨hp, hN⟩
end RcM

/-! ## C52 -/

/-- **C52** Every history of permitted calls, from any contents of the memory and with any interleaving of destructors, is answered as the specification with only handles (no counters) says. In particular no call is undefined behaviour, and none panics. -/
theorem C52_refines {V : Type} {t : Target} {checks : Bool} {mem : Nat → RcBox V} {ops : List (Op V)} (hs : SafeRun t checks (World.init mem) ops) :
    ∃ w, run t checks (World.init mem) ops = .ret ((srun SWorld.init ops).1, w) := by
  obtain ⟨w, e, _⟩ := sim_run (wrel_init mem) hs
  exact ⟨w, e⟩

/-- **C52** `strong_count` by any handle is the number of strong handles of the allocation. -/
theorem C52_strong_count {V : Type} {t : Target} {checks : Bool} {w : World V} (hr : Reach t checks w) {k : HKind} {h a : Nat} (hx : w.hs[h]? = some (some ⟨k, a, false⟩)) :
    exec t checks w (.strongCount h) = .ret (.num (handles w.hs .strong a), w) := by
  obtain ⟨sw, r⟩ := reach_rel hr
  cases k with
  | strong => obtain ⟨v, hc, ho, hm, hpos⟩ := live_of r hx; simp [exec, usable_any hx, hm]
  | weak => obtain ⟨_, hst, _⟩ := weak_of r hx; simp [exec, usable_any hx, hst]

/-- **C52** `weak_count` is the number of `Weak` handles, and one more while strong handles exist. -/
theorem C52_weak_count {V : Type} {t : Target} {checks : Bool} {w : World V} (hr : Reach t checks w) {k : HKind} {h a : Nat} (hx : w.hs[h]? = some (some ⟨k, a, false⟩)) :
    exec t checks w (.weakCount h) = .ret (.num (handles w.hs .weak a + if 0 < handles w.hs .strong a then 1 else 0), w) := by
  obtain ⟨sw, r⟩ := reach_rel hr
  cases k with
  | strong => obtain ⟨v, hc, ho, hm, hpos⟩ := live_of r hx; simp [exec, usable_any hx, hm, hpos]
  | weak =>
    obtain ⟨_, _, hwk, _⟩ := weak_of r hx
    simp only [exec, usable_any hx, hwk]
    by_cases h0 : handles w.hs .strong a = 0
    · simp [h0]
    · rw [if_neg h0, if_pos (by omega)]

/-- **C52** `clone`, `downgrade`, `upgrade` and cloning a `Weak` each make exactly one handle, to the same allocation. -/
theorem C52_new_handle {V : Type} {t : Target} {checks : Bool} {w : World V} (hr : Reach t checks w) {h a : Nat} :
    (w.hs[h]? = some (some ⟨.strong, a, false⟩) → NoOverflow t w (.clone h : Op V) → ∃ w', exec t checks w (.clone h) = .ret (.handle w.hs.length, w') ∧ w'.hs = w.hs ++ [some ⟨.strong, a, false⟩]) ∧
    (w.hs[h]? = some (some ⟨.strong, a, false⟩) → NoOverflow t w (.downgrade h : Op V) → ∃ w', exec t checks w (.downgrade h) = .ret (.handle w.hs.length, w') ∧ w'.hs = w.hs ++ [some ⟨.weak, a, false⟩]) ∧
    (w.hs[h]? = some (some ⟨.weak, a, false⟩) → NoOverflow t w (.cloneWeak h : Op V) → ∃ w', exec t checks w (.cloneWeak h) = .ret (.handle w.hs.length, w') ∧ w'.hs = w.hs ++ [some ⟨.weak, a, false⟩]) := by
  refine ⟨fun hx hN => ?_, fun hx hN => ?_, fun hx hN => ?_⟩
  · obtain ⟨sw, w', r, e, r'⟩ := step_of hr (op := .clone h) ⟨a, hx⟩ hN
    refine ⟨w', ?_, ?_⟩
    · rw [e]; simp only [sexec, ← r.hs, usable_of hx]
    · rw [r'.hs]; simp only [sexec, ← r.hs, usable_of hx, SWorld.add]
  · obtain ⟨sw, w', r, e, r'⟩ := step_of hr (op := .downgrade h) ⟨a, hx⟩ hN
    refine ⟨w', ?_, ?_⟩
    · rw [e]; simp only [sexec, ← r.hs, usable_of hx]
    · rw [r'.hs]; simp only [sexec, ← r.hs, usable_of hx, SWorld.add]
  · obtain ⟨sw, w', r, e, r'⟩ := step_of hr (op := .cloneWeak h) ⟨a, hx⟩ hN
    refine ⟨w', ?_, ?_⟩
    · rw [e]; simp only [sexec, ← r.hs, usable_of hx]
    · rw [r'.hs]; simp only [sexec, ← r.hs, usable_of hx, SWorld.add]

/-! ## C53 -/

/-- **C53** As long as a strong handle exists it gives access to the value. -/
theorem C53_accessible {V : Type} {t : Target} {checks : Bool} {w : World V} (hr : Reach t checks w) {h : Nat} (hu : Usable w.hs .strong h) : ∃ v, Shows t checks w h v := by
  obtain ⟨a, hx⟩ := hu
  obtain ⟨_, v, _, _, hm, _⟩ := reach_live hr hx
  exact ⟨v, (shows_val hx).mpr (by rw [hm])⟩

/-- **C53** All handles of an allocation give access to the same value. -/
theorem C53_shared {V : Type} {t : Target} {checks : Bool} {w : World V} {h h' a : Nat} {v : V} (hx : w.hs[h]? = some (some ⟨.strong, a, false⟩)) (hy : w.hs[h']? = some (some ⟨.strong, a, false⟩))
    (hv : Shows t checks w h v) : Shows t checks w h' v := (shows_val hy).mpr ((shows_val hx).mp hv)

/-- **C53** Dropping a strong handle runs the destructor of the value if no other strong handle exists, else no destructor. -/
theorem C53_drop {V : Type} {t : Target} {checks : Bool} {w : World V} (hr : Reach t checks w) {h a : Nat} {v : V} (hx : w.hs[h]? = some (some ⟨.strong, a, false⟩)) (hv : Shows t checks w h v) :
    ∃ w', exec t checks w (.dropRc h) = .ret (.unit, w') ∧ w'.hs = w.hs.set h none ∧
      (handles w.hs .strong a = 1 → w'.log = w.log ++ [v] ∧ w'.running = a :: w.running) ∧ (handles w.hs .strong a ≠ 1 → w'.log = w.log ∧ w'.running = w.running) := by
  obtain ⟨sw, w', r, e, r'⟩ := step_of hr (op := .dropRc h) ⟨a, hx⟩ trivial
  obtain ⟨u, hc, _, hm, _⟩ := live_of r hx
  have hu : u = v := by
    have := (shows_val hx).mp hv
    rw [hm] at this
    exact Option.some.inj this
  subst hu
  simp only [sexec, ← r.hs, usable_of hx, hc] at e r'
  refine ⟨w', ?_, ?_, fun h1 => ?_, fun h1 => ?_⟩
  · rw [e]; split <;> rfl
  · rw [r'.hs]; split <;> simp [SWorld.kill, SWorld.set, r.hs]
  · rw [if_pos h1] at r'
    exact ⟨by rw [r'.log, r.log], by rw [r'.running, r.running]⟩
  · rw [if_neg h1] at r'
    exact ⟨by rw [r'.log, r.log]; rfl, by rw [r'.running, r.running]; rfl⟩

/-- **C53** No other call runs a destructor. -/
theorem C53_no_other_drop {V : Type} {t : Target} {checks : Bool} {w w' : World V} (hr : Reach t checks w) {op : Op V} (hp : Permitted w op) (hN : NoOverflow t w op) {x : Resp V}
    (e : exec t checks w op = .ret (x, w')) (hop : ∀ h, op ≠ .dropRc h) : w'.log = w.log := by
  obtain ⟨sw, w1, r, e1, r1⟩ := step_of hr hp hN
  rw [e] at e1
  obtain ⟨_, rfl⟩ := Prod.mk.inj (Outcome.ret.inj e1)
  rw [r1.log, r.log]
  cases op with
  | dropRc h => exact absurd rfl (hop h)
  | _ =>
    simp only [sexec]
    repeat' split
    all_goals rfl

/-- **C53** `upgrade` gives `None` exactly if there is no strong handle, else a new strong handle. -/
theorem C53_upgrade {V : Type} {t : Target} {checks : Bool} {w : World V} (hr : Reach t checks w) {h a : Nat} (hx : w.hs[h]? = some (some ⟨.weak, a, false⟩)) (hN : NoOverflow t w (.upgrade h : Op V)) :
    (handles w.hs .strong a = 0 → exec t checks w (.upgrade h) = .ret (.none, w)) ∧
    (0 < handles w.hs .strong a → ∃ w', exec t checks w (.upgrade h) = .ret (.handle w.hs.length, w') ∧ w'.hs = w.hs ++ [some ⟨.strong, a, false⟩]) := by
  obtain ⟨sw, r⟩ := reach_rel hr
  obtain ⟨_, hst, _⟩ := weak_of r hx
  refine ⟨fun h0 => by simp [exec, usable_block hx, hst, h0], fun h0 => ?_⟩
  obtain ⟨sw, w', r, e, r'⟩ := step_of hr (op := .upgrade h) ⟨a, hx⟩ hN
  have hne : handles w.hs .strong a ≠ 0 := by omega
  simp only [sexec, ← r.hs, usable_of hx, hne, if_false] at e r'
  exact ⟨w', e, by rw [r'.hs]; simp only [SWorld.add, r.hs]⟩

/-- **C53** `try_unwrap` moves the value out exactly if the handle is the only strong one; then only weak handles are left. -/
theorem C53_try_unwrap {V : Type} {t : Target} {checks : Bool} {w : World V} (hr : Reach t checks w) {h a : Nat} {v : V} (hx : w.hs[h]? = some (some ⟨.strong, a, false⟩)) (hv : Shows t checks w h v) :
    (handles w.hs .strong a = 1 → ∃ w', exec t checks w (.tryUnwrap h) = .ret (.unwrapped v w.hs.length, w') ∧ w'.hs = w.hs.set h none ++ [some ⟨.weak, a, false⟩] ∧ handles w'.hs .strong a = 0) ∧
    (handles w.hs .strong a ≠ 1 → exec t checks w (.tryUnwrap h) = .ret (.err, w)) := by
  obtain ⟨_, u, r0, _, hm, hpos⟩ := reach_live hr hx
  have hu : u = v := by
    have := (shows_val hx).mp hv
    rw [hm] at this
    exact Option.some.inj this
  subst hu
  refine ⟨fun h1 => ?_, fun h1 => by simp [exec, usable_block hx, hm, h1]⟩
  refine ⟨((w.setMem a ⟨some u, 0, handles w.hs .weak a + 1⟩).kill h).add .weak a, ?_, rfl, ?_⟩
  · simp [exec, usable_block hx, hm, h1, RcBox.decStrong, minusOne, bind, Outcome.bind, pure]
  · have := handles_kill hx .strong a
    simp only [and_self, if_true] at this
    simp only [World.add, World.kill, World.setMem, handles_add]
    simp
    omega

/-- **C53** The value changes only by `get_mut` through the handle: any other call leaves what the handle shows, as long as the handle is not consumed. -/
theorem C53_stable {V : Type} {t : Target} {checks : Bool} {w w' : World V} (hr : Reach t checks w) {h : Nat} {v : V} (hu : Usable w.hs .strong h) (hv : Shows t checks w h v)
    {op : Op V} (hp : Permitted w op) (hN : NoOverflow t w op) {x : Resp V} (e : exec t checks w op = .ret (x, w')) (hu' : Usable w'.hs .strong h) (hop : ∀ u, op ≠ .replace h u) : Shows t checks w' h v := by
  obtain ⟨sw, w1, r, e1, r1⟩ := step_of hr hp hN
  rw [e] at e1
  obtain ⟨_, rfl⟩ := Prod.mk.inj (Outcome.ret.inj e1)
  obtain ⟨a, hx⟩ := hu
  obtain ⟨a', hx'⟩ := hu'
  -- handles keep their block
  have hk : a' = a := by
    have key : ∀ hs' : List (Option Handle), (hs' = w.hs ∨ (∃ y, hs' = w.hs ++ [some y]) ∨ (∃ j, hs' = w.hs.set j none) ∨ (∃ j y, hs' = w.hs.set j none ++ [some y]) ∨ (∃ j y, w.hs[j]? = some (some y) ∧ hs' = w.hs.set j (some { y with forgotten := true }))) →
        hs'[h]? = some (some ⟨.strong, a', false⟩) → a' = a := by
      have hl : h < w.hs.length := (List.getElem?_eq_some_iff.mp hx).1
      rintro hs' (rfl | ⟨y, rfl⟩ | ⟨j, rfl⟩ | ⟨j, y, rfl⟩ | ⟨j, y, hy, rfl⟩) hh
      · rw [hx] at hh; cases hh; rfl
      · rw [List.getElem?_append_left hl, hx] at hh; cases hh; rfl
      · rw [List.getElem?_set] at hh
        split at hh
        · split at hh <;> cases hh
        · rw [hx] at hh; cases hh; rfl
      · rw [List.getElem?_append_left (by simpa using hl), List.getElem?_set] at hh
        split at hh
        · split at hh <;> cases hh
        · rw [hx] at hh; cases hh; rfl
      · rw [List.getElem?_set] at hh
        split at hh
        · split at hh
          · have := congrArg (Option.map (Option.map Handle.forgotten)) hh
            simp at this
          · cases hh
        · rw [hx] at hh; cases hh; rfl
    refine key w'.hs ?_ hx'
    rw [r1.hs, r.hs]
    cases op with
    | forget j =>
      simp only [sexec]
      split
      · rename_i y hy; exact .inr (.inr (.inr (.inr ⟨j, y, by rw [← hy], rfl⟩)))
      · exact .inl rfl
    | dropWeak j => exact .inr (.inr (.inl ⟨j, rfl⟩))
    | _ =>
      simp only [sexec]
      repeat' split
      all_goals first
        | exact .inl rfl
        | exact .inr (.inl ⟨_, rfl⟩)
        | exact .inr (.inr (.inl ⟨_, rfl⟩))
        | exact .inr (.inr (.inr (.inl ⟨_, _, rfl⟩)))
        | exact .inl trivial
  subst hk
  obtain ⟨u, hc, _, hm, _⟩ := live_of r hx
  obtain ⟨u', hc', _, hm', _⟩ := live_of r1 hx'
  have huv : u = v := by
    have := (shows_val hx).mp hv
    rw [hm] at this
    exact Option.some.inj this
  subst huv
  refine (shows_val hx').mpr ?_
  rw [hm']
  -- the cell is the same
  have hpos := handles_pos hx
  have hpos' := handles_pos hx'
  have owner_ne : ∀ {b}, w.owner b ≠ .rc → b ≠ a' := by
    rintro b hb rfl
    obtain ⟨_, _, ho, _⟩ := live_of r hx
    exact hb ho
  suffices sw.cells a' = (sexec sw op).2.cells a' ∨ ∃ j u, op = .replace j u ∧ blockOf w.hs j = some a' ∧ handles w.hs .strong a' = 1 by
    rcases this with hs | ⟨j, y, rfl, hj, h1⟩
    · rw [hc, hc'] at hs; cases hs; rfl
    · exfalso
      -- the only strong handle is `h`
      obtain ⟨b, hxj⟩ := hp
      rw [usable_of hxj] at hj
      cases hj
      by_cases hjh : j = h
      · exact hop y (by rw [hjh])
      · have h2 := handles_kill hx .strong a'
        simp only [and_self, if_true] at h2
        have : (w.hs.set h none)[j]? = some (some ⟨.strong, a', false⟩) := by
          rw [List.getElem?_set, if_neg (fun h => hjh h.symm)]; exact hxj
        have := handles_pos this
        omega
  cases op with
  | new b y =>
    have hb : b ≠ a' := owner_ne (by rw [hp]; simp)
    exact .inl (by simp [sexec, SWorld.set, SWorld.add, Ne.symm hb])
  | fromRaw b =>
    have hb : b ≠ a' := owner_ne (by rw [hp]; simp)
    obtain ⟨_, hcb⟩ := raw_of r hp
    exact .inl (by simp [sexec, hcb, SWorld.set, SWorld.add, Ne.symm hb])
  | rawReplace b y =>
    have hb : b ≠ a' := owner_ne (by rw [hp]; simp)
    obtain ⟨_, hcb⟩ := raw_of r hp
    exact .inl (by simp [sexec, hcb, SWorld.set, Ne.symm hb])
  | rawTake b =>
    have hb : b ≠ a' := owner_ne (by rw [hp]; simp)
    obtain ⟨_, hcb⟩ := raw_of r hp
    exact .inl (by simp [sexec, hcb, SWorld.set, Ne.symm hb])
  | replace j y =>
    obtain ⟨b, hxj⟩ := hp
    obtain ⟨z, hcb, _⟩ := live_of r hxj
    simp only [sexec, ← r.hs, usable_of hxj, hcb]
    by_cases hb : b = a'
    · subst hb
      split
      · rename_i h1
        exact .inr ⟨j, y, rfl, usable_of hxj, h1.1⟩
      · exact .inl rfl
    · split
      · exact .inl (by simp [SWorld.set, Ne.symm hb])
      · exact .inl rfl
  | dropRc j =>
    obtain ⟨b, hxj⟩ := hp
    obtain ⟨z, hcb, _⟩ := live_of r hxj
    simp only [sexec, ← r.hs, usable_of hxj, hcb] at hc' ⊢
    split
    · rename_i h1
      rw [if_pos h1] at hc'
      by_cases hb : b = a'
      · subst hb; simp [SWorld.set] at hc'
      · exact .inl (by simp [SWorld.set, SWorld.kill, Ne.symm hb])
    · exact .inl rfl
  | tryUnwrap j =>
    obtain ⟨b, hxj⟩ := hp
    obtain ⟨z, hcb, _⟩ := live_of r hxj
    simp only [sexec, ← r.hs, usable_of hxj, hcb] at hc' ⊢
    split
    · rename_i h1
      rw [if_pos h1] at hc'
      by_cases hb : b = a'
      · subst hb; simp [SWorld.set] at hc'
      · exact .inl (by simp [SWorld.set, SWorld.kill, SWorld.add, Ne.symm hb])
    · exact .inl rfl
  | intoRaw j =>
    obtain ⟨b, hxj⟩ := hp
    obtain ⟨z, hcb, _⟩ := live_of r hxj
    simp only [sexec, ← r.hs, usable_of hxj, hcb] at hc' ⊢
    split
    · rename_i h1
      rw [if_pos h1] at hc'
      by_cases hb : b = a'
      · subst hb; simp [SWorld.set] at hc'
      · exact .inl (by simp [SWorld.set, SWorld.kill, Ne.symm hb])
    · exact .inl rfl
  | weakTryUnwrap j =>
    obtain ⟨b, hxj⟩ := hp
    simp only [sexec, ← r.hs, usable_of hxj] at hc' ⊢
    split
    · rename_i h1
      rw [if_pos h1] at hc'
      by_cases hb : b = a'
      · subst hb; simp [SWorld.set] at hc'
      · exact .inl (by simp [SWorld.set, SWorld.kill, Ne.symm hb])
    · exact .inl rfl
  | _ =>
    left
    simp only [sexec]
    repeat' split
    all_goals rfl

/-- **C53** Over any history no value leaves (by being dropped or moved out) more often than it was moved in. -/
theorem C53_at_most_once {V : Type} [DecidableEq V] {t : Target} {checks : Bool} {mem : Nat → RcBox V} {ops : List (Op V)} {rs : List (Resp V)} {w : World V}
    (hs : SafeRun t checks (World.init mem) ops) (hr : run t checks (World.init mem) ops = .ret (rs, w)) (v : V) :
    (outputsOf ops rs).count v + w.log.count v ≤ (inputsOf ops rs).count v := by
  obtain ⟨N, sw, _, h⟩ := values_spec hs hr
  have := h v
  omega

/-- **C53** Once no strong handle and no raw value is left, every value was dropped or moved out exactly once. -/
theorem C53_exactly_once {V : Type} [DecidableEq V] {t : Target} {checks : Bool} {mem : Nat → RcBox V} {ops : List (Op V)} {rs : List (Resp V)} {w : World V}
    (hs : SafeRun t checks (World.init mem) ops) (hr : run t checks (World.init mem) ops = .ret (rs, w)) (hend : ∀ a, handles w.hs .strong a = 0) (hraw : ∀ a, w.owner a ≠ .raw) :
    (outputsOf ops rs ++ w.log).Perm (inputsOf ops rs) := by
  obtain ⟨N, sw, r, h⟩ := values_spec hs hr
  have h0 : stored N sw = [] := by
    simp only [stored, List.flatMap_eq_nil_iff]
    intro a _
    have hc := r.cells a
    cases hcc : sw.cells a with
    | free => rfl
    | dead => rfl
    | live v => rw [hcc] at hc; have := hc.2.2.2.2; rw [hend a] at this; omega
    | raw v => rw [hcc] at hc; exact absurd hc.1 (hraw a)
  rw [List.perm_iff_count]
  intro v
  have := h v
  rw [h0] at this
  rw [List.count_append]
  simpa using this.symm

/-! ## C54 -/

/-- **C54** `get_mut` gives access (with which the value is replaced here) exactly if the handle is the only handle of either kind. -/
theorem C54_get_mut {V : Type} {t : Target} {checks : Bool} {w : World V} (hr : Reach t checks w) {h a : Nat} {old : V} (hx : w.hs[h]? = some (some ⟨.strong, a, false⟩)) (hv : Shows t checks w h old) (v : V) :
    (handles w.hs .strong a = 1 ∧ handles w.hs .weak a = 0 → ∃ w', exec t checks w (.replace h v) = .ret (.val old, w') ∧ w'.hs = w.hs ∧ Shows t checks w' h v) ∧
    (¬ (handles w.hs .strong a = 1 ∧ handles w.hs .weak a = 0) → exec t checks w (.replace h v) = .ret (.err, w)) := by
  obtain ⟨_, u, r0, _, hm, hpos⟩ := reach_live hr hx
  have hu : u = old := by
    have := (shows_val hx).mp hv
    rw [hm] at this
    exact Option.some.inj this
  subst hu
  refine ⟨fun h1 => ?_, fun h1 => ?_⟩
  · refine ⟨w.setMem a ⟨some v, 1, 1⟩, by simp [exec, usable_block hx, hm, RcBox.isUnique, h1], rfl, ?_⟩
    exact (shows_val (w := w.setMem a ⟨some v, 1, 1⟩) hx).mpr (by simp [World.setMem])
  · have : ((w.mem a).isUnique) = false := by
      simp only [RcBox.isUnique, hm, Bool.and_eq_false_iff, decide_eq_false_iff_not]
      omega
    simp [exec, usable_block hx, this]

/-- **C54** So no other usable handle shows the value that is changed. -/
theorem C54_exclusive {V : Type} {t : Target} {checks : Bool} {w w' : World V} (hr : Reach t checks w) {h a : Nat} {v old : V} (hx : w.hs[h]? = some (some ⟨.strong, a, false⟩))
    (e : exec t checks w (.replace h v) = .ret (.val old, w')) : ∀ h' x, w.hs[h']? = some (some x) → x.block = a → h' = h := by
  obtain ⟨u, hu⟩ := C53_accessible hr ⟨a, hx⟩
  intro h' x hx' hb
  by_cases h1 : handles w.hs .strong a = 1 ∧ handles w.hs .weak a = 0
  · by_contra hne
    have : (w.hs.set h none)[h']? = some (some x) := by
      rw [List.getElem?_set, if_neg (fun h => hne h.symm)]; exact hx'
    obtain ⟨k, b, f⟩ := x
    subst hb
    have hp := handles_pos this
    have hk := handles_kill hx k b
    cases k with
    | strong => simp only [and_self, if_true] at hk; simp only at *; omega
    | weak => simp at hk; simp only at *; omega
  · have := (C54_get_mut hr hx hu v).2 h1
    rw [e] at this
    cases this

/-! ## C55 -/

/-- **C55** (partial) `Weak::try_unwrap` gives the memory exactly if the handle is the only one of either kind for the block; then there are no handles for it any more. -/
theorem C55_release_partial {V : Type} {t : Target} {checks : Bool} {w : World V} (hr : Reach t checks w) {h a : Nat} (hx : w.hs[h]? = some (some ⟨.weak, a, false⟩)) :
    (handles w.hs .strong a = 0 ∧ handles w.hs .weak a = 1 → ∃ w', exec t checks w (.weakTryUnwrap h) = .ret (.memory a, w') ∧ w'.owner a = .user ∧ w'.log = w.log ∧ ∀ k, handles w'.hs k a = 0) ∧
    (¬ (handles w.hs .strong a = 0 ∧ handles w.hs .weak a = 1) → exec t checks w (.weakTryUnwrap h) = .ret (.err, w)) := by
  obtain ⟨sw, r⟩ := reach_rel hr
  obtain ⟨ho, hst, hwk, hpos, _⟩ := weak_of r hx
  refine ⟨fun hu => ?_, fun hu => ?_⟩
  · refine ⟨((w.setMem a { w.mem a with weak := 0 }).kill h).setOwner a .user, ?_, by simp [World.setOwner], rfl, ?_⟩
    · simp [exec, usable_block hx, RcBox.isUniqueToRcMemory, hst, hwk, hu, RcBox.decWeak, minusOne, bind, Outcome.bind, pure]
    · intro k
      have hk := handles_kill hx k a
      simp only [World.setOwner, World.kill, World.setMem]
      cases k with
      | strong => simp at hk; omega
      | weak => simp only [and_self, if_true] at hk; omega
  · have : (w.mem a).isUniqueToRcMemory = false := by
      simp only [RcBox.isUniqueToRcMemory, hst, hwk, Bool.and_eq_false_iff, decide_eq_false_iff_not]
      by_cases h0 : handles w.hs .strong a = 0
      · rw [if_pos h0]; omega
      · exact .inl h0
    simp [exec, usable_block hx, this]

/-- **C55** While handles of a block exist, its memory is not the user's: so it is not given out again, nor can a new `Rc` be made in it. -/
theorem C55_not_user {V : Type} {t : Target} {checks : Bool} {w : World V} (hr : Reach t checks w) {k : HKind} {a : Nat} (hh : 0 < handles w.hs k a) : w.owner a = .rc := by
  obtain ⟨sw, r⟩ := reach_rel hr
  have hc := r.cells a
  cases hcc : sw.cells a with
  | free => rw [hcc] at hc; cases k <;> simp only [hc.2.1, hc.2.2] at hh <;> omega
  | live v => rw [hcc] at hc; exact hc.1
  | dead => rw [hcc] at hc; exact hc.1
  | raw v => rw [hcc] at hc; cases k <;> simp only [hc.2.2.2.2.1, hc.2.2.2.2.2] at hh <;> omega

/-- **C55** is violated: whenever the last strong handle is dropped while there is one `Weak`, the destructor of the value can take the memory of the value it is destroying from the `Weak`. -/
theorem C55_violated {V : Type} {t : Target} {checks : Bool} {w : World V} (hr : Reach t checks w) {h g a : Nat} (hx : w.hs[h]? = some (some ⟨.strong, a, false⟩)) (hy : w.hs[g]? = some (some ⟨.weak, a, false⟩))
    (h1 : handles w.hs .strong a = 1) (h2 : handles w.hs .weak a = 1) :
    ∃ w1 w2, exec t checks w (.dropRc h) = .ret (.unit, w1) ∧ Permitted w1 (.weakTryUnwrap g : Op V) ∧ exec t checks w1 (.weakTryUnwrap g) = .ret (.memory a, w2) ∧
      w2.running = a :: w.running ∧ w2.owner a = .user := by
  obtain ⟨v, hv⟩ := C53_accessible hr ⟨a, hx⟩
  obtain ⟨w1, e1, hhs, hl, _⟩ := C53_drop hr hx hv
  have hr1 : Reach t checks w1 := hr.step (op := .dropRc h) ⟨a, hx⟩ trivial e1
  have hne : h ≠ g := by rintro rfl; rw [hx] at hy; cases hy
  have hy1 : w1.hs[g]? = some (some ⟨.weak, a, false⟩) := by rw [hhs, List.getElem?_set, if_neg hne]; exact hy
  have hk1 := handles_kill hx .strong a
  have hk2 := handles_kill hx .weak a
  simp only [and_self, if_true, reduceCtorEq, false_and, if_false, Nat.add_zero, ← hhs] at hk1 hk2
  obtain ⟨w2, e2, ho, _, _⟩ := (C55_release_partial hr1 hy1).1 ⟨by omega, by omega⟩
  refine ⟨w1, w2, e1, ⟨a, hy1⟩, e2, ?_, ho⟩
  have : w2.running = w1.running := by
    simp only [exec, usable_block hy1] at e2
    split at e2
    · simp only [bind, Outcome.bind, pure] at e2
      cases hd : (w1.mem a).decWeak t checks with
      | ret b => rw [hd] at e2; cases e2; rfl
      | panic => rw [hd] at e2; cases e2
      | ub => rw [hd] at e2; cases e2
    · cases e2
  rw [this, (hl h1).2]

/-! ## C56 -/

/-- **C56** `into_raw` succeeds exactly for the only handle. -/
theorem C56_into_raw {V : Type} {t : Target} {checks : Bool} {w : World V} (hr : Reach t checks w) {h a : Nat} (hx : w.hs[h]? = some (some ⟨.strong, a, false⟩)) :
    (handles w.hs .strong a = 1 ∧ handles w.hs .weak a = 0 → ∃ w', exec t checks w (.intoRaw h) = .ret (.memory a, w') ∧ w'.log = w.log ∧ w'.owner a = .raw ∧ w'.hs = w.hs.set h none) ∧
    (¬ (handles w.hs .strong a = 1 ∧ handles w.hs .weak a = 0) → exec t checks w (.intoRaw h) = .ret (.err, w)) := by
  obtain ⟨_, u, r0, _, hm, hpos⟩ := reach_live hr hx
  refine ⟨fun h1 => ⟨(w.kill h).setOwner a .raw, by simp [exec, usable_block hx, RcBox.isUnique, hm, h1], rfl, by simp [World.setOwner], rfl⟩, fun h1 => ?_⟩
  have : ((w.mem a).isUnique) = false := by
    simp only [RcBox.isUnique, hm, Bool.and_eq_false_iff, decide_eq_false_iff_not]
    omega
  simp [exec, usable_block hx, this]

/-- **C56** `from_raw` after `into_raw` gives back the handle: same block, same value, same counts. -/
theorem C56_round_trip {V : Type} {t : Target} {checks : Bool} {w w1 : World V} (hr : Reach t checks w) {h a : Nat} {v : V} (hx : w.hs[h]? = some (some ⟨.strong, a, false⟩)) (hv : Shows t checks w h v)
    (e : exec t checks w (.intoRaw h) = .ret (.memory a, w1)) :
    ∃ w2, exec t checks w1 (.fromRaw a) = .ret (.handle w.hs.length, w2) ∧ Reach t checks w2 ∧ w2.hs[w.hs.length]? = some (some ⟨.strong, a, false⟩) ∧ Shows t checks w2 w.hs.length v ∧
      (∀ k, handles w2.hs k a = handles w.hs k a) ∧ w2.mem = w.mem := by
  have hu : handles w.hs .strong a = 1 ∧ handles w.hs .weak a = 0 := by
    by_contra hn
    have := (C56_into_raw hr hx).2 hn
    rw [e] at this
    cases this
  obtain ⟨w1', e1, _, ho, hhs⟩ := (C56_into_raw hr hx).1 hu
  rw [e] at e1
  obtain rfl : w1 = w1' := (Prod.mk.inj (Outcome.ret.inj e1)).2
  have hr1 : Reach t checks w1 := hr.step (op := .intoRaw h) ⟨a, hx⟩ trivial e
  have hlen : w1.hs.length = w.hs.length := by rw [hhs, List.length_set]
  have hmem : w1.mem = w.mem := by
    simp only [exec, usable_block hx] at e
    split at e
    · cases e; rfl
    · cases e
  have e2 : exec t checks w1 (.fromRaw a) = .ret (.handle w.hs.length, (w1.setOwner a .rc).add .strong a) := by simp only [exec, hlen]
  have hx2 : ((w1.setOwner a .rc).add .strong a).hs[w.hs.length]? = some (some ⟨.strong, a, false⟩) := by
    simp only [World.add, World.setOwner]
    rw [← hlen, List.getElem?_concat_length]
  refine ⟨_, e2, hr1.step (op := .fromRaw a) ho trivial e2, hx2, (shows_val hx2).mpr ?_, fun k => ?_, hmem⟩
  · show (w1.mem a).val = _
    rw [hmem]
    exact (shows_val hx).mp hv
  · have hk := handles_kill hx k a
    simp only [World.add, World.setOwner, handles_add, hhs]
    simpa using hk

/-- **C56** While it is raw, the value can be replaced; `from_raw` then gives a handle with the new value. -/
theorem C56_raw_modify {V : Type} {t : Target} {checks : Bool} {w : World V} (hr : Reach t checks w) {a : Nat} (ho : w.owner a = .raw) (v : V) :
    ∃ old w1 w2, exec t checks w (.rawReplace a v) = .ret (.val old, w1) ∧ exec t checks w1 (.fromRaw a) = .ret (.handle w.hs.length, w2) ∧ Shows t checks w2 w.hs.length v := by
  obtain ⟨sw, r⟩ := reach_rel hr
  obtain ⟨old, hc⟩ := raw_of r ho
  have := r.cells a
  rw [hc] at this
  refine ⟨old, w.setMem a { w.mem a with val := some v }, _, by simp [exec, this.2.1], rfl, ?_⟩
  refine (shows_val (a := a) ?_).mpr ?_
  · simp [World.add, World.setOwner, World.setMem]
  · simp [World.add, World.setOwner, World.setMem]

theorem fields_within {t : Target} {T : Layout} (hT : T.ValidType t) :
    reprCOffsets 0 (RcM.fields t T) = [0, alignUp t.wordBytes T.size, alignUp t.wordBytes T.size + t.wordBytes] ∧ T.size ≤ alignUp t.wordBytes T.size ∧
      alignUp t.wordBytes T.size + t.wordBytes + t.wordBytes ≤ (rcLayout t T).size ∧ T.align ∣ (rcLayout t T).align ∧ t.wordBytes ∣ (rcLayout t T).align ∧ (rcLayout t T).align ∣ (rcLayout t T).size := by
  have hw : 0 < t.wordBytes := by cases t <;> decide
  have hw2 : IsPow2 t.wordBytes := by cases t; exact ⟨1, rfl⟩; exact ⟨2, rfl⟩; exact ⟨3, rfl⟩
  have hd := (alignUp_isFirstAligned hw T.size).2.1
  have hmax : 0 < max T.align t.wordBytes := by omega
  refine ⟨?_, (alignUp_isFirstAligned hw T.size).1, ?_, ?_, ?_, ?_⟩
  · simp only [RcM.fields, reprCOffsets, Nat.zero_add, alignUp_of_dvd hT.1.1.pos (Nat.dvd_zero _)]
    rw [alignUp_of_dvd hw (Nat.dvd_add hd (Nat.dvd_refl _))]
  · exact (alignUp_isFirstAligned hmax _).1
  · simp only [rcLayout]
    rcases Nat.le_total T.align t.wordBytes with h | h
    · rw [Nat.max_eq_right h]; exact hT.1.1.dvd_of_le hw2 h
    · rw [Nat.max_eq_left h]
  · simp only [rcLayout]
    rcases Nat.le_total T.align t.wordBytes with h | h
    · rw [Nat.max_eq_right h]
    · rw [Nat.max_eq_left h]; exact hw2.dvd_of_le hT.1.1 h
  · exact (alignUp_isFirstAligned hmax _).2.1

/-- The addresses of value, strong and weak counter in a block. -/
def rcFieldRegions (t : Target) (T : Layout) (addr : Nat) : List Region :=
  List.zipWith (fun (o : Nat) (l : Layout) => (⟨addr + o, l.size⟩ : Region)) (reprCOffsets 0 (RcM.fields t T)) (RcM.fields t T)

/-- **C56** `Rc::layout` describes memory in which, by the rules for `repr(C)`, the value (at the start) and the two counters are within the memory, do not overlap, and are aligned, for every value layout. -/
theorem C56_layout {t : Target} {T : Layout} (hT : T.ValidType t) {addr : Nat} (ha : (rcLayout t T).align ∣ addr) :
    ∃ v s k, rcFieldRegions t T addr = [v, s, k] ∧ v = ⟨addr, T.size⟩ ∧ s.size = t.wordBytes ∧ k.size = t.wordBytes ∧
      (∀ r ∈ [v, s, k], r.Within ⟨addr, (rcLayout t T).size⟩) ∧ v.Disjoint s ∧ v.Disjoint k ∧ s.Disjoint k ∧
      T.align ∣ v.start ∧ t.wordBytes ∣ s.start ∧ t.wordBytes ∣ k.start := by
  obtain ⟨h1, h2, h3, h4, h5, _⟩ := fields_within hT
  have hw : 0 < t.wordBytes := by cases t <;> decide
  have hd := (alignUp_isFirstAligned hw T.size).2.1
  refine ⟨⟨addr, T.size⟩, ⟨addr + alignUp t.wordBytes T.size, t.wordBytes⟩, ⟨addr + (alignUp t.wordBytes T.size + t.wordBytes), t.wordBytes⟩, ?_, rfl, rfl, rfl, ?_, ?_, ?_, ?_, ?_, ?_, ?_⟩
  · simp only [rcFieldRegions, h1]
    simp [RcM.fields]
  · intro r hr
    simp only [List.mem_cons, List.not_mem_nil, or_false] at hr
    rcases hr with rfl | rfl | rfl <;> simp only [Region.Within] <;> omega
  · exact Region.disjoint_of_le (by simp only; omega)
  · exact Region.disjoint_of_le (by simp only; omega)
  · exact Region.disjoint_of_le (by simp only; omega)
  · exact Nat.dvd_trans h4 ha
  · exact Nat.dvd_add (Nat.dvd_trans h5 ha) hd
  · exact Nat.dvd_add (Nat.dvd_trans h5 ha) (Nat.dvd_add hd (Nat.dvd_refl _))

/-- **C56** `Rc::new` accepts exactly memory that can hold the layout (and panics otherwise); the value is put at the start of the memory. -/
theorem C56_new {t : Target} {T : Layout} (hT : (rcLayout t T).ValidType t) (memory : View) :
    (CanHold (AnyView.sized memory).region (rcLayout t T) → ∃ inner, newView t T memory = .ret inner ∧ (AnyView.sized inner).region = (AnyView.sized memory).region ∧ valuePtr inner = memory.addr) ∧
    (¬ CanHold (AnyView.sized memory).region (rcLayout t T) → newView t T memory = .panic) := by
  refine ⟨fun h => ⟨⟨memory.addr, memory.len, rcLayout t T⟩, ?_, rfl, rfl⟩, fun h => ?_⟩
  · rw [newView, if_pos ((C40_fits hT).mpr h), (C40_cast hT).1 h]
  · rw [newView, if_neg (fun hf => h ((C40_fits hT).mp hf))]

/-- **C56** `into_raw` of such an `Rc` gives a view of all its memory at the address of the value, and `from_raw` accepts it again, with and without debug assertions. -/
theorem C56_raw_views {t : Target} {checks : Bool} {T : Layout} (hT : T.ValidType t) (hR : (rcLayout t T).ValidType t) {memory inner : View} (h : newView t T memory = .ret inner) :
    ∃ raw, intoRawView T inner = .ret raw ∧ raw.T = T ∧ raw.addr = valuePtr inner ∧ (AnyView.sized raw).region = (AnyView.sized inner).region ∧ CanHold (AnyView.sized raw).region T ∧
      fromRawView t checks T raw = .ret inner ∧ (AnyView.sized (releaseView inner)).region = (AnyView.sized memory).region := by
  obtain ⟨h1, h2, h3, h4, h5, _⟩ := fields_within hT
  have hc : CanHold (AnyView.sized memory).region (rcLayout t T) := by
    by_contra hn
    rw [(C56_new hR memory).2 hn] at h
    cases h
  have e : inner = ⟨memory.addr, memory.len, rcLayout t T⟩ := by
    rw [newView, if_pos ((C40_fits hR).mpr hc), (C40_cast hR).1 hc] at h
    exact (Outcome.ret.inj h).symm
  subst e
  have hcT : CanHold (AnyView.sized (fromMemory memory.addr memory.len)).region T := ⟨Nat.dvd_trans h4 hc.1, Nat.le_trans (by omega) hc.2⟩
  refine ⟨⟨memory.addr, memory.len, T⟩, ?_, rfl, rfl, rfl, hcT, ?_, rfl⟩
  · rw [intoRawView, (C40_cast hT).1 hcT]; rfl
  · have hc' : CanHold (AnyView.sized ⟨memory.addr, memory.len, T⟩).region (rcLayout t T) := hc
    rw [fromRawView, if_neg (fun hf => hf.2 ((C40_fits hR).mpr hc')), (C40_cast hR).1 hc']

end Verif
