import Verif.Spec.Rc
/-! # Counters and handles -/
namespace Verif.RcM
open Verif

variable {V : Type} {t : Target} {checks : Bool}

theorem handles_add (hs : List (Option Handle)) (k k' : HKind) (a a' : Nat) (f : Bool) :
    handles (hs ++ [some ⟨k', a', f⟩]) k a = handles hs k a + if k' = k ∧ a' = a then 1 else 0 := by
  simp [handles, List.countP_append, List.countP_cons, isFor]

theorem handles_set {hs : List (Option Handle)} {h : Nat} {x : Option Handle} (hx : hs[h]? = some x) (y : Option Handle) (k : HKind) (a : Nat) :
    handles (hs.set h y) k a + (if isFor k a x then 1 else 0) = handles hs k a + if isFor k a y then 1 else 0 := by
  obtain ⟨hl, hx⟩ := List.getElem?_eq_some_iff.mp hx
  simp only [handles, List.countP_set hl, hx]
  have : (if isFor k a x = true then 1 else 0) ≤ List.countP (isFor k a) hs := by
    split
    · rename_i hp
      exact List.countP_pos_iff.mpr ⟨x, hx ▸ List.getElem_mem hl, hp⟩
    · exact Nat.zero_le _
  omega

theorem handles_kill {hs : List (Option Handle)} {h : Nat} {k' : HKind} {a' : Nat} {f : Bool} (hx : hs[h]? = some (some ⟨k', a', f⟩)) (k : HKind) (a : Nat) :
    handles (hs.set h none) k a + (if k' = k ∧ a' = a then 1 else 0) = handles hs k a := by
  have := handles_set hx none k a
  simpa [isFor] using this

theorem handles_forget {hs : List (Option Handle)} {h : Nat} {x : Handle} (hx : hs[h]? = some (some x)) (k : HKind) (a : Nat) :
    handles (hs.set h (some { x with forgotten := true })) k a = handles hs k a := by
  have := handles_set hx (some { x with forgotten := true }) k a
  have e : isFor k a (some { x with forgotten := true }) = isFor k a (some x) := rfl
  rw [e] at this
  exact Nat.add_right_cancel this

theorem handles_pos {hs : List (Option Handle)} {h : Nat} {k : HKind} {a : Nat} {f : Bool} (hx : hs[h]? = some (some ⟨k, a, f⟩)) : 0 < handles hs k a := by
  have := handles_kill hx k a
  simp only [and_self, if_true] at this
  omega

/-- A block in memory, with `S` strong and `K` weak handles. -/
def CellRel (o : Owner) (m : RcBox V) (S K : Nat) : Cell V → Prop
  | .free => o = .user ∧ S = 0 ∧ K = 0
  | .live v => o = .rc ∧ m.val = some v ∧ m.strong = S ∧ m.weak = K + 1 ∧ 0 < S
  | .raw v => o = .raw ∧ m.val = some v ∧ m.strong = 1 ∧ m.weak = 1 ∧ S = 0 ∧ K = 0
  | .dead => o = .rc ∧ m.strong = 0 ∧ m.weak = K ∧ S = 0

structure WRel (w : World V) (sw : SWorld V) : Prop where
  hs : w.hs = sw.hs
  log : w.log = sw.dropped
  running : w.running = sw.running
  cells : ∀ a, CellRel (w.owner a) (w.mem a) (handles w.hs .strong a) (handles w.hs .weak a) (sw.cells a)

def Sim (x : Outcome (Resp V × World V)) (y : Resp V × SWorld V) : Prop := ∃ w', x = .ret (y.1, w') ∧ WRel w' y.2

theorem usable_block {w : World V} {k : HKind} {h a : Nat} (hx : w.hs[h]? = some (some ⟨k, a, false⟩)) : w.block? k h = some a := by simp [World.block?, hx]
theorem usable_any {w : World V} {k : HKind} {h a : Nat} (hx : w.hs[h]? = some (some ⟨k, a, false⟩)) : w.any? h = some a := by simp [World.any?, hx]
theorem usable_of {hs : List (Option Handle)} {k : HKind} {h a : Nat} {f : Bool} (hx : hs[h]? = some (some ⟨k, a, f⟩)) : blockOf hs h = some a := by simp [blockOf, hx]

/-- A block with a strong handle is live. -/
theorem live_of {w : World V} {sw : SWorld V} (r : WRel w sw) {h a : Nat} {f : Bool} (hx : w.hs[h]? = some (some ⟨.strong, a, f⟩)) :
    ∃ v, sw.cells a = .live v ∧ w.owner a = .rc ∧ w.mem a = ⟨some v, handles w.hs .strong a, handles w.hs .weak a + 1⟩ ∧ 0 < handles w.hs .strong a := by
  have hp := handles_pos hx
  have hc := r.cells a
  cases hs : sw.cells a with
  | live v =>
    rw [hs] at hc
    obtain ⟨h1, h2, h3, h4, h5⟩ := hc
    refine ⟨v, rfl, h1, ?_, h5⟩
    cases hm : w.mem a
    simp only [hm] at h2 h3 h4
    simp only [h2, h3, h4]
  | free => rw [hs] at hc; have := hc.2.1; omega
  | raw v => rw [hs] at hc; have := hc.2.2.2.2.1; omega
  | dead => rw [hs] at hc; have := hc.2.2.2; omega

/-- A block with a weak handle is live or dead. -/
theorem weak_of {w : World V} {sw : SWorld V} (r : WRel w sw) {h a : Nat} {f : Bool} (hx : w.hs[h]? = some (some ⟨.weak, a, f⟩)) :
    (w.owner a = .rc) ∧ (w.mem a).strong = handles w.hs .strong a ∧ (w.mem a).weak = handles w.hs .weak a + (if handles w.hs .strong a = 0 then 0 else 1) ∧ 0 < handles w.hs .weak a ∧
      ((∃ v, sw.cells a = .live v ∧ 0 < handles w.hs .strong a) ∨ (sw.cells a = .dead ∧ handles w.hs .strong a = 0)) := by
  have hp := handles_pos hx
  have hc := r.cells a
  cases hs : sw.cells a with
  | live v =>
    rw [hs] at hc
    obtain ⟨h1, h2, h3, h4, h5⟩ := hc
    exact ⟨h1, h3, by rw [h4, if_neg (by omega)], hp, .inl ⟨v, rfl, h5⟩⟩
  | dead =>
    rw [hs] at hc
    obtain ⟨h1, h2, h3, h4⟩ := hc
    exact ⟨h1, by rw [h2, h4], by rw [h3, if_pos h4, Nat.add_zero], hp, .inr ⟨rfl, h4⟩⟩
  | free => rw [hs] at hc; have := hc.2.2; omega
  | raw v => rw [hs] at hc; have := hc.2.2.2.2.2; omega

theorem plusOne_eq {a : Nat} (h : a < t.usizeMax) : plusOne t checks a = .ret (a + 1) := by
  have : a + 1 < t.W := by simp only [Target.usizeMax] at h; omega
  simp [plusOne, this]
theorem minusOne_eq {a : Nat} (h : 0 < a) : minusOne t checks a = .ret (a - 1) := by simp [minusOne, show 1 ≤ a from h]

/-- Relation after an update of one block. -/
theorem rel_at {w w' : World V} {sw sw' : SWorld V} (r : WRel w sw) (a : Nat) (hh : w'.hs = sw'.hs) (hl : w'.log = sw'.dropped) (hr : w'.running = sw'.running)
    (hother : ∀ b, b ≠ a → w'.owner b = w.owner b ∧ w'.mem b = w.mem b ∧ sw'.cells b = sw.cells b ∧ ∀ k, handles w'.hs k b = handles w.hs k b)
    (ha : CellRel (w'.owner a) (w'.mem a) (handles w'.hs .strong a) (handles w'.hs .weak a) (sw'.cells a)) : WRel w' sw' := by
  refine ⟨hh, hl, hr, fun b => ?_⟩
  by_cases hb : b = a
  · subst hb; exact ha
  · obtain ⟨h1, h2, h3, h4⟩ := hother b hb
    rw [h1, h2, h3, h4, h4]
    exact r.cells b

theorem add_other {hs : List (Option Handle)} {k k' : HKind} {a b : Nat} (hb : b ≠ a) {f : Bool} : handles (hs ++ [some ⟨k', a, f⟩]) k b = handles hs k b := by
  rw [handles_add, if_neg (fun h => hb h.2.symm), Nat.add_zero]
theorem kill_other {hs : List (Option Handle)} {h : Nat} {k k' : HKind} {a b : Nat} (hb : b ≠ a) {f : Bool} (hx : hs[h]? = some (some ⟨k', a, f⟩)) : handles (hs.set h none) k b = handles hs k b := by
  have := handles_kill hx k b
  rwa [if_neg (fun h => hb h.2.symm), Nat.add_zero] at this

variable {w : World V} {sw : SWorld V}

/-- A new strong handle for a live block. -/
theorem rel_addStrong (r : WRel w sw) {a : Nat} {v : V} (hc : sw.cells a = .live v) (ho : w.owner a = .rc) (hm : w.mem a = ⟨some v, handles w.hs .strong a, handles w.hs .weak a + 1⟩) :
    WRel ((w.setMem a ⟨some v, handles w.hs .strong a + 1, handles w.hs .weak a + 1⟩).add .strong a) (sw.add .strong a) := by
  refine rel_at r a (by simp only [World.add, World.setMem, SWorld.add, r.hs]) r.log r.running (fun b hb => ⟨rfl, if_neg hb, rfl, fun k => add_other hb⟩) ?_
  simp only [World.add, World.setMem, SWorld.add, if_true, hc, ho, handles_add]
  exact ⟨rfl, rfl, by simp, by simp, by simp⟩

theorem rel_addWeak (r : WRel w sw) {a : Nat} {b : RcBox V} (ho : w.owner a = .rc) (hv : b.val = (w.mem a).val) (hs : b.strong = (w.mem a).strong) (hk : b.weak = (w.mem a).weak + 1) :
    WRel ((w.setMem a b).add .weak a) (sw.add .weak a) := by
  refine rel_at r a (by simp only [World.add, World.setMem, SWorld.add, r.hs]) r.log r.running (fun b hb => ⟨rfl, if_neg hb, rfl, fun k => add_other hb⟩) ?_
  have hc := r.cells a
  simp only [World.add, World.setMem, SWorld.add, if_true, handles_add]
  simp only [reduceCtorEq, false_and, if_false, Nat.add_zero, and_self, if_true]
  cases hcc : sw.cells a with
  | live v => rw [hcc] at hc; obtain ⟨h1, h2, h3, h4, h5⟩ := hc; exact ⟨h1, by rw [hv, h2], by rw [hs, h3], by rw [hk, h4], h5⟩
  | dead => rw [hcc] at hc; obtain ⟨h1, h2, h3, h4⟩ := hc; exact ⟨h1, by rw [hs, h2], by rw [hk, h3], h4⟩
  | free => rw [hcc] at hc; have := hc.1; rw [ho] at this; cases this
  | raw v => rw [hcc] at hc; have := hc.1; rw [ho] at this; cases this

theorem sim_step (r : WRel w sw) {op : Op V} (hp : Permitted w op) (hN : NoOverflow t w op) : Sim (exec t checks w op) (sexec sw op) := by
  cases op with
  | new a v =>
    refine ⟨((w.setMem a (.init v)).setOwner a .rc).add .strong a, by simp only [exec, sexec, r.hs], ?_⟩
    simp only [sexec]
    simp only [Permitted] at hp
    have hc := r.cells a
    have hfree : handles w.hs .strong a = 0 ∧ handles w.hs .weak a = 0 := by
      cases hcc : sw.cells a with
      | free => rw [hcc] at hc; exact hc.2
      | live v => rw [hcc] at hc; rw [hp] at hc; cases hc.1
      | raw v => rw [hcc] at hc; rw [hp] at hc; cases hc.1
      | dead => rw [hcc] at hc; rw [hp] at hc; cases hc.1
    refine rel_at r a (by simp only [World.add, World.setOwner, World.setMem, SWorld.add, SWorld.set, r.hs]) r.log r.running (fun b hb => ⟨if_neg hb, if_neg hb, if_neg hb, fun k => add_other hb⟩) ?_
    simp only [World.add, World.setMem, World.setOwner, SWorld.add, SWorld.set, if_true, handles_add, hfree]
    exact ⟨rfl, rfl, rfl, rfl, by simp⟩
  | clone h =>
    obtain ⟨a, hx⟩ := hp
    obtain ⟨v, hc, ho, hm, hpos⟩ := live_of r hx
    have hx' := hx
    have h1 := plusOne_eq (checks := checks) (hN a (usable_of hx))
    refine ⟨(w.setMem a ⟨some v, handles w.hs .strong a + 1, handles w.hs .weak a + 1⟩).add .strong a, ?_, ?_⟩
    · simp only [exec, sexec, usable_block hx, usable_of hx', RcBox.incStrong, hm, h1, bind, Outcome.bind, pure, ← r.hs]
    · simp only [sexec, usable_of hx', ← r.hs]
      exact rel_addStrong r hc ho hm
  | downgrade h =>
    obtain ⟨a, hx⟩ := hp
    obtain ⟨v, hc, ho, hm, hpos⟩ := live_of r hx
    have hx' := hx
    have h1 := plusOne_eq (checks := checks) (hN a (usable_of hx))
    refine ⟨(w.setMem a { w.mem a with weak := (w.mem a).weak + 1 }).add .weak a, ?_, ?_⟩
    · simp only [exec, sexec, usable_block hx, usable_of hx', RcBox.incWeak, hm, h1, bind, Outcome.bind, pure, ← r.hs]
    · simp only [sexec, usable_of hx', ← r.hs]
      exact rel_addWeak r ho rfl rfl rfl
  | cloneWeak h =>
    obtain ⟨a, hx⟩ := hp
    obtain ⟨ho, hst, hwk, hpos, _⟩ := weak_of r hx
    have hx' := hx
    have h1 := plusOne_eq (t := t) (checks := checks) (a := (w.mem a).weak) (by have := hN a (usable_of hx); rw [hwk]; split <;> omega)
    refine ⟨(w.setMem a { w.mem a with weak := (w.mem a).weak + 1 }).add .weak a, ?_, ?_⟩
    · simp only [exec, sexec, usable_block hx, usable_of hx', RcBox.incWeak, h1, bind, Outcome.bind, pure, ← r.hs]
    · simp only [sexec, usable_of hx', ← r.hs]
      exact rel_addWeak r ho rfl rfl rfl
  | upgrade h =>
    obtain ⟨a, hx⟩ := hp
    obtain ⟨ho, hst, hwk, hpos, hcc⟩ := weak_of r hx
    have hx' := hx
    simp only [exec, sexec, usable_block hx, usable_of hx', hst, ← r.hs]
    rcases hcc with ⟨v, hc, hs0⟩ | ⟨hc, hs0⟩
    · rw [if_neg (by omega), if_neg (by omega)]
      have hm : w.mem a = ⟨some v, handles w.hs .strong a, handles w.hs .weak a + 1⟩ := by
        have := r.cells a
        rw [hc] at this
        obtain ⟨_, h2, h3, h4, _⟩ := this
        cases hmm : w.mem a
        simp only [hmm] at h2 h3 h4
        simp only [h2, h3, h4]
      refine ⟨_, ?_, rel_addStrong r hc ho hm⟩
      simp only [World.upgradeSome, RcBox.incStrong, hm, plusOne_eq (hN a (usable_of hx)), bind, Outcome.bind, pure]
    · rw [if_pos hs0, if_pos hs0]
      exact ⟨w, rfl, r⟩
  | dropRc h =>
    obtain ⟨a, hx⟩ := hp
    obtain ⟨v, hc, ho, hm, hpos⟩ := live_of r hx
    have hx' := hx
    have hk1 := handles_kill hx .strong a
    have hk2 := handles_kill hx .weak a
    simp only [and_self, if_true, reduceCtorEq, false_and, if_false, Nat.add_zero] at hk1 hk2
    simp only [exec, sexec, usable_block hx, usable_of hx', hc, World.dropRc, RcBox.dropRc, RcBox.decStrong, World.kill, hm, minusOne_eq hpos, bind, Outcome.bind, pure, ← r.hs]
    by_cases h1 : handles w.hs .strong a = 1
    · rw [if_pos h1]
      simp only [h1, Nat.sub_self, if_true, RcBox.decWeak, minusOne_eq (Nat.succ_pos _), bind, Outcome.bind, pure, World.beginDrop, World.setMem, Nat.add_sub_cancel]
      refine ⟨_, rfl, ?_⟩
      refine rel_at r a (by simp only [SWorld.kill, SWorld.set, r.hs]) (by simp only [SWorld.kill, SWorld.set, r.log]) (by simp only [SWorld.kill, SWorld.set, r.running]) (fun b hb => ⟨rfl, if_neg hb, if_neg hb, fun k => kill_other hb hx⟩) ?_
      simp only [SWorld.kill, SWorld.set, if_true]
      exact ⟨ho, rfl, hk2.symm, by omega⟩
    · rw [if_neg h1]
      simp only [show handles w.hs .strong a - 1 ≠ 0 by omega, if_false, Bool.false_eq_true]
      refine ⟨_, rfl, ?_⟩
      refine rel_at r a (by simp only [World.setMem, SWorld.kill, r.hs]) r.log r.running (fun b hb => ⟨rfl, if_neg hb, rfl, fun k => kill_other hb hx⟩) ?_
      simp only [World.setMem, SWorld.kill, if_true, hc]
      exact ⟨ho, rfl, by simp only; omega, by simp only; omega, by omega⟩
  | dropWeak h =>
    obtain ⟨a, hx⟩ := hp
    obtain ⟨ho, hst, hwk, hpos, hcc⟩ := weak_of r hx
    have hx' := hx
    have hk1 := handles_kill hx .strong a
    have hk2 := handles_kill hx .weak a
    simp only [and_self, if_true, reduceCtorEq, false_and, if_false, Nat.add_zero] at hk1 hk2
    have h1 := minusOne_eq (t := t) (checks := checks) (a := (w.mem a).weak) (by omega)
    simp only [exec, sexec, usable_block hx, RcBox.decWeak, h1, bind, Outcome.bind, pure, ← r.hs]
    refine ⟨_, rfl, ?_⟩
    refine rel_at r a (by simp only [World.kill, World.setMem, SWorld.kill, r.hs]) r.log r.running (fun b hb => ⟨rfl, if_neg hb, rfl, fun k => kill_other hb hx⟩) ?_
    have hc := r.cells a
    simp only [World.kill, World.setMem, SWorld.kill, if_true]
    rcases hcc with ⟨v, hcl, hs0⟩ | ⟨hcl, hs0⟩
    · rw [hcl] at hc ⊢; obtain ⟨g1, g2, g3, g4, g5⟩ := hc; exact ⟨g1, g2, by rw [g3]; exact hk1.symm, by simp only; omega, by omega⟩
    · rw [hcl] at hc ⊢; obtain ⟨g1, g2, g3, g4⟩ := hc; exact ⟨g1, g2, by simp only; omega, by omega⟩
  | tryUnwrap h =>
    obtain ⟨a, hx⟩ := hp
    obtain ⟨v, hc, ho, hm, hpos⟩ := live_of r hx
    have hx' := hx
    have hk1 := handles_kill hx .strong a
    have hk2 := handles_kill hx .weak a
    simp only [and_self, if_true, reduceCtorEq, false_and, if_false, Nat.add_zero] at hk1 hk2
    simp only [exec, sexec, usable_block hx, usable_of hx', hc, RcBox.decStrong, hm, minusOne_eq hpos, bind, Outcome.bind, pure, ← r.hs]
    by_cases h1 : handles w.hs .strong a = 1
    · rw [if_neg (by omega), if_pos h1]
      refine ⟨_, rfl, ?_⟩
      refine rel_at r a (by simp only [World.add, World.kill, World.setMem, SWorld.kill, SWorld.add, SWorld.set, r.hs]) r.log r.running
        (fun b hb => ⟨rfl, if_neg hb, if_neg hb, fun k => (add_other hb).trans (kill_other hb hx)⟩) ?_
      simp only [World.add, World.kill, World.setMem, SWorld.kill, SWorld.add, SWorld.set, if_true, handles_add]
      exact ⟨ho, by simp only; omega, by simp only [and_self, if_true]; omega, by simp; omega⟩
    · rw [if_pos h1, if_neg h1]
      exact ⟨w, rfl, r⟩
  | weakTryUnwrap h =>
    obtain ⟨a, hx⟩ := hp
    obtain ⟨ho, hst, hwk, hpos, hcc⟩ := weak_of r hx
    have hx' := hx
    have hk1 := handles_kill hx .strong a
    have hk2 := handles_kill hx .weak a
    simp only [and_self, if_true, reduceCtorEq, false_and, if_false, Nat.add_zero] at hk1 hk2
    have h1 := minusOne_eq (t := t) (checks := checks) (a := (w.mem a).weak) (by omega)
    simp only [exec, sexec, usable_block hx, usable_of hx', RcBox.decWeak, h1, bind, Outcome.bind, pure, ← r.hs]
    by_cases hu : handles w.hs .strong a = 0 ∧ handles w.hs .weak a = 1
    · rw [if_pos hu, if_pos (by simp [RcBox.isUniqueToRcMemory, hst, hwk, hu])]
      refine ⟨_, rfl, ?_⟩
      refine rel_at r a (by simp only [World.setOwner, World.kill, World.setMem, SWorld.kill, SWorld.set, r.hs]) r.log r.running
        (fun b hb => ⟨if_neg hb, if_neg hb, if_neg hb, fun k => kill_other hb hx⟩) ?_
      simp only [World.setOwner, World.kill, World.setMem, SWorld.kill, SWorld.set, if_true]
      exact ⟨rfl, by omega, by omega⟩
    · rw [if_neg hu, if_neg (by
        simp only [RcBox.isUniqueToRcMemory, hst, hwk, Bool.and_eq_true, decide_eq_true_eq]
        intro hh
        rw [if_pos hh.1] at hh
        exact hu hh)]
      exact ⟨w, rfl, r⟩
  | intoRaw h =>
    obtain ⟨a, hx⟩ := hp
    obtain ⟨v, hc, ho, hm, hpos⟩ := live_of r hx
    have hx' := hx
    have hk1 := handles_kill hx .strong a
    have hk2 := handles_kill hx .weak a
    simp only [and_self, if_true, reduceCtorEq, false_and, if_false, Nat.add_zero] at hk1 hk2
    simp only [exec, sexec, usable_block hx, usable_of hx', hc, RcBox.isUnique, hm, ← r.hs]
    by_cases hu : handles w.hs .strong a = 1 ∧ handles w.hs .weak a = 0
    · rw [if_pos hu, if_pos (by simp [hu])]
      refine ⟨_, rfl, ?_⟩
      refine rel_at r a (by simp only [World.setOwner, World.kill, SWorld.kill, SWorld.set, r.hs]) r.log r.running (fun b hb => ⟨if_neg hb, rfl, if_neg hb, fun k => kill_other hb hx⟩) ?_
      simp only [World.setOwner, World.kill, SWorld.kill, SWorld.set, if_true, hm]
      exact ⟨rfl, rfl, by simp only; omega, by simp only; omega, by omega, by omega⟩
    · rw [if_neg hu, if_neg (by simpa using hu)]
      exact ⟨w, rfl, r⟩
  | fromRaw a =>
    simp only [Permitted] at hp
    have hc := r.cells a
    cases hcc : sw.cells a with
    | free => rw [hcc, hp] at hc; cases hc.1
    | live v => rw [hcc, hp] at hc; cases hc.1
    | dead => rw [hcc, hp] at hc; cases hc.1
    | raw v =>
      rw [hcc] at hc
      obtain ⟨h1, h2, h3, h4, h5, h6⟩ := hc
      simp only [exec, sexec, hcc, ← r.hs]
      refine ⟨_, rfl, ?_⟩
      refine rel_at r a (by simp only [World.add, World.setOwner, SWorld.add, SWorld.set, r.hs]) r.log r.running (fun b hb => ⟨if_neg hb, rfl, if_neg hb, fun k => add_other hb⟩) ?_
      simp only [World.add, World.setOwner, SWorld.add, SWorld.set, if_true, handles_add]
      exact ⟨rfl, h2, by simp [h3, h5], by simp [h4, h6], by simp⟩
  | rawReplace a v =>
    simp only [Permitted] at hp
    have hc := r.cells a
    cases hcc : sw.cells a with
    | free => rw [hcc, hp] at hc; cases hc.1
    | live v => rw [hcc, hp] at hc; cases hc.1
    | dead => rw [hcc, hp] at hc; cases hc.1
    | raw old =>
      rw [hcc] at hc
      obtain ⟨h1, h2, h3, h4, h5, h6⟩ := hc
      simp only [exec, sexec, hcc, h2, ← r.hs]
      refine ⟨_, rfl, ?_⟩
      refine rel_at r a r.hs r.log r.running (fun b hb => ⟨rfl, if_neg hb, if_neg hb, fun k => rfl⟩) ?_
      simp only [World.setMem, SWorld.set, if_true]
      exact ⟨h1, rfl, h3, h4, h5, h6⟩
  | rawTake a =>
    simp only [Permitted] at hp
    have hc := r.cells a
    cases hcc : sw.cells a with
    | free => rw [hcc, hp] at hc; cases hc.1
    | live v => rw [hcc, hp] at hc; cases hc.1
    | dead => rw [hcc, hp] at hc; cases hc.1
    | raw old =>
      rw [hcc] at hc
      obtain ⟨h1, h2, h3, h4, h5, h6⟩ := hc
      simp only [exec, sexec, hcc, h2, ← r.hs]
      refine ⟨_, rfl, ?_⟩
      refine rel_at r a r.hs r.log r.running (fun b hb => ⟨if_neg hb, rfl, if_neg hb, fun k => rfl⟩) ?_
      simp only [World.setOwner, SWorld.set, if_true]
      exact ⟨rfl, h5, h6⟩
  | replace h v =>
    obtain ⟨a, hx⟩ := hp
    obtain ⟨old, hc, ho, hm, hpos⟩ := live_of r hx
    have hx' := hx
    simp only [exec, sexec, usable_block hx, usable_of hx', hc, RcBox.isUnique, hm, ← r.hs]
    by_cases hu : handles w.hs .strong a = 1 ∧ handles w.hs .weak a = 0
    · rw [if_pos hu, if_pos (by simp [hu])]
      refine ⟨_, rfl, ?_⟩
      refine rel_at r a r.hs r.log r.running (fun b hb => ⟨rfl, if_neg hb, if_neg hb, fun k => rfl⟩) ?_
      simp only [World.setMem, SWorld.set, if_true]
      exact ⟨ho, rfl, rfl, rfl, hpos⟩
    · rw [if_neg hu, if_neg (by simpa using hu)]
      exact ⟨w, rfl, r⟩
  | deref h =>
    obtain ⟨a, hx⟩ := hp
    obtain ⟨v, hc, ho, hm, hpos⟩ := live_of r hx
    have hx' := hx
    simp only [exec, sexec, usable_block hx, usable_of hx', hc, hm, ← r.hs]
    exact ⟨w, rfl, r⟩
  | strongCount h =>
    rcases hp with ⟨a, hx⟩ | ⟨a, hx⟩
    · obtain ⟨v, hc, ho, hm, hpos⟩ := live_of r hx
      have hx' := hx
      simp only [exec, sexec, usable_any hx, usable_of hx', hm, ← r.hs]
      exact ⟨w, rfl, r⟩
    · obtain ⟨ho, hst, hwk, hpos, hcc⟩ := weak_of r hx
      have hx' := hx
      simp only [exec, sexec, usable_any hx, usable_of hx', hst, ← r.hs]
      exact ⟨w, rfl, r⟩
  | weakCount h =>
    rcases hp with ⟨a, hx⟩ | ⟨a, hx⟩
    · obtain ⟨v, hc, ho, hm, hpos⟩ := live_of r hx
      have hx' := hx
      simp only [exec, sexec, usable_any hx, usable_of hx', hm, ← r.hs]
      rw [if_neg (show handles w.hs .strong a ≠ 0 by omega)]
      exact ⟨w, rfl, r⟩
    · obtain ⟨ho, hst, hwk, hpos, hcc⟩ := weak_of r hx
      have hx' := hx
      simp only [exec, sexec, usable_any hx, usable_of hx', hwk, ← r.hs]
      exact ⟨w, rfl, r⟩
  | ptrEq h h' =>
    obtain ⟨⟨a, hx⟩, ⟨b, hy⟩⟩ := hp
    have hx' := hx
    have hy' := hy
    simp only [exec, sexec, usable_block hx, usable_block hy, usable_of hx', usable_of hy', Option.some.injEq, ← r.hs]
    exact ⟨w, rfl, r⟩
  | forget h =>
    have : ∃ x, w.hs[h]? = some (some x) := by
      rcases hp with ⟨a, hx⟩ | ⟨a, hx⟩ <;> exact ⟨_, hx⟩
    obtain ⟨x, hx⟩ := this
    have hx' := hx
    simp only [exec, sexec, hx, hx', ← r.hs]
    refine ⟨_, rfl, by simp only [r.hs], r.log, r.running, fun a => ?_⟩
    have := r.cells a
    simp only [handles_forget hx]
    exact this
  | scribble a b =>
    simp only [Permitted] at hp
    refine ⟨_, rfl, ?_⟩
    refine rel_at r a r.hs r.log r.running (fun b hb => ⟨rfl, if_neg hb, rfl, fun k => rfl⟩) ?_
    have hc := r.cells a
    cases hcc : sw.cells a with
    | free => rw [hcc] at hc; simp only [sexec, hcc]; exact hc
    | live v => rw [hcc, hp] at hc; cases hc.1
    | dead => rw [hcc, hp] at hc; cases hc.1
    | raw v => rw [hcc, hp] at hc; cases hc.1
  | endDrop => exact ⟨_, rfl, r.hs, r.log, by simp only [sexec, r.running], r.cells⟩

theorem sim_run (r : WRel w sw) {ops : List (Op V)} (hs : SafeRun t checks w ops) :
    ∃ w', run t checks w ops = .ret ((srun sw ops).1, w') ∧ WRel w' (srun sw ops).2 := by
  induction ops generalizing w sw with
  | nil => exact ⟨w, rfl, r⟩
  | cons op ops ih =>
    obtain ⟨hp, hN, hs⟩ := hs
    obtain ⟨w1, e1, r1⟩ := sim_step (t := t) (checks := checks) r hp hN
    obtain ⟨w2, e2, r2⟩ := ih r1 (hs _ _ e1)
    refine ⟨w2, ?_, r2⟩
    simp only [run, srun, e1, e2, bind, Outcome.bind]
    rfl

theorem wrel_init (mem : Nat → RcBox V) : WRel (World.init mem) (SWorld.init : SWorld V) := ⟨rfl, rfl, rfl, fun _ => ⟨rfl, rfl, rfl⟩⟩

theorem reach_rel (h : Reach t checks w) : ∃ sw, WRel w sw := by
  obtain ⟨mem, ops, rs, hs, hr⟩ := h
  obtain ⟨w', e, r⟩ := sim_run (wrel_init mem) hs
  rw [hr] at e
  cases e
  exact ⟨_, r⟩

end Verif.RcM
