import Verif.Proofs.RcTrace
/-! # Builds with overflow checks: any number of handles -/
namespace Verif.RcM
open Verif

variable {V : Type} {t : Target} {w : World V}

theorem held_set {hs : List (Option Handle)} {h : Nat} {x : Option Handle} (hx : hs[h]? = some x) (y : Option Handle) (a : Nat) :
    held (hs.set h y) a + (if x = some ⟨.strong, a, false⟩ then 1 else 0) = held hs a + if y = some ⟨.strong, a, false⟩ then 1 else 0 := by
  obtain ⟨hl, hx⟩ := List.getElem?_eq_some_iff.mp hx
  have h1 : ∀ p : Option Handle → Bool, (if p x = true then 1 else 0) ≤ List.countP p hs := by
    intro p
    split
    · rename_i hp
      exact List.countP_pos_iff.mpr ⟨x, hx ▸ List.getElem_mem hl, hp⟩
    · exact Nat.zero_le _
  have h2 := h1 (fun x => x = some ⟨.strong, a, false⟩)
  simp only [held, List.countP_set hl, hx, decide_eq_true_eq] at *
  omega

theorem held_add (hs : List (Option Handle)) (k : HKind) (a a' : Nat) : held (hs ++ [some ⟨k, a', false⟩]) a = held hs a + if k = .strong ∧ a' = a then 1 else 0 := by
  simp [held, List.countP_append, List.countP_cons]

theorem held_kill {hs : List (Option Handle)} {h : Nat} {k : HKind} {a' : Nat} {f : Bool} (hx : hs[h]? = some (some ⟨k, a', f⟩)) (a : Nat) :
    held (hs.set h none) a + (if k = .strong ∧ a' = a ∧ f = false then 1 else 0) = held hs a := by
  have := held_set hx none a
  simpa using this

theorem held_pos {hs : List (Option Handle)} {h a : Nat} (hx : hs[h]? = some (some ⟨.strong, a, false⟩)) : 0 < held hs a := by
  have := held_kill hx a
  simp only [and_self, if_true] at this
  omega

/-- A block with `H` strong handles that are not forgotten and `K` weak handles. -/
def HCell (t : Target) (o : Owner) (m : RcBox V) (H K : Nat) : Prop :=
  match o with
  | .user => H = 0 ∧ K = 0
  | .rc => m.strong < t.W ∧ m.weak < t.W ∧ ((0 < m.strong ∧ m.val.isSome ∧ m.weak = K + 1 ∧ H ≤ m.strong) ∨ (m.strong = 0 ∧ H = 0 ∧ m.weak = K))
  | .raw => m.strong = 1 ∧ m.weak = 1 ∧ m.val.isSome ∧ H = 0 ∧ K = 0

def HInv (t : Target) (w : World V) : Prop := ∀ a, HCell t (w.owner a) (w.mem a) (held w.hs a) (handles w.hs .weak a)

/-- The value in the block, if there is one. -/
def alive (w : World V) (a : Nat) : List V :=
  match w.owner a with
  | .user => []
  | .raw => (w.mem a).val.toList
  | .rc => if (w.mem a).strong = 0 then [] else (w.mem a).val.toList

variable [DecidableEq V]

/-- What a call does to the values. -/
structure Effect (w : World V) (op : Op V) (x : Resp V) (w' : World V) (a : Nat) : Prop where
  touch : w.owner a ≠ .user ∨ ∃ v, op = .new a v
  others : ∀ b, b ≠ a → w'.owner b = w.owner b ∧ w'.mem b = w.mem b
  count : ∃ dropped, w'.log = w.log ++ dropped ∧ ∀ v, (alive w' a).count v + ((outputs op x).count v + dropped.count v) = (alive w a).count v + (inputs op x).count v

/-- A call that does not touch a block that has values. -/
structure Idle (w : World V) (op : Op V) (x : Resp V) (w' : World V) : Prop where
  owner : w'.owner = w.owner
  alive : ∀ a, alive w' a = alive w a
  log : w'.log = w.log
  io : inputs op x = [] ∧ outputs op x = []

def HStep (t : Target) (w : World V) (op : Op V) (r : Outcome (Resp V × World V)) : Prop :=
  ∃ x w', r = .ret (x, w') ∧ HInv t w' ∧ (Idle w op x w' ∨ ∃ a, Effect w op x w' a)

omit [DecidableEq V] in
theorem hinv_at {w w' : World V} (h : HInv t w) (a : Nat)
    (hother : ∀ b, b ≠ a → w'.owner b = w.owner b ∧ w'.mem b = w.mem b ∧ held w'.hs b = held w.hs b ∧ handles w'.hs .weak b = handles w.hs .weak b)
    (ha : HCell t (w'.owner a) (w'.mem a) (held w'.hs a) (handles w'.hs .weak a)) : HInv t w' := by
  intro b
  by_cases hb : b = a
  · subst hb; exact ha
  · obtain ⟨h1, h2, h3, h4⟩ := hother b hb
    rw [h1, h2, h3, h4]
    exact h b

omit [DecidableEq V] in
theorem hadd_other {hs : List (Option Handle)} {k : HKind} {a b : Nat} (hb : b ≠ a) : held (hs ++ [some ⟨k, a, false⟩]) b = held hs b ∧ handles (hs ++ [some ⟨k, a, false⟩]) .weak b = handles hs .weak b :=
  ⟨by rw [held_add, if_neg (fun h => hb h.2.symm), Nat.add_zero], add_other hb⟩
omit [DecidableEq V] in
theorem hkill_other {hs : List (Option Handle)} {h : Nat} {k : HKind} {a b : Nat} {f : Bool} (hb : b ≠ a) (hx : hs[h]? = some (some ⟨k, a, f⟩)) :
    held (hs.set h none) b = held hs b ∧ handles (hs.set h none) .weak b = handles hs .weak b := by
  refine ⟨?_, kill_other hb hx⟩
  have := held_kill hx b
  rwa [if_neg (fun h => hb h.2.1.symm), Nat.add_zero] at this

omit [DecidableEq V] in
/-- A block with a usable strong handle. -/
theorem hlive (h : HInv t w) {g a : Nat} (hx : w.hs[g]? = some (some ⟨.strong, a, false⟩)) :
    w.owner a = .rc ∧ 0 < (w.mem a).strong ∧ (w.mem a).strong < t.W ∧ (w.mem a).weak < t.W ∧ (∃ v, (w.mem a).val = some v) ∧ (w.mem a).weak = handles w.hs .weak a + 1 ∧ held w.hs a ≤ (w.mem a).strong ∧ 0 < held w.hs a := by
  have hp := held_pos hx
  have hc := h a
  cases ho : w.owner a with
  | user => rw [ho] at hc; have := hc.1; omega
  | raw => rw [ho] at hc; have := hc.2.2.2.1; omega
  | rc =>
    rw [ho] at hc
    obtain ⟨h1, h2, h3 | h3⟩ := hc
    · exact ⟨rfl, h3.1, h1, h2, Option.isSome_iff_exists.mp h3.2.1, h3.2.2.1, h3.2.2.2, hp⟩
    · omega

omit [DecidableEq V] in
/-- A block with a weak handle. -/
theorem hweak (h : HInv t w) {g a : Nat} {f : Bool} (hx : w.hs[g]? = some (some ⟨.weak, a, f⟩)) :
    w.owner a = .rc ∧ (w.mem a).strong < t.W ∧ (w.mem a).weak < t.W ∧ 0 < handles w.hs .weak a ∧
      ((0 < (w.mem a).strong ∧ (w.mem a).val.isSome ∧ (w.mem a).weak = handles w.hs .weak a + 1 ∧ held w.hs a ≤ (w.mem a).strong) ∨ ((w.mem a).strong = 0 ∧ held w.hs a = 0 ∧ (w.mem a).weak = handles w.hs .weak a)) := by
  have hp := handles_pos hx
  have hc := h a
  cases ho : w.owner a with
  | user => rw [ho] at hc; have := hc.2; omega
  | raw => rw [ho] at hc; have := hc.2.2.2.2; omega
  | rc =>
    rw [ho] at hc
    exact ⟨rfl, hc.1, hc.2.1, hp, hc.2.2⟩

omit [DecidableEq V] in
theorem hraw (h : HInv t w) {a : Nat} (ho : w.owner a = .raw) : (w.mem a).strong = 1 ∧ (w.mem a).weak = 1 ∧ (∃ v, (w.mem a).val = some v) ∧ held w.hs a = 0 ∧ handles w.hs .weak a = 0 := by
  have hc := h a
  rw [ho] at hc
  exact ⟨hc.1, hc.2.1, Option.isSome_iff_exists.mp hc.2.2.1, hc.2.2.2.1, hc.2.2.2.2⟩

omit [DecidableEq V] in
theorem idle_refl {op : Op V} {x : Resp V} (h : inputs op x = [] ∧ outputs op x = []) : Idle w op x w := ⟨rfl, fun _ => rfl, rfl, h⟩

omit [DecidableEq V] in
theorem alive_congr {w w' : World V} {b : Nat} (h : w'.owner b = w.owner b ∧ w'.mem b = w.mem b) : alive w' b = alive w b := by simp only [alive, h.1, h.2]

omit [DecidableEq V] in
theorem two_le_W (t : Target) : 2 < t.W := by cases t <;> decide

theorem step_checked (h : HInv t w) {op : Op V} (hp : Permitted w op) (hH : ∀ a, held w.hs a < t.usizeMax) : HStep t w op (exec t true w op) := by
  have hW := two_le_W t
  simp only [Target.usizeMax] at hH
  -- a changed counter in a block with value, or one without
  have idleAt : ∀ {op : Op V} {x : Resp V} (w' : World V) (a : Nat), w'.owner = w.owner → w'.log = w.log → (∀ b, b ≠ a → w'.mem b = w.mem b) → (w'.mem a).val = (w.mem a).val → ((w'.mem a).strong = 0 ↔ (w.mem a).strong = 0) →
      inputs op x = [] ∧ outputs op x = [] → Idle w op x w' := by
    intro op x w' a h1 h2 h3 h4 h5 h6
    refine ⟨h1, fun b => ?_, h2, h6⟩
    by_cases hb : b = a
    · subst hb; simp only [alive, h1, h4, h5]
    · exact alive_congr ⟨by rw [h1], h3 b hb⟩
  cases op with
  | new a v =>
    have hc := h a
    simp only [Permitted] at hp
    rw [hp] at hc
    obtain ⟨hc1, hc2⟩ := hc
    refine ⟨_, _, rfl, ?_, .inr ⟨a, ⟨.inr ⟨v, rfl⟩, fun b hb => ⟨if_neg hb, if_neg hb⟩, [], by simp [World.add, World.setOwner, World.setMem], fun u => ?_⟩⟩⟩
    · refine hinv_at h a (fun b hb => ⟨if_neg hb, if_neg hb, hadd_other hb⟩) ?_
      simp only [World.add, World.setOwner, World.setMem, if_true, held_add, handles_add, hc1, hc2]
      exact ⟨by simp only [RcBox.init]; omega, by simp only [RcBox.init]; omega, .inl ⟨by simp [RcBox.init], rfl, by simp [RcBox.init], by simp [RcBox.init]⟩⟩
    · simp [alive, World.add, World.setOwner, World.setMem, RcBox.init, hp, outputs, inputs]
  | clone g =>
    obtain ⟨a, hx⟩ := hp
    obtain ⟨ho, hs0, hsW, hwW, ⟨v, hv⟩, hwk, hle, hpos⟩ := hlive h hx
    by_cases hov : (w.mem a).strong + 1 < t.W
    · refine ⟨.handle w.hs.length, (w.setMem a { w.mem a with strong := (w.mem a).strong + 1 }).add .strong a, by simp only [exec, usable_block hx, RcBox.incStrong, plusOne, hov, if_true, bind, Outcome.bind, pure], ?_,
        .inl (idleAt _ a rfl rfl (fun b hb => if_neg hb) (by simp [World.add, World.setMem]) (by simp [World.add, World.setMem]; omega) ⟨rfl, rfl⟩)⟩
      refine hinv_at h a (fun b hb => ⟨rfl, if_neg hb, hadd_other hb⟩) ?_
      simp only [World.add, World.setMem, if_true, held_add, handles_add, ho]
      exact ⟨by simp only; omega, by simp only; omega, .inl ⟨by simp, by simp [hv], by simp [hwk], by simp; omega⟩⟩
    · exact ⟨.panic, w, by simp [exec, usable_block hx, RcBox.incStrong, plusOne, hov, bind, Outcome.bind], h, .inl (idle_refl ⟨rfl, rfl⟩)⟩
  | downgrade g =>
    obtain ⟨a, hx⟩ := hp
    obtain ⟨ho, hs0, hsW, hwW, ⟨v, hv⟩, hwk, hle, hpos⟩ := hlive h hx
    by_cases hov : (w.mem a).weak + 1 < t.W
    · refine ⟨.handle w.hs.length, (w.setMem a { w.mem a with weak := (w.mem a).weak + 1 }).add .weak a, by simp only [exec, usable_block hx, RcBox.incWeak, plusOne, hov, if_true, bind, Outcome.bind, pure], ?_,
        .inl (idleAt _ a rfl rfl (fun b hb => if_neg hb) (by simp [World.add, World.setMem]) (by simp [World.add, World.setMem]) ⟨rfl, rfl⟩)⟩
      refine hinv_at h a (fun b hb => ⟨rfl, if_neg hb, hadd_other hb⟩) ?_
      simp only [World.add, World.setMem, if_true, held_add, handles_add, ho]
      exact ⟨by simp only; omega, by simp only; omega, .inl ⟨hs0, by simp [hv], by simp [hwk], by simp; omega⟩⟩
    · exact ⟨.panic, w, by simp [exec, usable_block hx, RcBox.incWeak, plusOne, hov, bind, Outcome.bind], h, .inl (idle_refl ⟨rfl, rfl⟩)⟩
  | cloneWeak g =>
    obtain ⟨a, hx⟩ := hp
    obtain ⟨ho, hsW, hwW, hpos, hcc⟩ := hweak h hx
    by_cases hov : (w.mem a).weak + 1 < t.W
    · refine ⟨.handle w.hs.length, (w.setMem a { w.mem a with weak := (w.mem a).weak + 1 }).add .weak a, by simp only [exec, usable_block hx, RcBox.incWeak, plusOne, hov, if_true, bind, Outcome.bind, pure], ?_,
        .inl (idleAt _ a rfl rfl (fun b hb => if_neg hb) (by simp [World.add, World.setMem]) (by simp [World.add, World.setMem]) ⟨rfl, rfl⟩)⟩
      refine hinv_at h a (fun b hb => ⟨rfl, if_neg hb, hadd_other hb⟩) ?_
      simp only [World.add, World.setMem, if_true, held_add, handles_add, ho]
      refine ⟨by simp only; omega, by simp only; omega, ?_⟩
      rcases hcc with ⟨g1, g2, g3, g4⟩ | ⟨g1, g2, g3⟩
      · exact .inl ⟨g1, g2, by simp [g3], by simpa using g4⟩
      · exact .inr ⟨g1, by simpa using g2, by simp [g3]⟩
    · exact ⟨.panic, w, by simp [exec, usable_block hx, RcBox.incWeak, plusOne, hov, bind, Outcome.bind], h, .inl (idle_refl ⟨rfl, rfl⟩)⟩
  | upgrade g =>
    obtain ⟨a, hx⟩ := hp
    obtain ⟨ho, hsW, hwW, hpos, hcc⟩ := hweak h hx
    rcases hcc with ⟨g1, g2, g3, g4⟩ | ⟨g1, g2, g3⟩
    · have hne : (w.mem a).strong ≠ 0 := by omega
      by_cases hov : (w.mem a).strong + 1 < t.W
      · refine ⟨.handle w.hs.length, (w.setMem a { w.mem a with strong := (w.mem a).strong + 1 }).add .strong a, by simp only [exec, usable_block hx, hne, if_false, World.upgradeSome, RcBox.incStrong, plusOne, hov, if_true, bind, Outcome.bind, pure], ?_,
          .inl (idleAt _ a rfl rfl (fun b hb => if_neg hb) (by simp [World.add, World.setMem]) (by simp [World.add, World.setMem]; omega) ⟨rfl, rfl⟩)⟩
        refine hinv_at h a (fun b hb => ⟨rfl, if_neg hb, hadd_other hb⟩) ?_
        simp only [World.add, World.setMem, if_true, held_add, handles_add, ho]
        exact ⟨by simp only; omega, by simp only; omega, .inl ⟨by simp, g2, by simp [g3], by simp; omega⟩⟩
      · -- the panic drops the local `Rc`
        have hne2 : (w.mem a).strong - 1 ≠ 0 := by omega
        have hge : 1 ≤ (w.mem a).strong := g1
        refine ⟨.panic, w.setMem a { w.mem a with strong := (w.mem a).strong - 1 }, ?_, ?_,
          .inl (idleAt _ a rfl rfl (fun b hb => if_neg hb) (by simp [World.setMem]) (by simp [World.setMem]; omega) ⟨rfl, rfl⟩)⟩
        · simp [exec, usable_block hx, hne, World.upgradeSome, RcBox.incStrong, plusOne, hov, bind, Outcome.bind, World.dropRc, RcBox.dropRc, RcBox.decStrong, minusOne, hge, pure, hne2]
        · refine hinv_at h a (fun b hb => ⟨rfl, if_neg hb, rfl, rfl⟩) ?_
          simp only [World.setMem, if_true, ho]
          have := hH a
          exact ⟨by simp only; omega, by simp only; omega, .inl ⟨by simp only; omega, g2, by simp [g3], by simp only; omega⟩⟩
    · exact ⟨.none, w, by simp [exec, usable_block hx, g1], h, .inl (idle_refl ⟨rfl, rfl⟩)⟩
  | dropRc g =>
    obtain ⟨a, hx⟩ := hp
    obtain ⟨ho, hs0, hsW, hwW, ⟨v, hv⟩, hwk, hle, hpos⟩ := hlive h hx
    have hk1 := held_kill hx a
    have hk2 := handles_kill hx .weak a
    simp only [and_self, if_true, reduceCtorEq, false_and, if_false, Nat.add_zero] at hk1 hk2
    have hge : 1 ≤ (w.mem a).strong := hs0
    have hgw : 1 ≤ (w.mem a).weak := by omega
    by_cases h1 : (w.mem a).strong - 1 = 0
    · refine ⟨.unit, { (w.kill g).setMem a { w.mem a with strong := 0, weak := (w.mem a).weak - 1 } with log := w.log ++ [v], running := a :: w.running }, ?_, ?_,
        .inr ⟨a, ⟨.inl (by rw [ho]; simp), fun b hb => ⟨rfl, if_neg hb⟩, [v], rfl, fun u => ?_⟩⟩⟩
      · simp [exec, usable_block hx, World.dropRc, RcBox.dropRc, World.kill, RcBox.decStrong, RcBox.decWeak, minusOne, hge, hgw, h1, bind, Outcome.bind, pure, World.beginDrop, World.setMem, hv]
      · refine hinv_at h a (fun b hb => ⟨rfl, if_neg hb, hkill_other hb hx⟩) ?_
        simp only [World.kill, World.setMem, if_true, ho]
        exact ⟨by simp only; omega, by simp only; omega, .inr ⟨rfl, by omega, by simp only; omega⟩⟩
      · simp [alive, World.kill, World.setMem, ho, hv, inputs, outputs, show (w.mem a).strong ≠ 0 by omega]
    · refine ⟨.unit, (w.kill g).setMem a { w.mem a with strong := (w.mem a).strong - 1 }, ?_, ?_,
        .inl (idleAt _ a rfl rfl (fun b hb => if_neg hb) (by simp [World.setMem]) (by simp [World.setMem]; omega) ⟨rfl, rfl⟩)⟩
      · simp [exec, usable_block hx, World.dropRc, RcBox.dropRc, World.kill, RcBox.decStrong, minusOne, hge, h1, bind, Outcome.bind, pure]
      · refine hinv_at h a (fun b hb => ⟨rfl, if_neg hb, hkill_other hb hx⟩) ?_
        simp only [World.kill, World.setMem, if_true, ho]
        exact ⟨by simp only; omega, by simp only; omega, .inl ⟨by simp only; omega, by simp [hv], by simp only; omega, by simp only; omega⟩⟩
  | dropWeak g =>
    obtain ⟨a, hx⟩ := hp
    obtain ⟨ho, hsW, hwW, hpos, hcc⟩ := hweak h hx
    have hk1 := held_kill hx a
    have hk2 := handles_kill hx .weak a
    simp only [and_self, if_true, reduceCtorEq, false_and, if_false, Nat.add_zero] at hk1 hk2
    have hgw : 1 ≤ (w.mem a).weak := by omega
    refine ⟨.unit, (w.kill g).setMem a { w.mem a with weak := (w.mem a).weak - 1 }, ?_, ?_,
      .inl (idleAt _ a rfl rfl (fun b hb => if_neg hb) (by simp [World.setMem]) (by simp [World.setMem]) ⟨rfl, rfl⟩)⟩
    · simp [exec, usable_block hx, RcBox.decWeak, minusOne, hgw, bind, Outcome.bind, pure]
    · refine hinv_at h a (fun b hb => ⟨rfl, if_neg hb, hkill_other hb hx⟩) ?_
      simp only [World.kill, World.setMem, if_true, ho]
      refine ⟨by simp only; omega, by simp only; omega, ?_⟩
      rcases hcc with ⟨g1, g2, g3, g4⟩ | ⟨g1, g2, g3⟩
      · exact .inl ⟨g1, g2, by simp only; omega, by simp only; omega⟩
      · exact .inr ⟨g1, by omega, by simp only; omega⟩
  | tryUnwrap g =>
    obtain ⟨a, hx⟩ := hp
    obtain ⟨ho, hs0, hsW, hwW, ⟨v, hv⟩, hwk, hle, hpos⟩ := hlive h hx
    have hk1 := held_kill hx a
    have hk2 := handles_kill hx .weak a
    simp only [and_self, if_true, reduceCtorEq, false_and, if_false, Nat.add_zero] at hk1 hk2
    by_cases h1 : (w.mem a).strong = 1
    · refine ⟨.unwrapped v w.hs.length, ((w.setMem a { w.mem a with strong := 0 }).kill g).add .weak a, ?_, ?_,
        .inr ⟨a, ⟨.inl (by rw [ho]; simp), fun b hb => ⟨rfl, if_neg hb⟩, [], by simp [World.add, World.kill, World.setMem], fun u => ?_⟩⟩⟩
      · simp [exec, usable_block hx, RcBox.decStrong, minusOne, h1, hv, bind, Outcome.bind, pure]
      · refine hinv_at h a (fun b hb => ⟨rfl, if_neg hb, (hadd_other hb).1.trans (hkill_other hb hx).1, (hadd_other hb).2.trans (hkill_other hb hx).2⟩) ?_
        simp only [World.add, World.kill, World.setMem, if_true, ho, held_add, handles_add]
        exact ⟨by simp only; omega, by simp only; omega, .inr ⟨rfl, by simp; omega, by simp; omega⟩⟩
      · simp [alive, World.add, World.kill, World.setMem, ho, hv, inputs, outputs, h1]
    · exact ⟨.err, w, by simp [exec, usable_block hx, h1], h, .inl (idle_refl ⟨rfl, rfl⟩)⟩
  | weakTryUnwrap g =>
    obtain ⟨a, hx⟩ := hp
    obtain ⟨ho, hsW, hwW, hpos, hcc⟩ := hweak h hx
    have hk1 := held_kill hx a
    have hk2 := handles_kill hx .weak a
    simp only [and_self, if_true, reduceCtorEq, false_and, if_false, Nat.add_zero] at hk1 hk2
    by_cases hu : (w.mem a).isUniqueToRcMemory = true
    · have hu' := hu
      simp only [RcBox.isUniqueToRcMemory, Bool.and_eq_true, decide_eq_true_eq] at hu'
      refine ⟨.memory a, ((w.setMem a { w.mem a with weak := 0 }).kill g).setOwner a .user, ?_, ?_,
        .inr ⟨a, ⟨.inl (by rw [ho]; simp), fun b hb => ⟨if_neg hb, if_neg hb⟩, [], by simp [World.setOwner, World.kill, World.setMem], fun u => ?_⟩⟩⟩
      · simp [exec, usable_block hx, hu, RcBox.decWeak, minusOne, hu'.2, bind, Outcome.bind, pure]
      · refine hinv_at h a (fun b hb => ⟨if_neg hb, if_neg hb, hkill_other hb hx⟩) ?_
        simp only [World.setOwner, World.kill, World.setMem, if_true]
        rcases hcc with ⟨g1, g2, g3, g4⟩ | ⟨g1, g2, g3⟩
        · omega
        · exact ⟨by omega, by omega⟩
      · simp [alive, World.setOwner, World.kill, World.setMem, ho, hu'.1, inputs, outputs]
    · exact ⟨.err, w, by simp [exec, usable_block hx, hu], h, .inl (idle_refl ⟨rfl, rfl⟩)⟩
  | intoRaw g =>
    obtain ⟨a, hx⟩ := hp
    obtain ⟨ho, hs0, hsW, hwW, ⟨v, hv⟩, hwk, hle, hpos⟩ := hlive h hx
    have hk1 := held_kill hx a
    have hk2 := handles_kill hx .weak a
    simp only [and_self, if_true, reduceCtorEq, false_and, if_false, Nat.add_zero] at hk1 hk2
    by_cases hu : (w.mem a).isUnique = true
    · have hu' := hu
      simp only [RcBox.isUnique, Bool.and_eq_true, decide_eq_true_eq] at hu'
      refine ⟨.memory a, (w.kill g).setOwner a .raw, by simp [exec, usable_block hx, hu], ?_,
        .inr ⟨a, ⟨.inl (by rw [ho]; simp), fun b hb => ⟨if_neg hb, rfl⟩, [], by simp [World.setOwner, World.kill], fun u => ?_⟩⟩⟩
      · refine hinv_at h a (fun b hb => ⟨if_neg hb, rfl, hkill_other hb hx⟩) ?_
        simp only [World.setOwner, World.kill, if_true]
        exact ⟨hu'.1, hu'.2, by simp [hv], by omega, by omega⟩
      · simp [alive, World.setOwner, World.kill, ho, hu'.1, inputs, outputs]
    · exact ⟨.err, w, by simp [exec, usable_block hx, hu], h, .inl (idle_refl ⟨rfl, rfl⟩)⟩
  | fromRaw a =>
    simp only [Permitted] at hp
    obtain ⟨h1, h2, ⟨v, hv⟩, h3, h4⟩ := hraw h hp
    refine ⟨_, _, rfl, ?_, .inr ⟨a, ⟨.inl (by rw [hp]; simp), fun b hb => ⟨if_neg hb, rfl⟩, [], by simp [World.setOwner, World.add], fun u => ?_⟩⟩⟩
    · refine hinv_at h a (fun b hb => ⟨if_neg hb, rfl, hadd_other hb⟩) ?_
      simp only [World.setOwner, World.add, if_true, held_add, handles_add]
      exact ⟨by omega, by omega, .inl ⟨by omega, by simp [hv], by simp [h2, h4], by simp [h1, h3]⟩⟩
    · simp [alive, World.setOwner, World.add, hp, h1, hv, inputs, outputs]
  | rawReplace a y =>
    simp only [Permitted] at hp
    obtain ⟨h1, h2, ⟨v, hv⟩, h3, h4⟩ := hraw h hp
    refine ⟨.val v, w.setMem a { w.mem a with val := some y }, by simp [exec, hv], ?_, .inr ⟨a, ⟨.inl (by rw [hp]; simp), fun b hb => ⟨rfl, if_neg hb⟩, [], by simp [World.setMem], fun u => ?_⟩⟩⟩
    · refine hinv_at h a (fun b hb => ⟨rfl, if_neg hb, rfl, rfl⟩) ?_
      simp only [World.setMem, if_true, hp]
      exact ⟨h1, h2, rfl, h3, h4⟩
    · simp [alive, World.setMem, hp, hv, inputs, outputs]; omega
  | rawTake a =>
    simp only [Permitted] at hp
    obtain ⟨h1, h2, ⟨v, hv⟩, h3, h4⟩ := hraw h hp
    refine ⟨.val v, w.setOwner a .user, by simp [exec, hv], ?_, .inr ⟨a, ⟨.inl (by rw [hp]; simp), fun b hb => ⟨if_neg hb, rfl⟩, [], by simp [World.setOwner], fun u => ?_⟩⟩⟩
    · refine hinv_at h a (fun b hb => ⟨if_neg hb, rfl, rfl, rfl⟩) ?_
      simp only [World.setOwner, if_true]
      exact ⟨h3, h4⟩
    · simp [alive, World.setOwner, hp, hv, inputs, outputs]
  | replace g y =>
    obtain ⟨a, hx⟩ := hp
    obtain ⟨ho, hs0, hsW, hwW, ⟨v, hv⟩, hwk, hle, hpos⟩ := hlive h hx
    by_cases hu : (w.mem a).isUnique = true
    · refine ⟨.val v, w.setMem a { w.mem a with val := some y }, by simp [exec, usable_block hx, hu, hv], ?_, .inr ⟨a, ⟨.inl (by rw [ho]; simp), fun b hb => ⟨rfl, if_neg hb⟩, [], by simp [World.setMem], fun u => ?_⟩⟩⟩
      · refine hinv_at h a (fun b hb => ⟨rfl, if_neg hb, rfl, rfl⟩) ?_
        simp only [World.setMem, if_true, ho]
        exact ⟨hsW, hwW, .inl ⟨hs0, rfl, hwk, hle⟩⟩
      · simp [alive, World.setMem, ho, hv, show (w.mem a).strong ≠ 0 by omega, inputs, outputs]; omega
    · exact ⟨.err, w, by simp [exec, usable_block hx, hu], h, .inl (idle_refl ⟨rfl, rfl⟩)⟩
  | deref g =>
    obtain ⟨a, hx⟩ := hp
    obtain ⟨ho, hs0, hsW, hwW, ⟨v, hv⟩, hwk, hle, hpos⟩ := hlive h hx
    exact ⟨.val v, w, by simp [exec, usable_block hx, hv], h, .inl (idle_refl ⟨rfl, rfl⟩)⟩
  | strongCount g =>
    rcases hp with ⟨a, hx⟩ | ⟨a, hx⟩ <;> exact ⟨.num (w.mem a).strong, w, by simp [exec, usable_any hx], h, .inl (idle_refl ⟨rfl, rfl⟩)⟩
  | weakCount g =>
    rcases hp with ⟨a, hx⟩ | ⟨a, hx⟩ <;> exact ⟨.num (w.mem a).weak, w, by simp [exec, usable_any hx], h, .inl (idle_refl ⟨rfl, rfl⟩)⟩
  | ptrEq g g' =>
    obtain ⟨⟨a, hx⟩, ⟨b, hy⟩⟩ := hp
    exact ⟨.bool (a = b), w, by simp [exec, usable_block hx, usable_block hy], h, .inl (idle_refl ⟨rfl, rfl⟩)⟩
  | forget g =>
    have : ∃ x, w.hs[g]? = some (some x) := by
      rcases hp with ⟨a, hx⟩ | ⟨a, hx⟩ <;> exact ⟨_, hx⟩
    obtain ⟨x, hx⟩ := this
    refine ⟨.unit, { w with hs := w.hs.set g (some { x with forgotten := true }) }, by simp [exec, hx], fun a => ?_, .inl ⟨rfl, fun _ => rfl, rfl, rfl, rfl⟩⟩
    have hle : held (w.hs.set g (some { x with forgotten := true })) a ≤ held w.hs a := by
      have := held_set hx (some { x with forgotten := true }) a
      simp only [Option.some.injEq, Handle.mk.injEq, reduceCtorEq, and_false, if_false] at this
      omega
    have hc := h a
    simp only [handles_forget hx]
    cases ho : w.owner a with
    | user => rw [ho] at hc; exact ⟨by have := hc.1; omega, hc.2⟩
    | raw => rw [ho] at hc; exact ⟨hc.1, hc.2.1, hc.2.2.1, by have := hc.2.2.2.1; omega, hc.2.2.2.2⟩
    | rc =>
      rw [ho] at hc
      obtain ⟨g1, g2, g3 | g3⟩ := hc
      · exact ⟨g1, g2, .inl ⟨g3.1, g3.2.1, g3.2.2.1, by have := g3.2.2.2; omega⟩⟩
      · exact ⟨g1, g2, .inr ⟨g3.1, by have := g3.2.1; omega, g3.2.2⟩⟩
  | scribble a b =>
    simp only [Permitted] at hp
    have hc := h a
    rw [hp] at hc
    refine ⟨_, _, rfl, ?_, .inl ⟨rfl, fun c => ?_, rfl, rfl, rfl⟩⟩
    · refine hinv_at h a (fun b hb => ⟨rfl, if_neg hb, rfl, rfl⟩) ?_
      simp only [World.setMem, hp]
      exact hc
    · by_cases hc : c = a
      · subst hc; simp [alive, World.setMem, hp]
      · exact alive_congr ⟨rfl, if_neg hc⟩
  | endDrop => exact ⟨.unit, { w with running := w.running.tail }, rfl, h, .inl ⟨rfl, fun _ => rfl, rfl, rfl, rfl⟩⟩

def storedW (N : Nat) (w : World V) : List V := (List.range N).flatMap (alive w)

theorem run_checked {N : Nat} (h : HInv t w) (hN : ∀ a, N ≤ a → w.owner a = .user) {ops : List (Op V)} (hb : ∀ op ∈ ops, Below N op) (hs : HeldRun t true w ops) :
    ∃ rs w', run t true w ops = .ret (rs, w') ∧ HInv t w' ∧ ∃ dropped, w'.log = w.log ++ dropped ∧
      ∀ v, (storedW N w').count v + ((outputsOf ops rs).count v + dropped.count v) = (storedW N w).count v + (inputsOf ops rs).count v := by
  induction ops generalizing w with
  | nil => exact ⟨[], w, rfl, h, [], by simp, fun v => by simp [inputsOf, outputsOf]⟩
  | cons op ops ih =>
    obtain ⟨hp, hH, hs⟩ := hs
    obtain ⟨x, w1, e1, h1, heff⟩ := step_checked h hp hH
    have key : (∀ a, N ≤ a → w1.owner a = .user) ∧ ∃ dropped, w1.log = w.log ++ dropped ∧
        ∀ v, (storedW N w1).count v + ((outputs op x).count v + dropped.count v) = (storedW N w).count v + (inputs op x).count v := by
      rcases heff with hi | ⟨a, he⟩
      · refine ⟨fun a ha => by rw [hi.owner]; exact hN a ha, [], by rw [hi.log]; simp, fun v => ?_⟩
        have : storedW N w1 = storedW N w := by simp only [storedW, funext hi.alive]
        rw [this, hi.io.1, hi.io.2]
        simp
      · have ha : a < N := by
          rcases he.touch with h0 | ⟨v, rfl⟩
          · exact Nat.lt_of_not_le fun hle => h0 (hN a hle)
          · exact hb (.new a v) List.mem_cons_self
        refine ⟨fun b hb => by rw [(he.others b (by omega)).1]; exact hN b hb, ?_⟩
        obtain ⟨d, hd, hc⟩ := he.count
        refine ⟨d, hd, fun v => ?_⟩
        have := FVec.count_flatMap_update (v := v) (f := alive w1) (g := alive w) (i := a) (fun j hj => alive_congr (he.others j hj)) N ha
        have := hc v
        simp only [storedW]
        omega
    obtain ⟨k1, d, k2, k3⟩ := key
    obtain ⟨rs, w2, e2, h2, d2, l2, c2⟩ := ih h1 k1 (fun o ho => hb o (by simp [ho])) (hs x w1 e1)
    refine ⟨x :: rs, w2, ?_, h2, d ++ d2, by rw [l2, k2, List.append_assoc], fun v => ?_⟩
    · simp only [run, e1, e2, bind, Outcome.bind, pure]
    · have := c2 v
      have := k3 v
      simp only [inputsOf, outputsOf, List.zip_cons_cons, List.flatMap_cons, List.count_append] at *
      omega

omit [DecidableEq V] in
theorem hinv_init (mem : Nat → RcBox V) : HInv t (World.init mem) := fun _ => ⟨rfl, rfl⟩

theorem heldReach_inv (h : HeldReach t true w) : HInv t w := by
  obtain ⟨mem, ops, rs, hs, hr⟩ := h
  obtain ⟨N, hN⟩ := bound_exists ops
  obtain ⟨rs', w', e, hi, _⟩ := run_checked (N := N) (hinv_init mem) (fun _ _ => rfl) hN hs
  rw [hr] at e
  cases e
  exact hi

end Verif.RcM
