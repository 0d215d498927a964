import Verif.Spec.RcMem
import Verif.Props.AllocExt
import Verif.Props.RcCount
/-! # C81: `Rc` on the bytes of its memory -/
namespace Verif
open RcM RcMem

namespace RcMem
variable {c : Cfg} {checks : Bool}

theorem strongAddr_eq (h : c.T.ValidType c.t) (a : Nat) : c.strongAddr a = c.addr a + alignUp c.t.wordBytes c.T.size := by
  simp only [Cfg.strongAddr, AllocExt.strongAddr, (fields_within h).1]; rfl
theorem weakAddr_eq (h : c.T.ValidType c.t) (a : Nat) : c.weakAddr a = c.addr a + (alignUp c.t.wordBytes c.T.size + c.t.wordBytes) := by
  simp only [Cfg.weakAddr, AllocExt.weakAddr, (fields_within h).1]; rfl

theorem loadUsize_lt (t : Target) (m : Mem) (a : Nat) : loadUsize t m a < t.W := by
  have : ∀ bs : List Byte, leNat bs < 2 ^ (8 * bs.length) := by
    intro bs
    induction bs with
    | nil => simp [leNat]
    | cons b bs ih =>
      have hb := b.toNat_lt
      simp only [leNat, List.length_cons, Nat.mul_add, Nat.pow_add]
      omega
  have h := this (readBytes m a t.wordBytes)
  rwa [length_readBytes] at h

/-- Effect on all records of storing to the fields of one block. -/
theorem box_upd (hc : c.Ok) {m m' : Mem} {a : Nat} {b : RcBox (List Byte)} (h : c.box m' a = b) (hout : ∀ x, ¬ (c.region a).Has x → m' x = m x) :
    c.box m' = fun x => if x = a then b else c.box m x := by
  funext x
  by_cases hx : x = a
  · rw [if_pos hx, hx, h]
  · rw [if_neg hx]
    obtain ⟨_, h2, h3, _⟩ := fields_within hc.type
    have hs := strongAddr_eq hc.type x
    have hw := weakAddr_eq hc.type x
    have heq : ∀ y, (c.region x).Has y → m' y = m y := fun y hy => hout y fun hy' => hc.disjoint x a hx y ⟨hy, hy'⟩
    have e1 : c.value m' x = c.value m x := readBytes_congr fun y h1 h2' => heq y ⟨h1, by simp only [Cfg.region]; simp only [Cfg.valueAddr] at *; omega⟩
    have e2 : c.strong m' x = c.strong m x := loadUsize_congr fun y h1 h2' => heq y ⟨by simp only [Cfg.region]; omega, by simp only [Cfg.region]; omega⟩
    have e3 : c.weak m' x = c.weak m x := loadUsize_congr fun y h1 h2' => heq y ⟨by simp only [Cfg.region]; omega, by simp only [Cfg.region]; omega⟩
    simp only [Cfg.box, e1, e2, e3]

theorem setStrong_out (hc : c.Ok) {m : Mem} {a v : Nat} : ∀ x, ¬ (c.region a).Has x → c.setStrong m a v x = m x := by
  obtain ⟨_, h2, h3, _⟩ := fields_within hc.type
  have hs := strongAddr_eq hc.type a
  intro x hx
  exact storeUsize_of_not_mem fun h => hx ⟨by simp only [Cfg.region]; omega, by simp only [Cfg.region]; omega⟩
theorem setWeak_out (hc : c.Ok) {m : Mem} {a v : Nat} : ∀ x, ¬ (c.region a).Has x → c.setWeak m a v x = m x := by
  obtain ⟨_, h2, h3, _⟩ := fields_within hc.type
  have hs := weakAddr_eq hc.type a
  intro x hx
  exact storeUsize_of_not_mem fun h => hx ⟨by simp only [Cfg.region]; omega, by simp only [Cfg.region]; omega⟩
theorem setValue_out (hc : c.Ok) {m : Mem} {a : Nat} {v : List Byte} (hv : v.length = c.T.size) : ∀ x, ¬ (c.region a).Has x → c.setValue m a v x = m x := by
  obtain ⟨_, h2, h3, _⟩ := fields_within hc.type
  intro x hx
  exact writeBytes_of_not_mem fun h => hx ⟨by simp only [Cfg.region, Cfg.valueAddr] at *; omega, by simp only [Cfg.region, Cfg.valueAddr] at *; omega⟩

theorem box_setStrong (hc : c.Ok) {m : Mem} {a v : Nat} (hv : v < c.t.W) : c.box (c.setStrong m a v) a = { c.box m a with strong := v } := by
  obtain ⟨_, h2, h3, _⟩ := fields_within hc.type
  have hs := strongAddr_eq hc.type a
  have hw := weakAddr_eq hc.type a
  have e1 : c.value (c.setStrong m a v) a = c.value m a := readBytes_congr fun y h1 h2' => storeUsize_of_not_mem (by simp only [Cfg.valueAddr] at *; omega)
  have e2 : c.strong (c.setStrong m a v) a = v := loadUsize_storeUsize _ _ _ hv
  have e3 : c.weak (c.setStrong m a v) a = c.weak m a := loadUsize_other (by omega)
  simp only [Cfg.box, e1, e2, e3]
theorem box_setWeak (hc : c.Ok) {m : Mem} {a v : Nat} (hv : v < c.t.W) : c.box (c.setWeak m a v) a = { c.box m a with weak := v } := by
  obtain ⟨_, h2, h3, _⟩ := fields_within hc.type
  have hs := strongAddr_eq hc.type a
  have hw := weakAddr_eq hc.type a
  have e1 : c.value (c.setWeak m a v) a = c.value m a := readBytes_congr fun y h1 h2' => storeUsize_of_not_mem (by simp only [Cfg.valueAddr] at *; omega)
  have e2 : c.weak (c.setWeak m a v) a = v := loadUsize_storeUsize _ _ _ hv
  have e3 : c.strong (c.setWeak m a v) a = c.strong m a := loadUsize_other (by omega)
  simp only [Cfg.box, e1, e2, e3]
theorem box_setValue (hc : c.Ok) {m : Mem} {a : Nat} {v : List Byte} (hv : v.length = c.T.size) : c.box (c.setValue m a v) a = { c.box m a with val := some v } := by
  obtain ⟨_, h2, h3, _⟩ := fields_within hc.type
  have hs := strongAddr_eq hc.type a
  have hw := weakAddr_eq hc.type a
  have e1 : c.value (c.setValue m a v) a = v := by
    simp only [Cfg.value, Cfg.setValue, ← hv]
    exact readBytes_writeBytes_self _ _ _
  have e2 : c.weak (c.setValue m a v) a = c.weak m a := loadUsize_congr fun y h1 h2' => writeBytes_of_not_mem (by simp only [Cfg.valueAddr]; omega)
  have e3 : c.strong (c.setValue m a v) a = c.strong m a := loadUsize_congr fun y h1 h2' => writeBytes_of_not_mem (by simp only [Cfg.valueAddr]; omega)
  simp only [Cfg.box, e1, e2, e3]

theorem W_pos (t : Target) : 1 < t.W := by cases t <;> decide

theorem plusOne_lt {t : Target} {n v : Nat} (h : plusOne t checks n = .ret v) : v < t.W := by
  unfold plusOne at h
  split at h
  · cases h; assumption
  · split at h
    · cases h
    · cases h; exact Nat.mod_lt _ (by have := W_pos t; omega)
theorem minusOne_lt {t : Target} {n v : Nat} (hn : n < t.W) (h : minusOne t checks n = .ret v) : v < t.W := by
  unfold minusOne at h
  split at h
  · cases h; omega
  · split at h
    · cases h
    · cases h; exact Nat.mod_lt _ (by have := W_pos t; omega)

/-- Relation of the results of counting on bytes and on records. -/
def Agree (c : Cfg) (m : Mem) (a : Nat) (x : Outcome Mem) (y : Outcome (RcBox (List Byte))) : Prop :=
  (∃ m' b, x = .ret m' ∧ y = .ret b ∧ c.box m' a = b ∧ (∀ z, ¬ (c.region a).Has z → m' z = m z)) ∨ (x = .panic ∧ y = .panic)

theorem agree_incStrong (hc : c.Ok) (m : Mem) (a : Nat) : Agree c m a (c.incStrong checks m a) ((c.box m a).incStrong c.t checks) := by
  unfold Cfg.incStrong RcBox.incStrong
  simp only [Cfg.box]
  cases h : plusOne c.t checks (c.strong m a) with
  | ub => simp only [plusOne] at h; split at h; cases h; split at h <;> cases h
  | panic => exact .inr ⟨rfl, rfl⟩
  | ret v => exact .inl ⟨_, _, rfl, rfl, box_setStrong hc (plusOne_lt h), setStrong_out hc⟩
theorem agree_decStrong (hc : c.Ok) (m : Mem) (a : Nat) : Agree c m a (c.decStrong checks m a) ((c.box m a).decStrong c.t checks) := by
  unfold Cfg.decStrong RcBox.decStrong
  simp only [Cfg.box]
  cases h : minusOne c.t checks (c.strong m a) with
  | ub => simp only [minusOne] at h; split at h; cases h; split at h <;> cases h
  | panic => exact .inr ⟨rfl, rfl⟩
  | ret v => exact .inl ⟨_, _, rfl, rfl, box_setStrong hc (minusOne_lt (loadUsize_lt _ _ _) h), setStrong_out hc⟩
theorem agree_incWeak (hc : c.Ok) (m : Mem) (a : Nat) : Agree c m a (c.incWeak checks m a) ((c.box m a).incWeak c.t checks) := by
  unfold Cfg.incWeak RcBox.incWeak
  simp only [Cfg.box]
  cases h : plusOne c.t checks (c.weak m a) with
  | ub => simp only [plusOne] at h; split at h; cases h; split at h <;> cases h
  | panic => exact .inr ⟨rfl, rfl⟩
  | ret v => exact .inl ⟨_, _, rfl, rfl, box_setWeak hc (plusOne_lt h), setWeak_out hc⟩
theorem agree_decWeak (hc : c.Ok) (m : Mem) (a : Nat) : Agree c m a (c.decWeak checks m a) ((c.box m a).decWeak c.t checks) := by
  unfold Cfg.decWeak RcBox.decWeak
  simp only [Cfg.box]
  cases h : minusOne c.t checks (c.weak m a) with
  | ub => simp only [minusOne] at h; split at h; cases h; split at h <;> cases h
  | panic => exact .inr ⟨rfl, rfl⟩
  | ret v => exact .inl ⟨_, _, rfl, rfl, box_setWeak hc (minusOne_lt (loadUsize_lt _ _ _) h), setWeak_out hc⟩

/-- A world on bytes and one with records agree, and the bytes outside of the block are as in `m`. -/
def AgreeW (c : Cfg) (m : Mem) (a : Nat) (x : Outcome (BResp × BWorld)) (y : Outcome (Resp (List Byte) × World (List Byte))) : Prop :=
  (∃ r w', x = .ret (r, w') ∧ y = .ret (r, w'.abs c) ∧ (∀ z, ¬ (c.region a).Has z → w'.m z = m z)) ∨ (x = .panic ∧ y = .panic) ∨ (x = .ub ∧ y = .ub)

theorem abs_setMem (hc : c.Ok) {w : BWorld} {m' : Mem} {a : Nat} {b : RcBox (List Byte)} (h : c.box m' a = b) (ho : ∀ z, ¬ (c.region a).Has z → m' z = w.m z) : (w.setMem m').abs c = (w.abs c).setMem a b := by
  simp only [BWorld.abs, BWorld.setMem, World.setMem, box_upd hc h ho]
theorem abs_add (w : BWorld) (k : HKind) (a : Nat) : (w.add k a).abs c = (w.abs c).add k a := rfl
theorem abs_kill (w : BWorld) (h : Nat) : (w.kill h).abs c = (w.abs c).kill h := rfl
theorem abs_setOwner (w : BWorld) (a : Nat) (o : Owner) : (w.setOwner a o).abs c = (w.abs c).setOwner a o := rfl
theorem abs_block (w : BWorld) (k : HKind) (h : Nat) : (w.abs c).block? k h = w.block? k h := rfl
theorem abs_any (w : BWorld) (h : Nat) : (w.abs c).any? h = w.any? h := rfl
theorem abs_mem (w : BWorld) (a : Nat) : (w.abs c).mem a = c.box w.m a := rfl

theorem agree_dropRc (hc : c.Ok) (w : BWorld) (a : Nat) :
    (∃ w', w.dropRc c checks a = .ret w' ∧ (w.abs c).dropRc c.t checks a = .ret (w'.abs c) ∧ ∀ z, ¬ (c.region a).Has z → w'.m z = w.m z) ∨
    (w.dropRc c checks a = .panic ∧ (w.abs c).dropRc c.t checks a = .panic) := by
  simp only [BWorld.dropRc, World.dropRc, Cfg.dropRc, RcBox.dropRc, abs_mem, bind, Outcome.bind, pure]
  rcases agree_decStrong (checks := checks) hc w.m a with ⟨m1, b, e1, e2, hb, ho⟩ | ⟨e1, e2⟩
  · simp only [e1, e2]
    have hs : b.strong = c.strong m1 a := by rw [← hb]; rfl
    rw [hs]
    by_cases h0 : c.strong m1 a = 0
    · simp only [if_pos h0]
      rcases agree_decWeak (checks := checks) hc m1 a with ⟨m2, b2, e3, e4, hb2, ho2⟩ | ⟨e3, e4⟩
      · rw [hb] at e4
        simp only [e3, e4]
        have hout : ∀ z, ¬ (c.region a).Has z → m2 z = w.m z := fun z hz => (ho2 z hz).trans (ho z hz)
        refine .inl ⟨_, rfl, ?_, hout⟩
        rw [if_pos trivial, World.beginDrop]
        have hv : (((w.abs c).setMem a b2).mem a).val = some (c.value m2 a) := by rw [← hb2]; simp [World.setMem, Cfg.box]
        rw [hv]
        have := abs_setMem hc hb2 hout
        simp only [← this]
        rfl
      · rw [hb] at e4
        simp only [e3, e4]
        exact .inr ⟨trivial, trivial⟩
    · simp only [if_neg h0]
      refine .inl ⟨w.setMem m1, rfl, ?_, ho⟩
      rw [abs_setMem hc hb ho]
      simp
  · simp only [e1, e2]
    exact .inr ⟨trivial, trivial⟩

/-- As `BWorld.counted` on records. -/
def countedA (w : World (List Byte)) (k : HKind) (a : Nat) (y : Outcome (RcBox (List Byte))) : Outcome (Resp (List Byte) × World (List Byte)) :=
  match y with
  | .ret b => .ret (.handle w.hs.length, (w.setMem a b).add k a)
  | .panic => .ret (.panic, w)
  | .ub => .ub

theorem agree_counted (hc : c.Ok) (w : BWorld) (k : HKind) (a : Nat) {x : Outcome Mem} {y : Outcome (RcBox (List Byte))} (h : Agree c w.m a x y) :
    AgreeW c w.m a (w.counted k a x) (countedA (w.abs c) k a y) := by
  rcases h with ⟨m1, b, rfl, rfl, hb, ho⟩ | ⟨rfl, rfl⟩
  · refine .inl ⟨_, _, rfl, ?_, ho⟩
    rw [abs_add, abs_setMem hc hb ho]
    rfl
  · exact .inl ⟨_, _, rfl, rfl, fun _ _ => rfl⟩

/-- Each call does on the bytes what it does on the records, and writes only to the memory of its block. -/
theorem bexec_agree (hc : c.Ok) (w : BWorld) {op : Op (List Byte)} (hz : Sized c op) :
    (∃ r w', bexec c checks w (.call op) = .ret (r, w') ∧ exec c.t checks (w.abs c) op = .ret (r, w'.abs c) ∧
      ∀ z, (∀ a, target w (.call op) = some a → ¬ (c.region a).Has z) → w'.m z = w.m z) ∨
    (bexec c checks w (.call op) = .panic ∧ exec c.t checks (w.abs c) op = .panic) ∨ (bexec c checks w (.call op) = .ub ∧ exec c.t checks (w.abs c) op = .ub) := by
  -- it suffices to show agreement for the block of the call
  have key : ∀ {a : Nat}, (∀ z, (target w (.call op) = some a → ¬ (c.region a).Has z) → ¬ (c.region a).Has z) → AgreeW c w.m a (bexec c checks w (.call op)) (exec c.t checks (w.abs c) op) →
      (∃ r w', bexec c checks w (.call op) = .ret (r, w') ∧ exec c.t checks (w.abs c) op = .ret (r, w'.abs c) ∧
      ∀ z, (∀ a, target w (.call op) = some a → ¬ (c.region a).Has z) → w'.m z = w.m z) ∨
    (bexec c checks w (.call op) = .panic ∧ exec c.t checks (w.abs c) op = .panic) ∨ (bexec c checks w (.call op) = .ub ∧ exec c.t checks (w.abs c) op = .ub) := by
    rintro a ht (⟨r, w', e1, e2, h3⟩ | h | h)
    · exact .inl ⟨r, w', e1, e2, fun z h => h3 z (ht z (h a))⟩
    · exact .inr (.inl h)
    · exact .inr (.inr h)
  have same : ∀ {r : BResp} {w' : BWorld}, w'.m = w.m → bexec c checks w (.call op) = .ret (r, w') → exec c.t checks (w.abs c) op = .ret (r, w'.abs c) →
      (∃ r w', bexec c checks w (.call op) = .ret (r, w') ∧ exec c.t checks (w.abs c) op = .ret (r, w'.abs c) ∧
      ∀ z, (∀ a, target w (.call op) = some a → ¬ (c.region a).Has z) → w'.m z = w.m z) ∨
    (bexec c checks w (.call op) = .panic ∧ exec c.t checks (w.abs c) op = .panic) ∨ (bexec c checks w (.call op) = .ub ∧ exec c.t checks (w.abs c) op = .ub) :=
    fun hm e1 e2 => .inl ⟨_, _, e1, e2, fun _ _ => by rw [hm]⟩
  have hblock : ∀ {k h a}, w.block? k h = some a → blockOf w.hs h = some a := by
    intro k h a e
    unfold BWorld.block? at e
    unfold blockOf
    split at e
    · rename_i hx
      rw [hx]
      split at e
      · exact e
      · cases e
    · cases e
  cases op with
  | scribble a b => exact absurd hz id
  | new a v =>
    refine key (a := a) (fun z h => h rfl) (.inl ⟨.handle w.hs.length, ((w.setMem (c.init w.m a v)).setOwner a .rc).add .strong a, rfl, ?_, ?_⟩)
    · simp only [exec, abs_add, abs_setOwner]
      have h1 := box_setValue hc (m := w.m) (a := a) hz
      have h2 := box_setStrong hc (m := c.setValue w.m a v) (a := a) (v := 1) (W_pos _)
      have h3 := box_setWeak hc (m := c.setStrong (c.setValue w.m a v) a 1) (a := a) (v := 1) (W_pos _)
      rw [h2, h1] at h3
      rw [abs_setMem hc (m' := c.init w.m a v) (a := a) (b := RcBox.init v) h3 (fun z hz' => (setWeak_out hc z hz').trans ((setStrong_out hc z hz').trans (setValue_out hc hz z hz')))]
      rfl
    · exact fun z hz' => (setWeak_out hc z hz').trans ((setStrong_out hc z hz').trans (setValue_out hc hz z hz'))
  | clone h =>
    cases hb : w.block? .strong h with
    | none => exact .inr (.inr ⟨by simp only [bexec, hb], by simp only [exec, abs_block, hb]⟩)
    | some a =>
      refine key (a := a) (fun z h => h (hblock hb)) ?_
      have h0 := agree_counted hc w .strong a (agree_incStrong (checks := checks) hc w.m a)
      simp only [bexec, exec, abs_block, hb]
      rw [countedA.eq_def, ← abs_mem] at h0
      cases hq : RcBox.incStrong c.t checks ((w.abs c).mem a) with
      | ret b => rw [hq] at h0; exact h0
      | panic => rw [hq] at h0; exact h0
      | ub => rw [hq] at h0; exact h0
  | downgrade h =>
    cases hb : w.block? .strong h with
    | none => exact .inr (.inr ⟨by simp only [bexec, hb], by simp only [exec, abs_block, hb]⟩)
    | some a =>
      refine key (a := a) (fun z h => h (hblock hb)) ?_
      have h0 := agree_counted hc w .weak a (agree_incWeak (checks := checks) hc w.m a)
      simp only [bexec, exec, abs_block, hb]
      rw [countedA.eq_def, ← abs_mem] at h0
      cases hq : RcBox.incWeak c.t checks ((w.abs c).mem a) with
      | ret b => rw [hq] at h0; exact h0
      | panic => rw [hq] at h0; exact h0
      | ub => rw [hq] at h0; exact h0
  | cloneWeak h =>
    cases hb : w.block? .weak h with
    | none => exact .inr (.inr ⟨by simp only [bexec, hb], by simp only [exec, abs_block, hb]⟩)
    | some a =>
      refine key (a := a) (fun z h => h (hblock hb)) ?_
      have h0 := agree_counted hc w .weak a (agree_incWeak (checks := checks) hc w.m a)
      simp only [bexec, exec, abs_block, hb]
      rw [countedA.eq_def, ← abs_mem] at h0
      cases hq : RcBox.incWeak c.t checks ((w.abs c).mem a) with
      | ret b => rw [hq] at h0; exact h0
      | panic => rw [hq] at h0; exact h0
      | ub => rw [hq] at h0; exact h0
  | upgrade h =>
    cases hb : w.block? .weak h with
    | none => exact .inr (.inr ⟨by simp only [bexec, hb], by simp only [exec, abs_block, hb]⟩)
    | some a =>
      by_cases h0 : c.strong w.m a = 0
      · exact same rfl (by simp only [bexec, hb]; rw [if_pos h0]) (by simp only [exec, abs_block, hb]; rw [if_pos (show ((w.abs c).mem a).strong = 0 from h0)])
      · refine key (a := a) (fun z h => h (hblock hb)) ?_
        simp only [Cfg.box, abs_block, abs_mem, bexec, exec, h0, hb, if_false]
        unfold BWorld.upgradeSome World.upgradeSome
        rw [abs_mem]
        rcases agree_incStrong (checks := checks) hc w.m a with ⟨m1, b, e1, e2, hbx, ho⟩ | ⟨e1, e2⟩
        · rw [e1, e2]
          refine .inl ⟨_, _, rfl, ?_, ho⟩
          rw [abs_add, abs_setMem hc hbx ho]
          rfl
        · rw [e1, e2]
          rcases agree_dropRc (checks := checks) hc w a with ⟨w', e3, e4, ho⟩ | ⟨e3, e4⟩
          · simp only [e3, e4, bind, Outcome.bind, pure]
            exact .inl ⟨_, _, rfl, rfl, ho⟩
          · simp only [e3, e4, bind, Outcome.bind]
            exact .inr (.inl ⟨rfl, rfl⟩)
  | dropRc h =>
    cases hb : w.block? .strong h with
    | none => exact .inr (.inr ⟨by simp only [bexec, hb], by simp only [exec, abs_block, hb]⟩)
    | some a =>
      refine key (a := a) (fun z h => h (hblock hb)) ?_
      simp only [abs_block, bexec, exec, hb]
      rw [← abs_kill]
      rcases agree_dropRc (checks := checks) hc (w.kill h) a with ⟨w', e3, e4, ho⟩ | ⟨e3, e4⟩
      · simp only [e3, e4, bind, Outcome.bind, pure]
        exact .inl ⟨_, _, rfl, rfl, ho⟩
      · simp only [e3, e4, bind, Outcome.bind]
        exact .inr (.inl ⟨rfl, rfl⟩)
  | dropWeak h =>
    cases hb : w.block? .weak h with
    | none => exact .inr (.inr ⟨by simp only [bexec, hb], by simp only [exec, abs_block, hb]⟩)
    | some a =>
      refine key (a := a) (fun z h => h (hblock hb)) ?_
      simp only [abs_block, bexec, exec, hb]
      rw [abs_mem]
      rcases agree_decWeak (checks := checks) hc w.m a with ⟨m1, b, e1, e2, hbx, ho⟩ | ⟨e1, e2⟩
      · simp only [e1, e2, bind, Outcome.bind, pure]
        refine .inl ⟨_, _, rfl, ?_, ho⟩
        rw [abs_setMem (w := w.kill h) hc hbx ho]
        rfl
      · simp only [e1, e2, bind, Outcome.bind]
        exact .inr (.inl ⟨rfl, rfl⟩)
  | tryUnwrap h =>
    cases hb : w.block? .strong h with
    | none => exact .inr (.inr ⟨by simp only [bexec, hb], by simp only [exec, abs_block, hb]⟩)
    | some a =>
      by_cases h1 : c.strong w.m a ≠ 1
      · exact same rfl (by simp only [bexec, hb]; rw [if_pos h1]) (by simp only [exec, abs_block, hb]; rw [if_pos (show ((w.abs c).mem a).strong ≠ 1 from h1)])
      · refine key (a := a) (fun z h => h (hblock hb)) ?_
        simp only [abs_block, bexec, exec, hb]
        rw [if_neg h1]
        rw [if_neg (show ¬ ((w.abs c).mem a).strong ≠ 1 from h1), abs_mem]
        rcases agree_decStrong (checks := checks) hc w.m a with ⟨m1, b, e1, e2, hbx, ho⟩ | ⟨e1, e2⟩
        · simp only [e1, e2, bind, Outcome.bind, pure]
          have hv : b.val = some (c.value m1 a) := by rw [← hbx]; rfl
          rw [hv]
          refine .inl ⟨_, _, rfl, ?_, ho⟩
          rw [abs_add, abs_kill, abs_setMem hc hbx ho]
          rfl
        · simp only [e1, e2, bind, Outcome.bind]
          exact .inr (.inl ⟨rfl, rfl⟩)
  | weakTryUnwrap h =>
    cases hb : w.block? .weak h with
    | none => exact .inr (.inr ⟨by simp only [bexec, hb], by simp only [exec, abs_block, hb]⟩)
    | some a =>
      by_cases h1 : c.isUniqueToRcMemory w.m a = true
      · refine key (a := a) (fun z h => h (hblock hb)) ?_
        simp only [abs_block, bexec, exec, hb]
        rw [if_pos h1]
        rw [if_pos (show ((w.abs c).mem a).isUniqueToRcMemory = true from h1), abs_mem]
        rcases agree_decWeak (checks := checks) hc w.m a with ⟨m1, b, e1, e2, hbx, ho⟩ | ⟨e1, e2⟩
        · simp only [e1, e2, bind, Outcome.bind, pure]
          refine .inl ⟨_, _, rfl, ?_, ho⟩
          rw [abs_setOwner, abs_kill, abs_setMem hc hbx ho]
        · simp only [e1, e2, bind, Outcome.bind]
          exact .inr (.inl ⟨rfl, rfl⟩)
      · exact same rfl (by simp only [bexec, hb]; rw [if_neg h1]) (by simp only [exec, abs_block, hb]; rw [if_neg (show ¬ ((w.abs c).mem a).isUniqueToRcMemory = true from h1)])
  | intoRaw h =>
    cases hb : w.block? .strong h with
    | none => exact .inr (.inr ⟨by simp only [bexec, hb], by simp only [exec, abs_block, hb]⟩)
    | some a =>
      by_cases h1 : c.isUnique w.m a = true
      · exact same rfl (by simp only [bexec, hb]; rw [if_pos h1]) (by simp only [exec, abs_block, hb]; rw [if_pos (show ((w.abs c).mem a).isUnique = true from h1)]; rfl) (w' := (w.kill h).setOwner a .raw)
      · exact same rfl (by simp only [bexec, hb]; rw [if_neg h1]) (by simp only [exec, abs_block, hb]; rw [if_neg (show ¬ ((w.abs c).mem a).isUnique = true from h1)])
  | fromRaw a => exact same (w' := (w.setOwner a .rc).add .strong a) rfl rfl rfl
  | rawReplace a v =>
    refine key (a := a) (fun z h => h rfl) (.inl ⟨_, _, rfl, ?_, setValue_out hc hz⟩)
    simp only [exec, abs_mem, Cfg.box]
    rw [abs_setMem hc (box_setValue hc hz) (setValue_out hc hz)]
    rfl
  | rawTake a => exact same (w' := w.setOwner a .user) rfl rfl (by simp only [exec, abs_mem, Cfg.box]; rfl)
  | replace h v =>
    cases hb : w.block? .strong h with
    | none => exact .inr (.inr ⟨by simp only [bexec, hb], by simp only [exec, abs_block, hb]⟩)
    | some a =>
      by_cases h1 : c.isUnique w.m a = true
      · refine key (a := a) (fun z h => h (hblock hb)) ?_
        simp only [abs_block, bexec, exec, hb]
        rw [if_pos h1]
        rw [if_pos (show ((w.abs c).mem a).isUnique = true from h1), abs_mem]
        refine .inl ⟨_, _, rfl, ?_, setValue_out hc hz⟩
        rw [abs_setMem hc (box_setValue hc hz) (setValue_out hc hz)]
        rfl
      · exact same rfl (by simp only [bexec, hb]; rw [if_neg h1]) (by simp only [exec, abs_block, hb]; rw [if_neg (show ¬ ((w.abs c).mem a).isUnique = true from h1)])
  | deref h =>
    cases hb : w.block? .strong h with
    | none => exact .inr (.inr ⟨by simp only [bexec, hb], by simp only [exec, abs_block, hb]⟩)
    | some a => exact same (r := .val (c.value w.m a)) (w' := w) rfl (by simp only [bexec, hb]) (by simp only [exec, abs_block, hb, abs_mem, Cfg.box])
  | strongCount h =>
    cases hb : w.any? h with
    | none => exact .inr (.inr ⟨by simp only [bexec, hb], by simp only [exec, abs_any, hb]⟩)
    | some a => exact same (r := .num (c.strong w.m a)) (w' := w) rfl (by simp only [bexec, hb]) (by simp only [exec, abs_any, hb, abs_mem, Cfg.box])
  | weakCount h =>
    cases hb : w.any? h with
    | none => exact .inr (.inr ⟨by simp only [bexec, hb], by simp only [exec, abs_any, hb]⟩)
    | some a => exact same (r := .num (c.weak w.m a)) (w' := w) rfl (by simp only [bexec, hb]) (by simp only [exec, abs_any, hb, abs_mem, Cfg.box])
  | ptrEq h h' =>
    cases hb : w.block? .strong h with
    | none => exact .inr (.inr ⟨by simp only [bexec, hb], by simp only [exec, abs_block, hb]⟩)
    | some a =>
      cases hb' : w.block? .strong h' with
      | none => exact .inr (.inr ⟨by simp only [bexec, hb, hb'], by simp only [exec, abs_block, hb, hb']⟩)
      | some a' =>
        have : (c.valueAddr a = c.valueAddr a') = (a = a') := by
          refine propext ⟨fun h => ?_, fun h => by rw [h]⟩
          by_contra hne
          have hpos : 0 < (rcLayout c.t c.T).size := Nat.pos_of_ne_zero (rcLayout_pos c.t c.T)
          exact hc.disjoint a a' hne (c.addr a) ⟨⟨Nat.le_refl _, by simp only [Cfg.region]; omega⟩, ⟨by simp only [Cfg.region, Cfg.valueAddr] at *; omega, by simp only [Cfg.region, Cfg.valueAddr] at *; omega⟩⟩
        exact same (r := .bool (a = a')) (w' := w) rfl (by simp only [bexec, hb, hb', this]) (by simp only [exec, abs_block, hb, hb'])
  | forget h =>
    cases hb : w.hs[h]? with
    | none => exact .inr (.inr ⟨by simp only [bexec, hb], by simp only [exec, BWorld.abs, hb]⟩)
    | some x =>
      cases x with
      | none => exact .inr (.inr ⟨by simp only [bexec, hb], by simp only [exec, BWorld.abs, hb]⟩)
      | some x => exact same (r := .unit) (w' := { w with hs := w.hs.set h (some { x with forgotten := true }) }) rfl (by simp only [bexec, hb]) (by simp only [exec, BWorld.abs, hb])
  | endDrop => exact same (w' := { w with running := w.running.tail }) rfl rfl rfl

theorem initial_abs (c : Cfg) (m : Mem) : (BWorld.initial m).abs c = World.init (c.box m) := rfl

/-- What the user writes to memory that is his does not concern the handles. -/
theorem raw_rel (hc : c.Ok) {w : BWorld} {sw : SWorld (List Byte)} (r : WRel (w.abs c) sw) {a off : Nat} {bytes : List Byte} (ho : w.owner a = .user) (hlen : off + bytes.length ≤ (rcLayout c.t c.T).size) :
    (∀ z, ¬ (c.region a).Has z → writeBytes w.m (c.addr a + off) bytes z = w.m z) ∧ WRel ((w.setMem (writeBytes w.m (c.addr a + off) bytes)).abs c) sw := by
  have hout : ∀ z, ¬ (c.region a).Has z → writeBytes w.m (c.addr a + off) bytes z = w.m z := fun z hz => writeBytes_of_not_mem fun h => hz ⟨by simp only [Cfg.region]; omega, by simp only [Cfg.region]; omega⟩
  refine ⟨hout, ?_⟩
  rw [abs_setMem hc rfl hout]
  obtain ⟨w', e, r'⟩ := sim_step (t := c.t) (checks := true) r (op := .scribble a (c.box (writeBytes w.m (c.addr a + off) bytes) a)) (show (w.abs c).owner a = .user from ho) trivial
  simp only [exec] at e
  cases e
  exact r'

theorem bstep (hc : c.Ok) {w : BWorld} {sw : SWorld (List Byte)} (r : WRel (w.abs c) sw) {op : BOp} (h : Allowed c w op) :
    ∃ w', bexec c checks w op = .ret ((sexec sw (specOp op)).1, w') ∧ WRel (w'.abs c) (sexec sw (specOp op)).2 ∧ ∀ z, (∀ a, target w op = some a → ¬ (c.region a).Has z) → w'.m z = w.m z := by
  cases op with
  | raw a off bytes =>
    obtain ⟨ho, hlen⟩ := h
    obtain ⟨h1, h2⟩ := raw_rel hc r ho hlen
    exact ⟨_, rfl, h2, fun z hz => h1 z (hz a rfl)⟩
  | call op =>
    obtain ⟨hz, hp, hN⟩ := h
    obtain ⟨w1, e, r1⟩ := sim_step (t := c.t) (checks := checks) r hp hN
    rcases bexec_agree (checks := checks) hc w hz with ⟨r', w', e1, e2, h3⟩ | ⟨_, e2⟩ | ⟨_, e2⟩
    · rw [e] at e2
      cases e2
      exact ⟨w', e1, r1, h3⟩
    · rw [e] at e2; cases e2
    · rw [e] at e2; cases e2

theorem brun_rel (hc : c.Ok) {w : BWorld} {sw : SWorld (List Byte)} (r : WRel (w.abs c) sw) {ops : List BOp} (h : RcMem.SafeRun c checks w ops) :
    ∃ w', brun c checks w ops = .ret ((srun sw (ops.map specOp)).1, w') ∧ WRel (w'.abs c) (srun sw (ops.map specOp)).2 ∧ ∀ z, (∀ a, ¬ (c.region a).Has z) → w'.m z = w.m z := by
  induction ops generalizing w sw with
  | nil => exact ⟨w, rfl, r, fun _ _ => rfl⟩
  | cons op ops ih =>
    obtain ⟨ha, hs⟩ := h
    obtain ⟨w1, e1, r1, h1⟩ := bstep (checks := checks) hc r ha
    obtain ⟨w2, e2, r2, h2⟩ := ih r1 (hs _ _ e1)
    refine ⟨w2, ?_, r2, fun z hz => (h2 z hz).trans (h1 z fun a _ => hz a)⟩
    simp only [brun, srun, List.map_cons, e1, e2, bind, Outcome.bind, pure]

theorem breach_rel (hc : c.Ok) {w : BWorld} (h : RcMem.Reach c checks w) : ∃ sw, WRel (w.abs c) sw := by
  obtain ⟨m, ops, rs, hs, hr⟩ := h
  obtain ⟨w', e, r, _⟩ := brun_rel hc (w := .initial m) (wrel_init (c.box m)) hs
  rw [hr] at e
  cases e
  exact ⟨_, r⟩

end RcMem

/-! ## C81 -/
open RcMem

/-- **C81.** On the bytes of the memory, starting with any contents, and with values that are any bytes, every call answers as the specification without counters and memory says: in particular what is read through a handle are exactly the bytes that were last stored. No call panics or is undefined. The values whose destructors are called are the same, and bytes that are in no block are not written. -/
theorem C81_refines {c : Cfg} (hc : c.Ok) {checks : Bool} (m : Mem) {ops : List BOp} (hs : RcMem.SafeRun c checks (.initial m) ops) :
    ∃ w', brun c checks (.initial m) ops = .ret ((srun SWorld.init (ops.map specOp)).1, w') ∧
      w'.log = (srun SWorld.init (ops.map specOp)).2.dropped ∧ ∀ z, (∀ a, ¬ (c.region a).Has z) → w'.m z = m z := by
  obtain ⟨w', e, r, h⟩ := brun_rel hc (w := .initial m) (wrel_init (c.box m)) hs
  exact ⟨w', e, r.log, h⟩

/-- **C81.** In every state the two words of memory are the numbers of handles that exist for the block (all strong ones together count as one weak one), and a strong handle has the block. -/
theorem C81_counts {c : Cfg} (hc : c.Ok) {checks : Bool} {w : BWorld} (hr : RcMem.Reach c checks w) {h a : Nat} {k : HKind} {f : Bool} (hx : w.hs[h]? = some (some ⟨k, a, f⟩)) :
    w.owner a = .rc ∧ loadUsize c.t w.m (c.strongAddr a) = handles w.hs .strong a ∧
      loadUsize c.t w.m (c.weakAddr a) = handles w.hs .weak a + (if handles w.hs .strong a = 0 then 0 else 1) := by
  obtain ⟨sw, r⟩ := breach_rel hc hr
  cases k with
  | strong =>
    obtain ⟨v, h1, h2, h3, h4⟩ := live_of r hx
    have e1 : c.strong w.m a = _ := congrArg RcBox.strong h3
    have e2 : c.weak w.m a = _ := congrArg RcBox.weak h3
    refine ⟨h2, e1, e2.trans ?_⟩
    rw [if_neg (by have : handles w.hs .strong a = handles (w.abs c).hs .strong a := rfl; omega)]
    rfl
  | weak =>
    obtain ⟨h2, e1, e2, _⟩ := weak_of r hx
    refine ⟨h2, e1, e2⟩

/-- **C81.** A call writes only to the memory of its own block: the value, the counters, and every other byte of all other blocks keep their contents. -/
theorem C81_own_block {c : Cfg} (hc : c.Ok) {checks : Bool} {w w' : BWorld} (hr : RcMem.Reach c checks w) {op : BOp} {r : BResp} (ha : Allowed c w op) (he : bexec c checks w op = .ret (r, w')) {z : Nat} (hz : ∀ a, target w op = some a → ¬ (c.region a).Has z) :
    w'.m z = w.m z := by
  obtain ⟨sw, rel⟩ := breach_rel hc hr
  obtain ⟨w1, e, _, h⟩ := bstep (checks := checks) hc rel ha
  rw [he] at e
  cases e
  exact h z hz

/-! ## A concrete case -/
namespace RcMem

def sizedB (c : Cfg) : Op (List Byte) → Bool
  | .new _ v | .rawReplace _ v | .replace _ v => v.length = c.T.size
  | .scribble _ _ => false
  | _ => true
theorem sizedB_sound {c : Cfg} {op : Op (List Byte)} (h : sizedB c op = true) : Sized c op := by
  cases op <;> simp only [sizedB, Sized, decide_eq_true_eq] at * <;> first | exact h | cases h
def bsafeB (c : Cfg) (checks : Bool) : BWorld → List BOp → Bool
  | _, [] => true
  | w, op :: ops =>
    (match op with
     | .call op => sizedB c op && permB (w.abs c) op && boundB c.t (w.abs c) op
     | .raw a off bytes => w.owner a = .user && off + bytes.length ≤ (rcLayout c.t c.T).size) &&
    match bexec c checks w op with | .ret (_, w') => bsafeB c checks w' ops | _ => true
theorem bsafeB_sound {c : Cfg} {checks : Bool} {w : BWorld} {ops : List BOp} (h : bsafeB c checks w ops = true) : RcMem.SafeRun c checks w ops := by
  induction ops generalizing w with
  | nil => trivial
  | cons op ops ih =>
    simp only [bsafeB, Bool.and_eq_true] at h
    refine ⟨?_, fun r w' e => ?_⟩
    · cases op with
      | call op =>
        simp only [Bool.and_eq_true] at h
        exact ⟨sizedB_sound h.1.1.1, permB_sound h.1.1.2, boundB_sound h.1.2⟩
      | raw a off bytes =>
        simp only [Bool.and_eq_true, decide_eq_true_eq] at h
        exact h.1
    · have h2 := h.2
      rw [e] at h2
      exact ih h2

/-- A type of three bytes; the counters are at 8 and 16 in each block. -/
def exC : Cfg := ⟨.w64, ⟨3, 1⟩, fun a => 1024 + 24 * a⟩
theorem exC_ok : exC.Ok where
  type := by refine ⟨⟨⟨0, rfl⟩, ?_⟩, ?_⟩ <;> decide
  disjoint := by
    intro a b hab
    have e : (rcLayout .w64 ⟨3, 1⟩).size = 24 := by decide
    intro z hz
    simp only [Region.Has, Cfg.region, exC, e] at hz
    omega
def exOps : List BOp :=
  [.raw 1 5 [9, 9, 9, 9, 9], .call (.new 1 [1, 2, 3]), .call (.new 2 [4, 5, 6]), .call (.clone 0), .call (.downgrade 0), .call (.replace 1 [7, 8, 9]), .call (.deref 0), .call (.deref 1), .call (.replace 0 [0, 0, 0]), .call (.strongCount 3), .call (.ptrEq 0 1)]

/-- A run from memory that is full of ones. -/
theorem ex_safe : RcMem.SafeRun exC true (.initial fun _ => 255) exOps := bsafeB_sound (by decide +kernel)
example : ∃ w, brun exC true (.initial fun _ => 255) exOps =
    .ret ([.unit, .handle 0, .handle 1, .handle 2, .handle 3, .val [4, 5, 6], .val [1, 2, 3], .val [7, 8, 9], .err, .num 2, .bool false], w) ∧ w.m 1023 = 255 := by
  obtain ⟨w, e, _, h⟩ := C81_refines exC_ok (checks := true) (fun _ => 255) ex_safe
  refine ⟨w, ?_, h 1023 fun a ha => by simp only [Region.Has, Cfg.region, exC] at ha; omega⟩
  rw [e, show (srun SWorld.init (exOps.map specOp)).1 = [.unit, .handle 0, .handle 1, .handle 2, .handle 3, .val [4, 5, 6], .val [1, 2, 3], .val [7, 8, 9], .err, .num 2, .bool false] from by decide +kernel]
/-- The words in the memory after this run. -/
example : ∃ w, RcMem.Reach exC true w ∧ loadUsize .w64 w.m (1048 + 8) = 2 ∧ loadUsize .w64 w.m (1048 + 16) = 2 ∧ loadUsize .w64 w.m (1072 + 8) = 1 := by
  obtain ⟨w, e, r, _⟩ := brun_rel (checks := true) exC_ok (w := .initial fun _ => 255) (wrel_init _) ex_safe
  have hr : RcMem.Reach exC true w := ⟨_, _, _, ex_safe, e⟩
  have hh : w.hs = [some ⟨.strong, 1, false⟩, some ⟨.strong, 2, false⟩, some ⟨.strong, 1, false⟩, some ⟨.weak, 1, false⟩] := by
    have := r.hs
    exact this.trans (by decide +kernel)
  have h1 := C81_counts exC_ok hr (h := 0) (a := 1) (k := .strong) (f := false) (by rw [hh]; rfl)
  have h2 := C81_counts exC_ok hr (h := 1) (a := 2) (k := .strong) (f := false) (by rw [hh]; rfl)
  refine ⟨w, hr, ?_, ?_, ?_⟩
  · exact h1.2.1.trans (by rw [hh]; decide)
  · exact h1.2.2.trans (by rw [hh]; decide)
  · exact h2.2.1.trans (by rw [hh]; decide)

end RcMem
end Verif
