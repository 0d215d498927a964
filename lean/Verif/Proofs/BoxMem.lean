import Verif.Spec.BoxMem
import Verif.Proofs.Uninit
/-! Proofs for pieces of memory and boxes. -/
set_option autoImplicit false
namespace Verif.BoxMem
open Verif Uninit

variable {t : Target} {panics : Layout → List Byte → Bool} {mine : Nat → Prop}

theorem upd_self {α : Type} (f : Nat → α) (k : Nat) (x : α) : upd f k x k = x := by simp [upd]
theorem upd_ne {α : Type} (f : Nat → α) {k j : Nat} (x : α) (h : j ≠ k) : upd f k x j = f j := by simp [upd, h]

/-- The operations on views do what the specification says. -/
theorem apply_pieces {v : AnyView} (h : v.Ok t) (hsz : v.region.size ≤ t.isizeMax) {op : VOp} (ha : op.Applies t v) (hp : ByteOk v op) : op.apply t v = .ret (pieces t v op) := by
  cases v with
  | sized v =>
    simp only [AnyView.region] at hsz
    obtain ⟨h1, h2, h3⟩ := h
    cases op with
    | cast U =>
      rcases cast_eq (v := v) (U := U) (show U.ValidType t from ha).1.1.pos with ⟨hc, e⟩ | ⟨hc, e⟩
      · simp only [VOp.apply, e, pieces, if_pos hc]
      · simp only [VOp.apply, e, pieces, if_neg hc]
    | castSlice U =>
      rcases castSlice_eq (t := t) (v := v) (U := U) (show U.ValidType t from ha).1.1.pos with ⟨hc, e⟩ | ⟨hc, e⟩
      · simp only [VOp.apply, e, pieces, if_pos hc]; rfl
      · simp only [VOp.apply, e, pieces, if_neg hc]
    | splitAtByte n =>
      have hm : n * v.T.size = n := by
        rcases hp with h0 | h1
        · simp [h0]
        · simp [h1]
      by_cases hc : v.T.size ≤ n ∧ n ≤ v.len
      · simp only [VOp.apply, pieces, if_pos hc, View.splitAtByte, if_neg (show ¬ (v.len < n ∨ n < v.T.size) by omega), fromMemory, hm]
      · simp only [VOp.apply, pieces, if_neg hc, View.splitAtByte, if_pos (show (v.len < n ∨ n < v.T.size) by omega)]
    | splitToFit =>
      have hm : v.T.size * v.T.size = v.T.size := by
        have : v.T.size = 0 ∨ v.T.size = 1 := by simp only [ByteOk] at hp; omega
        rcases this with h0 | h1
        · simp [h0]
        · simp [h1]
      simp only at h3
      simp only [VOp.apply, pieces, View.splitToFit, View.splitAtByte, if_neg (show ¬ (v.len < v.T.size ∨ v.T.size < v.T.size) by omega), fromMemory, hm, Outcome.unwrap, bind, Outcome.bind]
      rfl
    | asMemory => rfl
    | unsize U n => rfl
    | splitLayout l =>
      obtain ⟨hT, hl⟩ := ha
      have e := splitLayout_eq (t := t) hT hsz hl.1.pos
      by_cases hc : l.align ∣ v.addr ∧ l.size ≤ v.len
      · rw [if_pos hc] at e
        simp only [VOp.apply, e, bind, Outcome.bind, pieces, if_pos (show CanHold ⟨v.addr, v.len⟩ _ from hc)]; rfl
      · rw [if_neg hc] at e
        simp only [VOp.apply, e, bind, Outcome.bind, pieces, if_neg (show ¬ CanHold ⟨v.addr, v.len⟩ _ from hc)]; rfl
    | splitCast U =>
      obtain ⟨hT, hU⟩ := ha
      have e := splitLayout_eq (t := t) hT hsz hU.1.1.pos
      by_cases hc : U.align ∣ v.addr ∧ U.size ≤ v.len
      · rw [if_pos hc] at e
        rcases cast_eq (v := fromMemory v.addr v.len) (U := U) hU.1.1.pos with ⟨_, e2⟩ | ⟨hn, _⟩
        · simp only [VOp.apply, View.splitCast, e, e2, bind, Outcome.bind, pieces, if_pos (show CanHold ⟨v.addr, v.len⟩ _ from hc)]; rfl
        · exact absurd hc hn
      · rw [if_neg hc] at e
        simp only [VOp.apply, View.splitCast, e, bind, Outcome.bind, pieces, if_neg (show ¬ CanHold ⟨v.addr, v.len⟩ _ from hc)]; rfl
    | splitSlice U =>
      obtain ⟨hT, hU⟩ := ha
      have e := splitLayout_eq (t := t) hT hsz (l := ⟨0, U.align⟩) hU.1.1.pos
      by_cases hc : U.align ∣ v.addr
      · rw [if_pos ⟨hc, Nat.zero_le _⟩] at e
        rcases castSlice_eq (t := t) (v := fromMemory v.addr v.len) (U := U) hU.1.1.pos with ⟨_, e2⟩ | ⟨hn, _⟩
        · simp only [VOp.apply, View.splitSlice, e, e2, bind, Outcome.bind, pieces, if_pos hc]; rfl
        · exact absurd hc hn
      · rw [if_neg fun h => hc h.1] at e
        simp only [VOp.apply, View.splitSlice, e, bind, Outcome.bind, pieces, if_neg hc]; rfl
    | splitAt n => exact ha.elim
    | shrinkToFit => exact ha.elim
    | splitFirst => exact ha.elim
    | splitLast => exact ha.elim
  | slice v =>
    simp only [AnyView.region] at hsz
    obtain ⟨h1, h2⟩ := h
    have hfit : ∀ n, fitting t n v.T = sliceCap t n v.T := fun _ => rfl
    cases op with
    | asMemory => rfl
    | splitAt n =>
      have e := splitAt_eq (t := t) h1 h2 hsz (n := n)
      by_cases hc : n * v.T.size ≤ v.len
      · rw [if_pos hc] at e
        simp only [VOp.apply, e, bind, Outcome.bind, pieces, if_pos hc]; rfl
      · rw [if_neg hc] at e
        simp only [VOp.apply, e, bind, Outcome.bind, pieces, if_neg hc]; rfl
    | shrinkToFit =>
      have e := shrinkToFit_eq (t := t) h1 h2 hsz
      simp only [VOp.apply, e, bind, Outcome.bind, pieces]; rfl
    | splitFirst =>
      have e := splitFirst_eq (t := t) h1 h2 hsz
      by_cases hc : v.T.size ≤ v.len
      · rw [if_pos hc] at e
        simp only [VOp.apply, e, bind, Outcome.bind, pieces, if_pos hc]; rfl
      · rw [if_neg hc] at e
        simp only [VOp.apply, e, bind, Outcome.bind, pieces, if_neg hc]; rfl
    | splitLast =>
      have e := splitLast_eq (t := t) h1 h2 hsz
      by_cases hc : v.T.size ≤ v.len
      · rw [if_pos hc] at e
        simp only [VOp.apply, e, bind, Outcome.bind, pieces, if_pos hc]; rfl
      · rw [if_neg hc] at e
        simp only [VOp.apply, e, bind, Outcome.bind, pieces, if_neg hc]; rfl
    | cast U => exact ha.elim
    | castSlice U => exact ha.elim
    | splitAtByte n => exact ha.elim
    | splitToFit => exact ha.elim
    | unsize U n => exact ha.elim
    | splitLayout l => exact ha.elim
    | splitCast U => exact ha.elim
    | splitSlice U => exact ha.elim

/-- The view a variable is. -/
def Handle.view : Handle → AnyView
  | .piece v _ => v
  | .boxed v | .ref v => .sized v

/-- A variable and its value. -/
def VarRel (m : Mem) : Option Handle → Option SHandle → Prop
  | none, none => True
  | some (.piece v f), some (.piece v' o) => v' = v ∧ (f = o.isSome) ∧ ∀ val, o = some val → ∃ u, v = .sized u ∧ readBytes m u.addr u.T.size = val
  | some (.boxed v), some (.boxed v' val) => v' = v ∧ readBytes m v.addr v.T.size = val
  | some (.ref v), some (.ref v' val) => v' = v ∧ readBytes m v.addr v.T.size = val
  | _, _ => False

structure WRel (t : Target) (mine : Nat → Prop) (m0 : Mem) (w : World) (s : SWorld) : Prop where
  var : ∀ k, VarRel w.mem (w.hs k) (s.hs k)
  ok : ∀ k h, w.hs k = some h → h.view.Ok t ∧ h.region.size ≤ t.isizeMax ∧ ∀ x, h.region.Has x → mine x
  apart : ∀ i j h g, i ≠ j → w.hs i = some h → w.hs j = some g → h.region.Disjoint g.region
  log : w.log = s.dropped
  outside : ∀ x, ¬ mine x → w.mem x = m0 x

theorem wrel_init (m : Mem) : WRel t mine m (World.init m) SWorld.init :=
  ⟨fun _ => trivial, fun _ _ h => (by cases h), fun _ _ _ _ _ h => (by cases h), rfl, fun _ _ => rfl⟩

theorem varRel_piece {m : Mem} {v : AnyView} {f : Bool} {o : Option SHandle} (h : VarRel m (some (.piece v f)) o) :
    ∃ o', o = some (.piece v o') ∧ f = o'.isSome ∧ ∀ val, o' = some val → ∃ u, v = .sized u ∧ readBytes m u.addr u.T.size = val := by
  match o, h with
  | some (.piece v' o'), h =>
    obtain ⟨h1, h⟩ := h
    subst h1
    exact ⟨o', rfl, h⟩
theorem varRel_boxed {m : Mem} {v : View} {o : Option SHandle} (h : VarRel m (some (.boxed v)) o) : o = some (.boxed v (readBytes m v.addr v.T.size)) := by
  match o, h with
  | some (.boxed v' val), h =>
    obtain ⟨h1, h2⟩ := h
    rw [h1, h2]
theorem varRel_ref {m : Mem} {v : View} {o : Option SHandle} (h : VarRel m (some (.ref v)) o) : o = some (.ref v (readBytes m v.addr v.T.size)) := by
  match o, h with
  | some (.ref v' val), h =>
    obtain ⟨h1, h2⟩ := h
    rw [h1, h2]

theorem none_rel {m : Mem} {v : AnyView} : VarRel m (some (.piece v false)) (some (.piece v none)) := ⟨rfl, rfl, fun _ h => (by cases h)⟩
theorem some_rel {m : Mem} {u : View} {val : List Byte} (h : readBytes m u.addr u.T.size = val) : VarRel m (some (.piece (.sized u) true)) (some (.piece (.sized u) (some val))) :=
  ⟨rfl, rfl, fun _ e => by cases e; exact ⟨u, rfl, h⟩⟩
theorem boxed_rel {m : Mem} {u : View} {val : List Byte} (h : readBytes m u.addr u.T.size = val) : VarRel m (some (.boxed u)) (some (.boxed u val)) := ⟨rfl, h⟩
theorem ref_rel {m : Mem} {u : View} {val : List Byte} (h : readBytes m u.addr u.T.size = val) : VarRel m (some (.ref u)) (some (.ref u val)) := ⟨rfl, h⟩

theorem value_in_region {h : Handle} (hok : h.view.Ok t) {u : View} (hu : h.view = .sized u) {x : Nat} (h1 : u.addr ≤ x) (h2 : x < u.addr + u.T.size) : h.region.Has x := by
  cases h with
  | piece v f =>
    simp only [Handle.view] at hu; subst hu
    have := hok.2.2
    simp only at this
    exact ⟨h1, by simp only [Handle.region, AnyView.region]; omega⟩
  | boxed v =>
    cases hu
    have := hok.2.2
    simp only at this
    exact ⟨h1, by simp only [Handle.region]; omega⟩
  | ref v => cases hu; exact ⟨h1, h2⟩

theorem varRel_congr {m m' : Mem} {a : Option Handle} {o : Option SHandle} (hv : VarRel m a o) (hok : ∀ h, a = some h → h.view.Ok t)
    (hm : ∀ h, a = some h → ∀ x, h.region.Has x → m' x = m x) : VarRel m' a o := by
  match a, o, hv with
  | none, none, _ => trivial
  | some (.piece v f), some (.piece v' o), ⟨h1, h2, h3⟩ =>
    refine ⟨h1, h2, fun val hval => ?_⟩
    obtain ⟨u, hu, e⟩ := h3 val hval
    refine ⟨u, hu, ?_⟩
    rw [← e]
    exact readBytes_congr fun x k1 k2 => hm _ rfl x (value_in_region (hok _ rfl) hu k1 k2)
  | some (.boxed v), some (.boxed v' val), ⟨h1, e⟩ =>
    refine ⟨h1, ?_⟩
    rw [← e]
    exact readBytes_congr fun x k1 k2 => hm _ rfl x (value_in_region (hok _ rfl) rfl k1 k2)
  | some (.ref v), some (.ref v' val), ⟨h1, e⟩ =>
    refine ⟨h1, ?_⟩
    rw [← e]
    exact readBytes_congr fun x k1 k2 => hm _ rfl x (value_in_region (hok _ rfl) rfl k1 k2)

/-- Variable `k` gets a new value, whose memory is part of what it had; only that memory is written. -/
theorem set_rel {m0 : Mem} {w : World} {s : SWorld} (hr : WRel t mine m0 w s) {k : Nat} {h : Handle} (hk : w.hs k = some h)
    {m' : Mem} (hm : ∀ x, ¬ h.region.Has x → m' x = w.mem x) {a : Option Handle} {a' : Option SHandle}
    (ha : ∀ g, a = some g → g.view.Ok t ∧ g.region.size ≤ t.isizeMax ∧ ∀ x, g.region.Has x → h.region.Has x) (hv : VarRel m' a a') {log dropped : List (Layout × List Byte)} (hl : log = dropped) {lost : List (List Byte)} :
    WRel t mine m0 ⟨m', upd w.hs k a, log⟩ ⟨upd s.hs k a', dropped, lost⟩ := by
  refine ⟨fun j => ?_, fun j g hg => ?_, fun i j g g' hij hg hg' => ?_, hl, fun x hx => ?_⟩
  · by_cases hj : j = k
    · subst hj; simpa only [upd_self] using hv
    · simp only [upd_ne _ _ hj]
      exact varRel_congr (t := t) (hr.var j) (fun g hg => (hr.ok j g hg).1) fun g hg x hx => hm x fun hx' => hr.apart k j h g (Ne.symm hj) hk hg x ⟨hx', hx⟩
  · by_cases hj : j = k
    · subst hj
      simp only [upd_self] at hg
      obtain ⟨h1, h2, h3⟩ := ha g hg
      exact ⟨h1, h2, fun x hx => (hr.ok _ _ hk).2.2 x (h3 x hx)⟩
    · simp only [upd_ne _ _ hj] at hg
      exact hr.ok j g hg
  · by_cases hi : i = k
    · have hj : j ≠ k := fun e => hij (hi.trans e.symm)
      subst hi
      simp only [upd_self] at hg
      simp only [upd_ne _ _ hj] at hg'
      exact fun x hx => hr.apart i j h g' hij hk hg' x ⟨(ha g hg).2.2 x hx.1, hx.2⟩
    · simp only [upd_ne _ _ hi] at hg
      by_cases hj : j = k
      · subst hj
        simp only [upd_self] at hg'
        exact fun x hx => hr.apart i j g h hij hg hk x ⟨hx.1, (ha g' hg').2.2 x hx.2⟩
      · simp only [upd_ne _ _ hj] at hg'
        exact hr.apart i j g g' hij hg hg'
  · show m' x = m0 x
    rw [← hr.outside x hx]
    exact hm x fun hx' => hx ((hr.ok k h hk).2.2 x hx')

/-- A new variable, whose memory no other one has. -/
theorem push_rel {m0 : Mem} {w : World} {s : SWorld} (hr : WRel t mine m0 w s) {k : Nat} (hk : w.hs k = none) {v : AnyView} (hv : v.Ok t) (hs : v.region.size ≤ t.isizeMax)
    (hm : ∀ x, v.region.Has x → mine x) (hu : ∀ j h, w.hs j = some h → v.region.Disjoint h.region) :
    WRel t mine m0 { w with hs := upd w.hs k (some (.piece v false)) } { s with hs := upd s.hs k (some (.piece v none)) } := by
  refine ⟨fun j => ?_, fun j g hg => ?_, fun i j g g' hij hg hg' => ?_, hr.log, hr.outside⟩
  · by_cases hj : j = k
    · subst hj; simp only [upd_self]
      exact ⟨rfl, rfl, fun _ h => (by cases h)⟩
    · simp only [upd_ne _ _ hj]; exact hr.var j
  · by_cases hj : j = k
    · subst hj
      simp only [upd_self, Option.some.injEq] at hg
      subst hg
      exact ⟨hv, hs, hm⟩
    · simp only [upd_ne _ _ hj] at hg
      exact hr.ok j g hg
  · by_cases hi : i = k
    · have hj : j ≠ k := fun e => hij (hi.trans e.symm)
      subst hi
      simp only [upd_self, Option.some.injEq] at hg
      subst hg
      simp only [upd_ne _ _ hj] at hg'
      exact hu j g' hg'
    · simp only [upd_ne _ _ hi] at hg
      by_cases hj : j = k
      · subst hj
        simp only [upd_self, Option.some.injEq] at hg'
        subst hg'
        exact (hu i g hg).symm
      · simp only [upd_ne _ _ hj] at hg'
        exact hr.apart i j g g' hij hg hg'

theorem has_of_splits {r a b : Region} (h : SplitsInto r a b) : (∀ x, r.Has x ↔ a.Has x ∨ b.Has x) ∧ a.Disjoint b := by
  obtain ⟨h1, h2, h3⟩ := h
  refine ⟨fun x => ?_, fun x hx => ?_⟩
  · simp only [Region.Has]; omega
  · simp only [Region.Has] at hx; omega

theorem shape_two {r : Region} {a b : AnyView} (h : Shape r [a, b]) : (∀ x, r.Has x ↔ a.region.Has x ∨ b.region.Has x) ∧ a.region.Disjoint b.region ∧ a.region.size ≤ r.size ∧ b.region.size ≤ r.size := by
  rcases h with ⟨w, h, _⟩ | ⟨a', b', h, h' | h'⟩
  · simp at h
  · simp only [List.cons.injEq, and_true] at h
    obtain ⟨rfl, rfl⟩ := h
    have := has_of_splits h'
    exact ⟨this.1, this.2, by have := h'.2.2; omega, by have := h'.2.2; omega⟩
  · simp only [List.cons.injEq, and_true] at h
    obtain ⟨rfl, rfl⟩ := h
    have := has_of_splits h'
    exact ⟨fun x => (this.1 x).trans or_comm, this.2.symm, by have := h'.2.2; omega, by have := h'.2.2; omega⟩

theorem write_out {m : Mem} {v : View} {h : Handle} (hok : h.view.Ok t) (hv : h.view = .sized v) {val : List Byte} (hl : v.T.size = val.length) {x : Nat} (hx : ¬ h.region.Has x) : writeBytes m v.addr val x = m x := by
  apply writeBytes_of_not_mem
  intro hx'
  exact hx (value_in_region hok hv hx'.1 (by omega))

theorem read_write {m : Mem} {v : View} {val : List Byte} (hl : v.T.size = val.length) : readBytes (writeBytes m v.addr val) v.addr v.T.size = val := by rw [hl]; exact readBytes_writeBytes_self _ _ _

theorem fromMaybeUninit_eq {T : Layout} (hT : 0 < T.align) {addr : Nat} (ha : T.align ∣ addr) : fromMaybeUninit T addr = .ret ⟨addr, T.size, T⟩ := by
  rcases cast_eq (v := fromMemory addr T.size) (U := T) hT with ⟨_, e⟩ | ⟨h, _⟩
  · simp only [fromMaybeUninit, e]; rfl
  · exact absurd ⟨ha, Nat.le_refl _⟩ h

/-- One statement. -/
theorem sim_step {m0 : Mem} {w : World} {s : SWorld} (hr : WRel t mine m0 w s) {op : Op} (hp : Permitted t mine w op) :
    ∃ w', exec t panics w op = .ret ((sexec t panics s op).1, w') ∧ WRel t mine m0 w' (sexec t panics s op).2 := by
  obtain ⟨hp, hb⟩ := hp
  cases op with
  | memory k addr len =>
    obtain ⟨h0, hm, hmine, hu⟩ := hp
    exact ⟨_, rfl, push_rel hr h0 (v := .sized ⟨addr, len, unit⟩) ⟨unit_valid t, Nat.one_dvd _, Nat.zero_le _⟩ hm.size hmine hu⟩
  | place k T addr =>
    obtain ⟨h0, hT, ha, hm, hmine, hu⟩ := hp
    refine ⟨_, ?_, push_rel hr h0 (v := .sized ⟨addr, T.size, T⟩) ⟨hT, ha, Nat.le_refl _⟩ hm.size hmine hu⟩
    simp only [exec, fromMaybeUninit_eq hT.1.1.pos ha]; rfl
  | placeSlice k T addr n =>
    obtain ⟨h0, hT, ha, hm, hmine, hu⟩ := hp
    refine ⟨_, ?_, push_rel hr h0 (v := .slice ⟨addr, n * T.size, T, fitting t (n * T.size) T⟩) ⟨hT, ha⟩ hm.size hmine hu⟩
    rcases castSlice_eq (t := t) (v := fromMemory addr (n * T.size)) (U := T) hT.1.1.pos with ⟨_, e⟩ | ⟨h, _⟩
    · simp only [exec, fromMaybeUninitSlice, e]; rfl
    · exact absurd ha h
  | zst k T =>
    obtain ⟨h0, hT⟩ := hp
    by_cases hz : T.size = 0
    · have e : inventForZst T = .ret ⟨T.align, 0, T⟩ := by
        rcases cast_eq (v := fromMemory T.align 0) (U := T) hT.1.1.pos with ⟨_, e⟩ | ⟨h, _⟩
        · simp only [inventForZst, Outcome.assert, hz, if_true, e, bind, Outcome.bind, pure]; rfl
        · exact absurd ⟨Nat.dvd_refl _, by simp only [fromMemory]; omega⟩ h
      refine ⟨{ w with hs := upd w.hs k (some (.piece (.sized ⟨T.align, 0, T⟩) false)) }, ?_, ?_⟩
      · simp only [exec, e, sexec, hz, if_true]; rfl
      · simp only [sexec, hz, if_true]
        refine push_rel hr h0 (v := .sized ⟨T.align, 0, T⟩) ⟨hT, Nat.dvd_refl _, by simp only; omega⟩ (Nat.zero_le _) (fun x hx => ?_) fun _ _ _ x hx => ?_
        · simp only [AnyView.region, Region.Has] at hx; omega
        · have := hx.1; simp only [AnyView.region, Region.Has] at this; omega
    · refine ⟨w, ?_, ?_⟩
      · simp only [exec, inventForZst, Outcome.assert, hz, sexec, if_false, bind, Outcome.bind]; rfl
      · simp only [sexec, hz, if_false]; exact hr
  | view k k' op =>
    obtain ⟨hkk, h0, v, f, hk, ha⟩ := hp
    have hb : ByteOk v op := hb v f hk
    obtain ⟨hok, hsz, hmine⟩ := hr.ok k _ hk
    obtain ⟨o, hs, -, -⟩ := varRel_piece (hk ▸ hr.var k)
    have e1 : op.apply t v = .ret (pieces t v op) := apply_pieces hok hsz ha hb
    have hvsz : v.region.size ≤ t.isizeMax := hsz
    have hvok : v.Ok t := hok
    obtain ⟨vs, e, hvs, hsh⟩ := apply_spec hvok hvsz ha hb
    rw [e1] at e
    cases e
    rcases hsh with ⟨a, hvs', hreg⟩ | ⟨a, b, hvs', hsp⟩
    · rw [hvs'] at hvs e1
      simp only [exec, hk, e1, sexec, hs, hvs']
      refine ⟨_, rfl, ?_⟩
      refine set_rel hr hk (m' := w.mem) (fun _ _ => rfl) (fun g hg => ?_) none_rel hr.log
      cases hg
      refine ⟨hvs a (by simp), ?_, fun x hx => ?_⟩
      · show a.region.size ≤ _; rw [hreg]; exact hsz
      · show v.region.Has x; rw [← hreg]; exact hx
    · rw [hvs'] at hvs e1
      simp only [exec, hk, e1, sexec, hs, hvs']
      refine ⟨_, rfl, ?_⟩
      obtain ⟨q1, q2, q3, q4⟩ := shape_two (r := v.region) (a := a) (b := b) (.inr ⟨a, b, rfl, hsp⟩)
      have hsz' : v.region.size ≤ t.isizeMax := hsz
      have h1 : WRel t mine m0 { w with hs := upd w.hs k (some (.piece a false)) } ({ s with hs := upd s.hs k (some (.piece a none)) }.lose o) := by
        refine set_rel hr hk (m' := w.mem) (fun _ _ => rfl) (fun g hg => ?_) none_rel hr.log
        cases hg
        exact ⟨hvs a (by simp), Nat.le_trans q3 hsz', fun x hx => (q1 x).mpr (.inl hx)⟩
      refine push_rel h1 (k := k') (v := b) ?_ (hvs b (by simp)) (Nat.le_trans q4 hsz') (fun x hx => hmine x ((q1 x).mpr (.inr hx))) fun j g hg => ?_
      · show upd w.hs k _ k' = none
        rw [upd_ne _ _ hkk]; exact h0
      · by_cases hj : j = k
        · subst hj
          simp only [upd_self, Option.some.injEq] at hg
          subst hg
          exact q2.symm
        · simp only [upd_ne _ _ hj] at hg
          exact fun x hx => hr.apart k j _ g (Ne.symm hj) hk hg x ⟨(q1 x).mpr (.inr hx.1), hx.2⟩
  | remake k =>
    obtain ⟨v, f, hk, -, -⟩ := hp
    obtain ⟨hok, hsz, hmine⟩ := hr.ok k _ hk
    obtain ⟨o, hs, hf, hval⟩ := varRel_piece (hk ▸ hr.var k)
    obtain ⟨hT, hal, hle⟩ := hok
    simp only at hal hle
    simp only [Handle.region, AnyView.region] at hsz
    simp only [exec, hk, View.intoMaybeUninit, fromMaybeUninit_eq hT.1.1.pos hal, bind, Outcome.bind, sexec, hs]
    refine ⟨_, rfl, ?_⟩
    refine set_rel hr hk (m' := w.mem) (fun _ _ => rfl) (fun g hg => ?_) ?_ hr.log
    · cases hg
      refine ⟨⟨hT, hal, Nat.le_refl _⟩, ?_, fun x hx => ?_⟩
      · simp only [Handle.region, AnyView.region]; omega
      · simp only [Handle.region, AnyView.region, Region.Has] at hx ⊢; omega
    · refine ⟨rfl, hf, fun val hv => ?_⟩
      obtain ⟨u, hu, e⟩ := hval val hv
      cases hu
      exact ⟨_, rfl, e⟩
  | write k val =>
    obtain ⟨v, f, hk, -, hl⟩ := hp
    obtain ⟨hok, hsz, hmine⟩ := hr.ok k _ hk
    obtain ⟨o, hs, -, -⟩ := varRel_piece (hk ▸ hr.var k)
    simp only [exec, hk, sexec, hs, View.init]
    exact ⟨_, rfl, set_rel hr hk (fun x hx => write_out hok rfl hl hx) (fun g hg => by cases hg; exact ⟨hok, hsz, fun _ hx => hx⟩)
      (some_rel (read_write hl)) hr.log⟩
  | init k val =>
    obtain ⟨v, f, hk, -, hl⟩ := hp
    obtain ⟨hok, hsz, hmine⟩ := hr.ok k _ hk
    obtain ⟨o, hs, -, -⟩ := varRel_piece (hk ▸ hr.var k)
    simp only [exec, hk, sexec, hs, View.init]
    refine ⟨_, rfl, set_rel hr hk (fun x hx => write_out hok rfl hl hx) (fun g hg => ?_) (ref_rel (read_write hl)) hr.log⟩
    cases hg
    have hle := hok.2.2
    simp only [Handle.region, AnyView.region] at hle hsz
    exact ⟨hok, by simp only [Handle.region]; omega, fun x hx => value_in_region (h := .piece (.sized v) f) hok rfl hx.1 hx.2⟩
  | read k =>
    obtain ⟨v, f, hk, hf, -⟩ := hp
    obtain ⟨hok, hsz, hmine⟩ := hr.ok k _ hk
    obtain ⟨o, hs, ho, hval⟩ := varRel_piece (hk ▸ hr.var k)
    rw [hf rfl] at ho
    cases o with
    | none => cases ho
    | some val =>
      obtain ⟨u, hu, e⟩ := hval val rfl
      cases hu
      simp only [exec, hk, sexec, hs, View.read, e]
      exact ⟨_, rfl, set_rel hr hk (m' := w.mem) (fun _ _ => rfl) (fun g hg => by cases hg; exact ⟨hok, hsz, fun _ hx => hx⟩) none_rel hr.log⟩
  | intoMut k =>
    obtain ⟨v, f, hk, hf, -⟩ := hp
    obtain ⟨hok, hsz, hmine⟩ := hr.ok k _ hk
    obtain ⟨o, hs, ho, hval⟩ := varRel_piece (hk ▸ hr.var k)
    rw [hf rfl] at ho
    cases o with
    | none => cases ho
    | some val =>
      obtain ⟨u, hu, e⟩ := hval val rfl
      cases hu
      simp only [exec, hk, sexec, hs]
      refine ⟨_, rfl, set_rel hr hk (m' := w.mem) (fun _ _ => rfl) (fun g hg => ?_) (ref_rel e) hr.log⟩
      cases hg
      have hle := hok.2.2
      simp only [Handle.region, AnyView.region] at hle hsz
      exact ⟨hok, by simp only [Handle.region]; omega, fun x hx => value_in_region (h := .piece (.sized v) f) hok rfl hx.1 hx.2⟩
  | new k val =>
    obtain ⟨v, f, hk, -, hl⟩ := hp
    obtain ⟨hok, hsz, hmine⟩ := hr.ok k _ hk
    obtain ⟨o, hs, -, -⟩ := varRel_piece (hk ▸ hr.var k)
    simp only [exec, hk, sexec, hs, View.init, boxNew]
    exact ⟨_, rfl, set_rel hr hk (fun x hx => write_out hok rfl hl hx) (fun g hg => by cases hg; exact ⟨hok, hsz, fun _ hx => hx⟩) (boxed_rel (read_write hl)) hr.log⟩
  | deref k =>
    rcases hp with ⟨v, hk, -⟩ | ⟨v, hk, -⟩
    · have hs := varRel_boxed (hk ▸ hr.var k)
      simp only [exec, hk, sexec, hs]
      exact ⟨_, rfl, hr⟩
    · have hs := varRel_ref (hk ▸ hr.var k)
      simp only [exec, hk, sexec, hs]
      exact ⟨_, rfl, hr⟩
  | replace k val =>
    rcases hp with ⟨v, hk, hl⟩ | ⟨v, hk, hl⟩
    · have hs := varRel_boxed (hk ▸ hr.var k)
      obtain ⟨hok, hsz, hmine⟩ := hr.ok k _ hk
      simp only [exec, hk, sexec, hs]
      refine ⟨_, rfl, ?_⟩
      have := set_rel hr hk (m' := writeBytes w.mem v.addr val) (fun x hx => write_out hok rfl hl hx) (a := some (.boxed v)) (fun g hg => by cases hg; exact ⟨hok, hsz, fun _ hx => hx⟩) (a' := some (.boxed v val)) ⟨rfl, read_write hl⟩ hr.log (lost := s.lost)
      rw [show upd w.hs k (some (.boxed v)) = w.hs from funext fun j => by by_cases hj : j = k; (subst hj; rw [upd_self, hk]); rw [upd_ne _ _ hj]] at this
      exact this
    · have hs := varRel_ref (hk ▸ hr.var k)
      obtain ⟨hok, hsz, hmine⟩ := hr.ok k _ hk
      simp only [exec, hk, sexec, hs]
      refine ⟨_, rfl, ?_⟩
      have := set_rel hr hk (m' := writeBytes w.mem v.addr val) (fun x hx => write_out hok rfl hl hx) (a := some (.ref v)) (fun g hg => by cases hg; exact ⟨hok, hsz, fun _ hx => hx⟩) (a' := some (.ref v val)) ⟨rfl, read_write hl⟩ hr.log (lost := s.lost)
      rw [show upd w.hs k (some (.ref v)) = w.hs from funext fun j => by by_cases hj : j = k; (subst hj; rw [upd_self, hk]); rw [upd_ne _ _ hj]] at this
      exact this
  | take k =>
    obtain ⟨v, hk, -⟩ := hp
    obtain ⟨hok, hsz, hmine⟩ := hr.ok k _ hk
    have hs := varRel_boxed (hk ▸ hr.var k)
    simp only [exec, hk, sexec, hs, boxTake, boxIntoRaw, View.read]
    exact ⟨_, rfl, set_rel hr hk (m' := w.mem) (fun _ _ => rfl) (fun g hg => by cases hg; exact ⟨hok, hsz, fun _ hx => hx⟩) none_rel hr.log⟩
  | intoRaw k =>
    obtain ⟨v, hk, -⟩ := hp
    obtain ⟨hok, hsz, hmine⟩ := hr.ok k _ hk
    have hs := varRel_boxed (hk ▸ hr.var k)
    simp only [exec, hk, sexec, hs, boxIntoRaw]
    exact ⟨_, rfl, set_rel hr hk (m' := w.mem) (fun _ _ => rfl) (fun g hg => by cases hg; exact ⟨hok, hsz, fun _ hx => hx⟩) (some_rel rfl) hr.log⟩
  | fromRaw k =>
    obtain ⟨v, f, hk, hf, -⟩ := hp
    obtain ⟨hok, hsz, hmine⟩ := hr.ok k _ hk
    obtain ⟨o, hs, ho, hval⟩ := varRel_piece (hk ▸ hr.var k)
    rw [hf rfl] at ho
    cases o with
    | none => cases ho
    | some val =>
      obtain ⟨u, hu, e⟩ := hval val rfl
      cases hu
      simp only [exec, hk, sexec, hs, boxFromRaw]
      exact ⟨_, rfl, set_rel hr hk (m' := w.mem) (fun _ _ => rfl) (fun g hg => by cases hg; exact ⟨hok, hsz, fun _ hx => hx⟩) (boxed_rel e) hr.log⟩
  | leak k =>
    obtain ⟨v, hk, -⟩ := hp
    obtain ⟨hok, hsz, hmine⟩ := hr.ok k _ hk
    have hs := varRel_boxed (hk ▸ hr.var k)
    simp only [exec, hk, sexec, hs, boxLeak, boxIntoRaw]
    refine ⟨_, rfl, set_rel hr hk (m' := w.mem) (fun _ _ => rfl) (fun g hg => ?_) (ref_rel rfl) hr.log⟩
    cases hg
    have hle := hok.2.2
    simp only [Handle.region] at hle hsz
    exact ⟨hok, by simp only [Handle.region]; omega, fun x hx => value_in_region (h := .boxed v) hok rfl hx.1 hx.2⟩
  | drop k =>
    obtain ⟨v, hk, -⟩ := hp
    have hs := varRel_boxed (hk ▸ hr.var k)
    simp only [exec, hk, sexec, hs, boxDeref, dropInPlace]
    exact ⟨_, rfl, set_rel hr hk (m' := w.mem) (fun _ _ => rfl) (fun g hg => by cases hg) (a := none) (a' := none) trivial (by rw [hr.log])⟩
  | release k =>
    have : ∃ h, w.hs k = some h := by
      rcases hp with ⟨v, hk, -⟩ | ⟨v, f, hk⟩ <;> exact ⟨_, hk⟩
    obtain ⟨h, hk⟩ := this
    exact ⟨_, rfl, set_rel hr hk (m' := w.mem) (fun _ _ => rfl) (fun g hg => by cases hg) (a := none) (a' := none) trivial hr.log⟩

/-- Programs. -/
theorem sim_run {m0 : Mem} {w : World} {s : SWorld} (hr : WRel t mine m0 w s) {ops : List Op} (hs : SafeRun (Permitted t mine) t panics w ops) :
    ∃ w', run t panics w ops = .ret ((srun t panics s ops).1, w') ∧ WRel t mine m0 w' (srun t panics s ops).2 := by
  induction ops generalizing w s with
  | nil => exact ⟨w, rfl, hr⟩
  | cons op ops ih =>
    obtain ⟨w1, e1, h1⟩ := sim_step (panics := panics) hr hs.1
    obtain ⟨w2, e2, h2⟩ := ih h1 (hs.2 _ _ e1)
    refine ⟨w2, ?_, h2⟩
    simp only [run, e1, bind, Outcome.bind, e2]
    rfl

theorem safe_append {P : World → Op → Prop} {w : World} {a b : List Op} (h : SafeRun P t panics w (a ++ b)) : SafeRun P t panics w a ∧ ∀ rs w', run t panics w a = .ret (rs, w') → SafeRun P t panics w' b := by
  induction a generalizing w with
  | nil => exact ⟨trivial, fun rs w' e => by cases e; exact h⟩
  | cons op a ih =>
    refine ⟨⟨h.1, fun r w' e => (ih (h.2 r w' e)).1⟩, fun rs w' e => ?_⟩
    simp only [run, bind, Outcome.bind] at e
    cases he : exec t panics w op with
    | ret x =>
      rw [he] at e
      simp only at e
      cases he2 : run t panics x.2 a with
      | ret y =>
        rw [he2] at e
        cases e
        exact (ih (h.2 x.1 x.2 he)).2 _ _ he2
      | ub => rw [he2] at e; cases e
      | panic => rw [he2] at e; cases e
    | ub => rw [he] at e; cases e
    | panic => rw [he] at e; cases e

/-! ## What is kept -/

/-- A statement that does not use a variable leaves it as it is. -/
theorem skept {m0 : Mem} {w : World} {s : SWorld} (hr : WRel t mine m0 w s) {op : Op} (hp : Legal t mine w op) {k : Nat} {h : Handle} (hk : w.hs k = some h) (hn : NotUsed k op) :
    (sexec t panics s op).2.hs k = s.hs k := by
  have new : ∀ {j : Nat}, w.hs j = none → k ≠ j := by rintro j hj rfl; rw [hk] at hj; cases hj
  cases op with
  | memory j a l => exact upd_ne _ _ (new hp.1)
  | place j T a => exact upd_ne _ _ (new hp.1)
  | placeSlice j T a n => exact upd_ne _ _ (new hp.1)
  | zst j T =>
    simp only [sexec]
    split
    · exact upd_ne _ _ (new hp.1)
    · rfl
  | view j j' op =>
    have hj : k ≠ j := Ne.symm hn
    have hj' : k ≠ j' := new hp.2.1
    simp only [sexec]
    split
    · split
      · exact upd_ne _ _ hj
      · show upd (upd _ _ _) _ _ k = _
        rw [upd_ne _ _ hj', upd_ne _ _ hj]
      · rfl
    · rfl
  | deref j => simp only [sexec]; split <;> rfl
  | release j => exact upd_ne _ _ (Ne.symm hn)
  | remake j | write j v | init j v | read j | intoMut j | new j v | replace j v | take j | intoRaw j | fromRaw j | leak j | drop j =>
    have hj : k ≠ j := Ne.symm hn
    simp only [sexec]
    split <;> first | rfl | exact upd_ne _ _ hj

theorem kept_run {m0 : Mem} {w : World} {s : SWorld} (hr : WRel t mine m0 w s) {ops : List Op} (hs : SafeRun (Permitted t mine) t panics w ops) {k : Nat} {h : Handle} (hk : w.hs k = some h)
    (hb : ∀ v f, h ≠ .piece v f) (hn : ∀ op ∈ ops, NotUsed k op) : (srun t panics s ops).2.hs k = s.hs k := by
  induction ops generalizing w s h with
  | nil => rfl
  | cons op ops ih =>
    obtain ⟨w1, e1, h1⟩ := sim_step (panics := panics) hr hs.1
    have hs1 := skept (panics := panics) hr hs.1.1 hk (hn op (by simp))
    have hv := hr.var k
    have hv1 := h1.var k
    rw [hs1] at hv1
    rw [hk] at hv
    have : ∃ h', w1.hs k = some h' ∧ ∀ v f, h' ≠ .piece v f := by
      cases h with
      | piece v f => exact absurd rfl (hb v f)
      | boxed v =>
        rw [varRel_boxed hv] at hv1
        cases hw : w1.hs k with
        | none => rw [hw] at hv1; exact hv1.elim
        | some h' =>
          refine ⟨h', rfl, ?_⟩
          rintro v f rfl
          rw [hw] at hv1; exact hv1.elim
      | ref v =>
        rw [varRel_ref hv] at hv1
        cases hw : w1.hs k with
        | none => rw [hw] at hv1; exact hv1.elim
        | some h' =>
          refine ⟨h', rfl, ?_⟩
          rintro v f rfl
          rw [hw] at hv1; exact hv1.elim
    obtain ⟨h', hk', hb'⟩ := this
    have := ih h1 (hs.2 _ _ e1) hk' hb' fun op hop => hn op (by simp [hop])
    show (srun t panics (sexec t panics s op).2 ops).2.hs k = s.hs k
    rw [this, hs1]

/-- A byte is in the memory of a variable. -/
def Covered (w : World) (x : Nat) : Prop := ∃ k h, w.hs k = some h ∧ h.region.Has x

theorem covered_upd {w : World} {x k : Nat} {h g : Handle} (hx : Covered w x) (hk : w.hs k = some h) (hg : h.region.Has x → g.region.Has x) {m : Mem} {log : List (Layout × List Byte)} :
    Covered ⟨m, upd w.hs k (some g), log⟩ x := by
  obtain ⟨j, h', hj, hxj⟩ := hx
  by_cases hjk : j = k
  · subst hjk
    rw [hk] at hj; cases hj
    exact ⟨j, g, upd_self _ _ _, hg hxj⟩
  · exact ⟨j, h', (upd_ne _ _ hjk).trans hj, hxj⟩

theorem covered_new {w : World} {x k : Nat} {g : Handle} (hx : Covered w x) (hk : w.hs k = none) {m : Mem} {log : List (Layout × List Byte)} : Covered ⟨m, upd w.hs k (some g), log⟩ x := by
  obtain ⟨j, h', hj, hxj⟩ := hx
  have : j ≠ k := by rintro rfl; rw [hk] at hj; cases hj
  exact ⟨j, h', (upd_ne _ _ this).trans hj, hxj⟩

theorem covered_step {m0 : Mem} {w : World} {s : SWorld} (hr : WRel t mine m0 w s) {op : Op} (hp : Permitted t mine w op) (hm : KeepsMemory op) {r : Resp} {w' : World} (e : exec t panics w op = .ret (r, w'))
    {x : Nat} (hx : Covered w x) : Covered w' x := by
  obtain ⟨hp, hb⟩ := hp
  cases op with
  | memory k a l => cases e; exact covered_new hx hp.1
  | place k T a =>
    simp only [exec, fromMaybeUninit_eq hp.2.1.1.1.pos hp.2.2.1] at e
    cases e; exact covered_new hx hp.1
  | placeSlice k T a n =>
    rcases castSlice_eq (t := t) (v := fromMemory a (n * T.size)) (U := T) hp.2.1.1.1.pos with ⟨_, e1⟩ | ⟨h, _⟩
    · simp only [exec, fromMaybeUninitSlice, e1] at e
      cases e; exact covered_new hx hp.1
    · exact absurd hp.2.2.1 h
  | zst k T =>
    simp only [exec] at e
    split at e
    · cases e; exact covered_new hx hp.1
    · cases e; exact hx
    · cases e
  | view k k' op =>
    obtain ⟨hkk, h0, v, f, hk, ha⟩ := hp
    have hb : ByteOk v op := hb v f hk
    obtain ⟨hok, hsz, -⟩ := hr.ok k _ hk
    have hvsz : v.region.size ≤ t.isizeMax := hsz
    have hvok : v.Ok t := hok
    obtain ⟨vs, e1, -, hsh⟩ := apply_spec hvok hvsz ha hb
    rcases hsh with ⟨a, rfl, hreg⟩ | ⟨a, b, rfl, hsp⟩
    · simp only [exec, hk, e1] at e
      cases e
      exact covered_upd hx hk fun h => by show a.region.Has x; rw [hreg]; exact h
    · simp only [exec, hk, e1] at e
      cases e
      obtain ⟨q1, -⟩ := shape_two (r := v.region) (a := a) (b := b) (.inr ⟨a, b, rfl, hsp⟩)
      obtain ⟨j, h', hj, hxj⟩ := hx
      by_cases hjk : j = k
      · subst hjk
        rw [hk] at hj; cases hj
        rcases (q1 x).mp hxj with h | h
        · exact ⟨j, .piece a false, by show upd (upd _ _ _) _ _ j = _; rw [upd_ne _ _ (Ne.symm hkk), upd_self], h⟩
        · exact ⟨k', .piece b false, upd_self _ _ _, h⟩
      · have hjk' : j ≠ k' := by rintro rfl; rw [h0] at hj; cases hj
        exact ⟨j, h', by show upd (upd _ _ _) _ _ j = _; rw [upd_ne _ _ hjk', upd_ne _ _ hjk, hj], hxj⟩
  | write k v =>
    obtain ⟨u, f, hk, -⟩ := hp
    simp only [exec, hk] at e; cases e; exact covered_upd hx hk (by exact fun h => h)
  | new k v =>
    obtain ⟨u, f, hk, -⟩ := hp
    simp only [exec, hk] at e; cases e; exact covered_upd hx hk (by exact fun h => h)
  | read k =>
    obtain ⟨u, f, hk, -⟩ := hp
    simp only [exec, hk] at e; cases e; exact covered_upd hx hk (by exact fun h => h)
  | fromRaw k =>
    obtain ⟨u, f, hk, -⟩ := hp
    simp only [exec, hk] at e; cases e; exact covered_upd hx hk (by exact fun h => h)
  | deref k =>
    rcases hp with ⟨u, hk, -⟩ | ⟨u, hk, -⟩ <;> (simp only [exec, hk] at e; cases e; exact hx)
  | replace k v =>
    rcases hp with ⟨u, hk, -⟩ | ⟨u, hk, -⟩ <;> (simp only [exec, hk] at e; cases e; exact hx)
  | take k =>
    obtain ⟨u, hk, -⟩ := hp
    simp only [exec, hk] at e; cases e; exact covered_upd hx hk (by exact fun h => h)
  | intoRaw k =>
    obtain ⟨u, hk, -⟩ := hp
    simp only [exec, hk] at e; cases e; exact covered_upd hx hk (by exact fun h => h)
  | remake k => exact hm.elim
  | init k v => exact hm.elim
  | intoMut k => exact hm.elim
  | leak k => exact hm.elim
  | drop k => exact hm.elim
  | release k => exact hm.elim

theorem covered_run {m0 : Mem} {w : World} {s : SWorld} (hr : WRel t mine m0 w s) {ops : List Op} (hs : SafeRun (Permitted t mine) t panics w ops) (hm : ∀ op ∈ ops, KeepsMemory op) {rs : List Resp} {w' : World}
    (e : run t panics w ops = .ret (rs, w')) {x : Nat} (hx : Covered w x) : Covered w' x := by
  induction ops generalizing w s rs with
  | nil => cases e; exact hx
  | cons op ops ih =>
    obtain ⟨w1, e1, h1⟩ := sim_step (panics := panics) hr hs.1
    obtain ⟨w2, e2, -⟩ := sim_run h1 (hs.2 _ _ e1)
    simp only [run, e1, bind, Outcome.bind, e2] at e
    cases e
    exact ih h1 (hs.2 _ _ e1) (fun op hop => hm op (by simp [hop])) e2 (covered_step hr hs.1 (hm op (by simp)) e1 hx)

/-! ## Values are neither duplicated nor lost -/

theorem sum_upd {α : Type} (g : α → Nat) (f : Nat → α) (k : Nat) (a : α) {L : List Nat} (hn : L.Nodup) (ht : k ∈ L) :
    (L.map fun u => g (upd f k a u)).sum + g (f k) = (L.map fun u => g (f u)).sum + g a := by
  induction L with
  | nil => cases ht
  | cons u L ih =>
    rw [List.nodup_cons] at hn
    simp only [List.map_cons, List.sum_cons]
    by_cases hu : u = k
    · subst hu
      have : (L.map fun v => g (upd f u a v)) = L.map fun v => g (f v) := List.map_congr_left fun v hv => by
        rw [upd_ne]; rintro rfl; exact hn.1 hv
      rw [upd_self, this]; omega
    · have := ih hn.2 (by simpa [Ne.symm hu] using ht)
      rw [upd_ne _ _ hu]; omega

/-- How often the value is in the variable. -/
def holds (v : List Byte) (o : Option SHandle) : Nat := ((o.bind SHandle.val?).toList).count v
/-- How many of the variables with numbers below `n` hold the value. -/
def held (n : Nat) (hs : Nat → Option SHandle) (v : List Byte) : Nat := ((List.range n).map fun k => holds v (hs k)).sum

theorem held_upd {n k : Nat} (hk : k < n) (hs : Nat → Option SHandle) (a : Option SHandle) (v : List Byte) : held n (upd hs k a) v + holds v (hs k) = held n hs v + holds v a :=
  sum_upd (holds v) hs k a List.nodup_range (List.mem_range.mpr hk)

theorem held_zero {hs : Nat → Option SHandle} {v : List Byte} (h : ∀ k, holds v (hs k) = 0) (n : Nat) : held n hs v = 0 := by
  unfold held
  induction n with
  | zero => rfl
  | succ n ih => rw [List.range_succ, List.map_append, List.sum_append, ih]; simp [h]

/-- The variables of a statement. -/
def vars : Op → List Nat
  | .view k k' _ => [k, k']
  | .memory k .. | .place k .. | .placeSlice k .. | .zst k _ | .remake k | .write k _ | .init k _ | .read k | .intoMut k | .new k _ | .deref k | .replace k _ | .take k | .intoRaw k | .fromRaw k | .leak k | .drop k | .release k => [k]

def drops (s : SWorld) (v : List Byte) : Nat := (s.dropped.map Prod.snd).count v

theorem balance_step {m0 : Mem} {w : World} {s : SWorld} (hr : WRel t mine m0 w s) {op : Op} (hp : Legal t mine w op) {n : Nat} (hn : ∀ k ∈ vars op, k < n) (v : List Byte) :
    (inputOf op).count v + held n s.hs v + drops s v + s.lost.count v =
      (outputOf op (sexec t panics s op).1).count v + held n (sexec t panics s op).2.hs v + drops (sexec t panics s op).2 v + (sexec t panics s op).2.lost.count v := by
  have hnone : ∀ {k : Nat}, w.hs k = none → s.hs k = none := by
    intro k hk
    have := hr.var k
    rw [hk] at this
    cases hs : s.hs k with
    | none => rfl
    | some x => rw [hs] at this; exact this.elim
  have decl : ∀ {k : Nat} (v' : AnyView), k < n → w.hs k = none → held n (upd s.hs k (some (.piece v' none))) v = held n s.hs v := by
    intro k v' hk h0
    have h1 := held_upd hk s.hs (some (.piece v' none)) v
    rw [hnone h0] at h1
    simpa [holds, SHandle.val?] using h1
  cases op with
  | memory k a l =>
    have := decl (.sized ⟨a, l, unit⟩) (hn k (by simp [vars])) hp.1
    simp only [sexec, sdeclare, inputOf, outputOf, drops, this]
  | place k T a =>
    have := decl (.sized ⟨a, T.size, T⟩) (hn k (by simp [vars])) hp.1
    simp only [sexec, sdeclare, inputOf, outputOf, drops, this]
  | placeSlice k T a c =>
    have := decl (.slice ⟨a, c * T.size, T, fitting t (c * T.size) T⟩) (hn k (by simp [vars])) hp.1
    simp only [sexec, sdeclare, inputOf, outputOf, drops, this]
  | zst k T =>
    by_cases hz : T.size = 0
    · have := decl (.sized ⟨T.align, 0, T⟩) (hn k (by simp [vars])) hp.1
      simp only [sexec, hz, if_true, sdeclare, inputOf, outputOf, drops, this]
    · simp only [sexec, hz, if_false, inputOf, outputOf]
  | view k k' op =>
    obtain ⟨hkk, h0, v', f, hk, ha⟩ := hp
    obtain ⟨o, hs, -, -⟩ := varRel_piece (hk ▸ hr.var k)
    simp only [sexec, hs]
    have hkn := hn k (by simp [vars])
    have hkn' := hn k' (by simp [vars])
    split
    · rename_i a _
      have h1 := held_upd hkn s.hs (some (.piece a none)) v
      simp only [hs, holds, SHandle.val?, Option.bind_some, Option.toList_none, List.count_nil] at h1
      simp only [inputOf, outputOf, drops, SWorld.lose, List.count_append]
      simp only [List.count_nil]
      omega
    · rename_i a b _
      have h1 := held_upd hkn s.hs (some (.piece a none)) v
      have h2 := held_upd hkn' (upd s.hs k (some (.piece a none))) (some (.piece b none)) v
      rw [upd_ne _ _ hkk, hnone h0] at h2
      simp only [hs, holds, SHandle.val?, Option.bind_some, Option.bind_none, Option.toList_none, List.count_nil] at h1 h2
      simp only [inputOf, outputOf, drops, SWorld.lose, List.count_append]
      simp only [List.count_nil]
      omega
    · simp only [inputOf, outputOf]
  | remake k =>
    obtain ⟨u, f, hk, -⟩ := hp
    obtain ⟨o, hs, -, -⟩ := varRel_piece (hk ▸ hr.var k)
    have h1 := held_upd (hn k (by simp [vars])) s.hs (some (.piece (.sized ⟨u.addr, u.T.size, u.T⟩) o)) v
    simp only [hs, holds, SHandle.val?, Option.bind_some] at h1
    simp only [sexec, hs, inputOf, outputOf, drops]
    omega
  | write k val =>
    obtain ⟨u, f, hk, -⟩ := hp
    obtain ⟨o, hs, -, -⟩ := varRel_piece (hk ▸ hr.var k)
    have h1 := held_upd (hn k (by simp [vars])) s.hs (some (.piece (.sized u) (some val))) v
    simp only [hs, holds, SHandle.val?, Option.bind_some, Option.toList_some] at h1
    simp only [sexec, hs, inputOf, outputOf, drops, SWorld.lose, List.count_append, List.count_nil]
    omega
  | init k val =>
    obtain ⟨u, f, hk, -⟩ := hp
    obtain ⟨o, hs, -, -⟩ := varRel_piece (hk ▸ hr.var k)
    have h1 := held_upd (hn k (by simp [vars])) s.hs (some (.ref u val)) v
    simp only [hs, holds, SHandle.val?, Option.bind_some, Option.toList_some] at h1
    simp only [sexec, hs, inputOf, outputOf, drops, SWorld.lose, List.count_append, List.count_nil]
    omega
  | new k val =>
    obtain ⟨u, f, hk, -⟩ := hp
    obtain ⟨o, hs, -, -⟩ := varRel_piece (hk ▸ hr.var k)
    have h1 := held_upd (hn k (by simp [vars])) s.hs (some (.boxed u val)) v
    simp only [hs, holds, SHandle.val?, Option.bind_some, Option.toList_some] at h1
    simp only [sexec, hs, inputOf, outputOf, drops, SWorld.lose, List.count_append, List.count_nil]
    omega
  | read k =>
    obtain ⟨u, f, hk, hf, -⟩ := hp
    obtain ⟨o, hs, ho, -⟩ := varRel_piece (hk ▸ hr.var k)
    rw [hf rfl] at ho
    cases o with
    | none => cases ho
    | some val =>
      have h1 := held_upd (hn k (by simp [vars])) s.hs (some (.piece (.sized u) none)) v
      simp only [hs, holds, SHandle.val?, Option.bind_some, Option.toList_some, Option.toList_none, List.count_nil] at h1
      simp only [sexec, hs, inputOf, outputOf, drops, List.count_nil]
      omega
  | intoMut k =>
    obtain ⟨u, f, hk, hf, -⟩ := hp
    obtain ⟨o, hs, ho, -⟩ := varRel_piece (hk ▸ hr.var k)
    rw [hf rfl] at ho
    cases o with
    | none => cases ho
    | some val =>
      have h1 := held_upd (hn k (by simp [vars])) s.hs (some (.ref u val)) v
      simp only [hs, holds, SHandle.val?, Option.bind_some, Option.toList_some] at h1
      simp only [sexec, hs, inputOf, outputOf, drops]
      omega
  | fromRaw k =>
    obtain ⟨u, f, hk, hf, -⟩ := hp
    obtain ⟨o, hs, ho, -⟩ := varRel_piece (hk ▸ hr.var k)
    rw [hf rfl] at ho
    cases o with
    | none => cases ho
    | some val =>
      have h1 := held_upd (hn k (by simp [vars])) s.hs (some (.boxed u val)) v
      simp only [hs, holds, SHandle.val?, Option.bind_some, Option.toList_some] at h1
      simp only [sexec, hs, inputOf, outputOf, drops]
      omega
  | deref k =>
    rcases hp with ⟨u, hk, -⟩ | ⟨u, hk, -⟩
    · have hs := varRel_boxed (hk ▸ hr.var k)
      simp only [sexec, hs, inputOf, outputOf]
    · have hs := varRel_ref (hk ▸ hr.var k)
      simp only [sexec, hs, inputOf, outputOf]
  | replace k val =>
    rcases hp with ⟨u, hk, -⟩ | ⟨u, hk, -⟩
    · have hs := varRel_boxed (hk ▸ hr.var k)
      have h1 := held_upd (hn k (by simp [vars])) s.hs (some (.boxed u val)) v
      simp only [hs, holds, SHandle.val?, Option.bind_some, Option.toList_some] at h1
      simp only [sexec, hs, inputOf, outputOf, drops]
      omega
    · have hs := varRel_ref (hk ▸ hr.var k)
      have h1 := held_upd (hn k (by simp [vars])) s.hs (some (.ref u val)) v
      simp only [hs, holds, SHandle.val?, Option.bind_some, Option.toList_some] at h1
      simp only [sexec, hs, inputOf, outputOf, drops]
      omega
  | take k =>
    obtain ⟨u, hk, -⟩ := hp
    have hs := varRel_boxed (hk ▸ hr.var k)
    have h1 := held_upd (hn k (by simp [vars])) s.hs (some (.piece (.sized u) none)) v
    simp only [hs, holds, SHandle.val?, Option.bind_some, Option.toList_some, Option.toList_none, List.count_nil] at h1
    simp only [sexec, hs, inputOf, outputOf, drops, List.count_nil]
    omega
  | intoRaw k =>
    obtain ⟨u, hk, -⟩ := hp
    have hs := varRel_boxed (hk ▸ hr.var k)
    have h1 := held_upd (hn k (by simp [vars])) s.hs (some (.piece (.sized u) (some (readBytes w.mem u.addr u.T.size)))) v
    simp only [hs, holds, SHandle.val?, Option.bind_some, Option.toList_some] at h1
    simp only [sexec, hs, inputOf, outputOf, drops]
    omega
  | leak k =>
    obtain ⟨u, hk, -⟩ := hp
    have hs := varRel_boxed (hk ▸ hr.var k)
    have h1 := held_upd (hn k (by simp [vars])) s.hs (some (.ref u (readBytes w.mem u.addr u.T.size))) v
    simp only [hs, holds, SHandle.val?, Option.bind_some, Option.toList_some] at h1
    simp only [sexec, hs, inputOf, outputOf, drops]
    omega
  | drop k =>
    obtain ⟨u, hk, -⟩ := hp
    have hs := varRel_boxed (hk ▸ hr.var k)
    have h1 := held_upd (hn k (by simp [vars])) s.hs none v
    simp only [hs, holds, SHandle.val?, Option.bind_some, Option.bind_none, Option.toList_some, Option.toList_none, List.count_nil] at h1
    simp only [sexec, hs, inputOf, outputOf, drops, List.count_nil, List.map_append, List.count_append, List.map_cons, List.map_nil]
    omega
  | release k =>
    have h1 := held_upd (hn k (by simp [vars])) s.hs none v
    simp only [holds, Option.bind_none, Option.toList_none, List.count_nil] at h1
    simp only [sexec, inputOf, outputOf, drops, SWorld.lose, List.count_append, List.count_nil]
    omega

theorem balance_run {m0 : Mem} {w : World} {s : SWorld} (hr : WRel t mine m0 w s) {ops : List Op} (hs : SafeRun (Permitted t mine) t panics w ops) {n : Nat} (hn : ∀ op ∈ ops, ∀ k ∈ vars op, k < n) (v : List Byte) :
    (inputsOf ops).count v + held n s.hs v + drops s v + s.lost.count v =
      (outputsOf ops (srun t panics s ops).1).count v + held n (srun t panics s ops).2.hs v + drops (srun t panics s ops).2 v + (srun t panics s ops).2.lost.count v := by
  induction ops generalizing w s with
  | nil => rfl
  | cons op ops ih =>
    obtain ⟨w1, e1, h1⟩ := sim_step (panics := panics) hr hs.1
    have b1 := balance_step (panics := panics) hr hs.1.1 (hn op (by simp)) v
    have b2 := ih h1 (hs.2 _ _ e1) fun op hop => hn op (by simp [hop])
    have i1 : (inputsOf (op :: ops)).count v = (inputOf op).count v + (inputsOf ops).count v := by simp [inputsOf]
    have o1 : (outputsOf (op :: ops) (srun t panics s (op :: ops)).1).count v = (outputOf op (sexec t panics s op).1).count v + (outputsOf ops (srun t panics (sexec t panics s op).2 ops).1).count v := by
      simp [outputsOf, srun]
    rw [i1, o1]
    show _ = _ + held n (srun t panics (sexec t panics s op).2 ops).2.hs v + drops (srun t panics (sexec t panics s op).2 ops).2 v + (srun t panics (sexec t panics s op).2 ops).2.lost.count v
    omega

theorem vars_bound (ops : List Op) : ∃ n, ∀ op ∈ ops, ∀ k ∈ vars op, k < n := by
  induction ops with
  | nil => exact ⟨0, fun _ h => (by cases h)⟩
  | cons op ops ih =>
    obtain ⟨n, hn⟩ := ih
    refine ⟨n + (vars op).sum + 1, fun o ho k hk => ?_⟩
    rcases List.mem_cons.mp ho with rfl | ho
    · have : k ≤ (vars o).sum := by
        generalize vars o = l at hk
        induction l with
        | nil => cases hk
        | cons a l ih => rw [List.sum_cons]; rcases List.mem_cons.mp hk with rfl | h; (omega); have := ih h; omega
      omega
    · have := hn o ho k hk; omega

/-- There are only boxes and memory without a value. -/
def Plain (s : SWorld) : Prop := s.lost = [] ∧ ∀ k, (∀ v val, s.hs k ≠ some (.ref v val)) ∧ ∀ v val, s.hs k ≠ some (.piece v (some val))

theorem plain_upd {s : SWorld} (h : Plain s) {k : Nat} {a : Option SHandle} (h1 : ∀ v val, a ≠ some (.ref v val)) (h2 : ∀ v val, a ≠ some (.piece v (some val))) (d : List (Layout × List Byte)) : Plain ⟨upd s.hs k a, d, s.lost⟩ := by
  refine ⟨h.1, fun j => ?_⟩
  by_cases hj : j = k
  · subst hj; simp only [upd_self]; exact ⟨h1, h2⟩
  · simp only [upd_ne _ _ hj]; exact h.2 j

theorem plain_step {m0 : Mem} {w : World} {s : SWorld} (hr : WRel t mine m0 w s) {op : Op} (hp : Legal t mine w op) (ho : OnlyBoxes op) (h : Plain s) : Plain (sexec t panics s op).2 := by
  have full : ∀ {k : Nat} {u : View} {f : Bool}, w.hs k = some (.piece (.sized u) f) → (true = true → f = true) → False := by
    intro k u f hk hf
    obtain ⟨o, hs, ho, -⟩ := varRel_piece (hk ▸ hr.var k)
    rw [hf rfl] at ho
    cases o with
    | none => cases ho
    | some val => exact (h.2 k).2 _ _ hs
  cases op with
  | memory k a l => exact plain_upd h (by simp) (by simp) s.dropped
  | place k T a => exact plain_upd h (by simp) (by simp) s.dropped
  | placeSlice k T a c => exact plain_upd h (by simp) (by simp) s.dropped
  | zst k T =>
    simp only [sexec]
    split
    · exact plain_upd h (by simp) (by simp) s.dropped
    · exact h
  | view k k' op =>
    obtain ⟨hkk, h0, v', f, hk, ha⟩ := hp
    obtain ⟨o, hs, -, -⟩ := varRel_piece (hk ▸ hr.var k)
    cases o with
    | some val => exact absurd hs ((h.2 k).2 _ _)
    | none =>
      simp only [sexec, hs]
      split
      · rename_i a _
        have := plain_upd h (k := k) (a := some (.piece a none)) (by simp) (by simp) s.dropped
        simpa [SWorld.lose] using this
      · rename_i a b _
        have := plain_upd (plain_upd h (k := k) (a := some (.piece a none)) (by simp) (by simp) s.dropped) (k := k') (a := some (.piece b none)) (by simp) (by simp) s.dropped
        simpa [SWorld.lose] using this
      · exact h
  | remake k =>
    obtain ⟨u, f, hk, -⟩ := hp
    obtain ⟨o, hs, -, -⟩ := varRel_piece (hk ▸ hr.var k)
    cases o with
    | some val => exact absurd hs ((h.2 k).2 _ _)
    | none =>
      simp only [sexec, hs]
      exact plain_upd h (by simp) (by simp) s.dropped
  | write k val => exact ho.elim
  | init k val => exact ho.elim
  | intoRaw k => exact ho.elim
  | leak k => exact ho.elim
  | read k => obtain ⟨u, f, hk, hf, -⟩ := hp; exact (full hk hf).elim
  | intoMut k => obtain ⟨u, f, hk, hf, -⟩ := hp; exact (full hk hf).elim
  | fromRaw k => obtain ⟨u, f, hk, hf, -⟩ := hp; exact (full hk hf).elim
  | new k val =>
    obtain ⟨u, f, hk, -⟩ := hp
    obtain ⟨o, hs, -, -⟩ := varRel_piece (hk ▸ hr.var k)
    cases o with
    | some val => exact absurd hs ((h.2 k).2 _ _)
    | none =>
      simp only [sexec, hs]
      have := plain_upd h (k := k) (a := some (.boxed u val)) (by simp) (by simp) s.dropped
      simpa [SWorld.lose] using this
  | deref k => simp only [sexec]; split <;> exact h
  | replace k val =>
    simp only [sexec]
    split
    · exact plain_upd h (by simp) (by simp) s.dropped
    · rename_i hs; exact absurd hs ((h.2 k).1 _ _)
    · exact h
  | take k =>
    simp only [sexec]
    split
    · exact plain_upd h (by simp) (by simp) s.dropped
    · exact h
  | drop k =>
    simp only [sexec]
    split
    · exact plain_upd h (by simp) (by simp) _
    · exact h
  | release k =>
    have hn : (s.hs k).bind SHandle.val? = none := by
      rcases hp with ⟨u, hk, -⟩ | ⟨v, f, hk⟩
      · exact absurd (varRel_ref (hk ▸ hr.var k)) ((h.2 k).1 _ _)
      · obtain ⟨o, hs, -, -⟩ := varRel_piece (hk ▸ hr.var k)
        cases o with
        | some val => exact absurd hs ((h.2 k).2 _ _)
        | none => rw [hs]; rfl
    simp only [sexec, hn]
    have := plain_upd h (k := k) (a := none) (by simp) (by simp) s.dropped
    simpa [SWorld.lose] using this

theorem plain_run {m0 : Mem} {w : World} {s : SWorld} (hr : WRel t mine m0 w s) {ops : List Op} (hs : SafeRun (Permitted t mine) t panics w ops) (ho : ∀ op ∈ ops, OnlyBoxes op) (h : Plain s) : Plain (srun t panics s ops).2 := by
  induction ops generalizing w s with
  | nil => exact h
  | cons op ops ih =>
    obtain ⟨w1, e1, h1⟩ := sim_step (panics := panics) hr hs.1
    exact ih h1 (hs.2 _ _ e1) (fun op hop => ho op (by simp [hop])) (plain_step hr hs.1.1 (ho op (by simp)) h)

end Verif.BoxMem
