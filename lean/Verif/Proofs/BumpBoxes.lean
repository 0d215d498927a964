import Verif.Spec.BumpBoxes
import Verif.Proofs.Unsync
/-! Proofs for boxes in a bump. -/
namespace Verif.Unsync.BumpBoxes
open Verif Unsync Bump

variable {t : Target} {b : MemBump} {panics : List Byte → Bool}

/-- The variable `k` of both worlds. -/
def VarRel (m : Mem) : Option (Option Handle) → Option (Option SBox) → Prop
  | none, none => True
  | some none, some none => True
  | some (some h), some (some x) => x.ty = h.ty ∧ x.hold = h.hold ∧ (h.hold ≠ .uninit → readBytes m h.addr h.ty.layout.size = x.val)
  | _, _ => False

structure WRel (t : Target) (b : MemBump) (m0 : Mem) (w : World) (s : SWorld) : Prop where
  level : b.level t w.mem = s.level
  le : s.level ≤ b.cap
  var : ∀ k : Nat, VarRel w.mem w.hs[k]? s.boxes[k]?
  inside : ∀ (k : Nat) (h : Handle), w.hs[k]? = some (some h) → b.addr + t.wordBytes ≤ h.addr ∧ h.addr + h.ty.layout.size ≤ b.addr + t.wordBytes + s.level ∧ h.ty.layout.align ∣ h.addr ∧ 0 < h.ty.layout.size
  apart : ∀ (i j : Nat) (h g : Handle), i ≠ j → w.hs[i]? = some (some h) → w.hs[j]? = some (some g) → h.region.Disjoint g.region
  log : w.log = s.dropped
  outside : ∀ z, ¬ (bumpRegion t b).Has z → w.mem z = m0 z

theorem wrel_init {m : Mem} (hc : b.level t m ≤ b.cap) : WRel t b m (World.init m) ⟨b.level t m, [], []⟩ :=
  ⟨rfl, hc, fun _ => by simp [World.init, VarRel], fun _ _ h => by simp [World.init] at h, fun _ _ _ _ _ h => by simp [World.init] at h, rfl, fun _ _ => rfl⟩

theorem varRel_some {m : Mem} {h : Handle} {o : Option (Option SBox)} (hv : VarRel m (some (some h)) o) :
    ∃ x, o = some (some x) ∧ x.ty = h.ty ∧ x.hold = h.hold ∧ (h.hold ≠ .uninit → readBytes m h.addr h.ty.layout.size = x.val) := by
  match o, hv with
  | some (some x), hv => exact ⟨x, rfl, hv⟩

theorem varRel_congr {m m' : Mem} {a : Option (Option Handle)} {o : Option (Option SBox)} (hv : VarRel m a o)
    (hm : ∀ h, a = some (some h) → readBytes m' h.addr h.ty.layout.size = readBytes m h.addr h.ty.layout.size) : VarRel m' a o := by
  match a, o, hv with
  | none, none, _ => trivial
  | some none, some none, _ => trivial
  | some (some h), some (some x), hv => exact ⟨hv.1, hv.2.1, fun hn => by rw [hm h rfl]; exact hv.2.2 hn⟩

theorem some_of {m0 : Mem} {w : World} {s : SWorld} (hr : WRel t b m0 w s) {k : Nat} {h : Handle} (hk : w.hs[k]? = some (some h)) :
    ∃ x, s.boxes[k]? = some (some x) ∧ x.ty = h.ty ∧ x.hold = h.hold ∧ (h.hold ≠ .uninit → readBytes w.mem h.addr h.ty.layout.size = x.val) := by
  have := hr.var k
  rw [hk] at this
  exact varRel_some this

/-- The variable `k` is set to the new value, whose memory is the same, and that memory is written. -/
theorem set_rel {m0 : Mem} {w : World} {s : SWorld} (hr : WRel t b m0 w s) {k : Nat} {h : Handle} (hk : w.hs[k]? = some (some h))
    {m' : Mem} (hm : ∀ z, ¬ h.region.Has z → m' z = w.mem z) {h' : Option Handle} {x' : Option SBox}
    (hh : ∀ g, h' = some g → g.addr = h.addr ∧ g.ty = h.ty) (hv : VarRel m' (some h') (some x')) {log : List (List Byte)} {dropped : List (List Byte)} (hl : log = dropped) :
    WRel t b m0 ⟨m', w.hs.set k h', log⟩ ⟨s.level, s.boxes.set k x', dropped⟩ := by
  obtain ⟨x, hx, -⟩ := some_of hr hk
  have hkl : k < w.hs.length := (List.getElem?_eq_some_iff.mp hk).1
  have hxl : k < s.boxes.length := (List.getElem?_eq_some_iff.mp hx).1
  have hin := hr.inside k h hk
  have get1 : ∀ (j : Nat) (g : Handle), (w.hs.set k h')[j]? = some (some g) → (j = k ∧ g.addr = h.addr ∧ g.ty = h.ty) ∨ (j ≠ k ∧ w.hs[j]? = some (some g)) := by
    intro j g hg
    by_cases hj : k = j
    · subst hj
      rw [List.getElem?_set_self hkl] at hg
      exact Or.inl ⟨rfl, hh g (Option.some.inj hg)⟩
    · rw [List.getElem?_set_ne hj] at hg
      exact Or.inr ⟨fun e => hj e.symm, hg⟩
  refine ⟨?_, hr.le, ?_, ?_, ?_, hl, ?_⟩
  · rw [← hr.level]
    apply loadUsize_congr
    intro z h1 h2
    apply hm
    simp only [Handle.region, Region.Has]; omega
  · intro j
    by_cases hj : k = j
    · subst hj
      show VarRel m' (w.hs.set k h')[k]? (s.boxes.set k x')[k]?
      rw [List.getElem?_set_self hkl, List.getElem?_set_self hxl]; exact hv
    · show VarRel m' (w.hs.set k h')[j]? (s.boxes.set k x')[j]?
      rw [List.getElem?_set_ne hj, List.getElem?_set_ne hj]
      refine varRel_congr (hr.var j) fun g hg => readBytes_congr fun z h1 h2 => hm z fun hz => ?_
      exact hr.apart k j h g hj hk hg z ⟨hz, h1, h2⟩
  · intro j g hg
    rcases get1 j g hg with ⟨-, h1, h2⟩ | ⟨-, hg'⟩
    · rw [h1, h2]; exact hin
    · exact hr.inside j g hg'
  · intro i j g g' hij hg hg'
    have key : ∀ {i : Nat} {g : Handle}, (i = k ∧ g.addr = h.addr ∧ g.ty = h.ty) → g.region = h.region := by
      rintro i g ⟨-, h1, h2⟩; simp [Handle.region, h1, h2]
    rcases get1 i g hg with a | ⟨a, hi⟩ <;> rcases get1 j g' hg' with c | ⟨c, hj⟩
    · exact absurd (a.1.trans c.1.symm) hij
    · rw [key a]; exact hr.apart k j h g' (fun e => c e.symm) hk hj
    · rw [key c]; exact hr.apart i k g h a hi hk
    · exact hr.apart i j g g' hij hi hj
  · intro z hz
    show m' z = m0 z
    rw [← hr.outside z hz]
    apply hm
    intro hh'
    apply hz
    have := hr.le
    simp only [Handle.region, Region.Has, bumpRegion] at *; omega

/-- A new variable behind the level. -/
theorem push_rel {m0 : Mem} {w : World} {s : SWorld} (hr : WRel t b m0 w s) (hv : b.Valid t) {ty : VType} (h0 : 0 < ty.layout.size) (ha : 0 < ty.layout.align) {a : Alloc}
    (hp : (b.slab t).place ty.layout s.level = some a) {hold : Hold} {val bytes : List Byte} (hb : bytes.length = ty.layout.size ∨ (bytes = [] ∧ hold = .uninit)) (hx : hold ≠ .uninit → val = bytes) :
    WRel t b m0 { w with mem := writeBytes (storeUsize t w.mem b.addr a.level) a.ptr bytes, hs := w.hs ++ [some ⟨a.ptr, ty, hold⟩] }
      { s with level := a.level, boxes := s.boxes ++ [some ⟨ty, hold, val⟩] } := by
  obtain ⟨h1, h2, h3, h4, h5⟩ := place_level ha hp
  simp only [MemBump.slab] at h2 h3 h4
  have hcap := hv.cap_le
  have hW := isizeMax_lt t
  have hlen : w.hs.length = s.boxes.length := by
    rcases Nat.lt_trichotomy w.hs.length s.boxes.length with h | h | h
    · have := hr.var w.hs.length
      rw [List.getElem?_eq_none (Nat.le_refl _), List.getElem?_eq_getElem h] at this
      cases this
    · exact h
    · have := hr.var s.boxes.length
      rw [List.getElem?_eq_none (l := s.boxes) (Nat.le_refl _), List.getElem?_eq_getElem h] at this
      cases hh : w.hs[s.boxes.length] <;> rw [hh] at this <;> cases this
  have hbl : bytes.length ≤ ty.layout.size := by rcases hb with h | ⟨rfl, -⟩ <;> simp_all
  have hm : ∀ z, ¬ (b.addr ≤ z ∧ z < b.addr + t.wordBytes) → ¬ (a.ptr ≤ z ∧ z < a.ptr + ty.layout.size) → writeBytes (storeUsize t w.mem b.addr a.level) a.ptr bytes z = w.mem z := by
    intro z hz hz'
    rw [writeBytes_of_not_mem (by omega), storeUsize_of_not_mem hz]
  have get1 : ∀ (j : Nat) (g : Handle), (w.hs ++ [some (⟨a.ptr, ty, hold⟩ : Handle)])[j]? = some (some g) → (j = w.hs.length ∧ g = ⟨a.ptr, ty, hold⟩) ∨ (j < w.hs.length ∧ w.hs[j]? = some (some g)) := by
    intro j g hg
    by_cases hj : j < w.hs.length
    · rw [List.getElem?_append_left hj] at hg; exact Or.inr ⟨hj, hg⟩
    · rw [List.getElem?_append_right (by omega)] at hg
      have : j - w.hs.length = 0 := by
        rcases Nat.eq_zero_or_pos (j - w.hs.length) with h | h
        · exact h
        · rw [List.getElem?_eq_none (by simp; omega)] at hg
          cases hg
      rw [this] at hg
      simp at hg
      exact Or.inl ⟨by omega, hg.symm⟩
  refine ⟨?_, h2, ?_, ?_, ?_, hr.log, ?_⟩
  · show loadUsize t _ b.addr = a.level
    rw [loadUsize_congr (m := storeUsize t w.mem b.addr a.level) (fun z hz1 hz2 => writeBytes_of_not_mem (by omega))]
    exact loadUsize_storeUsize _ _ _ (by omega)
  · intro j
    show VarRel _ (w.hs ++ [some _])[j]? (s.boxes ++ [some _])[j]?
    by_cases hj : j < w.hs.length
    · rw [List.getElem?_append_left hj, List.getElem?_append_left (by omega)]
      refine varRel_congr (hr.var j) fun g hg => readBytes_congr fun z hz1 hz2 => hm z ?_ ?_
      · have := hr.inside j g hg; omega
      · have := hr.inside j g hg; omega
    · by_cases hj' : j = w.hs.length
      · subst hj'
        rw [List.getElem?_concat_length, hlen, List.getElem?_concat_length]
        refine ⟨rfl, rfl, fun hn => ?_⟩
        rcases hb with hb | ⟨-, hb⟩
        · show readBytes _ a.ptr ty.layout.size = val
          rw [← hb, readBytes_writeBytes_self, hx hn]
        · exact absurd hb hn
      · rw [List.getElem?_eq_none (by simp; omega), List.getElem?_eq_none (by simp; omega)]
        trivial
  · intro j g hg
    rcases get1 j g hg with ⟨-, rfl⟩ | ⟨-, hg⟩
    · exact ⟨by simp only; omega, by simp only; omega, h5, h0⟩
    · have := hr.inside j g hg
      exact ⟨this.1, by simp only; omega, this.2.2⟩
  · intro i j g g' hij hg hg'
    rcases get1 i g hg with ⟨hi, rfl⟩ | ⟨hi, hi'⟩ <;> rcases get1 j g' hg' with ⟨hj, rfl⟩ | ⟨hj, hj'⟩
    · omega
    · have := hr.inside j g' hj'
      intro z ⟨hz, hz'⟩
      simp only [Handle.region, Region.Has] at hz hz'; omega
    · have := hr.inside i g hi'
      intro z ⟨hz, hz'⟩
      simp only [Handle.region, Region.Has] at hz hz'; omega
    · exact hr.apart i j g g' hij hi' hj'
  · intro z hz
    rw [← hr.outside z hz]
    simp only [bumpRegion, Region.Has] at hz
    exact hm z (by omega) (by omega)

theorem bumpBox_spec (hv : b.Valid t) {m : Mem} (hc : b.level t m ≤ b.cap) {l : Layout} (hl : 0 < l.align) :
    b.bumpBox t m l = if l.size = 0 then .panic else match (b.slab t).place l (b.level t m) with
      | none => .ret (.error .exhausted, m)
      | some a => .ret (.ok a.ptr, storeUsize t m b.addr a.level) := by
  by_cases h0 : l.size = 0
  · rw [if_pos h0]
    simp only [MemBump.bumpBox, MemBump.getAt, tryAllocAt_zero t b m h0, bind, Outcome.bind]
  · rw [if_neg h0]
    simp only [MemBump.bumpBox, MemBump.getAt, tryAllocAt_spec hv m (show 0 < l.size by omega) hl hc, atResult]
    cases (b.slab t).place l (b.level t m) <;> simp [bind, Outcome.bind, pure, Except.map]

theorem get_spec (hv : b.Valid t) {m : Mem} (hc : b.level t m ≤ b.cap) {l : Layout} (hl : 0 < l.align) :
    b.get t m l = if l.size = 0 then .panic else match (b.slab t).place l (b.level t m) with
      | none => .ret (none, m)
      | some a => .ret (some a, storeUsize t m b.addr a.level) := by
  by_cases h0 : l.size = 0
  · rw [if_pos h0]
    simp only [MemBump.get, tryAlloc_zero t b m h0]
  · rw [if_neg h0]
    simp only [MemBump.get, tryAlloc_spec hv hc (show 0 < l.size by omega) hl, allocResult]
    cases (b.slab t).place l (b.level t m) <;> rfl

theorem ptrWrite_out {m : Mem} {h : Handle} {v : List Byte} (hv : h.ty.layout.size = v.length) : ∀ z, ¬ h.region.Has z → LeakBox.ptrWrite m h.addr v z = m z := by
  intro z hz
  apply writeBytes_of_not_mem
  rw [← hv]; exact hz

theorem ptrWrite_in {m : Mem} {h : Handle} {v : List Byte} (hv : h.ty.layout.size = v.length) : readBytes (LeakBox.ptrWrite m h.addr v) h.addr h.ty.layout.size = v := by
  rw [hv]; exact readBytes_writeBytes_self _ _ _

theorem dropInPlace_eq {w : World} {s : SWorld} {h : Handle} {x : SBox} (h1 : x.ty = h.ty) (h3 : readBytes w.mem h.addr h.ty.layout.size = x.val) (hl : w.log = s.dropped) :
    LeakBox.dropInPlace w.mem w.log h = sdrop x.ty x.val s.dropped := by
  rw [LeakBox.dropInPlace, sdrop, LeakBox.ptrRead, h3, h1, hl]

theorem set_same {α : Type} {l : List α} {k : Nat} {x : α} (h : l[k]? = some x) : l.set k x = l := by
  obtain ⟨hk, rfl⟩ := List.getElem?_eq_some_iff.mp h
  exact List.set_getElem_self hk

/-- One statement keeps the relation, and the answer is the one specified. -/
theorem sim_step {m0 : Mem} {w : World} {s : SWorld} (hv : b.Valid t) (hr : WRel t b m0 w s) {op : Op} (hp : Permitted t w op) :
    ∃ w', exec t b panics w op = .ret ((sexec (b.slab t) panics s op).1, w') ∧ WRel t b m0 w' (sexec (b.slab t) panics s op).2 := by
  have hc : b.level t w.mem ≤ b.cap := by rw [hr.level]; exact hr.le
  cases op with
  | bumpBox ty =>
    have hal : 0 < ty.layout.align := hp.1.1.pos
    simp only [exec, bumpBox_spec hv hc hal, sexec, salloc]
    by_cases h0 : ty.layout.size = 0
    · simp only [h0, if_true]
      exact ⟨w, rfl, hr⟩
    · simp only [h0, if_false, ← hr.level]
      cases hpl : (b.slab t).place ty.layout (b.level t w.mem) with
      | none => exact ⟨w, rfl, hr⟩
      | some a =>
        rw [hr.level] at hpl
        have := push_rel hr hv (by omega) hal hpl (hold := .uninit) (val := []) (bytes := []) (.inr ⟨rfl, rfl⟩) (fun h => absurd rfl h)
        rw [writeBytes_nil] at this
        exact ⟨_, rfl, this⟩
  | getBoxed ty val =>
    have hal : 0 < ty.layout.align := hp.1.1.1.pos
    simp only [exec, get_spec hv hc hal, sexec, salloc]
    by_cases h0 : ty.layout.size = 0
    · simp only [h0, if_true]
      exact ⟨w, rfl, hr⟩
    · simp only [h0, if_false, ← hr.level]
      cases hpl : (b.slab t).place ty.layout (b.level t w.mem) with
      | none => exact ⟨w, rfl, hr⟩
      | some a =>
        rw [hr.level] at hpl
        exact ⟨_, rfl, push_rel hr hv (by omega) hal hpl (hold := .boxed) (val := val) (bytes := val) (.inl hp.2) (fun _ => rfl)⟩
  | write k val =>
    obtain ⟨h, hk, hh, hsz⟩ := hp
    obtain ⟨x, hx, h1, h2, h3⟩ := some_of hr hk
    have hun : h.hold = .uninit := by simpa using hh
    simp only [exec, hk, sexec, hx]
    refine ⟨_, rfl, ?_⟩
    have : (LeakBox.write w.mem w.log h val).2.2 = w.log := by simp [LeakBox.write, LeakBox.drop, hun]
    exact set_rel hr hk (ptrWrite_out hsz) (h' := some (LeakBox.fromRaw h)) (x' := some { x with hold := .boxed, val := val }) (fun g hg => by cases hg; exact ⟨rfl, rfl⟩)
      ⟨h1, rfl, fun _ => ptrWrite_in hsz⟩ (this.trans hr.log)
  | deref k =>
    obtain ⟨h, hk, hh, -⟩ := hp
    obtain ⟨x, hx, h1, h2, h3⟩ := some_of hr hk
    have hun : h.hold ≠ .uninit := by intro e; rw [e] at hh; simp at hh
    simp only [exec, hk, sexec, hx]
    exact ⟨w, by rw [LeakBox.ptrRead, h3 hun]; rfl, hr⟩
  | replace k val =>
    obtain ⟨h, hk, hh, hsz⟩ := hp
    obtain ⟨x, hx, h1, h2, h3⟩ := some_of hr hk
    have hun : h.hold ≠ .uninit := by intro e; rw [e] at hh; simp at hh
    simp only [exec, hk, sexec, hx]
    refine ⟨_, by rw [LeakBox.ptrRead, h3 hun]; rfl, ?_⟩
    have := set_rel hr hk (ptrWrite_out hsz) (h' := some h) (x' := some { x with val := val }) (fun g hg => by cases hg; exact ⟨rfl, rfl⟩) ⟨h1, h2, fun _ => ptrWrite_in hsz⟩ hr.log
    rwa [set_same hk] at this
  | assign k val =>
    obtain ⟨h, hk, hh, hsz⟩ := hp
    obtain ⟨x, hx, h1, h2, h3⟩ := some_of hr hk
    have hun : h.hold ≠ .uninit := by intro e; rw [e] at hh; simp at hh
    simp only [exec, hk, sexec, hx]
    refine ⟨_, by rw [unwinds, LeakBox.ptrRead, h3 hun, sunwinds, h1]; simp only [Bool.and_eq_true]; rfl, ?_⟩
    have := set_rel hr hk (ptrWrite_out hsz) (h' := some h) (x' := some { x with val := val }) (fun g hg => by cases hg; exact ⟨rfl, rfl⟩) ⟨h1, h2, fun _ => ptrWrite_in hsz⟩
      (dropInPlace_eq h1 (h3 hun) hr.log)
    rwa [set_same hk] at this
  | take k =>
    obtain ⟨h, hk, hh, -⟩ := hp
    obtain ⟨x, hx, h1, h2, h3⟩ := some_of hr hk
    have hun : h.hold ≠ .uninit := by intro e; rw [e] at hh; simp at hh
    simp only [exec, hk, sexec, hx]
    exact ⟨_, by rw [LeakBox.take, LeakBox.ptrRead, h3 hun]; rfl, set_rel hr hk (fun _ _ => rfl) (h' := none) (x' := none) (fun g hg => by cases hg) trivial hr.log⟩
  | leak k =>
    obtain ⟨h, hk, hh, -⟩ := hp
    obtain ⟨x, hx, h1, h2, h3⟩ := some_of hr hk
    have hun : h.hold ≠ .uninit := by intro e; rw [e] at hh; simp at hh
    simp only [exec, hk, sexec, hx]
    exact ⟨_, rfl, set_rel hr hk (fun _ _ => rfl) (h' := some (LeakBox.intoRaw h)) (x' := some { x with hold := .bare }) (fun g hg => by cases hg; exact ⟨rfl, rfl⟩) ⟨h1, rfl, fun _ => h3 hun⟩ hr.log⟩
  | intoRaw k =>
    obtain ⟨h, hk, hh, -⟩ := hp
    obtain ⟨x, hx, h1, h2, h3⟩ := some_of hr hk
    have hun : h.hold ≠ .uninit := by intro e; rw [e] at hh; simp at hh
    simp only [exec, hk, sexec, hx]
    exact ⟨_, rfl, set_rel hr hk (fun _ _ => rfl) (h' := some (LeakBox.intoRaw h)) (x' := some { x with hold := .bare }) (fun g hg => by cases hg; exact ⟨rfl, rfl⟩) ⟨h1, rfl, fun _ => h3 hun⟩ hr.log⟩
  | fromRaw k =>
    obtain ⟨h, hk, hh, -⟩ := hp
    obtain ⟨x, hx, h1, h2, h3⟩ := some_of hr hk
    have hun : h.hold ≠ .uninit := by intro e; rw [e] at hh; simp at hh
    simp only [exec, hk, sexec, hx]
    exact ⟨_, rfl, set_rel hr hk (fun _ _ => rfl) (h' := some (LeakBox.fromRaw h)) (x' := some { x with hold := .boxed }) (fun g hg => by cases hg; exact ⟨rfl, rfl⟩) ⟨h1, rfl, fun _ => h3 hun⟩ hr.log⟩
  | drop k =>
    obtain ⟨h, hk, hh, -⟩ := hp
    obtain ⟨x, hx, h1, h2, h3⟩ := some_of hr hk
    simp only [exec, hk, sexec, hx]
    by_cases hun : h.hold = .uninit
    · have hx2 : x.hold = .uninit := h2.trans hun
      simp only [hun, hx2, if_true]
      refine ⟨_, by simp; rfl, set_rel hr hk (fun _ _ => rfl) (h' := none) (x' := none) (fun g hg => by cases hg) trivial ?_⟩
      rw [LeakBox.drop, hun]; exact hr.log
    · have hb : h.hold = .boxed := by simpa [hun] using hh
      have hx2 : x.hold ≠ .uninit := by rw [h2]; exact hun
      rw [if_neg hx2]
      refine ⟨_, by rw [unwinds, LeakBox.ptrRead, h3 hun, sunwinds, h1]; simp only [Bool.and_eq_true, hb, true_and]; rfl, set_rel hr hk (fun _ _ => rfl) (h' := none) (x' := none) (fun g hg => by cases hg) trivial ?_⟩
      rw [LeakBox.drop, hb]; exact dropInPlace_eq h1 (h3 hun) hr.log
  | level => exact ⟨w, by simp only [exec, sexec, hr.level]; rfl, hr⟩
  | reset =>
    refine ⟨_, rfl, ?_⟩
    have none_of : ∀ (k : Nat) (h : Handle), (w.hs.map fun _ => (none : Option Handle))[k]? ≠ some (some h) := by
      intro k h hk; rw [List.getElem?_map] at hk; cases hw : w.hs[k]? <;> rw [hw] at hk <;> simp at hk
    refine ⟨?_, Nat.zero_le _, ?_, fun k h hk => absurd hk (none_of k h), fun i j h g _ hk => absurd hk (none_of i h), hr.log, ?_⟩
    · exact loadUsize_storeUsize _ _ _ (by have := hv.no_wrap; have := hv.addr_pos; omega)
    · intro k
      have := hr.var k
      show VarRel _ (w.hs.map fun _ => none)[k]? (s.boxes.map fun _ => none)[k]?
      rw [List.getElem?_map, List.getElem?_map]
      cases hw : w.hs[k]? <;> cases hs : s.boxes[k]? <;> rw [hw, hs] at this
      · trivial
      · exact this.elim
      · rename_i o; cases o <;> exact this.elim
      · trivial
    · intro z hz
      rw [← hr.outside z hz]
      apply storeUsize_of_not_mem
      simp only [bumpRegion, Region.Has] at hz; omega

theorem sim_run {m0 : Mem} {w : World} {s : SWorld} (hv : b.Valid t) (hr : WRel t b m0 w s) {ops : List Op} (hs : SafeRun t b panics w ops) :
    ∃ w', run t b panics w ops = .ret ((srun (b.slab t) panics s ops).1, w') ∧ WRel t b m0 w' (srun (b.slab t) panics s ops).2 := by
  induction ops generalizing w s with
  | nil => exact ⟨w, rfl, hr⟩
  | cons op ops ih =>
    obtain ⟨hp, hs⟩ := hs
    obtain ⟨w1, e1, r1⟩ := sim_step (panics := panics) hv hr hp
    obtain ⟨w2, e2, r2⟩ := ih r1 (hs _ _ e1)
    exact ⟨w2, by simp only [run, e1, bind, Outcome.bind, e2, srun]; rfl, r2⟩

/-! Conservation, on the specification. -/

/-- The variable holds the value. -/
def holds (v : List Byte) : Option SBox → Bool
  | none => false
  | some x => decide (x.hold ≠ .uninit) && decide (x.val = v)
def heldCount (s : SWorld) (v : List Byte) : Nat := s.boxes.countP (holds v)

/-- All types of variables have destructors. -/
def DropTypes (s : SWorld) : Prop := ∀ (k : Nat) (x : SBox), s.boxes[k]? = some (some x) → x.ty.needsDrop = true

theorem countP_set' {α : Type} (p : α → Bool) {l : List α} {k : Nat} {x : α} (h : l[k]? = some x) (y : α) :
    (l.set k y).countP p + (if p x then 1 else 0) = l.countP p + (if p y then 1 else 0) := by
  obtain ⟨hk, rfl⟩ := List.getElem?_eq_some_iff.mp h
  rw [List.countP_set hk]
  by_cases hp : p l[k] = true
  · have : 0 < l.countP p := List.countP_pos_iff.mpr ⟨_, List.getElem_mem hk, hp⟩
    simp only [hp, if_true]; omega
  · simp only [hp]; simp

theorem dropTypes_step {s : Slab} {sw : SWorld} (hd : DropTypes sw) {op : Op} (ho : ∀ ty, (op = .bumpBox ty ∨ ∃ v, op = .getBoxed ty v) → ty.needsDrop = true) : DropTypes (sexec s panics sw op).2 := by
  have hset : ∀ {k : Nat} {o : Option SBox} {x : SBox}, sw.boxes[k]? = some (some x) → (∀ y, o = some y → y.ty = x.ty) → ∀ (j : Nat) (y : SBox), (sw.boxes.set k o)[j]? = some (some y) → y.ty.needsDrop = true := by
    intro k o x hk ho j y hy
    by_cases hj : k = j
    · subst hj
      rw [List.getElem?_set_self (List.getElem?_eq_some_iff.mp hk).1] at hy
      rw [ho y (Option.some.inj hy)]; exact hd _ _ hk
    · rw [List.getElem?_set_ne hj] at hy; exact hd _ _ hy
  have hall : ∀ {x : SBox} {f : Resp}, x.ty.needsDrop = true → DropTypes (salloc s sw x f).2 := by
    intro x f hx
    unfold salloc
    by_cases h0 : x.ty.layout.size = 0
    · rw [if_pos h0]; exact hd
    · rw [if_neg h0]
      cases s.place x.ty.layout sw.level with
      | none => exact hd
      | some a =>
        intro k y hy
        by_cases hk : k < sw.boxes.length
        · exact hd k y (by rw [← hy]; exact (List.getElem?_append_left hk).symm)
        · have hy' : ([some x] : List (Option SBox))[k - sw.boxes.length]? = some (some y) := by rw [← hy]; exact (List.getElem?_append_right (by omega)).symm
          have := List.mem_of_getElem? hy'
          simp at this
          rw [this]; exact hx
  cases op with
  | bumpBox ty => exact hall (ho ty (.inl rfl))
  | getBoxed ty v => exact hall (ho ty (.inr ⟨v, rfl⟩))
  | level => exact hd
  | reset =>
    intro k x hx
    simp only [sexec, List.getElem?_map] at hx
    cases hw : sw.boxes[k]? <;> rw [hw] at hx <;> simp at hx
  | deref k =>
    simp only [sexec]
    rcases hk : sw.boxes[k]? with _ | _ | x <;> exact hd
  | drop k =>
    simp only [sexec]
    rcases hk : sw.boxes[k]? with _ | _ | x <;> try exact hd
    dsimp only
    by_cases hu : x.hold = .uninit
    · rw [if_pos hu]; exact hset hk (by simp)
    · rw [if_neg hu]; exact hset hk (by simp)
  | write k v | replace k v | assign k v =>
    simp only [sexec]
    rcases hk : sw.boxes[k]? with _ | _ | x <;> first | exact hd | exact hset hk (by simp)
  | take k | leak k | intoRaw k | fromRaw k =>
    simp only [sexec]
    rcases hk : sw.boxes[k]? with _ | _ | x <;> first | exact hd | exact hset hk (by simp)

/-- What `Permitted` means for the specification. -/
def SPerm (s : SWorld) : Op → Prop
  | .write k _ => ∃ x, s.boxes[k]? = some (some x) ∧ x.hold = .uninit
  | .deref k | .replace k _ | .assign k _ | .take k | .leak k | .intoRaw k | .fromRaw k => ∃ x, s.boxes[k]? = some (some x) ∧ x.hold ≠ .uninit
  | .drop k => ∃ x, s.boxes[k]? = some (some x)
  | _ => True

theorem sperm_of {m0 : Mem} {w : World} {s : SWorld} (hr : WRel t b m0 w s) {op : Op} (hp : Permitted t w op) : SPerm s op := by
  have key : ∀ {k : Nat} {l : List Hold} {p : Nat → Prop}, Has w k l p → Hold.uninit ∉ l → ∃ x, s.boxes[k]? = some (some x) ∧ x.hold ≠ .uninit := by
    rintro k l p ⟨h, hk, hh, -⟩ hl
    obtain ⟨x, hx, h1, h2, h3⟩ := some_of hr hk
    exact ⟨x, hx, by rw [h2]; intro e; rw [e] at hh; exact hl hh⟩
  cases op with
  | write k v =>
    obtain ⟨h, hk, hh, -⟩ := hp
    obtain ⟨x, hx, h1, h2, h3⟩ := some_of hr hk
    exact ⟨x, hx, h2.trans (by simpa using hh)⟩
  | drop k =>
    obtain ⟨h, hk, hh, -⟩ := hp
    obtain ⟨x, hx, h1, h2, h3⟩ := some_of hr hk
    exact ⟨x, hx⟩
  | deref k => exact key (show Has w k [.boxed, .bare] from hp) (by simp)
  | replace k v | assign k v => exact key (show Has w k [.boxed, .bare] (· = v.length) from hp) (by simp)
  | take k | leak k | intoRaw k => exact key (show Has w k [.boxed] from hp) (by simp)
  | fromRaw k => exact key (show Has w k [.bare] from hp) (by simp)
  | bumpBox ty | getBoxed ty v | level | reset => trivial

theorem balance_step {s : Slab} {sw : SWorld} (hd : DropTypes sw) {op : Op} (hp : SPerm sw op) (v : List Byte) :
    ∃ lost, heldCount (sexec s panics sw op).2 v + (outputOf op (sexec s panics sw op).1).count v + (sexec s panics sw op).2.dropped.count v + lost =
      heldCount sw v + (inputOf op (sexec s panics sw op).1).count v + sw.dropped.count v ∧ (op ≠ .reset → lost = 0) ∧ (op = .reset → lost = heldCount sw v) := by
  have hcnt : ∀ (a : List Byte), List.count v [a] = if a = v then 1 else 0 := by
    intro a; by_cases h : a = v <;> simp [h]
  have hset : ∀ {k : Nat} {x : SBox} {o : Option SBox}, sw.boxes[k]? = some (some x) → (sw.boxes.set k o).countP (holds v) + (if holds v (some x) then 1 else 0) = sw.boxes.countP (holds v) + (if holds v o then 1 else 0) :=
    fun hk => countP_set' (holds v) hk _
  have hdrop : ∀ {k : Nat} {x : SBox}, sw.boxes[k]? = some (some x) → (sdrop x.ty x.val sw.dropped).count v = sw.dropped.count v + (if x.val = v then 1 else 0) := by
    intro k x hk
    rw [sdrop, if_pos (hd k x hk), List.count_append, hcnt]
  have hall : ∀ {x : SBox} {f : Resp}, ∃ n, heldCount (salloc s sw x f).2 v = heldCount sw v + n ∧ (salloc s sw x f).2.dropped = sw.dropped ∧
      ((n = if (salloc s sw x f).1 = .made ∧ holds v (some x) = true then 1 else 0) ∨ f = .made) := by
    intro x f
    unfold salloc
    by_cases h0 : x.ty.layout.size = 0
    · rw [if_pos h0]; exact ⟨0, rfl, rfl, .inl (by simp)⟩
    · simp only [h0, if_false]
      cases s.place x.ty.layout sw.level with
      | none =>
        by_cases hf : f = .made
        · exact ⟨0, rfl, rfl, .inr hf⟩
        · exact ⟨0, rfl, rfl, .inl (by simp [hf])⟩
      | some a =>
        refine ⟨if holds v (some x) then 1 else 0, ?_, rfl, .inl (by simp)⟩
        simp [heldCount, List.countP_append, List.countP_cons]
  cases op with
  | bumpBox ty =>
    obtain ⟨n, h1, h2, h3 | h3⟩ := hall (x := ⟨ty, .uninit, []⟩) (f := .err .exhausted)
    · refine ⟨0, ?_, fun _ => rfl, (fun h => by cases h)⟩
      simp only [sexec, h1, h2, outputOf, inputOf, h3, holds]
      simp
    · cases h3
  | getBoxed ty val =>
    obtain ⟨n, h1, h2, h3 | h3⟩ := hall (x := ⟨ty, .boxed, val⟩) (f := .none)
    · refine ⟨0, ?_, fun _ => rfl, (fun h => by cases h)⟩
      simp only [sexec, h1, h2, outputOf, h3, holds]
      by_cases hm : (salloc s sw ⟨ty, .boxed, val⟩ .none).1 = .made
      · rw [hm]; simp only [inputOf, hcnt]; simp
      · have : inputOf (.getBoxed ty val) (salloc s sw ⟨ty, .boxed, val⟩ .none).1 = [] := by
          cases hh : (salloc s sw ⟨ty, .boxed, val⟩ .none).1 <;> first | rfl | exact absurd hh hm
        rw [this]; simp [hm]
    · cases h3
  | level => exact ⟨0, by simp [sexec, outputOf, inputOf], fun _ => rfl, (fun h => by cases h)⟩
  | reset =>
    refine ⟨heldCount sw v, ?_, fun h => absurd rfl h, fun _ => rfl⟩
    have : heldCount (sexec s panics sw .reset).2 v = 0 := by
      simp only [heldCount, sexec]
      rw [List.countP_eq_zero]
      intro o ho
      rw [List.mem_map] at ho
      obtain ⟨_, _, rfl⟩ := ho
      simp [holds]
    rw [this]
    simp [sexec, outputOf, inputOf]; omega
  | write k val =>
    obtain ⟨x, hk, hu⟩ := hp
    refine ⟨0, ?_, fun _ => rfl, (fun h => by cases h)⟩
    have := hset hk (o := some { x with hold := .boxed, val := val })
    simp [holds, hu] at this
    simp only [sexec, hk, outputOf, inputOf, hcnt, heldCount]
    simp; omega
  | deref k =>
    obtain ⟨x, hk, hu⟩ := hp
    exact ⟨0, by simp [sexec, hk, outputOf, inputOf], fun _ => rfl, (fun h => by cases h)⟩
  | replace k val =>
    obtain ⟨x, hk, hu⟩ := hp
    refine ⟨0, ?_, fun _ => rfl, (fun h => by cases h)⟩
    have := hset hk (o := some { x with val := val })
    simp [holds, hu] at this
    simp only [sexec, hk, outputOf, inputOf, hcnt, heldCount]
    omega
  | assign k val =>
    obtain ⟨x, hk, hu⟩ := hp
    refine ⟨0, ?_, fun _ => rfl, (fun h => by cases h)⟩
    have := hset hk (o := some { x with val := val })
    have h2 := hdrop hk
    simp [holds, hu] at this
    simp only [sexec, hk, outputOf, inputOf, hcnt, heldCount, h2]
    simp; omega
  | take k =>
    obtain ⟨x, hk, hu⟩ := hp
    refine ⟨0, ?_, fun _ => rfl, (fun h => by cases h)⟩
    have := hset hk (o := none)
    simp [holds, hu] at this
    simp only [sexec, hk, outputOf, inputOf, hcnt, heldCount]
    simp; omega
  | leak k | intoRaw k =>
    obtain ⟨x, hk, hu⟩ := hp
    refine ⟨0, ?_, fun _ => rfl, (fun h => by cases h)⟩
    have := hset hk (o := some { x with hold := .bare })
    simp [holds, hu] at this
    simp only [sexec, hk, outputOf, inputOf, heldCount]
    simp; omega
  | fromRaw k =>
    obtain ⟨x, hk, hu⟩ := hp
    refine ⟨0, ?_, fun _ => rfl, (fun h => by cases h)⟩
    have := hset hk (o := some { x with hold := .boxed })
    simp [holds, hu] at this
    simp only [sexec, hk, outputOf, inputOf, heldCount]
    simp; omega
  | drop k =>
    obtain ⟨x, hk⟩ := hp
    refine ⟨0, ?_, fun _ => rfl, (fun h => by cases h)⟩
    have := hset hk (o := none)
    have h2 := hdrop hk
    by_cases hu : x.hold = .uninit
    · simp [holds, hu] at this
      simp [sexec, hk, hu, outputOf, inputOf, heldCount, this]
    · simp [holds, hu] at this
      simp only [sexec, hk, hu, if_false, outputOf, inputOf, heldCount, h2]
      simp; omega

/-- Over a program. -/
theorem balance_run {m0 : Mem} {w : World} {s : SWorld} (hv : b.Valid t) (hr : WRel t b m0 w s) {ops : List Op} (hs : SafeRun t b panics w ops) (hd : DropTypes s) (ha : AllDrop ops) (v : List Byte) :
    ∃ lost, heldCount (srun (b.slab t) panics s ops).2 v + (outputsOf ops (srun (b.slab t) panics s ops).1).count v + (srun (b.slab t) panics s ops).2.dropped.count v + lost =
      heldCount s v + (inputsOf ops (srun (b.slab t) panics s ops).1).count v + s.dropped.count v ∧
      ((∀ pre post, ops = pre ++ .reset :: post → ∀ rs w', run t b panics w pre = .ret (rs, w') → ∀ o ∈ w'.hs, o = none) → lost = 0) := by
  induction ops generalizing w s with
  | nil => exact ⟨0, by simp [srun, inputsOf, outputsOf], fun _ => rfl⟩
  | cons op ops ih =>
    obtain ⟨hp, hs⟩ := hs
    obtain ⟨w1, e1, r1⟩ := sim_step (panics := panics) hv hr hp
    obtain ⟨l1, b1, b2, b3⟩ := balance_step (s := b.slab t) (panics := panics) hd (sperm_of hr hp) v
    obtain ⟨l2, c1, c2⟩ := ih r1 (hs _ _ e1) (dropTypes_step hd (ha op (by simp))) (fun op h => ha op (by simp [h]))
    refine ⟨l1 + l2, ?_, fun hn => ?_⟩
    · simp only [srun, inputsOf, outputsOf, List.zipWith_cons_cons, List.flatten_cons, List.count_append] at c1 ⊢
      omega
    · have h2 : l2 = 0 := c2 fun pre post he rs w' hw => by
        subst he
        refine hn (op :: pre) post rfl ((sexec (b.slab t) panics s op).1 :: rs) w' ?_
        simp only [run, e1, bind, Outcome.bind, hw]; rfl
      have h1 : l1 = 0 := by
        by_cases ho : op = .reset
        · subst ho
          rw [b3 rfl, heldCount, List.countP_eq_zero]
          intro o hm
          obtain ⟨k, hk⟩ := List.mem_iff_getElem?.mp hm
          have hvar := hr.var k
          rw [hk] at hvar
          cases o with
          | none => simp [holds]
          | some x =>
            rcases hw : w.hs[k]? with _ | _ | h
            · rw [hw] at hvar; exact hvar.elim
            · rw [hw] at hvar; exact hvar.elim
            · have := hn [] ops rfl [] w rfl (some h) (List.mem_of_getElem? hw)
              cases this
        · exact b2 ho
      omega

/-- A variable that is not used keeps its value. -/
theorem kept_step {s : Slab} {sw : SWorld} {op : Op} {k : Nat} {x : SBox} (hk : sw.boxes[k]? = some (some x)) (hu : x.hold ≠ .uninit) (hn : NotUsed k op) :
    ∃ y, (sexec s panics sw op).2.boxes[k]? = some (some y) ∧ y.val = x.val ∧ y.hold ≠ .uninit := by
  have hkl := (List.getElem?_eq_some_iff.mp hk).1
  have hother : ∀ {j : Nat} {o : Option SBox}, j ≠ k → (sw.boxes.set j o)[k]? = some (some x) := fun hj => by rw [List.getElem?_set_ne hj]; exact hk
  have hall : ∀ {z : SBox} {f : Resp}, (salloc s sw z f).2.boxes[k]? = some (some x) := by
    intro z f
    unfold salloc
    by_cases h0 : z.ty.layout.size = 0
    · rw [if_pos h0]; exact hk
    · rw [if_neg h0]
      cases s.place z.ty.layout sw.level with
      | none => exact hk
      | some a => exact (List.getElem?_append_left hkl).trans hk
  obtain ⟨n1, n2, n3, n4⟩ := hn
  cases op with
  | bumpBox ty => exact ⟨x, hall, rfl, hu⟩
  | getBoxed ty v => exact ⟨x, hall, rfl, hu⟩
  | level => exact ⟨x, hk, rfl, hu⟩
  | reset => exact absurd rfl n1
  | deref j => simp only [sexec]; rcases hj : sw.boxes[j]? with _ | _ | z <;> exact ⟨x, hk, rfl, hu⟩
  | write j v =>
    have hjk : j ≠ k := by rintro rfl; exact (n2 v).1 rfl
    simp only [sexec]; rcases hj : sw.boxes[j]? with _ | _ | z <;> first | exact ⟨x, hk, rfl, hu⟩ | exact ⟨x, hother hjk, rfl, hu⟩
  | replace j v =>
    have hjk : j ≠ k := by rintro rfl; exact (n2 v).2.1 rfl
    simp only [sexec]; rcases hj : sw.boxes[j]? with _ | _ | z <;> first | exact ⟨x, hk, rfl, hu⟩ | exact ⟨x, hother hjk, rfl, hu⟩
  | assign j v =>
    have hjk : j ≠ k := by rintro rfl; exact (n2 v).2.2 rfl
    simp only [sexec]; rcases hj : sw.boxes[j]? with _ | _ | z <;> first | exact ⟨x, hk, rfl, hu⟩ | exact ⟨x, hother hjk, rfl, hu⟩
  | take j =>
    have hjk : j ≠ k := by rintro rfl; exact n3 rfl
    simp only [sexec]; rcases hj : sw.boxes[j]? with _ | _ | z <;> first | exact ⟨x, hk, rfl, hu⟩ | exact ⟨x, hother hjk, rfl, hu⟩
  | drop j =>
    have hjk : j ≠ k := by rintro rfl; exact n4 rfl
    simp only [sexec]; rcases hj : sw.boxes[j]? with _ | _ | z
    · exact ⟨x, hk, rfl, hu⟩
    · exact ⟨x, hk, rfl, hu⟩
    · dsimp only
      by_cases h : z.hold = .uninit
      · rw [if_pos h]; exact ⟨x, hother hjk, rfl, hu⟩
      · rw [if_neg h]; exact ⟨x, hother hjk, rfl, hu⟩
  | leak j | intoRaw j | fromRaw j =>
    simp only [sexec]
    rcases hj : sw.boxes[j]? with _ | _ | z
    · exact ⟨x, hk, rfl, hu⟩
    · exact ⟨x, hk, rfl, hu⟩
    · by_cases hjk : j = k
      · subst hjk
        rw [hk] at hj; cases hj
        exact ⟨_, List.getElem?_set_self hkl, rfl, by simp⟩
      · exact ⟨x, hother hjk, rfl, hu⟩

theorem kept_run {s : Slab} {sw : SWorld} {ops : List Op} {k : Nat} {x : SBox} (hk : sw.boxes[k]? = some (some x)) (hu : x.hold ≠ .uninit) (hn : ∀ op ∈ ops, NotUsed k op) :
    ∃ y, (srun s panics sw ops).2.boxes[k]? = some (some y) ∧ y.val = x.val ∧ y.hold ≠ .uninit := by
  induction ops generalizing sw x with
  | nil => exact ⟨x, hk, rfl, hu⟩
  | cons op ops ih =>
    obtain ⟨y, h1, h2, h3⟩ := kept_step (s := s) (panics := panics) hk hu (hn op (by simp))
    obtain ⟨z, g1, g2, g3⟩ := ih h1 h3 (fun op h => hn op (by simp [h]))
    exact ⟨z, g1, g2.trans h2, g3⟩

theorem safe_append {w : World} {xs ys : List Op} (h : SafeRun t b panics w (xs ++ ys)) : SafeRun t b panics w xs ∧ ∀ rs w', run t b panics w xs = .ret (rs, w') → SafeRun t b panics w' ys := by
  induction xs generalizing w with
  | nil => exact ⟨trivial, fun rs w' e => by cases e; exact h⟩
  | cons op xs ih =>
    refine ⟨⟨h.1, fun r w1 e => (ih (h.2 r w1 e)).1⟩, fun rs w' e => ?_⟩
    simp only [run, bind, Outcome.bind] at e
    cases e1 : exec t b panics w op with
    | ub => rw [e1] at e; cases e
    | panic => rw [e1] at e; cases e
    | ret p =>
      obtain ⟨r, w1⟩ := p
      rw [e1] at e
      dsimp only at e
      cases e2 : run t b panics w1 xs with
      | ub => rw [e2] at e; cases e
      | panic => rw [e2] at e; cases e
      | ret q =>
        obtain ⟨rs1, w2⟩ := q
        rw [e2] at e
        cases e
        exact (ih (h.2 r w1 e1)).2 _ _ e2

end Verif.Unsync.BumpBoxes
