import Verif.Proofs.ChainFrame
import Verif.Proofs.Compose
import Verif.Model.Compose
import Verif.Proofs.BumpBoxes
import Verif.Proofs.BoxMem
import Verif.Proofs.ExitMem
import Verif.Proofs.FixedVecBytes
import Verif.Props.RcMem
/-! # The data structures of the repository are sound as parts of one program -/
namespace Verif.Compose
open Verif

theorem allocMachine_sound {t : Target} {b : Unsync.MemBump} (hv : b.Valid t) : (allocMachine t b).Sound := by
  refine ⟨fun _ m (n : Nat) => b.level t m = n ∧ n ≤ b.cap, fun m h => ⟨rfl, h⟩, fun s m (n : Nat) op (hr : b.level t m = n ∧ n ≤ b.cap) hp => ?_, fun s m m' (n : Nat) (hr : b.level t m = n ∧ n ≤ b.cap) hm => ⟨?_, hr.2⟩⟩
  · cases op with
    | level => exact ⟨(), m, by show some (AResp.num (b.level t m), (), m) = _; rw [hr.1]; rfl, fun _ => hr, fun _ _ => rfl⟩
    | get l =>
      have hp : l.Valid t := hp
      have e := Unsync.BumpBoxes.get_spec hv (m := m) (by rw [hr.1]; exact hr.2) hp.1.pos
      have hslab : b.slab t = ⟨b.addr + t.wordBytes, b.cap⟩ := rfl
      rw [hr.1, hslab] at e
      simp only [allocMachine, e]
      by_cases h0 : l.size = 0
      · simp only [h0, if_true]
        exact ⟨(), m, rfl, fun _ => hr, fun _ _ => rfl⟩
      · simp only [h0, if_false]
        cases hq : (⟨b.addr + t.wordBytes, b.cap⟩ : Slab).place l n with
        | none => exact ⟨(), m, rfl, fun _ => hr, fun _ _ => rfl⟩
        | some a =>
          have hpl := Unsync.place_level hp.1.pos hq
          have hcap := hv.cap_le
          have := Bump.isizeMax_lt t
          have h2 : a.level ≤ b.cap := hpl.2.1
          refine ⟨(), _, rfl, fun _ => ⟨loadUsize_storeUsize _ _ _ (by omega), h2⟩, fun x hx => storeUsize_of_not_mem hx⟩
  · rw [← hr.1]
    exact loadUsize_congr fun x h1 h2 => hm x ⟨h1, h2⟩

def boxRel (t : Target) (b : Unsync.MemBump) (w : Unsync.BumpBoxes.World) (m : Mem) (s : Unsync.BumpBoxes.SWorld) : Prop := Unsync.BumpBoxes.WRel t b m { w with mem := m } s
theorem boxMachine_soundBy {t : Target} {b : Unsync.MemBump} (hv : b.Valid t) (panics : List Byte → Bool) : (boxMachine t b panics).SoundBy (boxRel t b) := by
  refine ⟨fun m h => Unsync.BumpBoxes.wrel_init h, fun w m s op hr hp => ?_, fun w m m' s hr hm => ?_⟩
  · obtain ⟨w', e, hr'⟩ := Unsync.BumpBoxes.sim_step (panics := panics) hv hr hp
    refine ⟨w', w'.mem, ?_, fun _ => ?_, fun x hx => hr'.outside x hx⟩
    · simp only [boxMachine, e]; rfl
    · exact ⟨hr'.level, hr'.le, hr'.var, hr'.inside, hr'.apart, hr'.log, fun _ _ => rfl⟩
  · have hm : ∀ x, (Unsync.BumpBoxes.bumpRegion t b).Has x → m' x = m x := hm
    have hle := hr.le
    refine ⟨?_, hr.le, fun k => ?_, hr.inside, hr.apart, hr.log, fun _ _ => rfl⟩
    · rw [← hr.level]
      exact loadUsize_congr fun x h1 h2 => hm x ⟨h1, by show x < b.addr + (t.wordBytes + b.cap); omega⟩
    · refine Unsync.BumpBoxes.varRel_congr (hr.var k) fun h hk => ?_
      have := hr.inside k h hk
      exact readBytes_congr fun x h1 h2 => hm x ⟨by show b.addr ≤ x; omega, by show x < b.addr + (t.wordBytes + b.cap); omega⟩

theorem boxMachine_sound {t : Target} {b : Unsync.MemBump} (hv : b.Valid t) (panics : List Byte → Bool) : (boxMachine t b panics).Sound := ⟨_, boxMachine_soundBy hv panics⟩

def pieceRel (t : Target) (mine : Nat → Prop) (w : BoxMem.World) (m : Mem) (s : BoxMem.SWorld) : Prop := BoxMem.WRel t mine m { w with mem := m } s
theorem pieceMachine_soundBy {t : Target} (panics : Layout → List Byte → Bool) (mine : Nat → Prop) : (pieceMachine t panics mine).SoundBy (pieceRel t mine) := by
  refine ⟨fun m _ => BoxMem.wrel_init m, fun w m s op hr hp => ?_, fun w m m' s hr hm => ?_⟩
  · obtain ⟨w', e, hr'⟩ := BoxMem.sim_step (panics := panics) hr hp
    refine ⟨w', w'.mem, ?_, fun _ => ?_, fun x hx => hr'.outside x hx⟩
    · simp only [pieceMachine, e]
    · exact ⟨hr'.var, hr'.ok, hr'.apart, hr'.log, fun _ _ => rfl⟩
  · exact ⟨fun k => BoxMem.varRel_congr (t := t) (hr.var k) (fun h hk => (hr.ok k h hk).1) fun h hk x hx => hm x ((hr.ok k h hk).2.2 x hx), hr.ok, hr.apart, hr.log, fun _ _ => rfl⟩

theorem pieceMachine_sound {t : Target} (panics : Layout → List Byte → Bool) (mine : Nat → Prop) : (pieceMachine t panics mine).Sound := ⟨_, pieceMachine_soundBy panics mine⟩

def exitRel (c : Exit.ExitMem.Cfg) (b : Exit.ExitMem.BState) (m : Mem) (s : Exit.ExitMem.SState) : Prop := Exit.ExitMem.WRel c { b with mem := m } s
theorem exitMachine_soundBy {c : Exit.ExitMem.Cfg} (hc : c.Valid) : (exitMachine c).SoundBy (exitRel c) := by
  refine ⟨fun m h => ?_, fun b m s op hr hp => ?_, fun b m m' s hr hm => hr.congr hm⟩
  · refine ⟨⟨?_, h.1, rfl, rfl, rfl, rfl⟩, Nat.zero_le _, fun h hh => (by cases hh), fun h hh => (by cases hh), List.Pairwise.nil, Nat.zero_le _⟩
    show Exit.ExitMem.Found c m (Exit.ExitMem.loadHandle c.t m c.topAddr) []
    rw [h.2]; trivial
  · have h := Exit.ExitMem.exec_rel hc hr hp
    have ho := fun (m' : Mem) h x hx => Exit.ExitMem.exec_out hc hr hp (m := m') h (x := x) hx
    simp only [exitMachine]
    cases hb : Exit.ExitMem.bexec c { b with mem := m } op with
    | ub => rw [hb] at h; cases hs : Exit.ExitMem.sexec c s op <;> rw [hs] at h <;> exact absurd h id
    | abort =>
      rw [hb] at h
      cases hs : Exit.ExitMem.sexec c s op with
      | abort => exact ⟨b, m, rfl, fun h => absurd h (by simp), fun _ _ => rfl⟩
      | ret _ _ => rw [hs] at h; exact absurd h id
      | unwound _ => rw [hs] at h; exact absurd h id
    | ret r b' =>
      rw [hb] at h ho
      cases hs : Exit.ExitMem.sexec c s op with
      | abort => rw [hs] at h; exact absurd h id
      | ret r' s' =>
        rw [hs] at h
        obtain ⟨rfl, h⟩ := h
        exact ⟨b', b'.mem, rfl, fun _ => h, fun x hx => ho b'.mem rfl x hx⟩
      | unwound _ => rw [hs] at h; exact absurd h id
    | unwound b' =>
      rw [hb] at h ho
      cases hs : Exit.ExitMem.sexec c s op with
      | abort => rw [hs] at h; exact absurd h id
      | unwound s' =>
        rw [hs] at h
        exact ⟨b', b'.mem, rfl, fun _ => h, fun x hx => ho b'.mem rfl x hx⟩
      | ret _ _ => rw [hs] at h; exact absurd h id
theorem exitMachine_sound {c : Exit.ExitMem.Cfg} (hc : c.Valid) : (exitMachine c).Sound := ⟨_, exitMachine_soundBy hc⟩

section
open FVec
variable {t : Target} {T : Layout}

/-- Only what is in the given bytes. -/
def restrict (T : Layout) (mine : Nat → Prop) (h : Heap (Bits T)) [DecidablePred fun x => ∀ y, x ≤ y → y < x + T.size → mine y] : Heap (Bits T) :=
  { h with mem := fun x => if ∀ y, x ≤ y → y < x + T.size → mine y then h.mem x else none }

theorem holds_restrict {mine : Nat → Prop} [DecidablePred fun x => ∀ y, x ≤ y → y < x + T.size → mine y] {h : Heap (Bits T)} {p : Nat} {xs : List (Bits T)}
    (hh : Holds T h.mem p xs) (hm : ∀ y, p ≤ y → y < p + xs.length * T.size → mine y) : Holds T (restrict T mine h).mem p xs := by
  intro i v hi
  have hlt : i < xs.length := (List.getElem?_eq_some_iff.mp hi).1
  have h1 : (i + 1) * T.size ≤ xs.length * T.size := Nat.mul_le_mul_right _ hlt
  rw [Nat.add_mul] at h1
  simp only [restrict]
  rw [if_pos fun y k1 k2 => hm y (by omega) (by omega)]
  exact hh i v hi

theorem entRel_restrict {mine : Nat → Prop} [DecidablePred fun x => ∀ y, x ≤ y → y < x + T.size → mine y] {h : Heap (Bits T)} {e : Entry} {se : SVec (Bits T)}
    (r : EntRel t T h e se) (hm : ∀ x, e.region.Has x → mine x) : EntRel t T (restrict T mine h) e se := by
  have hu := used_le r
  have hul : e.vec.length * T.size ≤ used T e := Nat.mul_le_mul_right _ (Nat.le_add_right _ _)
  have hm' : ∀ y, e.vec.uninit.addr ≤ y → y < e.vec.uninit.addr + used T e → mine y := fun y h1 h2 => hm y ⟨h1, by show y < e.vec.uninit.addr + e.vec.uninit.len; omega⟩
  refine ⟨r.ok, r.len, r.cap, holds_restrict r.items fun y h1 h2 => hm' y h1 (by rw [← r.len] at h2; omega), r.borrows, ?_⟩
  have hdr := r.drain
  cases he : e.drain with
  | none =>
    rw [he] at hdr
    cases hs : se.drain with
    | none => trivial
    | some sd => rw [hs] at hdr; exact hdr.elim
  | some d =>
    rw [he] at hdr
    cases hs : se.drain with
    | none => rw [hs] at hdr; exact hdr.elim
    | some sd =>
      rw [hs] at hdr
      obtain ⟨⟨r1, r2, r3, r4, r5, r6⟩, hc⟩ := hdr
      have hused : used T e = e.vec.length * T.size + d.tail * T.size + d.tailLen * T.size := by
        simp only [used, he, Nat.add_mul, Nat.add_assoc]
      have hend : d.start * T.size + sd.rest.length * T.size ≤ d.tail * T.size := by
        rw [← Nat.add_mul]; exact Nat.mul_le_mul_right _ (by omega)
      refine ⟨⟨r1, r2, r3, r4, ?_, ?_⟩, hc⟩
      · exact holds_restrict r5 fun y h1 h2 => hm' y (by omega) (by omega)
      · exact holds_restrict r6 fun y h1 h2 => hm' y (by omega) (by rw [← r4] at h2; omega)

theorem wrel_restrict {mine : Nat → Prop} [DecidablePred fun x => ∀ y, x ≤ y → y < x + T.size → mine y] {w : World (Bits T)} {sw : SWorld (Bits T)}
    (r : WRel t T w sw) (hm : ∀ j e, w.ents j = some e → ∀ x, e.region.Has x → mine x) : WRel t T { w with heap := restrict T mine w.heap } sw := by
  refine ⟨r.next, r.log, fun i => ?_, r.bound, r.sep⟩
  have h := r.ents i
  show EntsRel t T _ (w.ents i) (sw.vecs i)
  cases he : w.ents i with
  | none => rw [he] at h; cases hs : sw.vecs i with | none => trivial | some _ => rw [hs] at h; exact h.elim
  | some e =>
    rw [he] at h
    cases hs : sw.vecs i with
    | none => rw [hs] at h; exact h.elim
    | some se => rw [hs] at h; exact entRel_restrict h (hm i e he)

/-- What holds between the vectors in the memory and those of the specification. -/
def vecRel (t : Target) (T : Layout) (mine : Nat → Prop) (bw : BWorld T) (m : Mem) (sw : SWorld (Bits T)) : Prop :=
  ∃ w, WRel t T w sw ∧ BRel ⟨0, 0⟩ m w { bw with heap := { bw.heap with mem := m } } ∧ ∀ j e, w.ents j = some e → ∀ x, e.region.Has x → mine x

theorem vecMachine_soundBy (hT : T.ValidType t) (checks : Bool) (panics : Bits T → Bool) (mine : Nat → Prop) : (vecMachine t T checks panics mine).SoundBy (vecRel t T mine) := by
  refine ⟨fun m _ => ⟨World.init fun _ => none, wrel_init _, brel_init m _, fun j e h => by cases h⟩, fun (bw : BWorld T) m (sw : SWorld (Bits T)) (op : Op (Bits T)) hr hp => ?_, fun (bw : BWorld T) m m' (sw : SWorld (Bits T)) hr hm => ?_⟩
  · obtain ⟨w, q, r, hin⟩ := hr
    obtain ⟨hp, hN, hnew⟩ := hp
    have hp0 : Bytes.Permitted t { bw with heap := { bw.heap with mem := m } } op := by cases op <;> exact hp
    have hp' := (bytes_permitted r).mp hp0
    obtain ⟨w', bw', e1, q', e2, f1, f2, r'⟩ := step_both (checks := checks) (panics := panics) hT q r hp' hN
    have hent : ∀ i, op.target = some i → ∃ e, w.ents i = some e := fun i ht => hp'.ent ht
    refine ⟨bw', bw'.heap.mem, ?_, fun _ => ⟨w', q', r', fun j e' h x hx => ?_⟩, fun x hx => ?_⟩
    · simp only [vecMachine, e2]
    · cases ht : op.target with
      | none =>
        cases op with
        | new addr len =>
          rcases (new_step e1 hT.1.1.pos).2 j e' h with h | h
          · exact hin j e' h x hx
          · rw [h] at hx; exact hnew addr len rfl x hx
        | _ => cases ht
      | some i =>
        obtain ⟨e, he⟩ := hent i ht
        rcases (frame_step hT q ht he (hp'.room ht he) e1).ents j e' h with ⟨_, h⟩ | h
        · exact hin j e' h x hx
        · exact hin i e he x (h.has hx)
    · cases ht : op.target with
      | none => rw [f2 ht]
      | some i =>
        obtain ⟨e, he⟩ := hent i ht
        exact (f1 i e ht he).heap.only x fun hx' => hx (hin i e he x hx')
  · obtain ⟨w, q, r, hin⟩ := hr
    have : DecidablePred fun x => ∀ y, x ≤ y → y < x + T.size → mine y := fun _ => Classical.propDecidable _
    refine ⟨{ w with heap := restrict T mine w.heap }, wrel_restrict q hin, ⟨r.ents, r.next, r.heap.log, fun x v hx => ?_, fun _ _ => rfl⟩, hin⟩
    simp only [restrict] at hx
    split at hx
    · rename_i hall
      have := r.heap.mem x v hx
      rw [← this]
      apply Subtype.ext
      rw [bytesRead_val, bytesRead_val]
      exact readBytes_congr fun y h1 h2 => hm y (hall y h1 h2)
    · cases hx
theorem vecMachine_sound (hT : T.ValidType t) (checks : Bool) (panics : Bits T → Bool) (mine : Nat → Prop) : (vecMachine t T checks panics mine).Sound := ⟨_, vecMachine_soundBy hT checks panics mine⟩
end

section
open RcMem RcM
variable {c : RcMem.Cfg} {checks : Bool}

theorem counted_owner {w w' : BWorld} {k : HKind} {a : Nat} {x : Outcome Mem} {r : BResp} (h : w.counted k a x = .ret (r, w')) : w'.owner = w.owner := by
  cases x <;> simp only [BWorld.counted] at h <;> cases h <;> rfl

theorem dropRc_owner {w w' : BWorld} {a : Nat} (h : w.dropRc c checks a = .ret w') : w'.owner = w.owner := by
  simp only [BWorld.dropRc, bind, Outcome.bind] at h
  split at h
  · rename_i y hy
    obtain ⟨l, m⟩ := y
    simp only [pure] at h
    split at h <;> cases h <;> rfl
  · cases h
  · cases h

theorem upgradeSome_owner {w w' : BWorld} {a : Nat} {r : BResp} (h : w.upgradeSome c checks a = .ret (r, w')) : w'.owner = w.owner := by
  simp only [BWorld.upgradeSome, bind, Outcome.bind] at h
  split at h
  · cases h; rfl
  · split at h
    · rename_i hd; cases h; exact dropRc_owner hd
    · cases h
    · cases h
  · cases h

/-- Blocks become used by `new` only. -/
theorem owner_step {w w' : BWorld} {sw : SWorld (List Byte)} (hr : WRel (w.abs c) sw) {op : RcMem.BOp} (hp : Allowed c w op) {r : BResp} (he : bexec c checks w op = .ret (r, w')) {a : Nat} (ha : w'.owner a ≠ .user) :
    w.owner a ≠ .user ∨ ∃ v, op = .call (.new a v) := by
  have hblk : ∀ {k h b}, w.block? k h = some b → w.owner b = .rc := by
    intro k h b hb
    simp only [BWorld.block?] at hb
    split at hb
    · rename_i k' b' hx
      split at hb
      · cases hb
        cases k' with
        | strong => obtain ⟨_, _, h2, _⟩ := live_of hr (h := h) (a := b) (f := false) hx; exact h2
        | weak => exact (weak_of hr (h := h) (a := b) (f := false) hx).1
      · cases hb
    · cases hb
  cases op with
  | raw b off bytes => cases he; exact .inl ha
  | call op =>
    cases op with
    | new b v =>
      simp only [bexec, Outcome.ret.injEq, Prod.mk.injEq] at he
      obtain ⟨_, rfl⟩ := he
      by_cases h : a = b
      · exact .inr ⟨v, by rw [h]⟩
      · refine .inl ?_
        simpa [BWorld.add, BWorld.setOwner, BWorld.setMem, h] using ha
    | fromRaw b =>
      simp only [bexec, Outcome.ret.injEq, Prod.mk.injEq] at he
      obtain ⟨_, rfl⟩ := he
      have hb : w.owner b = .raw := hp.2.1
      by_cases h : a = b
      · subst h; exact .inl (by rw [hb]; simp)
      · refine .inl ?_
        simpa [BWorld.add, BWorld.setOwner, h] using ha
    | rawTake b =>
      simp only [bexec, Outcome.ret.injEq, Prod.mk.injEq] at he
      obtain ⟨_, rfl⟩ := he
      by_cases h : a = b
      · subst h; simp [BWorld.setOwner] at ha
      · refine .inl ?_
        simpa [BWorld.setOwner, h] using ha
    | intoRaw h =>
      simp only [bexec] at he
      cases hb : w.block? .strong h with
      | none => rw [hb] at he; cases he
      | some b =>
        simp only [hb] at he
        split at he
        · simp only [Outcome.ret.injEq, Prod.mk.injEq] at he
          obtain ⟨_, rfl⟩ := he
          by_cases h : a = b
          · subst h; exact .inl (by rw [hblk hb]; simp)
          · refine .inl ?_
            simpa [BWorld.setOwner, BWorld.kill, h] using ha
        · cases he; exact .inl ha
    | weakTryUnwrap h =>
      simp only [bexec, bind, Outcome.bind] at he
      split at he
      · cases he
      · split at he
        · split at he
          · simp only [pure, Outcome.ret.injEq, Prod.mk.injEq] at he
            obtain ⟨_, rfl⟩ := he
            refine .inl fun hu => ha ?_
            simp [BWorld.setOwner, BWorld.kill, BWorld.setMem, hu]
          · cases he
          · cases he
        · cases he; exact .inl ha
    | clone h => simp only [bexec] at he; split at he <;> first | (cases he; done) | exact .inl (by rw [← counted_owner he]; exact ha)
    | downgrade h => simp only [bexec] at he; split at he <;> first | (cases he; done) | exact .inl (by rw [← counted_owner he]; exact ha)
    | cloneWeak h => simp only [bexec] at he; split at he <;> first | (cases he; done) | exact .inl (by rw [← counted_owner he]; exact ha)
    | upgrade h =>
      simp only [bexec] at he
      split at he
      · cases he
      · split at he
        · cases he; exact .inl ha
        · exact .inl (by rw [← upgradeSome_owner he]; exact ha)
    | dropRc h =>
      simp only [bexec, bind, Outcome.bind] at he
      split at he
      · cases he
      · split at he
        · rename_i hd; cases he; exact .inl (by have := dropRc_owner hd; rw [this] at ha; exact ha)
        · cases he
        · cases he
    | dropWeak h =>
      simp only [bexec, bind, Outcome.bind] at he
      split at he
      · cases he
      · split at he
        · cases he; exact .inl ha
        · cases he
        · cases he
    | tryUnwrap h =>
      simp only [bexec, bind, Outcome.bind] at he
      split at he
      · cases he
      · split at he
        · cases he; exact .inl ha
        · split at he
          · cases he; exact .inl ha
          · cases he
          · cases he
    | replace h v =>
      simp only [bexec] at he
      split at he
      · cases he
      · split at he <;> cases he <;> exact .inl ha
    | rawReplace b v => cases he; exact .inl ha
    | scribble b v => cases he
    | endDrop => cases he; exact .inl ha
    | deref h => simp only [bexec] at he; split at he <;> cases he; exact .inl ha
    | strongCount h => simp only [bexec] at he; split at he <;> cases he; exact .inl ha
    | weakCount h => simp only [bexec] at he; split at he <;> cases he; exact .inl ha
    | ptrEq h h' => simp only [bexec] at he; split at he <;> cases he; exact .inl ha
    | forget h => simp only [bexec] at he; split at he <;> cases he; exact .inl ha

/-- Calls are about blocks in use, or the block that is given. -/
theorem target_owner {w : BWorld} {sw : SWorld (List Byte)} (hr : WRel (w.abs c) sw) {op : RcMem.BOp} (hp : Allowed c w op) {a : Nat} (ha : target w op = some a) :
    w.owner a ≠ .user ∨ (∃ v, op = .call (.new a v)) ∨ ∃ off bs, op = .raw a off bs := by
  have hblk : ∀ {h}, blockOf w.hs h = some a → w.owner a ≠ .user := by
    intro h hb
    simp only [blockOf] at hb
    split at hb
    · rename_i x hx
      cases hb
      obtain ⟨k, a, f⟩ := x
      have : w.owner a = .rc := by
        cases k with
        | strong => obtain ⟨_, _, h2, _⟩ := live_of hr (h := h) (a := a) (f := f) hx; exact h2
        | weak => exact (weak_of hr (h := h) (a := a) (f := f) hx).1
      simp [this]
    · cases hb
  cases op with
  | raw b off bytes => cases ha; exact .inr (.inr ⟨off, bytes, rfl⟩)
  | call op =>
    cases op with
    | new b v => cases ha; exact .inr (.inl ⟨v, rfl⟩)
    | fromRaw b => cases ha; exact .inl (by have : w.owner a = .raw := hp.2.1; simp [this])
    | rawReplace b v => cases ha; exact .inl (by have : w.owner a = .raw := hp.2.1; simp [this])
    | rawTake b => cases ha; exact .inl (by have : w.owner a = .raw := hp.2.1; simp [this])
    | scribble b v => exact absurd hp.1 id
    | endDrop => cases ha
    | ptrEq h h' => cases ha
    | _ => exact .inl (hblk ha)

theorem abs_congr (hc : c.Ok) {mine : Nat → Prop} {w : BWorld} {sw : SWorld (List Byte)} (hr : WRel (w.abs c) sw) (hin : ∀ a, w.owner a ≠ .user → mine a) {m : Mem}
    (hm : ∀ x, (∃ a, mine a ∧ (c.region a).Has x) → m x = w.m x) : WRel (BWorld.abs c { w with m := m }) sw := by
  refine ⟨hr.hs, hr.log, hr.running, fun a => ?_⟩
  have h := hr.cells a
  by_cases ho : w.owner a = .user
  · show CellRel (w.owner a) (c.box m a) _ _ (sw.cells a)
    have h : CellRel (w.owner a) (c.box w.m a) (handles w.hs .strong a) (handles w.hs .weak a) (sw.cells a) := h
    rw [ho] at h ⊢
    cases hs : sw.cells a <;> rw [hs] at h <;> simp only [CellRel] at h ⊢ <;> first | exact h | (obtain ⟨h1, _⟩ := h; cases h1)
  · have hbox : c.box m a = c.box w.m a := by
      obtain ⟨_, h2, h3, _⟩ := fields_within hc.type
      have hs := strongAddr_eq hc.type a
      have hw := weakAddr_eq hc.type a
      have heq : ∀ y, (c.region a).Has y → m y = w.m y := fun y hy => hm y ⟨a, hin a ho, hy⟩
      have e1 : c.value m a = c.value w.m a := readBytes_congr fun y h1 h2' => heq y ⟨h1, by simp only [Cfg.region]; simp only [Cfg.valueAddr] at *; omega⟩
      have e2 : c.strong m a = c.strong w.m a := loadUsize_congr fun y h1 h2' => heq y ⟨by simp only [Cfg.region]; omega, by simp only [Cfg.region]; omega⟩
      have e3 : c.weak m a = c.weak w.m a := loadUsize_congr fun y h1 h2' => heq y ⟨by simp only [Cfg.region]; omega, by simp only [Cfg.region]; omega⟩
      simp only [Cfg.box, e1, e2, e3]
    show CellRel (w.owner a) (c.box m a) _ _ (sw.cells a)
    rw [hbox]; exact h

def rcRel (c : RcMem.Cfg) (mine : Nat → Prop) (w : BWorld) (m : Mem) (sw : SWorld (List Byte)) : Prop := WRel (BWorld.abs c { w with m := m }) sw ∧ ∀ a, w.owner a ≠ .user → mine a
theorem rcMachine_soundBy (hc : c.Ok) (checks : Bool) (mine : Nat → Prop) : (rcMachine c checks mine).SoundBy (rcRel c mine) := by
  refine ⟨fun m _ => ⟨wrel_init (c.box m), fun a h => absurd rfl h⟩, fun (w : BWorld) m (sw : SWorld (List Byte)) (op : RcMem.BOp) hr hp => ?_, fun (w : BWorld) m m' (sw : SWorld (List Byte)) hr hm => ?_⟩
  · obtain ⟨hr, hin⟩ := hr
    obtain ⟨hp, hnew, hraw⟩ := hp
    obtain ⟨w', e, hr', hout⟩ := bstep (checks := checks) hc hr hp
    refine ⟨w', w'.m, ?_, fun _ => ⟨hr', fun a ha => ?_⟩, fun x hx => ?_⟩
    · simp only [rcMachine, e]
    · rcases owner_step hr hp e ha with h | ⟨v, h⟩
      · exact hin a h
      · exact hnew a v h
    · refine hout x fun a ha hx' => hx ⟨a, ?_, hx'⟩
      rcases target_owner hr hp ha with h | ⟨v, h⟩ | ⟨off, bs, h⟩
      · exact hin a h
      · exact hnew a v h
      · exact hraw a off bs h
  · exact ⟨abs_congr hc (w := { w with m := m }) hr.1 hr.2 hm, hr.2⟩
theorem rcMachine_sound (hc : c.Ok) (checks : Bool) (mine : Nat → Prop) : (rcMachine c checks mine).Sound := ⟨_, rcMachine_soundBy hc checks mine⟩
end

section
open Unsync Unsync.ChainMem
variable {c : ChainMem.Cfg} {mine : Nat → Prop}

/-- What holds between the chains in the memory and those of the specification. -/
def chainRel (c : ChainMem.Cfg) (mine : Nat → Prop) (b : ChainMem.BState) (m : Mem) (σ : Chains) : Prop :=
  Sim c { b with heap := { b.heap with mem := m } } σ ∧ InMine c mine { b.heap with mem := m }

theorem chainMachine_soundBy (c : ChainMem.Cfg) (mine : Nat → Prop) : (chainMachine c mine).SoundBy (chainRel c mine) := by
  refine ⟨fun m _ => ⟨Sim.init c m, fun a L n h => by cases h⟩, fun (b : ChainMem.BState) m (σ : Chains) (op : COp) hr hp => ?_, fun (b : ChainMem.BState) m m' (σ : Chains) hr hm => ?_⟩
  · obtain ⟨hs, hin⟩ := hr
    obtain ⟨ha, hnew⟩ := hp
    have ha' : (BOp.call op).Allowed c { b with heap := { b.heap with mem := m } } := by cases op <;> exact ha
    obtain ⟨r, b', e, er, hs'⟩ := hs.step ha'
    subst er
    obtain ⟨s, P, _, hi, hrel, _⟩ := hs
    have k := call_keeps hrel hi hin ha' (fun h size a L h1 h2 => ⟨linkLayout_room h2, hnew h size a L h1 h2⟩) e
    refine ⟨b', b'.heap.mem, ?_, fun _ => ⟨hs', k.1⟩, fun x hx => k.2 x hx⟩
    simp only [chainMachine, e]
  · obtain ⟨⟨s, P, h1, h2, h3, h4⟩, hin⟩ := hr
    exact ⟨⟨s, P, h1, h2, Rel.congr h3 hin hm, h4⟩, hin⟩
theorem chainMachine_sound (c : ChainMem.Cfg) (mine : Nat → Prop) : (chainMachine c mine).Sound := ⟨_, chainMachine_soundBy c mine⟩
end

end Verif.Compose
