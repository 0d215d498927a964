import Verif.Proofs.ChainMem
/-! # `Chain` on bytes: only bytes of its links are written, and only they matter -/
namespace Verif.Unsync.ChainMem
open Verif
variable {c : Cfg} {mine : Nat → Prop}

/-- All links are in the given bytes. -/
def InMine (c : Cfg) (mine : Nat → Prop) (b : BHeap) : Prop :=
  ∀ a L n, b.block a = some (L, n) → 2 * c.t.wordBytes ≤ L.size ∧ ∀ x, Region.Has ⟨a, L.size⟩ x → mine x

def Keeps (c : Cfg) (mine : Nat → Prop) (b b' : BHeap) : Prop := InMine c mine b' ∧ ∀ x, ¬ mine x → b'.mem x = b.mem x

theorem Keeps.trans {a b d : BHeap} (h1 : Keeps c mine a b) (h2 : Keeps c mine b d) : Keeps c mine a d := ⟨h2.1, fun x hx => (h2.2 x hx).trans (h1.2 x hx)⟩

theorem storeNext_keeps {b : BHeap} (hb : InMine c mine b) {a : Nat} {L : Layout} {n : Nat} (hl : b.block a = some (L, n)) (q : Option LPtr) : Keeps c mine b { b with mem := storeNext c b.mem a q } := by
  refine ⟨hb, fun x hx => storeNext_of_not_mem fun h => hx ?_⟩
  have := (hb a L n hl).1
  exact (hb a L n hl).2 x ⟨h.1, by show x < a + L.size; omega⟩

theorem takeNext_keeps {b b' : BHeap} (hb : InMine c mine b) {p : LPtr} {q : Option LPtr} (hx : Link.takeNext c b p = .ret (q, b')) : Keeps c mine b b' := by
  unfold Link.takeNext at hx
  cases hl : b.block p.addr with
  | none => rw [hl] at hx; cases hx
  | some r => rw [hl] at hx; cases hx; exact storeNext_keeps hb hl none

theorem free_keeps {b b' : BHeap} (hb : InMine c mine b) {p : LPtr} (hx : Link.free c b p = .ret b') : Keeps c mine b b' := by
  unfold Link.free at hx
  cases hl : b.block p.addr with
  | none => rw [hl] at hx; cases hx
  | some r =>
    obtain ⟨L, n⟩ := r
    rw [hl] at hx
    simp only at hx
    split at hx
    · cases hx
    · cases hx
      refine ⟨fun a L' n' h => ?_, fun x hx => ?_⟩
      · simp only at h
        split at h
        · cases h
        · exact hb a L' n' h
      · show scribble c b.mem p.addr L.size x = _
        simp only [scribble]
        exact if_neg fun h => hx ((hb _ L n hl).2 x h)

theorem dropLoop_keeps {db : BHeap → LPtr → Outcome BHeap} (hdb : ∀ b b' p, InMine c mine b → db b p = .ret b' → Keeps c mine b b') :
    ∀ (fuel : Nat) {b b' : BHeap} {p : Option LPtr}, InMine c mine b → Link.dropLoop c db fuel b p = .ret b' → Keeps c mine b b'
  | fuel, b, b', none, hb, hx => by
    have : Link.dropLoop c db fuel b none = .ret b := by cases fuel <;> rfl
    rw [this] at hx
    cases hx
    exact ⟨hb, fun _ _ => rfl⟩
  | 0, _, _, some _, _, hx => by cases hx
  | fuel + 1, b, b', some p, hb, hx => by
    simp only [Link.dropLoop] at hx
    obtain ⟨⟨q, b1⟩, h1, hx⟩ := bind_ret hx
    obtain ⟨b2, h2, hx⟩ := bind_ret hx
    have k1 := takeNext_keeps hb h1
    have k2 := hdb _ _ _ k1.1 h2
    exact (k1.trans k2).trans (dropLoop_keeps hdb fuel k2.1 hx)

theorem dropBox_keeps : ∀ (depth : Nat) {fuel : Nat} {b b' : BHeap} {p : LPtr}, InMine c mine b → Link.dropBox c depth fuel b p = .ret b' → Keeps c mine b b'
  | 0, _, _, _, _, _, hx => by cases hx
  | depth + 1, fuel, b, b', p, hb, hx => by
    simp only [Link.dropBox] at hx
    obtain ⟨⟨q, b1⟩, h1, hx⟩ := bind_ret hx
    obtain ⟨b2, h2, hx⟩ := bind_ret hx
    have k1 := takeNext_keeps hb h1
    have k2 := dropLoop_keeps (fun b b' p h h' => dropBox_keeps depth h h') fuel k1.1 h2
    exact (k1.trans k2).trans (free_keeps k2.1 hx)

theorem setNext_keeps {depth fuel : Nat} {b b' : BHeap} {p : LPtr} {q : Option LPtr} (hb : InMine c mine b) (hx : Link.setNext c depth fuel b p q = .ret b') : Keeps c mine b b' := by
  unfold Link.setNext at hx
  cases hl : b.block p.addr with
  | none => rw [hl] at hx; cases hx
  | some r =>
    rw [hl] at hx
    simp only at hx
    have k := storeNext_keeps hb hl q
    cases hn : loadNext c b.mem p.addr with
    | none => rw [hn] at hx; cases hx; exact k
    | some old => rw [hn] at hx; exact k.trans (dropBox_keeps depth k.1 hx)

theorem InMine.of {b : BState} {s : CState} (hr : Rel c b s) (h : ∀ a L n, b.heap.block a = some (L, n) → ∀ x, Region.Has ⟨a, L.size⟩ x → mine x) : InMine c mine b.heap := by
  intro a L n hl
  refine ⟨?_, h a L n hl⟩
  rw [hr.heap.same, Option.map_eq_some_iff] at hl
  obtain ⟨r, hl, e⟩ := hl
  cases e
  exact hr.heap.room a r hl

/-- A call writes only to the links. -/
theorem call_keeps {b b' : BState} {s : CState} {P : Nat → List LPtr} (hr : Rel c b s) (hi : CInv c.t s P) (hm : InMine c mine b.heap) {op : COp} {r : CRet} (ha : (BOp.call op).Allowed c b)
    (hnew : ∀ h size a L, op = .new h size (some a) → linkLayoutFromSize c.t size = some L → 2 * c.t.wordBytes ≤ L.size ∧ ∀ x, Region.Has ⟨a, L.size⟩ x → mine x)
    (hx : bexec c b (.call op) = .ret (r, b')) : Keeps c mine b.heap b'.heap := by
  have refl : Keeps c mine b.heap b.heap := ⟨hm, fun _ _ => rfl⟩
  cases op with
  | new h size heap =>
    simp only [bexec, bNew] at hx
    cases hL : linkLayoutFromSize c.t size with
    | none => rw [hL] at hx; cases hx; exact refl
    | some L =>
      rw [hL] at hx
      cases heap with
      | none => cases hx; exact refl
      | some a =>
        cases hx
        have hn := hnew h size a L rfl hL
        refine ⟨fun a' L' n' hl => ?_, fun x hx => ?_⟩
        · simp only [BState.setRoot] at hl
          split at hl
          · rename_i e; cases hl; rw [e]; exact hn
          · exact hm a' L' n' hl
        · show writeZeros b.heap.mem a L.size x = _
          exact writeBytes_of_not_mem fun h => hx (hn.2 x ⟨h.1, by have := h.2; simp only [List.length_replicate] at this; exact this⟩)
  | bumpBox h T =>
    simp only [bexec, bBumpBox] at hx
    rw [show b.roots h = s.roots h by rw [hr.roots]] at hx
    cases hro : s.roots h with
    | none => rw [hro] at hx; cases hx
    | some ro =>
      rw [hro] at hx
      cases ro with
      | none => cases hx; exact refl
      | some root =>
        obtain ⟨qs, rec, hPc, hl, hlay, _⟩ := (hi.chained h _ hro).some_cons
        have hmem : root ∈ P h := by rw [hPc]; simp
        have hv := hi.valid hmem
        have hcap : (root.asBump c.t).level c.t s.mem ≤ (root.asBump c.t).cap := (hi.cap h root hmem).2
        have hlev := level_rel hr hi hmem
        have hal : 0 < T.align := ha.2.1.1.pos
        simp only [hr.heap.block hl, BumpBoxes.bumpBox_spec hv (m := b.heap.mem) (by rw [hlev]; exact hcap) hal, hlev] at hx
        by_cases h0 : T.size = 0
        · rw [if_pos h0] at hx; cases hx; exact refl
        · rw [if_neg h0] at hx
          cases hpl : ((root.asBump c.t).slab c.t).place T ((root.asBump c.t).level c.t s.mem) with
          | none => rw [hpl] at hx; cases hx; exact refl
          | some al =>
            rw [hpl] at hx
            cases hx
            refine ⟨hm, fun x hx => storeUsize_of_not_mem fun h => hx ((hm _ _ _ (hr.heap.block hl)).2 x ?_)⟩
            have hb := root.block_size c.t
            simp only [LPtr.block, ← hlay] at hb
            simp only [LPtr.asBump] at h
            exact ⟨by show root.addr ≤ x; omega, by show x < root.addr + rec.layout.size; omega⟩
  | chain h d =>
    simp only [bexec, bChain] at hx
    cases hh : b.roots h with
    | none => rw [hh] at hx; cases hx
    | some selfBump =>
      cases hd : b.roots d with
      | none => rw [hh, hd] at hx; cases hx
      | some newRoot =>
        rw [hh, hd] at hx
        simp only at hx
        obtain ⟨s1, h1, h2⟩ := bind_ret hx
        cases h2
        cases newRoot with
        | none => cases h1; exact refl
        | some root =>
          obtain ⟨hp, h3, h4⟩ := bind_ret h1
          cases h4
          exact setNext_keeps (b := b.heap) hm h3
  | capacity h =>
    simp only [bexec] at hx
    obtain ⟨n, _, h2⟩ := bind_ret hx
    cases h2
    exact refl
  | remaining h =>
    simp only [bexec] at hx
    split at hx
    · cases hx
    · cases hx; exact refl
    · cases hx; exact refl
  | drop h =>
    simp only [bexec, bDrop] at hx
    cases hh : b.roots h with
    | none => rw [hh] at hx; cases hx
    | some root =>
      rw [hh] at hx
      simp only at hx
      obtain ⟨hp, h3, h4⟩ := bind_ret hx
      cases h4
      exact dropLoop_keeps (fun b b' p h h' => dropBox_keeps _ h h') _ hm h3
  | write h blk off bytes =>
    cases hx
    refine ⟨hm, fun x hx => writeBytes_of_not_mem fun hin => hx ?_⟩
    obtain ⟨hg, hoff⟩ := ha
    rw [hr.granted] at hg
    obtain ⟨p, hp, k1, k2, _, _⟩ := hi.grants _ hg
    obtain ⟨rec, hl, hlay⟩ := hi.alloc hp
    have hcap := (hi.cap _ p hp).2
    have hb := p.block_size c.t
    simp only [LPtr.block, ← hlay] at hb
    simp only [LPtr.data] at k1 k2
    exact (hm _ _ _ (hr.heap.block hl)).2 x ⟨by show p.addr ≤ x; omega, by show x < p.addr + rec.layout.size; omega⟩

/-- Only the bytes of the links matter. -/
theorem Rel.congr {b : BState} {s : CState} (hr : Rel c b s) (hm : InMine c mine b.heap) {m : Mem} (h : ∀ x, mine x → m x = b.heap.mem x) :
    Rel c { b with heap := { b.heap with mem := m } } s := by
  refine ⟨hr.roots, hr.serials, hr.granted, hr.heap.same, fun a r hl => ?_, hr.heap.freed, hr.heap.room, hr.heap.disj, fun a r hl x k1 k2 => ?_⟩
  · rw [← hr.heap.next a r hl]
    have := hr.heap.room a r hl
    exact loadNext_congr fun y k1 k2 => h y ((hm _ _ _ (hr.heap.block hl)).2 y ⟨k1, by show y < a + r.layout.size; omega⟩)
  · show m x = _
    rw [h x ((hm _ _ _ (hr.heap.block hl)).2 x ⟨by show a ≤ x; omega, k2⟩)]
    exact hr.heap.bytes a r hl x k1 k2

theorem linkLayout_room {t : Target} {size : Nat} {L : Layout} (h : linkLayoutFromSize t size = some L) : 2 * t.wordBytes ≤ L.size := by
  have hb := LPtr.block_size t ⟨0, size⟩
  rw [LPtr.block, ← (linkLayoutFromSize_some h).1] at hb
  simp only at hb
  omega

end Verif.Unsync.ChainMem
