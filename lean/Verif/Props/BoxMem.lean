import Verif.Proofs.BoxMem
/-! # C91: boxes in memory of the user hold their values, on the bytes of the memory -/
set_option autoImplicit false
namespace Verif.BoxMem
open Verif Uninit

variable {t : Target} {panics : Layout → List Byte → Bool} {mine : Nat → Prop} {m : Mem}

/-- **C91** Every program which uses `split_at_byte` and `split_to_fit` only where they do what is documented, with memory of any contents: nothing is undefined behaviour, every statement has the answer that variables without any memory give, in particular
what is read from a box is the value last put into that box, and the same destructors run on the same values in the same order. Bytes that the program was not given are not written. -/
theorem C91_refines_partial {ops : List Op} (hs : SafeRun (Permitted t mine) t panics (World.init m) ops) :
    ∃ w, run t panics (World.init m) ops = .ret ((srun t panics SWorld.init ops).1, w) ∧ w.log = (srun t panics SWorld.init ops).2.dropped ∧ ∀ x, ¬ mine x → w.mem x = m x := by
  obtain ⟨w, e, r⟩ := sim_run (wrel_init m) hs
  exact ⟨w, e, r.log, r.outside⟩

/-- **C91** At any time, the memory of all variables is within what the program was given, and no two variables have a byte in common; boxes and references are aligned for their type, and there is room for it. -/
theorem C91_apart_partial {ops : List Op} (hs : SafeRun (Permitted t mine) t panics (World.init m) ops) {rs : List Resp} {w : World} (hx : run t panics (World.init m) ops = .ret (rs, w)) :
    (∀ k h, w.hs k = some h → ∀ x, h.region.Has x → mine x) ∧ (∀ i j h g, i ≠ j → w.hs i = some h → w.hs j = some g → h.region.Disjoint g.region) ∧
    ∀ k v, w.hs k = some (.boxed v) ∨ w.hs k = some (.ref v) → v.T.ValidType t ∧ v.T.align ∣ v.addr ∧ v.T.size ≤ v.len := by
  obtain ⟨w', e, r⟩ := sim_run (wrel_init m) hs
  rw [hx] at e; cases e
  refine ⟨fun k h hk => (r.ok k h hk).2.2, r.apart, fun k v hk => ?_⟩
  rcases hk with hk | hk
  · exact (r.ok k _ hk).1
  · exact (r.ok k _ hk).1

/-- **C91** A box (or a reference) holds its value as long as it is not itself used to change or move it, whatever is done with other memory and boxes. -/
theorem C91_value_kept_partial {before after : List Op} (hs : SafeRun (Permitted t mine) t panics (World.init m) (before ++ after)) {rs : List Resp} {w : World}
    (hx : run t panics (World.init m) before = .ret (rs, w)) {k : Nat} (hk : Legal t mine w (.deref k)) {v : List Byte} (hd : exec t panics w (.deref k) = .ret (.val v, w)) (hn : ∀ op ∈ after, NotUsed k op) :
    ∃ rs' w', run t panics w after = .ret (rs', w') ∧ exec t panics w' (.deref k) = .ret (.val v, w') := by
  obtain ⟨s1, s2⟩ := safe_append hs
  obtain ⟨w1, e, r⟩ := sim_run (wrel_init m) s1
  rw [hx] at e; cases e
  obtain ⟨w2, e2, r2⟩ := sim_run r (s2 _ _ hx)
  refine ⟨_, w2, e2, ?_⟩
  rcases hk with ⟨u, hk, -⟩ | ⟨u, hk, -⟩
  · have hkeep := kept_run r (s2 _ _ hx) hk (by simp) hn
    have hv := varRel_boxed (hk ▸ r.var k)
    simp only [exec, hk, boxDeref] at hd
    have hd := (Prod.ext_iff.mp (Outcome.ret.inj hd)).1
    simp only [Resp.val.injEq] at hd
    rw [hd] at hv
    have := r2.var k
    rw [hkeep, hv] at this
    cases hw : w2.hs k with
    | none => rw [hw] at this; exact this.elim
    | some h =>
      rw [hw] at this
      cases h with
      | boxed u' => simp only [exec, hw, boxDeref]; rw [this.2]; rfl
      | ref u' => exact this.elim
      | piece u' f => exact this.elim
  · have hkeep := kept_run r (s2 _ _ hx) hk (by simp) hn
    have hv := varRel_ref (hk ▸ r.var k)
    simp only [exec, hk] at hd
    have hd := (Prod.ext_iff.mp (Outcome.ret.inj hd)).1
    simp only [Resp.val.injEq] at hd
    rw [hd] at hv
    have := r2.var k
    rw [hkeep, hv] at this
    cases hw : w2.hs k with
    | none => rw [hw] at this; exact this.elim
    | some h =>
      rw [hw] at this
      cases h with
      | boxed u' => exact this.elim
      | ref u' => simp only [exec, hw]; rw [this.2]; rfl
      | piece u' f => exact this.elim

/-- **C91** No memory gets lost: as long as nothing goes out of scope or is turned into a reference, each byte that was in a piece or a box still is in one (the memory comes back from boxes completely). -/
theorem C91_memory_kept_partial {before after : List Op} (hs : SafeRun (Permitted t mine) t panics (World.init m) (before ++ after)) {rs rs' : List Resp} {w w' : World}
    (hx : run t panics (World.init m) before = .ret (rs, w)) (hy : run t panics w after = .ret (rs', w')) (hm : ∀ op ∈ after, KeepsMemory op) {x : Nat}
    (h : ∃ k h, w.hs k = some h ∧ h.region.Has x) : ∃ k h, w'.hs k = some h ∧ h.region.Has x := by
  obtain ⟨s1, s2⟩ := safe_append hs
  obtain ⟨w1, e, r⟩ := sim_run (wrel_init m) s1
  rw [hx] at e; cases e
  exact covered_run r (s2 _ _ hx) hm hy h

/-- **C91** Whatever the program does, no value is dropped or handed out more often than it was moved in. -/
theorem C91_at_most_once_partial {ops : List Op} (hs : SafeRun (Permitted t mine) t panics (World.init m) ops) {rs : List Resp} {w : World} (hx : run t panics (World.init m) ops = .ret (rs, w)) (v : List Byte) :
    (outputsOf ops rs).count v + (w.log.map Prod.snd).count v ≤ (inputsOf ops).count v := by
  obtain ⟨w', e, r⟩ := sim_run (wrel_init m) hs
  rw [hx] at e; cases e
  obtain ⟨n, hn⟩ := vars_bound ops
  have b := balance_run (wrel_init m) hs hn v
  have h0 : held n SWorld.init.hs v = 0 := held_zero (fun _ => rfl) n
  rw [h0] at b
  rw [r.log]
  simp only [drops, SWorld.init, List.map_nil, List.count_nil] at b
  simp only [SWorld.init] at *
  omega

/-- **C91** A program that puts values into boxes only, leaks none of them and has none in the end: every value was dropped or handed out exactly as often as it was moved in. -/
theorem C91_exactly_once_partial {ops : List Op} (hs : SafeRun (Permitted t mine) t panics (World.init m) ops) (ho : ∀ op ∈ ops, OnlyBoxes op) {rs : List Resp} {w : World}
    (hx : run t panics (World.init m) ops = .ret (rs, w)) (hend : ∀ k v, w.hs k ≠ some (.boxed v)) : (outputsOf ops rs ++ w.log.map Prod.snd).Perm (inputsOf ops) := by
  rw [List.perm_iff_count]
  intro v
  obtain ⟨w', e, r⟩ := sim_run (wrel_init m) hs
  rw [hx] at e; cases e
  obtain ⟨n, hn⟩ := vars_bound ops
  have b := balance_run (wrel_init m) hs hn v
  have h0 : held n SWorld.init.hs v = 0 := held_zero (fun _ => rfl) n
  have hpl : Plain (srun t panics SWorld.init ops).2 := plain_run (wrel_init m) hs ho ⟨rfl, fun k => ⟨fun _ _ h => (by cases h), fun _ _ h => (by cases h)⟩⟩
  have h1 : held n (srun t panics SWorld.init ops).2.hs v = 0 := by
    have : ∀ k, holds v ((srun t panics SWorld.init ops).2.hs k) = 0 := by
      intro k
      have hv := r.var k
      cases hk : (srun t panics SWorld.init ops).2.hs k with
      | none => rfl
      | some x =>
        rw [hk] at hv
        cases x with
        | piece u o =>
          cases o with
          | none => rfl
          | some val => exact absurd hk ((hpl.2 k).2 _ _)
        | ref u val => exact absurd hk ((hpl.2 k).1 _ _)
        | boxed u val =>
          cases hw : w.hs k with
          | none => rw [hw] at hv; exact hv.elim
          | some h =>
            rw [hw] at hv
            cases h with
            | boxed u' => exact absurd hw (hend k u')
            | ref u' => exact hv.elim
            | piece u' f => exact hv.elim
    exact held_zero this n
  rw [h0, h1, hpl.1] at b
  rw [List.count_append, r.log]
  simp only [drops, SWorld.init, List.map_nil, List.count_nil] at b
  simp only [SWorld.init] at *
  omega

/-! A concrete program: a box with a byte, of memory that is split; slices; memory from a box used again for other types; drops that unwind; leaking and zero-sized values. -/
def u8T : Layout := ⟨1, 1⟩
def u32T : Layout := ⟨4, 4⟩
def u64T : Layout := ⟨8, 8⟩
def exOps : List Op :=
  [.memory 0 4096 32, .view 0 9 (.cast u8T), .view 0 1 (.splitAtByte 8), .new 0 [1], .view 1 9 (.castSlice u64T), .view 1 2 .splitFirst, .new 2 [1, 2, 3, 4, 5, 6, 7, 8], .deref 0, .replace 0 [2], .view 1 9 .asMemory,
   .view 1 3 (.splitCast u32T), .new 3 [9, 9, 9, 9], .deref 2, .take 2, .view 2 9 (.cast u32T), .new 2 [5, 5, 5, 5], .drop 3, .intoRaw 2, .fromRaw 2, .deref 2, .leak 2, .replace 2 [6, 6, 6, 6], .take 0, .release 2, .view 0 9 .asMemory, .view 0 9 (.cast u64T),
   .init 0 [7, 7, 7, 7, 7, 7, 7, 7], .zst 4 ⟨0, 4⟩, .new 4 [], .drop 4, .zst 5 u8T, .place 6 u64T 5000, .write 6 [8, 8, 8, 8, 8, 8, 8, 8], .remake 6, .read 6, .write 6 [8, 8, 8, 8, 8, 8, 8, 8], .intoMut 6, .deref 6, .deref 0, .placeSlice 7 u32T 6000 3,
   .view 7 8 .splitLast, .new 8 [3, 3, 3, 3]]
def exPanics (_ : Layout) (v : List Byte) : Bool := v == [9, 9, 9, 9]
/-- The memory that the program may use. -/
def exMine (x : Nat) : Prop := (4096 ≤ x ∧ x < 4128) ∨ (5000 ≤ x ∧ x < 5008) ∨ (6000 ≤ x ∧ x < 6012)
instance : DecidablePred exMine := fun x => inferInstanceAs (Decidable (_ ∨ _))

/-- All the types that the examples use. -/
def exTypes : List Layout := [u8T, u32T, u64T, ⟨0, 4⟩, unit]
theorem exTypes_valid {T : Layout} (h : T ∈ exTypes) : T.ValidType .w64 := by
  simp only [exTypes, List.mem_cons, List.not_mem_nil, or_false] at h
  rcases h with rfl | rfl | rfl | rfl | rfl
  · exact ⟨⟨⟨0, rfl⟩, by decide⟩, by decide⟩
  · exact ⟨⟨⟨2, rfl⟩, by decide⟩, by decide⟩
  · exact ⟨⟨⟨3, rfl⟩, by decide⟩, by decide⟩
  · exact ⟨⟨⟨2, rfl⟩, by decide⟩, by decide⟩
  · exact unit_valid _

def appliesB : AnyView → VOp → Bool
  | .sized _, .cast U => decide (U ∈ exTypes)
  | .sized _, .castSlice U => decide (U ∈ exTypes)
  | .sized _, .splitAtByte n => decide (n < Target.w64.W)
  | .sized _, .splitToFit => true
  | .sized _, .asMemory => true
  | .slice _, .asMemory => true
  | .sized v, .splitCast U => decide (v.T = unit) && decide (U ∈ exTypes)
  | .slice _, .splitAt n => decide (n < Target.w64.W)
  | .slice _, .splitFirst => true
  | .slice _, .splitLast => true
  | _, _ => false
theorem appliesB_sound {v : AnyView} {op : VOp} (h : appliesB v op = true) : op.Applies .w64 v := by
  cases v <;> cases op <;> simp only [appliesB, Bool.and_eq_true, decide_eq_true_eq, Bool.false_eq_true] at h <;> simp only [VOp.Applies]
  · exact exTypes_valid h
  · exact exTypes_valid h
  · exact h
  · exact ⟨h.1, exTypes_valid h.2⟩
  · exact h

def byteOkB : AnyView → VOp → Bool
  | .sized v, .splitAtByte n => decide (n = 0 ∨ v.T.size = 1)
  | .sized v, .splitToFit => decide (v.T.size ≤ 1)
  | _, _ => true
theorem byteOkB_sound {v : AnyView} {op : VOp} (h : byteOkB v op = true) : ByteOk v op := by
  cases v <;> cases op <;> simp_all [byteOkB, ByteOk]

/-- Variables have numbers below ten. -/
def small (w : World) : Prop := ∀ k, 10 ≤ k → w.hs k = none
def unusedB (w : World) (r : Region) : Bool :=
  decide (0 < r.start ∧ r.start + r.size ≤ Target.w64.W ∧ r.size ≤ Target.w64.isizeMax) && (List.range r.size).all (fun i => decide (exMine (r.start + i))) &&
    (List.range 10).all fun k => match w.hs k with | none => true | some h => decide (r.start + r.size ≤ h.region.start ∨ h.region.start + h.region.size ≤ r.start)
theorem unusedB_sound {w : World} (hw : small w) {r : Region} (h : unusedB w r = true) : Unused .w64 exMine w r := by
  simp only [unusedB, Bool.and_eq_true, decide_eq_true_eq, List.all_eq_true, List.mem_range] at h
  obtain ⟨⟨h1, h2⟩, h3⟩ := h
  refine ⟨⟨h1.1, h1.2.1, h1.2.2⟩, fun x hx => ?_, fun k g hk => ?_⟩
  · have := h2 (x - r.start) (by have := hx.1; have := hx.2; omega)
    rwa [Nat.add_sub_cancel' hx.1] at this
  · have hk10 : k < 10 := Nat.lt_of_not_le fun hge => by rw [hw k hge] at hk; cases hk
    have := h3 k hk10
    rw [hk] at this
    simp only [decide_eq_true_eq] at this
    intro x hx
    have := hx.1; have := hx.2
    simp only [Region.Has] at *
    omega

def pieceB (w : World) (k : Nat) (full : Bool) (p : Nat → Bool) : Bool := match w.hs k with | some (.piece (.sized v) f) => (!full || f) && p v.T.size | _ => false
def boxB (w : World) (k : Nat) (p : Nat → Bool) : Bool := match w.hs k with | some (.boxed v) => p v.T.size | _ => false
def refB (w : World) (k : Nat) (p : Nat → Bool) : Bool := match w.hs k with | some (.ref v) => p v.T.size | _ => false
theorem pieceB_sound {w : World} {k : Nat} {full : Bool} {p : Nat → Bool} {q : Nat → Prop} (hpq : ∀ n, p n = true → q n) (h : pieceB w k full p = true) : IsPiece w k full q := by
  unfold pieceB at h
  split at h
  · rename_i v f hk
    simp only [Bool.and_eq_true, Bool.or_eq_true, Bool.not_eq_true'] at h
    exact ⟨v, f, hk, fun hf => by rcases h.1 with h | h; (rw [hf] at h; cases h); exact h, hpq _ h.2⟩
  · cases h
theorem boxB_sound {w : World} {k : Nat} {p : Nat → Bool} {q : Nat → Prop} (hpq : ∀ n, p n = true → q n) (h : boxB w k p = true) : IsBox w k q := by
  unfold boxB at h
  split at h
  · rename_i v hk; exact ⟨v, hk, hpq _ h⟩
  · cases h
theorem refB_sound {w : World} {k : Nat} {p : Nat → Bool} {q : Nat → Prop} (hpq : ∀ n, p n = true → q n) (h : refB w k p = true) : IsRef w k q := by
  unfold refB at h
  split at h
  · rename_i v hk; exact ⟨v, hk, hpq _ h⟩
  · cases h

def freeB (w : World) (k : Nat) : Bool := decide (k < 10) && (w.hs k).isNone
def legalB (w : World) : Op → Bool
  | .memory k a l => freeB w k && unusedB w ⟨a, l⟩
  | .place k T a => freeB w k && decide (T ∈ exTypes) && decide (T.align ∣ a) && unusedB w ⟨a, T.size⟩
  | .placeSlice k T a n => freeB w k && decide (T ∈ exTypes) && decide (T.align ∣ a) && unusedB w ⟨a, n * T.size⟩
  | .zst k T => freeB w k && decide (T ∈ exTypes)
  | .view k k' op => decide (k' ≠ k) && freeB w k' && (match w.hs k with | some (.piece v _) => appliesB v op | _ => false)
  | .remake k => pieceB w k false fun _ => true
  | .write k val | .init k val | .new k val => pieceB w k false (· = val.length)
  | .read k | .intoMut k | .fromRaw k => pieceB w k true fun _ => true
  | .deref k => boxB w k (fun _ => true) || refB w k fun _ => true
  | .replace k val => boxB w k (· = val.length) || refB w k (· = val.length)
  | .take k | .intoRaw k | .leak k | .drop k => boxB w k fun _ => true
  | .release k => refB w k (fun _ => true) || (match w.hs k with | some (.piece _ _) => true | _ => false)

theorem freeB_sound {w : World} {k : Nat} (h : freeB w k = true) : w.hs k = none := by
  simp only [freeB, Bool.and_eq_true] at h; simpa using h.2

theorem legalB_sound {w : World} (hw : small w) {op : Op} (h : legalB w op = true) : Legal .w64 exMine w op := by
  have tt : ∀ n : Nat, (fun _ => true) n = true → True := fun _ _ => trivial
  cases op with
  | memory k a l => simp only [legalB, Bool.and_eq_true] at h; exact ⟨freeB_sound h.1, unusedB_sound hw h.2⟩
  | place k T a => simp only [legalB, Bool.and_eq_true, decide_eq_true_eq] at h; exact ⟨freeB_sound h.1.1.1, exTypes_valid h.1.1.2, h.1.2, unusedB_sound hw h.2⟩
  | placeSlice k T a n => simp only [legalB, Bool.and_eq_true, decide_eq_true_eq] at h; exact ⟨freeB_sound h.1.1.1, exTypes_valid h.1.1.2, h.1.2, unusedB_sound hw h.2⟩
  | zst k T => simp only [legalB, Bool.and_eq_true, decide_eq_true_eq] at h; exact ⟨freeB_sound h.1, exTypes_valid h.2⟩
  | view k k' op =>
    simp only [legalB, Bool.and_eq_true, decide_eq_true_eq] at h
    obtain ⟨⟨h1, h2⟩, h3⟩ := h
    split at h3
    · rename_i v f hk; exact ⟨h1, freeB_sound h2, v, f, hk, appliesB_sound h3⟩
    · cases h3
  | remake k => exact pieceB_sound tt h
  | write k val => exact pieceB_sound (p := (· = val.length)) (q := (· = val.length)) (by simp) (by simpa [legalB] using h)
  | init k val => exact pieceB_sound (p := (· = val.length)) (q := (· = val.length)) (by simp) (by simpa [legalB] using h)
  | new k val => exact pieceB_sound (p := (· = val.length)) (q := (· = val.length)) (by simp) (by simpa [legalB] using h)
  | read k => exact pieceB_sound tt h
  | intoMut k => exact pieceB_sound tt h
  | fromRaw k => exact pieceB_sound tt h
  | deref k => simp only [legalB, Bool.or_eq_true] at h; exact h.imp (boxB_sound tt) (refB_sound tt)
  | replace k val =>
    simp only [legalB, Bool.or_eq_true] at h
    exact h.imp (boxB_sound (by simp)) (refB_sound (by simp))
  | take k => exact boxB_sound tt h
  | intoRaw k => exact boxB_sound tt h
  | leak k => exact boxB_sound tt h
  | drop k => exact boxB_sound tt h
  | release k =>
    simp only [legalB, Bool.or_eq_true] at h
    refine h.imp (refB_sound tt) fun h => ?_
    split at h
    · rename_i v f hk; exact ⟨v, f, hk⟩
    · cases h

def badSplitB (w : World) : Op → Bool
  | .view k _ op => match w.hs k with | some (.piece v _) => byteOkB v op | _ => true
  | _ => true
theorem badSplitB_sound {w : World} {op : Op} (h : badSplitB w op = true) : NoBadSplit w op := by
  cases op with
  | view k k' op =>
    intro v f hk
    simp only [badSplitB, hk] at h
    exact byteOkB_sound h
  | _ => trivial

/-- Statements use and declare variables with numbers below ten. -/
theorem small_step {w : World} (hw : small w) {op : Op} (h : legalB w op = true) {r : Resp} {w' : World} (e : exec .w64 exPanics w op = .ret (r, w')) : small w' := by
  have upd_small : ∀ {hs : Nat → Option Handle} {k : Nat} {a : Option Handle}, (∀ j, 10 ≤ j → hs j = none) → k < 10 → ∀ j, 10 ≤ j → upd hs k a j = none := by
    intro hs k a hh hk j hj
    rw [upd_ne _ _ (by omega)]; exact hh j hj
  have lt : ∀ {k : Nat} {x : Handle}, w.hs k = some x → k < 10 := fun hk => Nat.lt_of_not_le fun hge => by rw [hw _ hge] at hk; cases hk
  have fl : ∀ {k : Nat}, freeB w k = true → k < 10 := fun h => by simp only [freeB, Bool.and_eq_true, decide_eq_true_eq] at h; exact h.1
  cases op with
  | memory k a l =>
    simp only [legalB, Bool.and_eq_true] at h
    cases e; exact upd_small hw (fl h.1)
  | place k T a =>
    simp only [legalB, Bool.and_eq_true] at h
    simp only [exec, bind, Outcome.bind] at e
    split at e
    · cases e; exact upd_small hw (fl h.1.1.1)
    · cases e
    · cases e
  | placeSlice k T a n =>
    simp only [legalB, Bool.and_eq_true] at h
    simp only [exec, bind, Outcome.bind] at e
    split at e
    · cases e; exact upd_small hw (fl h.1.1.1)
    · cases e
    · cases e
  | zst k T =>
    simp only [legalB, Bool.and_eq_true] at h
    simp only [exec] at e
    split at e
    · cases e; exact upd_small hw (fl h.1)
    · cases e; exact hw
    · cases e
  | view k k' op =>
    simp only [legalB, Bool.and_eq_true] at h
    have hk' := fl h.1.2
    simp only [exec] at e
    split at e
    · rename_i hk
      split at e
      · cases e; exact upd_small hw (lt hk)
      · cases e; exact upd_small (upd_small hw (lt hk)) hk'
      · cases e
      · cases e; exact upd_small hw (lt hk)
      · cases e
    · cases e
  | deref k => simp only [exec] at e; split at e <;> cases e <;> exact hw
  | replace k val => simp only [exec] at e; split at e <;> cases e <;> exact hw
  | release k =>
    cases e
    intro j hj
    by_cases hjk : j = k
    · subst hjk; exact upd_self _ _ _
    · show upd _ _ _ j = none
      rw [upd_ne _ _ hjk]; exact hw j hj
  | remake k =>
    simp only [exec] at e
    split at e
    · rename_i hk
      simp only [bind, Outcome.bind] at e
      split at e
      · cases e; exact upd_small hw (lt hk)
      · cases e
      · cases e
    · cases e
  | write k val | init k val | read k | intoMut k | new k val | take k | intoRaw k | fromRaw k | leak k | drop k =>
    simp only [exec] at e
    split at e
    · rename_i hk
      cases e; exact upd_small hw (lt hk)
    · cases e

def safeB (bytes : Bool) (w : World) : List Op → Bool
  | [] => true
  | op :: ops => legalB w op && (!bytes || badSplitB w op) && (match exec .w64 exPanics w op with | .ret (_, w') => safeB bytes w' ops | _ => true)
theorem safeB_sound {w : World} (hw : small w) {ops : List Op} (h : safeB true w ops = true) : SafeRun (Permitted .w64 exMine) .w64 exPanics w ops := by
  induction ops generalizing w with
  | nil => trivial
  | cons op ops ih =>
    simp only [safeB, Bool.and_eq_true, Bool.not_true, Bool.false_or] at h
    refine ⟨⟨legalB_sound hw h.1.1, badSplitB_sound h.1.2⟩, fun r w' e => ih (small_step hw h.1.1 e) ?_⟩
    have := h.2
    rw [e] at this
    exact this
theorem legal_sound {w : World} (hw : small w) {ops : List Op} (h : safeB false w ops = true) : SafeRun (Legal .w64 exMine) .w64 exPanics w ops := by
  induction ops generalizing w with
  | nil => trivial
  | cons op ops ih =>
    simp only [safeB, Bool.and_eq_true] at h
    refine ⟨legalB_sound hw h.1.1, fun r w' e => ih (small_step hw h.1.1 e) ?_⟩
    have := h.2
    rw [e] at this
    exact this

def exM : Mem := fun _ => 77
theorem ex_safe : SafeRun (Permitted .w64 exMine) .w64 exPanics (World.init exM) exOps := safeB_sound (fun _ _ => rfl) (by decide +kernel)

/-- What is seen: a look at each value that is put somewhere, after other things were done; the second piece is not split by `split_cast` (it is all of the memory); the destructor of the value in variable 3 unwinds; values of size zero; and
`invent_for_zst` of a type that has a size panics. -/
def seen (ops : List Op) : Option (List Resp × List (Layout × List Byte)) := match run .w64 exPanics (World.init exM) ops with | .ret (rs, w) => some (rs, w.log) | _ => none
/-- The values that were read and handed out, and the destructors. -/
def values (ops : List Op) : Option (List (List Byte) × List (Layout × List Byte)) := (seen ops).map fun x => (x.1.filterMap fun r => match r with | .val v => some v | _ => none, x.2)

/-- Only functions that are not `unsafe`: memory from a slice of `MaybeUninit<u64>` is split in halves with `split_at_byte`, and each of them is used for a box. -/
def exBad : List Op :=
  [.placeSlice 0 u64T 4096 2, .view 0 9 .asMemory, .view 0 1 (.splitAtByte 8), .view 0 9 (.cast u64T), .view 1 9 (.cast u64T), .new 0 [1, 1, 1, 1, 1, 1, 1, 1], .new 1 [2, 2, 2, 2, 2, 2, 2, 2], .deref 0, .drop 0, .drop 1]

/-- **C91** is violated: there is a program that only does what Rust permits, without `unsafe`, in which a box has the value that was put into another one after; that value is dropped twice, the first one never. (`split_at_byte` of untyped memory
gives a second piece that starts where the first does.) -/
theorem C91_violated : SafeRun (Legal .w64 exMine) .w64 exPanics (World.init exM) exBad ∧
    values exBad = some ([[2, 2, 2, 2, 2, 2, 2, 2]], [(u64T, [2, 2, 2, 2, 2, 2, 2, 2]), (u64T, [2, 2, 2, 2, 2, 2, 2, 2])]) ∧ inputsOf exBad = [[1, 1, 1, 1, 1, 1, 1, 1], [2, 2, 2, 2, 2, 2, 2, 2]] := by
  refine ⟨legal_sound (fun _ _ => rfl) (by decide +kernel), by decide +kernel, by decide +kernel⟩

end Verif.BoxMem
