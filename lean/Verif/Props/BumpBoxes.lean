import Verif.Proofs.BumpBoxes
/-! # C83: boxes in a bump hold their values, on the bytes of the memory -/
namespace Verif.Unsync.BumpBoxes
open Verif Unsync

variable {t : Target} {b : MemBump} {panics : List Byte → Bool} {m : Mem}

/-- **C83** Every program, from memory with any contents (with a level that is not above the capacity): every statement has the answer that variables without any memory give, in particular what is read from a box is the value last put into that box, and the same
destructors run on the same values in the same order. An allocation fails exactly if there is no room behind the level. Bytes outside of the bump are not written. -/
theorem C83_refines (hv : b.Valid t) (hc : b.level t m ≤ b.cap) {ops : List Op} (hs : SafeRun t b panics (World.init m) ops) :
    ∃ w, run t b panics (World.init m) ops = .ret ((srun (b.slab t) panics ⟨b.level t m, [], []⟩ ops).1, w) ∧
      w.log = (srun (b.slab t) panics ⟨b.level t m, [], []⟩ ops).2.dropped ∧ ∀ z, ¬ (bumpRegion t b).Has z → w.mem z = m z := by
  obtain ⟨w, e, r⟩ := sim_run hv (wrel_init hc) hs
  exact ⟨w, e, r.log, r.outside⟩

/-- **C83** At any time the boxes (and the values leaked) are in the data of the bump, aligned for their type, and no two of them overlap. -/
theorem C83_places (hv : b.Valid t) (hc : b.level t m ≤ b.cap) {ops : List Op} (hs : SafeRun t b panics (World.init m) ops) {rs : List Resp} {w : World} (hx : run t b panics (World.init m) ops = .ret (rs, w)) :
    (∀ (k : Nat) (h : Handle), w.hs[k]? = some (some h) → h.region.Within ⟨b.addr + t.wordBytes, b.cap⟩ ∧ h.ty.layout.align ∣ h.addr) ∧
    ∀ (i j : Nat) (h g : Handle), i ≠ j → w.hs[i]? = some (some h) → w.hs[j]? = some (some g) → h.region.Disjoint g.region := by
  obtain ⟨w', e, r⟩ := sim_run hv (wrel_init hc) hs
  rw [hx] at e; cases e
  refine ⟨fun k h hk => ?_, r.apart⟩
  have := r.inside k h hk
  have := r.le
  exact ⟨by simp only [Region.Within, Handle.region]; omega, (r.inside k h hk).2.2.1⟩

/-- **C83** A box holds its value as long as it is not itself used to change or move it, whatever is done with the bump and other boxes. -/
theorem C83_value_kept (hv : b.Valid t) (hc : b.level t m ≤ b.cap) {before after : List Op} (hs : SafeRun t b panics (World.init m) (before ++ after)) {rs : List Resp} {w : World} (hx : run t b panics (World.init m) before = .ret (rs, w))
    {k : Nat} (hk : Permitted t w (.deref k)) {v : List Byte} (hd : exec t b panics w (.deref k) = .ret (.val v, w)) (hn : ∀ op ∈ after, NotUsed k op) :
    ∃ rs' w', run t b panics w after = .ret (rs', w') ∧ Permitted t w' (.deref k) ∧ exec t b panics w' (.deref k) = .ret (.val v, w') := by
  obtain ⟨s1, s2⟩ := safe_append hs
  obtain ⟨w1, e, r⟩ := sim_run hv (wrel_init hc) s1
  rw [hx] at e; cases e
  obtain ⟨w2, e2, r2⟩ := sim_run hv r (s2 _ _ hx)
  obtain ⟨x, hxk, hxu⟩ := sperm_of r hk
  obtain ⟨y, hy, h1, h2⟩ := kept_run (s := b.slab t) (panics := panics) hxk hxu hn
  have hval : x.val = v := by
    obtain ⟨w3, e3, -⟩ := sim_step (panics := panics) hv r hk
    rw [hd] at e3
    simp only [sexec, hxk] at e3
    cases e3; rfl
  have hp2 : Permitted t w2 (.deref k) := by
    have := r2.var k
    rw [hy] at this
    rcases hw : w2.hs[k]? with _ | _ | h
    · rw [hw] at this; exact this.elim
    · rw [hw] at this; exact this.elim
    · rw [hw] at this
      refine ⟨h, hw, ?_, trivial⟩
      have h3 : h.hold ≠ .uninit := by rw [← this.2.1]; exact h2
      cases hh : h.hold <;> simp_all
  refine ⟨_, w2, e2, hp2, ?_⟩
  obtain ⟨w3, e3, -⟩ := sim_step (panics := panics) hv r2 hp2
  have hww : w3 = w2 := by
    obtain ⟨h, hh, -⟩ := hp2
    simp only [exec, hh] at e3
    exact (Prod.ext_iff.mp (Outcome.ret.inj e3)).2.symm
  simp only [sexec, hy] at e3
  rw [e3, h1, hval, hww]

/-- **C83** If all types have destructors: whatever the program does, no value is dropped or handed out more often than it was moved in. -/
theorem C83_at_most_once (hv : b.Valid t) (hc : b.level t m ≤ b.cap) {ops : List Op} (hs : SafeRun t b panics (World.init m) ops) (ha : AllDrop ops) {rs : List Resp} {w : World}
    (hx : run t b panics (World.init m) ops = .ret (rs, w)) (v : List Byte) : (outputsOf ops rs).count v + w.log.count v ≤ (inputsOf ops rs).count v := by
  obtain ⟨w', e, r⟩ := sim_run hv (wrel_init hc) hs
  rw [hx] at e; cases e
  obtain ⟨lost, h1, -⟩ := balance_run (panics := panics) hv (wrel_init hc) hs (fun k x h => by simp at h) ha v
  rw [r.log]
  simp [heldCount] at h1
  omega

/-- **C83** And if nothing is left in variables, neither at the end nor when the bump is reset, then every value was dropped or handed out exactly as often as it was moved in. -/
theorem C83_exactly_once (hv : b.Valid t) (hc : b.level t m ≤ b.cap) {ops : List Op} (hs : SafeRun t b panics (World.init m) ops) (ha : AllDrop ops) {rs : List Resp} {w : World}
    (hx : run t b panics (World.init m) ops = .ret (rs, w)) (hend : ∀ o ∈ w.hs, o = none)
    (hres : ∀ pre post, ops = pre ++ .reset :: post → ∀ rs w', run t b panics (World.init m) pre = .ret (rs, w') → ∀ o ∈ w'.hs, o = none) :
    (outputsOf ops rs ++ w.log).Perm (inputsOf ops rs) := by
  rw [List.perm_iff_count]
  intro v
  obtain ⟨w', e, r⟩ := sim_run hv (wrel_init hc) hs
  rw [hx] at e; cases e
  obtain ⟨lost, h1, h2⟩ := balance_run (panics := panics) hv (wrel_init hc) hs (fun k x h => by simp at h) ha v
  rw [h2 hres] at h1
  have : heldCount (srun (b.slab t) panics ⟨b.level t m, [], []⟩ ops).2 v = 0 := by
    rw [heldCount, List.countP_eq_zero]
    intro o ho
    obtain ⟨k, hk⟩ := List.mem_iff_getElem?.mp ho
    have hvar := r.var k
    rw [hk] at hvar
    rcases hw : w.hs[k]? with _ | _ | h
    · rw [hw] at hvar; exact hvar.elim
    · rw [hw] at hvar; cases o with
      | none => simp [holds]
      | some x => exact hvar.elim
    · cases hend _ (List.mem_of_getElem? hw)
  rw [this] at h1
  rw [List.count_append, r.log]
  simp [heldCount] at h1
  omega

/-! A concrete program: two boxes, of which one is written in between, replaced, dropped; leaking, a full bump, a reset, and memory that is used again. -/
def exB : MemBump := ⟨4096, 16⟩
def exT : VType := ⟨⟨4, 4⟩, true⟩
def exP : VType := ⟨⟨8, 8⟩, false⟩
def exPanics (v : List Byte) : Bool := v == [9, 9, 9, 9]
def exOps : List Op :=
  [.bumpBox exT, .getBoxed exP [1, 2, 3, 4, 5, 6, 7, 8], .write 0 [1, 1, 1, 1], .deref 1, .replace 0 [9, 9, 9, 9], .bumpBox exP, .assign 0 [2, 2, 2, 2], .leak 1, .deref 1, .level, .drop 0, .fromRaw 1, .take 1,
   .reset, .getBoxed exT [3, 3, 3, 3], .bumpBox ⟨⟨0, 1⟩, true⟩, .drop 2, .level]
/-- Memory full of other data, with level zero. -/
def exM : Mem := fun z => if 4096 ≤ z ∧ z < 4104 then 0 else 77

def hasB (w : World) (k : Nat) (holds : List Hold) (size : Nat → Bool) : Bool :=
  match w.hs[k]? with
  | some (some h) => decide (h.hold ∈ holds) && size h.ty.layout.size
  | _ => false

def permittedB (w : World) : Op → Bool
  | .write k val => hasB w k [.uninit] (· = val.length)
  | .deref k => hasB w k [.boxed, .bare] (fun _ => true)
  | .replace k val | .assign k val => hasB w k [.boxed, .bare] (· = val.length)
  | .take k | .leak k | .intoRaw k => hasB w k [.boxed] (fun _ => true)
  | .fromRaw k => hasB w k [.bare] (fun _ => true)
  | .drop k => hasB w k [.boxed, .uninit] (fun _ => true)
  | .level => true
  | .reset => w.hs.all fun o => match o with | none => true | some h => decide (h.hold = .bare)
  | .bumpBox ty => decide (ty ∈ [exT, exP, ⟨⟨0, 1⟩, true⟩])
  | .getBoxed ty val => decide (ty ∈ [exT, exP, ⟨⟨0, 1⟩, true⟩]) && decide (val.length = ty.layout.size)

theorem hasB_sound {w : World} {k : Nat} {l : List Hold} {p : Nat → Bool} {q : Nat → Prop} (hpq : ∀ n, p n = true → q n) (h : hasB w k l p = true) : Has w k l q := by
  unfold hasB at h
  rcases hw : w.hs[k]? with _ | _ | g <;> rw [hw] at h
  · cases h
  · cases h
  · simp only [Bool.and_eq_true, decide_eq_true_eq] at h
    exact ⟨g, hw, h.1, hpq _ h.2⟩

theorem ex_valid {ty : VType} (h : ty ∈ [exT, exP, ⟨⟨0, 1⟩, true⟩]) : ty.layout.ValidType .w64 := by
  simp only [List.mem_cons, List.not_mem_nil, or_false] at h
  rcases h with rfl | rfl | rfl
  · exact ⟨⟨⟨2, rfl⟩, by decide⟩, by decide⟩
  · exact ⟨⟨⟨3, rfl⟩, by decide⟩, by decide⟩
  · exact ⟨⟨⟨0, rfl⟩, by decide⟩, by decide⟩

theorem permittedB_sound {w : World} {op : Op} (h : permittedB w op = true) : Permitted .w64 w op := by
  cases op with
  | bumpBox ty => exact ex_valid (by simpa [permittedB] using h)
  | getBoxed ty v => simp only [permittedB, Bool.and_eq_true, decide_eq_true_eq] at h; exact ⟨ex_valid h.1, h.2⟩
  | write k v => exact hasB_sound (p := (· = v.length)) (q := (· = v.length)) (by simp) (by simpa [permittedB] using h)
  | replace k v | assign k v => exact hasB_sound (p := (· = v.length)) (q := (· = v.length)) (by simp) (by simpa [permittedB] using h)
  | deref k | take k | leak k | intoRaw k | fromRaw k | drop k => exact hasB_sound (p := fun _ => true) (fun _ _ => trivial) (by simpa [permittedB] using h)
  | level => trivial
  | reset =>
    intro k g hk
    simp only [permittedB, List.all_eq_true] at h
    simpa using h _ (List.mem_of_getElem? hk)

def safeB (w : World) : List Op → Bool
  | [] => true
  | op :: ops => permittedB w op && (match exec .w64 exB exPanics w op with | .ret (_, w') => safeB w' ops | _ => true)

theorem safeB_sound {w : World} {ops : List Op} (h : safeB w ops = true) : SafeRun .w64 exB exPanics w ops := by
  induction ops generalizing w with
  | nil => trivial
  | cons op ops ih =>
    simp only [safeB, Bool.and_eq_true] at h
    refine ⟨permittedB_sound h.1, fun r w' e => ih ?_⟩
    have := h.2
    rw [e] at this
    exact this

theorem exB_valid : exB.Valid .w64 := ⟨by decide, by decide, by decide, by decide⟩
example : exB.level .w64 exM ≤ exB.cap := by decide +kernel
theorem ex_safe : SafeRun .w64 exB exPanics (World.init exM) exOps := safeB_sound (by decide +kernel)
/-- The answers: the second `bump_box` of 8 bytes finds no room (4 bytes, padding and 8 bytes are used), the assignment unwinds as the destructor of the old value does, the zero-sized request panics. -/
example : (match run .w64 exB exPanics (World.init exM) exOps with | .ret (rs, w) => some (rs, w.log) | _ => none) =
    some ([.made, .made, .unit, .val [1, 2, 3, 4, 5, 6, 7, 8], .val [1, 1, 1, 1], .err .exhausted, .unwound, .unit, .val [1, 2, 3, 4, 5, 6, 7, 8], .num 16, .unit, .unit, .val [1, 2, 3, 4, 5, 6, 7, 8],
      .unit, .made, .panicked, .unit, .num 4], [[9, 9, 9, 9], [2, 2, 2, 2], [3, 3, 3, 3]]) := by decide +kernel

/-- A program that only uses types with destructors and leaves nothing behind, which fulfils all hypotheses of `C83_exactly_once`. -/
def exDrop : List Op := [.bumpBox exT, .write 0 [1, 1, 1, 1], .getBoxed exT [2, 2, 2, 2], .intoRaw 0, .replace 0 [3, 3, 3, 3], .fromRaw 0, .drop 0, .take 1, .reset, .getBoxed exT [2, 2, 2, 2], .assign 2 [4, 4, 4, 4], .drop 2]
def allDropB (ops : List Op) : Bool := ops.all fun op => match op with | .bumpBox ty | .getBoxed ty _ => ty.needsDrop | _ => true
theorem allDropB_sound {ops : List Op} (h : allDropB ops = true) : AllDrop ops := by
  intro op hop ty hty
  have := List.all_eq_true.mp h op hop
  rcases hty with rfl | ⟨v, rfl⟩ <;> exact this
def emptyB (o : Outcome (List Resp × World)) : Bool := match o with | .ret (_, w) => w.hs.all (·.isNone) | _ => true
def resetsB (w : World) (ops : List Op) : Bool := (List.range ops.length).all fun n => if ops[n]? = some .reset then emptyB (run .w64 exB exPanics w (ops.take n)) else true
theorem emptyB_sound {o : Outcome (List Resp × World)} (h : emptyB o = true) {rs : List Resp} {w : World} (e : o = .ret (rs, w)) : ∀ x ∈ w.hs, x = none := by
  subst e
  intro x hx
  simpa using List.all_eq_true.mp h x hx
theorem resetsB_sound {w : World} {ops : List Op} (h : resetsB w ops = true) :
    ∀ pre post, ops = pre ++ .reset :: post → ∀ rs w', run .w64 exB exPanics w pre = .ret (rs, w') → ∀ o ∈ w'.hs, o = none := by
  rintro pre post rfl rs w' e
  have := List.all_eq_true.mp h pre.length (by simp)
  simp at this
  exact emptyB_sound this e
example : ∃ rs w, run .w64 exB exPanics (World.init exM) exDrop = .ret (rs, w) ∧ (outputsOf exDrop rs ++ w.log).Perm (inputsOf exDrop rs) ∧ w.log = [[3, 3, 3, 3], [2, 2, 2, 2], [4, 4, 4, 4]] := by
  have hs : SafeRun .w64 exB exPanics (World.init exM) exDrop := safeB_sound (by decide +kernel)
  have hc : exB.level .w64 exM ≤ exB.cap := by decide +kernel
  obtain ⟨w, e, hl, -⟩ := C83_refines exB_valid hc hs
  exact ⟨_, w, e, C83_exactly_once exB_valid hc hs (allDropB_sound (by decide)) e (emptyB_sound (by decide +kernel) e) (resetsB_sound (by decide +kernel)), by rw [hl]; decide +kernel⟩

end Verif.Unsync.BumpBoxes
