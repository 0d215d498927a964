import Verif.Proofs.Rc
import Verif.Proofs.FixedVecConserve
/-! # Where the values are -/
namespace Verif.RcM
open Verif

variable {V : Type} {t : Target} {checks : Bool} {w : World V} {sw : SWorld V}

theorem block_of (r : WRel w sw) {k : HKind} {h : Nat} (hu : Usable w.hs k h) : ∃ a, sw.hs[h]? = some (some ⟨k, a, false⟩) ∧ w.hs[h]? = some (some ⟨k, a, false⟩) ∧ blockOf sw.hs h = some a := by
  obtain ⟨a, hx⟩ := hu
  have hx' := hx
  rw [r.hs] at hx'
  exact ⟨a, hx', hx, usable_of hx'⟩

theorem raw_of (r : WRel w sw) {a : Nat} (ho : w.owner a = .raw) : ∃ v, sw.cells a = .raw v := by
  have hc := r.cells a
  cases hcc : sw.cells a with
  | free => rw [hcc, ho] at hc; cases hc.1
  | live v => rw [hcc, ho] at hc; cases hc.1
  | dead => rw [hcc, ho] at hc; cases hc.1
  | raw old => exact ⟨old, rfl⟩

theorem free_of (r : WRel w sw) {a : Nat} (ho : w.owner a = .user) : sw.cells a = .free := by
  have hc := r.cells a
  cases hcc : sw.cells a with
  | free => rfl
  | live v => rw [hcc, ho] at hc; cases hc.1
  | dead => rw [hcc, ho] at hc; cases hc.1
  | raw old => rw [hcc, ho] at hc; cases hc.1

theorem step_trace (r : WRel w sw) {op : Op V} (hp : Permitted w op) :
    (sexec sw op).2.taken = sw.taken ++ inputs op (sexec sw op).1 ∧ (sexec sw op).2.handed = sw.handed ++ outputs op (sexec sw op).1 := by
  cases op with
  | new a v => simp [sexec, inputs, outputs, SWorld.add, SWorld.set]
  | clone h => obtain ⟨a, _, _, e⟩ := block_of r hp; simp [sexec, e, inputs, outputs, SWorld.add]
  | downgrade h => obtain ⟨a, _, _, e⟩ := block_of r hp; simp [sexec, e, inputs, outputs, SWorld.add]
  | cloneWeak h => obtain ⟨a, _, _, e⟩ := block_of r hp; simp [sexec, e, inputs, outputs, SWorld.add]
  | upgrade h => obtain ⟨a, _, _, e⟩ := block_of r hp; simp only [sexec, e]; split <;> simp [inputs, outputs, SWorld.add]
  | dropRc h =>
    obtain ⟨a, _, hx, e⟩ := block_of r hp
    obtain ⟨v, hc, _⟩ := live_of r hx
    simp only [sexec, e, hc]; split <;> simp [inputs, outputs, SWorld.kill, SWorld.set]
  | dropWeak h => simp [sexec, inputs, outputs, SWorld.kill]
  | tryUnwrap h =>
    obtain ⟨a, _, hx, e⟩ := block_of r hp
    obtain ⟨v, hc, _⟩ := live_of r hx
    simp only [sexec, e, hc]; split <;> simp [inputs, outputs, SWorld.kill, SWorld.set, SWorld.add]
  | weakTryUnwrap h => obtain ⟨a, _, _, e⟩ := block_of r hp; simp only [sexec, e]; split <;> simp [inputs, outputs, SWorld.kill, SWorld.set]
  | intoRaw h =>
    obtain ⟨a, _, hx, e⟩ := block_of r hp
    obtain ⟨v, hc, _⟩ := live_of r hx
    simp only [sexec, e, hc]; split <;> simp [inputs, outputs, SWorld.kill, SWorld.set]
  | fromRaw a => obtain ⟨v, hc⟩ := raw_of r hp; simp [sexec, hc, inputs, outputs, SWorld.add, SWorld.set]
  | rawReplace a v => obtain ⟨v, hc⟩ := raw_of r hp; simp [sexec, hc, inputs, outputs, SWorld.set]
  | rawTake a => obtain ⟨v, hc⟩ := raw_of r hp; simp [sexec, hc, inputs, outputs, SWorld.set]
  | replace h v =>
    obtain ⟨a, _, hx, e⟩ := block_of r hp
    obtain ⟨v, hc, _⟩ := live_of r hx
    simp only [sexec, e, hc]; split <;> simp [inputs, outputs, SWorld.set]
  | deref h =>
    obtain ⟨a, _, hx, e⟩ := block_of r hp
    obtain ⟨v, hc, _⟩ := live_of r hx
    simp [sexec, e, hc, inputs, outputs]
  | strongCount h => simp only [sexec]; split <;> simp [inputs, outputs]
  | weakCount h => simp only [sexec]; split <;> simp [inputs, outputs]
  | ptrEq h h' => simp [sexec, inputs, outputs]
  | forget h => simp only [sexec]; split <;> simp [inputs, outputs]
  | scribble a b => simp [sexec, inputs, outputs]
  | endDrop => simp [sexec, inputs, outputs]

theorem run_trace (r : WRel w sw) {ops : List (Op V)} (hs : SafeRun t checks w ops) :
    (srun sw ops).2.taken = sw.taken ++ inputsOf ops (srun sw ops).1 ∧ (srun sw ops).2.handed = sw.handed ++ outputsOf ops (srun sw ops).1 := by
  induction ops generalizing w sw with
  | nil => simp [srun, inputsOf, outputsOf]
  | cons op ops ih =>
    obtain ⟨hp, hN, hs⟩ := hs
    obtain ⟨w1, e1, r1⟩ := sim_step (t := t) (checks := checks) r hp hN
    have h1 := step_trace r hp
    have h2 := ih r1 (hs _ _ e1)
    simp only [srun, inputsOf, outputsOf, List.zip_cons_cons, List.flatMap_cons] at h2 ⊢
    rw [h2.1, h2.2, h1.1, h1.2]
    simp

def valueAt : Cell V → List V
  | .live v | .raw v => [v]
  | _ => []

/-- The values in the first `N` blocks. -/
def stored (N : Nat) (sw : SWorld V) : List V := (List.range N).flatMap fun a => valueAt (sw.cells a)

variable [DecidableEq V]

def Conserve (N : Nat) (sw : SWorld V) : Prop := ∀ v, sw.taken.count v = sw.handed.count v + sw.dropped.count v + (stored N sw).count v

theorem count_stored {N : Nat} {sw sw' : SWorld V} {a : Nat} (ha : a < N) (h : ∀ b, b ≠ a → sw'.cells b = sw.cells b) (v : V) :
    (stored N sw').count v + (valueAt (sw.cells a)).count v = (stored N sw).count v + (valueAt (sw'.cells a)).count v :=
  FVec.count_flatMap_update (f := fun a => valueAt (sw'.cells a)) (g := fun a => valueAt (sw.cells a)) (fun j hj => by simp only [h j hj]) N ha

theorem stored_same {N : Nat} {sw sw' : SWorld V} (h : sw'.cells = sw.cells) : stored N sw' = stored N sw := by simp only [stored, h]

/-- The block a call puts a value into. -/
def Below (N : Nat) : Op V → Prop
  | .new a _ => a < N
  | _ => True

theorem step_conserve {N : Nat} (r : WRel w sw) (hN : ∀ a, N ≤ a → sw.cells a = .free) {op : Op V} (hp : Permitted w op) (hb : Below N op) (hc : Conserve N sw) :
    Conserve N (sexec sw op).2 ∧ ∀ a, N ≤ a → (sexec sw op).2.cells a = .free := by
  have lt_of : ∀ {a : Nat}, sw.cells a ≠ .free → a < N := fun {a} h => Nat.lt_of_not_le fun hle => h (hN a hle)
  have same : ∀ sw' : SWorld V, sw'.cells = sw.cells → sw'.taken = sw.taken → sw'.handed = sw.handed → sw'.dropped = sw.dropped → Conserve N sw' ∧ ∀ a, N ≤ a → sw'.cells a = .free := by
    intro sw' h1 h2 h3 h4
    exact ⟨fun v => by rw [h2, h3, h4, stored_same h1]; exact hc v, fun a ha => by rw [h1]; exact hN a ha⟩
  have upd : ∀ (sw' : SWorld V) (a : Nat), a < N → (∀ b, b ≠ a → sw'.cells b = sw.cells b) →
      (∀ v, sw'.taken.count v + (sw.handed.count v + sw.dropped.count v + (valueAt (sw.cells a)).count v) = sw.taken.count v + (sw'.handed.count v + sw'.dropped.count v + (valueAt (sw'.cells a)).count v)) →
      Conserve N sw' ∧ ∀ a, N ≤ a → sw'.cells a = .free := by
    intro sw' a ha h1 h2
    refine ⟨fun v => ?_, fun b hb => by rw [h1 b (by omega)]; exact hN b hb⟩
    have := count_stored ha h1 v
    have := hc v
    have := h2 v
    omega
  cases op with
  | new a v =>
    have hf := free_of r hp
    refine upd _ a hb (fun b hb => if_neg hb) fun u => ?_
    simp only [sexec, SWorld.set, SWorld.add, if_true, hf, valueAt, List.count_append, List.count_nil]
    omega
  | clone h => obtain ⟨a, _, _, e⟩ := block_of r hp; simp only [sexec, e]; exact same _ rfl rfl rfl rfl
  | downgrade h => obtain ⟨a, _, _, e⟩ := block_of r hp; simp only [sexec, e]; exact same _ rfl rfl rfl rfl
  | cloneWeak h => obtain ⟨a, _, _, e⟩ := block_of r hp; simp only [sexec, e]; exact same _ rfl rfl rfl rfl
  | upgrade h => obtain ⟨a, _, _, e⟩ := block_of r hp; simp only [sexec, e]; split <;> exact same _ rfl rfl rfl rfl
  | dropRc h =>
    obtain ⟨a, _, hx, e⟩ := block_of r hp
    obtain ⟨v, hl, _⟩ := live_of r hx
    simp only [sexec, e, hl]
    split
    · refine upd _ a (lt_of (by simp [hl])) (fun b hb => if_neg hb) fun u => ?_
      simp only [SWorld.set, SWorld.kill, if_true, hl, valueAt, List.count_append, List.count_nil]
      omega
    · exact same _ rfl rfl rfl rfl
  | dropWeak h => exact same _ rfl rfl rfl rfl
  | tryUnwrap h =>
    obtain ⟨a, _, hx, e⟩ := block_of r hp
    obtain ⟨v, hl, _⟩ := live_of r hx
    simp only [sexec, e, hl]
    split
    · refine upd _ a (lt_of (by simp [hl])) (fun b hb => if_neg hb) fun u => ?_
      simp only [SWorld.set, SWorld.kill, SWorld.add, if_true, hl, valueAt, List.count_append, List.count_nil]
      omega
    · exact same _ rfl rfl rfl rfl
  | weakTryUnwrap h =>
    obtain ⟨a, _, hx, e⟩ := block_of r hp
    obtain ⟨_, _, _, _, hcc⟩ := weak_of r hx
    simp only [sexec, e]
    split
    · rename_i hu
      rw [← r.hs] at hu
      have hd : sw.cells a = .dead := by
        rcases hcc with ⟨v, _, h0⟩ | ⟨hd, _⟩
        · omega
        · exact hd
      refine upd _ a (lt_of (by simp [hd])) (fun b hb => if_neg hb) fun u => ?_
      simp only [SWorld.set, SWorld.kill, if_true, hd, valueAt, List.count_nil]
    · exact same _ rfl rfl rfl rfl
  | intoRaw h =>
    obtain ⟨a, _, hx, e⟩ := block_of r hp
    obtain ⟨v, hl, _⟩ := live_of r hx
    simp only [sexec, e, hl]
    split
    · refine upd _ a (lt_of (by simp [hl])) (fun b hb => if_neg hb) fun u => ?_
      simp only [SWorld.set, SWorld.kill, if_true, hl, valueAt]
    · exact same _ rfl rfl rfl rfl
  | fromRaw a =>
    obtain ⟨v, hl⟩ := raw_of r hp
    simp only [sexec, hl]
    refine upd _ a (lt_of (by simp [hl])) (fun b hb => if_neg hb) fun u => ?_
    simp only [SWorld.set, SWorld.add, if_true, hl, valueAt]
  | rawReplace a v =>
    obtain ⟨old, hl⟩ := raw_of r hp
    simp only [sexec, hl]
    refine upd _ a (lt_of (by simp [hl])) (fun b hb => if_neg hb) fun u => ?_
    simp only [SWorld.set, if_true, hl, valueAt, List.count_append]
    omega
  | rawTake a =>
    obtain ⟨old, hl⟩ := raw_of r hp
    simp only [sexec, hl]
    refine upd _ a (lt_of (by simp [hl])) (fun b hb => if_neg hb) fun u => ?_
    simp only [SWorld.set, if_true, hl, valueAt, List.count_append, List.count_nil]
    omega
  | replace h v =>
    obtain ⟨a, _, hx, e⟩ := block_of r hp
    obtain ⟨old, hl, _⟩ := live_of r hx
    simp only [sexec, e, hl]
    split
    · refine upd _ a (lt_of (by simp [hl])) (fun b hb => if_neg hb) fun u => ?_
      simp only [SWorld.set, if_true, hl, valueAt, List.count_append]
      omega
    · exact same _ rfl rfl rfl rfl
  | deref h =>
    obtain ⟨a, _, hx, e⟩ := block_of r hp
    obtain ⟨v, hl, _⟩ := live_of r hx
    simp only [sexec, e, hl]
    exact same _ rfl rfl rfl rfl
  | strongCount h => simp only [sexec]; split <;> exact same _ rfl rfl rfl rfl
  | weakCount h => simp only [sexec]; split <;> exact same _ rfl rfl rfl rfl
  | ptrEq h h' => exact same _ rfl rfl rfl rfl
  | forget h => simp only [sexec]; split <;> exact same _ rfl rfl rfl rfl
  | scribble a b => exact same _ rfl rfl rfl rfl
  | endDrop => exact same _ rfl rfl rfl rfl

theorem run_conserve {N : Nat} (r : WRel w sw) (hN : ∀ a, N ≤ a → sw.cells a = .free) {ops : List (Op V)} (hb : ∀ op ∈ ops, Below N op) (hc : Conserve N sw) (hs : SafeRun t checks w ops) :
    Conserve N (srun sw ops).2 := by
  induction ops generalizing w sw with
  | nil => exact hc
  | cons op ops ih =>
    obtain ⟨hp, hNo, hs⟩ := hs
    obtain ⟨w1, e1, r1⟩ := sim_step (t := t) (checks := checks) r hp hNo
    obtain ⟨h1, h2⟩ := step_conserve r hN hp (hb op (by simp)) hc
    exact ih r1 h2 (fun o ho => hb o (by simp [ho])) h1 (hs _ _ e1)

theorem bound_exists (ops : List (Op V)) : ∃ N, ∀ op ∈ ops, Below N op := by
  induction ops with
  | nil => exact ⟨0, by simp⟩
  | cons op ops ih =>
    obtain ⟨N, hN⟩ := ih
    have mono : ∀ M, N ≤ M → ∀ op ∈ ops, Below M op := by
      intro M hM o ho
      have := hN o ho
      cases o <;> simp only [Below] at * <;> omega
    cases op with
    | new a v =>
      refine ⟨max N (a + 1), fun o ho => ?_⟩
      rcases List.mem_cons.mp ho with rfl | ho
      · simp only [Below]; omega
      · exact mono _ (by omega) o ho
    | _ =>
      refine ⟨N, fun o ho => ?_⟩
      rcases List.mem_cons.mp ho with rfl | ho
      · trivial
      · exact hN o ho

/-- Every value that was moved in was moved out, was dropped, or is in a block. -/
theorem values_spec {mem : Nat → RcBox V} {ops : List (Op V)} {rs : List (Resp V)} {w : World V} (hs : SafeRun t checks (World.init mem) ops) (hr : run t checks (World.init mem) ops = .ret (rs, w)) :
    ∃ (N : Nat) (sw : SWorld V), WRel w sw ∧ (∀ v, (inputsOf ops rs).count v = (outputsOf ops rs).count v + w.log.count v + (stored N sw).count v) := by
  obtain ⟨N, hN⟩ := bound_exists ops
  obtain ⟨w', e, r⟩ := sim_run (wrel_init mem) hs
  rw [hr] at e
  obtain ⟨e1, e2⟩ := Prod.mk.inj (Outcome.ret.inj e)
  subst e2
  have h1 := run_trace (wrel_init mem) hs
  have h2 := run_conserve (N := N) (wrel_init mem) (fun _ _ => rfl) hN (fun v => by
    have : stored N (SWorld.init : SWorld V) = [] := by simp [stored, SWorld.init, valueAt]
    rw [this]; rfl) hs
  refine ⟨N, _, r, fun v => ?_⟩
  have := h2 v
  rw [h1.1, h1.2, ← r.log, ← e1] at this
  simpa [SWorld.init] using this

end Verif.RcM
