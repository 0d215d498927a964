import Verif.Proofs.FixedVecSim
import Verif.Proofs.FixedVecConserve
/-! # The values in terms of what the user sees -/
namespace Verif.FVec
open Verif Uninit

variable {V : Type} {t : Target} {T : Layout} {panics : V → Bool}

theorem polled_succ (it : Iter V) (n : Nat) : polled it (n + 1) = (it.poll it.pos).item?.toList ++ polled { it with pos := it.pos + 1 } n := by
  simp only [polled, List.range_succ_eq_map, List.filterMap_cons, Nat.add_zero, List.filterMap_map]
  have : (fun k => (it.poll (it.pos + 1 + k)).item?) = ((fun k => (it.poll (it.pos + k)).item?) ∘ Nat.succ : Nat → Option V) := by
    funext k
    simp only [Function.comp, show it.pos + 1 + k = it.pos + k.succ by omega]
  rw [this]
  cases it.poll it.pos <;> simp [Poll.item?]

theorem polled_append (it : Iter V) (n : Nat) : polled it (n + 1) = polled it n ++ (it.poll (it.pos + n)).item?.toList := by
  simp only [polled, List.range_succ, List.filterMap_append, List.filterMap_cons, List.filterMap_nil]
  cases it.poll (it.pos + n) <;> rfl

theorem takeItems_polled (it : Iter V) (n : Nat) : (takeItems it.poll it.pos n).1 = polled it (takeItems it.poll it.pos n).2.1 := by
  induction n generalizing it with
  | zero => rfl
  | succ n ih =>
    simp only [takeItems]
    cases hp : it.poll it.pos with
    | done => simp [polled_succ, hp, Poll.item?]; rfl
    | panic => simp [polled_succ, hp, Poll.item?]; rfl
    | item v =>
      simp only
      rw [polled_succ, hp]
      have := ih { it with pos := it.pos + 1 }
      simp only at this
      simp [← this, Poll.item?]

theorem vec_trace (w : SWorld V) (i : Nat) (e : SVec V) (op : Op V) (h : ¬ op.OnDrain) :
    (sexecVec t T panics w i e op).2.taken = w.taken ++ inputs op (sexecVec t T panics w i e op).1 ∧
      (sexecVec t T panics w i e op).2.handed = w.handed ++ outputs op (sexecVec t T panics w i e op).1 := by
  cases op with
  | push k v => simp only [sexecVec]; split <;> simp [inputs, outputs, SWorld.set]
  | pop k => simp only [sexecVec]; cases e.items.getLast? <;> simp [inputs, outputs, SWorld.set]
  | truncate k n => simp [sexecVec, inputs, outputs, SWorld.set]
  | clear k => simp [sexecVec, inputs, outputs, SWorld.set]
  | fill k it =>
    have := takeItems_polled it (e.cap - e.items.length)
    simp only [sexecVec]
    split <;> simp [inputs, outputs, SWorld.set, this]
  | extend k it =>
    have := takeItems_polled it (e.cap - e.items.length)
    simp only [sexecVec]
    split
    · simp [inputs, outputs, SWorld.set, this]
    · have h2 := polled_append it (takeItems it.poll it.pos (e.cap - e.items.length)).2.1
      cases hp : it.poll (it.pos + (takeItems it.poll it.pos (e.cap - e.items.length)).2.1) with
      | done => rw [hp] at h2; simp [inputs, outputs, SWorld.set, h2, this, Poll.item?]
      | panic => rw [hp] at h2; simp [inputs, outputs, SWorld.set, h2, this, Poll.item?]
      | item v => rw [hp] at h2; simp only; split <;> simp [inputs, outputs, SWorld.set, h2, this, Poll.item?]
  | setLen k vs n => simp [sexecVec, inputs, outputs, SWorld.set]
  | len k => simp [sexecVec, inputs, outputs]
  | capacity k => simp [sexecVec, inputs, outputs]
  | isEmpty k => simp [sexecVec, inputs, outputs]
  | slice k => simp [sexecVec, inputs, outputs]
  | index k n => simp only [sexecVec]; split <;> simp [inputs, outputs]
  | replace k n v => simp only [sexecVec]; split <;> (try split) <;> simp [inputs, outputs, SWorld.set]
  | splitBorrowed k n => simp only [sexecVec]; split <;> simp [inputs, outputs, SWorld.set]
  | splitShrink k n => simp only [sexecVec]; split <;> simp [inputs, outputs, SWorld.set]
  | shrinkToFit k => simp [sexecVec, inputs, outputs]
  | drain k lo hi => simp only [sexecVec]; split <;> simp [inputs, outputs, SWorld.set]
  | drop k => simp [sexecVec, inputs, outputs, SWorld.set]
  | forget k => simp [sexecVec, inputs, outputs, SWorld.set]
  | new a l => simp [sexecVec, inputs, outputs]
  | _ => exact absurd trivial h

theorem drain_trace (w : SWorld V) (i : Nat) (e : SVec V) (d : SDrain V) (op : Op V) (h : op.OnDrain) :
    (sexecDrain panics w i e d op).2.taken = w.taken ++ inputs op (sexecDrain panics w i e d op).1 ∧
      (sexecDrain panics w i e d op).2.handed = w.handed ++ outputs op (sexecDrain panics w i e d op).1 := by
  cases op with
  | next k => simp only [sexecDrain]; cases d.rest.head? <;> simp [inputs, outputs, SWorld.set]
  | nextBack k => simp only [sexecDrain]; cases d.rest.getLast? <;> simp [inputs, outputs, SWorld.set]
  | drainLen k => simp [sexecDrain, inputs, outputs]
  | drainSlice k => simp [sexecDrain, inputs, outputs]
  | drainReplace k n v => simp only [sexecDrain]; split <;> (try split) <;> simp [inputs, outputs, SWorld.set]
  | dropDrain k => simp only [sexecDrain]; split <;> simp [inputs, outputs, SWorld.set]
  | forgetDrain k => simp [sexecDrain, inputs, outputs, SWorld.set]
  | _ => exact absurd h (by simp [Op.OnDrain])

theorem step_trace {w : World V} {sw : SWorld V} (r : WRel t T w sw) {op : Op V} (hp : Permitted t T w op) :
    (sexec t T panics sw op).2.taken = sw.taken ++ inputs op (sexec t T panics sw op).1 ∧ (sexec t T panics sw op).2.handed = sw.handed ++ outputs op (sexec t T panics sw op).1 := by
  cases op with
  | new a l => simp [sexec, inputs, outputs, SWorld.set]
  | setLen i vs n =>
    obtain ⟨e, he, hfree, hd, _⟩ := hp
    obtain ⟨se, hs, hr⟩ := r.get he
    simp only [sexec, Op.target, hs, Option.bind_some, Option.map_some, hr.none_of hd]
    exact vec_trace _ _ _ _ (by simp [Op.OnDrain])
  | _ =>
    obtain ⟨i, e, ht, he, hfree, hdr⟩ := hp
    obtain ⟨se, hs, hr⟩ := r.get he
    simp only [Op.target, Option.some.injEq] at ht
    subst ht
    simp only [sexec, Op.target, hs, Option.bind_some, Option.map_some]
    cases hd : e.drain with
    | none =>
      simp only [hr.none_of hd]
      exact vec_trace _ _ _ _ (by rw [hdr, hd]; simp)
    | some d =>
      obtain ⟨sd, hsd, _⟩ := hr.some_of hd
      simp only [hsd]
      exact drain_trace _ _ _ _ _ (by rw [hdr, hd]; rfl)

theorem run_trace {checks : Bool} (hT : T.ValidType t) (hz : T.size = 0 → Subsingleton V) {w : World V} {sw : SWorld V} (r : WRel t T w sw) {ops : List (Op V)} (hs : SafeRun t T checks panics w ops) :
    (srun t T panics sw ops).2.taken = sw.taken ++ inputsOf ops (srun t T panics sw ops).1 ∧
      (srun t T panics sw ops).2.handed = sw.handed ++ outputsOf ops (srun t T panics sw ops).1 := by
  induction ops generalizing w sw with
  | nil => simp [srun, inputsOf, outputsOf]
  | cons op ops ih =>
    obtain ⟨hp, hN, hs⟩ := hs
    obtain ⟨w1, e1, r1⟩ := sim_step (checks := checks) (panics := panics) hT hz r hp hN
    have hs' := hs _ _ e1
    have h1 := step_trace (panics := panics) r hp
    have h2 := ih r1 hs'
    simp only [srun]
    generalize sexec t T panics sw op = R at h1 h2
    obtain ⟨rr, sw1⟩ := R
    simp only at h1 h2
    cases rr with
    | abort n => simp [inputsOf, outputsOf, h1.1, h1.2]
    | _ =>
      simp only [inputsOf, outputsOf, List.zip_cons_cons, List.flatMap_cons] at h2 ⊢
      rw [h2.1, h2.2, h1.1, h1.2]
      simp

/-- Nothing is lost without panics and `forget`. -/
theorem step_leaked (hpk : ∀ v, panics v = false) (w : SWorld V) (op : Op V) (hf : op.NoForget) : (sexec t T panics w op).2.leaked = w.leaked := by
  have h1 : ∀ xs : List V, dropUntil panics xs = (xs, false) := by
    intro xs
    induction xs with
    | nil => rfl
    | cons x xs ih => simp [dropUntil, hpk, ih]
  have h2 : ∀ xs : List V, dropAll panics false xs = (xs, .ok) := by
    intro xs
    induction xs with
    | nil => rfl
    | cons x xs ih => simp [dropAll, hpk, ih]
  have hv : ∀ i (e : SVec V), (sexecVec t T panics w i e op).2.leaked = w.leaked := by
    intro i e
    cases op with
    | drop k => simp [sexecVec, h2, SWorld.set]
    | forget k => exact hf.elim
    | setLen k vs n => exact hf.elim
    | push k v => simp only [sexecVec]; split <;> rfl
    | extend k it => simp only [sexecVec]; split; rfl; split <;> rfl
    | index k n => simp only [sexecVec]; split <;> rfl
    | replace k n v => simp only [sexecVec]; split <;> rfl
    | splitBorrowed k n => simp only [sexecVec]; split <;> rfl
    | splitShrink k n => simp only [sexecVec]; split <;> rfl
    | drain k lo hi => simp only [sexecVec]; split <;> rfl
    | _ => rfl
  have hd : ∀ i (e : SVec V) d, (sexecDrain panics w i e d op).2.leaked = w.leaked := by
    intro i e d
    cases op with
    | dropDrain k => simp [sexecDrain, h1, SWorld.set]
    | drainReplace k n v => simp only [sexecDrain]; split <;> rfl
    | forgetDrain k => exact hf.elim
    | _ => rfl
  cases op with
  | new a l => rfl
  | _ =>
    simp only [sexec]
    split
    · rfl
    · split
      · exact hv _ _
      · exact hd _ _ _

theorem run_leaked (hpk : ∀ v, panics v = false) (w : SWorld V) (ops : List (Op V)) (hf : ∀ op ∈ ops, op.NoForget) : (srun t T panics w ops).2.leaked = w.leaked := by
  induction ops generalizing w with
  | nil => rfl
  | cons op ops ih =>
    have h1 := step_leaked (t := t) (T := T) hpk w op (hf op (by simp))
    have h2 := ih (sexec t T panics w op).2 (fun o ho => hf o (by simp [ho]))
    simp only [srun]
    generalize sexec t T panics w op = R at h1 h2
    obtain ⟨rr, sw1⟩ := R
    cases rr with
    | abort n => exact h1
    | _ => exact h2.trans h1

theorem wrel_init (mem : Nat → Option V) : WRel t T (World.init mem) (SWorld.init : SWorld V) :=
  ⟨rfl, rfl, fun _ => trivial, fun i e h => (by cases h), fun i j e f _ h => (by cases h)⟩

end Verif.FVec
