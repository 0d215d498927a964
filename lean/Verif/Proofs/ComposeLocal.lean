import Verif.Proofs.ComposeInst
/-!
# Calls that are permitted alone are permitted in a program with others, and vice versa

What a structure is, and hence which calls are permitted, depends on its own bytes only: two runs with the same calls, in memories that agree on these bytes, stay twins whatever is done to the other bytes of one of them.
-/
set_option autoImplicit false
namespace Verif.Compose
open Verif

/-- Twins permit the same calls, answer alike and stay twins, also if bytes that are not their own change in the memory of the second one. -/
def Machine.LocalBy (M : Machine) (Twin : M.St → Mem → M.St → Mem → Prop) : Prop :=
  (∀ m, M.ready m → Twin M.start m M.start m) ∧
  (∀ s m s' m' op, Twin s m s' m' → (M.permitted s m op ↔ M.permitted s' m' op)) ∧
  (∀ s m s' m' op, Twin s m s' m' → M.permitted s m op →
    ∃ r s1 m1 s1' m1', M.exec s m op = some (r, s1, m1) ∧ M.exec s' m' op = some (r, s1', m1') ∧ (M.halts r = false → Twin s1 m1 s1' m1') ∧ ∀ x, ¬ M.own x → m1' x = m' x) ∧
  (∀ s m s' m' m'', Twin s m s' m' → (∀ x, M.own x → m'' x = m' x) → Twin s m s' m'')
def Machine.Local (M : Machine) : Prop := ∃ Twin : M.St → Mem → M.St → Mem → Prop, M.LocalBy Twin

/-- It is enough if the specification knows which calls are permitted. -/
theorem Machine.SoundBy.local {M : Machine} {Rel : M.St → Mem → M.Sp → Prop} (h : M.SoundBy Rel)
    (hp : ∀ s m s' m' sp op, Rel s m sp → Rel s' m' sp → M.permitted s m op → M.permitted s' m' op) : M.Local := by
  obtain ⟨h1, h2, h3⟩ := h
  refine ⟨fun s m s' m' => ∃ sp, Rel s m sp ∧ Rel s' m' sp, fun m hm => ⟨_, h1 m hm, h1 m hm⟩, fun s m s' m' op ⟨sp, r, r'⟩ => ⟨hp _ _ _ _ _ _ r r', hp _ _ _ _ _ _ r' r⟩,
    fun s m s' m' op ⟨sp, r, r'⟩ hperm => ?_, fun s m s' m' m'' ⟨sp, r, r'⟩ hx => ⟨sp, r, h3 _ _ _ _ r' hx⟩⟩
  obtain ⟨s1, m1, e, hr, -⟩ := h2 _ _ _ _ r hperm
  obtain ⟨s1', m1', e', hr', ho⟩ := h2 _ _ _ _ r' (hp _ _ _ _ _ _ r r' hperm)
  exact ⟨_, s1, m1, s1', m1', e, e', fun hh => ⟨_, hr hh, hr' hh⟩, ho⟩

/-- Twins give the same answers. -/
theorem Machine.Local.run_same {M : Machine} (h : M.Local) {m m' : Mem} (hm : M.ready m) (hown : ∀ x, M.own x → m' x = m x) {ops : List M.Op} (hs : M.SafeRun M.start m ops) :
    ∃ rs s1 m1 s1' m1', M.run M.start m ops = some (rs, s1, m1) ∧ M.run M.start m' ops = some (rs, s1', m1') := by
  obtain ⟨Twin, h1, -, h3, h4⟩ := h
  have key : ∀ (ops : List M.Op) (s s' : M.St) (m m' : Mem), Twin s m s' m' → M.SafeRun s m ops → ∃ rs s1 m1 s1' m1', M.run s m ops = some (rs, s1, m1) ∧ M.run s' m' ops = some (rs, s1', m1') := by
    intro ops
    induction ops with
    | nil => intro s s' m m' _ _; exact ⟨[], s, m, s', m', rfl, rfl⟩
    | cons op ops ih =>
      intro s s' m m' ht hs
      obtain ⟨r, s1, m1, s1', m1', e, e', htw, -⟩ := h3 _ _ _ _ _ ht hs.1
      cases hh : M.halts r with
      | true => exact ⟨[r], s1, m1, s1', m1', by simp [Machine.run, e, hh], by simp [Machine.run, e', hh]⟩
      | false =>
        obtain ⟨rs, s2, m2, s2', m2', f, f'⟩ := ih _ _ _ _ (htw hh) (hs.2 _ _ _ e hh)
        exact ⟨r :: rs, s2, m2, s2', m2', by simp [Machine.run, e, hh, f], by simp [Machine.run, e', hh, f']⟩
  exact key ops _ _ _ _ (h4 _ _ _ _ _ (h1 m hm) hown) hs

section
variable {ι : Type} [DecidableEq ι] {M : ι → Machine}

/-- If the program of each is permitted when it is alone then all together are. -/
theorem safe_of_alone (hL : ∀ i, (M i).Local) (ha : Apart M) {m : Mem} {ma : ι → Mem} (hm : ∀ i, (M i).ready (ma i)) (hma : ∀ i x, (M i).own x → ma i x = m x)
    {ops : List (Σ i, (M i).Op)} (hs : ∀ i, (M i).SafeRun (M i).start (ma i) (only i ops)) : SafeRun M (start M) m ops := by
  have hL : ∀ i, ∃ Twin : (M i).St → Mem → (M i).St → Mem → Prop, _ := hL
  let Twin := fun i => Classical.choose (hL i)
  have hT := fun i => Classical.choose_spec (hL i)
  have key : ∀ (ops : List (Σ i, (M i).Op)) (v w : Vars M) (m : Mem) (ma : ι → Mem), (∀ i, Twin i (w i) (ma i) (v i) m) → (∀ i, (M i).SafeRun (w i) (ma i) (only i ops)) → SafeRun M v m ops := by
    intro ops
    induction ops with
    | nil => intro _ _ _ _ _ _; trivial
    | cons o ops ih =>
      obtain ⟨i, op⟩ := o
      intro v w m ma ht hs
      have hi := hs i
      rw [only_cons_self] at hi
      have hp := ((hT i).2.1 _ _ _ _ _ (ht i)).mp hi.1
      refine ⟨hp, fun r s m' e hh => ?_⟩
      obtain ⟨r0, s1, m1, s1', m1', e1, e1', htw, ho⟩ := (hT i).2.2.1 _ _ _ _ _ (ht i) hi.1
      rw [e] at e1'
      cases e1'
      refine ih (v.set i s) (w.set i s1) m' (fun j => if j = i then m1 else ma j) (fun j => ?_) (fun j => ?_)
      · by_cases hj : j = i
        · subst hj
          rw [Vars.set_self, Vars.set_self, if_pos rfl]
          exact htw hh
        · rw [Vars.set_other _ _ hj, Vars.set_other _ _ hj, if_neg hj]
          exact (hT j).2.2.2 _ _ _ _ _ (ht j) fun x hx => ho x fun hx' => ha j i hj x ⟨hx, hx'⟩
      · by_cases hj : j = i
        · subst hj
          rw [Vars.set_self, if_pos rfl]
          exact hi.2 _ _ _ e1 hh
        · rw [Vars.set_other _ _ hj, if_neg hj]
          have := hs j
          rwa [only_cons_other (Ne.symm hj)] at this
  exact key ops _ (start M) m ma (fun i => (hT i).2.2.2 _ _ _ _ _ ((hT i).1 _ (hm i)) fun x hx => (hma i x hx).symm) hs

/-- If they are permitted together then each is permitted alone, up to where the program ended. -/
theorem alone_of_safe (hL : ∀ i, (M i).Local) (ha : Apart M) {m m' : Mem} {i : ι} {mi : Mem} (hm : ∀ j, (M j).ready m) (hmi : (M i).ready mi) (hown : ∀ x, (M i).own x → mi x = m x)
    {ops : List (Σ i, (M i).Op)} (hs : SafeRun M (start M) m ops) {rs : List (Σ i, (M i).Resp)} {v' : Vars M} (hr : run M (start M) m ops = some (rs, v', m')) :
    (M i).SafeRun (M i).start mi (only i (ops.take rs.length)) := by
  have hL : ∀ i, ∃ Twin : (M i).St → Mem → (M i).St → Mem → Prop, _ := hL
  let Twin := fun i => Classical.choose (hL i)
  have hT := fun i => Classical.choose_spec (hL i)
  have key : ∀ (ops : List (Σ i, (M i).Op)) (v : Vars M) (w : (M i).St) (m mi : Mem) (rs : List (Σ i, (M i).Resp)) (v' : Vars M) (m' : Mem), Twin i w mi (v i) m →
      (∀ j, ∃ s m0, Twin j s m0 (v j) m) → SafeRun M v m ops → run M v m ops = some (rs, v', m') → (M i).SafeRun w mi (only i (ops.take rs.length)) := by
    intro ops
    induction ops with
    | nil => intro v w m mi rs v' m' _ _ _ e; cases e; trivial
    | cons o ops ih =>
      obtain ⟨j, op⟩ := o
      intro v w m mi rs v' m' ht hall ⟨hp, hs⟩ e
      obtain ⟨s0, m0, htj⟩ := hall j
      obtain ⟨r0, s1, m1, s1', m1', -, e1', htw, ho⟩ := (hT j).2.2.1 _ _ _ _ _ htj (((hT j).2.1 _ _ _ _ _ htj).mpr hp)
      simp only [run, e1'] at e
      have hall' : (M j).halts r0 = false → ∀ k, ∃ s m0, Twin k s m0 ((v.set j s1') k) m1' := by
        intro hh k
        by_cases hk : k = j
        · subst hk
          exact ⟨s1, m1, by rw [Vars.set_self]; exact htw hh⟩
        · obtain ⟨s2, m2, h2⟩ := hall k
          exact ⟨s2, m2, by rw [Vars.set_other _ _ hk]; exact (hT k).2.2.2 _ _ _ _ _ h2 fun x hx => ho x fun hx' => ha k j hk x ⟨hx, hx'⟩⟩
      by_cases hj : j = i
      · subst hj
        have hp' := ((hT j).2.1 _ _ _ _ _ ht).mpr hp
        obtain ⟨r2, t1, n1, t1', n1', f1, f2, f3, f4⟩ := (hT j).2.2.1 _ _ _ _ _ ht hp'
        rw [e1'] at f2; cases f2
        cases hh : (M j).halts r0 with
        | true =>
          rw [hh] at e
          cases e
          simp only [List.length_singleton, List.take_succ_cons, List.take_zero, only_cons_self]
          exact ⟨hp', fun r s m2 e2 h2 => by rw [f1] at e2; cases e2; rw [hh] at h2; cases h2⟩
        | false =>
          rw [hh] at e
          simp only [Bool.false_eq_true, if_false, Option.map_eq_some_iff] at e
          obtain ⟨⟨rs2, v2, m2⟩, e2, e3⟩ := e
          simp only [Prod.mk.injEq] at e3
          obtain ⟨rfl, rfl, rfl⟩ := e3
          simp only [List.length_cons, List.take_succ_cons, only_cons_self]
          refine ⟨hp', fun r s m3 e4 _ => ?_⟩
          rw [f1] at e4; cases e4
          exact ih _ _ _ _ _ _ _ (by rw [Vars.set_self]; exact f3 hh) (hall' hh) (hs _ _ _ e1' hh) e2
      · cases hh : (M j).halts r0 with
        | true =>
          rw [hh] at e
          cases e
          simp only [List.length_singleton, List.take_succ_cons, List.take_zero, only_cons_other hj]
          trivial
        | false =>
          rw [hh] at e
          simp only [Bool.false_eq_true, if_false, Option.map_eq_some_iff] at e
          obtain ⟨⟨rs2, v2, m2⟩, e2, e3⟩ := e
          simp only [Prod.mk.injEq] at e3
          obtain ⟨rfl, rfl, rfl⟩ := e3
          simp only [List.length_cons, List.take_succ_cons, only_cons_other hj]
          exact ih _ _ _ _ _ _ _ (by rw [Vars.set_other _ _ (Ne.symm hj)]; exact (hT i).2.2.2 _ _ _ _ _ ht fun x hx => ho x fun hx' => ha i j (Ne.symm hj) x ⟨hx, hx'⟩) (hall' hh) (hs _ _ _ e1' hh) e2
  exact key ops _ _ m mi rs v' m' ((hT i).2.2.2 _ _ _ _ _ ((hT i).1 _ hmi) fun x hx => (hown x hx).symm) (fun j => ⟨_, _, (hT j).1 _ (hm j)⟩) hs hr
end

/-! ## The structures of the repository -/

theorem allocMachine_local {t : Target} {b : Unsync.MemBump} (hv : b.Valid t) : (allocMachine t b).Local := by
  obtain ⟨Rel, h⟩ := allocMachine_sound hv
  exact h.local fun _ _ _ _ _ _ _ _ hp => hp

section
open Unsync Unsync.BumpBoxes
theorem boxes_has {m m' : Mem} {w w' : World} {s : SWorld} (h : ∀ k : Nat, VarRel m w.hs[k]? s.boxes[k]?) (h' : ∀ k : Nat, VarRel m' w'.hs[k]? s.boxes[k]?) {k : Nat} {g : Handle} (hk : w.hs[k]? = some (some g)) :
    ∃ g', w'.hs[k]? = some (some g') ∧ g'.ty = g.ty ∧ g'.hold = g.hold := by
  have a := h k; have b := h' k
  rw [hk] at a
  cases hs : s.boxes[k]? with
  | none => rw [hs] at a; exact a.elim
  | some x =>
    cases x with
    | none => rw [hs] at a; exact a.elim
    | some x =>
      rw [hs] at a b
      cases hw : w'.hs[k]? with
      | none => rw [hw] at b; exact b.elim
      | some y =>
        cases y with
        | none => rw [hw] at b; exact b.elim
        | some g' => rw [hw] at b; exact ⟨g', rfl, b.1.symm.trans a.1, b.2.1.symm.trans a.2.1⟩

theorem boxMachine_local {t : Target} {b : MemBump} (hv : b.Valid t) (panics : List Byte → Bool) : (boxMachine t b panics).Local := by
  refine (boxMachine_soundBy hv panics).local fun (w : World) m (w' : World) m' (s : SWorld) (op : Op) (r : WRel t b m { w with mem := m } s) (r' : WRel t b m' { w' with mem := m' } s) hp => ?_
  have hp : Permitted t { w with mem := m } op := hp
  show Permitted t { w' with mem := m' } op
  have key : ∀ {k : Nat} {l : List Hold} {q : Nat → Prop}, Has { w with mem := m } k l q → Has { w' with mem := m' } k l q := by
    rintro k l q ⟨g, hk, h1, h2⟩
    obtain ⟨g', hk', e1, e2⟩ := boxes_has (w := { w with mem := m }) (w' := { w' with mem := m' }) r.var r'.var hk
    exact ⟨g', hk', by rw [e2]; exact h1, by rw [e1]; exact h2⟩
  cases op with
  | bumpBox ty => exact hp
  | getBoxed ty val => exact hp
  | level => exact hp
  | reset =>
    intro k g hk
    obtain ⟨g', hk', e1, e2⟩ := boxes_has (w := { w' with mem := m' }) (w' := { w with mem := m }) r'.var r.var hk
    rw [← e2]
    exact hp k g' hk'
  | _ => simp only [Permitted] at hp ⊢; exact key hp
end

section
open BoxMem
theorem pieces_same {m m' : Mem} {w w' : World} {s : SWorld} (h : ∀ k, VarRel m (w.hs k) (s.hs k)) (h' : ∀ k, VarRel m' (w'.hs k) (s.hs k)) (k : Nat) : w'.hs k = w.hs k := by
  have a := h k; have b := h' k
  cases hs : s.hs k with
  | none =>
    rw [hs] at a b
    cases hw : w.hs k with
    | none => cases hw' : w'.hs k with
      | none => rfl
      | some g => rw [hw'] at b; cases g <;> exact (show False from b).elim
    | some g => rw [hw] at a; cases g <;> exact (show False from a).elim
  | some x =>
    rw [hs] at a b
    cases hw : w.hs k with
    | none => rw [hw] at a; exact (show False from a).elim
    | some g =>
      cases hw' : w'.hs k with
      | none => rw [hw'] at b; exact (show False from b).elim
      | some g' =>
        rw [hw] at a; rw [hw'] at b
        cases x <;> cases g <;> cases g' <;> first | exact (show False from a).elim | exact (show False from b).elim | skip
        · rw [show _ = _ from a.1.symm.trans b.1, a.2.1, b.2.1]
        · rw [show _ = _ from a.1.symm.trans b.1]
        · rw [show _ = _ from a.1.symm.trans b.1]

theorem pieceMachine_local {t : Target} (panics : Layout → List Byte → Bool) (mine : Nat → Prop) : (pieceMachine t panics mine).Local := by
  refine (pieceMachine_soundBy panics mine).local fun (w : World) m (w' : World) m' (s : SWorld) (op : Op) (r : WRel t mine m { w with mem := m } s) (r' : WRel t mine m' { w' with mem := m' } s) hp => ?_
  have hp : Permitted t mine { w with mem := m } op := hp
  show Permitted t mine { w' with mem := m' } op
  have e : w'.hs = w.hs := funext (pieces_same (w := { w with mem := m }) (w' := { w' with mem := m' }) r.var r'.var)
  cases op <;> simpa only [Permitted, Legal, NoBadSplit, Unused, IsPiece, IsBox, IsRef, e] using hp
end

section
open Exit Exit.ExitMem
theorem exitMachine_local {c : Cfg} (hc : c.Valid) : (exitMachine c).Local := by
  refine (exitMachine_soundBy hc).local fun (b : BState) m (b' : BState) m' (s : SState) (op : BOp) (r : WRel c { b with mem := m } s) (r' : WRel c { b' with mem := m' } s) hp => ?_
  have hp : op.Allowed c { b with mem := m } := hp
  show op.Allowed c { b' with mem := m' }
  have e1 : b'.live = b.live := r'.shows.live.trans r.shows.live.symm
  have e2 : b'.open_ = b.open_ := r'.shows.open_.trans r.shows.open_.symm
  have e3 : b'.alive = b.alive := r'.shows.alive.trans r.shows.alive.symm
  cases op <;> simpa only [BOp.Allowed, e1, e2, e3] using hp
end

section
open RcMem RcM
theorem rcMachine_local {c : RcMem.Cfg} (hc : c.Ok) (checks : Bool) (mine : Nat → Prop) : (rcMachine c checks mine).Local := by
  refine (rcMachine_soundBy hc checks mine).local fun (w : BWorld) m (w' : BWorld) m' (s : SWorld (List Byte)) (op : RcMem.BOp) (r : rcRel c mine w m s) (r' : rcRel c mine w' m' s) hp => ?_
  obtain ⟨hp, hnew⟩ := hp
  refine ⟨?_, hnew⟩
  have e1 : w'.hs = w.hs := r'.1.hs.trans r.1.hs.symm
  have e2 : w'.running = w.running := r'.1.running.trans r.1.running.symm
  have e3 : ∀ a, w'.owner a = w.owner a := by
    intro a
    have a1 : CellRel (w.owner a) _ _ _ _ := r.1.cells a
    have a2 : CellRel (w'.owner a) _ _ _ _ := r'.1.cells a
    cases hs : s.cells a <;> rw [hs] at a1 a2 <;> exact a2.1.trans a1.1.symm
  cases op with
  | raw a off bs => exact ⟨(e3 a).trans hp.1, hp.2⟩
  | call op =>
    obtain ⟨h1, h2, h3⟩ := hp
    refine ⟨h1, ?_, ?_⟩
    · cases op <;> simpa only [RcM.Permitted, BWorld.abs, e1, e2, e3] using h2
    · cases op <;> first | exact h3 | (simp only [RcM.NoOverflow, BWorld.abs, e1] at h3 ⊢; exact h3)
end

section
open FVec FVec.Bytes
variable {t : Target} {T : Layout}

/-- Vectors in two memories that are the same in the model in which elements are not bytes. -/
def vecTwin (t : Target) (T : Layout) (mine : Nat → Prop) (bw : BWorld T) (m : Mem) (bw' : BWorld T) (m' : Mem) : Prop :=
  ∃ w sw, WRel t T w sw ∧ BRel ⟨0, 0⟩ m w { bw with heap := { bw.heap with mem := m } } ∧ BRel ⟨0, 0⟩ m' w { bw' with heap := { bw'.heap with mem := m' } } ∧ ∀ j e, w.ents j = some e → ∀ x, e.region.Has x → mine x

theorem vecMachine_local (hT : T.ValidType t) (checks : Bool) (panics : Bits T → Bool) (mine : Nat → Prop) : (vecMachine t T checks panics mine).Local := by
  refine ⟨vecTwin t T mine, fun m _ => ⟨World.init fun _ => none, _, wrel_init _, brel_init m _, brel_init m _, fun j e h => by cases h⟩, fun (bw : BWorld T) m (bw' : BWorld T) m' (op : Op (Bits T)) ht => ?_,
    fun (bw : BWorld T) m (bw' : BWorld T) m' (op : Op (Bits T)) ht hp => ?_, fun (bw : BWorld T) m (bw' : BWorld T) m' m'' ht hm => ?_⟩
  · obtain ⟨w, sw, q, r, r', hin⟩ := ht
    have e : bw'.ents = bw.ents := r'.ents.trans r.ents.symm
    refine and_congr ?_ Iff.rfl
    cases op <;> simp only [Bytes.Permitted, e]
  · obtain ⟨w, sw, q, r, r', hin⟩ := ht
    obtain ⟨hp, hN, hnew⟩ := hp
    have hp0 : Bytes.Permitted t { bw with heap := { bw.heap with mem := m } } op := by cases op <;> exact hp
    have hp' := (bytes_permitted r).mp hp0
    obtain ⟨w1, bw1, e1, q1, e2, f1, f2, r1⟩ := step_both (checks := checks) (panics := panics) hT q r hp' hN
    obtain ⟨w2, bw2, e1', -, e2', f1', f2', r2⟩ := step_both (checks := checks) (panics := panics) hT q r' hp' hN
    rw [e1] at e1'
    cases e1'
    have hent : ∀ i, op.target = some i → ∃ e, w.ents i = some e := fun i ht => hp'.ent ht
    refine ⟨_, bw1, bw1.heap.mem, bw2, bw2.heap.mem, by simp only [vecMachine, e2]; rfl, by simp only [vecMachine, e2'], fun _ => ⟨w1, _, q1, r1, r2, fun j e' h x hx => ?_⟩, fun x hx => ?_⟩
    · cases ht : op.target with
      | none =>
        cases op with
        | new addr len =>
          rcases (new_step e1 hT.1.1.pos).2 j e' h with h | h
          · exact hin j e' h x hx
          · rw [h] at hx; exact hnew addr len rfl x hx
        | _ => cases ht
      | some i =>
        obtain ⟨e, he⟩ := hent i ht
        rcases (frame_step hT q ht he (hp'.room ht he) e1).ents j e' h with ⟨_, h⟩ | h
        · exact hin j e' h x hx
        · exact hin i e he x (h.has hx)
    · cases ht : op.target with
      | none => rw [f2' ht]
      | some i =>
        obtain ⟨e, he⟩ := hent i ht
        exact (f1' i e ht he).heap.only x fun hx' => hx (hin i e he x hx')
  · obtain ⟨w, sw, q, r, r', hin⟩ := ht
    have : DecidablePred fun x => ∀ y, x ≤ y → y < x + T.size → mine y := fun _ => Classical.propDecidable _
    refine ⟨{ w with heap := restrict T mine w.heap }, sw, wrel_restrict q hin, ⟨r.ents, r.next, r.heap.log, fun x v hx => ?_, fun _ _ => rfl⟩, ⟨r'.ents, r'.next, r'.heap.log, fun x v hx => ?_, fun _ _ => rfl⟩, hin⟩
    · simp only [restrict] at hx
      split at hx
      · exact r.heap.mem x v hx
      · cases hx
    · simp only [restrict] at hx
      split at hx
      · rename_i hall
        have := r'.heap.mem x v hx
        rw [← this]
        apply Subtype.ext
        rw [bytesRead_val, bytesRead_val]
        exact readBytes_congr fun y h1 h2 => hm y (hall y h1 h2)
      · cases hx
end

section
open Unsync Unsync.ChainMem
variable {c : ChainMem.Cfg} {mine : Nat → Prop}

/-- Chains in two memories that are the same in the model in which the pointers are not bytes. -/
def chainTwin (c : ChainMem.Cfg) (mine : Nat → Prop) (b : ChainMem.BState) (m : Mem) (b' : ChainMem.BState) (m' : Mem) : Prop :=
  ∃ s P, CReach c.t s ∧ CInv c.t s P ∧ Rel c { b with heap := { b.heap with mem := m } } s ∧ Rel c { b' with heap := { b'.heap with mem := m' } } s ∧
    InMine c mine { b.heap with mem := m } ∧ InMine c mine { b'.heap with mem := m' }

theorem chainMachine_local (c : ChainMem.Cfg) (mine : Nat → Prop) : (chainMachine c mine).Local := by
  refine ⟨chainTwin c mine, fun m _ => ?_, fun (b : ChainMem.BState) m (b' : ChainMem.BState) m' (op : COp) ht => ?_, fun (b : ChainMem.BState) m (b' : ChainMem.BState) m' (op : COp) ht hp => ?_,
    fun (b : ChainMem.BState) m (b' : ChainMem.BState) m' m'' ht hm => ?_⟩
  · obtain ⟨s, P, h1, h2, h3, -⟩ := Sim.init c m
    exact ⟨s, P, h1, h2, h3, h3, (fun a L n h => by cases h), fun a L n h => by cases h⟩
  · obtain ⟨s, P, h1, h2, r, r', -⟩ := ht
    have e1 : b'.roots = b.roots := r'.roots.trans r.roots.symm
    have e2 : b'.granted = b.granted := r'.granted.trans r.granted.symm
    have e3 : b'.heap.block = b.heap.block := funext fun a => (r'.heap.same a).trans (r.heap.same a).symm
    refine and_congr ?_ Iff.rfl
    cases op <;> simp only [BOp.Allowed, e1, e2, e3]
  · obtain ⟨s, P, h1, h2, r, r', i, i'⟩ := ht
    obtain ⟨ha, hnew⟩ := hp
    have ha1 : (BOp.call op).Allowed c { b with heap := { b.heap with mem := m } } := by cases op <;> exact ha
    have ha2 := allowed_rel r ha1
    have e1 : b'.roots = b.roots := r'.roots.trans r.roots.symm
    have e2 : b'.granted = b.granted := r'.granted.trans r.granted.symm
    have e3 : b'.heap.block = b.heap.block := funext fun a => (r'.heap.same a).trans (r.heap.same a).symm
    have ha' : (BOp.call op).Allowed c { b' with heap := { b'.heap with mem := m' } } := by
      revert ha; cases op <;> simp only [BOp.Allowed, e1, e2, e3] <;> exact id
    obtain ⟨a, s1, _, g1, _, _⟩ := cexec_inv h2 ha2
    obtain ⟨P1, g2⟩ : ∃ P1, CInv c.t s1 P1 := by
      obtain ⟨_, _, _, g1', g2, _⟩ := cexec_inv h2 ha2
      rw [g1] at g1'; cases g1'
      exact ⟨_, g2⟩
    obtain ⟨b1, k1, k2⟩ := call_rel r h2 ha2 g1
    obtain ⟨b2, k1', k2'⟩ := call_rel r' h2 ha2 g1
    have kk := call_keeps r h2 i ha1 (fun h size a L h1 h2 => ⟨linkLayout_room h2, hnew h size a L h1 h2⟩) k1
    have kk' := call_keeps r' h2 i' ha' (fun h size a L h1 h2 => ⟨linkLayout_room h2, hnew h size a L h1 h2⟩) k1'
    exact ⟨a, b1, b1.heap.mem, b2, b2.heap.mem, by simp only [chainMachine, k1], by simp only [chainMachine, k1'], fun _ => ⟨s1, P1, .step h1 ha2 g1, g2, k2, k2', kk.1, kk'.1⟩, fun x hx => kk'.2 x hx⟩
  · obtain ⟨s, P, h1, h2, r, r', i, i'⟩ := ht
    exact ⟨s, P, h1, h2, r, Rel.congr r' i' hm, i, i'⟩
end

end Verif.Compose
