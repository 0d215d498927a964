import Verif.Spec.ConcBoxes
import Verif.Proofs.BumpBoxes
import Verif.Props.BumpSafety
import Verif.Proofs.BumpIsolation
/-! Proofs for boxes in a shared bump. -/
namespace Verif.ConcBoxes
open Verif Bump Unsync.BumpBoxes

variable {n : Nat} {e : Env} {panics : List Byte → Bool}

theorem upd_self {α : Type} (f : Fin n → α) (t : Fin n) (a : α) : upd f t a t = a := if_pos rfl
theorem upd_ne {α : Type} (f : Fin n → α) {t u : Fin n} (h : u ≠ t) (a : α) : upd f t a u = f u := if_neg h

/-- What relates the world with memory and the specification. -/
structure Rel (e : Env) (w : World n) (s : SWorld n) : Prop where
  reach : Reachable e w.st
  var : ∀ (t : Fin n) (k : Nat), VarRel w.st.mem (w.vars t)[k]? (s.boxes t)[k]?
  own : ∀ (t : Fin n) (k : Nat) (h : Handle), (w.vars t)[k]? = some (some h) → h.ty.layout.size = 0 ∨ h.region ∈ handedOut w.st.hist
  place : ∀ (t : Fin n) (k : Nat) (h : Handle), (w.vars t)[k]? = some (some h) → h.ty.layout.align ∣ h.addr ∧ h.addr ≠ 0
  apart : ∀ (t u : Fin n) (k j : Nat) (h g : Handle), (t, k) ≠ (u, j) → (w.vars t)[k]? = some (some h) → (w.vars u)[j]? = some (some g) → h.region.Disjoint g.region
  log : w.log = s.dropped

theorem rel_init {c : Nat} (hc : c ≤ e.len) (m : Mem) : Rel e (World.init (n := n) c m) SWorld.init :=
  ⟨⟨c, m, [], hc, by simp, rfl⟩, fun _ _ => by simp [World.init, SWorld.init, VarRel], fun _ _ _ h => by simp [World.init] at h,
    fun _ _ _ h => by simp [World.init] at h, fun _ _ _ _ _ _ _ h => by simp [World.init] at h, rfl⟩

theorem some_of' {w : World n} {s : SWorld n} (hr : Rel e w s) {t : Fin n} {k : Nat} {h : Handle} (hk : (w.vars t)[k]? = some (some h)) :
    ∃ x, (s.boxes t)[k]? = some (some x) ∧ x.ty = h.ty ∧ x.hold = h.hold ∧ (h.hold ≠ .uninit → readBytes w.st.mem h.addr h.ty.layout.size = x.val) := by
  have := hr.var t k
  rw [hk] at this
  exact varRel_some this

/-! ### Steps of the bump -/

/-- Steps and invocations do not write for the user, and do not reset. -/
theorem step_hist (e : Env) (s : State n) (t : Fin n) : ∃ new, (step e s t).hist = new ++ s.hist ∧ Ev.reset ∉ new ∧ ∀ r, Ev.userWrite r ∉ new := by
  have one : ∀ ev : Ev n, ev ≠ .reset → (∀ r, ev ≠ .userWrite r) → ∀ h : Hist n, h = ev :: s.hist → ∃ new, h = new ++ s.hist ∧ Ev.reset ∉ new ∧ ∀ r, Ev.userWrite r ∉ new := by
    intro ev h1 h2 h hh
    refine ⟨[ev], hh, ?_, fun r => ?_⟩
    · simp only [List.mem_singleton]; exact fun h => h1 h.symm
    · simp only [List.mem_singleton]; exact fun h => h2 r h.symm
  have zero : ∀ h : Hist n, h = s.hist → ∃ new, h = new ++ s.hist ∧ Ev.reset ∉ new ∧ ∀ r, Ev.userWrite r ∉ new := fun h hh => ⟨[], hh, by simp, by simp⟩
  unfold step
  split
  · exact zero _ rfl
  · split
    · exact one _ (by simp) (by simp) _ rfl
    · exact one _ (by simp) (by simp) _ rfl
    · exact one _ (by simp) (by simp) _ rfl
    · exact zero _ rfl
  · split
    · dsimp only
      split
      · exact one _ (by simp) (by simp) _ rfl
      · exact one _ (by simp) (by simp) _ rfl
    · split
      · exact one _ (by simp) (by simp) _ rfl
      · exact one _ (by simp) (by simp) _ rfl
  · exact one _ (by simp) (by simp) _ rfl
  · exact zero _ rfl
  · exact one _ (by simp) (by simp) _ rfl

/-- The regions handed out stay handed out, with their bytes. -/
structure Keeps (s s' : State n) : Prop where
  out : ∀ r, r ∈ handedOut s.hist → r ∈ handedOut s'.hist
  mem : ∀ r, r ∈ handedOut s.hist → ∀ x, r.Has x → s'.mem x = s.mem x

theorem keeps_step (he : e.Valid) {s : State n} (hs : Reachable e s) (t : Fin n) : Keeps s (step e s t) := by
  obtain ⟨new, h1, h2, h3⟩ := step_hist e s t
  have key : ∀ r, r ∈ handedOut s.hist → r ∈ handedOut (step e s t).hist ∧ ∀ x, r.Has x → (step e s t).mem x = s.mem x := by
    intro r hr
    obtain ⟨-, new', k1, k2⟩ := isolated_run he hs hr (evs := [.step t]) (by simp [Event.Valid, Bump.Event.Valid])
    have : new' = new := List.append_cancel_right (k1.symm.trans h1)
    subst this
    exact k2 h2 (h3 r)
  exact ⟨fun r hr => (key r hr).1, fun r hr => (key r hr).2⟩

theorem reach_step {s : State n} (hs : Reachable e s) (t : Fin n) : Reachable e (step e s t) :=
  hs.run (evs := [.step t]) (by simp [Bump.Event.Valid])

theorem reach_event {s : State n} (hs : Reachable e s) {ev : Bump.Event n} (hv : Bump.Event.Valid e.target ev) : Reachable e (Bump.exec e s ev) :=
  hs.run (evs := [ev]) (by simpa using hv)

/-- The relation survives changes of the bump that keep what was handed out. -/
theorem keeps_rel {w : World n} {s : SWorld n} (hr : Rel e w s) {st : State n} (hreach : Reachable e st) (hk : Keeps w.st st) {flag : Fin n → Bool} {ab : Bool} :
    Rel e ⟨st, w.vars, flag, w.log, ab⟩ s := by
  refine ⟨hreach, fun t k => ?_, fun t k h hh => (hr.own t k h hh).imp id (hk.out _), hr.place, hr.apart, hr.log⟩
  refine varRel_congr (hr.var t k) fun h hh => readBytes_congr fun x h1 h2 => ?_
  rcases hr.own t k h hh with h0 | h0
  · omega
  · exact hk.mem _ h0 x ⟨h1, h2⟩

/-! ### Changes of variables -/

/-- The variable `k` of thread `t` is set to the new value, whose memory is the same, and that memory may be written. -/
theorem set_rel' {w : World n} {s : SWorld n} (hr : Rel e w s) {t : Fin n} {k : Nat} {h : Handle} (hk : (w.vars t)[k]? = some (some h))
    {st : State n} (hreach : Reachable e st) (hout : ∀ r, r ∈ handedOut w.st.hist → r ∈ handedOut st.hist) (hm : ∀ z, ¬ h.region.Has z → st.mem z = w.st.mem z)
    {h' : Option Handle} {x' : Option SBox}
    (hh : ∀ g, h' = some g → g.addr = h.addr ∧ g.ty = h.ty) (hv : VarRel st.mem (some h') (some x')) {log dropped : List (Fin n × List Byte)} (hl : log = dropped) :
    Rel e ⟨st, upd w.vars t ((w.vars t).set k h'), w.flag, log, w.aborted⟩ ⟨upd s.boxes t ((s.boxes t).set k x'), dropped⟩ := by
  obtain ⟨x, hx, -⟩ := some_of' hr hk
  have hkl : k < (w.vars t).length := (List.getElem?_eq_some_iff.mp hk).1
  have hxl : k < (s.boxes t).length := (List.getElem?_eq_some_iff.mp hx).1
  have get1 : ∀ (u : Fin n) (j : Nat) (g : Handle), (upd w.vars t ((w.vars t).set k h') u)[j]? = some (some g) →
      ((u, j) = (t, k) ∧ g.addr = h.addr ∧ g.ty = h.ty) ∨ ((u, j) ≠ (t, k) ∧ (w.vars u)[j]? = some (some g)) := by
    intro u j g hg
    by_cases hu : u = t
    · subst hu
      rw [upd_self] at hg
      by_cases hj : k = j
      · subst hj
        rw [List.getElem?_set_self hkl] at hg
        exact Or.inl ⟨rfl, hh g (Option.some.inj hg)⟩
      · rw [List.getElem?_set_ne hj] at hg
        exact Or.inr ⟨fun e => hj (Prod.mk.inj e).2.symm, hg⟩
    · rw [upd_ne _ hu] at hg
      exact Or.inr ⟨fun e => hu (Prod.mk.inj e).1, hg⟩
  have reg : ∀ {g : Handle}, g.addr = h.addr → g.ty = h.ty → g.region = h.region := by
    intro g h1 h2; simp [Handle.region, h1, h2]
  have frame : ∀ (u : Fin n) (j : Nat) (g : Handle), (u, j) ≠ (t, k) → (w.vars u)[j]? = some (some g) → readBytes st.mem g.addr g.ty.layout.size = readBytes w.st.mem g.addr g.ty.layout.size :=
    fun u j g hne hg => readBytes_congr fun z h1 h2 => hm z fun hz => hr.apart t u k j h g (fun e => hne e.symm) hk hg z ⟨hz, h1, h2⟩
  refine ⟨hreach, ?_, ?_, ?_, ?_, hl⟩
  · intro u j
    show VarRel st.mem (upd w.vars t ((w.vars t).set k h') u)[j]? (upd s.boxes t ((s.boxes t).set k x') u)[j]?
    by_cases hu : u = t
    · subst hu
      rw [upd_self, upd_self]
      by_cases hj : k = j
      · subst hj
        rw [List.getElem?_set_self hkl, List.getElem?_set_self hxl]; exact hv
      · rw [List.getElem?_set_ne hj, List.getElem?_set_ne hj]
        exact varRel_congr (hr.var u j) fun g hg => frame u j g (fun e => hj (Prod.mk.inj e).2.symm) hg
    · rw [upd_ne _ hu, upd_ne _ hu]
      exact varRel_congr (hr.var u j) fun g hg => frame u j g (fun e => hu (Prod.mk.inj e).1) hg
  · intro u j g hg
    rcases get1 u j g hg with ⟨-, h1, h2⟩ | ⟨-, hg'⟩
    · rw [reg h1 h2, h2]; exact (hr.own t k h hk).imp id (hout _)
    · exact (hr.own u j g hg').imp id (hout _)
  · intro u j g hg
    rcases get1 u j g hg with ⟨-, h1, h2⟩ | ⟨-, hg'⟩
    · rw [h1, h2]; exact hr.place t k h hk
    · exact hr.place u j g hg'
  · intro u u' j j' g g' hne hg hg'
    rcases get1 u j g hg with ⟨a, a1, a2⟩ | ⟨a, hi⟩ <;> rcases get1 u' j' g' hg' with ⟨c, c1, c2⟩ | ⟨c, hj⟩
    · exact absurd (a.trans c.symm) hne
    · rw [reg a1 a2]; exact hr.apart t u' k j' h g' (fun e => c e.symm) hk hj
    · rw [reg c1 c2]; exact hr.apart u t j k g h a hi hk
    · exact hr.apart u u' j j' g g' hne hi hj

/-- A new variable. -/
theorem push_rel' {w : World n} {s : SWorld n} (hr : Rel e w s) {t : Fin n} {h : Handle} {x : SBox}
    (hv : VarRel w.st.mem (some (some h)) (some (some x))) (hown : h.ty.layout.size = 0 ∨ h.region ∈ handedOut w.st.hist) (hpl : h.ty.layout.align ∣ h.addr ∧ h.addr ≠ 0)
    (hap : ∀ (u : Fin n) (k : Nat) (g : Handle), (w.vars u)[k]? = some (some g) → h.region.Disjoint g.region) :
    Rel e { w with vars := upd w.vars t (w.vars t ++ [some h]) } (s.push t x) := by
  have hlen : (w.vars t).length = (s.boxes t).length := by
    rcases Nat.lt_trichotomy (w.vars t).length (s.boxes t).length with h | h | h
    · have := hr.var t (w.vars t).length
      rw [List.getElem?_eq_none (Nat.le_refl _), List.getElem?_eq_getElem h] at this
      cases this
    · exact h
    · have := hr.var t (s.boxes t).length
      rw [List.getElem?_eq_none (l := s.boxes t) (Nat.le_refl _), List.getElem?_eq_getElem h] at this
      cases hh : (w.vars t)[(s.boxes t).length] <;> rw [hh] at this <;> cases this
  have get1 : ∀ (u : Fin n) (j : Nat) (g : Handle), (upd w.vars t (w.vars t ++ [some h]) u)[j]? = some (some g) →
      ((u, j) = (t, (w.vars t).length) ∧ g = h) ∨ ((u, j) ≠ (t, (w.vars t).length) ∧ (w.vars u)[j]? = some (some g)) := by
    intro u j g hg
    by_cases hu : u = t
    · subst hu
      rw [upd_self] at hg
      by_cases hj : j < (w.vars u).length
      · rw [List.getElem?_append_left hj] at hg; exact Or.inr ⟨fun e => by have := (Prod.mk.inj e).2; omega, hg⟩
      · rw [List.getElem?_append_right (by omega)] at hg
        rcases Nat.eq_zero_or_pos (j - (w.vars u).length) with h0 | h0
        · rw [h0] at hg
          simp only [List.length_cons, List.length_nil, Nat.zero_add, Nat.lt_add_one, List.getElem?_eq_getElem, List.getElem_cons_zero, Option.some.injEq] at hg
          exact Or.inl ⟨by rw [show j = (w.vars u).length by omega], hg.symm⟩
        · rw [List.getElem?_eq_none (by simp; omega)] at hg; cases hg
    · rw [upd_ne _ hu] at hg
      exact Or.inr ⟨fun e => hu (Prod.mk.inj e).1, hg⟩
  refine ⟨hr.reach, ?_, ?_, ?_, ?_, hr.log⟩
  · intro u j
    show VarRel w.st.mem (upd w.vars t (w.vars t ++ [some h]) u)[j]? (upd s.boxes t (s.boxes t ++ [some x]) u)[j]?
    by_cases hu : u = t
    · subst hu
      rw [upd_self, upd_self]
      by_cases hj : j < (w.vars u).length
      · rw [List.getElem?_append_left hj, List.getElem?_append_left (by omega)]; exact hr.var u j
      · by_cases hj' : j = (w.vars u).length
        · subst hj'
          rw [List.getElem?_concat_length, hlen, List.getElem?_concat_length]; exact hv
        · rw [List.getElem?_eq_none (by simp; omega), List.getElem?_eq_none (by simp; omega)]; trivial
    · rw [upd_ne _ hu, upd_ne _ hu]; exact hr.var u j
  · intro u j g hg
    rcases get1 u j g hg with ⟨-, rfl⟩ | ⟨-, hg⟩
    · exact hown
    · exact hr.own u j g hg
  · intro u j g hg
    rcases get1 u j g hg with ⟨-, rfl⟩ | ⟨-, hg⟩
    · exact hpl
    · exact hr.place u j g hg
  · intro u u' j j' g g' hne hg hg'
    rcases get1 u j g hg with ⟨a, rfl⟩ | ⟨a, hi⟩ <;> rcases get1 u' j' g' hg' with ⟨c, rfl⟩ | ⟨c, hj⟩
    · exact absurd (a.trans c.symm) hne
    · exact hap u' j' g' hj
    · exact (hap u j g hi).symm
    · exact hr.apart u u' j j' g g' hne hi hj

/-! ### Returns of calls -/

theorem ret_shape {call : Call} {r : Ret} (h : SpecRet e call r) :
    (∃ a, r = call.success a ∧ call.layout.isSome) ∨ (∃ f, r = call.failure f) ∨ r = .panicked ∨ (call = .level ∧ ∃ k, r = .level k) := by
  obtain ⟨-, c, c', -, hsp⟩ := h
  rcases specApply_cases hsp with ⟨h1, h2, -⟩ | ⟨l, hl, h⟩
  · exact .inr (.inr (.inr ⟨h1, _, h2⟩))
  · have hs : call.layout.isSome := by rw [hl]; rfl
    rcases h with ⟨-, -, -, ⟨-, h⟩ | ⟨-, h⟩⟩ | ⟨-, -, -, h⟩ | ⟨-, ⟨h, -⟩ | ⟨a, h, -⟩ | ⟨h, -⟩ | ⟨_, h, -⟩⟩
    · exact .inl ⟨_, h, hs⟩
    · exact .inr (.inl ⟨_, h⟩)
    · exact .inr (.inr (.inl h))
    · exact .inr (.inr (.inl h))
    · exact .inl ⟨_, h, hs⟩
    · exact .inr (.inl ⟨_, h⟩)
    · exact .inr (.inl ⟨_, h⟩)

/-- A call that returned with success gives the variable of the specification. -/
theorem newVar_success (call : Call) (nd : Bool) (a : Alloc) :
    newVar call nd (call.success a) = (sboxOf call nd).map (fun x => ⟨a.ptr, x.ty, x.hold⟩) ∧ droppedArg call (call.success a) = none ∧
    (call.layout.isSome → (call.success a).ptr? = some a.ptr) := by
  cases call <;> simp [newVar, Call.success, sboxOf, holdOf, droppedArg, Ret.ptr?, Call.layout]

theorem newVar_failure (call : Call) (nd : Bool) {r : Ret} (h : (∃ f, r = call.failure f) ∨ r = .panicked ∨ (call = .level ∧ ∃ k, r = .level k)) :
    newVar call nd r = none := by
  rcases h with ⟨f, rfl⟩ | rfl | ⟨rfl, k, rfl⟩
  · cases call <;> rfl
  · cases call <;> rfl
  · rfl

theorem sreturned_failure (w : SWorld n) (t : Fin n) (call : Call) (nd : Bool) {r : Ret} (h : (∃ f, r = call.failure f) ∨ r = .panicked ∨ (call = .level ∧ ∃ k, r = .level k)) :
    sreturned w t call nd r = match droppedArg call r with | some v => { w with dropped := dropLog t w.dropped nd v } | none => w := by
  have hd : ∀ ty v, ty.needsDrop = nd → sdestroy t ty v w = { w with dropped := dropLog t w.dropped nd v } := by
    intro ty v h; subst h; unfold sdestroy dropLog; cases ty.needsDrop <;> rfl
  rcases h with ⟨f, rfl⟩ | rfl | ⟨rfl, k, rfl⟩
  · cases call <;> simp [sreturned, sboxOf, holdOf, Call.layout, Call.failure, Ret.ptr?, Call.value, droppedArg] <;> exact hd _ _ rfl
  · cases call <;> simp [sreturned, sboxOf, holdOf, Call.layout, Ret.ptr?, Call.value, droppedArg] <;> exact hd _ _ rfl
  · rfl

/-- The value in an error is the argument. -/
theorem err_value {call : Call} {r : Ret} (h : SpecRet e call r) : ∀ v f, r = .leakErr v f → call.value = some v := by
  intro v f hr
  rcases ret_shape h with ⟨a, rfl, -⟩ | ⟨g, rfl⟩ | rfl | ⟨rfl, k, rfl⟩
  · cases call <;> simp [Call.success] at hr
  · cases call <;> simp [Call.failure] at hr <;> simp [Call.value, hr]
  · cases hr
  · cases hr

/-- The end of a call. -/
theorem return_rel (he : e.Valid) {w : World n} {s : SWorld n} (hr : Rel e w s) {t : Fin n} {call : Call} {r : Ret} (hpc : w.st.pc t = .ret call r) :
    Rel e (afterReturn panics { w with st := Bump.step e w.st t } t call r) (sreturned s t call (w.flag t) r) := by
  have hstep : Bump.step e w.st t = { w.st with pc := setPc w.st.pc t .idle, hist := .resp t call r :: w.st.hist } := by
    unfold Bump.step; rw [hpc]
  have hspec : SpecRet e call r := (hr.reach.inv2 he).S t call r (.inr (.inr (by rw [hpc]; exact ⟨rfl, rfl⟩)))
  have hval : call.Valid e.target := hspec.1
  have hreach := reach_step hr.reach t
  have hkeep := keeps_step he hr.reach t
  have base : ∀ {flag ab}, Rel e ⟨Bump.step e w.st t, w.vars, flag, w.log, ab⟩ s := keeps_rel hr hreach hkeep
  rcases ret_shape hspec with ⟨a, rfl, hsome⟩ | hfail
  · obtain ⟨h1, h2, h3⟩ := newVar_success call (w.flag t) a
    have h3 := h3 hsome
    simp only [afterReturn, h1, h2, sreturned, h3, Option.isSome_some, if_true]
    cases hb : sboxOf call (w.flag t) with
    | none => exact base
    | some x =>
      obtain ⟨l, hl⟩ := Option.isSome_iff_exists.mp hsome
      have hty : x.ty.layout = l := by
        simp only [sboxOf, hl] at hb
        cases hh : holdOf call <;> rw [hh] at hb <;> simp at hb
        rw [← hb]
      have hin : Ev.resp t call (call.success a) ∈ (Bump.step e w.st t).hist := by rw [hstep]; exact List.mem_cons_self
      obtain ⟨p1, p2, -⟩ := C02_in_bounds_aligned he hreach hin hl h3
      have hg : l.size ≠ 0 → grant call (call.success a) = some ⟨a.ptr, l.size⟩ := by
        intro h0
        simp only [grant, hl, if_neg h0]
        cases hc : call.success a <;> rw [hc] at h3 <;> simp [Ret.ptr?] at h3 <;> simp [h3]
      have := push_rel' (base (flag := w.flag) (ab := false)) (t := t) (h := ⟨a.ptr, x.ty, x.hold⟩) (x := x) ?_ ?_ ⟨by rw [hty]; exact p2, p1⟩ ?_
      · exact this
      · refine ⟨rfl, rfl, fun hu => ?_⟩
        show readBytes (Bump.step e w.st t).mem a.ptr x.ty.layout.size = x.val
        rw [hstep, hty]
        show readBytes w.st.mem a.ptr l.size = x.val
        simp only [sboxOf, hl] at hb
        cases hh : holdOf call with
        | none => rw [hh] at hb; simp at hb
        | some hold =>
          rw [hh] at hb
          simp only [Option.some.injEq] at hb
          subst hb
          cases hv : call.value with
          | none => cases call <;> simp [Call.value] at hv <;> simp [holdOf] at hh <;> simp_all
          | some v =>
            have := (hr.reach.stored he).2 t call _ v a.ptr hpc hv h3
            rw [hval.2 l v hl hv] at this
            exact this
      · by_cases h0 : l.size = 0
        · exact .inl (by rw [hty]; exact h0)
        · right
          show (⟨a.ptr, x.ty.layout.size⟩ : Region) ∈ handedOut (Bump.step e w.st t).hist
          rw [hstep, hty]
          simp [handedOut, hg h0]
      · intro u k g hk
        show Region.Disjoint ⟨a.ptr, x.ty.layout.size⟩ g.region
        rw [hty]
        by_cases h0 : l.size = 0
        · rw [Region.disjoint_iff]; exact .inl h0
        · rcases hr.own u k g hk with hz | hz
          · rw [Region.disjoint_iff]; exact .inr (.inl hz)
          · have := (hreach.inv2 he).B
            rw [hstep] at this
            simp only [handedOut, hg h0, Option.toList_some, List.singleton_append, List.pairwise_cons] at this
            exact this.1 _ hz
  · have h1 := newVar_failure call (w.flag t) hfail
    rw [sreturned_failure s t call _ hfail]
    simp only [afterReturn, h1]
    cases hd : droppedArg call r with
    | none => exact base
    | some v =>
      have b := base (flag := w.flag) (ab := w.flag t && panics v && decide (r = .panicked))
      exact ⟨b.reach, b.var, b.own, b.place, b.apart, by show dropLog t w.log _ v = dropLog t s.dropped _ v; rw [hr.log]⟩

/-! ### Uses of variables -/

theorem poke_eq {st : State n} {h : Handle} {v : List Byte} (hsz : h.ty.layout.size = v.length) (hown : h.ty.layout.size = 0 ∨ h.region ∈ handedOut st.hist) (hreach : Reachable e st) :
    Reachable e (poke st h v) ∧ (∀ r, r ∈ handedOut st.hist → r ∈ handedOut (poke st h v).hist) ∧ (∀ z, ¬ h.region.Has z → (poke st h v).mem z = st.mem z) ∧
    readBytes (poke st h v).mem h.addr h.ty.layout.size = v := by
  unfold poke
  by_cases hv : v = []
  · subst hv
    rw [if_pos rfl, hsz]
    exact ⟨hreach, fun _ h => h, fun _ _ => rfl, rfl⟩
  · rw [if_neg hv]
    have h0 : v.length ≠ 0 := by simpa using hv
    have hin : h.region ∈ handedOut st.hist := hown.resolve_left (by omega)
    have : Bump.exec e st (.userWrite h.region 0 v) = { st with mem := LeakBox.ptrWrite st.mem h.addr v, hist := .userWrite ⟨h.addr, h.ty.layout.size⟩ :: st.hist } := by
      simp only [Bump.exec]
      rw [if_pos ⟨hin, by show 0 + v.length ≤ h.ty.layout.size; omega⟩]
      rfl
    refine ⟨?_, fun r hr => hr, ptrWrite_out hsz, ptrWrite_in hsz⟩
    rw [← this]
    exact reach_event hreach trivial

theorem dropLog_eq {w : SWorld n} {t : Fin n} {x : SBox} {h : Handle} (hty : x.ty = h.ty) {log : List (Fin n × List Byte)} (hl : log = w.dropped) (k : Nat) (o : Option SBox) :
    sdestroy t x.ty x.val (w.set t k o) = ⟨upd w.boxes t ((w.boxes t).set k o), dropLog t log h.ty.needsDrop x.val⟩ := by
  unfold sdestroy dropLog SWorld.set
  rw [hty, hl]
  cases h.ty.needsDrop <;> rfl

/-- One use of a variable. -/
theorem use_rel {w : World n} {s : SWorld n} (hr : Rel e w s) {t : Fin n} {u : Use} (hp : Permitted e.target w (.use t u)) :
    ∃ a w' x, useVar panics w t u = .ret (a, w') ∧ (s.boxes t)[u.var]? = some (some x) ∧ x.hold ∈ u.kinds ∧ a = (suse panics s t x u).1 ∧ Rel e w' (suse panics s t x u).2 := by
  replace hp := hp.2
  cases u with
  | boxed k v =>
    obtain ⟨h, hk, hh, hsz⟩ := hp
    obtain ⟨x, hx, h1, h2, h3⟩ := some_of' hr hk
    obtain ⟨p1, p2, p3, p4⟩ := poke_eq hsz (hr.own t k h hk) hr.reach
    refine ⟨_, _, x, by simp only [useVar, hk]; rfl, hx, by rw [h2]; exact hh, rfl, ?_⟩
    exact set_rel' hr hk p1 p2 p3 (h' := some (LeakBox.fromRaw h)) (x' := some { x with hold := .boxed, val := v }) (fun g hg => by cases hg; exact ⟨rfl, rfl⟩) ⟨h1, rfl, fun _ => p4⟩ hr.log
  | leakInto k v =>
    obtain ⟨h, hk, hh, hsz⟩ := hp
    obtain ⟨x, hx, h1, h2, h3⟩ := some_of' hr hk
    obtain ⟨p1, p2, p3, p4⟩ := poke_eq hsz (hr.own t k h hk) hr.reach
    refine ⟨_, _, x, by simp only [useVar, hk]; rfl, hx, by rw [h2]; exact hh, rfl, ?_⟩
    exact set_rel' hr hk p1 p2 p3 (h' := some (LeakBox.intoRaw h)) (x' := some { x with hold := .bare, val := v }) (fun g hg => by cases hg; exact ⟨rfl, rfl⟩) ⟨h1, rfl, fun _ => p4⟩ hr.log
  | deref k =>
    obtain ⟨h, hk, hh, -⟩ := hp
    obtain ⟨x, hx, h1, h2, h3⟩ := some_of' hr hk
    have hun : h.hold ≠ .uninit := by intro e; rw [e] at hh; simp at hh
    exact ⟨_, w, x, by simp only [useVar, hk]; rfl, hx, by rw [h2]; exact hh, by rw [LeakBox.ptrRead, h3 hun]; rfl, hr⟩
  | replace k v =>
    obtain ⟨h, hk, hh, hsz⟩ := hp
    obtain ⟨x, hx, h1, h2, h3⟩ := some_of' hr hk
    have hun : h.hold ≠ .uninit := by intro e; rw [e] at hh; simp at hh
    obtain ⟨p1, p2, p3, p4⟩ := poke_eq hsz (hr.own t k h hk) hr.reach
    refine ⟨_, _, x, by simp only [useVar, hk]; rfl, hx, by rw [h2]; exact hh, by rw [LeakBox.ptrRead, h3 hun]; rfl, ?_⟩
    have := set_rel' hr hk p1 p2 p3 (h' := some h) (x' := some { x with val := v }) (fun g hg => by cases hg; exact ⟨rfl, rfl⟩) ⟨h1, h2, fun _ => p4⟩ hr.log
    rw [set_same hk, show upd w.vars t (w.vars t) = w.vars from funext fun u => by unfold upd; split <;> simp_all] at this
    exact this
  | assign k v =>
    obtain ⟨h, hk, hh, hsz⟩ := hp
    obtain ⟨x, hx, h1, h2, h3⟩ := some_of' hr hk
    have hun : h.hold ≠ .uninit := by intro e; rw [e] at hh; simp at hh
    obtain ⟨p1, p2, p3, p4⟩ := poke_eq hsz (hr.own t k h hk) hr.reach
    refine ⟨_, _, x, by simp only [useVar, hk]; rfl, hx, by rw [h2]; exact hh, by rw [unwinds, LeakBox.ptrRead, h3 hun, suse, h1]; simp only [Bool.and_eq_true], ?_⟩
    simp only [suse, dropLog_eq h1 hr.log, LeakBox.ptrRead, h3 hun]
    have := set_rel' hr hk p1 p2 p3 (h' := some h) (x' := some { x with val := v }) (fun g hg => by cases hg; exact ⟨rfl, rfl⟩) ⟨h1, h2, fun _ => p4⟩ (rfl : dropLog t w.log h.ty.needsDrop x.val = _)
    rw [set_same hk, show upd w.vars t (w.vars t) = w.vars from funext fun u => by unfold upd; split <;> simp_all] at this
    exact this
  | take k =>
    obtain ⟨h, hk, hh, -⟩ := hp
    obtain ⟨x, hx, h1, h2, h3⟩ := some_of' hr hk
    have hun : h.hold ≠ .uninit := by intro e; rw [e] at hh; simp at hh
    exact ⟨_, _, x, by simp only [useVar, hk]; rfl, hx, by rw [h2]; exact hh, by rw [LeakBox.take, LeakBox.ptrRead, h3 hun]; rfl,
      set_rel' hr hk hr.reach (fun _ h => h) (fun _ _ => rfl) (h' := none) (x' := none) (fun g hg => by cases hg) trivial hr.log⟩
  | leak k | intoRaw k =>
    obtain ⟨h, hk, hh, -⟩ := hp
    obtain ⟨x, hx, h1, h2, h3⟩ := some_of' hr hk
    have hun : h.hold ≠ .uninit := by intro e; rw [e] at hh; simp at hh
    exact ⟨_, _, x, by simp only [useVar, hk]; rfl, hx, by rw [h2]; exact hh, rfl,
      set_rel' hr hk hr.reach (fun _ h => h) (fun _ _ => rfl) (h' := some (LeakBox.intoRaw h)) (x' := some { x with hold := .bare }) (fun g hg => by cases hg; exact ⟨rfl, rfl⟩) ⟨h1, rfl, fun _ => h3 hun⟩ hr.log⟩
  | fromRaw k =>
    obtain ⟨h, hk, hh, -⟩ := hp
    obtain ⟨x, hx, h1, h2, h3⟩ := some_of' hr hk
    have hun : h.hold ≠ .uninit := by intro e; rw [e] at hh; simp at hh
    exact ⟨_, _, x, by simp only [useVar, hk]; rfl, hx, by rw [h2]; exact hh, rfl,
      set_rel' hr hk hr.reach (fun _ h => h) (fun _ _ => rfl) (h' := some (LeakBox.fromRaw h)) (x' := some { x with hold := .boxed }) (fun g hg => by cases hg; exact ⟨rfl, rfl⟩) ⟨h1, rfl, fun _ => h3 hun⟩ hr.log⟩
  | drop k =>
    obtain ⟨h, hk, hh, -⟩ := hp
    obtain ⟨x, hx, h1, h2, h3⟩ := some_of' hr hk
    have hun : h.hold ≠ .uninit := by intro e; rw [e] at hh; simp at hh
    refine ⟨_, _, x, by simp only [useVar, hk]; rfl, hx, by rw [h2]; exact hh, by rw [unwinds, LeakBox.ptrRead, h3 hun, suse, h1]; simp only [Bool.and_eq_true], ?_⟩
    simp only [suse, dropLog_eq h1 hr.log, LeakBox.ptrRead, h3 hun]
    exact set_rel' hr hk hr.reach (fun _ h => h) (fun _ _ => rfl) (h' := none) (x' := none) (fun g hg => by cases hg) trivial rfl

/-! ### The simulation -/

theorem sim_step' (he : e.Valid) {w : World n} {s : SWorld n} (hr : Rel e w s) {ev : Event n} (hp : Permitted e.target w ev) :
    ∃ o w', exec e panics w ev = .ret (o, w') ∧ match o with
      | none => Rel e w' s
      | some ob => (sobs panics s ob).1 ∧ Rel e w' (sobs panics s ob).2 := by
  by_cases hab : w.aborted = true
  · refine ⟨none, w, ?_, hr⟩
    cases ev <;> simp only [exec, hab, if_true] <;> rfl
  · cases ev with
    | call t call nd =>
      refine ⟨none, _, by simp only [exec, hab]; rfl, ?_⟩
      show Rel e (if w.st.pc t = .idle then _ else w) s
      by_cases hi : w.st.pc t = .idle
      · rw [if_pos hi]
        refine keeps_rel hr (reach_event hr.reach (ev := .invoke t call) hp) ⟨fun r hr => ?_, fun r _ x _ => ?_⟩
        · simp only [Bump.exec, hi, if_true]; exact hr
        · simp only [Bump.exec, hi, if_true]
      · rw [if_neg hi]; exact hr
    | step t =>
      cases hpc : w.st.pc t with
      | ret call r =>
        exact ⟨some (.returned t call (w.flag t) r), _, by simp only [exec, hab, hpc]; rfl, err_value (hr.reach.inv2 he |>.S t call r (.inr (.inr (by rw [hpc]; exact ⟨rfl, rfl⟩)))), return_rel he hr hpc⟩
      | idle | attempt _ _ _ _ | cas _ _ _ _ _ _ | load _ | write _ _ =>
        exact ⟨none, _, by simp only [exec, hab, hpc]; rfl, keeps_rel hr (reach_step hr.reach t) (keeps_step he hr.reach t)⟩
    | use t u =>
      obtain ⟨a, w', x, h1, h2, h2', h3, h4⟩ := use_rel (panics := panics) hr hp
      refine ⟨some (.used t u a), w', by simp only [exec, hab, h1]; rfl, ?_, ?_⟩
      · simp only [sobs, h2]; exact ⟨h2', h3⟩
      · simp only [sobs, h2]; exact h4
    | send t u k =>
      obtain ⟨-, h, hk, hh, -⟩ := hp
      obtain ⟨x, hx, h1, h2, h3⟩ := some_of' hr hk
      refine ⟨some (.sent t u k), { w with vars := upd (upd w.vars t ((w.vars t).set k none)) u (upd w.vars t ((w.vars t).set k none) u ++ [some h]) }, ?_, ?_⟩
      · simp only [exec, hk]; rw [if_neg hab]; rfl
      simp only [sobs, hx]
      refine ⟨by rw [h2]; simpa using hh, ?_⟩
      have hset := set_rel' hr hk hr.reach (fun _ h => h) (fun _ _ => rfl) (h' := none) (x' := none) (fun g hg => by cases hg) trivial hr.log
      refine push_rel' hset (t := u) (h := h) (x := x) ⟨h1, h2, h3⟩ (hr.own t k h hk) (hr.place t k h hk) ?_
      intro v j g hg
      have hkl : k < (w.vars t).length := (List.getElem?_eq_some_iff.mp hk).1
      by_cases hv : v = t
      · subst hv
        simp only [upd_self] at hg
        by_cases hj : k = j
        · subst hj; rw [List.getElem?_set_self hkl] at hg; cases hg
        · rw [List.getElem?_set_ne hj] at hg
          exact hr.apart v v k j h g (fun e => hj (Prod.mk.inj e).2) hk hg
      · simp only [upd_ne _ hv] at hg
        exact hr.apart t v k j h g (fun e => hv (Prod.mk.inj e).1.symm) hk hg
    | reset =>
      refine ⟨some .reset, _, by simp only [exec, hab]; rfl, trivial, ?_⟩
      have none_of : ∀ (t : Fin n) (k : Nat) (h : Handle), ((w.vars t).map fun _ => (none : Option Handle))[k]? ≠ some (some h) := by
        intro t k h hk; rw [List.getElem?_map] at hk; cases hw : (w.vars t)[k]? <;> rw [hw] at hk <;> simp at hk
      refine ⟨reach_event hr.reach (ev := .reset) trivial, ?_, fun t k h hk => absurd hk (none_of t k h), fun t k h hk => absurd hk (none_of t k h), fun t u k j h g _ hk => absurd hk (none_of t k h), hr.log⟩
      intro t k
      have := hr.var t k
      show VarRel _ ((w.vars t).map fun _ => none)[k]? ((s.boxes t).map fun _ => none)[k]?
      rw [List.getElem?_map, List.getElem?_map]
      cases hw : (w.vars t)[k]? <;> cases hs : (s.boxes t)[k]? <;> rw [hw, hs] at this
      · trivial
      · exact this.elim
      · rename_i o; cases o <;> exact this.elim
      · trivial

theorem sim_run' (he : e.Valid) {w : World n} {s : SWorld n} (hr : Rel e w s) {evs : List (Event n)} (hs : SafeRun e panics w evs) :
    ∃ os w', run e panics w evs = .ret (os, w') ∧ Explains panics s os ∧ Rel e w' (replay panics s os) := by
  induction evs generalizing w s with
  | nil => exact ⟨[], w, rfl, trivial, hr⟩
  | cons ev evs ih =>
    obtain ⟨hp, hs⟩ := hs
    obtain ⟨o, w1, e1, r1⟩ := sim_step' (panics := panics) he hr hp
    cases o with
    | none =>
      obtain ⟨os, w2, e2, x2, r2⟩ := ih r1 (hs _ _ e1)
      exact ⟨os, w2, by simp only [run, e1, bind, Outcome.bind, e2]; rfl, x2, r2⟩
    | some ob =>
      obtain ⟨os, w2, e2, x2, r2⟩ := ih r1.2 (hs _ _ e1)
      exact ⟨ob :: os, w2, by simp only [run, e1, bind, Outcome.bind, e2]; rfl, ⟨r1.1, x2⟩, r2⟩

end Verif.ConcBoxes
