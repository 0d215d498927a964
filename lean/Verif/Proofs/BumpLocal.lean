import Verif.Model.BumpLocal
import Verif.Proofs.MemoryModel
import Verif.Props.BumpConcurrency
/-! Executions of the memory model are interleavings. -/
set_option autoImplicit false
namespace Verif.Bump
open MM
variable {n : Nat} {e : Env} {X : Graph n Act}

/-- The event of the machine. -/
def evOf (t : Fin n) : Act → Event n
  | .invoke call => .invoke t call
  | _ => .step t

theorem schedule_eq {a : MM.Ev n} {x : Act} (h : X.At a x) : schedule X a = evOf a.1 x := by
  simp only [Graph.At] at h
  simp only [schedule, h]
  cases x <;> rfl

theorem setPc_same (pc : Fin n → Pc) (t : Fin n) (p : Pc) : setPc pc t p t = p := by simp [setPc]
theorem setPc_other (pc : Fin n → Pc) {t u : Fin n} (p : Pc) (h : u ≠ t) : setPc pc t p u = pc u := by simp [setPc, h]

/-- An action in the machine, if the value that it reads is the value of the variable. -/
theorem exec_act {s : State n} {t : Fin n} {x : Act} {p : Pc} (h : lnext e (s.pc t) x = some p) (hr : ∀ v, actKind.reads x = some v → v = s.consumed) :
    (exec e s (evOf t x)).pc = setPc s.pc t p ∧ (exec e s (evOf t x)).consumed = (actKind.writes x).getD s.consumed ∧
    observable (exec e s (evOf t x)).hist = observable s.hist ++ (obsOf t x).toList ∧ handedOut (exec e s (evOf t x)).hist = (grantOf x).toList ++ handedOut s.hist ∧
    ((∃ call, x = .invoke call) ∨ actOf s t = x) := by
  cases hp : s.pc t <;> rw [hp] at h <;> cases x <;> simp only [lnext, reduceCtorEq, Option.some.injEq] at h
  case idle.invoke call =>
    subst h
    simp [evOf, exec, hp, actKind, observable, obsOf, grantOf, handedOut]
  case attempt.compute call l retry guess =>
    simp only [evOf, exec, step, hp]
    cases h1 : tryAllocAtPre e l guess with
    | panic => rw [h1] at h; cases h; simp [State.decide, actKind, observable, obsOf, grantOf, handedOut, actOf, hp]
    | ub => rw [h1] at h; cases h; simp [State.decide, actKind, observable, obsOf, grantOf, handedOut, actOf, hp]
    | ret o =>
      cases o with
      | none => rw [h1] at h; cases h; simp [State.decide, actKind, observable, obsOf, grantOf, handedOut, actOf, hp]
      | some q => obtain ⟨a, nw⟩ := q; rw [h1] at h; cases h; simp [actKind, observable, obsOf, grantOf, actOf, hp]
  case cas.cas call l retry expect at_ new expect' new' seen =>
    have hs : seen = s.consumed := hr seen rfl
    split at h
    case isFalse => cases h
    case isTrue h2 =>
      obtain ⟨rfl, rfl⟩ := h2
      simp only [evOf, exec, step, hp]
      by_cases h3 : seen = expect'
      · simp only [h3, if_true] at h
        rw [if_pos (by omega)]
        cases h1 : tryAllocAtPost e at_ new' with
        | panic => rw [h1] at h; cases h; simp [State.decide, actKind, observable, obsOf, grantOf, handedOut, actOf, hp, h3, ← hs]
        | ub => rw [h1] at h; cases h; simp [State.decide, actKind, observable, obsOf, grantOf, handedOut, actOf, hp, h3, ← hs]
        | ret a => rw [h1] at h; cases h; simp [State.decide, actKind, observable, obsOf, grantOf, handedOut, actOf, hp, h3, ← hs]
      · simp only [h3, if_false] at h
        rw [if_neg (by omega)]
        cases retry with
        | true => simp only [if_true] at h; cases h; simp [actKind, observable, obsOf, grantOf, handedOut, actOf, hp, h3, ← hs]
        | false => simp only [Bool.false_eq_true, if_false] at h; cases h; simp [State.decide, actKind, observable, obsOf, grantOf, handedOut, actOf, hp, h3, ← hs]
  case load.load call v =>
    have hs : v = s.consumed := hr v rfl
    subst h hs
    simp [evOf, exec, step, hp, State.decide, actKind, observable, obsOf, grantOf, handedOut, actOf]
  case write.write call a r =>
    split at h
    case isFalse => cases h
    case isTrue h2 =>
      cases h
      simp [evOf, exec, step, hp, actKind, observable, obsOf, grantOf, actOf, h2]
  case ret.ret call r call' r' =>
    split at h
    case isFalse => cases h
    case isTrue h2 =>
      obtain ⟨rfl, rfl⟩ := h2
      cases h
      simp [evOf, exec, step, hp, actKind, observable, obsOf, grantOf, handedOut, actOf]

theorem lrun_append (p : Pc) (xs ys : List Act) : lrun e p (xs ++ ys) = (lrun e p xs).bind fun q => lrun e q ys := by
  induction xs generalizing p with
  | nil => rfl
  | cons x xs ih =>
    simp only [List.cons_append, lrun]
    cases lnext e p x with
    | none => rfl
    | some q => simp only [Option.bind_some]; exact ih q

/-- The state of the machine after the events of `P`. -/
structure Done (e : Env) (X : Graph n Act) (P : List (MM.Ev n)) (s : State n) : Prop where
  local_ : ∀ t, ∃ k, k ≤ (X.acts t).length ∧ (∀ j, (t, j) ∈ P ↔ j < k) ∧ lrun e .idle ((X.acts t).take k) = some (s.pc t)
  last : ∀ w v, w ∈ P → X.Writes actKind w v → (∀ w' ∈ P, X.IsWrite actKind w' → w' = w ∨ X.mo w' w) → s.consumed = v
  none : (∀ w ∈ P, ¬ X.IsWrite actKind w) → s.consumed = X.initial

theorem done_init (m : Mem) : Done e X [] (init n X.initial m) where
  local_ t := ⟨0, Nat.zero_le _, by simp, rfl⟩
  last w v h := by cases h
  none _ := rfl

theorem At.unique {a : MM.Ev n} {x y : Act} (h : X.At a x) (h' : X.At a y) : x = y := by
  simp only [Graph.At] at h h'
  rw [h] at h'
  exact Option.some.inj h'

/-- One event. -/
theorem done_step (hw : X.WellFormed actKind) {S : MM.Ev n → MM.Ev n → Prop} (hs : X.Ordered actKind S) (hx : ∀ t, ∃ p, lrun e .idle (X.acts t) = some p)
    {P Q : List (MM.Ev n)} {a : MM.Ev n} (ho : X.Order (P ++ a :: Q)) (hb : (P ++ a :: Q).Pairwise fun a b => ¬ X.Before actKind S b a) {s : State n} (h : Done e X P s) :
    ∃ x p, X.At a x ∧ lnext e (s.pc a.1) x = some p ∧ (∀ v, actKind.reads x = some v → v = s.consumed) ∧ (∀ j, (a.1, j) ∈ P ↔ j < a.2) ∧ Done e X (P ++ [a]) (exec e s (evOf a.1 x)) := by
  have hev : X.IsEvent a := (ho.2.1 a).mp (by simp)
  have hlen := (Graph.isEvent_iff a).mp hev
  obtain ⟨x, hat⟩ := hev
  rw [List.pairwise_append] at hb
  obtain ⟨_, hb2, hb3⟩ := hb
  rw [List.pairwise_cons] at hb2
  have hnotP : a ∉ P := by
    have := ho.1
    rw [List.nodup_append] at this
    exact fun h => this.2.2 a h a (by simp) rfl
  -- everything before `a` is in `P`
  have hin : ∀ b, X.IsEvent b → X.Before actKind S b a → b ∈ P := by
    intro b hb0 hb1
    have := (ho.2.1 b).mpr hb0
    rcases List.mem_append.mp this with h1 | h1
    · exact h1
    · rcases List.mem_cons.mp h1 with rfl | h1
      · exact absurd hb1 (Graph.before_irrefl hw hs _)
      · exact absurd hb1 (hb2.1 b h1)
  have hout : ∀ b ∈ P, ¬ X.Before actKind S a b := fun b hb0 => hb3 b hb0 a (by simp)
  obtain ⟨t, k⟩ := a
  simp only at hlen ⊢
  obtain ⟨k', hk', hmem, hl⟩ := h.local_ t
  have hkk : k' = k := by
    refine Nat.le_antisymm (Nat.le_of_not_lt fun hlt => ?_) (Nat.le_of_not_lt fun hlt => ?_)
    · exact hnotP ((hmem k).mpr hlt)
    · have h1 := hw.sb t k' k hlt hlen
      have := hin (t, k') ((Graph.isEvent_iff _).mpr (by simp only; omega)) (.inl h1)
      exact Nat.lt_irrefl _ ((hmem k').mp this)
  subst hkk
  obtain ⟨pf, hpf⟩ := hx t
  have hsplit : X.acts t = (X.acts t).take k' ++ x :: (X.acts t).drop (k' + 1) := by
    have hxk : (X.acts t)[k'] = x := (List.getElem?_eq_some_iff.mp hat).2
    conv => lhs; rw [← List.take_append_drop k' (X.acts t), List.drop_eq_getElem_cons hlen, hxk]
  rw [hsplit, lrun_append, hl] at hpf
  simp only [Option.bind_some, lrun] at hpf
  cases hn : lnext e (s.pc t) x with
  | none => rw [hn] at hpf; cases hpf
  | some p =>
  have htake : (X.acts t).take (k' + 1) = (X.acts t).take k' ++ [x] := by
    rw [List.take_add_one]
    simp only [Graph.At] at hat
    rw [hat]; rfl
  -- what is read
  have hread : ∀ v, actKind.reads x = some v → v = s.consumed := by
    intro v hv
    have hR : X.Reads actKind (t, k') v := ⟨x, hat, hv⟩
    have hA : X.Atomic actKind (t, k') := .inl ⟨v, hR⟩
    have h1 := hw.rf_value _ _ hR
    cases hrf : X.rf (t, k') with
    | none =>
      rw [hrf] at h1
      rw [h1]
      refine (h.none fun w hwP hww => ?_).symm
      refine hout w hwP (.inr ⟨(t, k'), w, .inl rfl, hA, .inr hww, hs.cob _ _ (.inr (.inr ⟨⟨v, hR⟩, hww, ?_, .inl hrf⟩)), .inl rfl⟩)
      rintro rfl; exact hnotP hwP
    | some w =>
      rw [hrf] at h1
      have hwW : X.IsWrite actKind w := ⟨v, h1⟩
      have hwP : w ∈ P := by
        refine hin w (by obtain ⟨y, hy, _⟩ := h1; exact ⟨y, hy⟩) (.inr ⟨w, (t, k'), .inl rfl, .inr hwW, hA, hs.cob _ _ (.inr (.inl ⟨⟨v, hR⟩, hrf⟩)), .inl rfl⟩)
      refine (h.last w v hwP h1 fun w' hw'P hw'W => ?_).symm
      rcases hw.mo_total w' w hw'W hwW with h2 | h2 | h2
      · exact .inl h2
      · exact .inr h2
      · exfalso
        refine hout w' hw'P (.inr ⟨(t, k'), w', .inl rfl, hA, .inr hw'W, hs.cob _ _ (.inr (.inr ⟨⟨v, hR⟩, hw'W, ?_, .inr ⟨w, hrf, h2⟩⟩)), .inl rfl⟩)
        rintro rfl; exact hnotP hw'P
  obtain ⟨e1, e2, _, _, _⟩ := exec_act hn hread
  refine ⟨x, p, hat, hn, hread, hmem, ?_, ?_, ?_⟩
  · intro u
    by_cases hu : u = t
    · subst hu
      refine ⟨k' + 1, hlen, fun j => ?_, ?_⟩
      · simp only [List.mem_append, hmem, List.mem_singleton, Prod.mk.injEq, true_and]; omega
      · rw [htake, lrun_append, hl, e1, setPc_same]
        simp [lrun, hn]
    · obtain ⟨j, h1, h2, h3⟩ := h.local_ u
      refine ⟨j, h1, fun i => ?_, ?_⟩
      · simp only [List.mem_append, h2, List.mem_singleton, Prod.mk.injEq, hu, false_and, or_false]
      · rw [e1, setPc_other _ _ hu, h3]
  · intro w v hwP hwv hmax
    rw [e2]
    cases hwx : actKind.writes x with
    | none =>
      have hnw : ∀ v, ¬ X.Writes actKind (t, k') v := by
        rintro v ⟨y, hy, hyv⟩
        rw [At.unique hat hy, hyv] at hwx; cases hwx
      have hwP' : w ∈ P := by
        rcases List.mem_append.mp hwP with h1 | h1
        · exact h1
        · simp only [List.mem_singleton] at h1; subst h1; exact absurd hwv (hnw _)
      exact h.last w v hwP' hwv fun w' h1 h2 => hmax w' (List.mem_append_left _ h1) h2
    | some new =>
      have hW : X.Writes actKind (t, k') new := ⟨x, hat, hwx⟩
      rcases List.mem_append.mp hwP with h1 | h1
      · exfalso
        rcases hmax (t, k') (by simp) ⟨_, hW⟩ with h2 | h2
        · exact hnotP (h2 ▸ h1)
        · exact hout w h1 (.inr ⟨(t, k'), w, .inl rfl, .inr ⟨_, hW⟩, .inr ⟨_, hwv⟩, hs.cob _ _ (.inl ⟨⟨_, hW⟩, ⟨_, hwv⟩, h2⟩), .inl rfl⟩)
      · simp only [List.mem_singleton] at h1
        subst h1
        obtain ⟨y, hy, hyv⟩ := hwv
        rw [← At.unique hat hy, hwx] at hyv
        simpa using hyv
  · intro hno
    rw [e2]
    have hwx : actKind.writes x = none := by
      cases hwx : actKind.writes x with
      | none => rfl
      | some v => exact absurd ⟨v, x, hat, hwx⟩ (hno (t, k') (by simp))
    rw [hwx]
    exact h.none fun w hwP => hno w (List.mem_append_left _ hwP)

/-- All events. -/
theorem done_run (hw : X.WellFormed actKind) {S : MM.Ev n → MM.Ev n → Prop} (hs : X.Ordered actKind S) (hx : ∀ t, ∃ p, lrun e .idle (X.acts t) = some p)
    (P Q : List (MM.Ev n)) (ho : X.Order (P ++ Q)) (hb : (P ++ Q).Pairwise fun a b => ¬ X.Before actKind S b a) {s : State n} (h : Done e X P s) :
    Done e X (P ++ Q) (run e s (Q.map (schedule X))) ∧ (∀ t k, (∀ j, (t, j) ∈ P ↔ j < k) → traceOf e t s (Q.map (schedule X)) = (X.acts t).drop k) ∧
    observable (run e s (Q.map (schedule X))).hist = observable s.hist ++ Q.filterMap (obsAt X) ∧
    handedOut (run e s (Q.map (schedule X))).hist = (Q.filterMap (grantAt X)).reverse ++ handedOut s.hist := by
  induction Q generalizing P s with
  | nil =>
    refine ⟨by simpa [run] using h, fun t k hk => ?_, by simp [run], by simp [run]⟩
    rw [List.append_nil] at ho
    have : (X.acts t).length ≤ k := Nat.le_of_not_lt fun hlt => by
      have := (ho.2.1 (t, k)).mpr ((Graph.isEvent_iff _).mpr hlt)
      exact Nat.lt_irrefl _ ((hk k).mp this)
    simp [traceOf, List.drop_eq_nil_of_le this]
  | cons a Q ih =>
    obtain ⟨x, p, hat, hn, hr, hmem, h1⟩ := done_step hw hs hx ho hb h
    have hsch := schedule_eq hat
    obtain ⟨e1, e2, e3, e4, e5⟩ := exec_act hn hr
    obtain ⟨i1, i2, i3, i4⟩ := ih (P ++ [a]) (by simpa using ho) (by simpa using hb) h1
    have hrun : ∀ s, run e s ((a :: Q).map (schedule X)) = run e (exec e s (evOf a.1 x)) (Q.map (schedule X)) := fun s => by simp [run, hsch]
    have hatx : (X.acts a.1)[a.2]? = some x := hat
    refine ⟨by rw [hrun]; simpa using i1, fun t k hk => ?_, ?_, ?_⟩
    · simp only [List.map_cons, hsch]
      by_cases ht : a.1 = t
      · subst ht
        have hkk : k = a.2 := by
          refine Nat.le_antisymm (Nat.le_of_not_lt fun hlt => ?_) (Nat.le_of_not_lt fun hlt => ?_)
          · exact Nat.lt_irrefl _ ((hmem a.2).mp ((hk a.2).mpr hlt))
          · exact Nat.lt_irrefl _ ((hk k).mp ((hmem k).mpr hlt))
        subst hkk
        have hlen : a.2 < (X.acts a.1).length := (List.getElem?_eq_some_iff.mp hat).1
        have hxk : (X.acts a.1)[a.2] = x := (List.getElem?_eq_some_iff.mp hat).2
        rw [List.drop_eq_getElem_cons hlen, hxk]
        have := i2 a.1 (a.2 + 1) (fun j => by
          obtain ⟨t, k⟩ := a
          simp only [List.mem_append, hmem, List.mem_singleton, Prod.mk.injEq, true_and]; omega)
        rcases e5 with ⟨call, rfl⟩ | e5
        · simp only [evOf, traceOf, if_true] at this ⊢
          rw [this]; rfl
        · have h3 : ∀ call, x ≠ .invoke call := by
            rintro call rfl
            rw [actOf] at e5
            split at e5 <;> cases e5
          have h4 : evOf a.1 x = .step a.1 := by
            cases x <;> first | rfl | exact absurd rfl (h3 _)
          rw [h4] at this ⊢
          simp only [traceOf, if_true, e5]
          rw [this]; rfl
      · have h4 : ∀ s evs, traceOf e t s (evOf a.1 x :: evs) = traceOf e t (exec e s (evOf a.1 x)) evs := by
          intro s evs
          cases x <;> simp [evOf, traceOf, ht]
        rw [h4]
        refine i2 t k fun j => ?_
        obtain ⟨u, i⟩ := a
        simp only [List.mem_append, hk, List.mem_singleton, Prod.mk.injEq]
        exact ⟨fun h => h.resolve_right fun h => ht h.1.symm, .inl⟩
    · rw [hrun, i3, e3, List.append_assoc]
      congr 1
      simp only [List.filterMap_cons, obsAt, hatx, Option.bind_some]
      cases obsOf a.1 x <;> rfl
    · rw [hrun, i4, e4]
      simp only [List.filterMap_cons, grantAt, hatx, Option.bind_some]
      cases grantOf x <;> simp

/-! ## The value that a call writes -/

/-- What is known of the place where a thread is. -/
def LOk (t : Target) (p : Pc) : Prop := (∀ c, p.call = some c → c.Valid t) ∧ ∀ c a, p = .write c a → c.value.isSome

theorem lok_next {t : Target} {p q : Pc} {x : Act} (h : LOk t p) (hx : ∀ call, x = .invoke call → call.Valid t) (hn : lnext e p x = some q) : LOk t q := by
  have honOk : ∀ (c : Call) a, c.Valid t → LOk t (onOk c a) := by
    intro c a hc
    cases c <;> refine ⟨fun c' h1 => ?_, fun c' a' h1 => ?_⟩ <;> simp [onOk, Pc.call] at h1 <;> first | (obtain ⟨rfl, rfl⟩ := h1; rfl) | (subst h1; exact hc)
  have hret : ∀ (c : Call) r, c.Valid t → LOk t (.ret c r) := by
    intro c r hc
    refine ⟨fun c' h1 => ?_, fun c' a' h1 => ?_⟩ <;> simp [Pc.call] at h1; simp_all
  have hz : ∀ (c : Call) V o v, c.Valid t → LOk t (onZst e c V o v) := by
    intro c V o v hc
    simp only [onZst]
    split
    · exact hret _ _ hc
    · split
      · exact honOk _ _ hc
      · split
        · exact hret _ _ hc
        · exact honOk _ _ hc
  cases p <;> cases x <;> simp only [lnext, reduceCtorEq, Option.some.injEq] at hn
  case idle.invoke call =>
    subst hn
    have hc := hx call rfl
    cases call <;> simp only [enter] <;> (try split) <;> refine ⟨fun c' h1 => ?_, fun c' a' h1 => ?_⟩ <;> simp [Pc.call] at h1 <;> simp_all
  case attempt.compute call l retry guess =>
    have hc := h.1 call rfl
    split at hn <;> cases hn
    · exact hret _ _ hc
    · refine ⟨fun c' h1 => ?_, fun c' a' h1 => ?_⟩ <;> simp [Pc.call] at h1; simp_all
    · exact hret _ _ hc
  case cas.cas call l retry expect at_ new expect' new' seen =>
    have hc := h.1 call rfl
    split at hn
    · split at hn
      · split at hn <;> cases hn
        · exact honOk _ _ hc
        · exact hret _ _ hc
      · split at hn <;> cases hn
        · refine ⟨fun c' h1 => ?_, fun c' a' h1 => ?_⟩ <;> simp [Pc.call] at h1; simp_all
        · exact hret _ _ hc
    · cases hn
  case load.load call v =>
    have hc := h.1 call rfl
    subst hn
    cases call <;> simp only [onLoad] <;> first | exact hz _ _ _ _ hc | exact hret _ _ hc
  case write.write call a r =>
    split at hn <;> cases hn
    exact hret _ _ (h.1 call rfl)
  case ret.ret call r call' r' =>
    split at hn <;> cases hn
    refine ⟨fun c' h1 => ?_, fun c' a' h1 => ?_⟩ <;> simp [Pc.call] at h1

theorem lok_run {t : Target} {p q : Pc} {xs : List Act} (h : LOk t p) (hx : ∀ call, .invoke call ∈ xs → call.Valid t) (hn : lrun e p xs = some q) : LOk t q := by
  induction xs generalizing p with
  | nil => cases hn; exact h
  | cons x xs ih =>
    simp only [lrun] at hn
    cases h1 : lnext e p x with
    | none => rw [h1] at hn; cases hn
    | some p' =>
      rw [h1] at hn
      exact ih (lok_next h (fun call hc => hx call (by simp [hc])) h1) (fun call hc => hx call (by simp [hc])) hn

/-- After the write of its value a thread returns the memory that it has written to. -/
theorem write_then {t : Target} {xs : List Act} {r : Region} {q : Pc} (hx : ∀ call, .invoke call ∈ xs → call.Valid t) (hn : lrun e .idle (xs ++ [.write r]) = some q) (hr : 0 < r.size) :
    ∃ call a l, q = .ret call (afterWrite call a) ∧ call.layout = some l ∧ 0 < l.size ∧ r = ⟨a.ptr, l.size⟩ ∧ (afterWrite call a).ptr? = some a.ptr ∧ grant call (afterWrite call a) = some r := by
  rw [lrun_append] at hn
  cases h1 : lrun e .idle xs with
  | none => rw [h1] at hn; cases hn
  | some p =>
    rw [h1] at hn
    simp only [Option.bind_some, lrun] at hn
    have hok : LOk t p := lok_run ⟨fun c h => by simp [Pc.call] at h, fun c a h => by cases h⟩ hx h1
    cases p <;> simp only [lnext, Option.bind_none, reduceCtorEq] at hn
    case write call a =>
      have hv := hok.1 call rfl
      have hl := hok.2 call a rfl
      split at hn
      · rename_i h2
        cases hn
        subst h2
        cases call <;> simp [Call.value] at hl <;>
        · have := hv.2 _ _ rfl rfl
          simp only [storedValue] at hr ⊢
          refine ⟨_, a, _, rfl, rfl, by omega, by rw [this], rfl, ?_⟩
          simp only [grant, Call.layout, afterWrite]
          rw [if_neg (by omega), this]
      · cases hn

end Verif.Bump
