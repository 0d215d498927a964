import Verif.Proofs.BumpLocal
/-!
# Interleavings are executions of the memory model
-/
set_option autoImplicit false
namespace Verif.Bump
open MM Lin
variable {n : Nat} {e : Env}

/-- The thread of an event and its action. -/
def happens (s : State n) : Event n → Option (Fin n × Act)
  | .invoke t call => some (t, .invoke call)
  | .step t => some (t, actOf s t)
  | _ => none

/-- The next action of a thread in the machine is one that its code makes, and it reads the variable. -/
theorem lnext_actOf (s : State n) (t : Fin n) (h : s.pc t ≠ .idle) : (∃ p, lnext e (s.pc t) (actOf s t) = some p) ∧ (∀ v, actKind.reads (actOf s t) = some v → v = s.consumed) ∧ ∀ call, actOf s t ≠ .invoke call := by
  cases hp : s.pc t with
  | idle => exact absurd hp h
  | attempt call l retry g =>
    simp only [actOf, hp, lnext]
    refine ⟨?_, by simp [actKind], by simp⟩
    split <;> exact ⟨_, rfl⟩
  | cas call l retry x a new =>
    simp only [actOf, hp, lnext]
    refine ⟨?_, by simp only [actKind, Option.some.injEq]; exact fun v h => h.symm, by simp⟩
    simp only [and_self, if_true]
    split
    · split <;> exact ⟨_, rfl⟩
    · split <;> exact ⟨_, rfl⟩
  | load call =>
    simp only [actOf, hp, lnext]
    exact ⟨⟨_, rfl⟩, by simp only [actKind, Option.some.injEq]; exact fun v h => h.symm, by simp⟩
  | write call a =>
    simp only [actOf, hp, lnext, if_true]
    exact ⟨⟨_, rfl⟩, by simp [actKind], by simp⟩
  | ret call r =>
    simp only [actOf, hp, lnext, and_self, if_true]
    exact ⟨⟨_, rfl⟩, by simp [actKind], by simp⟩

/-- The facts for one event. -/
theorem effective_cons {s : State n} {ev : Event n} {evs : List (Event n)} (h : Effective e s (ev :: evs)) :
    ∃ t x p, ev = evOf t x ∧ lnext e (s.pc t) x = some p ∧ (exec e s ev).pc = setPc s.pc t p ∧ (exec e s ev).consumed = (actKind.writes x).getD s.consumed ∧
      (∀ v, actKind.reads x = some v → v = s.consumed) ∧ (∀ call, x = .invoke call → call.Valid e.target) ∧
      (∀ u, traceOf e u s (ev :: evs) = (if t = u then [x] else []) ++ traceOf e u (exec e s ev) evs) ∧ Effective e (exec e s ev) evs := by
  obtain ⟨h1, h2⟩ := h
  cases ev with
  | invoke t call =>
    have hn : lnext e (s.pc t) (.invoke call) = some (enter call) := by rw [h1.1]; rfl
    obtain ⟨a, b, -⟩ := exec_act hn (by simp [actKind])
    refine ⟨t, .invoke call, _, rfl, hn, a, b, by simp [actKind], fun c hc => by cases hc; exact h1.2, fun u => rfl, h2⟩
  | step t =>
    obtain ⟨⟨p, hn⟩, hr, hi⟩ := lnext_actOf (e := e) s t h1
    have hev : evOf t (actOf s t) = .step t := by
      cases hx : actOf s t <;> first | rfl | exact absurd hx (hi _)
    obtain ⟨a, b, -⟩ := exec_act hn hr
    rw [hev] at a b
    refine ⟨t, actOf s t, p, hev.symm, hn, a, b, hr, fun c hc => absurd hc (hi c), fun u => ?_, h2⟩
    simp only [traceOf]
    by_cases hu : t = u
    · subst hu; simp
    · simp [hu]
  | userWrite r off bs => exact h1.elim
  | reset => exact h1.elim

/-- The log of a run: the events with their actions, in the order of time. -/
def logOf (e : Env) : State n → (Fin n → Nat) → List (Event n) → List (MM.Ev n × Act)
  | _, _, [] => []
  | s, cnt, ev :: evs => match happens s ev with
    | some (t, x) => ((t, cnt t), x) :: logOf e (exec e s ev) (fun u => if u = t then cnt t + 1 else cnt u) evs
    | none => []

theorem logOf_cons {s : State n} {ev : Event n} {evs : List (Event n)} (h : Effective e s (ev :: evs)) (cnt : Fin n → Nat) :
    ∃ t x p, ev = evOf t x ∧ lnext e (s.pc t) x = some p ∧ (exec e s ev).pc = setPc s.pc t p ∧ (exec e s ev).consumed = (actKind.writes x).getD s.consumed ∧
      (∀ v, actKind.reads x = some v → v = s.consumed) ∧ (∀ call, x = .invoke call → call.Valid e.target) ∧
      (∀ u, traceOf e u s (ev :: evs) = (if t = u then [x] else []) ++ traceOf e u (exec e s ev) evs) ∧ Effective e (exec e s ev) evs ∧
      logOf e s cnt (ev :: evs) = ((t, cnt t), x) :: logOf e (exec e s ev) (fun u => if u = t then cnt t + 1 else cnt u) evs := by
  obtain ⟨t, x, p, h1, h2, h3, h4, h5, h6, h7, h8⟩ := effective_cons h
  refine ⟨t, x, p, h1, h2, h3, h4, h5, h6, h7, h8, ?_⟩
  have : happens s ev = some (t, x) := by
    have h9 := h7 t
    cases ev with
    | invoke u call =>
      cases x <;> simp only [evOf, Event.invoke.injEq, reduceCtorEq] at h1
      obtain ⟨rfl, rfl⟩ := h1
      rfl
    | step u =>
      have hu : u = t := by cases x <;> simp only [evOf, Event.step.injEq, reduceCtorEq] at h1 <;> exact h1
      subst hu
      simp only [traceOf, if_true, List.singleton_append, List.cons.injEq, and_true] at h9
      simp only [happens, h9]
    | userWrite r off bs => cases x <;> cases h1
    | reset => cases x <;> cases h1
  simp only [logOf, this]

/-- The log has the actions of every thread. -/
theorem mem_log {s : State n} {evs : List (Event n)} (h : Effective e s evs) (cnt : Fin n → Nat) (t : Fin n) (k : Nat) (x : Act) :
    ((t, k), x) ∈ logOf e s cnt evs ↔ cnt t ≤ k ∧ (traceOf e t s evs)[k - cnt t]? = some x := by
  induction evs generalizing s cnt with
  | nil => simp [logOf, traceOf]
  | cons ev evs ih =>
    obtain ⟨u, y, p, -, -, -, -, -, -, h7, h8, h9⟩ := logOf_cons h cnt
    rw [h9, h7, List.mem_cons, ih h8]
    by_cases hu : u = t
    · subst hu
      simp only [if_true, Prod.mk.injEq, true_and, List.singleton_append]
      constructor
      · rintro (⟨rfl, rfl⟩ | ⟨h1, h2⟩)
        · simp
        · refine ⟨by omega, ?_⟩
          rw [show k - cnt u = (k - (cnt u + 1)) + 1 by omega]
          exact h2
      · rintro ⟨h1, h2⟩
        by_cases hk : k = cnt u
        · subst hk
          simp only [Nat.sub_self, List.getElem?_cons_zero, Option.some.injEq] at h2
          exact .inl ⟨rfl, h2.symm⟩
        · rw [show k - cnt u = (k - (cnt u + 1)) + 1 by omega] at h2
          exact .inr ⟨by omega, h2⟩
    · have hu' : t ≠ u := fun h => hu h.symm
      simp [hu, hu']

/-- The actions of a thread are in program order. -/
theorem log_sorted {s : State n} {evs : List (Event n)} (h : Effective e s evs) (cnt : Fin n → Nat) :
    (logOf e s cnt evs).Pairwise fun a b => a.1.1 = b.1.1 → a.1.2 < b.1.2 := by
  induction evs generalizing s cnt with
  | nil => exact List.Pairwise.nil
  | cons ev evs ih =>
    obtain ⟨u, y, p, -, -, -, -, -, -, -, h8, h9⟩ := logOf_cons h cnt
    rw [h9, List.pairwise_cons]
    refine ⟨fun b hb heq => ?_, ih h8 _⟩
    have := (mem_log h8 _ b.1.1 b.1.2 b.2).mp hb
    simp only at heq
    simp only [← heq, if_true] at this
    show cnt u < b.1.2
    omega

/-- The last write. -/
def lastWrite (l : List (MM.Ev n × Act)) : Option (MM.Ev n × Act) := l.reverse.find? fun a => (actKind.writes a.2).isSome

/-- What is read is what was last written. -/
theorem log_reads {s : State n} {evs : List (Event n)} (h : Effective e s evs) (cnt : Fin n → Nat) {pre post : List (MM.Ev n × Act)} {a : MM.Ev n} {x : Act}
    (hl : logOf e s cnt evs = pre ++ (a, x) :: post) {v : Nat} (hv : actKind.reads x = some v) :
    v = match lastWrite pre with
      | none => s.consumed
      | some b => (actKind.writes b.2).getD 0 := by
  induction evs generalizing s cnt pre with
  | nil => simp [logOf] at hl
  | cons ev evs ih =>
    obtain ⟨u, y, p, -, -, -, h4, h5, -, -, h8, h9⟩ := logOf_cons h cnt
    rw [h9] at hl
    cases pre with
    | nil =>
      simp only [List.nil_append, List.cons.injEq, Prod.mk.injEq] at hl
      obtain ⟨⟨-, rfl⟩, -⟩ := hl
      exact h5 v hv
    | cons b pre =>
      simp only [List.cons_append, List.cons.injEq] at hl
      obtain ⟨rfl, hl⟩ := hl
      rw [ih h8 _ hl]
      have : lastWrite (((u, cnt u), y) :: pre) = (lastWrite pre).or (if (actKind.writes y).isSome then some ((u, cnt u), y) else none) := by
        simp only [lastWrite, List.reverse_cons, List.find?_append]
        congr 1
        simp only [List.find?_cons, List.find?_nil]
        cases (actKind.writes y).isSome <;> rfl
      rw [this]
      cases lastWrite pre with
      | some b => rfl
      | none =>
        simp only [Option.none_or, h4]
        cases hw : actKind.writes y with
        | none => simp
        | some w => simp [hw]

/-- The code of the thread makes these actions. -/
theorem log_lrun {s : State n} {evs : List (Event n)} (h : Effective e s evs) (t : Fin n) :
    (∃ p, lrun e (s.pc t) (traceOf e t s evs) = some p) ∧ ∀ call, Act.invoke call ∈ traceOf e t s evs → call.Valid e.target := by
  induction evs generalizing s with
  | nil => exact ⟨⟨_, rfl⟩, by simp [traceOf]⟩
  | cons ev evs ih =>
    obtain ⟨u, y, p, -, h2, h3, -, -, h6, h7, h8⟩ := effective_cons h
    obtain ⟨⟨q, i1⟩, i2⟩ := ih h8
    rw [h7]
    by_cases hu : u = t
    · subst hu
      rw [h3, setPc_same] at i1
      simp only [if_true, List.singleton_append, lrun, h2, Option.bind_some]
      refine ⟨⟨q, i1⟩, fun call hc => ?_⟩
      rcases List.mem_cons.mp hc with hc | hc
      · exact h6 call hc.symm
      · exact i2 call hc
    · rw [h3, setPc_other _ _ (fun h => hu h.symm)] at i1
      simp only [if_neg hu, List.nil_append]
      exact ⟨⟨q, i1⟩, i2⟩

/-! ### From the order of time to the graph -/

/-- If reads are of the last earlier write, and happens-before is consistent with time, all the axioms hold. -/
theorem timed_possible {A : Type} {K : Kind A} {X : Graph n A} {ord : List (MM.Ev n)} (hmem : ∀ a, X.IsEvent a ↔ a ∈ ord)
    (hmo : X.mo = Earlier ord) (hbT : ∀ a b, X.hb a b → Earlier ord a b) (htrans : ∀ a b c, X.hb a b → X.hb b c → X.hb a c)
    (hsb : ∀ t j k, j < k → k < (X.acts t).length → X.hb (t, j) (t, k))
    (hval : ∀ r v, X.Reads K r v → match X.rf r with
      | none => v = X.initial ∧ ∀ w, X.IsWrite K w → ¬ Earlier ord w r
      | some w => X.Writes K w v ∧ Earlier ord w r ∧ ∀ w', X.IsWrite K w' → Earlier ord w' r → w' = w ∨ Earlier ord w' w) :
    X.WellFormed K ∧ X.SeqCst K ∧ X.Coherent K := by
  have irr : ∀ a, ¬ Earlier ord a a := fun a h => Nat.lt_irrefl _ h.1
  have tr : ∀ a b c, Earlier ord a b → Earlier ord b c → Earlier ord a c := fun a b c h1 h2 => ⟨Nat.lt_trans h1.1 h2.1, h2.2⟩
  have tot : ∀ a b, X.IsEvent a → X.IsEvent b → a = b ∨ Earlier ord a b ∨ Earlier ord b a := by
    intro a b ha hb
    have ha := List.idxOf_lt_length_iff.mpr ((hmem a).mp ha)
    have hb := List.idxOf_lt_length_iff.mpr ((hmem b).mp hb)
    rcases Nat.lt_trichotomy (ord.idxOf a) (ord.idxOf b) with h | h | h
    · exact .inr (.inl ⟨h, hb⟩)
    · left
      have h1 := List.getElem_idxOf ha
      have h2 := List.getElem_idxOf hb
      rw [← h1, ← h2]
      simp only [h]
    · exact .inr (.inr ⟨h, ha⟩)
  have evW : ∀ a, X.IsWrite K a → X.IsEvent a := fun a ⟨_, x, h, _⟩ => ⟨x, h⟩
  have evR : ∀ a, X.IsRead K a → X.IsEvent a := fun a ⟨_, x, h, _⟩ => ⟨x, h⟩
  have hnone : ∀ r, X.IsRead K r → X.rf r = none → ∀ w, X.IsWrite K w → ¬ Earlier ord w r := by
    rintro r ⟨v, hv⟩ hr
    have := hval r v hv
    rw [hr] at this
    exact this.2
  have hsome : ∀ r w, X.IsRead K r → X.rf r = some w → X.IsWrite K w ∧ Earlier ord w r ∧ ∀ w', X.IsWrite K w' → Earlier ord w' r → w' = w ∨ Earlier ord w' w := by
    rintro r w ⟨v, hv⟩ hr
    have := hval r v hv
    rw [hr] at this
    exact ⟨⟨v, this.1⟩, this.2⟩
  refine ⟨⟨hsb, fun a h => irr a (hbT a a h), htrans, fun a => by rw [hmo]; exact irr a, fun a b c => by rw [hmo]; exact tr a b c, fun a b ha hb => ?_, fun r v hv => ?_⟩, ⟨Earlier ord, irr, tr, fun a b ha hb => ?_, fun a b _ _ h => hbT a b h, fun a b h => ?_⟩, ?_⟩
  · rw [hmo]; exact tot a b (evW a ha) (evW b hb)
  · have := hval r v hv
    cases hr : X.rf r with
    | none => rw [hr] at this; exact this.1
    | some w => rw [hr] at this; exact this.1
  · exact tot a b (ha.elim (evR a) (evW a)) (hb.elim (evR b) (evW b))
  · rcases h with ⟨_, _, h⟩ | ⟨h1, h2⟩ | ⟨h1, h2, h3, h4⟩
    · rwa [hmo] at h
    · exact (hsome b a h1 h2).2.1
    · rcases tot a b (evR a h1) (evW b h2) with h | h | h
      · exact absurd h h3
      · exact h
      · rcases h4 with h4 | ⟨w, h4, h5⟩
        · exact absurd h (hnone a h1 h4 b h2)
        · rw [hmo] at h5
          rcases (hsome a w h1 h4).2.2 b h2 h with rfl | h6
          · exact absurd h5 (irr _)
          · exact absurd (tr _ _ _ h5 h6) (irr _)
  · refine ⟨fun a b _ _ h => by rw [hmo]; exact hbT a b h, fun a b w ha hb h hr => ?_, fun a b w ha hb h hr => ?_, fun a b ha hb h => ?_, fun a hr hw => ?_⟩
    · obtain ⟨w1, w2, w3⟩ := hsome a w ha hr
      have hwb := tr _ _ _ w2 (hbT a b h)
      cases hrb : X.rf b with
      | none => exact absurd hwb (hnone b hb hrb w w1)
      | some w' =>
        refine ⟨w', rfl, ?_⟩
        rw [hmo]
        exact ((hsome b w' hb hrb).2.2 w w1 hwb).imp Eq.symm id
    · rw [hmo]
      exact tr _ _ _ (hsome a w ha hr).2.1 (hbT a b h)
    · cases hrb : X.rf b with
      | none => exact absurd (hbT a b h) (hnone b hb hrb a ha)
      | some w =>
        refine ⟨w, rfl, ?_⟩
        rw [hmo]
        exact ((hsome b w hb hrb).2.2 a ha (hbT a b h)).imp Eq.symm id
    · cases hra : X.rf a with
      | none =>
        intro w h1
        rw [hmo]
        exact hnone a hr hra w h1
      | some w =>
        obtain ⟨w1, w2, w3⟩ := hsome a w hr hra
        rw [hmo]
        refine ⟨w2, fun w' h1 ⟨h2, h3⟩ => ?_⟩
        rcases w3 w' h1 h3 with rfl | h4
        · exact irr _ h2
        · exact irr _ (tr _ _ _ h2 h4)

theorem log_events {s : State n} {evs : List (Event n)} (h : Effective e s evs) (cnt : Fin n → Nat) : (logOf e s cnt evs).map (fun a => evOf a.1.1 a.2) = evs := by
  induction evs generalizing s cnt with
  | nil => rfl
  | cons ev evs ih =>
    obtain ⟨u, y, p, h1, -, -, -, -, -, -, h8, h9⟩ := logOf_cons h cnt
    rw [h9, List.map_cons, ih h8, h1]

/-- Where things are in a list of which the first components differ. -/
theorem idxOf_split {β : Type} {l pre post : List (MM.Ev n × β)} {a : MM.Ev n × β} (hn : (l.map Prod.fst).Nodup) (hl : l = pre ++ a :: post) :
    (l.map Prod.fst).idxOf a.1 = pre.length ∧ ∀ b ∈ pre, (l.map Prod.fst).idxOf b.1 < pre.length := by
  subst hl
  rw [List.map_append, List.map_cons, List.nodup_append] at hn
  rw [List.map_append, List.map_cons]
  constructor
  · rw [List.idxOf_append_of_notMem (fun h => hn.2.2 _ h _ (List.mem_cons_self ..) rfl), List.idxOf_cons_self, List.length_map]; rfl
  · intro b hb
    have hb' : b.1 ∈ pre.map Prod.fst := List.mem_map_of_mem hb
    rw [List.idxOf_append_of_mem hb']
    simpa using List.idxOf_lt_length_iff.mpr hb'

/-- The graph of a run. -/
def graphOf (e : Env) (c : Nat) (m : Mem) (evs : List (Event n)) (hb : MM.Ev n → MM.Ev n → Prop) : Graph n Act where
  acts t := traceOf e t (init n c m) evs
  initial := c
  rf r := (lastWrite ((logOf e (init n c m) (fun _ => 0) evs).take (((logOf e (init n c m) (fun _ => 0) evs).map Prod.fst).idxOf r))).map Prod.fst
  mo := Earlier ((logOf e (init n c m) (fun _ => 0) evs).map Prod.fst)
  hb := hb

theorem graph_possible {c : Nat} {m : Mem} {evs : List (Event n)} (h : Effective e (init n c m) evs) {hb : MM.Ev n → MM.Ev n → Prop}
    (hsb : ∀ t j k, j < k → k < (traceOf e t (init n c m) evs).length → hb (t, j) (t, k)) (htrans : ∀ a b c, hb a b → hb b c → hb a c)
    (htime : ∀ a b, hb a b → Earlier ((logOf e (init n c m) (fun _ => 0) evs).map Prod.fst) a b) :
    (graphOf e c m evs hb).WellFormed actKind ∧ (graphOf e c m evs hb).SeqCst actKind ∧ (graphOf e c m evs hb).Coherent actKind ∧ Executes e (graphOf e c m evs hb) ∧
    (graphOf e c m evs hb).Order ((logOf e (init n c m) (fun _ => 0) evs).map Prod.fst) ∧ ((logOf e (init n c m) (fun _ => 0) evs).map Prod.fst).map (schedule (graphOf e c m evs hb)) = evs := by
  generalize hlog : logOf e (init n c m) (fun _ => 0) evs = log at htime
  have hat : ∀ a x, (graphOf e c m evs hb).At a x ↔ (a, x) ∈ log := by
    intro a x
    rw [← hlog, show a = (a.1, a.2) from rfl, mem_log h]
    simp [Graph.At, graphOf]
  have hsorted := log_sorted h (fun _ => 0)
  rw [hlog] at hsorted
  have hnd : (log.map Prod.fst).Nodup := by
    rw [List.Nodup, List.pairwise_map]
    exact hsorted.imp fun h1 h2 => by rw [h2] at h1; exact Nat.lt_irrefl _ (h1 rfl)
  have hmem : ∀ a, (graphOf e c m evs hb).IsEvent a ↔ a ∈ log.map Prod.fst := by
    intro a
    simp only [Graph.IsEvent, hat, List.mem_map, Prod.exists, exists_and_right, exists_eq_right]
  have hwr : ∀ w, (graphOf e c m evs hb).IsWrite actKind w → ∃ y, (w, y) ∈ log ∧ (actKind.writes y).isSome = true := by
    rintro w ⟨v, y, h1, h2⟩
    exact ⟨y, (hat w y).mp h1, by rw [h2]; rfl⟩
  have main := timed_possible (X := graphOf e c m evs hb) (ord := log.map Prod.fst) hmem (by simp only [graphOf, hlog]) htime htrans hsb (by
    rintro r v ⟨x, hx, hv⟩
    obtain ⟨pre, post, hsplit⟩ := List.append_of_mem ((hat r x).mp hx)
    have hread := log_reads h (fun _ => 0) (hlog.trans hsplit) hv
    obtain ⟨hi, -⟩ := idxOf_split hnd hsplit
    have hrf : (graphOf e c m evs hb).rf r = (lastWrite pre).map Prod.fst := by
      have hi' : (log.map Prod.fst).idxOf r = pre.length := hi
      simp only [graphOf, hlog, hi']
      rw [hsplit, List.take_left' rfl]
    -- earlier events are in the prefix
    have hpre : ∀ w y, (w, y) ∈ log → Earlier (log.map Prod.fst) w r → (w, y) ∈ pre := by
      intro w y hw hwr
      rw [hsplit, List.mem_append] at hw
      rcases hw with hw | hw
      · exact hw
      · exfalso
        obtain ⟨mid, post', hmid⟩ := List.append_of_mem hw
        have h1 := (idxOf_split hnd (hsplit.trans (show pre ++ (r, x) :: post = (pre ++ mid) ++ (w, y) :: post' by rw [hmid, ← List.append_assoc]))).1
        have h2 := hwr.1
        have hi' : (log.map Prod.fst).idxOf r = pre.length := hi
        simp only at h1
        rw [h1, hi'] at h2
        simp at h2
    rw [hrf]
    cases hlw : lastWrite pre with
    | none =>
      rw [hlw] at hread
      refine ⟨hread, fun w hw hwr' => ?_⟩
      obtain ⟨y, h1, h2⟩ := hwr w hw
      rw [lastWrite, List.find?_eq_none] at hlw
      exact hlw _ (List.mem_reverse.mpr (hpre w y h1 hwr')) h2
    | some b =>
      rw [hlw] at hread
      rw [lastWrite, List.find?_eq_some_iff_append] at hlw
      obtain ⟨hb1, as, bs, hrev, has⟩ := hlw
      have hpre' : pre = bs.reverse ++ b :: as.reverse := by
        have := congrArg List.reverse hrev
        simpa using this
      have hbl : b ∈ log := by rw [hsplit, hpre']; simp
      obtain ⟨ib, ib'⟩ := idxOf_split hnd (hsplit.trans (show pre ++ (r, x) :: post = bs.reverse ++ b :: (as.reverse ++ (r, x) :: post) by rw [hpre']; simp))
      have hlen : pre.length = bs.reverse.length + (as.length + 1) := by rw [hpre']; simp
      have hin : ∀ a ∈ log, (log.map Prod.fst).idxOf a.1 < (log.map Prod.fst).length := fun a ha => List.idxOf_lt_length_iff.mpr (List.mem_map_of_mem ha)
      refine ⟨⟨b.2, (hat _ _).mpr hbl, ?_⟩, ⟨by have hi' : (log.map Prod.fst).idxOf r = pre.length := hi; rw [ib, hi']; omega, hin (r, x) (by rw [hsplit]; simp)⟩, fun w hw hwr' => ?_⟩
      · cases hbw : actKind.writes b.2 with
        | none => rw [hbw] at hb1; cases hb1
        | some u => simp only [hread, hbw]; rfl
      · obtain ⟨y, h1, h2⟩ := hwr w hw
        have h3 := hpre w y h1 hwr'
        rw [hpre', List.mem_append, List.mem_cons] at h3
        rcases h3 with h3 | h3 | h3
        · exact .inr ⟨by rw [ib]; exact ib' _ h3, hin b hbl⟩
        · left; rw [← h3]
        · have := has _ (List.mem_reverse.mp h3)
          rw [h2] at this; cases this)
  refine ⟨main.1, main.2.1, main.2.2, ⟨fun t => ?_, fun t call hc => ?_⟩, ⟨hnd, fun a => (hmem a).symm, ?_⟩, ?_⟩
  · exact (log_lrun h t).1
  · exact (log_lrun h t).2 call hc
  · rw [List.pairwise_iff_getElem]
    intro i j hi hj hij hba
    have h1 := (htime _ _ hba).1
    rw [hnd.idxOf_getElem, hnd.idxOf_getElem] at h1
    omega
  · conv => rhs; rw [← log_events h (fun _ => 0), hlog]
    rw [List.map_map]
    refine List.map_congr_left fun a ha => ?_
    exact schedule_eq ((hat a.1 a.2).mpr ha)

/-- Time is consistent with the program order. -/
theorem log_program_order {c : Nat} {m : Mem} {evs : List (Event n)} (h : Effective e (init n c m) evs) (t : Fin n) {j k : Nat} (hjk : j < k) (hk : k < (traceOf e t (init n c m) evs).length) :
    Earlier ((logOf e (init n c m) (fun _ => 0) evs).map Prod.fst) (t, j) (t, k) := by
  have hin : ∀ i, i < (traceOf e t (init n c m) evs).length → ∃ x, ((t, i), x) ∈ logOf e (init n c m) (fun _ => 0) evs := by
    intro i hi
    exact ⟨_, (mem_log h _ t i _).mpr ⟨Nat.zero_le _, List.getElem?_eq_getElem hi⟩⟩
  have hsorted := log_sorted h (fun _ => 0)
  obtain ⟨x, hx⟩ := hin j (by omega)
  obtain ⟨y, hy⟩ := hin k hk
  generalize logOf e (init n c m) (fun _ => 0) evs = log at *
  have hnd : (log.map Prod.fst).Nodup := by
    rw [List.Nodup, List.pairwise_map]
    exact hsorted.imp fun h1 h2 => by rw [h2] at h1; exact Nat.lt_irrefl _ (h1 rfl)
  refine ⟨?_, List.idxOf_lt_length_iff.mpr (List.mem_map_of_mem (f := Prod.fst) hy)⟩
  rw [List.pairwise_iff_getElem] at hsorted
  obtain ⟨a, ha, hax⟩ := List.getElem_of_mem hx
  obtain ⟨b, hb, hby⟩ := List.getElem_of_mem hy
  have ia : (log.map Prod.fst).idxOf (t, j) = a := by
    have := hnd.idxOf_getElem a (by simpa using ha)
    simpa [hax] using this
  have ib : (log.map Prod.fst).idxOf (t, k) = b := by
    have := hnd.idxOf_getElem b (by simpa using hb)
    simpa [hby] using this
  rw [ia, ib]
  rcases Nat.lt_trichotomy a b with h1 | h1 | h1
  · exact h1
  · subst h1; rw [hax] at hby; cases hby; omega
  · have := hsorted b a hb ha h1
    rw [hax, hby] at this
    have := this rfl
    simp only at this
    omega

end Verif.Bump
