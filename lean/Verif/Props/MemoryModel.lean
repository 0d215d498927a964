import Verif.Proofs.BumpComplete
import Verif.Props.BumpSafety
/-!
# C90: the guarantees of the shared bump hold in the memory model of the language
-/
set_option autoImplicit false
namespace Verif.Bump
open MM Lin
variable {n : Nat} {e : Env} {X : Graph n Act}

/-- The atomic operations are `SeqCst`, as in the code; or, weaker, of any ordering. -/
def Possible (X : Graph n Act) : Prop := X.WellFormed actKind ∧ (X.SeqCst actKind ∨ X.Coherent actKind)

theorem Possible.ordered (h : Possible X) : ∃ S, X.Ordered actKind S := by
  rcases h.2 with h' | h'
  · exact Graph.ordered_of_seqCst h'
  · exact ⟨_, Graph.ordered_of_coherent h.1 h'⟩

/-- The run of the machine. -/
theorem Possible.run (h : Possible X) (hx : Executes e X) (m : Mem) : ∃ ord, X.Order ord ∧ Done e X ord (run e (init n X.initial m) (ord.map (schedule X))) ∧
    (∀ t, traceOf e t (init n X.initial m) (ord.map (schedule X)) = X.acts t) ∧
    observable (Bump.run e (init n X.initial m) (ord.map (schedule X))).hist = ord.filterMap (obsAt X) ∧
    handedOut (Bump.run e (init n X.initial m) (ord.map (schedule X))).hist = (ord.filterMap (grantAt X)).reverse := by
  obtain ⟨S, hs⟩ := h.ordered
  obtain ⟨ord, ho, hb⟩ := Graph.exists_total h.1 hs
  obtain ⟨h1, h2, h3, h4⟩ := done_run h.1 hs hx.1 [] ord ho hb (done_init m)
  exact ⟨ord, ho, h1, fun t => by simpa using h2 t 0 (by simp), by simpa [init, observable] using h3, by simpa [init, handedOut] using h4⟩

/-- **C90** Every execution that the memory model permits is an interleaving: there is an order of all the actions, consistent with happens-before, such that executing them one after the other, with `consumed` as a variable in a common
memory (the machine of `Model/Bump`), every thread does and gets the same. -/
theorem C90_interleaving (h : Possible X) (hx : Executes e X) (m : Mem) :
    ∃ ord, X.Order ord ∧ ∀ t, traceOf e t (init n X.initial m) (ord.map (schedule X)) = X.acts t := by
  obtain ⟨ord, h1, _, h2, _⟩ := h.run hx m
  exact ⟨ord, h1, h2⟩

/-- **C90** And conversely: for every interleaving, and every happens-before that contains the program order and that is consistent with the order of time, there are reads-from and modification order such that this is a possible execution, with
`SeqCst` operations and with any weaker ordering. So nothing is lost by considering interleavings, and the theorems about executions are about something. -/
theorem C90_complete {c : Nat} {m : Mem} {evs : List (Event n)} (h : Effective e (init n c m) evs) :
    ∃ ord : List (MM.Ev n), (∀ t j k, j < k → k < (traceOf e t (init n c m) evs).length → Earlier ord (t, j) (t, k)) ∧ ∀ hb : MM.Ev n → MM.Ev n → Prop,
      (∀ t j k, j < k → k < (traceOf e t (init n c m) evs).length → hb (t, j) (t, k)) → (∀ a b c, hb a b → hb b c → hb a c) → (∀ a b, hb a b → Earlier ord a b) →
      ∃ X : Graph n Act, X.hb = hb ∧ X.initial = c ∧ (∀ t, X.acts t = traceOf e t (init n c m) evs) ∧ X.WellFormed actKind ∧ X.SeqCst actKind ∧ X.Coherent actKind ∧ Executes e X ∧
        X.Order ord ∧ ord.map (schedule X) = evs :=
  ⟨_, fun t _ _ => log_program_order h t, fun hb h1 h2 h3 => ⟨graphOf e c m evs hb, rfl, rfl, fun _ => rfl, graph_possible h h1 h2 h3⟩⟩

theorem schedule_valid (hx : Executes e X) (ord : List (MM.Ev n)) : ∀ ev ∈ ord.map (schedule X), Event.Valid e.target ev := by
  intro ev hev
  obtain ⟨a, _, rfl⟩ := List.mem_map.mp hev
  simp only [schedule]
  split
  · rename_i call heq
    exact hx.2 _ _ (List.mem_of_getElem? heq)
  · trivial

theorem reachable_sched (hi : X.initial ≤ e.len) (hx : Executes e X) (ord : List (MM.Ev n)) (m : Mem) : Reachable e (run e (init n X.initial m) (ord.map (schedule X))) :=
  ⟨_, m, _, hi, schedule_valid hx ord, rfl⟩

theorem no_reset (ord : List (MM.Ev n)) (s : State n) (h : Ev.reset ∉ s.hist) : Ev.reset ∉ (run e s (ord.map (schedule X))).hist := by
  induction ord generalizing s with
  | nil => exact h
  | cons a ord ih =>
    refine ih _ ?_
    have : schedule X a = .step a.1 ∨ ∃ call, schedule X a = .invoke a.1 call := by
      simp only [schedule]; split
      · exact .inr ⟨_, rfl⟩
      · exact .inl rfl
    rcases this with h1 | ⟨call, h1⟩ <;> rw [h1]
    · simp only [exec, step, State.decide]
      split <;> (try split) <;> (try split) <;> simp_all
    · simp only [exec]
      split <;> simp_all

/-- **C90** The calls are linearizable with respect to happens-before: in some order of the actions that is consistent with happens-before, the calls are those of the sequential allocator, executed at instants between their start and their return. -/
theorem C90_linearizable (he : e.Valid) (hi : X.initial ≤ e.len) (h : Possible X) (hx : Executes e X) :
    ∃ ord, X.Order ord ∧ Linearizable (specApply e.zst e.slab) X.initial (ord.filterMap (obsAt X)) := by
  obtain ⟨ord, h1, _, _, h3, _⟩ := h.run hx fun _ => 0
  refine ⟨ord, h1, ?_⟩
  have := C10_linearizable (s := init n X.initial fun _ => 0) he ⟨X.initial, _, [], hi, by simp, rfl⟩ (fun _ => rfl) (schedule_valid hx ord)
    (new := (Bump.run e (init n X.initial fun _ => 0) (ord.map (schedule X))).hist) (by simp [init]) (no_reset ord _ (by simp [init]))
  rw [h3] at this
  exact this

theorem pairwise_filterMap {α β : Type} {R : β → β → Prop} (hsym : ∀ a b, R a b → R b a) {f : α → Option β} {l : List α} (h : (l.filterMap f).reverse.Pairwise R) {a b : α} (ha : a ∈ l) (hb : b ∈ l) (hab : a ≠ b)
    {x y : β} (hx : f a = some x) (hy : f b = some y) : R x y := by
  rw [List.pairwise_reverse, List.pairwise_filterMap, List.pairwise_iff_getElem] at h
  obtain ⟨i, hi, rfl⟩ := List.getElem_of_mem ha
  obtain ⟨j, hj, rfl⟩ := List.getElem_of_mem hb
  rcases Nat.lt_trichotomy i j with h1 | rfl | h1
  · exact hsym _ _ (h i j hi hj h1 x hx y hy)
  · exact absurd rfl hab
  · exact h j i hj hi h1 y hy x hx

/-- **C90** Memory that was returned by two calls does not overlap, and lies within the storage. -/
theorem C90_disjoint (he : e.Valid) (hi : X.initial ≤ e.len) (h : Possible X) (hx : Executes e X) {a b : MM.Ev n} {ca cb : Call} {ra rb : Ret} {p q : Region}
    (ha : X.At a (.ret ca ra)) (hp : grant ca ra = some p) (hb : X.At b (.ret cb rb)) (hq : grant cb rb = some q) :
    p.Within ⟨e.base, e.len⟩ ∧ (a ≠ b → p.Disjoint q) := by
  obtain ⟨ord, ho, _, _, _, h4⟩ := h.run hx fun _ => 0
  have hr := reachable_sched hi hx ord fun _ => 0
  have hga : grantAt X a = some p := by simp only [Graph.At] at ha; simp [grantAt, ha, grantOf, hp]
  have hgb : grantAt X b = some q := by simp only [Graph.At] at hb; simp [grantAt, hb, grantOf, hq]
  have ma : a ∈ ord := (ho.2.1 a).mpr ⟨_, ha⟩
  have mb : b ∈ ord := (ho.2.1 b).mpr ⟨_, hb⟩
  constructor
  · have := (hr.inv2 he).A p (by rw [h4]; simp only [List.mem_reverse, List.mem_filterMap]; exact ⟨a, ma, hga⟩)
    have hl := (hr.inv he).le
    exact ⟨this.1, by show p.start + p.size ≤ e.base + e.len; omega⟩
  · intro hab
    have := C01_handed_out_disjoint he hr
    rw [h4] at this
    exact pairwise_filterMap (fun _ _ => Region.Disjoint.symm) this ma mb hab hga hgb

/-- The event `b` is the return that follows the write `a`. -/
def ReturnsWritten (a b : MM.Ev n) : Prop := b.1 = a.1 ∧ b.2 = a.2 + 1

/-- Where the memory of a write is at the end: returned by the next action of the thread, or the thread is about to return it. -/
theorem write_fate (hx : Executes e X) {ord : List (MM.Ev n)} {s : State n} (ho : X.Order ord) (hd : Done e X ord s) {t : Fin n} {k : Nat} {r : Region} (hw : X.At (t, k) (.write r)) (hr : 0 < r.size) :
    (∃ call ret, X.At (t, k + 1) (.ret call ret) ∧ grant call ret = some r) ∨ (Taken s t r ∧ (X.acts t).length = k + 1) := by
  obtain ⟨k', h1, h2, h3⟩ := hd.local_ t
  have hall : k' = (X.acts t).length := Nat.le_antisymm h1 (Nat.le_of_not_lt fun hlt =>
    Nat.lt_irrefl _ ((h2 k').mp ((ho.2.1 (t, k')).mpr ((Graph.isEvent_iff _).mpr hlt))))
  rw [hall, List.take_length] at h3
  have hk : k < (X.acts t).length := (List.getElem?_eq_some_iff.mp hw).1
  have hxk : (X.acts t)[k] = .write r := (List.getElem?_eq_some_iff.mp hw).2
  have hsplit : X.acts t = ((X.acts t).take k ++ [.write r]) ++ (X.acts t).drop (k + 1) := by
    conv => lhs; rw [← List.take_append_drop k (X.acts t), List.drop_eq_getElem_cons hk, hxk]
    simp
  rw [hsplit, lrun_append] at h3
  cases h4 : lrun e .idle ((X.acts t).take k ++ [.write r]) with
  | none => rw [h4] at h3; cases h3
  | some q =>
    rw [h4] at h3
    obtain ⟨call, a, l, rfl, hl, hl0, rfl, hptr, hg⟩ := write_then (fun call hc => hx.2 t call (List.mem_of_mem_take hc)) h4 hr
    simp only [Option.bind_some] at h3
    by_cases hlast : k + 1 < (X.acts t).length
    · left
      rw [List.drop_eq_getElem_cons hlast] at h3
      simp only [lrun] at h3
      generalize hy : (X.acts t)[k + 1] = y at h3
      cases y <;> simp only [lnext, Option.bind_none, reduceCtorEq] at h3
      case ret call' r' =>
        split at h3
        · rename_i hc
          obtain ⟨rfl, rfl⟩ := hc
          exact ⟨_, _, List.getElem?_eq_some_iff.mpr ⟨hlast, hy⟩, hg⟩
        · cases h3
    · right
      rw [List.drop_eq_nil_of_le (by omega)] at h3
      simp only [lrun, Option.some.injEq] at h3
      exact ⟨.inr ⟨call, _, l, a.ptr, h3.symm, hl, hl0, hptr, rfl⟩, by omega⟩

/-- **C90** No data races on the storage: the memory to which a call writes its value is not the memory to which another call writes, nor memory that another call has returned, whether or not these are ordered by happens-before. -/
theorem C90_no_race (he : e.Valid) (hi : X.initial ≤ e.len) (h : Possible X) (hx : Executes e X) {a b : MM.Ev n} {p q : Region} (ha : X.At a (.write p)) :
    (X.At b (.write q) → a ≠ b → p.Disjoint q) ∧
    ∀ call r, X.At b (.ret call r) → grant call r = some q → ¬ ReturnsWritten a b → p.Disjoint q := by
  obtain ⟨ord, ho, hd, _, _, h4⟩ := h.run hx fun _ => 0
  have hr := reachable_sched hi hx ord fun _ => 0
  by_cases hp : p.size = 0
  · exact ⟨fun _ _ => by rw [Region.disjoint_iff]; exact .inl hp, fun _ _ _ _ _ => by rw [Region.disjoint_iff]; exact .inl hp⟩
  have hgiven : ∀ b call r, X.At b (.ret call r) → grant call r = some q → q ∈ handedOut (run e (init n X.initial fun _ => 0) (ord.map (schedule X))).hist := by
    intro b call r hb hg
    rw [h4]
    simp only [List.mem_reverse, List.mem_filterMap]
    refine ⟨b, (ho.2.1 b).mpr ⟨_, hb⟩, ?_⟩
    simp only [Graph.At] at hb
    simp [grantAt, hb, grantOf, hg]
  have hret : ∀ call r b, X.At b (.ret call r) → grant call r = some q → ¬ ReturnsWritten a b → p.Disjoint q := by
    intro call r b hb hg hnot
    rcases write_fate hx ho hd (t := a.1) (k := a.2) ha (by omega) with ⟨c', r', h1, h2⟩ | ⟨h1, _⟩
    · exact (C90_disjoint he hi h hx h1 h2 hb hg).2 (by rintro rfl; exact hnot ⟨rfl, rfl⟩)
    · exact (C01_in_flight_disjoint he hr h1).2 _ (hgiven b call r hb hg)
  refine ⟨fun hb hab => ?_, fun call r hb hg hnot => hret call r b hb hg hnot⟩
  by_cases hq : q.size = 0
  · rw [Region.disjoint_iff]; exact .inr (.inl hq)
  rcases write_fate hx ho hd (t := b.1) (k := b.2) hb (by omega) with ⟨c', r', h1, h2⟩ | ⟨h1, l1⟩
  · exact hret c' r' _ h1 h2 fun hc => hab (Prod.ext hc.1.symm (by have := hc.2; simp only at this; omega))
  · rcases write_fate hx ho hd (t := a.1) (k := a.2) ha (by omega) with ⟨c', r', h3, h4'⟩ | ⟨h3, l3⟩
    · refine ((C01_in_flight_disjoint he hr h1).2 p ?_).symm
      rw [h4]
      simp only [List.mem_reverse, List.mem_filterMap]
      refine ⟨_, (ho.2.1 _).mpr ⟨_, h3⟩, ?_⟩
      simp only [Graph.At] at h3
      simp [grantAt, h3, grantOf, h4']
    · refine (C01_in_flight_disjoint he hr h3).1 b.1 (fun hc => hab (Prod.ext hc.symm ?_)) q h1
      rw [hc] at l1; omega

/-- **C90** So who uses the memory after the call has returned it (in the sense of happens-before) races with no call: every write of a call to some of this memory happens before the return. -/
theorem C90_ordered (he : e.Valid) (hi : X.initial ≤ e.len) (h : Possible X) (hx : Executes e X) {a b c : MM.Ev n} {p q : Region} {call : Call} {r : Ret} (ha : X.At a (.write p))
    (hb : X.At b (.ret call r)) (hq : grant call r = some q) (hover : ¬ p.Disjoint q) (hc : X.hb b c) : X.hb a c := by
  have := (C90_no_race he hi h hx (b := b) (q := q) ha).2 call r hb hq
  have hret : ReturnsWritten a b := Classical.byContradiction fun hn => hover (this hn)
  obtain ⟨t, j⟩ := a
  obtain ⟨u, k⟩ := b
  obtain ⟨rfl, rfl⟩ : u = t ∧ k = j + 1 := hret
  exact h.1.hb_trans _ _ _ (h.1.sb u j (j + 1) (Nat.lt_succ_self j) (List.getElem?_eq_some_iff.mp hb).1) hc

end Verif.Bump
