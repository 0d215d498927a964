import Verif.Proofs.GlobalInterleaving
import Verif.Proofs.BumpComplete
/-! # Runs of the machine are executions of the memory model -/
set_option autoImplicit false
namespace Verif.MM
variable {n : Nat}

theorem earlier_snoc {ord : List (Ev n)} {a : Ev n} (ha : a ∉ ord) (b c : Ev n) : Earlier (ord ++ [a]) b c ↔ Earlier ord b c ∨ (b ∈ ord ∧ c = a) := by
  have hlt : ∀ d, d ∈ ord → (ord ++ [a]).idxOf d = ord.idxOf d ∧ ord.idxOf d < ord.length := fun d hd => ⟨List.idxOf_append_of_mem hd, List.idxOf_lt_length_iff.mpr hd⟩
  have hge : ∀ d, d ∉ ord → (ord ++ [a]).idxOf d = ord.length + [a].idxOf d := fun d hd => by rw [List.idxOf_append_of_notMem hd]
  have hnot : ∀ d, d ∉ ord → ord.idxOf d = ord.length := fun d hd => List.idxOf_eq_length hd
  have hself : [a].idxOf a = 0 := by simp
  simp only [Earlier, List.length_append, List.length_singleton]
  by_cases hc : c ∈ ord
  · obtain ⟨c1, c2⟩ := hlt c hc
    have hca : c ≠ a := fun h => ha (h ▸ hc)
    by_cases hb : b ∈ ord
    · obtain ⟨b1, b2⟩ := hlt b hb
      rw [b1, c1]
      simp only [hca, and_false, or_false]
      constructor <;> intro h <;> omega
    · have := hge b hb
      have := hnot b hb
      simp only [hca, and_false, or_false]
      constructor <;> intro h <;> omega
  · have h1 := hge c hc
    have h2 := hnot c hc
    by_cases hca : c = a
    · subst hca
      rw [hself] at h1
      by_cases hb : b ∈ ord
      · obtain ⟨b1, b2⟩ := hlt b hb
        simp only [hb, and_self, or_true, iff_true]
        omega
      · have := hge b hb
        simp only [hb, false_and, or_false]
        constructor <;> intro h <;> omega
    · have h3 : [a].idxOf c = 1 := by
        rw [List.idxOf_cons]
        have : (a == c) = false := by rw [beq_eq_false_iff_ne]; exact fun h => hca h.symm
        simp [this]
      simp only [hca, and_false, or_false]
      constructor <;> intro h <;> omega

end Verif.MM

namespace Verif.Bump.Conc
open MM
variable {n : Nat} {e : Env} {m : Mem} {X : Graph n GAct} {src : MM.Ev n → MM.Ev n} {ord : List (MM.Ev n)}

/-- The next event of a thread. -/
def nextEv (X : Graph n GAct) (t : _root_.Fin n) : MM.Ev n := (t, (X.acts t).length)

/-- The execution with one more action. -/
def addAct (X : Graph n GAct) (ord : List (MM.Ev n)) (t : _root_.Fin n) (x : GAct) (w : Option (MM.Ev n)) : Graph n GAct where
  acts u := if u = t then X.acts t ++ [x] else X.acts u
  initial := X.initial
  rf b := if b = nextEv X t then w else X.rf b
  mo := Earlier (ord ++ [nextEv X t])
  hb := Earlier (ord ++ [nextEv X t])

section
variable {t : _root_.Fin n} {x : GAct} {w0 : Option (MM.Ev n)}

theorem next_no (X : Graph n GAct) (t : _root_.Fin n) : ¬ X.IsEvent (nextEv X t) := by
  rintro ⟨y, h⟩
  simp [Graph.At, nextEv] at h

theorem At.ne {b : MM.Ev n} {y : GAct} (h : X.At b y) : b ≠ nextEv X t := fun h' => next_no X t (h' ▸ ⟨y, h⟩)

theorem add_at (b : MM.Ev n) (y : GAct) : (addAct X ord t x w0).At b y ↔ X.At b y ∨ (b = nextEv X t ∧ y = x) := by
  obtain ⟨u, k⟩ := b
  simp only [Graph.At, addAct, nextEv, Prod.mk.injEq]
  by_cases hu : u = t
  · subst hu
    simp only [if_true, true_and]
    rcases Nat.lt_trichotomy k (X.acts u).length with h | h | h
    · rw [List.getElem?_append_left h]
      have : k ≠ (X.acts u).length := by omega
      simp [this]
    · subst h
      simp [eq_comm]
    · have : k ≠ (X.acts u).length := by omega
      rw [List.getElem?_eq_none (by simp; omega), List.getElem?_eq_none (by omega)]
      simp [this]
  · simp [hu]

theorem add_mono {b : MM.Ev n} {y : GAct} (h : X.At b y) : (addAct X ord t x w0).At b y := (add_at b y).mpr (.inl h)
theorem add_new : (addAct X ord t x w0).At (nextEv X t) x := (add_at _ _).mpr (.inr ⟨rfl, rfl⟩)
theorem add_old {b : MM.Ev n} {y : GAct} (h : (addAct X ord t x w0).At b y) (hb : b ≠ nextEv X t) : X.At b y := ((add_at b y).mp h).resolve_right fun h => hb h.1
theorem add_self {y : GAct} (h : (addAct X ord t x w0).At (nextEv X t) y) : y = x := at_unique h add_new

theorem add_event (b : MM.Ev n) : (addAct X ord t x w0).IsEvent b ↔ X.IsEvent b ∨ b = nextEv X t := by
  simp only [Graph.IsEvent, add_at]
  constructor
  · rintro ⟨y, h | h⟩
    · exact .inl ⟨y, h⟩
    · exact .inr h.1
  · rintro (⟨y, h⟩ | h)
    · exact ⟨y, .inl h⟩
    · exact ⟨x, .inr ⟨h, rfl⟩⟩

theorem gives_mono {r : MM.Ev n} {b : Block} (h : Gives X r b) : Gives (addAct X ord t x w0) r b := let ⟨op, res, h1, h2⟩ := h; ⟨op, res, add_mono h1, h2⟩

theorem takes_add {i : MM.Ev n} {b : Block} (h : Takes (addAct X ord t x w0) i b) : (i ≠ nextEv X t ∧ Takes X i b) ∨ (i = nextEv X t ∧ ∃ op, x = .invoke op ∧ op.takes = some b) := by
  obtain ⟨op, h1, h2⟩ := h
  by_cases hi : i = nextEv X t
  · subst hi; exact .inr ⟨rfl, op, (add_self h1).symm, h2⟩
  · exact .inl ⟨hi, op, add_old h1 hi, h2⟩

theorem uses_add {i : MM.Ev n} {p : Nat} (h : UserUses (addAct X ord t x w0) i p) : (i ≠ nextEv X t ∧ UserUses X i p) ∨ (i = nextEv X t ∧ ∃ v, x = .userWrite p v ∨ x = .userRead p v) := by
  by_cases hi : i = nextEv X t
  · subst hi
    refine .inr ⟨rfl, ?_⟩
    rcases h with ⟨v, h⟩ | ⟨v, h⟩
    · exact ⟨v, .inr (add_self h).symm⟩
    · exact ⟨v, .inl (add_self h).symm⟩
  · refine .inl ⟨hi, ?_⟩
    rcases h with ⟨v, h⟩ | ⟨v, h⟩
    · exact .inl ⟨v, add_old h hi⟩
    · exact .inr ⟨v, add_old h hi⟩

theorem userWrites_add {i : MM.Ev n} {p : Nat} (h : UserWrites (addAct X ord t x w0) i p) (hi : i ≠ nextEv X t) : UserWrites X i p := h.imp fun _ h => add_old h hi

theorem writesByte_old {i : MM.Ev n} {p : Nat} (h : WritesByte (addAct X ord t x w0) i p) (hi : i ≠ nextEv X t) : WritesByte X i p := by
  rcases h with ⟨v, h⟩ | ⟨v, h⟩ | ⟨r, h, h'⟩
  · exact .inl ⟨v, add_old h hi⟩
  · exact .inr (.inl ⟨v, add_old h hi⟩)
  · exact .inr (.inr ⟨r, add_old h hi, h'⟩)

theorem storesByte_mono {i : MM.Ev n} {p : Nat} {v : Byte} (h : StoresByte X i p v) : StoresByte (addAct X ord t x w0) i p v := by
  rcases h with h | h | ⟨r, j, call, bytes, h1, h2, ⟨h3, h4, h5⟩, h6⟩
  · exact .inl (add_mono h)
  · exact .inr (.inl (add_mono h))
  · refine .inr (.inr ⟨r, j, call, bytes, add_mono h1, h2, ⟨h3, add_mono h4, fun k c k1 k2 k3 => ?_⟩, h6⟩)
    rcases (add_at _ _).mp k3 with k3 | ⟨k3, -⟩
    · exact h5 k c k1 k2 k3
    · simp only [nextEv, Prod.mk.injEq] at k3
      have h1' : i.2 < (X.acts i.1).length := (List.getElem?_eq_some_iff.mp h1).1
      rw [← k3.1] at k3
      omega

theorem reads_old {r : MM.Ev n} {v : Nat} (h : (addAct X ord t x w0).Reads gKind r v) (hr : r ≠ nextEv X t) : X.Reads gKind r v := let ⟨y, h1, h2⟩ := h; ⟨y, add_old h1 hr, h2⟩
theorem writes_old {r : MM.Ev n} {v : Nat} (h : (addAct X ord t x w0).Writes gKind r v) (hr : r ≠ nextEv X t) : X.Writes gKind r v := let ⟨y, h1, h2⟩ := h; ⟨y, add_old h1 hr, h2⟩
theorem writes_mono {r : MM.Ev n} {v : Nat} (h : X.Writes gKind r v) : (addAct X ord t x w0).Writes gKind r v := let ⟨y, h1, h2⟩ := h; ⟨y, add_mono h1, h2⟩

end

/-- An execution, in the order of time, and the state of the machine after it. `own`: the blocks that are owned, with the returns that gave them. -/
structure Built (e : Env) (m : Mem) (X : Graph n GAct) (src : MM.Ev n → MM.Ev n) (ord : List (MM.Ev n)) (own : List (Block × MM.Ev n)) (loc : _root_.Fin n → Loc) (s : State n) : Prop where
  nodup : ord.Nodup
  mem_ord : ∀ a, a ∈ ord ↔ X.IsEvent a
  hb : X.hb = Earlier ord
  mo : X.mo = Earlier ord
  sb : ∀ t j k, j < k → k < (X.acts t).length → Earlier ord (t, j) (t, k)
  locs : ∀ t, grun e .start (X.acts t) = some (loc t) ∧ s.pc t = (loc t).pc ∧ s.bump.pc t = (loc t).inner
  valid : ∀ t op, GAct.invoke op ∈ X.acts t → op.Valid e.target
  rf : ∀ r v, X.Reads gKind r v → (∃ w, X.rf r = some w ∧ X.Writes gKind w v ∧ Earlier ord w r ∧ ∀ w', X.IsWrite gKind w' → Earlier ord w' r → w' = w ∨ Earlier ord w' w) ∨
    (X.rf r = none ∧ v = X.initial ∧ ∀ w, X.IsWrite gKind w → ¬ Earlier ord w r)
  last : (∃ w, X.Writes gKind w s.bump.consumed ∧ ∀ w', X.IsWrite gKind w' → w' = w ∨ Earlier ord w' w) ∨ (s.bump.consumed = X.initial ∧ ∀ w, ¬ X.IsWrite gKind w)
  mem : ∀ q, (∃ w, StoresByte X w q (s.bump.mem q) ∧ ∀ w', WritesByte X w' q → w' = w ∨ Earlier ord w' w) ∨ ((∀ w, ¬ WritesByte X w q) ∧ s.bump.mem q = m q)
  reads : ReadsVisibleFrom X m
  disc : Disciplined X src
  live : (own.map Prod.fst).Perm s.live
  gives : ∀ y ∈ own, Gives X y.2 y.1
  fresh : (own.map Prod.snd).Nodup
  kept : ∀ i b, Takes X i b → src i ∉ own.map Prod.snd

/-- The label of an event: its thread and its action. -/
def label (X : Graph n GAct) (a : MM.Ev n) : _root_.Fin n × Option GAct := (a.1, (X.acts a.1)[a.2]?)

/-- The blocks that are owned after the action. -/
def ownAfter (own : List (Block × MM.Ev n)) (a r : MM.Ev n) : GAct → List (Block × MM.Ev n)
  | .ret op res => (op.gives res).toList.map (·, a) ++ own
  | .invoke op => match op.takes with
    | some b => own.erase (b, r)
    | none => own
  | _ => own

theorem Gives.event {r : MM.Ev n} {b : Block} (h : Gives X r b) : X.IsEvent r := let ⟨_, _, h, _⟩ := h; ⟨_, h⟩
theorem Takes.event {r : MM.Ev n} {b : Block} (h : Takes X r b) : X.IsEvent r := let ⟨_, h, _⟩ := h; ⟨_, h⟩
theorem UserUses.event {r : MM.Ev n} {p : Nat} (h : UserUses X r p) : X.IsEvent r := by rcases h with ⟨_, h⟩ | ⟨_, h⟩ <;> exact ⟨_, h⟩
theorem StoresByte.event {a : MM.Ev n} {p : Nat} {v : Byte} (h : StoresByte X a p v) : X.IsEvent a := h.writes.event

theorem ownAfter_sub {own : List (Block × MM.Ev n)} {a r : MM.Ev n} {x : GAct} {y : Block × MM.Ev n} (h : y ∈ ownAfter own a r x) : y ∈ own ∨ (y.2 = a ∧ ∃ op res, x = .ret op res ∧ op.gives res = some y.1) := by
  cases x <;> simp only [ownAfter] at h
  case ret op res =>
    simp only [List.mem_append, List.mem_map, Option.mem_toList] at h
    rcases h with ⟨b, h1, rfl⟩ | h
    · exact .inr ⟨rfl, op, res, rfl, h1⟩
    · exact .inl h
  case invoke op =>
    split at h
    · exact .inl (List.mem_of_mem_erase h)
    · exact .inl h
  all_goals exact .inl h

theorem extend {own : List (Block × MM.Ev n)} {loc : _root_.Fin n → Loc} {s : State n} (h : Built e m X src ord own loc s) {t : _root_.Fin n} {x : GAct} {l' : Loc} {r : MM.Ev n} (hn : gnext e (loc t) x = some l')
    (hv : ∀ op, x = .invoke op → op.Valid e.target) (hr : ∀ v, gKind.reads x = some v → v = s.bump.consumed)
    (hh : ∀ b ns dst i v, (loc t).pc = .copy b ns dst i → (loc t).held = some v → s.bump.mem (b.ptr + i) = v)
    (ht : ∀ op b, x = .invoke op → op.takes = some b → (b, r) ∈ own)
    (hu : ∀ p v, x = .userWrite p v ∨ x = .userRead p v → ∃ b, (b, r) ∈ own ∧ b.region.Has p)
    (hrd : ∀ p v, x = .userRead p v ∨ x = .read p v → v = s.bump.mem p) :
    ∃ X' src' own', Built e m X' src' (ord ++ [nextEv X t]) own' (fun u => if u = t then l' else loc u) (run e s (machineEvents X' src' (nextEv X t))) ∧ X'.initial = X.initial ∧
      (ord ++ [nextEv X t]).flatMap (machineEvents X' src') = ord.flatMap (machineEvents X src) ++ machineEvents X' src' (nextEv X t) ∧
      (ord ++ [nextEv X t]).map (label X') = ord.map (label X) ++ [(t, some x)] ∧ X'.At (nextEv X t) x ∧ (∀ b, (b, r) ∈ own → blockAt X' (src' (nextEv X t)) = some b) := by
  -- what `consumed` is read from
  have hw0 : ∃ w0 : Option (MM.Ev n), (∃ w, w0 = some w ∧ X.Writes gKind w s.bump.consumed ∧ ∀ w', X.IsWrite gKind w' → w' = w ∨ Earlier ord w' w) ∨ (w0 = none ∧ s.bump.consumed = X.initial ∧ ∀ w, ¬ X.IsWrite gKind w) := by
    rcases h.last with ⟨w, h1, h2⟩ | ⟨h1, h2⟩
    · exact ⟨some w, .inl ⟨w, rfl, h1, h2⟩⟩
    · exact ⟨none, .inr ⟨rfl, h1, h2⟩⟩
  obtain ⟨w0, hw0⟩ := hw0
  have hno : nextEv X t ∉ ord := fun h' => next_no X t ((h.mem_ord _).mp h')
  have hse := earlier_snoc hno
  have hnone : ∀ b, ¬ Earlier (ord ++ [nextEv X t]) (nextEv X t) b := fun b hb => by
    rcases (hse _ _).mp hb with h1 | h1
    · exact hno h1.mem.1
    · exact hno h1.1
  have hlate : ∀ b, X.IsEvent b → Earlier (ord ++ [nextEv X t]) b (nextEv X t) := fun b hb => (hse _ _).mpr (.inr ⟨(h.mem_ord b).mpr hb, rfl⟩)
  have hold : ∀ b c, Earlier ord b c → Earlier (ord ++ [nextEv X t]) b c := fun b c h1 => (hse b c).mpr (.inl h1)
  have hback : ∀ b c, c ≠ nextEv X t → Earlier (ord ++ [nextEv X t]) b c → Earlier ord b c := fun b c hc h1 => ((hse b c).mp h1).resolve_right fun h => hc h.2
  have hevne : ∀ b, X.IsEvent b → b ≠ nextEv X t := fun b hb hb' => next_no X t (hb' ▸ hb)
  have hsrc : ∀ b, (b, r) ∈ own → Gives X r b := fun b hb => h.gives _ hb
  obtain ⟨hl1, hl2, hl3⟩ := h.locs t
  generalize hX' : addAct X ord t x w0 = X'
  generalize hS' : (fun b => if b = nextEv X t then r else src b) = src'
  have hsn : src' (nextEv X t) = r := by rw [← hS']; simp
  have hso : ∀ b, b ≠ nextEv X t → src' b = src b := fun b hb => by rw [← hS']; simp [hb]
  have hat : X'.At (nextEv X t) x := by rw [← hX']; exact add_new
  -- the code of the thread
  have hacts : X'.acts t = X.acts t ++ [x] := by rw [← hX']; simp [addAct]
  have hactso : ∀ u, u ≠ t → X'.acts u = X.acts u := fun u hu => by rw [← hX']; simp [addAct, hu]
  have hrun' : grun e .start (X'.acts t) = some l' := by
    rw [hacts, grun_append, hl1]
    simp only [Option.bind_some, grun, hn]
  have hvalid' : ∀ u op, GAct.invoke op ∈ X'.acts u → op.Valid e.target := by
    intro u op hop
    by_cases hu : u = t
    · subst hu
      rw [hacts, List.mem_append, List.mem_singleton] at hop
      rcases hop with hop | hop
      · exact h.valid u op hop
      · exact hv op hop.symm
    · rw [hactso u hu] at hop
      exact h.valid u op hop
  obtain ⟨l0, p1, p2, p3, -, -⟩ := prefix_at (hvalid' t) hrun' (j := (X.acts t).length) (by rw [hacts]; simp)
  have hl0 : l0 = loc t := by
    rw [hacts, List.take_left, hl1] at p1
    exact (Option.some.inj p1).symm
  subst hl0
  have hblock : ∀ b, (b, r) ∈ own → blockAt X' (src' (nextEv X t)) = some b := fun b hb => by
    rw [hsn]; refine blockAt_eq ?_; rw [← hX']; exact gives_mono (hsrc b hb)
  -- the machine
  have hM := machine_step (src := src') hat (a := nextEv X t) hl2 hl3 hn p2 hr hh
    (fun op hop b hb => h.live.mem_iff.mp (List.mem_map_of_mem (ht op b hop hb)))
    (fun p v hp => by
      obtain ⟨b, h1, h2⟩ := hu p v (.inl hp)
      exact ⟨b, hblock b h1, h.live.mem_iff.mp (List.mem_map_of_mem h1), h2⟩)
  have hmm := moved_mem (X := X') (a := nextEv X t) hat hn p3 hM
  have hmach : ∀ b ∈ ord, machineEvents X' src' b = machineEvents X src b := by
    intro b hb
    have hev := (h.mem_ord b).mp hb
    have hbne := hevne b hev
    obtain ⟨y, hy⟩ := hev
    have hy' : X'.At b y := by rw [← hX']; exact add_mono hy
    simp only [Graph.At] at hy hy'
    simp only [machineEvents, hy, hy']
    cases y <;> try rfl
    case userWrite p v =>
      simp only [hso b hbne]
      obtain ⟨c, hc, -, -⟩ := h.disc.used b p (.inr ⟨v, hy⟩)
      rw [blockAt_eq hc, blockAt_eq (X := X') (by rw [← hX']; exact gives_mono hc)]
  refine ⟨X', src', ownAfter own (nextEv X t) r x, ?_, by rw [← hX']; rfl, ?_, ?_, hat, hblock⟩
  case refine_2 =>
    rw [List.flatMap_append, List.flatMap_singleton]
    congr 1
    exact List.flatMap_congr hmach
  case refine_3 =>
    rw [List.map_append, List.map_singleton]
    congr 1
    · refine List.map_congr_left fun b hb => ?_
      obtain ⟨y, hy⟩ := (h.mem_ord b).mp hb
      have hy' : X'.At b y := by rw [← hX']; exact add_mono hy
      simp only [Graph.At] at hy hy'
      simp only [label, hy, hy']
    · have : label X' (nextEv X t) = (t, some x) := by
        simp only [Graph.At] at hat
        simp only [label, hat]
        rfl
      rw [this]
  generalize hs' : run e s (machineEvents X' src' (nextEv X t)) = s' at hM hmm ⊢
  have hhb' : X'.hb = Earlier (ord ++ [nextEv X t]) := by rw [← hX']; rfl
  subst hX'
  refine ⟨?_, ?_, rfl, rfl, ?_, ?_, hvalid', ?_, ?_, ?_, ?_, ⟨?_, ?_, ?_, ?_, ?_⟩, ?_, ?_, ?_, ?_⟩
  -- nodup, mem_ord
  · exact List.nodup_append.mpr ⟨h.nodup, List.nodup_singleton _, fun a ha b hb hab => hno (by rw [List.mem_singleton] at hb; rw [← hb, ← hab]; exact ha)⟩
  · intro a
    rw [List.mem_append, List.mem_singleton, h.mem_ord, add_event]
  -- sb
  · intro u j k hjk hk
    by_cases hu : u = t
    · subst hu
      rw [hacts, List.length_append, List.length_singleton] at hk
      by_cases hk' : k = (X.acts u).length
      · subst hk'
        exact hlate (u, j) ⟨_, List.getElem?_eq_getElem hjk⟩
      · exact hold _ _ (h.sb u j k hjk (by omega))
    · rw [hactso u hu] at hk
      exact hold _ _ (h.sb u j k hjk hk)
  -- locs
  · intro u
    by_cases hu : u = t
    · subst hu
      refine ⟨by simp only [if_true]; exact hrun', ?_, ?_⟩
      · rw [hM.pc]; simp [setPc, nextEv]
      · rw [hM.inner]; simp [Bump.setPc, nextEv]
    · obtain ⟨k1, k2, k3⟩ := h.locs u
      refine ⟨by simp only [hu, if_false]; rw [hactso u hu]; exact k1, ?_, ?_⟩
      · rw [hM.pc]; simp [setPc, nextEv, hu, k2]
      · rw [hM.inner]; simp [Bump.setPc, nextEv, hu, k3]
  -- rf
  · intro q v hq
    by_cases hqa : q = nextEv X t
    · subst hqa
      obtain ⟨y, hy, hy'⟩ := hq
      have := add_self hy
      subst this
      have hvc := hr v hy'
      rcases hw0 with ⟨w, rfl, k1, k2⟩ | ⟨rfl, k1, k2⟩
      · refine .inl ⟨w, by simp [addAct], by rw [hvc]; exact writes_mono k1, hlate w k1.isEvent, fun w' hw' hw'' => ?_⟩
        have hne : w' ≠ nextEv X t := fun h' => hnone _ (h' ▸ hw'')
        exact (k2 w' (hw'.imp fun _ h => writes_old h hne)).imp id (hold _ _)
      · refine .inr ⟨by simp [addAct], by rw [hvc, k1]; rfl, fun w hw hw' => ?_⟩
        have hne : w ≠ nextEv X t := fun h' => hnone _ (h' ▸ hw')
        exact k2 w (hw.imp fun _ h => writes_old h hne)
    · have hrfq : (addAct X ord t x w0).rf q = X.rf q := by simp [addAct, hqa]
      rw [hrfq]
      rcases h.rf q v (reads_old hq hqa) with ⟨w, k1, k2, k3, k4⟩ | ⟨k1, k2, k3⟩
      · refine .inl ⟨w, k1, writes_mono k2, hold _ _ k3, fun w' hw' hw'' => ?_⟩
        have hne : w' ≠ nextEv X t := fun h' => hnone _ (h' ▸ hw'')
        exact (k4 w' (hw'.imp fun _ h => writes_old h hne) (hback _ _ hqa hw'')).imp id (hold _ _)
      · refine .inr ⟨k1, k2, fun w hw hw' => ?_⟩
        have hne : w ≠ nextEv X t := fun h' => hnone _ (h' ▸ hw')
        exact k3 w (hw.imp fun _ h => writes_old h hne) (hback _ _ hqa hw')
  -- last
  · rw [hM.consumed]
    cases hwx : gKind.writes x with
    | some c =>
      refine .inl ⟨nextEv X t, ⟨x, add_new, by rw [hwx]; rfl⟩, fun w' hw' => ?_⟩
      by_cases hne : w' = nextEv X t
      · exact .inl hne
      · exact .inr (hlate _ (let ⟨_, hw⟩ := hw'; (writes_old hw hne).isEvent))
    | none =>
      have hold' : ∀ w', (addAct X ord t x w0).IsWrite gKind w' → w' ≠ nextEv X t ∧ X.IsWrite gKind w' := by
        rintro w' ⟨v, y, hy, hy'⟩
        by_cases hne : w' = nextEv X t
        · subst hne
          have := add_self hy
          subst this
          rw [hwx] at hy'; cases hy'
        · exact ⟨hne, v, y, add_old hy hne, hy'⟩
      rcases h.last with ⟨w, k1, k2⟩ | ⟨k1, k2⟩
      · exact .inl ⟨w, writes_mono k1, fun w' hw' => (k2 w' (hold' w' hw').2).imp id (hold _ _)⟩
      · exact .inr ⟨k1, fun w hw => k2 w (hold' w hw).2⟩
  -- mem
  · intro q
    by_cases hwq : WritesByte (addAct X ord t x w0) (nextEv X t) q
    · refine .inl ⟨nextEv X t, (hmm q).1 hwq, fun w' hw' => ?_⟩
      by_cases hne : w' = nextEv X t
      · exact .inl hne
      · exact .inr (hlate _ (writesByte_old hw' hne).event)
    · rw [(hmm q).2 hwq]
      have hold' : ∀ w', WritesByte (addAct X ord t x w0) w' q → WritesByte X w' q := fun w' hw' => writesByte_old hw' fun h' => hwq (h' ▸ hw')
      rcases h.mem q with ⟨w, k1, k2⟩ | ⟨k1, k2⟩
      · exact .inl ⟨w, storesByte_mono k1, fun w' hw' => (k2 w' (hold' w' hw')).imp id (hold _ _)⟩
      · exact .inr ⟨fun w hw => k1 w (hold' w hw), k2⟩
  -- reads
  · intro a p v ha
    rw [hhb']
    by_cases haa : a = nextEv X t
    · subst haa
      have hvv : v = s.bump.mem p := hrd p v (ha.imp (fun h => (add_self h).symm) fun h => (add_self h).symm)
      rcases h.mem p with ⟨w, k1, k2⟩ | ⟨k1, k2⟩
      · refine .inl ⟨w, by rw [hvv]; exact storesByte_mono k1, hlate w k1.event, fun w' hw' ⟨q1, q2⟩ => ?_⟩
        have hne : w' ≠ nextEv X t := fun h' => hnone _ (h' ▸ q2)
        rcases k2 w' (writesByte_old hw' hne) with rfl | k3
        · exact q1.ne rfl
        · exact Nat.lt_asymm k3.1 (hback _ _ hne q1).1
      · refine .inr ⟨fun w hw hw' => ?_, by rw [hvv, k2]⟩
        have hne : w ≠ nextEv X t := fun h' => hnone _ (h' ▸ hw')
        exact k1 w (writesByte_old hw hne)
    · rcases h.reads a p v (ha.imp (fun h => add_old h haa) fun h => add_old h haa) with ⟨w, k1, k2, k3⟩ | ⟨k1, k2⟩
      · rw [h.hb] at k2 k3
        refine .inl ⟨w, storesByte_mono k1, hold _ _ k2, fun w' hw' ⟨q1, q2⟩ => ?_⟩
        have hne : w' ≠ nextEv X t := fun h' => hnone _ (h' ▸ q2)
        exact k3 w' (writesByte_old hw' hne) ⟨hback _ _ hne q1, hback _ _ haa q2⟩
      · rw [h.hb] at k1
        refine .inr ⟨fun w hw hw' => ?_, k2⟩
        have hne : w ≠ nextEv X t := fun h' => hnone _ (h' ▸ hw')
        exact k1 w (writesByte_old hw hne) (hback _ _ haa hw')
  -- taken
  · intro i b hi
    rw [hhb']
    rcases takes_add hi with ⟨hne, hi⟩ | ⟨rfl, op, hop, hb⟩
    · rw [hso i hne]
      obtain ⟨k1, k2⟩ := h.disc.taken i b hi
      rw [h.hb] at k2
      exact ⟨gives_mono k1, hold _ _ k2⟩
    · rw [hsn]
      have := hsrc b (ht op b hop hb)
      exact ⟨gives_mono this, hlate _ this.event⟩
  -- once
  · intro i j b c hi hj hij
    rcases takes_add hi with ⟨hi1, hi2⟩ | ⟨hi1, op, hop, hb⟩ <;> rcases takes_add hj with ⟨hj1, hj2⟩ | ⟨hj1, op', hop', hb'⟩
    · rw [hso i hi1, hso j hj1] at hij
      exact h.disc.once i j b c hi2 hj2 hij
    · rw [hso i hi1, hj1, hsn] at hij
      exact absurd (hij ▸ List.mem_map_of_mem (ht op' c hop' hb')) (h.kept i b hi2)
    · rw [hso j hj1, hi1, hsn] at hij
      exact absurd (hij ▸ List.mem_map_of_mem (ht op b hop hb)) (h.kept j c hj2)
    · rw [hi1, hj1]
  -- used
  · intro u p hup
    rw [hhb']
    rcases uses_add hup with ⟨hne, hup⟩ | ⟨rfl, v, hx⟩
    · rw [hso u hne]
      obtain ⟨b, k1, k2, k3⟩ := h.disc.used u p hup
      rw [h.hb] at k3
      exact ⟨b, gives_mono k1, k2, hold _ _ k3⟩
    · rw [hsn]
      obtain ⟨b, k1, k2⟩ := hu p v hx
      have := hsrc b k1
      exact ⟨b, gives_mono this, k2, hlate _ this.event⟩
  -- before
  · intro u p i b hup hi heq
    rw [hhb']
    rcases uses_add hup with ⟨hu1, hu2⟩ | ⟨hu1, v, hx⟩ <;> rcases takes_add hi with ⟨hi1, hi2⟩ | ⟨hi1, op, hop, hb⟩
    · rw [hso i hi1, hso u hu1] at heq
      have := h.disc.before u p i b hu2 hi2 heq
      rw [h.hb] at this
      exact hold _ _ this
    · rw [hi1]; exact hlate _ hu2.event
    · rw [hso i hi1, hu1, hsn] at heq
      obtain ⟨c, k1, -⟩ := hu p v hx
      exact absurd (heq ▸ List.mem_map_of_mem k1) (h.kept i b hi2)
    · rw [hop] at hx
      rcases hx with hx | hx <;> cases hx
  -- own
  · intro u v p hu1 hv1 _ _
    rw [hhb']
    by_cases huv : u = v
    · exact .inl huv
    · refine .inr (earlier_tot ?_ ?_ huv)
      · rw [List.mem_append, List.mem_singleton, h.mem_ord]; exact (add_event u).mp hu1.event
      · rw [List.mem_append, List.mem_singleton, h.mem_ord]; exact (add_event v).mp hv1.event
  -- live
  · rw [hM.live]
    cases x <;> simp only [ownAfter] <;> try exact h.live
    case invoke op =>
      cases hop : op.takes with
      | none => exact h.live
      | some b =>
        simp only
        have k1 := (List.perm_cons_erase (ht op b rfl hop)).map Prod.fst
        rw [List.map_cons] at k1
        have k2 : b ∈ s.live := h.live.mem_iff.mp (List.mem_map_of_mem (ht op b rfl hop))
        exact (List.perm_cons b).mp (k1.symm.trans (h.live.trans (List.perm_cons_erase k2)))
    case ret op res =>
      rw [List.map_append]
      refine List.Perm.append ?_ h.live
      cases op.gives res <;> simp
  -- gives
  · intro y hy
    rcases ownAfter_sub hy with hy | ⟨h1, op, res, h2, h3⟩
    · exact gives_mono (h.gives y hy)
    · rw [h1]; exact ⟨op, res, by rw [← h2]; exact add_new, h3⟩
  -- fresh
  · cases x <;> simp only [ownAfter] <;> try exact h.fresh
    case invoke op =>
      split
      · exact (List.erase_sublist.map Prod.snd).nodup h.fresh
      · exact h.fresh
    case ret op res =>
      cases op.gives res with
      | none => simpa using h.fresh
      | some b =>
        simp only [Option.toList_some, List.map_cons, List.map_nil, List.singleton_append, List.nodup_cons]
        refine ⟨fun hc => ?_, h.fresh⟩
        obtain ⟨y, h1, h2⟩ := List.mem_map.mp hc
        exact hevne _ (h.gives y h1).event h2
  -- kept
  · intro i b hi hmem
    obtain ⟨y, hy, hyi⟩ := List.mem_map.mp hmem
    rcases takes_add hi with ⟨hi1, hi2⟩ | ⟨hi1, op, hop, hb⟩
    · rw [hso i hi1] at hyi
      rcases ownAfter_sub hy with hy | ⟨h1, -⟩
      · exact h.kept i b hi2 (hyi ▸ List.mem_map_of_mem hy)
      · have := (h.disc.taken i b hi2).1.event
        rw [← hyi, h1] at this
        exact next_no X t this
    · rw [hi1, hsn] at hyi
      subst hop
      simp only [ownAfter, hb] at hy
      have k1 := ht op b rfl hb
      have k2 := (List.perm_cons_erase k1).map Prod.snd
      have k3 := k2.nodup_iff.mp h.fresh
      rw [List.map_cons, List.nodup_cons] at k3
      have k4 := List.mem_map_of_mem (f := Prod.snd) hy
      rw [hyi] at k4
      exact k3.1 k4

/-- More events of the machine, with these actions. -/
def Goes (e : Env) (m : Mem) (X : Graph n GAct) (src : MM.Ev n → MM.Ev n) (ord : List (MM.Ev n)) (s : State n) (evs : List (Event n)) (acts : List (_root_.Fin n × GAct)) : Prop :=
  ∃ X' src' ord' own' loc', Built e m X' src' ord' own' loc' (run e s evs) ∧ (∀ t, (loc' t).held = none) ∧ X'.initial = X.initial ∧
    ord'.flatMap (machineEvents X' src') = ord.flatMap (machineEvents X src) ++ evs ∧ ord'.map (label X') = ord.map (label X) ++ acts.map fun y => (y.1, some y.2)

section
variable {own : List (Block × MM.Ev n)} {loc : _root_.Fin n → Loc} {s : State n}

theorem Built.tr (h : Built e m X src ord own loc s) (t : _root_.Fin n) : Tr e (X.acts t) (X.acts t).length (loc t) ∧ Tr3 (X.acts t) (X.acts t).length (loc t) := by
  obtain ⟨l, h1, h2, h3, -⟩ := prefix_at (h.valid t) (h.locs t).1 (Nat.le_refl _)
  rw [List.take_length, (h.locs t).1] at h1
  cases h1
  exact ⟨h2, h3⟩

/-- One action for which the machine makes a step. -/
theorem goes_step (h : Built e m X src ord own loc s) (hh : ∀ u, (loc u).held = none) {t : _root_.Fin n} {x : GAct} {l' : Loc} (hn : gnext e (loc t) x = some l') (hl' : l'.held = none)
    (hx : (∀ op, x ≠ .invoke op) ∧ (∀ p v, x ≠ .userWrite p v) ∧ (∀ p v, x ≠ .userRead p v) ∧ (∀ p v, x ≠ .read p v) ∧ x ≠ .other) (hr : ∀ v, gKind.reads x = some v → v = s.bump.consumed) :
    Goes e m X src ord s [.step t] [(t, x)] := by
  obtain ⟨x1, x2, x3, x4, x5⟩ := hx
  obtain ⟨X', src', own', k1, k2, k3, k4, k5, -⟩ := extend (r := nextEv X t) h hn (fun op h => absurd h (x1 op)) hr (fun b ns d i v _ h => by rw [hh t] at h; cases h)
    (fun op _ h => absurd h (x1 op)) (fun p v h => h.elim (fun h => absurd h (x2 p v)) fun h => absurd h (x3 p v)) (fun p v h => h.elim (fun h => absurd h (x3 p v)) fun h => absurd h (x4 p v))
  have hev : machineEvents X' src' (nextEv X t) = [.step t] := by
    simp only [Graph.At] at k5
    simp only [machineEvents, k5]
    cases x <;> first | rfl | exact absurd rfl (x1 _) | exact absurd rfl (x2 _ _) | exact absurd rfl (x3 _ _) | exact absurd rfl (x4 _ _) | exact absurd rfl x5
  rw [hev] at k1 k3
  exact ⟨X', src', _, own', _, k1, fun u => by by_cases hu : u = t <;> simp [hu, hl', hh], k2, k3, k4⟩

theorem mem_own (h : Built e m X src ord own loc s) {b : Block} (hb : b ∈ s.live) : ∃ r, (b, r) ∈ own := by
  obtain ⟨⟨c, r⟩, h1, rfl⟩ := List.mem_map.mp (h.live.mem_iff.mpr hb)
  exact ⟨r, h1⟩

theorem goes_one (h : Built e m X src ord own loc s) (hh : ∀ u, (loc u).held = none) (d : Doing n) (hd : d.Possible e s) : Goes e m X src ord s d.events (d.actions e s) := by
  have nocopy : ∀ t, ∀ b ns dst i v, (loc t).pc = .copy b ns dst i → (loc t).held = some v → s.bump.mem (b.ptr + i) = v := fun t b ns dst i v _ h => by rw [hh t] at h; cases h
  cases d with
  | invoke t op =>
    obtain ⟨d1, d2, d3⟩ := hd
    rw [(h.locs t).2.1] at d1
    have hr : ∃ r, ∀ b, op.takes = some b → (b, r) ∈ own := by
      cases ho : op.takes with
      | none => exact ⟨nextEv X t, by simp⟩
      | some b =>
        obtain ⟨r, hr⟩ := mem_own h (d2 b ho)
        exact ⟨r, fun c hc => by cases hc; exact hr⟩
    obtain ⟨r, hr⟩ := hr
    obtain ⟨X', src', own', k1, k2, k3, k4, k5, -⟩ := extend (t := t) (x := .invoke op) (l' := { loc t with pc := .start op }) (r := r) h (by simp only [gnext, d1]) (fun _ h => by cases h; exact d3) (by simp [gKind, GAct.bump?]) (nocopy t)
      (fun _ b h hb => by cases h; exact hr b hb) (by simp) (by simp)
    have hev : machineEvents X' src' (nextEv X t) = [.invoke t op] := by
      simp only [Graph.At] at k5
      simp only [machineEvents, k5]
      rfl
    rw [hev] at k1 k3
    exact ⟨X', src', _, own', _, k1, fun u => by by_cases hu : u = t <;> simp [hu, hh], k2, k3, k4⟩
  | write t b off v =>
    obtain ⟨d1, d2, d3⟩ := hd
    rw [(h.locs t).2.1] at d1
    obtain ⟨r, hr⟩ := mem_own h d2
    obtain ⟨X', src', own', k1, k2, k3, k4, k5, k6⟩ := extend (t := t) (x := .userWrite (b.ptr + off) v) (l' := loc t) (r := r) h (by simp only [gnext, d1]) (by simp) (by simp [gKind, GAct.bump?]) (nocopy t) (by simp)
      (fun p v' hp => ⟨b, hr, by
        rcases hp with hp | hp <;> cases hp
        exact ⟨Nat.le_add_right _ _, Nat.add_lt_add_left d3 _⟩⟩) (by simp)
    have hev : machineEvents X' src' (nextEv X t) = [.userWrite b off [v]] := by
      simp only [Graph.At] at k5
      simp only [machineEvents, k5, k6 b hr, Nat.add_sub_cancel_left]
    rw [hev] at k1 k3
    exact ⟨X', src', _, own', _, k1, fun u => by by_cases hu : u = t <;> simp [hu, hh], k2, k3, k4⟩
  | read t b off =>
    obtain ⟨d1, d2, d3⟩ := hd
    rw [(h.locs t).2.1] at d1
    obtain ⟨r, hr⟩ := mem_own h d2
    obtain ⟨X', src', own', k1, k2, k3, k4, k5, -⟩ := extend (t := t) (x := .userRead (b.ptr + off) (s.bump.mem (b.ptr + off))) (l' := loc t) (r := r) h (by simp only [gnext, d1]) (by simp) (by simp [gKind, GAct.bump?]) (nocopy t) (by simp)
      (fun p v' hp => ⟨b, hr, by
        rcases hp with hp | hp <;> cases hp
        exact ⟨Nat.le_add_right _ _, Nat.add_lt_add_left d3 _⟩⟩)
      (fun p v hp => by rcases hp with hp | hp <;> cases hp; rfl)
    have hev : machineEvents X' src' (nextEv X t) = [] := by
      simp only [Graph.At] at k5
      simp only [machineEvents, k5]
    rw [hev] at k1 k3
    exact ⟨X', src', _, own', _, k1, fun u => by by_cases hu : u = t <;> simp [hu, hh], k2, k3, k4⟩
  | other t =>
    have d1 : s.pc t = .idle := hd
    rw [(h.locs t).2.1] at d1
    obtain ⟨X', src', own', k1, k2, k3, k4, k5, -⟩ := extend (t := t) (x := .other) (l' := loc t) (r := nextEv X t) h (by simp only [gnext, d1]) (by simp) (by simp [gKind, GAct.bump?]) (nocopy t) (by simp) (by simp) (by simp)
    have hev : machineEvents X' src' (nextEv X t) = [] := by
      simp only [Graph.At] at k5
      simp only [machineEvents, k5]
    rw [hev] at k1 k3
    exact ⟨X', src', _, own', _, k1, fun u => by by_cases hu : u = t <;> simp [hu, hh], k2, k3, k4⟩
  | step t =>
    have hpc := (h.locs t).2.1
    have hin := (h.locs t).2.2
    have hidle : s.pc t ≠ .idle := hd
    obtain ⟨tr, tr3⟩ := h.tr t
    simp only [Doing.actions, Doing.events]
    cases hp : s.pc t with
    | idle => exact absurd hp hidle
    | start op =>
      rw [hp] at hpc
      have hi : (loc t).inner = .idle := tr3.2.1 (fun op' h' => by rw [← hpc] at h'; cases h')
      simp only
      cases hs : start e op with
      | ret q =>
        cases q with
        | inl call =>
          exact goes_step h hh (l' := { loc t with pc := .inner op, inner := enter call }) (by simp only [gnext, ← hpc, hs, if_true, hi, lnext, Option.map_some]) (hh t) (by simp) (by simp [gKind, GAct.bump?, actKind])
        | inr r => exact goes_step h hh (l' := { loc t with pc := .ret op r }) (by simp only [gnext, ← hpc, hs]) (hh t) (by simp) (by simp [gKind, GAct.bump?])
      | panic => exact goes_step h hh (l' := { loc t with pc := .ret op .panicked }) (by simp only [gnext, ← hpc, hs]) (hh t) (by simp) (by simp [gKind, GAct.bump?])
      | ub => exact goes_step h hh (l' := { loc t with pc := .ret op .ub }) (by simp only [gnext, ← hpc, hs]) (hh t) (by simp) (by simp [gKind, GAct.bump?])
    | inner op =>
      rw [hp] at hpc
      simp only [Tr, ← hpc] at tr
      obtain ⟨-, call, -, hcall⟩ := tr
      have hni : s.bump.pc t ≠ .idle := fun h' => by rw [hin] at h'; rw [h'] at hcall; cases hcall
      obtain ⟨⟨q, hq⟩, hrd, -⟩ := lnext_actOf (e := e) s.bump t hni
      rw [hin] at hq
      simp only
      cases hy : actOf s.bump t with
      | ret c r =>
        rw [hy] at hq
        exact goes_step h hh (l' := { loc t with pc := resume op r, inner := q }) (by simp only [gnext, ← hpc, hq, Option.map_some]) (hh t) (by simp) (by simp [gKind, GAct.bump?, actKind])
      | _ =>
        rw [hy] at hq hrd
        exact goes_step h hh (l' := { loc t with inner := q }) (by simp only [gnext, ← hpc, hq, Option.map_some]) (hh t) (by simp) hrd
    | zero l p i =>
      rw [hp] at hpc
      simp only
      by_cases hi : i < l.size
      · rw [if_pos hi]
        exact goes_step h hh (l' := { loc t with pc := .zero l p (i + 1) }) (by simp only [gnext, ← hpc, hi, and_self, if_true]) (hh t) (by simp) (by simp [gKind, GAct.bump?])
      · rw [if_neg hi]
        exact goes_step h hh (l' := { loc t with pc := .ret (.allocZeroed l) (.ptr p) }) (by simp only [gnext, ← hpc, hi, if_false]) (hh t) (by simp) (by simp [gKind, GAct.bump?])
    | copy b ns dst i =>
      rw [hp] at hpc
      simp only
      by_cases hi : i < min ns b.layout.size
      · rw [if_pos hi]
        obtain ⟨X1, src1, own1, k1, k2, k3, k4, k5, -⟩ := extend (t := t) (x := .read (b.ptr + i) (s.bump.mem (b.ptr + i))) (l' := { loc t with held := some (s.bump.mem (b.ptr + i)) }) (r := nextEv X t) h
          (by simp only [gnext, ← hpc, hh t, hi, and_self, if_true]) (by simp) (by simp [gKind, GAct.bump?]) (nocopy t) (by simp) (by simp) (fun p v hp => by rcases hp with hp | hp <;> cases hp; rfl)
        have hev : machineEvents X1 src1 (nextEv X t) = [] := by
          simp only [Graph.At] at k5
          simp only [machineEvents, k5]
        rw [hev] at k1 k3
        have k1' : Built e m X1 src1 (ord ++ [nextEv X t]) own1 (fun u => if u = t then { loc t with held := some (s.bump.mem (b.ptr + i)) } else loc u) s := k1
        obtain ⟨X2, src2, own2, q1, q2, q3, q4, q5, -⟩ := extend (t := t) (x := .write (dst + i) (s.bump.mem (b.ptr + i))) (l' := { loc t with pc := .copy b ns dst (i + 1), held := none }) (r := nextEv X t) k1'
          (by simp only [gnext, if_true, ← hpc, and_self]) (by simp) (by simp [gKind, GAct.bump?])
          (fun b' ns' dst' i' v' h1 h2 => by simp only [if_true, ← hpc, Pc.copy.injEq, Option.some.injEq] at h1 h2; obtain ⟨rfl, -, -, rfl⟩ := h1; exact h2) (by simp) (by simp) (by simp)
        have hev : machineEvents X2 src2 (nextEv X1 t) = [.step t] := by
          simp only [Graph.At] at q5
          simp only [machineEvents, q5]
          rfl
        rw [hev] at q1 q3
        refine ⟨X2, src2, _, own2, _, q1, fun u => by by_cases hu : u = t <;> simp [hu, hh], q2.trans k2, ?_, ?_⟩
        · rw [q3, k3, List.append_nil]
        · rw [q4, k4, List.append_assoc]; rfl
      · rw [if_neg hi]
        exact goes_step h hh (l' := { loc t with pc := .ret (.realloc b ns) (.ptr dst) }) (by simp only [gnext, ← hpc, hh t, hi, not_false_eq_true, and_self, if_true]) (hh t) (by simp) (by simp [gKind, GAct.bump?])
    | ret op r =>
      rw [hp] at hpc
      exact goes_step h hh (l' := { loc t with pc := .idle }) (by simp only [gnext, ← hpc, and_self, if_true]) (hh t) (by simp) (by simp [gKind, GAct.bump?])

theorem goes_all (ds : List (Doing n)) : ∀ {X : Graph n GAct} {src : MM.Ev n → MM.Ev n} {ord : List (MM.Ev n)} {own : List (Block × MM.Ev n)} {loc : _root_.Fin n → Loc} {s : State n}, Built e m X src ord own loc s → (∀ u, (loc u).held = none) →
    AllPossible e s ds → Goes e m X src ord s (ds.flatMap Doing.events) (actionsOf e s ds) := by
  induction ds with
  | nil => exact fun h hh _ => ⟨_, _, _, _, _, h, hh, rfl, by simp, by simp [actionsOf]⟩
  | cons d ds ih =>
    intro X src ord own loc s h hh hp
    obtain ⟨X1, src1, ord1, own1, loc1, k1, k2, k3, k4, k5⟩ := goes_one h hh d hp.1
    obtain ⟨X2, src2, ord2, own2, loc2, q1, q2, q3, q4, q5⟩ := ih k1 k2 hp.2
    refine ⟨X2, src2, ord2, own2, loc2, ?_, q2, q3.trans k3, ?_, ?_⟩
    · rw [List.flatMap_cons]
      simpa only [run, List.foldl_append] using q1
    · rw [q4, k4, List.flatMap_cons, List.append_assoc]
    · rw [q5, k5, actionsOf, List.map_append, List.append_assoc]

end

/-- No actions. -/
def noActs (n c : Nat) : Graph n GAct := ⟨fun _ => [], c, fun _ => none, Earlier [], Earlier []⟩

theorem noActs_at {c : Nat} {a : MM.Ev n} {x : GAct} : ¬ (noActs n c).At a x := by simp [Graph.At, noActs]

theorem built_init (c : Nat) : Built e m (noActs n c) id [] [] (fun _ => .start) (init n c m) where
  nodup := List.nodup_nil
  mem_ord a := ⟨fun h => by simp at h, fun ⟨_, h⟩ => absurd h noActs_at⟩
  hb := rfl
  mo := rfl
  sb t j k _ h := by simp [noActs] at h
  locs t := ⟨rfl, rfl, rfl⟩
  valid t op h := by simp [noActs] at h
  rf r v h := by obtain ⟨x, h, -⟩ := h; exact absurd h noActs_at
  last := .inr ⟨rfl, fun w ⟨_, _, h, _⟩ => noActs_at h⟩
  mem q := .inr ⟨fun w h => let ⟨_, h⟩ := h.event; noActs_at h, rfl⟩
  reads a p v h := by rcases h with h | h <;> exact absurd h noActs_at
  disc := ⟨fun i b ⟨_, h, _⟩ => absurd h noActs_at, fun i j b c ⟨_, h, _⟩ => absurd h noActs_at, fun u p h => let ⟨_, h⟩ := h.event; absurd h noActs_at, fun u p i b h => let ⟨_, h⟩ := h.event; absurd h noActs_at,
    fun u v p h => let ⟨_, h⟩ := h.event; absurd h noActs_at⟩
  live := List.Perm.refl _
  gives y h := by simp at h
  fresh := List.nodup_nil
  kept i b h := by obtain ⟨_, h, _⟩ := h; exact absurd h noActs_at

section
variable {own : List (Block × MM.Ev n)} {loc : _root_.Fin n → Loc} {s : State n}

/-- With any happens-before that is consistent with time. -/
theorem Built.possible (h : Built e m X src ord own loc s) {hb : MM.Ev n → MM.Ev n → Prop} (hsb : ∀ t j k, j < k → k < (X.acts t).length → hb (t, j) (t, k)) (htr : ∀ a b c, hb a b → hb b c → hb a c)
    (htime : ∀ a b, hb a b → Earlier ord a b) : ({ X with hb := hb } : Graph n GAct).WellFormed gKind ∧ ({ X with hb := hb } : Graph n GAct).SeqCst gKind ∧ ({ X with hb := hb } : Graph n GAct).Coherent gKind := by
  refine timed_possible (X := { X with hb := hb }) (fun a => (h.mem_ord a).symm) h.mo htime htr hsb (fun r v hr => ?_)
  rcases h.rf r v hr with ⟨w, k1, k2⟩ | ⟨k1, k2⟩
  · simp only [k1]; exact k2
  · simp only [k1]; exact k2

theorem Built.executes (h : Built e m X src ord own loc s) : GExecutes e X := ⟨fun t => ⟨_, (h.locs t).1⟩, h.valid⟩

theorem Built.order (h : Built e m X src ord own loc s) {hb : MM.Ev n → MM.Ev n → Prop} (htime : ∀ a b, hb a b → Earlier ord a b) : ({ X with hb := hb } : Graph n GAct).Order ord := by
  refine ⟨h.nodup, h.mem_ord, ?_⟩
  rw [List.pairwise_iff_getElem]
  intro i j hi hj hij hba
  have h1 := (htime _ _ hba).1
  rw [h.nodup.idxOf_getElem, h.nodup.idxOf_getElem] at h1
  omega

/-- And then reads have the values that they must have. -/
theorem Built.visible (h : Built e m X src ord own loc s) (he : e.Valid) (hi : X.initial ≤ e.len) {hb : MM.Ev n → MM.Ev n → Prop} (hsb : ∀ t j k, j < k → k < (X.acts t).length → hb (t, j) (t, k))
    (htr : ∀ a b c, hb a b → hb b c → hb a c) (htime : ∀ a b, hb a b → Earlier ord a b) {src' : MM.Ev n → MM.Ev n} (hd : Disciplined { X with hb := hb } src') : ReadsVisibleFrom { X with hb := hb } m := by
  have hp := h.possible hsb htr htime
  have hx : GExecutes e { X with hb := hb } := h.executes
  intro a p v ha
  rcases h.reads a p v ha with ⟨w, k1, k2, k3⟩ | ⟨k1, k2⟩
  · rw [h.hb] at k2 k3
    refine .inl ⟨w, k1, ?_, fun w' hw' ⟨q1, q2⟩ => k3 w' hw' ⟨htime _ _ q1, htime _ _ q2⟩⟩
    have hw : WritesByte { X with hb := hb } w p := k1.writes
    rcases accesses_ordered (X := { X with hb := hb }) he hi ⟨hp.1, .inl hp.2.1⟩ hx hd (.inr hw) (reads_accesses ha) k2.ne (.inl hw) with q | q
    · exact q
    · exact absurd (htime _ _ q).1 (Nat.lt_asymm k2.1)
  · rw [h.hb] at k1
    exact .inr ⟨fun w hw hw' => k1 w hw (htime _ _ hw'), k2⟩

end

end Verif.Bump.Conc
