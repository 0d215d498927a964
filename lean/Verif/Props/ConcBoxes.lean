import Verif.Proofs.ConcBoxesCount
import Verif.Proofs.ConcBoxesTrace
/-! # C88: threads with boxes in one shared bump, on the bytes of the memory -/
namespace Verif.ConcBoxes
open Verif Bump Unsync.BumpBoxes

section
variable {n : Nat} {e : Env} {panics : List Byte → Bool} {c : Nat} {m : Mem}

/-- **C88** Every program of any number of threads, with every schedule, from memory with any contents: everything that is observed is explained by variables without any memory. In particular what a thread reads from its box or reference is the
value that was last put into it, whatever the other threads do; and the same destructors are run, on the same values, in the same order, by the same threads. -/
theorem C88_refines (he : e.Valid) (hc : c ≤ e.len) {evs : List (Event n)} (hs : SafeRun e panics (World.init c m) evs) :
    ∃ os w, run e panics (World.init c m) evs = .ret (os, w) ∧ Explains panics SWorld.init os ∧ w.log = (replay panics SWorld.init os).dropped := by
  obtain ⟨os, w, h1, h2, h3⟩ := sim_run' (panics := panics) he (rel_init hc m) hs
  exact ⟨os, w, h1, h2, h3.log⟩

/-- **C88** And the observations are about what the threads did: unless the process was aborted every use, send and reset is observed, in this order; the calls from which a thread returns are, in their order, among those that it started, with the
type it gave; and the process is aborted only if the destructor of the argument panics while a call that panicked unwinds. -/
theorem C88_observed {evs : List (Event n)} {os : List (Obs n)} {w : World n} (hx : run e panics (World.init c m) evs = .ret (os, w)) :
    (w.aborted = false → os.filterMap Obs.event = evs.filterMap Event.direct) ∧
    (∀ t, (os.filterMap (Obs.callOf t)).Sublist (evs.filterMap (Event.callOf t))) ∧
    (w.aborted = true ↔ ∃ o ∈ os, Fatal panics o) := by
  obtain ⟨h1, h2, h3⟩ := run_observed hx
  exact ⟨h1, fun t => (List.sublist_append_left _ _).trans (h3 t), by rw [h2]; simp [World.init]⟩

/-- **C88** No data races: at any time the memory of the variables of all threads is in the storage and aligned for the type; no two of them overlap; and no call that is running in another thread, or in the same thread, is about to write into any of them. -/
theorem C88_no_data_race (he : e.Valid) (hc : c ≤ e.len) {evs : List (Event n)} (hs : SafeRun e panics (World.init c m) evs) {os : List (Obs n)} {w : World n}
    (hx : run e panics (World.init c m) evs = .ret (os, w)) :
    (∀ (t : Fin n) (k : Nat) (h : Handle), (w.vars t)[k]? = some (some h) →
      h.ty.layout.align ∣ h.addr ∧ h.addr ≠ 0 ∧ (0 < h.ty.layout.size → h.region.Within ⟨e.base, e.len⟩) ∧ ∀ u q, Taken w.st u q → h.region.Disjoint q) ∧
    ∀ (t u : Fin n) (k j : Nat) (h g : Handle), (t, k) ≠ (u, j) → (w.vars t)[k]? = some (some h) → (w.vars u)[j]? = some (some g) → h.region.Disjoint g.region := by
  obtain ⟨os', w', h1, h2, h3⟩ := sim_run' (panics := panics) he (rel_init hc m) hs
  rw [hx] at h1; cases h1
  refine ⟨fun t k h hk => ⟨(h3.place t k h hk).1, (h3.place t k h hk).2, fun h0 => ?_, fun u q hq => ?_⟩, h3.apart⟩
  · have hin := (h3.own t k h hk).resolve_left (by omega)
    have ha := (h3.reach.inv2 he).A _ hin
    have hl := (h3.reach.inv he).le
    exact ⟨ha.1, by show h.region.start + h.region.size ≤ e.base + e.len; omega⟩
  · rcases h3.own t k h hk with h0 | h0
    · rw [Region.disjoint_iff]; exact .inl h0
    · exact ((C01_in_flight_disjoint he h3.reach hq).2 _ h0).symm

/-- **C88** A variable holds its value until its owner changes or moves it: what is read from it is what was last put there, or what was read before, whatever happened in between in other threads and with other variables. -/
theorem C88_value_kept (he : e.Valid) (hc : c ≤ e.len) {evs : List (Event n)} (hs : SafeRun e panics (World.init c m) evs) {w : World n}
    {pre mid post : List (Obs n)} {o : Obs n} {t : Fin n} {k : Nat} {v : List Byte} {a : Ans}
    (hx : run e panics (World.init c m) evs = .ret (pre ++ o :: mid ++ .used t (.deref k) a :: post, w)) (ho : Shows t k v o) (hm : ∀ x ∈ mid, Leaves t k x) : a = .val v := by
  obtain ⟨os', w', h1, h2, h3⟩ := sim_run' (panics := panics) he (rel_init hc m) hs
  rw [hx] at h1; cases h1
  rw [List.append_assoc, explains_append] at h2
  obtain ⟨ho1, h2⟩ : _ ∧ _ := h2.2
  have hv := shows_step ho ho1
  rw [List.append_eq, explains_append] at h2
  exact deref_hasVal (leaves_run (panics := panics) hv hm) h2.2.1

/-- **C88** If all types have destructors: whatever the threads do, no value is dropped or handed out more often than it was moved in. -/
theorem C88_at_most_once (he : e.Valid) (hc : c ≤ e.len) {evs : List (Event n)} (hs : SafeRun e panics (World.init c m) evs) {os : List (Obs n)} {w : World n}
    (hx : run e panics (World.init c m) evs = .ret (os, w)) (ha : AllDrop os) (v : List Byte) : (outputsOf os).count v + (w.log.map Prod.snd).count v ≤ (inputsOf os).count v := by
  obtain ⟨os', w', h1, h2, h3⟩ := sim_run' (panics := panics) he (rel_init hc m) hs
  rw [hx] at h1; cases h1
  obtain ⟨lost, h4, -⟩ := balance_run' (panics := panics) (s := SWorld.init) (fun t k x h => by simp [SWorld.init] at h) ha h2 v
  rw [h3.log]
  have h0 : held (SWorld.init : SWorld n) v = 0 := held_empty (fun t o ho => by simp [SWorld.init] at ho) v
  have h5 : drops (SWorld.init : SWorld n) v = 0 := rfl
  rw [h0, h5] at h4
  show _ + drops _ v ≤ _
  omega

/-- **C88** And if nothing is left in variables, neither at the end nor when the bump is reset, then every value was dropped or handed out exactly as often as it was moved in. -/
theorem C88_exactly_once (he : e.Valid) (hc : c ≤ e.len) {evs : List (Event n)} (hs : SafeRun e panics (World.init c m) evs) {os : List (Obs n)} {w : World n}
    (hx : run e panics (World.init c m) evs = .ret (os, w)) (ha : AllDrop os) (hend : ∀ t, ∀ o ∈ w.vars t, o = none)
    (hres : ∀ pre post, os = pre ++ .reset :: post → ∀ t, ∀ o ∈ (replay panics SWorld.init pre).boxes t, o = none) :
    (outputsOf os ++ w.log.map Prod.snd).Perm (inputsOf os) := by
  rw [List.perm_iff_count]
  intro v
  obtain ⟨os', w', h1, h2, h3⟩ := sim_run' (panics := panics) he (rel_init hc m) hs
  rw [hx] at h1; cases h1
  obtain ⟨lost, h4, h5⟩ := balance_run' (panics := panics) (s := SWorld.init) (fun t k x h => by simp [SWorld.init] at h) ha h2 v
  have h0 : held (SWorld.init : SWorld n) v = 0 := held_empty (fun t o ho => by simp [SWorld.init] at ho) v
  have h6 : drops (SWorld.init : SWorld n) v = 0 := rfl
  have h7 : held (replay panics SWorld.init os) v = 0 := by
    refine held_empty (fun t o ho => ?_) v
    obtain ⟨k, hk⟩ := List.mem_iff_getElem?.mp ho
    have hvar := h3.var t k
    rw [hk] at hvar
    rcases hw : (w.vars t)[k]? with _ | _ | h
    · rw [hw] at hvar; exact hvar.elim
    · rw [hw] at hvar; cases o with
      | none => rfl
      | some x => exact hvar.elim
    · cases hend t _ (List.mem_of_getElem? hw)
  rw [h5 hres, h0, h6, h7] at h4
  rw [List.count_append, h3.log]
  show _ + drops _ v = _
  omega

end

/-! A concrete program: two threads race for memory, one of them retries; they use their variables, also while the other is in a call; one sends a reference to the other; a failing `leak_box` whose value is dropped, a failing `leak_at` that gives
its value back; a destructor that unwinds; a reset, and memory that is used again. -/
namespace ExC88

def e : Env := ⟨.w64, 4100, 24, id⟩
theorem e_valid : e.Valid := ⟨by decide, by decide, by decide, fun a h => ⟨h.pos, Nat.dvd_refl a⟩⟩
def panics (v : List Byte) : Bool := v == [9]
def m : Mem := fun _ => 77
def big : List Byte := [1, 2, 3, 4, 5, 6, 7, 8]

def calls : List Call := [.leakBox u8L [7], .leakBox u64L big, .leak u64L big, .leakAt u8L [5] 3, .get u64L, .get u8L, .leakBox u8L [9], .level]
theorem calls_valid {call : Call} (h : call ∈ calls) : call.Valid .w64 := by
  simp only [calls, List.mem_cons, List.not_mem_nil, or_false] at h
  rcases h with rfl | rfl | rfl | rfl | rfl | rfl | rfl | rfl <;> refine ⟨fun l hl => ?_, fun l v hl hv => ?_⟩ <;> cases hl <;> try
    first | exact u8L_valid | exact u64L_valid | (cases hv <;> rfl)

def evs : List (Event 2) :=
  [.call 0 (.leakBox u8L [7]) true, .call 1 (.leak u64L big) true, .step 0, .step 1, .step 0, .step 1, .step 1, .step 1, .step 1, .step 1,
   -- thread 1 has its reference, thread 0 is still about to write
   .use 1 (.deref 0), .use 1 (.replace 0 [8, 7, 6, 5, 4, 3, 2, 1]), .step 0, .step 0,
   .use 0 (.deref 0), .use 1 (.deref 0), .send 1 0 0, .use 0 (.deref 1), .use 0 (.assign 0 [9]),
   .call 1 (.leakAt u8L [5] 3) true, .step 1, .step 1, .step 1, .step 1,
   .call 1 (.get u64L) true, .step 1, .step 1, .step 1, .step 1, .step 1, .use 1 (.boxed 1 big),
   .call 0 (.leakBox u64L big) true, .step 0, .step 0, .step 0, .step 0, .step 0, .use 0 (.drop 0), .use 0 (.fromRaw 1), .use 0 (.take 1), .use 1 (.leak 1), .use 1 (.fromRaw 1), .use 1 (.drop 1), .reset,
   .call 0 (.leakBox u8L [9]) true, .step 0, .step 0, .step 0, .step 0, .use 0 (.drop 2)]

def hasB (w : World 2) (t : Fin 2) (k : Nat) (holds : List Hold) (size : Nat → Bool) : Bool :=
  match (w.vars t)[k]? with
  | some (some h) => decide (h.hold ∈ holds) && size h.ty.layout.size
  | _ => false

def permittedB (w : World 2) : Event 2 → Bool
  | .call _ call _ => decide (call ∈ calls)
  | .step _ => true
  | .use u x => decide (w.st.pc u = .idle) &&
    match x with
    | .boxed k val | .leakInto k val => hasB w u k [.uninit] (· = val.length)
    | .deref k => hasB w u k [.boxed, .bare] (fun _ => true)
    | .replace k val | .assign k val => hasB w u k [.boxed, .bare] (· = val.length)
    | .take k | .leak k | .intoRaw k | .drop k => hasB w u k [.boxed] (fun _ => true)
    | .fromRaw k => hasB w u k [.bare] (fun _ => true)
  | .send u _ k => decide (w.st.pc u = .idle) && hasB w u k [.bare] (fun _ => true)
  | .reset => (List.finRange 2).all fun u => decide (w.st.pc u = .idle) && (w.vars u).all fun o => match o with | none => true | some h => decide (h.hold ≠ .boxed)

theorem hasB_sound {w : World 2} {t : Fin 2} {k : Nat} {l : List Hold} {p : Nat → Bool} {q : Nat → Prop} (hpq : ∀ n, p n = true → q n) (h : hasB w t k l p = true) : Has w t k l q := by
  unfold hasB at h
  rcases hw : (w.vars t)[k]? with _ | _ | g <;> rw [hw] at h
  · cases h
  · cases h
  · simp only [Bool.and_eq_true, decide_eq_true_eq] at h
    exact ⟨g, hw, h.1, hpq _ h.2⟩

theorem permittedB_sound {w : World 2} {ev : Event 2} (h : permittedB w ev = true) : Permitted .w64 w ev := by
  cases ev with
  | call t call nd => exact calls_valid (by simpa [permittedB] using h)
  | step t => trivial
  | use u x =>
    simp only [permittedB, Bool.and_eq_true, decide_eq_true_eq] at h
    refine ⟨h.1, ?_⟩
    cases x with
    | boxed k v | leakInto k v => exact hasB_sound (p := (· = v.length)) (q := (· = v.length)) (by simp) h.2
    | replace k v | assign k v => exact hasB_sound (p := (· = v.length)) (q := (· = v.length)) (by simp) h.2
    | deref k | take k | leak k | intoRaw k | fromRaw k | drop k => exact hasB_sound (p := fun _ => true) (fun _ _ => trivial) h.2
  | send u v k =>
    simp only [permittedB, Bool.and_eq_true, decide_eq_true_eq] at h
    exact ⟨h.1, hasB_sound (p := fun _ => true) (fun _ _ => trivial) h.2⟩
  | reset =>
    simp only [permittedB, List.all_eq_true, Bool.and_eq_true, decide_eq_true_eq] at h
    refine ⟨fun u => (h u (List.mem_finRange u)).1, fun u k g hk => ?_⟩
    simpa using (h u (List.mem_finRange u)).2 _ (List.mem_of_getElem? hk)

def safeB (w : World 2) : List (Event 2) → Bool
  | [] => true
  | ev :: evs => permittedB w ev && (match exec e panics w ev with | .ret (_, w') => safeB w' evs | _ => true)

theorem safeB_sound {w : World 2} {evs : List (Event 2)} (h : safeB w evs = true) : SafeRun e panics w evs := by
  induction evs generalizing w with
  | nil => trivial
  | cons ev evs ih =>
    simp only [safeB, Bool.and_eq_true] at h
    refine ⟨permittedB_sound h.1, fun o w' hx => ih ?_⟩
    have := h.2
    rw [hx] at this
    exact this

theorem safe : SafeRun e panics (World.init 0 m) evs := safeB_sound (by decide +kernel)

def revBig : List Byte := [8, 7, 6, 5, 4, 3, 2, 1]
def obs : List (Obs 2) :=
  [.returned 1 (.leak u64L big) true (.ptr 4104), .used 1 (.deref 0) (.val big), .used 1 (.replace 0 revBig) (.val big), .returned 0 (.leakBox u8L [7]) true (.ptr 4100),
   .used 0 (.deref 0) (.val [7]), .used 1 (.deref 0) (.val revBig), .sent 1 0 0, .used 0 (.deref 1) (.val revBig), .used 0 (.assign 0 [9]) .unit,
   .returned 1 (.leakAt u8L [5] 3) true (.leakErr [5] (.mismatch 12)), .returned 1 (.get u64L) true (.allocation ⟨4112, 20⟩), .used 1 (.boxed 1 big) .unit,
   .returned 0 (.leakBox u64L big) true .none, .used 0 (.drop 0) .unwound, .used 0 (.fromRaw 1) .unit, .used 0 (.take 1) (.val revBig), .used 1 (.leak 1) .unit, .used 1 (.fromRaw 1) .unit,
   .used 1 (.drop 1) .unit, .reset, .returned 0 (.leakBox u8L [9]) true (.ptr 4100), .used 0 (.drop 2) .unwound]
def log : List (Fin 2 × List Byte) := [(0, [7]), (0, big), (0, [9]), (1, big), (0, [9])]

/-- What is observed, the destructors that are run, and nothing is left. -/
theorem result : (match run e panics (World.init 0 m) evs with | .ret (os, w) => some (os, w.log, (w.vars 0).all Option.isNone, (w.vars 1).all Option.isNone) | _ => none) = some (obs, log, true, true) := by
  decide +kernel

/-- All hypotheses of the theorems are met. -/
example : ∃ w, run e panics (World.init 0 m) evs = .ret (obs, w) ∧ w.log = log ∧ (outputsOf obs ++ w.log.map Prod.snd).Perm (inputsOf obs) := by
  obtain ⟨os, w, h1, -, -⟩ := C88_refines e_valid (by decide) safe
  have hr := result
  rw [h1] at hr
  simp only [Option.some.injEq, Prod.mk.injEq] at hr
  obtain ⟨rfl, hl, h2, h3⟩ := hr
  refine ⟨w, h1, hl, C88_exactly_once e_valid (by decide) safe h1 ?_ ?_ ?_⟩
  · intro t call nd r h
    simp only [obs, List.mem_cons, List.not_mem_nil, or_false] at h
    simp at h
    rcases h with h | h | h | h | h | h <;> exact h.2.2.1
  · intro t
    rcases t with ⟨_ | _ | t, ht⟩
    · show ∀ o ∈ w.vars 0, o = none
      simpa using h2
    · show ∀ o ∈ w.vars 1, o = none
      simpa using h3
    · omega
  · intro pre post hp t o ho
    have hlen : pre = obs.take pre.length := by rw [hp]; simp
    have key : ∀ n, n < 22 → obs[n]? = some .reset → ∀ t, ∀ o ∈ (replay panics SWorld.init (obs.take n)).boxes t, o = none := by decide +kernel
    have hlt : pre.length < 22 := by
      have := congrArg List.length hp
      simp [obs] at this; omega
    have hget : obs[pre.length]? = some .reset := by rw [hp]; simp
    rw [hlen] at ho
    exact key _ hlt hget t o ho

/-- A case for `C88_value_kept`: thread 1 replaced the value, and reads it after thread 0 stored and read its own. -/
example : Shows (n := 2) 1 0 revBig (.used 1 (.replace 0 revBig) (.val big)) ∧ Leaves (n := 2) 1 0 (.returned 0 (.leakBox u8L [7]) true (.ptr 4100)) ∧ Leaves (n := 2) 1 0 (.used 0 (.deref 0) (.val [7])) :=
  ⟨.inl ⟨_, .inr (.inr (.inl rfl))⟩, ⟨by simp, by simp, by simp⟩, ⟨by simp, by simp, by simp⟩⟩

end ExC88
end Verif.ConcBoxes
