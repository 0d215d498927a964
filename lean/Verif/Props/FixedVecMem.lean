import Verif.Proofs.FixedVecFrame
import Verif.Props.FixedVecOps
/-! # C75, C77: memory used by `FixedVec`; iterating over `Drain` -/
namespace Verif
open FVec Uninit

namespace FVec
variable {V : Type} {t : Target} {T : Layout} {checks : Bool} {panics : V → Bool}

/-! ## C75 -/

/-- **C75** One permitted call on a vector: every value stored outside of the memory of this vector (not overlapping with it) is the same afterwards, and afterwards all vectors use the memory they used before, or (for the vector itself and the
one split off) a part of the memory of this vector. -/
theorem C75_writes_own_memory (hT : T.ValidType t) (hz : T.size = 0 → Subsingleton V) (h0 : 0 < T.size) {w w' : World V} (h : Reach t T checks panics w) {op : Op V} (hp : Permitted t T w op) {i : Nat} {e : Entry}
    (ht : op.target = some i) (he : w.ents i = some e) {a : Resp V} (hx : exec t T checks panics w op = .ret (a, w')) :
    (∀ x, Region.Disjoint ⟨x, T.size⟩ e.region → w'.heap.mem x = w.heap.mem x) ∧
    (∀ j e', w'.ents j = some e' → (j ≠ i ∧ w.ents j = some e') ∨ e'.region.Within e.region) := by
  obtain ⟨sw, r⟩ := reach_rel hT hz h
  obtain ⟨h1, h2⟩ := frame_step hT r ht he (hp.room ht he) hx
  exact ⟨h1 h0, h2⟩

/-- **C75** All histories: whatever is stored outside of the memory given to `new` is never changed. -/
theorem C75_history_writes_only_given_memory (hT : T.ValidType t) (hz : T.size = 0 → Subsingleton V) (h0 : 0 < T.size) {mem : Nat → Option V} {ops : List (Op V)} {rs : List (Resp V)} {w : World V}
    (hs : SafeRun t T checks panics (World.init mem) ops) (hx : run t T checks panics (World.init mem) ops = .ret (rs, w)) {x : Nat}
    (hout : ∀ addr len, Op.new addr len ∈ ops → Region.Disjoint ⟨x, T.size⟩ ⟨addr, len⟩) : w.heap.mem x = mem x :=
  frame_run hT hz h0 (wrel_init mem) hs hx hout (fun j e h => by cases h)

/-- **C75** The answers of a history do not depend on what was in memory before. -/
theorem C75_contents_irrelevant (hT : T.ValidType t) (hz : T.size = 0 → Subsingleton V) {mem mem' : Nat → Option V} {ops : List (Op V)}
    (hs : SafeRun t T checks panics (World.init mem) ops) (hs' : SafeRun t T checks panics (World.init mem') ops) :
    ∃ rs w w', run t T checks panics (World.init mem) ops = .ret (rs, w) ∧ run t T checks panics (World.init mem') ops = .ret (rs, w') ∧ w.heap.log = w'.heap.log := by
  obtain ⟨w, e, r⟩ := sim_run hT hz (wrel_init mem) hs
  obtain ⟨w', e', r'⟩ := sim_run hT hz (wrel_init mem') hs'
  exact ⟨_, w, w', e, e', by rw [r.log, r'.log]⟩

/-- The demo history: the words directly before and behind the memory keep their values (7), those inside have changed. -/
example : (match run .w64 ⟨4, 4⟩ true demoPanics (World.init fun _ => some 7) demoOps with
    | .ret (_, w) => some [w.heap.mem 4092, w.heap.mem 4096, w.heap.mem 4124, w.heap.mem 4130]
    | _ => none) = some [some 7, some 1, some 16, some 7] := by decide +kernel

/-! ## C77 -/

/-- Of the answers, exactly the first `n` are items. -/
def FirstItems (n : Nat) (answers : List (Option V)) : Prop := ∀ k a, answers[k]? = some a → (a.isSome ↔ k < n)

theorem pulls_first (ps : List Pull) (xs : List V) : FirstItems xs.length (pulls ps xs).1 := by
  induction ps generalizing xs with
  | nil => intro k a h; simp [pulls] at h
  | cons p ps ih =>
    cases p <;> intro k a h <;> cases k with
    | zero =>
      simp only [pulls, List.getElem?_cons_zero, Option.some.injEq] at h
      subst h
      cases xs <;> simp
    | succ k =>
      simp only [pulls, List.getElem?_cons_succ] at h
      have := ih _ k a h
      rw [this]
      simp only [List.length_tail, List.length_dropLast]
      omega

/-- **C77** A drain in progress, in any reachable state: there is a list of elements to come such that `len`, `size_hint` and `is_empty` are exact, `as_slice` shows it, and every sequence of calls of `next` and `next_back` gets the
elements from the front and from the back of this list; in particular exactly the first `n` answers are items, where `n` is the length told, and after that it is always `None`. -/
theorem C77_drain_iterator (hT : T.ValidType t) (hz : T.size = 0 → Subsingleton V) {w : World V} (h : Reach t T checks panics w) {i : Nat} {e : Entry} {d : Drain} (he : w.ents i = some e) (hd : e.drain = some d)
    (hp : Permitted t T w (.next i)) :
    ∃ rest : List V, d.len = rest.length ∧ d.exactLen = rest.length ∧ d.sizeHint = (rest.length, some rest.length) ∧ (d.isEmpty = true ↔ rest = []) ∧ d.asSlice T w.heap = .ret rest ∧
      ∀ ps, ∃ w', run t T checks panics w (ps.map (Pull.op i)) = .ret ((pulls ps rest).1.map .opt, w') ∧ FirstItems rest.length (pulls ps rest).1 := by
  obtain ⟨sw, r⟩ := reach_rel hT hz h
  obtain ⟨se, hs, hr⟩ := r.get he
  obtain ⟨sd, hsd, hrel, hc⟩ := hr.some_of hd
  have hlen : d.len = sd.rest.length := by simp [Drain.len, hrel.rest_len]
  refine ⟨sd.rest, hlen, hlen, ?_, ?_, ?_, fun ps => ?_⟩
  · have := hrel.rest_len
    simp only [Drain.sizeHint]
    split
    · rw [show d.end_ - d.start = sd.rest.length by omega]
    · rw [show sd.rest.length = 0 by omega]
  · have := hrel.rest_len
    simp only [Drain.isEmpty, decide_eq_true_eq, ← List.length_eq_zero_iff]
    omega
  · rw [Drain.asSlice, hlen]
    exact readSlice_eq hrel.rest
  · obtain ⟨i', e', a1, a2, a3, a4⟩ := hp
    cases a1
    have hsafe : SafeRun t T checks panics w (ps.map (Pull.op i)) := by
      have := safe_pulls (t := t) (T := T) (checks := checks) (panics := panics) i (.forgetDrain i) (.inr rfl) ps he a3 (by simp [hd])
      clear * - this
      induction ps generalizing w with
      | nil => trivial
      | cons p ps ih => exact ⟨this.1, this.2.1, fun r w' hx => ih (this.2.2 r w' hx)⟩
    obtain ⟨w', e1, _⟩ := sim_run hT hz r hsafe
    obtain ⟨sw1, c1, _⟩ := srun_pulls (t := t) (T := T) (panics := panics) i [] ps hs hsd
    rw [List.append_nil] at c1
    rw [c1] at e1
    exact ⟨w', by simpa [srun] using e1, pulls_first ps _⟩

/-- **C77** An element replaced through `as_mut_slice()[k]`: the caller gets the element which was there, and what is yielded afterwards, from either end, is the list of the elements to come with the replacement in its place. -/
theorem C77_replace (hT : T.ValidType t) (hz : T.size = 0 → Subsingleton V) {w : World V} (h : Reach t T checks panics w) {i : Nat} {e : Entry} {d : Drain} (he : w.ents i = some e) (hd : e.drain = some d)
    (hp : Permitted t T w (.next i)) {rest : List V} (hrest : d.asSlice T w.heap = .ret rest) {k : Nat} (hk : k < rest.length) (v : V) (ps : List Pull) :
    ∃ w', run t T checks panics w (.drainReplace i k v :: ps.map (Pull.op i)) = .ret (.val rest[k] :: (pulls ps (rest.set k v)).1.map .opt, w') ∧ w'.heap.log = w.heap.log := by
  obtain ⟨sw, r⟩ := reach_rel hT hz h
  obtain ⟨se, hs, hr⟩ := r.get he
  obtain ⟨sd, hsd, hrel, hc⟩ := hr.some_of hd
  have hlen : d.len = sd.rest.length := by simp [Drain.len, hrel.rest_len]
  have hsl : sd.rest = rest := by
    rw [Drain.asSlice, hlen, readSlice_eq hrel.rest] at hrest
    exact Outcome.ret.inj hrest
  subst hsl
  obtain ⟨i', e', a1, a2, a3, a4⟩ := hp
  cases a1
  rw [he] at a2; cases a2
  have hv : sd.rest[k]? = some sd.rest[k] := List.getElem?_eq_getElem hk
  have hex : exec t T checks panics w (.drainReplace i k v) = .ret (.val sd.rest[k], { w with heap := write T w.heap (d.elements + d.start * T.size + k * T.size) v }) := by
    simp only [exec, Op.target, he, hd, execDrain, Drain.replace, hlen, hk, if_true, read, hrel.rest k _ hv, bind, Outcome.bind, pure]
  have hsafe : SafeRun t T checks panics w (.drainReplace i k v :: ps.map (Pull.op i)) := by
    refine ⟨⟨i, e, rfl, he, a3, by simp [Op.OnDrain, hd]⟩, trivial, fun r' w' hx => ?_⟩
    rw [hex] at hx
    cases hx
    have := safe_pulls (t := t) (T := T) (checks := checks) (panics := panics) (w := { w with heap := write T w.heap (d.elements + d.start * T.size + k * T.size) v }) i (.forgetDrain i) (.inr rfl) ps he a3 (by simp [hd])
    revert this
    generalize ({ w with heap := write T w.heap (d.elements + d.start * T.size + k * T.size) v } : World V) = w0
    clear * -
    intro this
    induction ps generalizing w0 with
    | nil => trivial
    | cons p ps ih => exact ⟨this.1, this.2.1, fun r w' hx => ih w' (this.2.2 r w' hx)⟩
  obtain ⟨w', e1, r'⟩ := sim_run hT hz r hsafe
  have hsx : sexec t T panics sw (.drainReplace i k v) =
      (.val sd.rest[k], { sw.set i (some { se with drain := some { sd with rest := sd.rest.set k v } }) with taken := sw.taken ++ [v], handed := sw.handed ++ [sd.rest[k]] }) := by
    simp only [sexec, Op.target, Option.bind_some, hs, Option.map_some, hsd, sexecDrain, hv]
  have hlog := r'.log
  simp only [srun, hsx] at e1 hlog
  obtain ⟨sw1, c1, _, _, c4⟩ := srun_pulls (t := t) (T := T) (panics := panics) (sw := { sw.set i (some { se with drain := some { sd with rest := sd.rest.set k v } }) with taken := sw.taken ++ [v], handed := sw.handed ++ [sd.rest[k]] })
    (se := { se with drain := some { sd with rest := sd.rest.set k v } }) (sd := { sd with rest := sd.rest.set k v }) i [] ps (by simp [SWorld.set]) rfl
  rw [List.append_nil] at c1
  rw [c1] at e1 hlog
  refine ⟨w', by simpa [srun] using e1, ?_⟩
  rw [hlog, r.log]
  simpa [srun, SWorld.set] using c4

/-- A drain over three elements: the second is still to come after one call from each side. -/
example : (match run .w64 ⟨4, 4⟩ true (fun _ => false) (World.init fun _ => none) [.new 4096 16, .push 0 1, .push 0 2, .push 0 3, .drain 0 .unbounded .unbounded, .next 0, .nextBack 0] with
    | .ret (_, w) => (w.ents 0).bind fun e => e.drain.map fun d => (d.len, d.sizeHint, (match d.asSlice ⟨4, 4⟩ w.heap with | .ret l => l | _ => []))
    | _ => none) = some (1, (1, some 1), [2]) := by decide +kernel

/-- The third element is replaced after one call from the front: the caller gets the old value, and the new one comes from the back. -/
example : (match run .w64 ⟨4, 4⟩ true (fun _ => false) (World.init fun _ => none)
      [.new 4096 16, .push 0 1, .push 0 2, .push 0 3, .drain 0 .unbounded .unbounded, .next 0, .drainReplace 0 1 9, .nextBack 0, .nextBack 0, .nextBack 0] with
    | .ret (rs, _) => rs.drop 5
    | _ => []) = [.opt (some 1), .val 3, .opt (some 9), .opt (some 2), .opt none] := by decide +kernel

end FVec
end Verif
