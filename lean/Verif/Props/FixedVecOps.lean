import Verif.Props.FixedVec
import Verif.Props.Uninit
/-! # C47–C50: drains, splits, filling and construction of `FixedVec` -/
namespace Verif
open FVec Uninit

namespace FVec
variable {V : Type} {t : Target} {T : Layout} {checks : Bool} {panics : V → Bool}

/-! ## C47 -/

theorem safe_pulls (i : Nat) (last : Op V) (hl : last = .dropDrain i ∨ last = .forgetDrain i) (ps : List Pull) {w : World V} {e : Entry} (he : w.ents i = some e) (hfree : Free w i) (hd : e.drain.isSome) :
    SafeRun t T checks panics w (ps.map (Pull.op i) ++ [last]) := by
  induction ps generalizing w e with
  | nil =>
    refine ⟨?_, by rcases hl with rfl | rfl <;> trivial, fun _ _ _ => trivial⟩
    rcases hl with rfl | rfl <;> exact ⟨i, e, rfl, he, hfree, by simp [Op.OnDrain, hd]⟩
  | cons p ps ih =>
    obtain ⟨d, hd'⟩ := Option.isSome_iff_exists.mp hd
    have key : ∀ d' : Drain, SafeRun t T checks panics (w.set i (some { e with drain := some d' })) (ps.map (Pull.op i) ++ [last]) := by
      intro d'
      refine ih (e := { e with drain := some d' }) (if_pos rfl) (fun j e' hj => ?_) rfl
      simp only [World.set] at hj
      split at hj
      · cases hj; exact hfree i e he
      · exact hfree j e' hj
    refine ⟨?_, by cases p <;> trivial, fun r w' hx => ?_⟩
    · cases p <;> exact ⟨i, e, rfl, he, hfree, by simp [Pull.op, Op.OnDrain, hd]⟩
    · cases p with
      | front =>
        simp only [Pull.op, exec, Op.target, he, hd', execDrain, bind, Outcome.bind] at hx
        cases hn : d.next T w.heap with
        | ret x => rw [hn] at hx; cases hx; exact key _
        | panic => rw [hn] at hx; cases hx
        | ub => rw [hn] at hx; cases hx
      | back =>
        simp only [Pull.op, exec, Op.target, he, hd', execDrain, bind, Outcome.bind] at hx
        cases hn : d.nextBack T w.heap with
        | ret x => rw [hn] at hx; cases hx; exact key _
        | panic => rw [hn] at hx; cases hx
        | ub => rw [hn] at hx; cases hx

theorem srun_pulls (i : Nat) (ops : List (Op V)) (ps : List Pull) {sw : SWorld V} {se : SVec V} {sd : SDrain V} (hs : sw.vecs i = some se) (hd : se.drain = some sd) :
    ∃ sw1, srun t T panics sw (ps.map (Pull.op i) ++ ops) = ((pulls ps sd.rest).1.map .opt ++ (srun t T panics sw1 ops).1, (srun t T panics sw1 ops).2) ∧
      sw1.vecs i = some { se with drain := some { sd with rest := (pulls ps sd.rest).2 } } ∧ (∀ j, j ≠ i → sw1.vecs j = sw.vecs j) ∧ sw1.dropped = sw.dropped := by
  induction ps generalizing sw se sd with
  | nil =>
    refine ⟨sw, by simp [pulls], ?_, fun _ _ => rfl, rfl⟩
    rw [hs]
    cases se
    simp only at hd
    subst hd
    rfl
  | cons p ps ih =>
    cases p with
    | front =>
      obtain ⟨sw1, h1, h2, h3, h4⟩ := ih (sw := (sexecDrain panics sw i se sd (.next i)).2) (if_pos rfl) (sd := { sd with rest := sd.rest.tail }) rfl
      refine ⟨sw1, ?_, h2, fun j hj => by rw [h3 j hj]; simp only [sexecDrain, SWorld.set, if_neg hj], h4⟩
      simp only [List.map_cons, Pull.op, List.cons_append, srun, sexec, Op.target, hs, Option.bind_some, Option.map_some, hd]
      simp only [sexecDrain, pulls] at h1 ⊢
      rw [h1]
      rfl
    | back =>
      obtain ⟨sw1, h1, h2, h3, h4⟩ := ih (sw := (sexecDrain panics sw i se sd (.nextBack i)).2) (if_pos rfl) (sd := { sd with rest := sd.rest.dropLast }) rfl
      refine ⟨sw1, ?_, h2, fun j hj => by rw [h3 j hj]; simp only [sexecDrain, SWorld.set, if_neg hj], h4⟩
      simp only [List.map_cons, Pull.op, List.cons_append, srun, sexec, Op.target, hs, Option.bind_some, Option.map_some, hd]
      simp only [sexecDrain, pulls] at h1 ⊢
      rw [h1]
      rfl

/-- The first call, and the rest of the run. -/
theorem drain_run (hT : T.ValidType t) (hz : T.size = 0 → Subsingleton V) {w : World V} (h : Reach t T checks panics w) {i : Nat} {lo hi : Bound}
    (hp : Permitted t T w (.drain i lo hi)) (hN : NoWrap (V := V) t checks (.drain i lo hi)) {xs : List V} (hx : Shows t T checks panics w i xs)
    (h1 : lo.first ≤ hi.past xs.length) (h2 : hi.past xs.length ≤ xs.length) (ps : List Pull) (last : Op V) (hl : last = .dropDrain i ∨ last = .forgetDrain i) :
    ∃ (sw sw1 : SWorld V) (se : SVec V) (w' : World V), WRel t T w sw ∧ run t T checks panics w (.drain i lo hi :: ps.map (Pull.op i) ++ [last]) =
        .ret (.unit :: (pulls ps ((xs.drop lo.first).take (hi.past xs.length - lo.first))).1.map .opt ++ (srun t T panics sw1 [last]).1, w') ∧
      WRel t T w' (srun t T panics sw1 [last]).2 ∧
      sw1.vecs i = some ⟨xs.take lo.first, se.cap, some ⟨(pulls ps ((xs.drop lo.first).take (hi.past xs.length - lo.first))).2, xs.drop (hi.past xs.length)⟩, se.borrows⟩ ∧
      (∀ j, j ≠ i → sw1.vecs j = sw.vecs j) ∧ sw1.dropped = sw.dropped := by
  have hp' := hp
  obtain ⟨i', e, ht, he, hfree, hdr⟩ := hp'
  simp only [Op.target, Option.some.injEq] at ht
  subst ht
  obtain ⟨sw, se, r, hs, hd, hle, w1, ex, r1⟩ := step_of hT hz h (i := i) (op := .drain i lo hi) rfl (by simp [Op.OnDrain]) hp hN
  obtain ⟨se1, a1, a2, a3⟩ := (shows_iff r).mp hx
  rw [hs] at a1
  cases a1
  subst a3
  simp only [sexecVec, if_pos (And.intro h1 h2)] at ex r1
  have hw1 : ∃ e1, w1.ents i = some e1 ∧ Free w1 i ∧ e1.drain.isSome := by
    have hd0 : e.drain = none := by
      cases hh : e.drain with
      | none => rfl
      | some d => rw [hh] at hdr; simp [Op.OnDrain] at hdr
    simp only [exec, Op.target, he, hd0, execVec] at ex
    cases hdn : e.vec.drain t checks lo hi with
    | ub => rw [hdn] at ex; cases ex
    | panic => rw [hdn] at ex; cases ex
    | ret x =>
      rw [hdn] at ex
      cases ex
      refine ⟨_, if_pos rfl, fun j e' hj => ?_, rfl⟩
      simp only [World.set] at hj
      split at hj
      · cases hj; exact hfree i e he
      · exact hfree j e' hj
  obtain ⟨e1, b1, b2, b3⟩ := hw1
  have hsafe := safe_pulls (t := t) (T := T) (checks := checks) (panics := panics) i last hl ps b1 b2 b3
  obtain ⟨w', e2, r2⟩ := sim_run hT hz r1 hsafe
  obtain ⟨sw1, c1, c2, c3, c4⟩ := srun_pulls (t := t) (T := T) (panics := panics) i [last] ps (sw := sw.set i (some { se with items := se.items.take lo.first, drain := some ⟨(se.items.drop lo.first).take (hi.past se.items.length - lo.first), se.items.drop (hi.past se.items.length)⟩ }))
    (if_pos rfl) rfl
  rw [c1] at e2 r2
  refine ⟨sw, sw1, se, w', r, ?_, r2, c2, fun j hj => by rw [c3 j hj]; simp only [SWorld.set, if_neg hj], c4⟩
  simp only [List.cons_append, run, ex, bind, Outcome.bind, e2]
  rfl

/-- **C47** (bounds `usize::MAX` need overflow checks, see `C47_violated_wrap`.) A drain of the elements `a .. b`, any sequence of `next` and `next_back`, and the drop of the drain. The iteration yields exactly what iterating the sublist from both ends
gives. If no destructor (of those left) panics, the elements left are dropped, in order, and the vector then contains those before and after the range. If one panics, the user gets the panic, the
elements up to it are dropped, and the vector contains the elements before the range. Other vectors are not affected. -/
theorem C47_drain_partial (hT : T.ValidType t) (hz : T.size = 0 → Subsingleton V) {w : World V} (h : Reach t T checks panics w) {i : Nat} {lo hi : Bound}
    (hp : Permitted t T w (.drain i lo hi)) (hN : NoWrap (V := V) t checks (.drain i lo hi)) {xs : List V} (hx : Shows t T checks panics w i xs)
    {a b : Nat} (ha : lo.first = a) (hb : hi.past xs.length = b) (h1 : a ≤ b) (h2 : b ≤ xs.length) (ps : List Pull) :
    ∃ left, left = (pulls ps ((xs.drop a).take (b - a))).2 ∧ ∃ r w', run t T checks panics w (.drain i lo hi :: ps.map (Pull.op i) ++ [.dropDrain i]) =
        .ret (.unit :: (pulls ps ((xs.drop a).take (b - a))).1.map .opt ++ [r], w') ∧ OthersKept t T checks panics w w' i ∧
      ((∀ x ∈ left, panics x = false) → r = .unit ∧ Shows t T checks panics w' i (xs.take a ++ xs.drop b) ∧ w'.heap.log = w.heap.log ++ left) ∧
      ((∃ x ∈ left, panics x = true) → r = .panic ∧ Shows t T checks panics w' i (xs.take a) ∧ ∃ k x, left[k]? = some x ∧ panics x = true ∧ (∀ y ∈ left.take k, panics y = false) ∧
        w'.heap.log = w.heap.log ++ left.take (k + 1)) := by
  subst ha; subst hb
  obtain ⟨sw, sw1, se, w', r, e, r', hv, ho, hdr⟩ := drain_run hT hz h hp hN hx h1 h2 ps _ (.inl rfl)
  generalize (pulls ps ((xs.drop lo.first).take (hi.past xs.length - lo.first))).2 = left at hv
  obtain ⟨k, d1, d2, d3, d4, d5⟩ := dropUntil_spec panics left
  simp only [srun, sexec, Op.target, hv, Option.bind_some, Option.map_some, sexecDrain] at e r'
  refine ⟨left, rfl, ?_⟩
  by_cases hpk : ∃ x ∈ left, panics x = true
  · have ht := d3.mpr hpk
    simp only [ht, if_true] at e r'
    refine ⟨.panic, w', e, othersKept_of r r' fun j sj hj h => by simp only [SWorld.set, if_neg hj, ho j hj, h], fun hall => ?_, fun _ => ⟨rfl, ?_, ?_⟩⟩
    · obtain ⟨x, hx, hpx⟩ := hpk
      rw [hall x hx] at hpx
      cases hpx
    · exact (shows_iff r').mpr ⟨_, if_pos rfl, rfl, rfl⟩
    · obtain ⟨x, b1, b2, b3, b4⟩ := d5 ht
      refine ⟨k - 1, x, b1, b3, b4, ?_⟩
      rw [r'.log, r.log]
      simp only [hdr, d2]
      rw [show k - 1 + 1 = k by omega]
  · have ht : (dropUntil panics left).2 = false := by
      rw [Bool.eq_false_iff]; exact fun hh => hpk (d3.mp hh)
    have hk := d4 ht
    simp only [ht, if_false, Bool.false_eq_true] at e r'
    refine ⟨.unit, w', e, othersKept_of r r' fun j sj hj h => by simp only [SWorld.set, if_neg hj, ho j hj, h], fun _ => ⟨rfl, ?_, ?_⟩, fun hh => absurd hh hpk⟩
    · exact (shows_iff r').mpr ⟨_, if_pos rfl, rfl, rfl⟩
    · rw [r'.log, r.log]
      simp only [hdr, d2, hk, List.take_length]

/-- **C47** If the drain is forgotten (after any part of the iteration) the vector contains only the elements before the range, and nothing is dropped. -/
theorem C47_forget (hT : T.ValidType t) (hz : T.size = 0 → Subsingleton V) {w : World V} (h : Reach t T checks panics w) {i : Nat} {lo hi : Bound}
    (hp : Permitted t T w (.drain i lo hi)) (hN : NoWrap (V := V) t checks (.drain i lo hi)) {xs : List V} (hx : Shows t T checks panics w i xs)
    {a b : Nat} (ha : lo.first = a) (hb : hi.past xs.length = b) (h1 : a ≤ b) (h2 : b ≤ xs.length) (ps : List Pull) :
    ∃ w', run t T checks panics w (.drain i lo hi :: ps.map (Pull.op i) ++ [.forgetDrain i]) =
        .ret (.unit :: (pulls ps ((xs.drop a).take (b - a))).1.map .opt ++ [.unit], w') ∧ OthersKept t T checks panics w w' i ∧
      Shows t T checks panics w' i (xs.take a) ∧ w'.heap.log = w.heap.log := by
  subst ha; subst hb
  obtain ⟨sw, sw1, se, w', r, e, r', hv, ho, hdr⟩ := drain_run hT hz h hp hN hx h1 h2 ps _ (.inr rfl)
  simp only [srun, sexec, Op.target, hv, Option.bind_some, Option.map_some, sexecDrain] at e r'
  refine ⟨w', e, othersKept_of r r' fun j sj hj h => by simp only [SWorld.set, if_neg hj, ho j hj, h], (shows_iff r').mpr ⟨_, if_pos rfl, rfl, rfl⟩, ?_⟩
  rw [r'.log, r.log]
  exact hdr

/-- **C47** If the range is not within the elements then `drain` panics and the vector is as before. -/
theorem C47_out_of_range (hT : T.ValidType t) (hz : T.size = 0 → Subsingleton V) {w : World V} (h : Reach t T checks panics w) {i : Nat} {lo hi : Bound}
    (hp : Permitted t T w (.drain i lo hi)) (hN : NoWrap (V := V) t checks (.drain i lo hi)) {xs : List V} (hx : Shows t T checks panics w i xs)
    (hout : hi.past xs.length < lo.first ∨ xs.length < hi.past xs.length) :
    ∃ w', exec t T checks panics w (.drain i lo hi) = .ret (.panic, w') ∧ Shows t T checks panics w' i xs ∧ OthersKept t T checks panics w w' i ∧ w'.heap.log = w.heap.log := by
  obtain ⟨sw, se, r, hs, hd, hle, w', e, r'⟩ := step_of hT hz h (i := i) (op := .drain i lo hi) rfl (by simp [Op.OnDrain]) hp hN
  obtain ⟨se1, a1, a2, a3⟩ := (shows_iff r).mp hx
  rw [hs] at a1
  cases a1
  subst a3
  simp only [sexecVec] at e r'
  rw [if_neg (by omega)] at e r'
  exact ⟨w', e, (shows_iff r').mpr ⟨se, hs, hd, rfl⟩, othersKept_of r r' fun j sj hj h => h, by rw [r'.log, r.log]⟩

/-- **C47** While a drain exists, what it says about the number of items that are left is exact: `size_hint` (both bounds), `len` (its own and that of `ExactSizeIterator`) and `is_empty`. -/
theorem C47_size_hint (hT : T.ValidType t) (hz : T.size = 0 → Subsingleton V) {w : World V} (h : Reach t T checks panics w) {i : Nat} (hp : Permitted t T w (.drainSlice i)) :
    ∃ e d xs, w.ents i = some e ∧ e.drain = some d ∧ exec t T checks panics w (.drainSlice i) = .ret (.vals xs, w) ∧ exec t T checks panics w (.drainLen i) = .ret (.num xs.length, w) ∧
      d.sizeHint = (xs.length, some xs.length) ∧ d.len = xs.length ∧ d.exactLen = xs.length ∧ (d.isEmpty = true ↔ xs = []) := by
  obtain ⟨sw, r⟩ := reach_rel hT hz h
  obtain ⟨i', e, ht, he, hfree, hdr⟩ := hp
  cases ht
  obtain ⟨se, hs, hr⟩ := r.get he
  obtain ⟨d, hd⟩ := Option.isSome_iff_exists.mp (hdr.mp trivial)
  have hpart := hr.drain
  rw [hd] at hpart
  cases hsd : se.drain with
  | none => rw [hsd] at hpart; exact hpart.elim
  | some sd =>
    rw [hsd] at hpart
    obtain ⟨hd', -⟩ := hpart
    have hlen : d.end_ - d.start = sd.rest.length := by rw [hd'.rest_len]; omega
    refine ⟨e, d, sd.rest, he, hd, ?_, ?_, ?_, hlen, hlen, ?_⟩
    · simp only [exec, Op.target, he, hd, execDrain, Drain.asSlice, Drain.len, hlen, readSlice_eq hd'.rest]
      rfl
    · simp only [exec, Op.target, he, hd, execDrain, Drain.len, hlen]
    · simp only [Drain.sizeHint, hlen]
      split
      · rfl
      · rw [show sd.rest.length = 0 by omega]
    · simp only [Drain.isEmpty, decide_eq_true_eq, ← List.length_eq_zero_iff]
      have := hd'.rest_len
      omega

/-- **C47 is violated** in builds without overflow checks: `drain(..=usize::MAX)`, which is out of bounds for every vector, does not panic but is taken for `0..0`. -/
theorem C47_violated_wrap (t : Target) (f : FixedVec) (hf : f.length ≤ t.usizeMax) :
    ∃ f' d, f.drain t false .unbounded (.included t.usizeMax) = .ret (f', d) ∧ d.len = 0 ∧ f.length < (Bound.included t.usizeMax).past f.length := by
  have h1 : ¬ t.usizeMax + 1 < t.W := by cases t <;> decide
  have h2 : (t.usizeMax + 1) % t.W = 0 := by cases t <;> decide
  refine ⟨{ f with length := 0 }, ⟨0, 0, 0, f.length, f.uninit.addr + 0 * f.uninit.T.size⟩, ?_, rfl, ?_⟩
  · simp only [FixedVec.drain, FixedVec.drainStart, FixedVec.drainEnd, FixedVec.addOne, h1, h2, Outcome.assert, bind, Outcome.bind, if_false, Nat.le_refl, if_true, Nat.zero_le, Bool.false_eq_true]
    rfl
  · simp only [Bound.past]; omega

/-! ### What builds without overflow checks do instead -/

/-- The bounds as they are understood with wrapping arithmetic: an excluded start `usize::MAX` is the start 0, an included end `usize::MAX` is the end 0. -/
def Op.wrapped (t : Target) : Op V → Op V
  | .drain i lo hi => .drain i (match lo with | .excluded n => .included ((n + 1) % t.W) | lo => lo) (match hi with | .included n => .excluded ((n + 1) % t.W) | hi => hi)
  | op => op
/-- The bounds are numbers of type `usize`. -/
def Op.UsizeBounds (t : Target) : Op V → Prop
  | .drain _ lo hi => (∀ n, lo = .included n ∨ lo = .excluded n → n < t.W) ∧ ∀ n, hi = .included n ∨ hi = .excluded n → n < t.W
  | _ => True
/-- All operations of the history are permitted when they are executed (in a build without overflow checks, with any bounds of drains). -/
def SafeRunWrap (t : Target) (T : Layout) (panics : V → Bool) : World V → List (Op V) → Prop
  | _, [] => True
  | w, op :: ops => Permitted t T w op ∧ op.UsizeBounds t ∧ ∀ r w', exec t T false panics w op = .ret (r, w') → SafeRunWrap t T panics w' ops

theorem addOne_wrap (t : Target) (n : Nat) : FixedVec.addOne t false n = .ret ((n + 1) % t.W) := by
  simp only [FixedVec.addOne]
  by_cases h : n + 1 < t.W
  · rw [if_pos h, Nat.mod_eq_of_lt h]
  · rw [if_neg h]; rfl

/-- **C47** Exactly what happens without overflow checks, for all bounds: the call does what the call with the wrapped bounds does. -/
theorem C47_wraps (w : World V) (op : Op V) : exec t T false panics w op = exec t T false panics w (op.wrapped t) := by
  cases op with
  | drain i lo hi =>
    have h1 : ∀ f : FixedVec, f.drain t false lo hi = f.drain t false (match lo with | .excluded n => .included ((n + 1) % t.W) | lo => lo)
        (match hi with | .included n => .excluded ((n + 1) % t.W) | hi => hi) := by
      intro f
      cases lo <;> cases hi <;> simp only [FixedVec.drain, FixedVec.drainStart, FixedVec.drainEnd, addOne_wrap]
    simp only [exec, Op.wrapped, Op.target, execVec, h1]
    cases w.ents i with
    | none => rfl
    | some e => cases e with | mk vec drain borrows => cases drain <;> rfl
  | _ => rfl

theorem W_pos (t : Target) : 0 < t.W := by cases t <;> decide
theorem noWrap_wrapped {op : Op V} (h : op.UsizeBounds t) : NoWrap t checks (op.wrapped t) := by
  cases op with
  | drain i lo hi =>
    have hW := W_pos t
    refine .inr ⟨?_, ?_⟩
    · cases lo with
      | included n => exact h.1 n (.inl rfl)
      | excluded n => exact Nat.mod_lt _ hW
      | unbounded => exact hW
    · cases hi with
      | included n => exact Nat.mod_lt _ hW
      | excluded n => exact h.2 n (.inr rfl)
      | unbounded => exact hW
  | _ => trivial
theorem permitted_wrapped {w : World V} {op : Op V} (h : Permitted t T w op) : Permitted t T w (op.wrapped t) := by
  cases op with
  | drain i lo hi => exact h
  | _ => exact h

/-- **C47** Hence every history without overflow checks is one with bounds that do not wrap, so all the properties of those hold for it: in particular there is no undefined behaviour, and the answers are those of lists. -/
theorem C47_wrapped_history (hT : T.ValidType t) (hz : T.size = 0 → Subsingleton V) (mem : Nat → Option V) {ops : List (Op V)} (hs : SafeRunWrap t T panics (World.init mem) ops) :
    run t T false panics (World.init mem) ops = run t T false panics (World.init mem) (ops.map (Op.wrapped t)) ∧
    SafeRun t T false panics (World.init mem) (ops.map (Op.wrapped t)) ∧
    ∃ w', run t T false panics (World.init mem) ops = .ret ((srun t T panics SWorld.init (ops.map (Op.wrapped t))).1, w') := by
  have key : ∀ (w : World V) ops, SafeRunWrap t T panics w ops → run t T false panics w ops = run t T false panics w (ops.map (Op.wrapped t)) ∧ SafeRun t T false panics w (ops.map (Op.wrapped t)) := by
    intro w ops
    induction ops generalizing w with
    | nil => exact fun _ => ⟨rfl, trivial⟩
    | cons op ops ih =>
      rintro ⟨h1, h2, h3⟩
      constructor
      · simp only [List.map_cons, run]
        rw [← C47_wraps]
        cases hx : exec t T false panics w op with
        | ret p =>
          have := (ih p.2 (h3 _ _ hx)).1
          cases p with
          | mk r w2 => cases r <;> simp only [bind, Outcome.bind] <;> rw [this]
        | _ => rfl
      · refine ⟨permitted_wrapped h1, noWrap_wrapped h2, fun r w' hx => (ih w' (h3 r w' ?_)).2⟩
        rw [C47_wraps]; exact hx
  obtain ⟨k1, k2⟩ := key _ _ hs
  obtain ⟨w', h, _⟩ := sim_run hT hz (wrel_init mem) k2
  exact ⟨k1, k2, w', by rw [k1]; exact h⟩

/-! ## C48 -/

/-- **C48** `split_and_shrink_to(n)` succeeds exactly if `n` is at most the capacity (and panics otherwise, with nothing changed). All elements are kept, in place (no memory is written, nothing dropped): the first `n` by this vector,
those behind by the new one. Their memories together are the memory of the vector, the new one starts at the position of element `n`, and they can hold `n` resp. the remaining capacity. -/
theorem C48_split_and_shrink_to (hT : T.ValidType t) (hz : T.size = 0 → Subsingleton V) {w : World V} (h : Reach t T checks panics w) {i n : Nat} (hp : Permitted t T w (.splitShrink i n))
    {xs : List V} {c : Nat} (hx : Shows t T checks panics w i xs) (hc : ShowsCap t T checks panics w i c) :
    (n ≤ c → ∃ k w' e e' g, exec t T checks panics w (.splitShrink i n) = .ret (.num k, w') ∧ w.ents k = none ∧ w'.heap = w.heap ∧
      Shows t T checks panics w' i (xs.take n) ∧ Shows t T checks panics w' k (xs.drop n) ∧ OthersKept t T checks panics w w' i ∧
      w.ents i = some e ∧ w'.ents i = some e' ∧ w'.ents k = some g ∧ SplitsInto e.region e'.region g.region ∧ g.region.start = e.region.start + n * T.size ∧
      ShowsCap t T checks panics w' i (if T.size = 0 then t.usizeMax else n) ∧ ShowsCap t T checks panics w' k (if T.size = 0 then t.usizeMax else c - n)) ∧
    (c < n → ∃ w', exec t T checks panics w (.splitShrink i n) = .ret (.panic, w') ∧ Shows t T checks panics w' i xs ∧ ShowsCap t T checks panics w' i c) := by
  have hp' := hp
  obtain ⟨i', e, ht, he, hfree, hdr⟩ := hp'
  simp only [Op.target, Option.some.injEq] at ht
  subst ht
  obtain ⟨sw, se, r, hs, hd, hle, w', ex, r'⟩ := step_of hT hz h (i := i) (op := .splitShrink i n) rfl (by simp [Op.OnDrain]) hp trivial
  obtain ⟨se1, a1, a2, a3⟩ := (shows_iff r).mp hx
  obtain ⟨se2, b1, b2, b3⟩ := (showsCap_iff r).mp hc
  rw [hs] at a1 b1
  cases a1; cases b1
  subst a3; subst b3
  have hr : EntRel t T w.heap e se := by have := r.ents i; rw [he, hs] at this; exact this
  have hd0 : e.drain = none := by
    cases hh : e.drain with
    | none => rfl
    | some d => rw [hh] at hdr; simp [Op.OnDrain] at hdr
  have hwn : w.ents w.next = none := by
    cases hh : w.ents w.next with
    | none => rfl
    | some e' => exact absurd (r.bound _ _ hh).1 (Nat.lt_irrefl _)
  have hin : i ≠ w.next := by intro hh; rw [← hh, he] at hwn; cases hwn
  simp only [sexecVec] at ex r'
  constructor
  · intro hn
    rw [if_pos hn] at ex r'
    obtain ⟨hsp, hb⟩ := vecSplit_eq hT hr.ok (n := n) (by rw [← hr.cap]; exact hn)
    have hw : w' = { (w.set i (some { e with vec := ⟨{ e.vec.uninit with len := n * T.size }, e.vec.length - Usize.saturatingSub e.vec.length n⟩ })).set w.next
        (some ⟨⟨⟨e.vec.uninit.addr + n * T.size, e.vec.uninit.len - n * T.size, T, sliceCap t (e.vec.uninit.len - n * T.size) T⟩, Usize.saturatingSub e.vec.length n⟩, none, e.borrows⟩) with next := w.next + 1 } := by
      have ex' := ex
      simp only [exec, Op.target, he, hd0, execVec, FixedVec.splitAndShrinkTo, hsp, Outcome.assert, FixedVec.capacity, ← hr.cap, hn, if_true, bind, Outcome.bind] at ex'
      have := congrArg (fun o => match o with | Outcome.ret (x : Resp V × World V) => x.2 | _ => w) ex'
      simp only [pure] at this
      rw [← this, hd0]
    have hk : sw.next = w.next := r.next.symm
    rw [hk] at ex r'
    have e2 : w'.ents i = some { e with vec := ⟨{ e.vec.uninit with len := n * T.size }, e.vec.length - Usize.saturatingSub e.vec.length n⟩ } := by
      rw [hw]; simp only [World.set, if_neg hin, if_true]
    have e3 : w'.ents w.next = some ⟨⟨⟨e.vec.uninit.addr + n * T.size, e.vec.uninit.len - n * T.size, T, sliceCap t (e.vec.uninit.len - n * T.size) T⟩, Usize.saturatingSub e.vec.length n⟩, none, e.borrows⟩ := by
      rw [hw]; simp only [World.set, if_true]
    refine ⟨w.next, w', e, _, _, ex, hwn, by rw [hw]; rfl, ?_, ?_, ?_, he, e2, e3, ⟨rfl, rfl, ?_⟩, rfl, ?_, ?_⟩
    · exact (shows_iff r').mpr ⟨_, (if_neg hin).trans (if_pos rfl), hd, rfl⟩
    · exact (shows_iff r').mpr ⟨_, if_pos rfl, rfl, rfl⟩
    · refine othersKept_of r r' fun j sj hj hh => ?_
      have hjn : j ≠ w.next := by
        intro heq
        have := r.ents j
        rw [heq, hwn, ← heq, hh] at this
        exact this.elim
      simp only [SWorld.set, if_neg hjn, if_neg hj, hh]
    · simp only [Entry.region]; omega
    · exact (showsCap_iff r').mpr ⟨_, (if_neg hin).trans (if_pos rfl), hd, rfl⟩
    · exact (showsCap_iff r').mpr ⟨_, if_pos rfl, rfl, rfl⟩
  · intro hn
    rw [if_neg (by omega)] at ex r'
    exact ⟨w', ex, (shows_iff r').mpr ⟨se, hs, hd, rfl⟩, (showsCap_iff r').mpr ⟨se, hs, hd, rfl⟩⟩

/-- **C48** `split_borrowed(n)`: the same, but the memory behind the first `n` elements is only borrowed by the new vector: after that ended the vector has all its memory again. -/
theorem C48_split_borrowed (hT : T.ValidType t) (hz : T.size = 0 → Subsingleton V) {w : World V} (h : Reach t T checks panics w) {i n : Nat} (hp : Permitted t T w (.splitBorrowed i n))
    {xs : List V} {c : Nat} (hx : Shows t T checks panics w i xs) (hc : ShowsCap t T checks panics w i c) :
    (n ≤ c → ∃ k w' e e' g, exec t T checks panics w (.splitBorrowed i n) = .ret (.num k, w') ∧ w.ents k = none ∧ w'.heap = w.heap ∧
      Shows t T checks panics w' i (xs.take n) ∧ Shows t T checks panics w' k (xs.drop n) ∧ OthersKept t T checks panics w w' i ∧
      w.ents i = some e ∧ w'.ents i = some e' ∧ w'.ents k = some g ∧ e'.region = e.region ∧ SplitsInto e.region ⟨e.region.start, n * T.size⟩ g.region ∧ i ∈ g.borrows ∧
      ShowsCap t T checks panics w' i c ∧ ShowsCap t T checks panics w' k (if T.size = 0 then t.usizeMax else c - n)) ∧
    (c < n → ∃ w', exec t T checks panics w (.splitBorrowed i n) = .ret (.panic, w') ∧ Shows t T checks panics w' i xs ∧ ShowsCap t T checks panics w' i c) := by
  have hp' := hp
  obtain ⟨i', e, ht, he, hfree, hdr⟩ := hp'
  simp only [Op.target, Option.some.injEq] at ht
  subst ht
  obtain ⟨sw, se, r, hs, hd, hle, w', ex, r'⟩ := step_of hT hz h (i := i) (op := .splitBorrowed i n) rfl (by simp [Op.OnDrain]) hp trivial
  obtain ⟨se1, a1, a2, a3⟩ := (shows_iff r).mp hx
  obtain ⟨se2, b1, b2, b3⟩ := (showsCap_iff r).mp hc
  rw [hs] at a1 b1
  cases a1; cases b1
  subst a3; subst b3
  have hr : EntRel t T w.heap e se := by have := r.ents i; rw [he, hs] at this; exact this
  have hd0 : e.drain = none := by
    cases hh : e.drain with
    | none => rfl
    | some d => rw [hh] at hdr; simp [Op.OnDrain] at hdr
  have hwn : w.ents w.next = none := by
    cases hh : w.ents w.next with
    | none => rfl
    | some e' => exact absurd (r.bound _ _ hh).1 (Nat.lt_irrefl _)
  have hin : i ≠ w.next := by intro hh; rw [← hh, he] at hwn; cases hwn
  simp only [sexecVec] at ex r'
  constructor
  · intro hn
    rw [if_pos hn] at ex r'
    obtain ⟨hsp, hb⟩ := vecSplit_eq hT hr.ok (n := n) (by rw [← hr.cap]; exact hn)
    have hw : w' = { (w.set i (some { e with vec := { e.vec with length := e.vec.length - Usize.saturatingSub e.vec.length n } })).set w.next
        (some ⟨⟨⟨e.vec.uninit.addr + n * T.size, e.vec.uninit.len - n * T.size, T, sliceCap t (e.vec.uninit.len - n * T.size) T⟩, Usize.saturatingSub e.vec.length n⟩, none, i :: e.borrows⟩) with next := w.next + 1 } := by
      have ex' := ex
      simp only [exec, Op.target, he, hd0, execVec, FixedVec.splitBorrowed, hsp, Outcome.assert, FixedVec.capacity, ← hr.cap, hn, if_true, bind, Outcome.bind] at ex'
      have := congrArg (fun o => match o with | Outcome.ret (x : Resp V × World V) => x.2 | _ => w) ex'
      simp only [pure] at this
      rw [← this, hd0]
    have hk : sw.next = w.next := r.next.symm
    rw [hk] at ex r'
    have e2 : w'.ents i = some { e with vec := { e.vec with length := e.vec.length - Usize.saturatingSub e.vec.length n } } := by
      rw [hw]; simp only [World.set, if_neg hin, if_true]
    have e3 : w'.ents w.next = some ⟨⟨⟨e.vec.uninit.addr + n * T.size, e.vec.uninit.len - n * T.size, T, sliceCap t (e.vec.uninit.len - n * T.size) T⟩, Usize.saturatingSub e.vec.length n⟩, none, i :: e.borrows⟩ := by
      rw [hw]; simp only [World.set, if_true]
    refine ⟨w.next, w', e, _, _, ex, hwn, by rw [hw]; rfl, ?_, ?_, ?_, he, e2, e3, rfl, ⟨rfl, rfl, ?_⟩, by simp, ?_, ?_⟩
    · exact (shows_iff r').mpr ⟨_, (if_neg hin).trans (if_pos rfl), hd, rfl⟩
    · exact (shows_iff r').mpr ⟨_, if_pos rfl, rfl, rfl⟩
    · refine othersKept_of r r' fun j sj hj hh => ?_
      have hjn : j ≠ w.next := by
        intro heq
        have := r.ents j
        rw [heq, hwn, ← heq, hh] at this
        exact this.elim
      simp only [SWorld.set, if_neg hjn, if_neg hj, hh]
    · simp only [Entry.region]; omega
    · exact (showsCap_iff r').mpr ⟨_, (if_neg hin).trans (if_pos rfl), hd, rfl⟩
    · exact (showsCap_iff r').mpr ⟨_, if_pos rfl, rfl, rfl⟩
  · intro hn
    rw [if_neg (by omega)] at ex r'
    exact ⟨w', ex, (shows_iff r').mpr ⟨se, hs, hd, rfl⟩, (showsCap_iff r').mpr ⟨se, hs, hd, rfl⟩⟩

/-- **C48** `shrink_to_fit` leaves the elements and the capacity. What it returns, with the memory of the vector, is all the memory of before; it is disjoint from the memory of the (up to capacity many) elements. -/
theorem C48_shrink_to_fit (hT : T.ValidType t) (hz : T.size = 0 → Subsingleton V) {w : World V} (h : Reach t T checks panics w) {i : Nat} (hp : Permitted t T w (.shrinkToFit i))
    {xs : List V} {c : Nat} (hx : Shows t T checks panics w i xs) (hc : ShowsCap t T checks panics w i c) :
    ∃ w' e e' rest, exec t T checks panics w (.shrinkToFit i) = .ret (.unit, w') ∧ w.ents i = some e ∧ e.vec.shrinkToFit t = .ret (e'.vec, rest) ∧ w'.ents i = some e' ∧ w'.heap = w.heap ∧
      Shows t T checks panics w' i xs ∧ ShowsCap t T checks panics w' i c ∧ SplitsInto e.region e'.region (AnyView.sized rest).region ∧
      e'.region.Disjoint (AnyView.sized rest).region ∧ e'.region.size = c * T.size := by
  have hp' := hp
  obtain ⟨i', e, ht, he, hfree, hdr⟩ := hp'
  simp only [Op.target, Option.some.injEq] at ht
  subst ht
  obtain ⟨sw, se, r, hs, hd, hle, w', ex, r'⟩ := step_of hT hz h (i := i) (op := .shrinkToFit i) rfl (by simp [Op.OnDrain]) hp trivial
  obtain ⟨se1, a1, a2, a3⟩ := (shows_iff r).mp hx
  obtain ⟨se2, b1, b2, b3⟩ := (showsCap_iff r).mp hc
  rw [hs] at a1 b1
  cases a1; cases b1
  subst a3; subst b3
  have hr : EntRel t T w.heap e se := by have := r.ents i; rw [he, hs] at this; exact this
  have hd0 : e.drain = none := by
    cases hh : e.drain with
    | none => rfl
    | some d => rw [hh] at hdr; simp [Op.OnDrain] at hdr
  have hsh := vecShrink_eq hT hr.ok
  have hw : w' = w.set i (some { e with vec := { e.vec with uninit := { e.vec.uninit with len := e.vec.uninit.capacity t * T.size } } }) := by
    have ex' := ex
    simp only [exec, Op.target, he, hd0, execVec, hsh, bind, Outcome.bind, sexecVec] at ex'
    have := congrArg (fun o => match o with | Outcome.ret (x : Resp V × World V) => x.2 | _ => w) ex'
    simp only [pure] at this
    rw [← this, hd0]
  have hle2 : e.vec.uninit.capacity t * T.size ≤ e.vec.uninit.len := by
    have : e.vec.uninit.capacity t * e.vec.uninit.T.size ≤ e.vec.uninit.len := cap_mul_le
    rwa [hr.ok.elem] at this
  refine ⟨w', e, { e with vec := { e.vec with uninit := { e.vec.uninit with len := e.vec.uninit.capacity t * T.size } } }, _, ex, he, hsh, by rw [hw]; simp only [World.set, if_true],
    by rw [hw]; rfl, (shows_iff r').mpr ⟨se, hs, hd, rfl⟩, (showsCap_iff r').mpr ⟨se, hs, hd, rfl⟩, ⟨rfl, rfl, ?_⟩, Region.disjoint_of_le (Nat.le_refl _), by rw [hr.cap]; rfl⟩
  simp only [Entry.region, AnyView.region]
  omega

/-! ## C49 -/

theorem takeItems_spec (it : Iter V) (n : Nat) : ∃ m, (takeItems it.poll it.pos n).2.1 = m ∧ m ≤ n ∧ (takeItems it.poll it.pos n).1 = polled it m ∧
    ((takeItems it.poll it.pos n).2.2 = false → (m = n ∧ ∀ k < m, ∃ v, it.poll (it.pos + k) = .item v) ∨ (0 < m ∧ it.poll (it.pos + (m - 1)) = .done ∧ ∀ k < m - 1, ∃ v, it.poll (it.pos + k) = .item v)) ∧
    ((takeItems it.poll it.pos n).2.2 = true → 0 < m ∧ it.poll (it.pos + (m - 1)) = .panic ∧ ∀ k < m - 1, ∃ v, it.poll (it.pos + k) = .item v) := by
  refine ⟨_, rfl, ?_, takeItems_polled it n, ?_⟩ <;> induction n generalizing it with
  | zero => simp [takeItems]
  | succ n ih =>
    simp only [takeItems]
    cases hp : it.poll it.pos with
    | done => simp [hp]
    | panic => simp [hp]
    | item v =>
      have := ih { it with pos := it.pos + 1 }
      simp only at this ⊢
      first
      | omega
      | (have step : ∀ j, (∀ k < j, ∃ v, it.poll (it.pos + 1 + k) = .item v) → ∀ k < j + 1, ∃ v, it.poll (it.pos + k) = .item v := by
          intro j hj k hk
          cases k with
          | zero => exact ⟨v, hp⟩
          | succ k => obtain ⟨u, hu⟩ := hj k (by omega); exact ⟨u, by rw [← hu]; congr 1; omega⟩
         refine ⟨fun h => ?_, fun h => ?_⟩
         · rcases this.1 h with ⟨h1, h2⟩ | ⟨h1, h2, h3⟩
           · exact .inl ⟨by omega, step _ h2⟩
           · refine .inr ⟨by omega, ?_, fun k hk => step _ h3 k (by omega)⟩
             rw [← h2]; congr 1; omega
         · obtain ⟨h1, h2, h3⟩ := this.2 h
           refine ⟨by omega, ?_, fun k hk => step _ h3 k (by omega)⟩
           rw [← h2]; congr 1; omega)

/-- **C49** `fill`, for all iterators (also infinite or panicking ones): it calls the iterator `n` times and appends exactly the items it got, so none is lost. It stops when the vector is full (then the iterator gave an item each time and was not asked again), at
the first end, or at the first panic of the iterator (which goes to the user). -/
theorem C49_fill (hT : T.ValidType t) (hz : T.size = 0 → Subsingleton V) {w : World V} (h : Reach t T checks panics w) {i : Nat} {it : Iter V} (hp : Permitted t T w (.fill i it))
    {xs : List V} {c : Nat} (hx : Shows t T checks panics w i xs) (hc : ShowsCap t T checks panics w i c) :
    ∃ n r w', exec t T checks panics w (.fill i it) = .ret (r, w') ∧ Shows t T checks panics w' i (xs ++ polled it n) ∧ (xs ++ polled it n).length ≤ c ∧ OthersKept t T checks panics w w' i ∧ w'.heap.log = w.heap.log ∧
      ((r = .num n ∧ (xs ++ polled it n).length = c ∧ ∀ k < n, ∃ v, it.poll (it.pos + k) = .item v) ∨
       (r = .num n ∧ 0 < n ∧ it.poll (it.pos + (n - 1)) = .done ∧ ∀ k < n - 1, ∃ v, it.poll (it.pos + k) = .item v) ∨
       (r = .panicAt n ∧ 0 < n ∧ it.poll (it.pos + (n - 1)) = .panic ∧ ∀ k < n - 1, ∃ v, it.poll (it.pos + k) = .item v)) := by
  obtain ⟨sw, se, r, hs, hd, hle, w', ex, r'⟩ := step_of hT hz h (i := i) (op := .fill i it) rfl (by simp [Op.OnDrain]) hp trivial
  obtain ⟨se1, a1, a2, a3⟩ := (shows_iff r).mp hx
  obtain ⟨se2, b1, b2, b3⟩ := (showsCap_iff r).mp hc
  rw [hs] at a1 b1
  cases a1; cases b1
  subst a3; subst b3
  obtain ⟨m, h1, h2, h3, h4, h5⟩ := takeItems_spec it (se.cap - se.items.length)
  have h6 := takeItems_le it.poll it.pos (se.cap - se.items.length)
  rw [h3] at h6
  simp only [sexecVec] at ex r'
  rw [h1] at ex
  refine ⟨m, _, w', ex, (shows_iff r').mpr ⟨_, if_pos rfl, hd, by rw [h3]⟩, by rw [List.length_append]; omega, othersKept_of r r' fun j sj hj h => by simp only [SWorld.set, if_neg hj, h], ?_, ?_⟩
  · rw [r'.log, r.log]; rfl
  · cases hb : (takeItems it.poll it.pos (se.cap - se.items.length)).2.2 with
    | false =>
      rcases h4 hb with ⟨g1, g2⟩ | g
      · refine .inl ⟨rfl, ?_, g2⟩
        have hlen : ∀ j, j ≤ m → (polled it j).length = j := by
          intro j
          induction j with
          | zero => intro _; rfl
          | succ j ih =>
            intro hj
            obtain ⟨v, hv⟩ := g2 j (by omega)
            rw [polled_append, hv, List.length_append, ih (by omega)]
            rfl
        rw [List.length_append, hlen m (Nat.le_refl _)]
        omega
      · exact .inr (.inl ⟨rfl, g⟩)
    | true => exact .inr (.inr ⟨rfl, h5 hb⟩)

/-- **C49** `extend`: returns normally only if the iterator ended, and then all its items are in the vector. Otherwise it panics: the items that fit are in the vector, and there was one more which is dropped (after a panic of the iterator there is
none); that is when the vector is full, or if the iterator yields an item after it had ended. So no item disappears silently. -/
theorem C49_extend (hT : T.ValidType t) (hz : T.size = 0 → Subsingleton V) {w : World V} (h : Reach t T checks panics w) {i : Nat} {it : Iter V} (hp : Permitted t T w (.extend i it))
    {xs : List V} {c : Nat} (hx : Shows t T checks panics w i xs) (hc : ShowsCap t T checks panics w i c) :
    ∃ n vs r w', exec t T checks panics w (.extend i it) = .ret (r, w') ∧ Shows t T checks panics w' i (xs ++ vs) ∧ OthersKept t T checks panics w w' i ∧
      ((r = .num n ∧ vs = polled it n ∧ 0 < n ∧ it.poll (it.pos + (n - 1)) = .done ∧ w'.heap.log = w.heap.log) ∨
       (r = .panicAt n ∧ vs = polled it n ∧ 0 < n ∧ it.poll (it.pos + (n - 1)) = .panic ∧ w'.heap.log = w.heap.log) ∨
       (∃ v, ((xs ++ vs).length = c ∨ 1 < n ∧ it.poll (it.pos + (n - 2)) = .done) ∧ polled it n = vs ++ [v] ∧ w'.heap.log = w.heap.log ++ [v] ∧ r = if panics v then .abort n else .panicAt n)) := by
  obtain ⟨sw, se, r, hs, hd, hle, w', ex, r'⟩ := step_of hT hz h (i := i) (op := .extend i it) rfl (by simp [Op.OnDrain]) hp trivial
  obtain ⟨se1, a1, a2, a3⟩ := (shows_iff r).mp hx
  obtain ⟨se2, b1, b2, b3⟩ := (showsCap_iff r).mp hc
  rw [hs] at a1 b1
  cases a1; cases b1
  subst a3; subst b3
  obtain ⟨m, h1, h2, h3, h4, h5⟩ := takeItems_spec it (se.cap - se.items.length)
  simp only [sexecVec] at ex r'
  rw [h1] at ex r'
  have hpa := polled_append it m
  cases hb : (takeItems it.poll it.pos (se.cap - se.items.length)).2.2 with
  | true =>
    simp only [hb, if_true] at ex r'
    obtain ⟨g1, g2, g3⟩ := h5 hb
    refine ⟨m, polled it m, _, w', ex, (shows_iff r').mpr ⟨_, if_pos rfl, hd, by rw [h3]⟩, othersKept_of r r' fun j sj hj h => by simp only [SWorld.set, if_neg hj, h], .inr (.inl ⟨rfl, rfl, g1, g2, ?_⟩)⟩
    rw [r'.log, r.log]; rfl
  | false =>
    simp only [hb, if_false, Bool.false_eq_true] at ex r'
    cases hq : it.poll (it.pos + m) with
    | done =>
      rw [hq] at hpa
      simp only [hq] at ex r'
      refine ⟨m + 1, polled it (m + 1), _, w', ex, (shows_iff r').mpr ⟨_, if_pos rfl, hd, by rw [h3, hpa]; simp [Poll.item?]⟩, othersKept_of r r' fun j sj hj h => by simp only [SWorld.set, if_neg hj, h],
        .inl ⟨rfl, rfl, by omega, hq, ?_⟩⟩
      rw [r'.log, r.log]; rfl
    | panic =>
      rw [hq] at hpa
      simp only [hq] at ex r'
      refine ⟨m + 1, polled it (m + 1), _, w', ex, (shows_iff r').mpr ⟨_, if_pos rfl, hd, by rw [h3, hpa]; simp [Poll.item?]⟩, othersKept_of r r' fun j sj hj h => by simp only [SWorld.set, if_neg hj, h],
        .inr (.inl ⟨rfl, rfl, by omega, hq, ?_⟩)⟩
      rw [r'.log, r.log]; rfl
    | item v =>
      rw [hq] at hpa
      simp only [hq] at ex r'
      rcases h4 hb with ⟨g1, g2⟩ | ⟨g1, g2, g3⟩
      · refine ⟨m + 1, polled it m, _, w', ex, (shows_iff r').mpr ⟨_, if_pos rfl, hd, by rw [h3]⟩, othersKept_of r r' fun j sj hj h => by simp only [SWorld.set, if_neg hj, h],
          .inr (.inr ⟨v, .inl ?_, hpa, by rw [r'.log, r.log]; rfl, by cases panics v <;> rfl⟩)⟩
        have hlen : ∀ j, j ≤ m → (polled it j).length = j := by
          intro j
          induction j with
          | zero => intro _; rfl
          | succ j ih =>
            intro hj
            obtain ⟨v, hv⟩ := g2 j (by omega)
            rw [polled_append, hv, List.length_append, ih (by omega)]
            rfl
        rw [List.length_append, hlen m (Nat.le_refl _)]
        omega
      · exact ⟨m + 1, polled it m, _, w', ex, (shows_iff r').mpr ⟨_, if_pos rfl, hd, by rw [h3]⟩, othersKept_of r r' fun j sj hj h => by simp only [SWorld.set, if_neg hj, h],
          .inr (.inr ⟨v, .inr ⟨by omega, by rw [← g2]; congr 1⟩, hpa, by rw [r'.log, r.log]; rfl, by cases panics v <;> rfl⟩)⟩

/-! ## C50 -/

/-- **C50** (missing: memory that does not start aligned, for which it is false, see `C50_violated`.) If the memory starts aligned, `from_unaligned` gives an empty vector in all of it: it has room for `n` elements exactly if the memory has. -/
theorem C50_from_unaligned_partial (hT : T.ValidType t) {v : View} (hlen : v.len ≤ t.isizeMax) (hal : T.align ∣ v.addr) :
    ∃ f, FixedVec.fromUnaligned t T v = .ret f ∧ f.len = 0 ∧ f.uninit.T = T ∧ (AnyView.slice f.uninit).region = (AnyView.sized v).region ∧
      ∀ n < t.W, n ≤ f.capacity t ↔ CanHoldArray (AnyView.sized v).region T n := by
  have e := splitLayout_eq (t := t) (v := v.decast) rfl hlen (l := ⟨0, T.align⟩) hT.1.1.pos
  rw [if_pos ⟨hal, Nat.zero_le _⟩] at e
  rcases castSlice_eq (t := t) (v := fromMemory v.decast.addr v.decast.len) (U := T) hT.1.1.pos with ⟨_, e2⟩ | ⟨hn, _⟩
  · refine ⟨FixedVec.new ⟨v.addr, v.len, T, sliceCap t v.len T⟩, ?_, rfl, rfl, rfl, fun n hn => ?_⟩
    · simp only [FixedVec.fromUnaligned, View.splitSlice, e, e2, bind, Outcome.bind, pure]
      rfl
    · rw [show (FixedVec.new ⟨v.addr, v.len, T, sliceCap t v.len T⟩).capacity t = (⟨v.addr, v.len, T, sliceCap t v.len T⟩ : SliceView).capacity t from rfl, cap_iff hn]
      simp only [CanHoldArray, AnyView.region]
      constructor
      · intro h; exact ⟨v.addr, hal, Nat.le_refl _, by omega⟩
      · rintro ⟨p, _, h1, h2⟩; omega
  · exact absurd hal hn

/-- **C50** The vector is always within the memory or has no memory, and can be used like any other (`VecOk`). -/
theorem C50_sound (hT : T.ValidType t) {v : View} (hlen : v.len ≤ t.isizeMax) :
    ∃ f, FixedVec.fromUnaligned t T v = .ret f ∧ f.len = 0 ∧ T.align ∣ f.uninit.addr ∧ ((AnyView.slice f.uninit).region = (AnyView.sized v).region ∨ f.uninit.len = 0) := by
  by_cases hal : T.align ∣ v.addr
  · obtain ⟨f, h1, h2, h3, h4, _⟩ := C50_from_unaligned_partial hT hlen hal
    refine ⟨f, h1, h2, ?_, .inl h4⟩
    have := congrArg Region.start h4
    simp only [AnyView.region] at this
    rw [this]; exact hal
  · have := (C41_violated_cast (v := v.decast) rfl hlen hT hal).2
    exact ⟨FixedVec.new (empty T), by simp only [FixedVec.fromUnaligned, this, bind, Outcome.bind]; rfl, rfl, Nat.dvd_refl _, .inr rfl⟩

/-- **C50** The exact capacity: what fits into the memory if its start is aligned, else nothing (of elements that are not zero-sized). -/
theorem C50_capacity (hT : T.ValidType t) (h0 : 0 < T.size) {v : View} (hlen : v.len ≤ t.isizeMax) :
    ∃ f, FixedVec.fromUnaligned t T v = .ret f ∧ (T.align ∣ v.addr → f.capacity t = v.len / T.size) ∧ (¬ T.align ∣ v.addr → f.capacity t = 0) := by
  by_cases hal : T.align ∣ v.addr
  · obtain ⟨f, h1, _, h3, h4, _⟩ := C50_from_unaligned_partial hT hlen hal
    refine ⟨f, h1, fun _ => ?_, fun h => absurd hal h⟩
    have := congrArg Region.size h4
    simp only [AnyView.region] at this
    show f.uninit.capacity t = _
    rw [SliceView.capacity, h3, if_neg (by omega), this]
  · have := (C41_violated_cast (v := v.decast) rfl hlen hT hal).2
    refine ⟨FixedVec.new (empty T), by simp only [FixedVec.fromUnaligned, this, bind, Outcome.bind]; rfl, fun h => absurd h hal, fun _ => ?_⟩
    show (if T.size = 0 then t.usizeMax else 0 / T.size) = 0
    rw [if_neg (by omega), Nat.zero_div]

/-- **C50 is violated** whenever the memory does not start aligned (the case the name promises): the vector has room for nothing, no matter how large the memory. -/
theorem C50_violated (hT : T.ValidType t) (h0 : 0 < T.size) {v : View} (hlen : v.len ≤ t.isizeMax) (hal : ¬ T.align ∣ v.addr) (hroom : T.align + T.size ≤ v.len) :
    ∃ f, FixedVec.fromUnaligned t T v = .ret f ∧ f.capacity t = 0 ∧ CanHoldArray (AnyView.sized v).region T 1 := by
  have := (C41_violated_cast (v := v.decast) rfl hlen hT hal).2
  refine ⟨FixedVec.new (empty T), by simp only [FixedVec.fromUnaligned, this, bind, Outcome.bind]; rfl, ?_, ?_⟩
  · show (if T.size = 0 then t.usizeMax else 0 / T.size) = 0
    rw [if_neg (by omega), Nat.zero_div]
  · have hp := hT.1.1.pos
    refine ⟨(v.addr / T.align + 1) * T.align, Nat.dvd_mul_left _ _, ?_, ?_⟩
    · have := Nat.lt_div_mul_add (a := v.addr) hp
      simp only [AnyView.region, Nat.add_mul]; omega
    · have := Nat.div_mul_le_self v.addr T.align
      simp only [AnyView.region, Nat.add_mul]; omega
/-- e.g. a kilobyte at an address that is 4 modulo 8 -/
example : ∃ f, FixedVec.fromUnaligned .w64 ⟨8, 8⟩ (fromMemory 4100 1024) = .ret f ∧ f.capacity .w64 = 0 ∧ CanHoldArray ⟨4100, 1024⟩ ⟨8, 8⟩ 1 :=
  C50_violated ⟨⟨⟨3, rfl⟩, by decide⟩, by decide⟩ (by decide) (by decide) (by decide) (by decide)

/-! ## A concrete history

Values are natural numbers of 4 bytes; the destructor of 13 panics. -/

def demoPanics : Nat → Bool := fun v => v = 13
def demoFill : Iter Nat := ⟨fun k => .item (k + 10), 1⟩
def demoOps : List (Op Nat) :=
  [.new 4096 34, .push 0 1, .push 0 2, .fill 0 demoFill, .push 0 9, .drain 0 (.included 1) (.excluded 4), .nextBack 0, .dropDrain 0,
   .splitBorrowed 0 3, .push 1 5, .slice 1, .drop 1, .push 0 6, .slice 0, .truncate 0 1, .slice 0, .drop 0]
def demoResps : List (Resp Nat) :=
  [.num 0, .pushed (.ok ()), .pushed (.ok ()), .num 6, .pushed (.error 9), .unit, .opt (some 12), .unit,
   .num 1, .pushed (.ok ()), .vals [15, 16, 5], .unit, .pushed (.ok ()), .vals [1, 13, 14, 6], .panic, .vals [1], .unit]

deriving instance DecidableEq for Resp, SDrain, SVec
/-- Answers and destructors. -/
def summary (o : Outcome (List (Resp Nat) × World Nat)) : Option (List (Resp Nat) × List Nat) :=
  match o with
  | .ret (rs, w) => some (rs, w.heap.log)
  | _ => none

/-- The demo history runs. -/
theorem demo_run : summary (run .w64 ⟨4, 4⟩ true demoPanics (World.init fun _ => none) demoOps) = some (demoResps, [2, 11, 15, 16, 5, 6, 14, 13, 1]) := by decide +kernel

/-! It is one that safe code can do, so the theorems above are about it: decide that. -/

def onDrainB : Op V → Bool
  | .next _ | .nextBack _ | .drainLen _ | .drainSlice _ | .drainReplace _ _ _ | .dropDrain _ | .forgetDrain _ => true
  | _ => false
def permB (t : Target) (T : Layout) (w : World V) (op : Op V) : Bool :=
  match op with
  | .new a l => decide (T.align ∣ a) && decide (0 < a) && decide (a + l ≤ t.W) && decide (l ≤ t.isizeMax) &&
      (List.range w.next).all fun j => match w.ents j with
        | none => true
        | some e => decide (a + l ≤ e.vec.uninit.addr ∨ e.vec.uninit.addr + e.vec.uninit.len ≤ a)
  | .setLen i vs n => match w.ents i with
    | none => false
    | some e => ((List.range w.next).all fun j => match w.ents j with | none => true | some e' => decide (i ∉ e'.borrows)) && e.drain.isNone &&
      decide (e.vec.len + vs.length ≤ e.vec.capacity t) && decide (n ≤ e.vec.len + vs.length)
  | op => match op.target with
    | none => false
    | some i => match w.ents i with
      | none => false
      | some e => ((List.range w.next).all fun j => match w.ents j with | none => true | some e' => decide (i ∉ e'.borrows)) && (onDrainB op == e.drain.isSome)
def noWrapB (t : Target) : Op V → Bool
  | .drain _ lo hi => decide (lo.first < t.W ∧ hi.past 0 < t.W)
  | _ => true
def safeB (t : Target) (T : Layout) (checks : Bool) (panics : V → Bool) : World V → List (Op V) → Bool
  | _, [] => true
  | w, op :: ops => permB t T w op && noWrapB t op && match exec t T checks panics w op with | .ret (_, w') => safeB t T checks panics w' ops | _ => true

theorem permB_sound {w : World V} {sw : SWorld V} (r : WRel t T w sw) {op : Op V} (h : permB t T w op = true) : Permitted t T w op := by
  have hall : ∀ i, ((List.range w.next).all fun j => match w.ents j with | none => true | some e' => decide (i ∉ e'.borrows)) = true → ∀ j e', w.ents j = some e' → i ∉ e'.borrows := by
    intro i hi j e' hj
    rw [List.all_eq_true] at hi
    have := hi j (List.mem_range.mpr (r.bound _ _ hj).1)
    simpa [hj] using this
  cases op with
  | new a l =>
    simp only [permB, Bool.and_eq_true, decide_eq_true_eq] at h
    obtain ⟨⟨⟨⟨h1, h2⟩, h3⟩, h4⟩, h5⟩ := h
    refine ⟨h1, ⟨h2, h3, h4⟩, fun j e hj x hx => ?_⟩
    rw [List.all_eq_true] at h5
    have := h5 j (List.mem_range.mpr (r.bound _ _ hj).1)
    simp only [hj, decide_eq_true_eq] at this
    simp only [Region.Has, Entry.region] at hx
    omega
  | setLen i vs n =>
    simp only [permB] at h
    split at h
    · cases h
    · rename_i e he
      simp only [Bool.and_eq_true, decide_eq_true_eq, Option.isNone_iff_eq_none] at h
      exact ⟨e, he, hall _ h.1.1.1, h.1.1.2, h.1.2, h.2⟩
  | _ =>
    simp only [permB, Op.target] at h
    split at h
    · cases h
    · rename_i e he
      simp only [Bool.and_eq_true, onDrainB, beq_iff_eq] at h
      refine ⟨_, e, rfl, he, hall _ h.1, ?_⟩
      rw [← h.2]
      simp [Op.OnDrain]

theorem safeB_sound (hT : T.ValidType t) (hz : T.size = 0 → Subsingleton V) {w : World V} {sw : SWorld V} (r : WRel t T w sw) {ops : List (Op V)} (h : safeB t T checks panics w ops = true) :
    SafeRun t T checks panics w ops := by
  induction ops generalizing w sw with
  | nil => trivial
  | cons op ops ih =>
    simp only [safeB, Bool.and_eq_true] at h
    obtain ⟨⟨h1, h2⟩, h3⟩ := h
    have hN : NoWrap t checks op := by
      cases op with
      | drain i lo hi => exact .inr (by simpa [noWrapB] using h2)
      | _ => trivial
    have hp := permB_sound r h1
    refine ⟨hp, hN, fun r1 w1 e1 => ?_⟩
    obtain ⟨w2, e2, r2⟩ := sim_step (checks := checks) (panics := panics) hT hz r hp hN
    rw [e1] at e2
    cases e2
    rw [e1] at h3
    exact ih r2 h3

theorem demo_safe : SafeRun .w64 ⟨4, 4⟩ true demoPanics (World.init fun _ => none) demoOps :=
  safeB_sound u32_valid (by simp) (wrel_init _) (by decide +kernel)

theorem safeRunWrap_of {w : World V} {ops : List (Op V)} (hu : ∀ op ∈ ops, op.UsizeBounds t) (hs : SafeRun t T false panics w (ops.map (Op.wrapped t))) : SafeRunWrap t T panics w ops := by
  induction ops generalizing w with
  | nil => trivial
  | cons op ops ih =>
    obtain ⟨h1, _, h3⟩ := hs
    refine ⟨by cases op <;> exact h1, hu _ (by simp), fun r w' hx => ih (fun o ho => hu o (by simp [ho])) (h3 r w' ?_)⟩
    rw [← C47_wraps]; exact hx

/-- A history with a bound that wraps. -/
def wrapOps : List (Op Nat) := [.new 4096 16, .push 0 1, .push 0 2, .drain 0 .unbounded (.included (2 ^ 64 - 1)), .next 0, .dropDrain 0, .slice 0]
theorem wrap_safe : SafeRunWrap .w64 ⟨4, 4⟩ demoPanics (World.init fun _ => none) wrapOps :=
  safeRunWrap_of (by intro op ho; simp only [wrapOps, List.mem_cons, List.not_mem_nil, or_false] at ho; rcases ho with rfl | rfl | rfl | rfl | rfl | rfl | rfl <;> simp [Op.UsizeBounds, Target.W, Target.wordBytes])
    (safeB_sound u32_valid (by simp) (wrel_init _) (by decide +kernel))
example : summary (run .w64 ⟨4, 4⟩ false demoPanics (World.init fun _ => none) wrapOps) =
    some ([.num 0, .pushed (.ok ()), .pushed (.ok ()), .unit, .opt none, .unit, .vals [1, 2]], []) := by decide +kernel
/-- With overflow checks the same `drain` panics. -/
example : summary (run .w64 ⟨4, 4⟩ true demoPanics (World.init fun _ => none) (wrapOps.take 4 ++ [.slice 0])) =
    some ([.num 0, .pushed (.ok ()), .pushed (.ok ()), .panic, .vals [1, 2]], []) := by decide +kernel

/-- So a state within the history is reachable: before the panicking `truncate`. -/
theorem demo_reach : ∃ w, Reach .w64 ⟨4, 4⟩ true demoPanics w ∧ Permitted .w64 ⟨4, 4⟩ w (.truncate 0 1) ∧ Shows .w64 ⟨4, 4⟩ true demoPanics w 0 [1, 13, 14, 6] := by
  have hs : SafeRun .w64 ⟨4, 4⟩ true demoPanics (World.init fun _ => none) (demoOps.take 14) := safeB_sound u32_valid (by simp) (wrel_init _) (by decide +kernel)
  obtain ⟨w, e, r⟩ := sim_run (checks := true) u32_valid (by simp) (wrel_init _) hs
  have h1 : (srun .w64 ⟨4, 4⟩ demoPanics SWorld.init (demoOps.take 14)).2.next = 2 := by decide +kernel
  refine ⟨w, ⟨_, _, _, hs, e⟩, ?_, ?_⟩
  · have h2 : ∀ i b, (∃ e, w.ents i = some e ∧ e.borrows = b ∧ e.drain = none) ↔ ∃ se, (srun .w64 ⟨4, 4⟩ demoPanics SWorld.init (demoOps.take 14)).2.vecs i = some se ∧ se.borrows = b ∧ se.drain = none := by
      intro i b
      constructor
      · rintro ⟨e, he, rfl, hd⟩
        obtain ⟨se, hs, hr⟩ := r.get he
        exact ⟨se, hs, hr.borrows.symm, hr.none_of hd⟩
      · rintro ⟨se, hs, rfl, hd⟩
        have := r.ents i
        rw [hs] at this
        cases he : w.ents i with
        | none => rw [he] at this; exact this.elim
        | some e =>
          rw [he] at this
          have hr : EntRel .w64 ⟨4, 4⟩ w.heap e se := this
          refine ⟨e, rfl, hr.borrows, ?_⟩
          cases hdd : e.drain with
          | none => rfl
          | some d => obtain ⟨sd, hsd, _⟩ := hr.some_of hdd; rw [hd] at hsd; cases hsd
    obtain ⟨e0, he0, hb0, hd0⟩ := (h2 0 []).mpr ⟨⟨[1, 13, 14, 6], 8, none, []⟩, by decide +kernel, rfl, rfl⟩
    refine ⟨0, e0, rfl, he0, fun j e' hj => ?_, by simp [Op.OnDrain, hd0]⟩
    have hlt := (r.bound _ _ hj).1
    rw [r.next, h1] at hlt
    rcases (by omega : j = 0 ∨ j = 1) with rfl | rfl
    · rw [he0] at hj; cases hj; rw [hb0]; simp
    · have := r.ents 1
      rw [hj, show (srun .w64 ⟨4, 4⟩ demoPanics SWorld.init (demoOps.take 14)).2.vecs 1 = none by decide +kernel] at this
      exact this.elim
  · exact (shows_iff r).mpr ⟨⟨[1, 13, 14, 6], 8, none, []⟩, by decide +kernel, rfl, rfl⟩

end FVec
end Verif
