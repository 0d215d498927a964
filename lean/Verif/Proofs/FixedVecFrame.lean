import Verif.Proofs.FixedVecShow
/-! # Calls on a vector write only inside of its memory -/
namespace Verif.FVec
open Verif Uninit

variable {V : Type} {t : Target} {T : Layout} {checks : Bool} {panics : V → Bool}

/-- What is stored outside of `R` is exactly the same (if values have bytes). -/
def Same (T : Layout) (R : Region) (m m' : Nat → Option V) : Prop := 0 < T.size → ∀ x, Region.Disjoint ⟨x, T.size⟩ R → m' x = m x

theorem Same.refl {R : Region} {m : Nat → Option V} : Same T R m m := fun _ _ _ => rfl
theorem Same.trans {R : Region} {m m' m'' : Nat → Option V} (h : Same T R m m') (h' : Same T R m' m'') : Same T R m m'' :=
  fun h0 x hd => (h' h0 x hd).trans (h h0 x hd)
theorem Same.of_eq {R : Region} {m m' : Nat → Option V} (h : m' = m) : Same T R m m' := fun _ _ _ => by rw [h]

theorem writeBits_same {R : Region} {m : Nat → Option V} {p : Nat} {b : Option V} (hp : Region.Within ⟨p, T.size⟩ R) :
    Same T R m (writeBits T m p b) := by
  intro h0 x hd
  simp only [Region.Within, Region.Disjoint, Region.Has] at hp hd
  have h1 := hd x
  have h2 := hd p
  simp only [writeBits]
  rw [if_neg (by omega), if_neg (by omega)]

theorem dropInPlace_mem {h h' : Heap V} {p : Nat} {b : Bool} (hx : dropInPlace panics h p = .ret (b, h')) : h'.mem = h.mem := by
  unfold dropInPlace at hx
  split at hx <;> cases hx
  rfl

theorem truncateLoop_mem (n ptr l : Nat) {h h' : Heap V} {b : Bool} {l' : Nat} (hx : FixedVec.truncateLoop T panics n ptr l h = .ret (b, l', h')) : h'.mem = h.mem := by
  induction n generalizing ptr l h with
  | zero => cases hx; rfl
  | succ n ih =>
    simp only [FixedVec.truncateLoop, bind, Outcome.bind] at hx
    cases hd : dropInPlace panics h (ptr - T.size) with
    | ret y =>
      obtain ⟨pk, h1⟩ := y
      rw [hd] at hx
      simp only at hx
      split at hx
      · cases hx; exact dropInPlace_mem hd
      · rw [ih _ _ hx, dropInPlace_mem hd]
    | _ => rw [hd] at hx; cases hx

theorem dropSlice_mem (n p : Nat) (u : Bool) {h h' : Heap V} {r : Ended} (hx : dropSlice T panics p u n h = .ret (r, h')) : h'.mem = h.mem := by
  induction n generalizing p u h with
  | zero => cases hx; rfl
  | succ n ih =>
    simp only [dropSlice, bind, Outcome.bind] at hx
    cases hd : dropInPlace panics h p with
    | ret y =>
      obtain ⟨pk, h1⟩ := y
      rw [hd] at hx
      simp only at hx
      split at hx
      · cases hx; exact dropInPlace_mem hd
      · rw [ih _ _ hx, dropInPlace_mem hd]
    | _ => rw [hd] at hx; cases hx

theorem fillLoop_same (n : Nat) {f : FixedVec} (hf : VecOk t T f) (hn : f.length + n ≤ f.uninit.capacity t) (h : Heap V) (it : Iter V) :
    Same T ⟨f.uninit.addr, f.uninit.len⟩ h.mem (f.fillLoop h it n).2.2.1.mem ∧ (f.fillLoop h it n).2.1.uninit = f.uninit := by
  induction n generalizing f h it with
  | zero => exact ⟨.refl, rfl⟩
  | succ n ih =>
    simp only [FixedVec.fillLoop]
    cases it.poll it.pos with
    | done => exact ⟨.refl, rfl⟩
    | panic => exact ⟨.refl, rfl⟩
    | item v =>
      have hf' : VecOk t T { f with length := f.length + 1 } := ⟨hf.elem, hf.aligned, hf.small, by simp only; omega⟩
      obtain ⟨k1, k2⟩ := ih hf' (by simp only; omega) (write f.uninit.T h f.endMutPtr v) { it with pos := it.pos + 1 }
      refine ⟨Same.trans ?_ k1, k2⟩
      have hb := hf'.bytes
      simp only [Nat.add_mul, Nat.one_mul] at hb
      simp only [write, FixedVec.endMutPtr, FixedVec.asMutPtr, hf.elem]
      refine writeBits_same ?_
      simp only [Region.Within]
      omega

theorem writeAll_same {R : Region} (vs : List V) {h : Heap V} {p : Nat} (hR : ∀ i, i < vs.length → Region.Within ⟨p + i * T.size, T.size⟩ R) :
    Same T R h.mem (writeAll T h p vs).mem := by
  induction vs generalizing h p with
  | nil => exact .refl
  | cons v vs ih =>
    refine Same.trans (writeBits_same (by simpa using hR 0 (by simp))) (ih fun i hi => ?_)
    have := hR (i + 1) (by simpa using hi)
    rwa [Nat.add_mul, Nat.one_mul, Nat.add_comm (i * T.size), ← Nat.add_assoc] at this

theorem copy_same {R : Region} {h : Heap V} {src dst n : Nat} (hR : ∀ i, i < n → Region.Within ⟨dst + i * T.size, T.size⟩ R) :
    Same T R h.mem (copy T h src dst n).mem := by
  simp only [copy]
  have key : ∀ k, k ≤ n → Same T R h.mem ((List.range k).foldl (fun m i => writeBits T m (dst + i * T.size) (h.mem (src + i * T.size))) h.mem) := by
    intro k hk
    induction k with
    | zero => exact .refl
    | succ k ih =>
      rw [List.range_succ, List.foldl_append]
      exact (ih (by omega)).trans (writeBits_same (hR k (by omega)))
  exact key n (Nat.le_refl _)

theorem next_fields {h : Heap V} {d d' : Drain} {o : Option V} (hx : d.next T h = .ret (o, d')) : d'.elements = d.elements ∧ d'.tail = d.tail ∧ d'.tailLen = d.tailLen := by
  unfold Drain.next at hx
  split at hx
  · cases hx; exact ⟨rfl, rfl, rfl⟩
  · simp only [bind, Outcome.bind] at hx
    split at hx
    · simp only [pure] at hx; cases hx; exact ⟨rfl, rfl, rfl⟩
    · cases hx
    · cases hx

theorem dropItems_fields (n : Nat) {h h' : Heap V} {d d' : Drain} {b : Bool} (hx : d.dropItems T panics n h = .ret (b, d', h')) :
    h'.mem = h.mem ∧ d'.elements = d.elements ∧ d'.tail = d.tail ∧ d'.tailLen = d.tailLen := by
  induction n generalizing h d with
  | zero => cases hx; exact ⟨rfl, rfl, rfl, rfl⟩
  | succ n ih =>
    simp only [Drain.dropItems, bind, Outcome.bind] at hx
    cases hn : d.next T h with
    | ret y =>
      obtain ⟨o, d1⟩ := y
      have hf := next_fields hn
      rw [hn] at hx
      cases o with
      | none => simp only [pure] at hx; cases hx; exact ⟨rfl, hf⟩
      | some v =>
        simp only at hx
        by_cases hpv : (dropValue panics h v).1 = true
        · rw [if_pos hpv] at hx
          simp only [pure] at hx; cases hx; exact ⟨rfl, hf⟩
        · rw [if_neg hpv] at hx
          obtain ⟨k1, k2, k3, k4⟩ := ih hx
          exact ⟨k1, k2.trans hf.1, k3.trans hf.2.1, k4.trans hf.2.2⟩
    | _ => rw [hn] at hx; cases hx

/-- After a call on the vector `i`, whose entry was `e`: memory outside of it is as before, and all vectors have the memory which they had, or a part of that of `i`. -/
structure Frame (T : Layout) (w w' : World V) (i : Nat) (e : Entry) : Prop where
  mem : Same T e.region w.heap.mem w'.heap.mem
  ents : ∀ j e', w'.ents j = some e' → (j ≠ i ∧ w.ents j = some e') ∨ e'.region.Within e.region

theorem frame_refl {w : World V} {i : Nat} {e : Entry} (he : w.ents i = some e) : Frame T w w i e := by
  refine ⟨.refl, fun j e' h => ?_⟩
  by_cases hj : j = i
  · subst hj; rw [he] at h; cases h; exact .inr (within_refl _)
  · exact .inl ⟨hj, h⟩

theorem frame_set {w : World V} {i : Nat} {e : Entry} {o : Option Entry} {h' : Heap V} (hm : Same T e.region w.heap.mem h'.mem) (ho : ∀ e', o = some e' → e'.region.Within e.region) :
    Frame T w { w.set i o with heap := h' } i e := by
  refine ⟨hm, fun j e' h => ?_⟩
  simp only [World.set] at h
  split at h
  · exact .inr (ho e' h)
  · rename_i hj; exact .inl ⟨hj, h⟩

theorem frame_add {w : World V} {i : Nat} {e a b : Entry} (ha : a.region.Within e.region) (hb : b.region.Within e.region) :
    Frame T w { (w.set i (some a)).set w.next (some b) with next := w.next + 1 } i e := by
  refine ⟨.refl, fun j e' h => ?_⟩
  simp only [World.set] at h
  split at h
  · cases h; exact .inr hb
  · split at h
    · cases h; exact .inr ha
    · rename_i hj; exact .inl ⟨hj, h⟩

theorem same_len {e e' : Entry} (h : e'.vec.uninit = e.vec.uninit) : e'.region.Within e.region := by
  simp only [Entry.region, h]; exact within_refl _

theorem frame_vec (hT : T.ValidType t) {w w' : World V} {i : Nat} {e : Entry} (hf : VecOk t T e.vec) (he : w.ents i = some e) {op : Op V} (hroom : Room t e op) {r : Resp V}
    (hx : execVec t T checks panics w i e op = .ret (r, w')) : Frame T w w' i e := by
  cases op with
  | push k v =>
    simp only [execVec, push_eq hT hf] at hx
    split at hx
    · rename_i hlt
      cases hx
      refine frame_set (writeBits_same ?_) (fun e' h => by cases h; exact same_len rfl)
      by_cases h0 : T.size = 0
      · have := hf.bytes
        simp only [Region.Within, Entry.region, h0] at *
        omega
      have := (cap_lt_iff hf h0).mp hlt
      simp only [Region.Within, Entry.region]
      omega
    · cases hx
      exact frame_set .refl (fun e' h => by cases h; exact same_len rfl)
  | pop k =>
    simp only [execVec, bind, Outcome.bind, FixedVec.pop] at hx
    split at hx
    · rename_i hq
      split at hq
      · cases hq; cases hx
        exact frame_set .refl (fun e' h => by cases h; exact same_len rfl)
      · rw [headTail_eq hT hf] at hq
        simp only at hq
        split at hq
        · split at hq
          · cases hq
          · split at hq
            · simp only [pure] at hq; cases hq; simp only [pure] at hx; cases hx
              exact frame_set .refl (fun e' h => by cases h; exact same_len rfl)
            · cases hq
            · cases hq
        · cases hq
        · cases hq
    · cases hx
    · cases hx
  | truncate k n =>
    simp only [execVec, bind, Outcome.bind, FixedVec.truncate] at hx
    cases hl : FixedVec.truncateLoop e.vec.uninit.T panics (e.vec.length - n) e.vec.endMutPtr e.vec.length w.heap with
    | ret y =>
      obtain ⟨pk, l, h'⟩ := y
      rw [hl] at hx
      simp only [pure] at hx
      cases hx
      exact frame_set (.of_eq (truncateLoop_mem _ _ _ hl)) (fun e' h => by cases h; exact same_len rfl)
    | _ => rw [hl] at hx; cases hx
  | clear k =>
    simp only [execVec, bind, Outcome.bind, FixedVec.clear, FixedVec.truncate] at hx
    cases hl : FixedVec.truncateLoop e.vec.uninit.T panics (e.vec.length - 0) e.vec.endMutPtr e.vec.length w.heap with
    | ret y =>
      obtain ⟨pk, l, h'⟩ := y
      rw [hl] at hx
      simp only [pure] at hx
      cases hx
      exact frame_set (.of_eq (truncateLoop_mem _ _ _ hl)) (fun e' h => by cases h; exact same_len rfl)
    | _ => rw [hl] at hx; cases hx
  | fill k it =>
    have hk := fillLoop_same (e.vec.capacity t - e.vec.len) hf (by have := hf.fits; simp only [FixedVec.capacity, FixedVec.len]; omega) w.heap it
    simp only [execVec, FixedVec.fill] at hx
    cases hx
    exact frame_set hk.1 (fun e' h => by cases h; exact same_len hk.2)
  | extend k it =>
    have hk := fillLoop_same (e.vec.capacity t - e.vec.len) hf (by have := hf.fits; simp only [FixedVec.capacity, FixedVec.len]; omega) w.heap it
    simp only [execVec, FixedVec.extend, FixedVec.fill] at hx
    generalize e.vec.fillLoop w.heap it (e.vec.capacity t - e.vec.len) = q at hk hx
    obtain ⟨b, f, h, it'⟩ := q
    simp only at hk
    cases b with
    | true =>
      simp only at hx; cases hx
      exact frame_set hk.1 (fun e' h => by cases h; exact same_len hk.2)
    | false =>
      simp only at hx
      cases hp : it'.poll it'.pos <;> rw [hp] at hx <;> simp only [dropValue] at hx <;> cases hx <;>
        exact frame_set hk.1 (fun e' h => by cases h; exact same_len hk.2)
  | setLen k vs n =>
    simp only [execVec] at hx
    cases hx
    refine frame_set (writeAll_same vs fun j hj => ?_) (fun e' h => by cases h; exact same_len rfl)
    have hcap : e.vec.uninit.capacity t * e.vec.uninit.T.size ≤ e.vec.uninit.len := cap_mul_le
    rw [hf.elem] at hcap
    have hroom : e.vec.length + vs.length ≤ e.vec.uninit.capacity t := hroom
    have hj1 : (e.vec.length + j + 1) * T.size ≤ e.vec.uninit.capacity t * T.size := Nat.mul_le_mul_right _ (by omega)
    simp only [Nat.add_mul, Nat.one_mul] at hj1
    simp only [Region.Within, Entry.region, FixedVec.asMutPtr, FixedVec.len]
    omega
  | len k => simp only [execVec] at hx; cases hx; exact frame_refl he
  | capacity k => simp only [execVec] at hx; cases hx; exact frame_refl he
  | isEmpty k => simp only [execVec] at hx; cases hx; exact frame_refl he
  | slice k =>
    simp only [execVec, bind, Outcome.bind] at hx
    split at hx
    · simp only [pure] at hx; cases hx; exact frame_refl he
    · cases hx
    · cases hx
  | index k n =>
    simp only [execVec] at hx
    split at hx <;> cases hx <;> exact frame_refl he
  | replace k n v =>
    simp only [execVec, FixedVec.replace] at hx
    by_cases hlt : n < e.vec.length
    · simp only [hlt, if_true, bind, Outcome.bind] at hx
      cases hr : read w.heap (e.vec.uninit.addr + n * e.vec.uninit.T.size) with
      | ret o =>
        rw [hr] at hx
        simp only [pure] at hx
        cases hx
        have hb := hf.bytes
        have h1 : (n + 1) * T.size ≤ e.vec.length * T.size := Nat.mul_le_mul_right _ hlt
        simp only [Nat.add_mul, Nat.one_mul] at h1
        have := frame_set (w := w) (i := i) (e := e) (o := some e) (h' := write e.vec.uninit.T w.heap (e.vec.uninit.addr + n * e.vec.uninit.T.size) v)
          (by
            rw [hf.elem]
            refine writeBits_same ?_
            simp only [Region.Within, Entry.region]
            omega) (fun e' h => by cases h; exact same_len rfl)
        rw [wset_same he] at this
        exact this
      | panic => unfold read at hr; split at hr <;> cases hr
      | ub => rw [hr] at hx; cases hx
    · simp only [hlt, if_false, dropValue] at hx
      cases hx
      have := frame_set (T := T) (w := w) (i := i) (e := e) (o := some e) (h' := { w.heap with log := w.heap.log ++ [v] }) .refl (fun e' h => by cases h; exact same_len rfl)
      rw [wset_same he] at this
      exact this
  | splitBorrowed k n =>
    simp only [execVec, FixedVec.splitBorrowed, Outcome.assert, FixedVec.capacity] at hx
    by_cases hn : n ≤ e.vec.uninit.capacity t
    · obtain ⟨hs, hb⟩ := vecSplit_eq hT hf hn
      simp only [hn, if_true, bind, Outcome.bind, hs, pure] at hx
      cases hx
      refine frame_add (same_len rfl) ?_
      simp only [Region.Within, Entry.region]
      omega
    · simp only [hn, if_false, bind, Outcome.bind] at hx
      cases hx
      exact frame_refl he
  | splitShrink k n =>
    simp only [execVec, FixedVec.splitAndShrinkTo, Outcome.assert, FixedVec.capacity] at hx
    by_cases hn : n ≤ e.vec.uninit.capacity t
    · obtain ⟨hs, hb⟩ := vecSplit_eq hT hf hn
      simp only [hn, if_true, bind, Outcome.bind, hs, pure] at hx
      cases hx
      refine frame_add ?_ ?_ <;> simp only [Region.Within, Entry.region] <;> omega
    · simp only [hn, if_false, bind, Outcome.bind] at hx
      cases hx
      exact frame_refl he
  | shrinkToFit k =>
    simp only [execVec, vecShrink_eq hT hf, bind, Outcome.bind, pure] at hx
    cases hx
    have hle : e.vec.uninit.capacity t * T.size ≤ e.vec.uninit.len := by
      have : e.vec.uninit.capacity t * e.vec.uninit.T.size ≤ e.vec.uninit.len := cap_mul_le
      rwa [hf.elem] at this
    refine frame_set (h' := w.heap) .refl (fun e' h => ?_)
    cases h
    simp only [Region.Within, Entry.region]
    omega
  | drain k lo hi =>
    simp only [execVec] at hx
    cases hd : e.vec.drain t checks lo hi with
    | ret y =>
      obtain ⟨f, d⟩ := y
      rw [hd] at hx
      cases hx
      refine frame_set (h' := w.heap) .refl (fun e' h => ?_)
      cases h
      refine same_len ?_
      simp only [FixedVec.drain, bind, Outcome.bind, Outcome.assert] at hd
      split at hd <;> try cases hd
      split at hd <;> try cases hd
      split at hd
      · split at hd
        · simp only [pure] at hd; cases hd; rfl
        all_goals cases hd
      all_goals cases hd
    | panic => rw [hd] at hx; cases hx; exact frame_refl he
    | ub => rw [hd] at hx; cases hx
  | drop k =>
    simp only [execVec, FixedVec.drop, bind, Outcome.bind] at hx
    cases hd : dropSlice e.vec.uninit.T panics e.vec.uninit.addr false e.vec.length w.heap with
    | ret y =>
      obtain ⟨q, h'⟩ := y
      rw [hd] at hx
      simp only [pure] at hx
      cases hx
      exact frame_set (.of_eq (dropSlice_mem _ _ _ hd)) (fun e' h => by cases h)
    | _ => rw [hd] at hx; cases hx
  | forget k =>
    simp only [execVec] at hx
    cases hx
    exact frame_set (h' := w.heap) .refl (fun e' h => by cases h)
  | _ => simp only [execVec] at hx; cases hx

theorem frame_drain {w w' : World V} {i : Nat} {e : Entry} {d : Drain} {sd : SDrain V} (hf : VecOk t T e.vec)
    (hr : DrainRel T w.heap.mem e.vec.uninit.addr e.vec.length d sd) (hc : e.vec.length + d.tail + d.tailLen ≤ e.vec.uninit.capacity t) (he : w.ents i = some e) {op : Op V} {r : Resp V}
    (hx : execDrain T panics w i e d op = .ret (r, w')) : Frame T w w' i e := by
  cases op with
  | next k =>
    simp only [execDrain, bind, Outcome.bind] at hx
    split at hx
    · simp only [pure] at hx; cases hx
      exact frame_set (h' := w.heap) .refl (fun e' h => by cases h; exact same_len rfl)
    · cases hx
    · cases hx
  | nextBack k =>
    simp only [execDrain, bind, Outcome.bind] at hx
    split at hx
    · simp only [pure] at hx; cases hx
      exact frame_set (h' := w.heap) .refl (fun e' h => by cases h; exact same_len rfl)
    · cases hx
    · cases hx
  | drainLen k => simp only [execDrain] at hx; cases hx; exact frame_refl he
  | drainSlice k =>
    simp only [execDrain, bind, Outcome.bind] at hx
    split at hx
    · simp only [pure] at hx; cases hx; exact frame_refl he
    · cases hx
    · cases hx
  | drainReplace k n v =>
    simp only [execDrain, Drain.replace] at hx
    by_cases hlt : n < d.len
    · simp only [hlt, if_true, bind, Outcome.bind] at hx
      cases hq : read w.heap (d.elements + d.start * T.size + n * T.size) with
      | ret o =>
        rw [hq] at hx
        simp only [pure] at hx
        cases hx
        have hw := drain_slot_within hf hr hc (k := n) (by simpa [Drain.len, hr.rest_len] using hlt)
        have := frame_set (w := w) (i := i) (e := e) (o := some e) (h' := write T w.heap (d.elements + d.start * T.size + n * T.size) v)
          (writeBits_same hw) (fun e' h => by cases h; exact same_len rfl)
        rw [wset_same he] at this
        exact this
      | panic => rw [hq] at hx; unfold read at hq; split at hq <;> cases hq
      | ub => rw [hq] at hx; cases hx
    · simp only [hlt, if_false, dropValue] at hx
      cases hx
      have := frame_set (T := T) (w := w) (i := i) (e := e) (o := some e) (h' := { w.heap with log := w.heap.log ++ [v] }) .refl (fun e' h => by cases h; exact same_len rfl)
      rw [wset_same he] at this
      exact this
  | dropDrain k =>
    simp only [execDrain, Drain.drop, bind, Outcome.bind] at hx
    cases hi : d.dropItems T panics d.len w.heap with
    | ret y =>
      obtain ⟨pk, d', h'⟩ := y
      obtain ⟨k1, k2, k3, k4⟩ := dropItems_fields _ hi
      rw [hi] at hx
      simp only at hx
      by_cases hp : pk = true
      · simp only [hp, if_true, pure] at hx
        cases hx
        exact frame_set (.of_eq k1) (fun e' h => by cases h; exact same_len rfl)
      · simp only [hp, if_false] at hx
        by_cases ht : d'.tailLen ≠ 0
        · rw [if_pos ht] at hx
          simp only [pure] at hx
          cases hx
          refine frame_set ((Same.of_eq k1).trans (copy_same fun j hj => ?_)) (fun e' h => by cases h; exact same_len rfl)
          have hcap : e.vec.uninit.capacity t * e.vec.uninit.T.size ≤ e.vec.uninit.len := cap_mul_le
          rw [hf.elem] at hcap
          have hj1 : (e.vec.length + j + 1) * T.size ≤ e.vec.uninit.capacity t * T.size := Nat.mul_le_mul_right _ (by omega)
          simp only [Nat.add_mul, Nat.one_mul] at hj1
          have := hr.elements
          simp only [Region.Within, Entry.region]
          omega
        · rw [if_neg ht] at hx
          simp only [pure] at hx
          cases hx
          exact frame_set (.of_eq k1) (fun e' h => by cases h; exact same_len rfl)
    | _ => rw [hi] at hx; cases hx
  | forgetDrain k =>
    simp only [execDrain] at hx
    cases hx
    exact frame_set (h' := w.heap) .refl (fun e' h => by cases h; exact same_len rfl)
  | _ => simp only [execDrain] at hx; cases hx

theorem frame_step (hT : T.ValidType t) {w w' : World V} {sw : SWorld V} (r : WRel t T w sw) {op : Op V} {i : Nat} {e : Entry}
    (ht : op.target = some i) (he : w.ents i = some e) (hroom : Room t e op) {a : Resp V} (hx : exec t T checks panics w op = .ret (a, w')) : Frame T w w' i e := by
  obtain ⟨se, hs, hr⟩ := r.get he
  cases hd : e.drain with
  | none =>
    have hx' : execVec t T checks panics w i e op = .ret (a, w') := by
      cases op with
      | new => cases ht
      | _ => simp only [exec, ht, he, hd] at hx; exact hx
    exact frame_vec hT hr.ok he hroom hx'
  | some d =>
    have hx' : execDrain T panics w i e d op = .ret (a, w') := by
      cases op with
      | new => cases ht
      | _ => simp only [exec, ht, he, hd] at hx; exact hx
    obtain ⟨sd, hsd, hrel, hc⟩ := hr.some_of hd
    exact frame_drain hr.ok hrel hc he hx'

/-- `new` changes no memory and adds a vector in the given memory. -/
theorem new_step {w w' : World V} {addr len : Nat} {a : Resp V} (hx : exec t T checks panics w (.new addr len) = .ret (a, w')) (hpos : 0 < T.align) :
    w'.heap = w.heap ∧ ∀ j e', w'.ents j = some e' → w.ents j = some e' ∨ e'.region = ⟨addr, len⟩ := by
  simp only [exec] at hx
  rcases castSlice_eq (t := t) (v := fromMemory addr len) (U := T) hpos with ⟨_, e1⟩ | ⟨hn, e1⟩
  · rw [e1] at hx
    cases hx
    refine ⟨rfl, fun j e' h => ?_⟩
    simp only [World.set] at h
    split at h
    · cases h; exact .inr rfl
    · exact .inl h
  · rw [e1] at hx; cases hx

theorem frame_run (hT : T.ValidType t) (hz : T.size = 0 → Subsingleton V) (h0 : 0 < T.size) {w w' : World V} {sw : SWorld V} (r : WRel t T w sw) {ops : List (Op V)} {rs : List (Resp V)}
    (hs : SafeRun t T checks panics w ops) (hx : run t T checks panics w ops = .ret (rs, w')) {x : Nat}
    (hnew : ∀ addr len, Op.new addr len ∈ ops → Region.Disjoint ⟨x, T.size⟩ ⟨addr, len⟩) (hw : ∀ j e, w.ents j = some e → Region.Disjoint ⟨x, T.size⟩ e.region) :
    w'.heap.mem x = w.heap.mem x := by
  induction ops generalizing w sw rs with
  | nil => cases hx; rfl
  | cons op ops ih =>
    obtain ⟨hp, hN, hs⟩ := hs
    obtain ⟨w1, e1, r1⟩ := sim_step (checks := checks) (panics := panics) hT hz r hp hN
    have hs' := hs _ _ e1
    have hstep : w1.heap.mem x = w.heap.mem x ∧ ∀ j e, w1.ents j = some e → Region.Disjoint ⟨x, T.size⟩ e.region := by
      cases ht : op.target with
      | none =>
        cases op with
        | new addr len =>
          obtain ⟨k1, k2⟩ := new_step e1 hT.1.1.pos
          refine ⟨by rw [k1], fun j e h => ?_⟩
          rcases k2 j e h with h | h
          · exact hw j e h
          · rw [h]; exact hnew addr len (List.mem_cons_self ..)
        | _ => cases ht
      | some i =>
        have : ∃ e, w.ents i = some e := hp.ent ht
        obtain ⟨e, he⟩ := this
        have hfr := frame_step hT r ht he (hp.room ht he) e1
        refine ⟨hfr.mem h0 x (hw i e he), fun j e' h => ?_⟩
        rcases hfr.ents j e' h with ⟨_, h⟩ | h
        · exact hw j e' h
        · exact fun y hy => hw i e he y ⟨hy.1, h.has hy.2⟩
    simp only [run, e1, bind, Outcome.bind] at hx
    have hrec : ∀ rs', run t T checks panics w1 ops = .ret (rs', w') → w'.heap.mem x = w.heap.mem x := fun rs' h =>
      (ih r1 hs' h (fun a l hm => hnew a l (List.mem_cons_of_mem _ hm)) hstep.2).trans hstep.1
    generalize sexec t T panics sw op = R at hx
    obtain ⟨rr, sw1⟩ := R
    cases rr with
    | abort n => simp only [pure] at hx; cases hx; exact hstep.1
    | _ =>
      simp only at hx
      cases hq : run t T checks panics w1 ops with
      | ret y =>
        obtain ⟨rs', w2⟩ := y
        rw [hq] at hx
        simp only [pure] at hx
        cases hx
        exact hrec _ hq
      | _ => rw [hq] at hx; cases hx

end Verif.FVec
