import Verif.Proofs.FixedVecFrame
import Verif.Spec.FixedVecBytes
/-! # The model on values describes the one on bytes -/
namespace Verif.FVec
open Verif Uninit

variable {t : Target} {T : Layout} {checks : Bool} {panics : Bits T → Bool}

/-- What the model on values says is readable at an address is what the bytes are; and only bytes in `R` are not as in `m0`. -/
structure Sound (R : Region) (m0 : Mem) (h : Heap (Bits T)) (b : BHeap T) : Prop where
  log : b.log = h.log
  mem : ∀ x v, h.mem x = some v → Bytes.read b x = v
  only : ∀ y, ¬ R.Has y → b.mem y = m0 y

variable {R : Region} {m0 : Mem} {h h' : Heap (Bits T)} {b : BHeap T}

theorem bytesRead_val (b : BHeap T) (p : Nat) : (Bytes.read b p).1 = readBytes b.mem p T.size := rfl

theorem read_sound (s : Sound R m0 h b) {p : Nat} {v : Bits T} (hx : read h p = .ret v) : Bytes.read b p = v := by
  unfold read at hx
  split at hx
  · cases hx
  · rename_i u hu
    cases hx
    exact s.mem _ _ hu

theorem write_sound (s : Sound R m0 h b) {p : Nat} {v : Bits T} (hp : 0 < T.size → Region.Within ⟨p, T.size⟩ R) :
    Sound R m0 (write T h p v) (Bytes.write b p v) := by
  refine ⟨s.log, fun x u hu => ?_, fun y hy => ?_⟩
  · apply Subtype.ext
    rw [bytesRead_val]
    simp only [write, writeBits, Bytes.write] at hu ⊢
    split at hu
    · rename_i hxp
      cases hu
      have := readBytes_writeBytes_self b.mem p v.1
      rw [v.2] at this
      rw [hxp, this]
    · split at hu
      · cases hu
      · rename_i hne hno
        have := congrArg Subtype.val (s.mem x u hu)
        rw [bytesRead_val] at this
        rw [← this]
        refine readBytes_congr fun y hy1 hy2 => writeBytes_of_not_mem ?_
        have := v.2
        omega
  · simp only [Bytes.write]
    rw [writeBytes_of_not_mem]
    · exact s.only y hy
    · have := v.2
      intro hc
      have hw := hp (by omega)
      simp only [Region.Within, Region.Has] at hw hy
      omega

theorem dropValue_sound (s : Sound R m0 h b) (v : Bits T) :
    (Bytes.dropValue panics b v).1 = (dropValue panics h v).1 ∧ Sound R m0 (dropValue panics h v).2 (Bytes.dropValue panics b v).2 :=
  ⟨rfl, by simp [dropValue, Bytes.dropValue, s.log], s.mem, s.only⟩

theorem dropInPlace_sound (s : Sound R m0 h b) {p : Nat} {pk : Bool} (hx : dropInPlace panics h p = .ret (pk, h')) :
    (Bytes.dropInPlace panics b p).1 = pk ∧ Sound R m0 h' (Bytes.dropInPlace panics b p).2 := by
  unfold dropInPlace at hx
  split at hx
  · cases hx
  · rename_i v hv
    cases hx
    have := s.mem _ _ hv
    simp only [Bytes.dropInPlace, this]
    exact ⟨rfl, by simp [Bytes.dropValue, s.log], s.mem, s.only⟩

theorem dropSlice_sound (n p : Nat) (u : Bool) {r : Ended} (s : Sound R m0 h b) (hx : dropSlice T panics p u n h = .ret (r, h')) :
    (Bytes.dropSlice panics p u n b).1 = r ∧ Sound R m0 h' (Bytes.dropSlice panics p u n b).2 := by
  induction n generalizing p u h b with
  | zero => simp only [dropSlice] at hx; cases hx; exact ⟨rfl, s⟩
  | succ n ih =>
    simp only [dropSlice, bind, Outcome.bind] at hx
    cases hd : dropInPlace panics h p with
    | ret y =>
      obtain ⟨pk, h1⟩ := y
      rw [hd] at hx
      simp only at hx
      obtain ⟨k1, k2⟩ := dropInPlace_sound s hd
      simp only [Bytes.dropSlice, k1]
      by_cases hc : (pk && u) = true
      · rw [if_pos hc] at hx ⊢
        cases hx; exact ⟨rfl, k2⟩
      · rw [if_neg hc] at hx ⊢
        exact ih _ _ k2 hx
    | _ => rw [hd] at hx; cases hx

theorem readSlice_sound (n p : Nat) {vs : List (Bits T)} (s : Sound R m0 h b) (hx : readSlice T h p n = .ret vs) : Bytes.readSlice b p n = vs := by
  induction n generalizing p vs with
  | zero => simp only [readSlice] at hx; cases hx; rfl
  | succ n ih =>
    simp only [readSlice, bind, Outcome.bind] at hx
    cases hr : read h p with
    | ret v =>
      rw [hr] at hx
      simp only at hx
      cases hq : readSlice T h (p + T.size) n with
      | ret us =>
        rw [hq] at hx
        simp only [pure] at hx
        cases hx
        simp only [Bytes.readSlice, read_sound s hr, ih _ hq]
      | _ => rw [hq] at hx; cases hx
    | _ => rw [hr] at hx; cases hx

theorem truncateLoop_sound (n ptr l : Nat) {pk : Bool} {l' : Nat} (s : Sound R m0 h b) (hx : FixedVec.truncateLoop T panics n ptr l h = .ret (pk, l', h')) :
    (Bytes.truncateLoop panics n ptr l b).1 = pk ∧ (Bytes.truncateLoop panics n ptr l b).2.1 = l' ∧ Sound R m0 h' (Bytes.truncateLoop panics n ptr l b).2.2 := by
  induction n generalizing ptr l h b with
  | zero => simp only [FixedVec.truncateLoop] at hx; cases hx; exact ⟨rfl, rfl, s⟩
  | succ n ih =>
    simp only [FixedVec.truncateLoop, bind, Outcome.bind] at hx
    cases hd : dropInPlace panics h (ptr - T.size) with
    | ret y =>
      obtain ⟨q, h1⟩ := y
      rw [hd] at hx
      simp only at hx
      obtain ⟨k1, k2⟩ := dropInPlace_sound s hd
      simp only [Bytes.truncateLoop, k1]
      by_cases hc : q = true
      · rw [if_pos hc] at hx ⊢
        simp only [pure] at hx
        cases hx; exact ⟨rfl, rfl, k2⟩
      · rw [if_neg hc] at hx ⊢
        exact ih _ _ k2 hx
    | _ => rw [hd] at hx; cases hx

theorem truncate_sound {f f' : FixedVec} (hf : f.uninit.T = T) (n : Nat) {pk : Bool} (s : Sound R m0 h b) (hx : f.truncate panics h n = .ret (pk, f', h')) :
    (Bytes.truncate panics f b n).1 = pk ∧ (Bytes.truncate panics f b n).2.1 = f' ∧ Sound R m0 h' (Bytes.truncate panics f b n).2.2 := by
  simp only [FixedVec.truncate, bind, Outcome.bind, hf] at hx
  cases hl : FixedVec.truncateLoop T panics (f.length - n) f.endMutPtr f.length h with
  | ret y =>
    obtain ⟨q, l, h1⟩ := y
    rw [hl] at hx
    simp only [pure] at hx
    cases hx
    obtain ⟨k1, k2, k3⟩ := truncateLoop_sound _ _ _ s hl
    exact ⟨k1, by simp only [Bytes.truncate, k2], k3⟩
  | _ => rw [hl] at hx; cases hx

theorem fillLoop_sound (n : Nat) {f : FixedVec} (hf : VecOk t T f) (hn : f.length + n ≤ f.uninit.capacity t) (s : Sound R m0 h b) (hR : R = ⟨f.uninit.addr, f.uninit.len⟩) (it : Iter (Bits T)) :
    (Bytes.fillLoop f b it n).1 = (f.fillLoop h it n).1 ∧ (Bytes.fillLoop f b it n).2.1 = (f.fillLoop h it n).2.1 ∧
      Sound R m0 (f.fillLoop h it n).2.2.1 (Bytes.fillLoop f b it n).2.2.1 ∧ (Bytes.fillLoop f b it n).2.2.2 = (f.fillLoop h it n).2.2.2 := by
  induction n generalizing f h b it with
  | zero => exact ⟨rfl, rfl, s, rfl⟩
  | succ n ih =>
    simp only [FixedVec.fillLoop, Bytes.fillLoop]
    cases it.poll it.pos with
    | done => exact ⟨rfl, rfl, s, rfl⟩
    | panic => exact ⟨rfl, rfl, s, rfl⟩
    | item v =>
      have hf' : VecOk t T { f with length := f.length + 1 } := ⟨hf.elem, hf.aligned, hf.small, by simp only; omega⟩
      refine ih hf' (by simp only; omega) ?_ hR _
      rw [hf.elem]
      refine write_sound s fun _ => ?_
      have hb := hf'.bytes
      simp only [Nat.add_mul, Nat.one_mul] at hb
      simp only [FixedVec.endMutPtr, FixedVec.asMutPtr, hf.elem, hR, Region.Within]
      omega

theorem extend_sound {f : FixedVec} (hf : VecOk t T f) (s : Sound R m0 h b) (hR : R = ⟨f.uninit.addr, f.uninit.len⟩) (it : Iter (Bits T)) :
    (Bytes.extend t panics f b it).1 = (f.extend t panics h it).1 ∧ (Bytes.extend t panics f b it).2.1 = (f.extend t panics h it).2.1 ∧
      Sound R m0 (f.extend t panics h it).2.2.1 (Bytes.extend t panics f b it).2.2.1 ∧ (Bytes.extend t panics f b it).2.2.2 = (f.extend t panics h it).2.2.2 := by
  have hk := fillLoop_sound (f.capacity t - f.len) hf (by have := hf.fits; simp only [FixedVec.capacity, FixedVec.len]; omega) s hR it
  simp only [FixedVec.extend, Bytes.extend, FixedVec.fill, Bytes.fill]
  generalize Bytes.fillLoop f b it (f.capacity t - f.len) = q at hk ⊢
  generalize f.fillLoop h it (f.capacity t - f.len) = q' at hk ⊢
  obtain ⟨q1, q2, q3, q4⟩ := q
  obtain ⟨p1, p2, p3, p4⟩ := q'
  simp only at hk
  obtain ⟨rfl, rfl, k3, rfl⟩ := hk
  cases q1 with
  | true => exact ⟨rfl, rfl, k3, rfl⟩
  | false =>
    simp only
    cases q4.poll q4.pos with
    | done => exact ⟨rfl, rfl, k3, rfl⟩
    | panic => exact ⟨rfl, rfl, k3, rfl⟩
    | item v => exact ⟨rfl, rfl, (dropValue_sound (panics := panics) k3 v).2, rfl⟩

/-- What is readable after copying. -/
theorem copy_mem {src dst n x : Nat} {v : Bits T} (h0 : 0 < T.size) (hx : (copy T h src dst n).mem x = some v) :
    (∃ i, i < n ∧ x = dst + i * T.size ∧ h.mem (src + i * T.size) = some v) ∨ (h.mem x = some v ∧ (n = 0 ∨ x + T.size ≤ dst ∨ dst + n * T.size ≤ x)) := by
  simp only [copy] at hx
  have key : ∀ k x v, k ≤ n → ((List.range k).foldl (fun m i => writeBits T m (dst + i * T.size) (h.mem (src + i * T.size))) h.mem) x = some v →
      (∃ i, i < k ∧ x = dst + i * T.size ∧ h.mem (src + i * T.size) = some v) ∨ (h.mem x = some v ∧ (k = 0 ∨ x + T.size ≤ dst ∨ dst + k * T.size ≤ x)) := by
    intro k
    induction k with
    | zero => intro x v _ hx; exact .inr ⟨hx, .inl rfl⟩
    | succ k ih =>
      intro x v hk hx
      rw [List.range_succ, List.foldl_append] at hx
      simp only [List.foldl_cons, List.foldl_nil] at hx
      rw [writeBits] at hx
      split at hx
      · rename_i hxe
        exact .inl ⟨k, by omega, hxe, hx⟩
      · split at hx
        · cases hx
        · rename_i hne hno
          rcases ih x v (by omega) hx with ⟨i, hi, h1, h2⟩ | ⟨h1, h2⟩
          · exact .inl ⟨i, by omega, h1, h2⟩
          · refine .inr ⟨h1, .inr ?_⟩
            rw [Nat.add_mul, Nat.one_mul]
            rcases h2 with rfl | h2
            · simp only [Nat.zero_mul, Nat.add_zero] at *
              omega
            · omega
  exact key n x v (Nat.le_refl _) hx

theorem readBytes_sub (m : Mem) (p n k l : Nat) (hk : k + l ≤ n) : ((readBytes m p n).drop k).take l = readBytes m (p + k) l := by
  apply List.ext_getElem?
  intro i
  simp only [readBytes, List.getElem?_take, List.getElem?_drop, List.getElem?_map]
  split
  · rename_i hi
    rw [List.getElem?_range (by omega), List.getElem?_range hi]
    simp [Nat.add_assoc]
  · rename_i hi
    rw [List.getElem?_eq_none (by simp; omega)]
    simp

/-- Reading a part of what was written. -/
theorem readBytes_writeBytes_part (m : Mem) (p k l : Nat) (bs : List Byte) (hk : k + l ≤ bs.length) : readBytes (writeBytes m p bs) (p + k) l = (bs.drop k).take l := by
  rw [← readBytes_sub _ _ bs.length _ _ hk, readBytes_writeBytes_self]

theorem writeAll_sound (vs : List (Bits T)) {h : Heap (Bits T)} {b : BHeap T} {p : Nat} (s : Sound R m0 h b) (hR : ∀ i, i < vs.length → Region.Within ⟨p + i * T.size, T.size⟩ R) :
    Sound R m0 (writeAll T h p vs) (Bytes.writeAll b p vs) := by
  induction vs generalizing h b p with
  | nil => exact s
  | cons v vs ih =>
    refine ih (write_sound s fun _ => by simpa using hR 0 (by simp)) fun i hi => ?_
    have := hR (i + 1) (by simpa using hi)
    rwa [Nat.add_mul, Nat.one_mul, Nat.add_comm (i * T.size), ← Nat.add_assoc] at this

theorem copy_sound {src dst n : Nat} (s : Sound R m0 h b) (hR : 0 < n * T.size → Region.Within ⟨dst, n * T.size⟩ R) :
    Sound R m0 (copy T h src dst n) (Bytes.copy b src dst n) := by
  refine ⟨s.log, fun x v hx => ?_, fun y hy => ?_⟩
  · apply Subtype.ext
    rw [bytesRead_val]
    by_cases h0 : T.size = 0
    · rw [List.eq_nil_of_length_eq_zero (v.2.trans h0)]
      exact List.eq_nil_of_length_eq_zero (by simp [h0])
    · simp only [Bytes.copy]
      rcases copy_mem (by omega) hx with ⟨i, hi, rfl, h2⟩ | ⟨h1, h2⟩
      · have hle : (i + 1) * T.size ≤ n * T.size := Nat.mul_le_mul_right _ hi
        rw [Nat.add_mul, Nat.one_mul] at hle
        rw [readBytes_writeBytes_part _ _ _ _ _ (by simpa using hle), readBytes_sub _ _ _ _ _ hle, ← s.mem _ _ h2, bytesRead_val]
      · rw [← s.mem _ _ h1, bytesRead_val]
        refine readBytes_congr fun y hy1 hy2 => writeBytes_of_not_mem ?_
        simp only [length_readBytes]
        rcases h2 with rfl | h2
        · simp only [Nat.zero_mul]; omega
        · omega
  · simp only [Bytes.copy]
    rw [writeBytes_of_not_mem]
    · exact s.only y hy
    · simp only [length_readBytes]
      intro hc
      have := hR (by omega)
      simp only [Region.Within, Region.Has] at this hy
      omega

theorem next_sound {d d' : Drain} {o : Option (Bits T)} (s : Sound R m0 h b) (hx : d.next T h = .ret (o, d')) : Bytes.next b d = (o, d') := by
  simp only [Drain.next] at hx
  simp only [Bytes.next]
  split at hx
  · rename_i he
    cases hx
    rw [if_pos he]
  · rename_i he
    rw [if_neg he]
    simp only [bind, Outcome.bind] at hx
    split at hx
    · rename_i v hv
      simp only [pure] at hx
      cases hx
      rw [read_sound s hv]
    · cases hx
    · cases hx

theorem nextBack_sound {d d' : Drain} {o : Option (Bits T)} (s : Sound R m0 h b) (hx : d.nextBack T h = .ret (o, d')) : Bytes.nextBack b d = (o, d') := by
  simp only [Drain.nextBack] at hx
  simp only [Bytes.nextBack]
  split at hx
  · rename_i he
    cases hx
    rw [if_pos he]
  · rename_i he
    rw [if_neg he]
    simp only [bind, Outcome.bind] at hx
    split at hx
    · rename_i v hv
      simp only [pure] at hx
      cases hx
      rw [read_sound s hv]
    · cases hx
    · cases hx

theorem dropItems_sound (n : Nat) {d d' : Drain} {pk : Bool} (s : Sound R m0 h b) (hx : d.dropItems T panics n h = .ret (pk, d', h')) :
    (Bytes.dropItems panics n d b).1 = pk ∧ (Bytes.dropItems panics n d b).2.1 = d' ∧ Sound R m0 h' (Bytes.dropItems panics n d b).2.2 := by
  induction n generalizing h d b with
  | zero => simp only [Drain.dropItems] at hx; cases hx; exact ⟨rfl, rfl, s⟩
  | succ n ih =>
    simp only [Drain.dropItems, bind, Outcome.bind] at hx
    cases hn : d.next T h with
    | ret y =>
      obtain ⟨o, d1⟩ := y
      have hb := next_sound s hn
      rw [hn] at hx
      simp only [Bytes.dropItems, hb]
      cases o with
      | none => simp only [pure] at hx; cases hx; exact ⟨rfl, rfl, s⟩
      | some v =>
        simp only at hx ⊢
        obtain ⟨k1, k2⟩ := dropValue_sound (panics := panics) s v
        rw [k1]
        by_cases hpv : (dropValue panics h v).1 = true
        · rw [if_pos hpv] at hx ⊢
          simp only [pure] at hx; cases hx; exact ⟨rfl, rfl, k2⟩
        · rw [if_neg hpv] at hx ⊢
          exact ih k2 hx
    | _ => rw [hn] at hx; cases hx

theorem bytesPush_eq (hT : T.ValidType t) {f : FixedVec} (hf : VecOk t T f) (b : BHeap T) (v : Bits T) :
    Bytes.push t f b v = if f.length < f.uninit.capacity t then .ret (.ok (), { f with length := f.length + 1 }, Bytes.write b (f.uninit.addr + f.length * T.size) v)
      else .ret (.error v, f, b) := by
  have hle := capacity_le_usizeMax hf
  have hb := hf.bytes
  have hfit := hf.fits
  simp only [Bytes.push]
  by_cases hmax : f.length = t.usizeMax
  · rw [if_pos hmax, if_neg (by omega)]
  · rw [if_neg hmax, headTail_eq hT hf]
    have hs := splitFirst_eq (t := t) (v := ⟨f.uninit.addr + f.length * T.size, f.uninit.len - f.length * T.size, T, sliceCap t (f.uninit.len - f.length * T.size) T⟩)
      hT (Nat.dvd_add hf.aligned (Nat.dvd_trans hT.2 (Nat.dvd_mul_left _ _))) (by have := hf.small; simp only; omega)
    simp only at hs
    simp only [bind, Outcome.bind, hs]
    by_cases h0 : T.size = 0
    · have : f.length < f.uninit.capacity t := by
        simp only [SliceView.capacity, hf.elem, h0, if_true] at hfit ⊢
        omega
      rw [if_pos (by omega), if_pos this]
      simp [pure]
    · have hc := cap_lt_iff hf h0
      by_cases hlt : f.length < f.uninit.capacity t
      · rw [if_pos (by omega), if_pos hlt]
        simp [pure]
      · rw [if_neg (by omega), if_neg hlt]
        rfl

/-! ## Calls -/

/-- The vectors are the same, and the memories agree. -/
structure BRel (R : Region) (m0 : Mem) (w : World (Bits T)) (b : BWorld T) : Prop where
  ents : b.ents = w.ents
  next : b.next = w.next
  heap : Sound R m0 w.heap b.heap

theorem brel_set {w : World (Bits T)} {bw : BWorld T} (r : BRel R m0 w bw) {i : Nat} {o : Option Entry} {h' : Heap (Bits T)} {b' : BHeap T} (s : Sound R m0 h' b') :
    BRel R m0 { w.set i o with heap := h' } { Bytes.set bw i o with heap := b' } :=
  ⟨by simp only [Bytes.set, World.set, r.ents], r.next, s⟩

theorem brel_heap {w : World (Bits T)} {bw : BWorld T} (r : BRel R m0 w bw) {h' : Heap (Bits T)} {b' : BHeap T} (s : Sound R m0 h' b') :
    BRel R m0 { w with heap := h' } { bw with heap := b' } := ⟨r.ents, r.next, s⟩

theorem brel_add {w : World (Bits T)} {bw : BWorld T} (r : BRel R m0 w bw) {i : Nat} {a c : Option Entry} :
    BRel R m0 { (w.set i a).set w.next c with next := w.next + 1 } { Bytes.set (Bytes.set bw i a) bw.next c with next := bw.next + 1 } :=
  ⟨by simp only [Bytes.set, World.set, r.ents, r.next], by simp only [r.next], r.heap⟩

theorem vec_sound (hT : T.ValidType t) {w w' : World (Bits T)} {bw : BWorld T} {i : Nat} {e : Entry} (hf : VecOk t T e.vec) {op : Op (Bits T)} (hroom : Room t e op) (r : BRel e.region m0 w bw) {a : Resp (Bits T)}
    (hx : execVec t T checks panics w i e op = .ret (a, w')) : ∃ bw', Bytes.execVec t checks panics bw i e op = .ret (a, bw') ∧ BRel e.region m0 w' bw' := by
  cases op with
  | push k v =>
    simp only [execVec, push_eq hT hf, bind, Outcome.bind] at hx
    simp only [Bytes.execVec, bytesPush_eq hT hf, bind, Outcome.bind]
    by_cases hlt : e.vec.length < e.vec.uninit.capacity t
    · simp only [hlt, if_true, pure] at hx ⊢
      cases hx
      refine ⟨_, rfl, brel_set r (write_sound r.heap fun hp => ?_)⟩
      have := (cap_lt_iff hf (by omega)).mp hlt
      simp only [Region.Within, Entry.region]
      omega
    · simp only [hlt, if_false, pure] at hx ⊢
      cases hx
      exact ⟨_, rfl, brel_set r r.heap⟩
  | pop k =>
    simp only [execVec, FixedVec.pop, bind, Outcome.bind] at hx
    simp only [Bytes.execVec, Bytes.pop, bind, Outcome.bind]
    by_cases h0 : e.vec.length = 0
    · simp only [h0, if_true, pure] at hx ⊢
      cases hx
      exact ⟨_, rfl, brel_set r r.heap⟩
    · simp only [h0, if_false, headTail_eq hT hf] at hx ⊢
      cases hq : SliceView.splitLast t { e.vec.uninit with len := e.vec.length * T.size } with
      | ret y =>
        rw [hq] at hx
        cases y with
        | none => cases hx
        | some y =>
          obtain ⟨y1, y2⟩ := y
          simp only at hx ⊢
          cases hv : read w.heap y2.addr with
          | ret v =>
            rw [hv] at hx
            simp only [pure] at hx ⊢
            cases hx
            rw [read_sound r.heap hv]
            exact ⟨_, rfl, brel_set r r.heap⟩
          | _ => rw [hv] at hx; cases hx
      | _ => rw [hq] at hx; cases hx
  | truncate k n =>
    simp only [execVec, bind, Outcome.bind] at hx
    cases hl : e.vec.truncate panics w.heap n with
    | ret y =>
      obtain ⟨pk, f, h1⟩ := y
      rw [hl] at hx
      simp only [pure] at hx
      cases hx
      obtain ⟨k1, k2, k3⟩ := truncate_sound hf.elem n r.heap hl
      simp only [Bytes.execVec, k1, k2]
      exact ⟨_, rfl, brel_set r k3⟩
    | _ => rw [hl] at hx; cases hx
  | clear k =>
    simp only [execVec, FixedVec.clear, bind, Outcome.bind] at hx
    cases hl : e.vec.truncate panics w.heap 0 with
    | ret y =>
      obtain ⟨pk, f, h1⟩ := y
      rw [hl] at hx
      simp only [pure] at hx
      cases hx
      obtain ⟨k1, k2, k3⟩ := truncate_sound hf.elem 0 r.heap hl
      simp only [Bytes.execVec, Bytes.clear, k1, k2]
      exact ⟨_, rfl, brel_set r k3⟩
    | _ => rw [hl] at hx; cases hx
  | fill k it =>
    obtain ⟨k1, k2, k3, k4⟩ := fillLoop_sound (e.vec.capacity t - e.vec.len) hf (by have := hf.fits; simp only [FixedVec.capacity, FixedVec.len]; omega) r.heap rfl it
    simp only [execVec, FixedVec.fill] at hx
    cases hx
    simp only [Bytes.execVec, Bytes.fill, k1, k2, k4]
    exact ⟨_, rfl, brel_set r k3⟩
  | extend k it =>
    obtain ⟨k1, k2, k3, k4⟩ := extend_sound (panics := panics) hf r.heap rfl it
    simp only [execVec] at hx
    cases hx
    simp only [Bytes.execVec, k1, k2, k4]
    exact ⟨_, rfl, brel_set r k3⟩
  | setLen k vs n =>
    simp only [execVec] at hx
    cases hx
    refine ⟨_, rfl, brel_set r (writeAll_sound vs r.heap fun j hj => ?_)⟩
    have hcap : e.vec.uninit.capacity t * e.vec.uninit.T.size ≤ e.vec.uninit.len := cap_mul_le
    rw [hf.elem] at hcap
    have hroom : e.vec.length + vs.length ≤ e.vec.uninit.capacity t := hroom
    have hj1 : (e.vec.length + j + 1) * T.size ≤ e.vec.uninit.capacity t * T.size := Nat.mul_le_mul_right _ (by omega)
    simp only [Nat.add_mul, Nat.one_mul] at hj1
    simp only [Region.Within, Entry.region, FixedVec.asMutPtr, FixedVec.len]
    omega
  | len k => simp only [execVec] at hx; cases hx; exact ⟨_, rfl, r⟩
  | capacity k => simp only [execVec] at hx; cases hx; exact ⟨_, rfl, r⟩
  | isEmpty k => simp only [execVec] at hx; cases hx; exact ⟨_, rfl, r⟩
  | slice k =>
    simp only [execVec, FixedVec.asSlice, bind, Outcome.bind] at hx
    cases hl : readSlice e.vec.uninit.T w.heap e.vec.uninit.addr e.vec.length with
    | ret vs =>
      rw [hl] at hx
      simp only [pure] at hx
      cases hx
      rw [hf.elem] at hl
      simp only [Bytes.execVec, Bytes.asSlice, readSlice_sound _ _ r.heap hl]
      exact ⟨_, rfl, r⟩
    | _ => rw [hl] at hx; cases hx
  | index k n =>
    simp only [execVec, FixedVec.index] at hx
    simp only [Bytes.execVec, Bytes.index]
    by_cases hn : n < e.vec.length
    · simp only [hn, if_true] at hx ⊢
      cases hv : read w.heap (e.vec.uninit.addr + n * e.vec.uninit.T.size) with
      | ret v =>
        rw [hv] at hx
        cases hx
        rw [hf.elem] at hv
        rw [read_sound r.heap hv]
        exact ⟨_, rfl, r⟩
      | panic => unfold read at hv; split at hv <;> cases hv
      | ub => rw [hv] at hx; cases hx
    · simp only [hn, if_false] at hx ⊢
      cases hx
      exact ⟨_, rfl, r⟩
  | replace k n v =>
    simp only [execVec, FixedVec.replace, bind, Outcome.bind] at hx
    simp only [Bytes.execVec, Bytes.replace]
    by_cases hn : n < e.vec.length
    · simp only [hn, if_true] at hx ⊢
      cases hv : read w.heap (e.vec.uninit.addr + n * e.vec.uninit.T.size) with
      | ret u =>
        rw [hv] at hx
        simp only [pure] at hx
        cases hx
        rw [hf.elem] at hv ⊢
        rw [read_sound r.heap hv]
        refine ⟨_, rfl, brel_heap r (write_sound r.heap fun _ => ?_)⟩
        have hb := hf.bytes
        have h1 : (n + 1) * T.size ≤ e.vec.length * T.size := Nat.mul_le_mul_right _ hn
        simp only [Nat.add_mul, Nat.one_mul] at h1
        simp only [Region.Within, Entry.region]
        omega
      | panic => unfold read at hv; split at hv <;> cases hv
      | ub => rw [hv] at hx; cases hx
    · simp only [hn, if_false] at hx ⊢
      cases hx
      exact ⟨_, rfl, brel_heap r (dropValue_sound (panics := panics) r.heap v).2⟩
  | splitBorrowed k n =>
    simp only [execVec] at hx
    simp only [Bytes.execVec]
    cases hq : e.vec.splitBorrowed t n with
    | ret y =>
      obtain ⟨f, g⟩ := y
      rw [hq] at hx
      cases hx
      exact ⟨_, by rw [r.next], brel_add r⟩
    | panic => rw [hq] at hx; cases hx; exact ⟨_, rfl, r⟩
    | ub => rw [hq] at hx; cases hx
  | splitShrink k n =>
    simp only [execVec] at hx
    simp only [Bytes.execVec]
    cases hq : e.vec.splitAndShrinkTo t n with
    | ret y =>
      obtain ⟨f, g⟩ := y
      rw [hq] at hx
      cases hx
      exact ⟨_, by rw [r.next], brel_add r⟩
    | panic => rw [hq] at hx; cases hx; exact ⟨_, rfl, r⟩
    | ub => rw [hq] at hx; cases hx
  | shrinkToFit k =>
    simp only [execVec, bind, Outcome.bind] at hx
    simp only [Bytes.execVec, bind, Outcome.bind]
    cases hq : e.vec.shrinkToFit t with
    | ret y =>
      obtain ⟨f, g⟩ := y
      rw [hq] at hx
      simp only [pure] at hx
      cases hx
      exact ⟨_, rfl, brel_set r r.heap⟩
    | _ => rw [hq] at hx; cases hx
  | drain k lo hi =>
    simp only [execVec] at hx
    simp only [Bytes.execVec]
    cases hq : e.vec.drain t checks lo hi with
    | ret y =>
      obtain ⟨f, g⟩ := y
      rw [hq] at hx
      cases hx
      exact ⟨_, rfl, brel_set r r.heap⟩
    | panic => rw [hq] at hx; cases hx; exact ⟨_, rfl, r⟩
    | ub => rw [hq] at hx; cases hx
  | drop k =>
    simp only [execVec, FixedVec.drop, bind, Outcome.bind, hf.elem] at hx
    cases hl : dropSlice T panics e.vec.uninit.addr false e.vec.length w.heap with
    | ret y =>
      obtain ⟨q, h1⟩ := y
      rw [hl] at hx
      simp only [pure] at hx
      cases hx
      obtain ⟨k1, k2⟩ := dropSlice_sound _ _ _ r.heap hl
      simp only [Bytes.execVec, Bytes.drop, k1]
      exact ⟨_, rfl, brel_set r k2⟩
    | _ => rw [hl] at hx; cases hx
  | forget k => simp only [execVec] at hx; cases hx; exact ⟨_, rfl, brel_set r r.heap⟩
  | _ => simp only [execVec] at hx; cases hx

theorem drain_sound {w w' : World (Bits T)} {bw : BWorld T} {i : Nat} {e : Entry} {d : Drain} {sd : SDrain (Bits T)} (hf : VecOk t T e.vec)
    (hr : DrainRel T w.heap.mem e.vec.uninit.addr e.vec.length d sd) (hc : e.vec.length + d.tail + d.tailLen ≤ e.vec.uninit.capacity t) (r : BRel e.region m0 w bw) {op : Op (Bits T)} {a : Resp (Bits T)}
    (hx : execDrain T panics w i e d op = .ret (a, w')) : ∃ bw', Bytes.execDrain panics bw i e d op = .ret (a, bw') ∧ BRel e.region m0 w' bw' := by
  cases op with
  | next k =>
    simp only [execDrain, bind, Outcome.bind] at hx
    cases hn : d.next T w.heap with
    | ret y =>
      obtain ⟨o, d'⟩ := y
      rw [hn] at hx
      simp only [pure] at hx
      cases hx
      simp only [Bytes.execDrain, next_sound r.heap hn]
      exact ⟨_, rfl, brel_set r r.heap⟩
    | _ => rw [hn] at hx; cases hx
  | nextBack k =>
    simp only [execDrain, bind, Outcome.bind] at hx
    cases hn : d.nextBack T w.heap with
    | ret y =>
      obtain ⟨o, d'⟩ := y
      rw [hn] at hx
      simp only [pure] at hx
      cases hx
      simp only [Bytes.execDrain, nextBack_sound r.heap hn]
      exact ⟨_, rfl, brel_set r r.heap⟩
    | _ => rw [hn] at hx; cases hx
  | drainLen k => simp only [execDrain] at hx; cases hx; exact ⟨_, rfl, r⟩
  | drainSlice k =>
    simp only [execDrain, Drain.asSlice, bind, Outcome.bind] at hx
    cases hl : readSlice T w.heap (d.elements + d.start * T.size) d.len with
    | ret vs =>
      rw [hl] at hx
      simp only [pure] at hx
      cases hx
      simp only [Bytes.execDrain, Bytes.drainSlice, readSlice_sound _ _ r.heap hl]
      exact ⟨_, rfl, r⟩
    | _ => rw [hl] at hx; cases hx
  | drainReplace k n v =>
    simp only [execDrain, Drain.replace, bind, Outcome.bind] at hx
    simp only [Bytes.execDrain, Bytes.drainReplace]
    by_cases hn : n < d.len
    · simp only [hn, if_true] at hx ⊢
      cases hv : read w.heap (d.elements + d.start * T.size + n * T.size) with
      | ret u =>
        rw [hv] at hx
        simp only [pure] at hx
        cases hx
        rw [read_sound r.heap hv]
        exact ⟨_, rfl, brel_heap r (write_sound r.heap fun _ => drain_slot_within hf hr hc (by simpa [Drain.len, hr.rest_len] using hn))⟩
      | panic => unfold read at hv; split at hv <;> cases hv
      | ub => rw [hv] at hx; cases hx
    · simp only [hn, if_false] at hx ⊢
      cases hx
      exact ⟨_, rfl, brel_heap r (dropValue_sound (panics := panics) r.heap v).2⟩
  | dropDrain k =>
    simp only [execDrain, Drain.drop, bind, Outcome.bind] at hx
    cases hi : d.dropItems T panics d.len w.heap with
    | ret y =>
      obtain ⟨pk, d', h'⟩ := y
      obtain ⟨k1, k2, k3, k4⟩ := dropItems_fields _ hi
      obtain ⟨j1, j2, j3⟩ := dropItems_sound _ r.heap hi
      simp only [Bytes.execDrain, Bytes.dropDrain]
      generalize Bytes.dropItems panics d.len d bw.heap = q at j1 j2 j3
      obtain ⟨q1, q2, q3⟩ := q
      simp only at j1 j2 j3
      subst j1 j2
      rw [hi] at hx
      simp only at hx
      cases q1 with
      | true =>
        simp only [if_true, pure] at hx ⊢
        cases hx
        exact ⟨_, rfl, brel_set r j3⟩
      | false =>
        simp only [Bool.false_eq_true, if_false] at hx ⊢
        by_cases ht : q2.tailLen ≠ 0
        · rw [if_pos ht] at hx ⊢
          simp only [pure] at hx
          cases hx
          refine ⟨_, rfl, brel_set r (copy_sound j3 fun _ => ?_)⟩
          have hcap : e.vec.uninit.capacity t * e.vec.uninit.T.size ≤ e.vec.uninit.len := cap_mul_le
          rw [hf.elem] at hcap
          have hj1 : (e.vec.length + q2.tailLen) * T.size ≤ e.vec.uninit.capacity t * T.size := Nat.mul_le_mul_right _ (by omega)
          simp only [Nat.add_mul] at hj1
          have := hr.elements
          simp only [Region.Within, Entry.region]
          omega
        · rw [if_neg ht] at hx ⊢
          simp only [pure] at hx
          cases hx
          exact ⟨_, rfl, brel_set r j3⟩
    | _ => rw [hi] at hx; cases hx
  | forgetDrain k => simp only [execDrain] at hx; cases hx; exact ⟨_, rfl, brel_set r r.heap⟩
  | _ => simp only [execDrain] at hx; cases hx

/-- One call on a vector. -/
theorem exec_sound (hT : T.ValidType t) {w w' : World (Bits T)} {sw : SWorld (Bits T)} (q : WRel t T w sw) {bw : BWorld T} {op : Op (Bits T)} {i : Nat} {e : Entry}
    (ht : op.target = some i) (he : w.ents i = some e) (hroom : Room t e op) (r : BRel e.region m0 w bw) {a : Resp (Bits T)} (hx : exec t T checks panics w op = .ret (a, w')) :
    ∃ bw', Bytes.exec t checks panics bw op = .ret (a, bw') ∧ BRel e.region m0 w' bw' := by
  obtain ⟨se, hs, hr⟩ := q.get he
  cases hd : e.drain with
  | none =>
    have hx' : execVec t T checks panics w i e op = .ret (a, w') := by
      cases op with
      | new => cases ht
      | _ => simp only [exec, ht, he, hd] at hx; exact hx
    obtain ⟨bw', h1, h2⟩ := vec_sound hT hr.ok hroom r hx'
    refine ⟨bw', ?_, h2⟩
    rw [← h1]
    cases op with
    | new => cases ht
    | _ => simp only [Bytes.exec, ht, r.ents, he, hd]
  | some d =>
    have hx' : execDrain T panics w i e d op = .ret (a, w') := by
      cases op with
      | new => cases ht
      | _ => simp only [exec, ht, he, hd] at hx; exact hx
    obtain ⟨sd, hsd, hrel, hc⟩ := hr.some_of hd
    obtain ⟨bw', h1, h2⟩ := drain_sound hr.ok hrel hc r hx'
    refine ⟨bw', ?_, h2⟩
    rw [← h1]
    cases op with
    | new => cases ht
    | _ => simp only [Bytes.exec, ht, r.ents, he, hd]

theorem new_sound {w w' : World (Bits T)} {bw : BWorld T} (r : BRel R m0 w bw) {addr len : Nat} {a : Resp (Bits T)} (hx : exec t T checks panics w (.new addr len) = .ret (a, w')) :
    ∃ bw', Bytes.exec t checks panics bw (.new addr len) = .ret (a, bw') ∧ BRel R m0 w' bw' := by
  simp only [exec] at hx
  simp only [Bytes.exec]
  cases hq : (fromMemory addr len).castSlice t T with
  | ok u =>
    rw [hq] at hx
    cases hx
    refine ⟨{ Bytes.set bw bw.next (some ⟨FixedVec.new u, none, []⟩) with next := bw.next + 1 }, ?_, ⟨by simp only [Bytes.set, World.set, r.ents, r.next], by simp only [r.next], r.heap⟩⟩
    simp only [r.next]
  | error u => rw [hq] at hx; cases hx

theorem BRel.reset {w : World (Bits T)} {bw : BWorld T} (r : BRel R m0 w bw) (R' : Region) : BRel R' bw.heap.mem w bw :=
  ⟨r.ents, r.next, r.heap.log, r.heap.mem, fun _ _ => rfl⟩

/-- Nothing is known about the bytes at first. -/
theorem brel_init (mem : Mem) (R : Region) : BRel R mem (World.init fun _ => none) (Bytes.init mem : BWorld T) :=
  ⟨rfl, rfl, rfl, (fun _ _ h => by cases h), fun _ _ => rfl⟩

theorem bytes_permitted {w : World (Bits T)} {bw : BWorld T} (r : BRel R m0 w bw) {op : Op (Bits T)} : Bytes.Permitted t bw op ↔ Permitted t T w op := by
  cases op <;> simp only [Bytes.Permitted, Permitted, r.ents]

theorem bits_subsingleton (h : T.size = 0) : Subsingleton (Bits T) :=
  ⟨fun a b => Subtype.ext (by rw [List.eq_nil_of_length_eq_zero (a.2.trans h), List.eq_nil_of_length_eq_zero (b.2.trans h)])⟩

/-- One permitted call, on both models. -/
theorem step_both (hT : T.ValidType t) {w : World (Bits T)} {sw : SWorld (Bits T)} {bw : BWorld T} (q : WRel t T w sw) (r : BRel R m0 w bw) {op : Op (Bits T)}
    (hp : Permitted t T w op) (hN : NoWrap t checks op) :
    ∃ w' bw', exec t T checks panics w op = .ret ((sexec t T panics sw op).1, w') ∧ WRel t T w' (sexec t T panics sw op).2 ∧
      Bytes.exec t checks panics bw op = .ret ((sexec t T panics sw op).1, bw') ∧
      (∀ i e, op.target = some i → w.ents i = some e → BRel e.region bw.heap.mem w' bw') ∧ (op.target = none → bw'.heap = bw.heap) ∧ BRel ⟨0, 0⟩ bw'.heap.mem w' bw' := by
  obtain ⟨w', e1, q'⟩ := sim_step (checks := checks) (panics := panics) hT bits_subsingleton q hp hN
  cases ht : op.target with
  | none =>
    cases op with
    | new addr len =>
      obtain ⟨bw', h1, h2⟩ := new_sound (r.reset ⟨0, 0⟩) e1
      refine ⟨w', bw', e1, q', h1, (fun _ _ h => by cases h), fun _ => ?_, h2.reset _⟩
      simp only [Bytes.exec] at h1
      split at h1
      · have : _ = bw' := (Prod.ext_iff.mp (Outcome.ret.inj h1)).2
        rw [← this]; rfl
      · cases h1
    | _ => cases ht
  | some i =>
    have : ∃ e, w.ents i = some e := by
      cases op with
      | new => cases ht
      | _ => exact hp.ent ht
    obtain ⟨e, he⟩ := this
    obtain ⟨bw', h1, h2⟩ := exec_sound hT q ht he (hp.room ht he) (r.reset e.region) e1
    refine ⟨w', bw', e1, q', h1, fun j e' hj he' => ?_, (fun h => by cases h), h2.reset _⟩
    cases hj
    rw [he] at he'
    cases he'
    exact h2

theorem bytes_safe_iff (hT : T.ValidType t) {w : World (Bits T)} {sw : SWorld (Bits T)} {bw : BWorld T} (q : WRel t T w sw) (r : BRel R m0 w bw) {ops : List (Op (Bits T))} :
    Bytes.SafeRun t checks panics bw ops ↔ SafeRun t T checks panics w ops := by
  induction ops generalizing w sw bw R m0 with
  | nil => exact Iff.rfl
  | cons op ops ih =>
    simp only [Bytes.SafeRun, SafeRun, bytes_permitted r]
    refine and_congr_right fun hp => and_congr_right fun hN => ?_
    obtain ⟨w', bw', e1, q', e2, _, _, r'⟩ := step_both (checks := checks) (panics := panics) hT q r hp hN
    rw [e1, e2]
    constructor
    · intro h a w1 h1
      cases h1
      exact (ih q' r').mp (h _ _ rfl)
    · intro h a w1 h1
      cases h1
      exact (ih q' r').mpr (h _ _ rfl)

/-- All histories. -/
theorem bytes_run (hT : T.ValidType t) {w : World (Bits T)} {sw : SWorld (Bits T)} {bw : BWorld T} (q : WRel t T w sw) (r : BRel R m0 w bw) {ops : List (Op (Bits T))}
    (hs : SafeRun t T checks panics w ops) :
    ∃ w' bw', Bytes.run t checks panics bw ops = .ret ((srun t T panics sw ops).1, bw') ∧ WRel t T w' (srun t T panics sw ops).2 ∧ BRel ⟨0, 0⟩ bw'.heap.mem w' bw' := by
  induction ops generalizing w sw bw R m0 with
  | nil => exact ⟨w, bw, rfl, q, r.reset _⟩
  | cons op ops ih =>
    obtain ⟨hp, hN, hs⟩ := hs
    obtain ⟨w1, bw1, e1, q1, e2, _, _, r1⟩ := step_both (checks := checks) (panics := panics) hT q r hp hN
    obtain ⟨w2, bw2, k1, k2, k3⟩ := ih q1 r1 (hs _ _ e1)
    simp only [Bytes.run, srun, e2, bind, Outcome.bind]
    generalize sexec t T panics sw op = y at e1 q1 e2 k1 k2
    obtain ⟨rr, sw1⟩ := y
    cases rr with
    | abort => exact ⟨w1, bw1, rfl, q1, r1⟩
    | _ =>
      simp only [k1]
      exact ⟨w2, bw2, rfl, k2, k3⟩

theorem bytes_frame_run (hT : T.ValidType t) {w : World (Bits T)} {sw : SWorld (Bits T)} {bw bw' : BWorld T} (q : WRel t T w sw) (r : BRel R m0 w bw) {ops : List (Op (Bits T))} {rs : List (Resp (Bits T))}
    (hs : SafeRun t T checks panics w ops) (hx : Bytes.run t checks panics bw ops = .ret (rs, bw')) {y : Nat} (hnew : ∀ addr len, Op.new addr len ∈ ops → ¬ Region.Has ⟨addr, len⟩ y)
    (hw : ∀ j e, w.ents j = some e → ¬ e.region.Has y) : bw'.heap.mem y = bw.heap.mem y := by
  induction ops generalizing w sw bw rs R m0 with
  | nil => cases hx; rfl
  | cons op ops ih =>
    obtain ⟨hp, hN, hs⟩ := hs
    obtain ⟨w1, bw1, e1, q1, e2, f1, f2, r1⟩ := step_both (checks := checks) (panics := panics) hT q r hp hN
    have hstep : bw1.heap.mem y = bw.heap.mem y ∧ ∀ j e, w1.ents j = some e → ¬ e.region.Has y := by
      cases ht : op.target with
      | none =>
        cases op with
        | new addr len =>
          obtain ⟨_, k2⟩ := new_step e1 hT.1.1.pos
          refine ⟨by rw [f2 rfl], fun j e h => ?_⟩
          rcases k2 j e h with h | h
          · exact hw j e h
          · rw [h]; exact hnew addr len (List.mem_cons_self ..)
        | _ => cases ht
      | some i =>
        have : ∃ e, w.ents i = some e := by
          cases op with
          | new => cases ht
          | _ => exact hp.ent ht
        obtain ⟨e, he⟩ := this
        refine ⟨(f1 i e ht he).heap.only y (hw i e he), fun j e' h => ?_⟩
        rcases (frame_step hT q ht he (hp.room ht he) e1).ents j e' h with ⟨_, h⟩ | h
        · exact hw j e' h
        · exact fun hy => hw i e he (h.has hy)
    simp only [Bytes.run, e2, bind, Outcome.bind] at hx
    have hrec : ∀ rs', Bytes.run t checks panics bw1 ops = .ret (rs', bw') → bw'.heap.mem y = bw.heap.mem y := fun rs' h =>
      (ih q1 r1 (hs _ _ e1) h (fun a l hm => hnew a l (List.mem_cons_of_mem _ hm)) hstep.2).trans hstep.1
    generalize sexec t T panics sw op = z at hx
    obtain ⟨rr, sw1⟩ := z
    cases rr with
    | abort n => simp only [pure] at hx; cases hx; exact hstep.1
    | _ =>
      simp only at hx
      cases hq : Bytes.run t checks panics bw1 ops with
      | ret z =>
        obtain ⟨rs', w2⟩ := z
        rw [hq] at hx
        simp only [pure] at hx
        cases hx
        exact hrec _ hq
      | _ => rw [hq] at hx; cases hx

end Verif.FVec
