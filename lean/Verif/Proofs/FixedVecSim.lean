import Verif.Proofs.FixedVecWorld
/-! # Each operation does what the specification says -/
namespace Verif.FVec
open Verif Uninit

variable {V : Type} {t : Target} {T : Layout} {checks : Bool} {panics : V → Bool}

theorem EntRel.none_of {h : Heap V} {e : Entry} {se : SVec V} (r : EntRel t T h e se) (hd : e.drain = none) : se.drain = none := by
  have := r.drain
  rw [hd] at this
  cases hs : se.drain with
  | none => rfl
  | some _ => rw [hs] at this; exact this.elim

theorem EntRel.some_of {h : Heap V} {e : Entry} {se : SVec V} (r : EntRel t T h e se) {d : Drain} (hd : e.drain = some d) :
    ∃ sd, se.drain = some sd ∧ DrainRel T h.mem e.vec.uninit.addr e.vec.length d sd ∧ e.vec.length + d.tail + d.tailLen ≤ e.vec.uninit.capacity t := by
  have := r.drain
  rw [hd] at this
  cases hs : se.drain with
  | none => rw [hs] at this; exact this.elim
  | some sd => rw [hs] at this; exact ⟨sd, rfl, this⟩

theorem within_refl (r : Region) : r.Within r := ⟨Nat.le_refl _, Nat.le_refl _⟩

theorem wset_same {w : World V} {i : Nat} {e : Entry} (hs : w.ents i = some e) : w.set i (some e) = w := by
  cases w
  simp only [World.set, World.mk.injEq, and_true, true_and] at hs ⊢
  funext x
  split
  · rename_i h; rw [h]; exact hs.symm
  · rfl

/-- Setting a vector to what it is. -/
theorem sset_same {sw : SWorld V} {i : Nat} {se : SVec V} (hs : sw.vecs i = some se) : sw.set i (some se) = sw := by
  cases sw
  simp only [SWorld.set, SWorld.mk.injEq, and_true] at hs ⊢
  funext x
  split
  · rename_i h; rw [h]; exact hs.symm
  · rfl

theorem drop_eq_nil_of_zero_cap (n : Nat) (xs : List V) (h : xs.length ≤ n) : xs.drop n = [] := List.drop_eq_nil_of_le h

/-- `truncate` in terms of lists. -/
theorem truncate_eq {f : FixedVec} {h : Heap V} {xs : List V} (hT : f.uninit.T = T) (hl : f.length = xs.length) (hh : Holds T h.mem f.uninit.addr xs) (n : Nat) :
    f.truncate panics h n = .ret ((dropUntil panics (xs.drop n).reverse).2, { f with length := xs.length - (dropUntil panics (xs.drop n).reverse).1.length },
      { h with log := h.log ++ (dropUntil panics (xs.drop n).reverse).1 }) := by
  have key := truncateLoop_eq (panics := panics) (T := T) (h := h) (p := f.uninit.addr) (xs.take n) (xs.drop n) (by rw [List.take_append_drop]; exact hh)
  rw [List.take_append_drop] at key
  simp only [FixedVec.truncate, FixedVec.endMutPtr, FixedVec.asMutPtr, hT, hl]
  rw [show xs.length - n = (xs.drop n).length by simp, key]
  rfl

theorem holds_take {m : Nat → Option V} {p : Nat} {xs : List V} (h : Holds T m p xs) (n : Nat) : Holds T m p (xs.take n) := by
  rw [← List.take_append_drop n xs, holds_append] at h
  exact h.1

theorem holds_drop {m : Nat → Option V} {p : Nat} {xs : List V} (h : Holds T m p xs) {n : Nat} (hn : n ≤ xs.length) : Holds T m (p + n * T.size) (xs.drop n) := by
  rw [← List.take_append_drop n xs, holds_append] at h
  rw [List.length_take, Nat.min_eq_left hn] at h
  exact h.2

/-- The result of an operation on both sides. -/
def Sim (t : Target) (T : Layout) (x : Outcome (Resp V × World V)) (y : Resp V × SWorld V) : Prop :=
  ∃ w', x = .ret (y.1, w') ∧ WRel t T w' y.2

section
variable {w : World V} {sw : SWorld V} {i : Nat} {e : Entry} {se : SVec V}

/-- An operation that changes only the elements. -/
theorem upd {h' : Heap V} {n : Nat} {xs tk hd lk : List V} (r : WRel t T w sw) (he : w.ents i = some e) (hfree : Free w i) (hr : EntRel t T w.heap e se) (hd0 : e.drain = none)
    (hk : Kept T e.region w.heap.mem h'.mem) (hx : Holds T h'.mem e.vec.uninit.addr xs) (hn : n = xs.length) (hc : n ≤ se.cap) {dr : List V} (hlog : h'.log = dr) :
    WRel t T { w.set i (some { e with vec := { e.vec with length := n } }) with heap := h' }
      { sw.set i (some { se with items := xs }) with taken := tk, handed := hd, dropped := dr, leaked := lk } := by
  refine rel_update (e' := { e with vec := { e.vec with length := n } }) (se' := { se with items := xs }) r he hfree hk ⟨⟨hr.ok.elem, hr.ok.aligned, hr.ok.small, ?_⟩, hn, hr.cap, hx, hr.borrows, ?_⟩ (within_refl _) rfl hlog
  · rw [hr.cap] at hc; exact hc
  · simp only [hd0, hr.none_of hd0]; trivial

theorem items_le_cap (hr : EntRel t T w.heap e se) : se.items.length ≤ se.cap := by
  rw [hr.cap, ← hr.len]; exact hr.ok.fits

theorem wrel_meta {tk hd lk : List V} (r : WRel t T w sw) : WRel t T w { sw with taken := tk, handed := hd, leaked := lk } := ⟨r.next, r.log, r.ents, r.bound, r.sep⟩

theorem wrel_log {tk hd lk dr : List V} {h' : Heap V} (r : WRel t T w sw) (hm : h'.mem = w.heap.mem) (hl : h'.log = dr) :
    WRel t T { w with heap := h' } { sw with taken := tk, handed := hd, leaked := lk, dropped := dr } := by
  refine ⟨r.next, hl, fun j => ?_, r.bound, r.sep⟩
  have := r.ents j
  cases hf : w.ents j with
  | none =>
    rw [hf] at this
    cases hs : sw.vecs j with
    | none => simp only [hf, hs]; trivial
    | some sf => rw [hs] at this; exact this.elim
  | some f =>
    rw [hf] at this
    cases hs : sw.vecs j with
    | none => rw [hs] at this; exact this.elim
    | some sf =>
      rw [hs] at this
      simp only [hf, hs]
      exact entRel_kept (R := ⟨0, 0⟩) this (by rw [hm]; exact .refl) (fun x hx => by have := hx.2; simp only [Region.Has] at this; omega)

theorem sim_push (hT : T.ValidType t) (hz : T.size = 0 → Subsingleton V) (r : WRel t T w sw) (he : w.ents i = some e) (hfree : Free w i) (hr : EntRel t T w.heap e se) (hd : e.drain = none) (k : Nat) (v : V) :
    Sim t T (execVec t T checks panics w i e (.push k v)) (sexecVec t T panics sw i se (.push k v)) := by
  simp only [execVec, sexecVec, push_eq hT hr.ok, hr.len, ← hr.cap]
  by_cases hlt : se.items.length < se.cap
  · simp only [hlt, if_true, bind, Outcome.bind]
    refine ⟨_, rfl, ?_⟩
    refine upd (h' := write T w.heap (e.vec.uninit.addr + se.items.length * T.size) v) r he hfree hr hd ?_ (holds_push hz hr.items) (by simp) (by omega) r.log
    refine writeBits_kept hz ?_
    have hb : (se.items.length + 1) * T.size ≤ e.vec.uninit.len := by
      have h2 : e.vec.uninit.capacity t * e.vec.uninit.T.size ≤ e.vec.uninit.len := cap_mul_le
      rw [hr.ok.elem, ← hr.cap] at h2
      exact Nat.le_trans (Nat.mul_le_mul_right _ hlt) h2
    simp only [Nat.add_mul, Nat.one_mul] at hb
    simp only [Region.Within, Entry.region]
    omega
  · simp only [hlt, if_false, bind, Outcome.bind]
    exact ⟨w, by rw [wset_same he]; rfl, wrel_meta r⟩

theorem sim_pop (hT : T.ValidType t) (r : WRel t T w sw) (he : w.ents i = some e) (hfree : Free w i) (hr : EntRel t T w.heap e se) (hd : e.drain = none) (k : Nat) :
    Sim t T (execVec t T checks panics w i e (.pop k)) (sexecVec t T panics sw i se (.pop k)) := by
  simp only [execVec, sexecVec, pop_eq hT hr.ok hr.len hr.items, bind, Outcome.bind]
  refine ⟨_, rfl, ?_⟩
  refine upd (h' := w.heap) r he hfree hr hd .refl ?_ rfl ?_ r.log
  · rw [List.dropLast_eq_take]; exact holds_take hr.items _
  · have := items_le_cap hr
    rw [List.length_dropLast]
    omega

theorem sim_truncate (r : WRel t T w sw) (he : w.ents i = some e) (hfree : Free w i) (hr : EntRel t T w.heap e se) (hd : e.drain = none) (k n : Nat) :
    Sim t T (execVec t T checks panics w i e (.truncate k n)) (sexecVec t T panics sw i se (.truncate k n)) := by
  simp only [execVec, sexecVec, truncate_eq hr.ok.elem hr.len hr.items, bind, Outcome.bind]
  refine ⟨_, rfl, ?_⟩
  have := items_le_cap hr
  refine upd (h' := { w.heap with log := w.heap.log ++ (dropUntil panics (se.items.drop n).reverse).1 }) r he hfree hr hd .refl (holds_take hr.items _) ?_ (by omega) (by simp [r.log])
  rw [List.length_take]
  omega

theorem sim_clear (r : WRel t T w sw) (he : w.ents i = some e) (hfree : Free w i) (hr : EntRel t T w.heap e se) (hd : e.drain = none) (k : Nat) :
    Sim t T (execVec t T checks panics w i e (.clear k)) (sexecVec t T panics sw i se (.clear k)) := by
  have := sim_truncate (panics := panics) (checks := checks) r he hfree hr hd k 0
  simp only [execVec, sexecVec, List.drop_zero] at this
  exact this

theorem sim_fill (hz : T.size = 0 → Subsingleton V) (r : WRel t T w sw) (he : w.ents i = some e) (hfree : Free w i) (hr : EntRel t T w.heap e se) (hd : e.drain = none) (k : Nat) (it : Iter V) :
    Sim t T (execVec t T checks panics w i e (.fill k it)) (sexecVec t T panics sw i se (.fill k it)) := by
  obtain ⟨h', e1, h1, h2, h3, h4⟩ := fillLoop_eq hz (se.cap - se.items.length) hr.ok (by have := items_le_cap hr; rw [hr.len, ← hr.cap]; omega) hr.len hr.items it
  simp only [execVec, sexecVec, FixedVec.fill, FixedVec.capacity, FixedVec.len, ← hr.cap, hr.len] at e1 ⊢
  rw [e1]
  refine ⟨{ w.set i (some { e with vec := { e.vec with length := se.items.length + (takeItems it.poll it.pos (se.cap - se.items.length)).1.length } }) with heap := h' },
    by simp only [Nat.add_sub_cancel_left], ?_⟩
  have := items_le_cap hr
  exact upd r he hfree hr hd h3 h4 (by simp) (by omega) (by rw [h2]; exact r.log)

theorem sim_extend (hz : T.size = 0 → Subsingleton V) (r : WRel t T w sw) (he : w.ents i = some e) (hfree : Free w i) (hr : EntRel t T w.heap e se) (hd : e.drain = none) (k : Nat) (it : Iter V) :
    Sim t T (execVec t T checks panics w i e (.extend k it)) (sexecVec t T panics sw i se (.extend k it)) := by
  obtain ⟨h', e1, h1, h2, h3, h4⟩ := fillLoop_eq hz (se.cap - se.items.length) hr.ok (by have := items_le_cap hr; rw [hr.len, ← hr.cap]; omega) hr.len hr.items it
  have hle := items_le_cap hr
  simp only [execVec, sexecVec, FixedVec.extend, FixedVec.fill, FixedVec.capacity, FixedVec.len, ← hr.cap, hr.len] at e1 ⊢
  rw [e1]
  generalize takeItems it.poll it.pos (se.cap - se.items.length) = R at h1 h3 h4 ⊢
  obtain ⟨vs, n, pk⟩ := R
  simp only at h1 h3 h4 ⊢
  cases pk with
  | true =>
    simp only [if_true]
    exact ⟨{ w.set i (some { e with vec := { e.vec with length := se.items.length + vs.length } }) with heap := h' },
      by simp only [Ended.respAt, Nat.add_sub_cancel_left], upd r he hfree hr hd h3 h4 (by simp) (by omega) (by rw [h2]; exact r.log)⟩
  | false =>
    cases hp : it.poll (it.pos + n) with
    | done =>
      simp only [hp, Bool.false_eq_true, if_false]
      refine ⟨{ w.set i (some { e with vec := { e.vec with length := se.items.length + vs.length } }) with heap := h' },
        by simp only [Ended.respAt, Nat.add_assoc, Nat.add_sub_cancel_left], upd r he hfree hr hd h3 h4 (by simp) (by omega) (by rw [h2]; exact r.log)⟩
    | panic =>
      simp only [hp, Bool.false_eq_true, if_false]
      refine ⟨{ w.set i (some { e with vec := { e.vec with length := se.items.length + vs.length } }) with heap := h' },
        by simp only [Ended.respAt, Nat.add_assoc, Nat.add_sub_cancel_left], upd r he hfree hr hd h3 h4 (by simp) (by omega) (by rw [h2]; exact r.log)⟩
    | item v =>
      simp only [hp, dropValue, Bool.false_eq_true, if_false]
      refine ⟨{ w.set i (some { e with vec := { e.vec with length := se.items.length + vs.length } }) with heap := { h' with log := h'.log ++ [v] } }, ?_,
        upd (h' := { h' with log := h'.log ++ [v] }) r he hfree hr hd h3 h4 (by simp) (by omega) (by simp [h2, r.log, SWorld.set])⟩
      by_cases hpv : panics v = true
      · simp only [hpv, if_true, Ended.respAt, Nat.add_assoc, Nat.add_sub_cancel_left]
      · simp only [hpv, if_false, Ended.respAt, Nat.add_assoc, Nat.add_sub_cancel_left, Bool.false_eq_true]

theorem sim_setLen (hz : T.size = 0 → Subsingleton V) (r : WRel t T w sw) (he : w.ents i = some e) (hfree : Free w i) (hr : EntRel t T w.heap e se) (hd : e.drain = none) (k : Nat) {vs : List V} {n : Nat}
    (hc : e.vec.len + vs.length ≤ e.vec.capacity t) (hn : n ≤ e.vec.len + vs.length) :
    Sim t T (execVec t T checks panics w i e (.setLen k vs n)) (sexecVec t T panics sw i se (.setLen k vs n)) := by
  simp only [FixedVec.len, FixedVec.capacity, ← hr.cap, hr.len] at hc hn
  have hb : se.cap * T.size ≤ e.vec.uninit.len := by
    have h2 : e.vec.uninit.capacity t * e.vec.uninit.T.size ≤ e.vec.uninit.len := cap_mul_le
    rwa [hr.ok.elem, ← hr.cap] at h2
  obtain ⟨h1, h2, h3⟩ := writeAll_eq (R := e.region) hz vs hr.items (fun j hj => by
    have : (se.items.length + j + 1) * T.size ≤ se.cap * T.size := Nat.mul_le_mul_right _ (by omega)
    simp only [Nat.add_mul, Nat.one_mul] at this
    simp only [Region.Within, Entry.region]
    omega)
  simp only [execVec, sexecVec, FixedVec.setLen, FixedVec.asMutPtr, FixedVec.len, hr.len]
  refine ⟨_, rfl, upd r he hfree hr hd h2 (holds_take h3 n) ?_ (by omega) (by rw [h1]; exact r.log)⟩
  rw [List.length_take, List.length_append]
  omega

/-- The values that the user writes behind the elements fit. -/
def Room (t : Target) (e : Entry) : Op V → Prop
  | .setLen _ vs _ => e.vec.length + vs.length ≤ e.vec.uninit.capacity t
  | _ => True

theorem Permitted.ent {w : World V} {op : Op V} (hp : Permitted t T w op) {i : Nat} (ht : op.target = some i) : ∃ e, w.ents i = some e := by
  cases op with
  | new => cases ht
  | setLen j vs n => obtain ⟨e, a2, _⟩ := hp; cases ht; exact ⟨e, a2⟩
  | _ => obtain ⟨i', e, a1, a2, _⟩ := hp; rw [ht] at a1; cases a1; exact ⟨e, a2⟩

theorem Permitted.room {w : World V} {op : Op V} (hp : Permitted t T w op) {i : Nat} {e : Entry} (ht : op.target = some i) (he : w.ents i = some e) : Room t e op := by
  cases op with
  | setLen j vs n => obtain ⟨e', a2, _, _, a3, _⟩ := hp; cases ht; rw [he] at a2; cases a2; exact a3
  | _ => trivial

theorem sim_len (r : WRel t T w sw) (hr : EntRel t T w.heap e se) (k : Nat) :
    Sim t T (execVec t T checks panics w i e (.len k)) (sexecVec t T panics sw i se (.len k)) :=
  ⟨w, by simp only [execVec, sexecVec, FixedVec.len, hr.len], r⟩

theorem sim_capacity (r : WRel t T w sw) (hr : EntRel t T w.heap e se) (k : Nat) :
    Sim t T (execVec t T checks panics w i e (.capacity k)) (sexecVec t T panics sw i se (.capacity k)) :=
  ⟨w, by simp only [execVec, sexecVec, FixedVec.capacity, hr.cap], r⟩

theorem sim_isEmpty (r : WRel t T w sw) (hr : EntRel t T w.heap e se) (k : Nat) :
    Sim t T (execVec t T checks panics w i e (.isEmpty k)) (sexecVec t T panics sw i se (.isEmpty k)) :=
  ⟨w, by simp only [execVec, sexecVec, FixedVec.isEmpty, hr.len]; cases se.items <;> rfl, r⟩

theorem sim_slice (r : WRel t T w sw) (hr : EntRel t T w.heap e se) (k : Nat) :
    Sim t T (execVec t T checks panics w i e (.slice k)) (sexecVec t T panics sw i se (.slice k)) := by
  refine ⟨w, ?_, r⟩
  simp only [execVec, sexecVec, FixedVec.asSlice, hr.len, hr.ok.elem, readSlice_eq hr.items]
  rfl

theorem sim_index (r : WRel t T w sw) (hr : EntRel t T w.heap e se) (k n : Nat) :
    Sim t T (execVec t T checks panics w i e (.index k n)) (sexecVec t T panics sw i se (.index k n)) := by
  simp only [execVec, sexecVec, FixedVec.index, hr.len, hr.ok.elem]
  by_cases hn : n < se.items.length
  · have hv : se.items[n]? = some se.items[n] := List.getElem?_eq_getElem hn
    simp only [hn, if_true, read, hr.items n _ hv, hv]
    exact ⟨w, rfl, r⟩
  · have hv : se.items[n]? = none := List.getElem?_eq_none (by omega)
    simp only [hn, if_false, hv]
    exact ⟨w, rfl, r⟩

theorem sim_replace (hz : T.size = 0 → Subsingleton V) (r : WRel t T w sw) (he : w.ents i = some e) (hfree : Free w i) (hr : EntRel t T w.heap e se) (hd : e.drain = none) (k n : Nat) (v : V) :
    Sim t T (execVec t T checks panics w i e (.replace k n v)) (sexecVec t T panics sw i se (.replace k n v)) := by
  simp only [execVec, sexecVec, FixedVec.replace, hr.len, hr.ok.elem]
  by_cases hn : n < se.items.length
  · have hv : se.items[n]? = some se.items[n] := List.getElem?_eq_getElem hn
    simp only [hn, if_true, read, hr.items n _ hv, hv, bind, Outcome.bind]
    have hb := hr.ok.bytes
    have hn1 : (n + 1) * T.size ≤ e.vec.length * T.size := Nat.mul_le_mul_right _ (by rw [hr.len]; exact hn)
    rw [Nat.add_mul, Nat.one_mul] at hn1
    have hx := holds_set (v := v) hz hr.items n
    have := upd (h' := write T w.heap (e.vec.uninit.addr + n * T.size) v) (n := e.vec.length) (tk := sw.taken ++ [v]) (hd := sw.handed ++ [se.items[n]]) (lk := sw.leaked) r he hfree hr hd
      (writeBits_kept hz (by simp only [Region.Within, Entry.region]; omega)) hx (by simp [hr.len]) (by rw [hr.len]; exact items_le_cap hr) r.log
    rw [wset_same he] at this
    exact ⟨_, rfl, this⟩
  · have hv : se.items[n]? = none := List.getElem?_eq_none (by omega)
    simp only [hn, if_false, hv, dropValue]
    exact ⟨_, rfl, wrel_log (h' := { w.heap with log := w.heap.log ++ [v] }) r rfl (by simp [r.log])⟩

theorem sim_drop (r : WRel t T w sw) (hr : EntRel t T w.heap e se) (k : Nat) :
    Sim t T (execVec t T checks panics w i e (.drop k)) (sexecVec t T panics sw i se (.drop k)) := by
  simp only [execVec, sexecVec, FixedVec.drop, hr.len, hr.ok.elem, dropSlice_eq hr.items, bind, Outcome.bind]
  generalize dropAll panics false se.items = R
  obtain ⟨ds, rr⟩ := R
  exact ⟨_, by cases rr <;> rfl, rel_remove (h' := { w.heap with log := w.heap.log ++ ds }) r rfl (by simp [r.log])⟩

theorem sim_forget (r : WRel t T w sw) (k : Nat) :
    Sim t T (execVec t T checks panics w i e (.forget k)) (sexecVec t T panics sw i se (.forget k)) :=
  ⟨_, rfl, rel_remove (h' := w.heap) r rfl r.log⟩

/-- Where a split goes. -/
theorem vecSplit_eq (hT : T.ValidType t) {f : FixedVec} (hf : VecOk t T f) {n : Nat} (hn : n ≤ f.uninit.capacity t) :
    f.uninit.splitAt t n = .ret (some ({ f.uninit with len := n * T.size }, ⟨f.uninit.addr + n * T.size, f.uninit.len - n * T.size, T, sliceCap t (f.uninit.len - n * T.size) T⟩)) ∧
      n * T.size ≤ f.uninit.len := by
  have h2 : f.uninit.capacity t * f.uninit.T.size ≤ f.uninit.len := cap_mul_le
  rw [hf.elem] at h2
  have hb : n * T.size ≤ f.uninit.len := Nat.le_trans (Nat.mul_le_mul_right _ hn) h2
  have := splitAt_eq (t := t) (v := f.uninit) (by rw [hf.elem]; exact hT) (by rw [hf.elem]; exact hf.aligned) hf.small (n := n)
  rw [hf.elem, if_pos hb] at this
  exact ⟨by rw [this]; simp only [hf.elem], hb⟩

theorem tail_cap {f : FixedVec} (hf : VecOk t T f) {n : Nat} :
    sliceCap t (f.uninit.len - n * T.size) T = if T.size = 0 then t.usizeMax else f.uninit.capacity t - n := by
  simp only [sliceCap, SliceView.capacity, hf.elem]
  split
  · rfl
  · rw [Nat.mul_comm, Nat.sub_mul_div]

/-- The tail of a split. -/
theorem tail_rel (hT : T.ValidType t) {h : Heap V} (hr : EntRel t T h e se) {n : Nat} (hn : n ≤ e.vec.uninit.capacity t) (b : List Nat) :
    EntRel t T h ⟨⟨⟨e.vec.uninit.addr + n * T.size, e.vec.uninit.len - n * T.size, T, sliceCap t (e.vec.uninit.len - n * T.size) T⟩, e.vec.length - n⟩, none, b⟩
      ⟨se.items.drop n, if T.size = 0 then t.usizeMax else se.cap - n, none, b⟩ := by
  have hfit := hr.ok.fits
  have hcap := tail_cap hr.ok (n := n)
  refine ⟨⟨rfl, Nat.dvd_add hr.ok.aligned (Nat.dvd_trans hT.2 (Nat.dvd_mul_left _ _)), by have := hr.ok.small; simp only; omega, ?_⟩, by simp [hr.len], ?_, ?_, rfl, trivial⟩
  · show _ ≤ sliceCap t (e.vec.uninit.len - n * T.size) T
    rw [hcap]
    simp only
    split
    · rename_i h0
      simp only [SliceView.capacity, hr.ok.elem, h0, if_true] at hfit
      omega
    · omega
  · rw [hr.cap]; exact hcap.symm
  · by_cases hle : n ≤ se.items.length
    · exact holds_drop hr.items hle
    · rw [List.drop_eq_nil_of_le (by omega)]; exact holds_nil

theorem sim_splitBorrowed (hT : T.ValidType t) (r : WRel t T w sw) (he : w.ents i = some e) (hfree : Free w i) (hr : EntRel t T w.heap e se) (hd : e.drain = none) (k n : Nat) :
    Sim t T (execVec t T checks panics w i e (.splitBorrowed k n)) (sexecVec t T panics sw i se (.splitBorrowed k n)) := by
  simp only [execVec, sexecVec, FixedVec.splitBorrowed, Outcome.assert, FixedVec.capacity]
  by_cases hn : n ≤ e.vec.uninit.capacity t
  · obtain ⟨hs, hb⟩ := vecSplit_eq hT hr.ok hn
    rw [hr.cap]
    simp only [hn, if_true, bind, Outcome.bind, hs]
    have hlen : e.vec.length - Usize.saturatingSub e.vec.length n = (se.items.take n).length := by
      simp only [Usize.saturatingSub, List.length_take, hr.len]; omega
    have r1 := upd (h' := w.heap) (n := (se.items.take n).length) (tk := sw.taken) (hd := sw.handed) (lk := sw.leaked) (xs := se.items.take n) r he hfree hr hd .refl (holds_take hr.items n) rfl
      (by have := items_le_cap hr; rw [List.length_take]; omega) r.log
    refine ⟨{ (w.set i (some { e with vec := { e.vec with length := (se.items.take n).length } })).set w.next
      (some ⟨⟨⟨e.vec.uninit.addr + n * T.size, e.vec.uninit.len - n * T.size, T, sliceCap t (e.vec.uninit.len - n * T.size) T⟩, e.vec.length - n⟩, none, i :: e.borrows⟩) with next := w.next + 1 }, ?_, ?_⟩
    · rw [← hlen, r.next]; rfl
    · have hbd := r.bound i e he
      have ht := tail_rel hT hr hn (i :: e.borrows)
      have hbt : se.borrows = e.borrows := hr.borrows.symm
      rw [hr.cap] at ht
      rw [hbt] at r1 ⊢
      rw [hr.cap] at r1
      refine rel_add (w := { w.set i (some { e with vec := { e.vec with length := (se.items.take n).length } }) with heap := w.heap }) r1 ht ?_ ?_
      · intro k hk
        simp only [List.mem_cons] at hk
        rcases hk with rfl | hk
        · exact hbd.1
        · exact hbd.2 k hk
      · intro j f hf
        simp only [World.set] at hf
        split at hf
        · rename_i hji
          subst hji
          cases hf
          refine ⟨fun _ => ⟨hd, ?_, ?_⟩, fun h => absurd (List.mem_cons_self ..) h⟩
          · simp only
            have : (se.items.take n).length * T.size ≤ n * T.size := Nat.mul_le_mul_right _ (by rw [List.length_take]; omega)
            omega
          · simp only; omega
        · rename_i hji
          have hsep := r.sep j i f e hji hf he
          refine ⟨fun h => ?_, fun h1 h2 x hx => ?_⟩
          · simp only [List.mem_cons, hji, false_or] at h
            obtain ⟨h1, h2, h3⟩ := hsep.1 h
            exact ⟨h1, by simp only; omega, by simp only; omega⟩
          · simp only [List.mem_cons, not_or] at h1
            refine hsep.2 h1.2 (hfree j f hf) x ?_
            simp only [Region.Has, Entry.region] at hx ⊢
            omega
  · have hn' : ¬ n ≤ se.cap := by rw [hr.cap]; exact hn
    simp only [hn, hn', if_false, bind, Outcome.bind]
    exact ⟨w, rfl, r⟩

theorem sim_splitShrink (hT : T.ValidType t) (r : WRel t T w sw) (he : w.ents i = some e) (hfree : Free w i) (hr : EntRel t T w.heap e se) (hd : e.drain = none) (k n : Nat) :
    Sim t T (execVec t T checks panics w i e (.splitShrink k n)) (sexecVec t T panics sw i se (.splitShrink k n)) := by
  simp only [execVec, sexecVec, FixedVec.splitAndShrinkTo, Outcome.assert, FixedVec.capacity]
  by_cases hn : n ≤ e.vec.uninit.capacity t
  · obtain ⟨hs, hb⟩ := vecSplit_eq hT hr.ok hn
    rw [hr.cap]
    simp only [hn, if_true, bind, Outcome.bind, hs]
    have hfit := hr.ok.fits
    have hlen : e.vec.length - Usize.saturatingSub e.vec.length n = (se.items.take n).length := by
      simp only [Usize.saturatingSub, List.length_take, hr.len]; omega
    have hcap : (if T.size = 0 then t.usizeMax else n) = ({ e.vec.uninit with len := n * T.size } : SliceView).capacity t := by
      simp only [SliceView.capacity, hr.ok.elem]
      split
      · rfl
      · rw [Nat.mul_div_cancel _ (by omega)]
    have r1 := rel_update (e' := { e with vec := ⟨{ e.vec.uninit with len := n * T.size }, (se.items.take n).length⟩ })
      (se' := { se with items := se.items.take n, cap := if T.size = 0 then t.usizeMax else n }) (h' := w.heap) (tk := sw.taken) (hd := sw.handed) (lk := sw.leaked) r he hfree .refl
      ⟨⟨hr.ok.elem, hr.ok.aligned, by have := hr.ok.small; simp only; omega, by
          rw [← hcap, List.length_take, ← hr.len]
          simp only
          split
          · rename_i h0
            simp only [SliceView.capacity, hr.ok.elem, h0, if_true] at hfit
            omega
          · omega⟩, rfl, hcap, holds_take hr.items n, hr.borrows, by simp only [hd, hr.none_of hd]; trivial⟩
      (by simp only [Region.Within, Entry.region]; omega) rfl r.log
    refine ⟨{ (w.set i (some { e with vec := ⟨{ e.vec.uninit with len := n * T.size }, (se.items.take n).length⟩ })).set w.next
      (some ⟨⟨⟨e.vec.uninit.addr + n * T.size, e.vec.uninit.len - n * T.size, T, sliceCap t (e.vec.uninit.len - n * T.size) T⟩, e.vec.length - n⟩, none, e.borrows⟩) with next := w.next + 1 }, ?_, ?_⟩
    · rw [← hlen, r.next]; rfl
    · have hbd := r.bound i e he
      have ht := tail_rel hT hr hn e.borrows
      have hbt : se.borrows = e.borrows := hr.borrows.symm
      rw [hr.cap] at ht
      rw [hbt] at r1 ⊢
      refine rel_add (w := { w.set i (some { e with vec := ⟨{ e.vec.uninit with len := n * T.size }, (se.items.take n).length⟩ }) with heap := w.heap }) r1 ht hbd.2 ?_
      intro j f hf
      simp only [World.set] at hf
      split at hf
      · rename_i hji
        subst hji
        cases hf
        refine ⟨fun h => absurd h (hfree j e he), fun _ _ x hx => ?_⟩
        simp only [Region.Has, Entry.region] at hx
        omega
      · rename_i hji
        have hsep := r.sep j i f e hji hf he
        refine ⟨fun h => ?_, fun h1 h2 x hx => ?_⟩
        · obtain ⟨h1, h2, h3⟩ := hsep.1 h
          exact ⟨h1, by simp only; omega, by simp only; omega⟩
        · refine hsep.2 h1 (hfree j f hf) x ?_
          simp only [Region.Has, Entry.region] at hx ⊢
          omega
  · have hn' : ¬ n ≤ se.cap := by rw [hr.cap]; exact hn
    simp only [hn, hn', if_false, bind, Outcome.bind]
    exact ⟨w, rfl, r⟩

theorem vecShrink_eq (hT : T.ValidType t) {f : FixedVec} (hf : VecOk t T f) :
    f.shrinkToFit t = .ret ({ f with uninit := { f.uninit with len := f.uninit.capacity t * T.size } },
      ⟨f.uninit.addr + f.uninit.capacity t * T.size, f.uninit.len - f.uninit.capacity t * T.size, unit⟩) := by
  have := shrinkToFit_eq (t := t) (v := f.uninit) (by rw [hf.elem]; exact hT) (by rw [hf.elem]; exact hf.aligned) hf.small
  simp only [FixedVec.shrinkToFit, this, bind, Outcome.bind, hf.elem]
  rfl

theorem shrunk_cap {f : FixedVec} (hf : VecOk t T f) : ({ f.uninit with len := f.uninit.capacity t * T.size } : SliceView).capacity t = f.uninit.capacity t := by
  simp only [SliceView.capacity, hf.elem]
  split
  · rfl
  · rw [Nat.mul_div_cancel _ (by omega)]

theorem sim_shrinkToFit (hT : T.ValidType t) (r : WRel t T w sw) (he : w.ents i = some e) (hfree : Free w i) (hs : sw.vecs i = some se) (hr : EntRel t T w.heap e se) (hd : e.drain = none) (k : Nat) :
    Sim t T (execVec t T checks panics w i e (.shrinkToFit k)) (sexecVec t T panics sw i se (.shrinkToFit k)) := by
  simp only [execVec, sexecVec, vecShrink_eq hT hr.ok, bind, Outcome.bind]
  refine ⟨_, rfl, ?_⟩
  have hle : e.vec.uninit.capacity t * T.size ≤ e.vec.uninit.len := by
    have : e.vec.uninit.capacity t * e.vec.uninit.T.size ≤ e.vec.uninit.len := cap_mul_le
    rwa [hr.ok.elem] at this
  have hc := shrunk_cap hr.ok
  have := rel_update (e' := { e with vec := { e.vec with uninit := { e.vec.uninit with len := e.vec.uninit.capacity t * T.size } } })
      (se' := se) (h' := w.heap) (tk := sw.taken) (hd := sw.handed) (lk := sw.leaked) (dr := sw.dropped) r he hfree .refl
      ⟨⟨hr.ok.elem, hr.ok.aligned, by have := hr.ok.small; simp only; omega, by rw [hc]; exact hr.ok.fits⟩, hr.len, by rw [hc]; exact hr.cap, hr.items, hr.borrows,
        by simp only [hd, hr.none_of hd]; trivial⟩
      (by simp only [Region.Within, Entry.region]; omega) rfl r.log
  rw [sset_same hs] at this
  exact this

theorem usizeMax_lt_W (t : Target) : t.usizeMax < t.W := by cases t <;> decide

theorem drain_eq {f : FixedVec} (hf : VecOk t T f) {lo hi : Bound} (hN : NoWrap (V := V) t checks (.drain k lo hi)) :
    f.drain t checks lo hi = if lo.first ≤ hi.past f.length ∧ hi.past f.length ≤ f.length then
      .ret ({ f with length := lo.first }, ⟨0, hi.past f.length - lo.first, hi.past f.length - lo.first, f.length - hi.past f.length, f.uninit.addr + lo.first * T.size⟩) else .panic := by
  have hmax : f.length < t.W := Nat.lt_of_le_of_lt (Nat.le_trans hf.fits (capacity_le_usizeMax hf)) (usizeMax_lt_W t)
  have fin : ∀ a b, (do Outcome.assert (a ≤ b); Outcome.assert (b ≤ f.length); pure (({ f with length := a } : FixedVec),
        (⟨0, b - a, b - a, f.length - b, f.uninit.addr + a * T.size⟩ : Drain)) : Outcome _) =
      if a ≤ b ∧ b ≤ f.length then .ret ({ f with length := a }, ⟨0, b - a, b - a, f.length - b, f.uninit.addr + a * T.size⟩) else .panic := by
    intro a b
    by_cases h1 : a ≤ b <;> by_cases h2 : b ≤ f.length <;> simp [Outcome.assert, h1, h2, bind, Outcome.bind, pure]
  have hlo : FixedVec.drainStart t checks lo = .ret lo.first ∨ (FixedVec.drainStart t checks lo = .panic ∧ t.W ≤ lo.first) := by
    cases lo with
    | included n => exact .inl rfl
    | unbounded => exact .inl rfl
    | excluded n =>
      simp only [Bound.first, FixedVec.drainStart, FixedVec.addOne]
      by_cases hn : n + 1 < t.W
      · simp [hn]
      · rcases hN with hN | hN
        · simp [hN, hn]; omega
        · exact absurd hN.1 hn
  have hhi : FixedVec.drainEnd t checks f.length hi = .ret (hi.past f.length) ∨ (FixedVec.drainEnd t checks f.length hi = .panic ∧ t.W ≤ hi.past f.length) := by
    cases hi with
    | excluded n => exact .inl rfl
    | unbounded => exact .inl rfl
    | included n =>
      simp only [Bound.past, FixedVec.drainEnd, FixedVec.addOne]
      by_cases hn : n + 1 < t.W
      · simp [hn]
      · rcases hN with hN | hN
        · simp [hN, hn]; omega
        · exact absurd hN.2 hn
  simp only [FixedVec.drain, FixedVec.asMutPtr, hf.elem]
  rcases hlo with hlo | ⟨hlo, h1⟩
  · rw [hlo]
    rcases hhi with hhi | ⟨hhi, h2⟩
    · rw [hhi]
      exact fin lo.first (hi.past f.length)
    · rw [hhi, if_neg (by omega)]
      rfl
  · rw [hlo, if_neg (by omega)]
    rfl

theorem sim_drain (r : WRel t T w sw) (he : w.ents i = some e) (hfree : Free w i) (hr : EntRel t T w.heap e se) (k : Nat) {lo hi : Bound}
    (hN : NoWrap (V := V) t checks (.drain k lo hi)) :
    Sim t T (execVec t T checks panics w i e (.drain k lo hi)) (sexecVec t T panics sw i se (.drain k lo hi)) := by
  have hle := items_le_cap hr
  simp only [execVec, sexecVec, drain_eq hr.ok hN, hr.len]
  by_cases hc : lo.first ≤ hi.past se.items.length ∧ hi.past se.items.length ≤ se.items.length
  · simp only [hc, and_self, if_true]
    refine ⟨_, rfl, ?_⟩
    obtain ⟨h1, h2⟩ := hc
    generalize lo.first = a at h1 ⊢
    generalize hi.past se.items.length = b at h1 h2 ⊢
    refine rel_update (e' := { e with vec := { e.vec with length := a }, drain := some ⟨0, b - a, b - a, se.items.length - b, e.vec.uninit.addr + a * T.size⟩ })
      (se' := { se with items := se.items.take a, drain := some ⟨(se.items.drop a).take (b - a), se.items.drop b⟩ }) (h' := w.heap) r he hfree .refl
      ⟨⟨hr.ok.elem, hr.ok.aligned, hr.ok.small, ?_⟩, ?_, hr.cap, holds_take hr.items a, hr.borrows, ?_⟩ (within_refl _) rfl r.log
    · simp only; rw [← hr.cap]; omega
    · simp only [List.length_take]; omega
    · refine ⟨⟨rfl, ?_, Nat.le_refl _, ?_, ?_, ?_⟩, ?_⟩
      · simp only [List.length_take, List.length_drop]; omega
      · simp
      · simp only [Nat.zero_mul, Nat.add_zero]
        exact holds_take (holds_drop hr.items (by omega)) _
      · simp only
        rw [Nat.add_assoc, ← Nat.add_mul, show a + (b - a) = b by omega]
        exact holds_drop hr.items h2
      · simp only; rw [← hr.cap]; omega
  · simp only [hc, if_false]
    exact ⟨w, rfl, r⟩

/-! Drains -/

section
variable {d : Drain} {sd : SDrain V}

theorem drainRel_update (hr : EntRel t T w.heap e se) {d' : Drain} {sd' : SDrain V} (hd' : DrainRel T w.heap.mem e.vec.uninit.addr e.vec.length d' sd')
    (hc : e.vec.length + d'.tail + d'.tailLen ≤ e.vec.uninit.capacity t) : EntRel t T w.heap { e with drain := some d' } { se with drain := some sd' } :=
  ⟨hr.ok, hr.len, hr.cap, hr.items, hr.borrows, hd', hc⟩

theorem sim_next (r : WRel t T w sw) (he : w.ents i = some e) (hfree : Free w i) (hr : EntRel t T w.heap e se)
    (hd : DrainRel T w.heap.mem e.vec.uninit.addr e.vec.length d sd) (hc : e.vec.length + d.tail + d.tailLen ≤ e.vec.uninit.capacity t) (k : Nat) :
    Sim t T (execDrain T panics w i e d (.next k)) (sexecDrain panics sw i se sd (.next k)) := by
  obtain ⟨d', e1, r1, h2, h3, _⟩ := next_eq hd
  simp only [execDrain, sexecDrain, e1, bind, Outcome.bind]
  exact ⟨_, rfl, rel_update (h' := w.heap) r he hfree .refl (drainRel_update hr r1 (by omega)) (within_refl _) rfl r.log⟩

theorem sim_nextBack (r : WRel t T w sw) (he : w.ents i = some e) (hfree : Free w i) (hr : EntRel t T w.heap e se)
    (hd : DrainRel T w.heap.mem e.vec.uninit.addr e.vec.length d sd) (hc : e.vec.length + d.tail + d.tailLen ≤ e.vec.uninit.capacity t) (k : Nat) :
    Sim t T (execDrain T panics w i e d (.nextBack k)) (sexecDrain panics sw i se sd (.nextBack k)) := by
  obtain ⟨d', e1, r1, h2, h3⟩ := nextBack_eq hd
  simp only [execDrain, sexecDrain, e1, bind, Outcome.bind]
  exact ⟨_, rfl, rel_update (h' := w.heap) r he hfree .refl (drainRel_update hr r1 (by omega)) (within_refl _) rfl r.log⟩

theorem sim_drainLen (r : WRel t T w sw) (hd : DrainRel T w.heap.mem e.vec.uninit.addr e.vec.length d sd) (k : Nat) :
    Sim t T (execDrain T panics w i e d (.drainLen k)) (sexecDrain panics sw i se sd (.drainLen k)) := by
  refine ⟨w, ?_, r⟩
  simp only [execDrain, sexecDrain, Drain.len, hd.rest_len, Nat.add_sub_cancel_left]

theorem sim_drainSlice (r : WRel t T w sw) (hd : DrainRel T w.heap.mem e.vec.uninit.addr e.vec.length d sd) (k : Nat) :
    Sim t T (execDrain T panics w i e d (.drainSlice k)) (sexecDrain panics sw i se sd (.drainSlice k)) := by
  refine ⟨w, ?_, r⟩
  simp only [execDrain, sexecDrain, Drain.asSlice, Drain.len, hd.rest_len, Nat.add_sub_cancel_left, readSlice_eq hd.rest]
  rfl

/-- The elements of a drain are in the memory of the vector. -/
theorem drain_slot_within (hf : VecOk t T e.vec) {m : Nat → Option V} (hd : DrainRel T m e.vec.uninit.addr e.vec.length d sd) (hc : e.vec.length + d.tail + d.tailLen ≤ e.vec.uninit.capacity t)
    {k : Nat} (hk : k < sd.rest.length) : Region.Within ⟨d.elements + d.start * T.size + k * T.size, T.size⟩ e.region := by
  have hcap : e.vec.uninit.capacity t * e.vec.uninit.T.size ≤ e.vec.uninit.len := cap_mul_le
  rw [hf.elem] at hcap
  have h1 : (e.vec.length + d.start + k + 1) * T.size ≤ e.vec.uninit.capacity t * T.size := Nat.mul_le_mul_right _ (by have := hd.rest_len; have := hd.le; omega)
  simp only [Nat.add_mul, Nat.one_mul] at h1
  have := hd.elements
  simp only [Region.Within, Entry.region]
  omega

theorem sim_drainReplace (hz : T.size = 0 → Subsingleton V) (r : WRel t T w sw) (he : w.ents i = some e) (hfree : Free w i) (hr : EntRel t T w.heap e se) (hde : e.drain = some d)
    (hd : DrainRel T w.heap.mem e.vec.uninit.addr e.vec.length d sd) (hc : e.vec.length + d.tail + d.tailLen ≤ e.vec.uninit.capacity t) (k n : Nat) (v : V) :
    Sim t T (execDrain T panics w i e d (.drainReplace k n v)) (sexecDrain panics sw i se sd (.drainReplace k n v)) := by
  have hlen : d.len = sd.rest.length := by simp [Drain.len, hd.rest_len]
  simp only [execDrain, sexecDrain, Drain.replace, hlen]
  by_cases hn : n < sd.rest.length
  · have hv : sd.rest[n]? = some sd.rest[n] := List.getElem?_eq_getElem hn
    simp only [hn, if_true, read, hd.rest n _ hv, hv, bind, Outcome.bind]
    have hp : d.elements + d.start * T.size + n * T.size = e.vec.uninit.addr + (e.vec.length + d.start + n) * T.size := by
      rw [hd.elements, Nat.add_mul, Nat.add_mul]; omega
    have hitems : Holds T (writeBits T w.heap.mem (d.elements + d.start * T.size + n * T.size) (some v)) e.vec.uninit.addr se.items := by
      rw [hp]
      intro j u hj
      refine writeBits_slot hz ?_ (hr.items j u hj)
      have : j < se.items.length := (List.getElem?_eq_some_iff.mp hj).1
      rw [← hr.len] at this
      omega
    have htail : Holds T (writeBits T w.heap.mem (d.elements + d.start * T.size + n * T.size) (some v)) (d.elements + d.tail * T.size) sd.tail := by
      intro j u hj
      have h1 := hd.tail j u hj
      have e1 : d.elements + d.tail * T.size + j * T.size = d.elements + (d.tail + j) * T.size := by rw [Nat.add_mul]; omega
      have e2 : d.elements + d.start * T.size + n * T.size = d.elements + (d.start + n) * T.size := by rw [Nat.add_mul]; omega
      rw [e1] at h1 ⊢
      rw [e2]
      exact writeBits_slot hz (by have := hd.rest_len; have := hd.le; omega) h1
    have := rel_update (h' := write T w.heap (d.elements + d.start * T.size + n * T.size) v) (e' := e) (se' := { se with drain := some { sd with rest := sd.rest.set n v } })
      (tk := sw.taken ++ [v]) (hd := sw.handed ++ [sd.rest[n]]) (lk := sw.leaked) r he hfree
      (writeBits_kept hz (drain_slot_within hr.ok hd hc hn))
      ⟨hr.ok, hr.len, hr.cap, hitems, hr.borrows, by rw [hde]; exact ⟨⟨hd.elements, by simpa using hd.rest_len, hd.le, hd.tail_len, holds_set hz hd.rest n, htail⟩, hc⟩⟩ (within_refl _) rfl r.log
    rw [wset_same he] at this
    exact ⟨_, rfl, this⟩
  · have hv : sd.rest[n]? = none := List.getElem?_eq_none (by omega)
    simp only [hn, if_false, hv, dropValue]
    exact ⟨_, rfl, wrel_log (h' := { w.heap with log := w.heap.log ++ [v] }) r rfl (by simp [r.log])⟩

theorem sim_forgetDrain (r : WRel t T w sw) (he : w.ents i = some e) (hfree : Free w i) (hr : EntRel t T w.heap e se) (k : Nat) :
    Sim t T (execDrain T panics w i e d (.forgetDrain k)) (sexecDrain panics sw i se sd (.forgetDrain k)) :=
  ⟨_, rfl, rel_update (h' := w.heap) (e' := { e with drain := none }) (se' := { se with drain := none }) r he hfree .refl ⟨hr.ok, hr.len, hr.cap, hr.items, hr.borrows, trivial⟩ (within_refl _) rfl r.log⟩

theorem sim_dropDrain (hz : T.size = 0 → Subsingleton V) (r : WRel t T w sw) (he : w.ents i = some e) (hfree : Free w i) (hr : EntRel t T w.heap e se)
    (hd : DrainRel T w.heap.mem e.vec.uninit.addr e.vec.length d sd) (hc : e.vec.length + d.tail + d.tailLen ≤ e.vec.uninit.capacity t) (k : Nat) :
    Sim t T (execDrain T panics w i e d (.dropDrain k)) (sexecDrain panics sw i se sd (.dropDrain k)) := by
  have hlen : d.len = sd.rest.length := by simp [Drain.len, hd.rest_len]
  obtain ⟨d', e1, r1, h2, h3, h4⟩ := dropItems_eq (panics := panics) sd.rest.length hd rfl
  simp only [execDrain, sexecDrain, Drain.drop, hlen, e1, bind, Outcome.bind]
  by_cases hp : (dropUntil panics sd.rest).2 = true
  · simp only [hp, if_true]
    refine ⟨_, rfl, rel_update (h' := { w.heap with log := w.heap.log ++ (dropUntil panics sd.rest).1 }) (dr := sw.dropped ++ (dropUntil panics sd.rest).1) (e' := { e with drain := none }) (se' := { se with drain := none }) r he hfree .refl
      ⟨hr.ok, hr.len, hr.cap, hr.items, hr.borrows, trivial⟩ (within_refl _) rfl (by simp [r.log])⟩
  · simp only [Bool.not_eq_true] at hp
    simp only [hp, Bool.false_eq_true, if_false]
    have htl := r1.tail_len
    simp only at htl
    by_cases h0 : d'.tailLen ≠ 0
    · rw [if_pos h0]
      have hel : d'.elements = e.vec.uninit.addr + se.items.length * T.size := by rw [r1.elements, hr.len]
      have hcap : e.vec.uninit.capacity t * e.vec.uninit.T.size ≤ e.vec.uninit.len := cap_mul_le
      rw [hr.ok.elem] at hcap
      obtain ⟨c1, c2, c3⟩ := copy_eq (h := { w.heap with log := w.heap.log ++ (dropUntil panics sd.rest).1 }) (R := e.region) hz hr.items r1.tail (by
        intro j hj
        have hj : j < sd.tail.length := hj
        have hj1 : (se.items.length + j + 1) * T.size ≤ e.vec.uninit.capacity t * T.size := Nat.mul_le_mul_right _ (by rw [← hr.len]; omega)
        simp only [Nat.add_mul, Nat.one_mul] at hj1
        simp only [Region.Within, Entry.region]
        omega)
      simp only [← htl, ← hel] at c1 c2 c3
      refine ⟨_, rfl, rel_update (dr := sw.dropped ++ (dropUntil panics sd.rest).1) (e' := { e with vec := { e.vec with length := e.vec.length + d'.tailLen }, drain := none }) (se' := { se with items := se.items ++ sd.tail, drain := none }) r he hfree c2
        ⟨⟨hr.ok.elem, hr.ok.aligned, hr.ok.small, by simp only; omega⟩, by simp [hr.len, htl], hr.cap, c3, hr.borrows, trivial⟩ (within_refl _) rfl (by rw [c1]; simp [r.log])⟩
    · rw [if_neg h0]
      have hnil : sd.tail = [] := List.eq_nil_of_length_eq_zero (by omega)
      refine ⟨_, rfl, rel_update (h' := { w.heap with log := w.heap.log ++ (dropUntil panics sd.rest).1 }) (dr := sw.dropped ++ (dropUntil panics sd.rest).1) (e' := { e with drain := none }) (se' := { se with items := se.items ++ sd.tail, drain := none }) r he hfree .refl
        ⟨hr.ok, by simp [hr.len, hnil], hr.cap, by simpa [hnil] using hr.items, hr.borrows, trivial⟩ (within_refl _) rfl (by simp [r.log])⟩

end

theorem sim_new (hT : T.ValidType t) (r : WRel t T w sw) {addr len : Nat} (hp : Permitted t T w (.new addr len)) :
    Sim t T (exec t T checks panics w (.new addr len)) (sexec t T panics sw (.new addr len)) := by
  obtain ⟨h1, h2, h3⟩ := hp
  simp only [exec, sexec]
  rcases castSlice_eq (t := t) (v := fromMemory addr len) (U := T) hT.1.1.pos with ⟨_, e1⟩ | ⟨hn, _⟩
  · rw [e1]
    refine ⟨{ w.set w.next (some ⟨FixedVec.new ⟨addr, len, T, sliceCap t len T⟩, none, []⟩) with next := w.next + 1 }, by rw [r.next]; rfl, ?_⟩
    refine rel_add (g := ⟨FixedVec.new ⟨addr, len, T, sliceCap t len T⟩, none, []⟩) (sg := ⟨[], roomFor t T len, none, []⟩) r ⟨⟨rfl, h1, h2.size, Nat.zero_le _⟩, rfl, rfl, holds_nil, rfl, trivial⟩ (fun k hk => by simp at hk) (fun j f hf => ⟨fun h => by simp at h, fun _ _ x hx => h3 j f hf x hx.symm⟩)
  · exact absurd h1 hn

/-- **One call.** -/
theorem sim_step (hT : T.ValidType t) (hz : T.size = 0 → Subsingleton V) (r : WRel t T w sw) {op : Op V} (hp : Permitted t T w op) (hN : NoWrap t checks op) :
    Sim t T (exec t T checks panics w op) (sexec t T panics sw op) := by
  cases op with
  | new addr len => exact sim_new hT r hp
  | setLen i vs n =>
    obtain ⟨e, he, hfree, hd, hc, hn⟩ := hp
    obtain ⟨se, hs, hr⟩ := r.get he
    simp only [exec, sexec, Op.target, he, hs, Option.bind_some, Option.map_some, hd, hr.none_of hd]
    exact sim_setLen hz r he hfree hr hd _ hc hn
  | _ =>
    obtain ⟨i, e, ht, he, hfree, hdr⟩ := hp
    obtain ⟨se, hs, hr⟩ := r.get he
    simp only [Op.target, Option.some.injEq] at ht
    subst ht
    simp only [exec, sexec, Op.target, he, hs, Option.bind_some, Option.map_some]
    cases hd : e.drain with
    | none =>
      simp only [hr.none_of hd]
      first
      | exact sim_push hT hz r he hfree hr hd _ _
      | exact sim_pop hT r he hfree hr hd _
      | exact sim_truncate r he hfree hr hd _ _
      | exact sim_clear r he hfree hr hd _
      | exact sim_fill hz r he hfree hr hd _ _
      | exact sim_extend hz r he hfree hr hd _ _
      | exact sim_len r hr _
      | exact sim_capacity r hr _
      | exact sim_isEmpty r hr _
      | exact sim_slice r hr _
      | exact sim_index r hr _ _
      | exact sim_replace hz r he hfree hr hd _ _ _
      | exact sim_splitBorrowed hT r he hfree hr hd _ _
      | exact sim_splitShrink hT r he hfree hr hd _ _
      | exact sim_shrinkToFit hT r he hfree hs hr hd _
      | exact sim_drain r he hfree hr _ hN
      | exact sim_drop r hr _
      | exact sim_forget r _
      | (rw [hd] at hdr; simp [Op.OnDrain] at hdr)
    | some d =>
      obtain ⟨sd, hsd, hrel, hc⟩ := hr.some_of hd
      simp only [hsd]
      first
      | exact sim_next r he hfree hr hrel hc _
      | exact sim_nextBack r he hfree hr hrel hc _
      | exact sim_drainLen r hrel _
      | exact sim_drainSlice r hrel _
      | exact sim_drainReplace hz r he hfree hr hd hrel hc _ _ _
      | exact sim_dropDrain hz r he hfree hr hrel hc _
      | exact sim_forgetDrain r he hfree hr _
      | (rw [hd] at hdr; simp [Op.OnDrain] at hdr)

/-- **All histories.** -/
theorem sim_run (hT : T.ValidType t) (hz : T.size = 0 → Subsingleton V) (r : WRel t T w sw) {ops : List (Op V)} (hs : SafeRun t T checks panics w ops) :
    ∃ w', run t T checks panics w ops = .ret ((srun t T panics sw ops).1, w') ∧ WRel t T w' (srun t T panics sw ops).2 := by
  induction ops generalizing w sw with
  | nil => exact ⟨w, rfl, r⟩
  | cons op ops ih =>
    obtain ⟨hp, hN, hs⟩ := hs
    obtain ⟨w1, e1, r1⟩ := sim_step (checks := checks) (panics := panics) hT hz r hp hN
    have hs' := hs _ _ e1
    obtain ⟨w2, e2, r2⟩ := ih r1 hs'
    simp only [run, srun, e1, bind, Outcome.bind]
    generalize sexec t T panics sw op = R at e1 r1 hs' e2 r2
    obtain ⟨rr, sw1⟩ := R
    cases rr with
    | abort => exact ⟨w1, rfl, r1⟩
    | _ =>
      simp only [e2]
      exact ⟨w2, rfl, r2⟩

end

end Verif.FVec
