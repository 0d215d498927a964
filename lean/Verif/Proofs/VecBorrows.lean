import Verif.Spec.VecBorrows
import Verif.Proofs.Borrows
/-! # Proofs about the pointers of `FixedVec` -/
set_option autoImplicit false
namespace Verif.VecBorrows
open Verif.Borrows

/-- The memory is in order and the root tag may be used in all of it. -/
structure Root (w lo hi : Nat) (m : Mem) : Prop where
  good : m.Good
  root : ∀ b, lo ≤ b → b < hi → ∃ p : Perm, ⟨w, p⟩ ∈ m.stack b ∧ p.grants .write = true
  next : w < m.next

theorem grants_of_write {p : Perm} (h : p.grants .write = true) (a : Access) : p.grants a = true := by
  cases p <;> cases a <;> first | rfl | exact absurd h (by decide)

/-- Only these bytes changed, new tags may have been made. -/
structure Only (x y : Nat) (m m' : Mem) : Prop where
  out : ∀ b, (b < x ∨ y ≤ b) → m'.stack b = m.stack b
  next : m.next ≤ m'.next

theorem Only.refl (x y : Nat) (m : Mem) : Only x y m m := ⟨fun _ _ => rfl, Nat.le_refl _⟩
theorem Only.trans {x y : Nat} {m m' m'' : Mem} (h : Only x y m m') (h' : Only x y m' m'') : Only x y m m'' :=
  ⟨fun b hb => (h'.out b hb).trans (h.out b hb), Nat.le_trans h.next h'.next⟩
theorem Only.mono {x y x' y' : Nat} {m m' : Mem} (h : Only x y m m') (hx : x' ≤ x) (hy : y ≤ y') : Only x' y' m m' :=
  ⟨fun b hb => h.out b (by omega), h.next⟩
theorem upd_only {a : Access} {t x y : Nat} {m m' : Mem} (h : Mem.Upd a t x y m m') : Only x y m m' := ⟨h.out, h.next⟩

theorem Root.has {w lo hi x y : Nat} {m : Mem} (h : Root w lo hi m) (hx : lo ≤ x) (hy : y ≤ hi) (a : Access) : m.Has a w x y := by
  intro b h1 h2
  obtain ⟨p, hp, hg⟩ := h.root b (by omega) (by omega)
  refine ⟨_, hp, ?_⟩
  unfold Item.is
  simp [grants_of_write hg a]

theorem Root.upd {w lo hi : Nat} {m m' : Mem} (h : Root w lo hi m) {a : Access} {t x y : Nat} (hg : m'.Good) (hu : Mem.Upd a t x y m m') (ht : w ≤ t) :
    Root w lo hi m' :=
  ⟨hg, fun b h1 h2 => by
    obtain ⟨p, hp, hw⟩ := h.root b h1 h2
    exact ⟨p, hu.keep b _ hp (Or.inl ht), hw⟩, Nat.lt_of_lt_of_le h.next hu.next⟩

/-- Access with the root. -/
theorem Root.access {w lo hi : Nat} {m : Mem} (h : Root w lo hi m) {x y : Nat} (hx : lo ≤ x) (hy : y ≤ hi) (a : Access) :
    ∃ m', m.access a w x y = some m' ∧ Root w lo hi m' ∧ Mem.Upd a w x y m m' := by
  obtain ⟨m', e, hg, hu, _⟩ := Mem.access_spec h.good (h.has hx hy a)
  exact ⟨m', e, h.upd hg hu (Nat.le_refl _), hu⟩

/-- Reference made with the root. -/
theorem Root.retag {w lo hi : Nat} {m : Mem} (h : Root w lo hi m) {x y : Nat} (hx : lo ≤ x) (hy : y ≤ hi) (mu : Bool) :
    ∃ m', m.retag mu w x y = some (m.next, m') ∧ Root w lo hi m' ∧ Mem.Upd (accessOf mu) w x y m m' ∧ m'.next = m.next + 1 ∧
      ∀ b, x ≤ b → b < y → ⟨m.next, permOf mu⟩ ∈ m'.stack b := by
  obtain ⟨m', e, hg, hu, hn, hi'⟩ := Mem.retag_spec h.good (h.has hx hy (accessOf mu))
  exact ⟨m', e, h.upd hg hu (Nat.le_refl _), hu, hn, hi'⟩

theorem has_of_unique {m : Mem} {t x y : Nat} (h : ∀ b, x ≤ b → b < y → (⟨t, .unique⟩ : Item) ∈ m.stack b) (a : Access) : m.Has a t x y := by
  intro b h1 h2
  refine ⟨_, h b h1 h2, ?_⟩
  unfold Item.is
  simp [Perm.grants]

/-- Destructor of one element, through a pointer which has write permission there; other items of that tag stay. -/
theorem dropElem_spec {w lo hi sz : Nat} {m : Mem} (h : Root w lo hi m) {p : Ptr} (hw : w ≤ p.tag) (ht : m.Has .write p.tag p.off (p.off + sz)) (hlt : p.tag < m.next) :
    ∃ m', dropElem sz p m = some m' ∧ Root w lo hi m' ∧ Only p.off (p.off + sz) m m' ∧ ∀ b, ∀ i ∈ m.stack b, i.tag ≤ p.tag → i ∈ m'.stack b := by
  obtain ⟨m1, e1, g1, u1, n1, i1⟩ := Mem.retag_spec (mu := true) h.good ht
  have r1 := h.upd g1 u1 hw
  obtain ⟨m2, e2, g2, u2, n2⟩ := Mem.access_spec (a := .read) (t := m.next) (lo := p.off) (hi := p.off + sz) g1 (has_of_unique i1 _)
  have hwn : w ≤ m.next := Nat.le_of_lt (Nat.lt_of_le_of_lt hw hlt)
  have r2 := r1.upd g2 u2 hwn
  have i2 : ∀ b, p.off ≤ b → b < p.off + sz → (⟨m.next, .unique⟩ : Item) ∈ m2.stack b := fun b h1 h2 => u2.keep b _ (i1 b h1 h2) (Or.inl (Nat.le_refl _))
  obtain ⟨m3, e3, g3, u3, n3⟩ := Mem.access_spec (a := .write) (t := m.next) (lo := p.off) (hi := p.off + sz) g2 (has_of_unique i2 _)
  refine ⟨m3, ?_, r2.upd g3 u3 hwn, ((upd_only u1).trans (upd_only u2)).trans (upd_only u3), ?_⟩
  · unfold dropElem readElem writeElem
    simp only [e1, e2, e3, Option.bind_eq_bind, Option.bind_some]
  · intro b i hi' hle
    exact u3.keep b i (u2.keep b i (u1.keep b i hi' (Or.inl hle)) (Or.inl (by omega))) (Or.inl (by omega))

theorem dropBack_spec {w lo hi sz : Nat} (x : Nat) (hx : lo ≤ x) : ∀ (n : Nat) (p : Ptr) (m : Mem), Root w lo hi m → p.tag = w → p.off ≤ hi → x + n * sz ≤ p.off →
    ∃ m', dropBack sz n p m = some m' ∧ Root w lo hi m' ∧ Only x p.off m m'
  | 0, p, m, h, _, _, _ => ⟨m, rfl, h, Only.refl _ _ _⟩
  | n + 1, p, m, h, ht, hh, hl => by
    have e : (n + 1) * sz = n * sz + sz := by rw [Nat.add_mul, Nat.one_mul]
    have hsub : p.off - sz + sz = p.off := by omega
    obtain ⟨m1, e1, r1, o1, _⟩ := dropElem_spec (sz := sz) (p := ⟨p.tag, p.off - sz⟩) h (by rw [ht]; exact Nat.le_refl _)
      (by rw [ht]; exact h.has (by simp only; omega) (by simp only; omega) _) (by rw [ht]; exact h.next)
    obtain ⟨m2, e2, r2, o2⟩ := dropBack_spec (sz := sz) x hx n ⟨p.tag, p.off - sz⟩ m1 r1 ht (by simp only; omega) (by simp only; omega)
    have o1' : Only (p.off - sz) (p.off - sz + sz) m m1 := o1
    have o2' : Only x (p.off - sz) m1 m2 := o2
    refine ⟨m2, ?_, r2, (o1'.mono (by omega) (by omega)).trans (o2'.mono (Nat.le_refl _) (by omega))⟩
    unfold dropBack
    simp only [e1, Option.bind_eq_bind, Option.bind_some]
    exact e2

/-- Dropping elements in order through a unique reference to all of them. -/
theorem dropForward_spec {w lo hi sz t : Nat} (hwt : w ≤ t) : ∀ (n off : Nat) (m : Mem), Root w lo hi m → t < m.next →
    (∀ b, off ≤ b → b < off + n * sz → (⟨t, .unique⟩ : Item) ∈ m.stack b) →
    ∃ m', dropForward sz n ⟨t, off⟩ m = some m' ∧ Root w lo hi m' ∧ Only off (off + n * sz) m m'
  | 0, off, m, h, _, _ => ⟨m, rfl, h, Only.refl _ _ _⟩
  | n + 1, off, m, h, ht, hi' => by
    have e : (n + 1) * sz = n * sz + sz := by rw [Nat.add_mul, Nat.one_mul]
    have hb : ∀ b, off ≤ b → b < off + sz → (⟨t, .unique⟩ : Item) ∈ m.stack b := fun b h1 h2 => hi' b h1 (by omega)
    obtain ⟨m1, e1, r1, o1, k1⟩ := dropElem_spec (sz := sz) (p := ⟨t, off⟩) h hwt (has_of_unique hb _) ht
    have o1' : Only off (off + sz) m m1 := o1
    obtain ⟨m2, e2, r2, o2⟩ := dropForward_spec (sz := sz) hwt n (off + 1 * sz) m1 r1 (Nat.lt_of_lt_of_le ht o1.next)
      (fun b h1 h2 => k1 b _ (hi' b (by omega) (by omega)) (Nat.le_refl _))
    refine ⟨m2, ?_, r2, (o1'.mono (Nat.le_refl _) (by omega)).trans (o2.mono (by omega) (by omega))⟩
    unfold dropForward
    simp only [e1, Option.bind_eq_bind, Option.bind_some]
    exact e2

/-- Vectors in the memory with the root's pointer. -/
structure VecOk (w lo hi sz : Nat) (v : Vec) : Prop where
  tag : v.uninit.ptr.tag = w
  lo : lo ≤ v.uninit.ptr.off
  hi : v.uninit.ptr.off + v.uninit.cap * sz ≤ hi
  len : v.length ≤ v.uninit.cap
  drain : ∀ d, v.drain = some d → d.elements.tag = w ∧ d.elements.off = v.uninit.ptr.off + v.length * sz ∧ d.start ≤ d.stop ∧ d.stop ≤ d.tail ∧
    v.length + d.tail + d.tailLen ≤ v.uninit.cap

/-- First byte after the capacity. -/
def Vec.endOff (sz : Nat) (v : Vec) : Nat := v.uninit.ptr.off + v.uninit.cap * sz

/-- A call of a method: no undefined behaviour, only bytes of the vector's capacity are touched, the vector is as before with another length or drain. -/
def OpOk (w lo hi sz : Nat) (v : Vec) (m : Mem) (r : Option (Vec × Mem)) : Prop :=
  ∃ v' m', r = some (v', m') ∧ Root w lo hi m' ∧ Only v.uninit.ptr.off (v.endOff sz) m m' ∧ VecOk w lo hi sz v' ∧ v'.uninit = v.uninit ∧ v'.from_ = v.from_ ∧
    (v'.alive = true → v.alive = true)

theorem mul_le {a b sz : Nat} (h : a ≤ b) : a * sz ≤ b * sz := Nat.mul_le_mul_right _ h
theorem succ_mul_le {a b sz : Nat} (h : a < b) : a * sz + sz ≤ b * sz := by
  have := mul_le (sz := sz) h
  rwa [Nat.succ_mul] at this

theorem push_ok {w lo hi sz : Nat} {v : Vec} {m : Mem} (h : Root w lo hi m) (hv : VecOk w lo hi sz v) (hd : v.drain = none) :
    OpOk w lo hi sz v m (push sz v m) := by
  unfold push headTailMut Buf.splitAt
  rw [if_pos hv.len]
  simp only [Buf.first]
  by_cases hc : v.uninit.cap - v.length = 0
  · rw [if_pos hc]
    exact ⟨v, m, rfl, h, Only.refl _ _ _, hv, rfl, rfl, id⟩
  · rw [if_neg hc]
    have hb := succ_mul_le (sz := sz) (show v.length < v.uninit.cap by have := hv.len; omega)
    have h1 := hv.lo
    have h2 := hv.hi
    obtain ⟨m1, e1, r1, u1⟩ := h.access (x := v.uninit.ptr.off + v.length * sz) (y := v.uninit.ptr.off + v.length * sz + sz) (by omega) (by omega) .write
    obtain ⟨m2, e2, r2, u2, _, _⟩ := r1.retag (x := v.uninit.ptr.off + v.length * sz) (y := v.uninit.ptr.off + v.length * sz + sz) (by omega) (by omega) true
    refine ⟨{ v with length := v.length + 1 }, m2, ?_, r2, ((upd_only u1).trans (upd_only u2)).mono (by omega) (by unfold Vec.endOff; omega), ?_, rfl, rfl, id⟩
    · simp only [writeElem, Ptr.add, hv.tag, e1, e2, Option.bind_eq_bind, Option.bind_some, Option.pure_def]
    · exact ⟨hv.tag, hv.lo, hv.hi, by simp only; omega, fun d h' => by rw [hd] at h'; cases h'⟩

theorem pop_ok {w lo hi sz : Nat} {v : Vec} {m : Mem} (h : Root w lo hi m) (hv : VecOk w lo hi sz v) (hd : v.drain = none) :
    OpOk w lo hi sz v m (pop sz v m) := by
  unfold pop
  by_cases h0 : v.length = 0
  · rw [if_pos h0]
    exact ⟨v, m, rfl, h, Only.refl _ _ _, hv, rfl, rfl, id⟩
  · rw [if_neg h0]
    unfold headTailMut Buf.splitAt
    rw [if_pos hv.len]
    simp only [Buf.last]
    rw [if_neg h0]
    have hb := succ_mul_le (sz := sz) (show v.length - 1 < v.uninit.cap by have := hv.len; omega)
    have h1 := hv.lo
    have h2 := hv.hi
    obtain ⟨m1, e1, r1, u1⟩ := h.access (x := v.uninit.ptr.off + (v.length - 1) * sz) (y := v.uninit.ptr.off + (v.length - 1) * sz + sz) (by omega) (by omega) .read
    refine ⟨{ v with length := v.length - 1 }, m1, ?_, r1, (upd_only u1).mono (by omega) (by unfold Vec.endOff; omega), ?_, rfl, rfl, id⟩
    · simp only [readElem, Ptr.add, hv.tag, e1, Option.bind_eq_bind, Option.bind_some, Option.pure_def]
    · exact ⟨hv.tag, hv.lo, hv.hi, by have := hv.len; simp only; omega, fun d h' => by rw [hd] at h'; cases h'⟩

theorem truncate_ok {w lo hi sz : Nat} {v : Vec} {m : Mem} (h : Root w lo hi m) (hv : VecOk w lo hi sz v) (hd : v.drain = none) (len ran : Nat) :
    OpOk w lo hi sz v m (truncate sz v len ran m) := by
  have hb := mul_le (sz := sz) hv.len
  have h1 := hv.lo
  have h2 := hv.hi
  have hn := mul_le (sz := sz) (show min (v.length - len) ran ≤ v.length by omega)
  obtain ⟨m1, e1, r1, o1⟩ := dropBack_spec (sz := sz) v.uninit.ptr.off hv.lo (min (v.length - len) ran) (endMutPtr sz v) m h hv.tag
    (by simp only [endMutPtr, asMutPtr, Ptr.add]; omega) (by simp only [endMutPtr, asMutPtr, Ptr.add]; omega)
  refine ⟨{ v with length := v.length - min (v.length - len) ran }, m1, ?_, r1, o1.mono (Nat.le_refl _) (by simp only [endMutPtr, asMutPtr, Ptr.add, Vec.endOff]; omega), ?_, rfl, rfl, id⟩
  · unfold truncate
    simp only [e1, Option.bind_eq_bind, Option.bind_some, Option.pure_def]
  · exact ⟨hv.tag, hv.lo, hv.hi, by have := hv.len; simp only; omega, fun d h' => by rw [hd] at h'; cases h'⟩

theorem fill_ok {w lo hi sz : Nat} : ∀ (n : Nat) (v : Vec) (m : Mem), Root w lo hi m → VecOk w lo hi sz v → v.drain = none →
    OpOk w lo hi sz v m (fill sz n v m)
  | 0, v, m, h, hv, _ => ⟨v, m, rfl, h, Only.refl _ _ _, hv, rfl, rfl, id⟩
  | n + 1, v, m, h, hv, hd => by
    unfold fill
    by_cases hc : v.length < v.uninit.cap
    · rw [if_pos hc]
      have hb := succ_mul_le (sz := sz) hc
      have h1 := hv.lo
      have h2 := hv.hi
      obtain ⟨m1, e1, r1, u1⟩ := h.access (x := v.uninit.ptr.off + v.length * sz) (y := v.uninit.ptr.off + v.length * sz + sz) (by omega) (by omega) .write
      obtain ⟨v2, m2, e2, r2, o2, k2, b2, f2, a2⟩ := fill_ok n { v with length := v.length + 1 } m1 r1
        ⟨hv.tag, hv.lo, hv.hi, by simp only; omega, fun d h' => by simp only [hd] at h'; cases h'⟩ hd
      refine ⟨v2, m2, ?_, r2, ((upd_only u1).mono (by omega) (by unfold Vec.endOff; omega)).trans o2, k2, b2, f2, a2⟩
      simp only [writeElem, endMutPtr, asMutPtr, Ptr.add, hv.tag, e1, Option.bind_eq_bind, Option.bind_some]
      exact e2
    · rw [if_neg hc]
      exact ⟨v, m, rfl, h, Only.refl _ _ _, hv, rfl, rfl, id⟩

theorem dropVec_ok {w lo hi sz : Nat} {v : Vec} {m : Mem} (h : Root w lo hi m) (hv : VecOk w lo hi sz v) :
    OpOk w lo hi sz v m (dropVec sz v m) := by
  have hb := mul_le (sz := sz) hv.len
  have h1 := hv.lo
  have h2 := hv.hi
  obtain ⟨m1, e1, r1, u1, n1, i1⟩ := h.retag (x := v.uninit.ptr.off) (y := v.uninit.ptr.off + v.length * sz) (by omega) (by omega) true
  obtain ⟨m2, e2, r2, o2⟩ := dropForward_spec (sz := sz) (Nat.le_of_lt h.next) v.length v.uninit.ptr.off m1 r1 (by omega) i1
  refine ⟨{ v with alive := false }, m2, ?_, r2, ((upd_only u1).trans o2).mono (Nat.le_refl _) (by unfold Vec.endOff; omega), ?_, rfl, rfl, fun h' => by cases h'⟩
  · unfold dropVec asMutSlice
    simp only [hv.tag, e1, e2, Option.bind_eq_bind, Option.bind_some, Option.pure_def]
  · exact ⟨hv.tag, hv.lo, hv.hi, hv.len, hv.drain⟩

/-- The drain of a vector in order. -/
structure DrainOk (w sz : Nat) (v : Vec) (d : Drain) : Prop where
  tag : d.elements.tag = w
  off : d.elements.off = v.uninit.ptr.off + v.length * sz
  start : d.start ≤ d.stop
  stop : d.stop ≤ d.tail
  cap : v.length + d.tail + d.tailLen ≤ v.uninit.cap

theorem drain_bound {v : Vec} {sz i : Nat} (h : v.length + i + 1 ≤ v.uninit.cap) : v.length * sz + i * sz + sz ≤ v.uninit.cap * sz := by
  have := mul_le (sz := sz) h
  rw [Nat.add_mul, Nat.add_mul, Nat.one_mul] at this
  exact this

theorem drainRead_ok {w lo hi sz : Nat} {v : Vec} {d : Drain} {m : Mem} (h : Root w lo hi m) (hv : VecOk w lo hi sz v) (hd : DrainOk w sz v d) {i : Nat} (hi' : i < d.tail) :
    ∃ m', readElem sz (d.elements.add sz i) m = some m' ∧ Root w lo hi m' ∧ Only v.uninit.ptr.off (v.endOff sz) m m' := by
  have hb := drain_bound (v := v) (sz := sz) (i := i) (by have := hd.cap; omega)
  have h1 := hv.lo
  have h2 := hv.hi
  have h3 := hd.off
  obtain ⟨m1, e1, r1, u1⟩ := h.access (x := d.elements.off + i * sz) (y := d.elements.off + i * sz + sz) (by omega) (by omega) .read
  refine ⟨m1, ?_, r1, (upd_only u1).mono (by omega) (by unfold Vec.endOff; omega)⟩
  simp only [readElem, Ptr.add, hd.tag]
  exact e1

theorem drainNext_ok {w lo hi sz : Nat} {v : Vec} {d : Drain} {m : Mem} (h : Root w lo hi m) (hv : VecOk w lo hi sz v) (hd : DrainOk w sz v d) :
    ∃ d' m', drainNext sz d m = some (d', m') ∧ Root w lo hi m' ∧ Only v.uninit.ptr.off (v.endOff sz) m m' ∧ DrainOk w sz v d' ∧
      (d.start < d.stop → d'.start = d.start + 1) ∧ d'.stop = d.stop := by
  unfold drainNext
  have h5 := hd.start
  have h6 := hd.stop
  by_cases hc : d.start = d.stop
  · rw [if_pos hc]
    exact ⟨d, m, rfl, h, Only.refl _ _ _, hd, fun h' => by omega, rfl⟩
  · rw [if_neg hc]
    obtain ⟨m1, e1, r1, o1⟩ := drainRead_ok h hv hd (i := d.start) (by omega)
    refine ⟨{ d with start := d.start + 1 }, m1, ?_, r1, o1, ⟨hd.tag, hd.off, by simp only; omega, hd.stop, hd.cap⟩, fun _ => rfl, rfl⟩
    simp only [e1, Option.bind_eq_bind, Option.bind_some, Option.pure_def]

theorem drainNextBack_ok {w lo hi sz : Nat} {v : Vec} {d : Drain} {m : Mem} (h : Root w lo hi m) (hv : VecOk w lo hi sz v) (hd : DrainOk w sz v d) :
    ∃ d' m', drainNextBack sz d m = some (d', m') ∧ Root w lo hi m' ∧ Only v.uninit.ptr.off (v.endOff sz) m m' ∧ DrainOk w sz v d' := by
  unfold drainNextBack
  have h5 := hd.start
  have h6 := hd.stop
  by_cases hc : d.start = d.stop
  · rw [if_pos hc]
    exact ⟨d, m, rfl, h, Only.refl _ _ _, hd⟩
  · rw [if_neg hc]
    obtain ⟨m1, e1, r1, o1⟩ := drainRead_ok h hv hd (i := d.stop - 1) (by omega)
    refine ⟨{ d with stop := d.stop - 1 }, m1, ?_, r1, o1, ⟨hd.tag, hd.off, by simp only; omega, by simp only; omega, hd.cap⟩⟩
    simp only [e1, Option.bind_eq_bind, Option.bind_some, Option.pure_def]

theorem drainSome_ok {w lo hi sz : Nat} {v : Vec} (hv : VecOk w lo hi sz v) : ∀ (n : Nat) (d : Drain) (m : Mem), Root w lo hi m → DrainOk w sz v d →
    ∃ d' m', drainSome sz n d m = some (d', m') ∧ Root w lo hi m' ∧ Only v.uninit.ptr.off (v.endOff sz) m m' ∧ DrainOk w sz v d'
  | 0, d, m, h, hd => ⟨d, m, rfl, h, Only.refl _ _ _, hd⟩
  | n + 1, d, m, h, hd => by
    obtain ⟨d1, m1, e1, r1, o1, k1, _⟩ := drainNext_ok h hv hd
    obtain ⟨d2, m2, e2, r2, o2, k2⟩ := drainSome_ok hv n d1 m1 r1 k1
    refine ⟨d2, m2, ?_, r2, o1.trans o2, k2⟩
    unfold drainSome
    simp only [e1, Option.bind_eq_bind, Option.bind_some]
    exact e2

theorem drainDrop_ok {w lo hi sz : Nat} {v : Vec} {d : Drain} {m : Mem} (h : Root w lo hi m) (hv : VecOk w lo hi sz v) (hd : DrainOk w sz v d) (ran : Nat) :
    OpOk w lo hi sz v m (drainDrop sz v d ran m) := by
  obtain ⟨d1, m1, e1, r1, o1, k1⟩ := drainSome_ok hv (min ran (d.stop - d.start)) d m h hd
  unfold drainDrop
  simp only [e1, Option.bind_eq_bind, Option.bind_some]
  by_cases hc : d1.start = d1.stop ∧ d1.tailLen ≠ 0
  · rw [if_pos hc]
    have hcap := k1.cap
    have hb := mul_le (sz := sz) hcap
    rw [Nat.add_mul, Nat.add_mul] at hb
    have h1 := hv.lo
    have h2 := hv.hi
    have h3 := k1.off
    obtain ⟨m2, e2, r2, u2⟩ := r1.access (x := d1.elements.off + d1.tail * sz) (y := d1.elements.off + d1.tail * sz + d1.tailLen * sz) (by omega) (by omega) .read
    obtain ⟨m3, e3, r3, u3⟩ := r2.access (x := d1.elements.off) (y := d1.elements.off + d1.tailLen * sz) (by omega) (by omega) .write
    refine ⟨{ v with length := v.length + d1.tailLen, drain := none }, m3, ?_, r3,
      (o1.trans ((upd_only u2).mono (by omega) (by unfold Vec.endOff; omega))).trans ((upd_only u3).mono (by omega) (by unfold Vec.endOff; omega)), ?_, rfl, rfl, id⟩
    · simp only [Ptr.add, k1.tag, e2, e3, Option.bind_some, Option.pure_def]
    · exact ⟨hv.tag, hv.lo, hv.hi, by simp only; omega, fun d h' => by cases h'⟩
  · rw [if_neg hc]
    exact ⟨{ v with drain := none }, m1, rfl, r1, o1, ⟨hv.tag, hv.lo, hv.hi, hv.len, fun d h' => by cases h'⟩, rfl, rfl, id⟩

end Verif.VecBorrows
