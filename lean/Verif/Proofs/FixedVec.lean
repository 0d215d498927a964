import Mathlib.Data.List.Basic
import Verif.Spec.FixedVec
import Verif.Proofs.Uninit
/-! # `FixedVec` refines lists -/
namespace Verif.FVec
open Verif Uninit

variable {V : Type}

/-- The elements lie in memory one after the other from `p` on. -/
def Holds (T : Layout) (m : Nat → Option V) (p : Nat) (xs : List V) : Prop := ∀ i v, xs[i]? = some v → m (p + i * T.size) = some v

/-- Values outside of `R` are kept. (Zero-sized values: all are kept.) -/
def Kept (T : Layout) (R : Region) (m m' : Nat → Option V) : Prop := ∀ x v, m x = some v → Region.Disjoint ⟨x, T.size⟩ R → m' x = some v

theorem Kept.refl {T : Layout} {R : Region} {m : Nat → Option V} : Kept T R m m := fun _ _ h _ => h
theorem Kept.trans {T : Layout} {R : Region} {m m' m'' : Nat → Option V} (h : Kept T R m m') (h' : Kept T R m' m'') : Kept T R m m'' :=
  fun x v hx hd => h' x v (h x v hx hd) hd

theorem holds_nil {T : Layout} {m : Nat → Option V} {p : Nat} : Holds T m p [] := by intro i v h; simp at h

theorem holds_cons {T : Layout} {m : Nat → Option V} {p : Nat} {x : V} {xs : List V} : Holds T m p (x :: xs) ↔ m p = some x ∧ Holds T m (p + T.size) xs := by
  constructor
  · intro h
    refine ⟨by simpa using h 0 x rfl, fun i v hi => ?_⟩
    have := h (i + 1) v (by simpa using hi)
    rwa [show p + T.size + i * T.size = p + (i + 1) * T.size by rw [Nat.add_mul]; omega]
  · rintro ⟨h1, h2⟩ i v hi
    cases i with
    | zero => simp at hi; subst hi; simpa using h1
    | succ i =>
      have := h2 i v (by simpa using hi)
      rwa [show p + T.size + i * T.size = p + (i + 1) * T.size by rw [Nat.add_mul]; omega] at this

theorem holds_append {T : Layout} {m : Nat → Option V} {p : Nat} {xs ys : List V} :
    Holds T m p (xs ++ ys) ↔ Holds T m p xs ∧ Holds T m (p + xs.length * T.size) ys := by
  induction xs generalizing p with
  | nil => simp [holds_nil]
  | cons x xs ih =>
    rw [List.cons_append, holds_cons, holds_cons, ih, and_assoc]
    simp only [List.length_cons]
    rw [show p + T.size + xs.length * T.size = p + (xs.length + 1) * T.size by rw [Nat.add_mul]; omega]

theorem holds_kept {T : Layout} {R : Region} {m m' : Nat → Option V} (hk : Kept T R m m') {p : Nat} {xs : List V} (h : Holds T m p xs)
    (hd : Region.Disjoint ⟨p, xs.length * T.size⟩ R) : Holds T m' p xs := by
  intro i v hi
  refine hk _ v (h i v hi) fun x hx => hd x ⟨?_, hx.2⟩
  have hlt : i < xs.length := by
    rw [List.getElem?_eq_some_iff] at hi; exact hi.1
  have : (i + 1) * T.size ≤ xs.length * T.size := Nat.mul_le_mul_right _ hlt
  rw [Nat.add_mul] at this
  have := hx.1
  simp only [Region.Has] at *
  omega

theorem writeBits_kept {T : Layout} {R : Region} {m : Nat → Option V} {p : Nat} {v : V} (hz : T.size = 0 → Subsingleton V)
    (hp : Region.Within ⟨p, T.size⟩ R) : Kept T R m (writeBits T m p (some v)) := by
  intro x u hx hd
  simp only [writeBits]
  by_cases h0 : T.size = 0
  · have := hz h0
    split
    · rw [Subsingleton.elim v u]
    · rw [if_neg (by omega)]; exact hx
  · simp only [Region.Within, Region.Disjoint, Region.Has] at hp hd
    have h1 := hd x
    have h2 := hd p
    rw [if_neg (by omega), if_neg (by omega)]
    exact hx

theorem writeBits_self {T : Layout} {m : Nat → Option V} {p : Nat} {b : Option V} : writeBits T m p b p = b := by simp [writeBits]

/-- Two slots of an array do not overlap, so writing one keeps the other. -/
theorem writeBits_slot {T : Layout} {m : Nat → Option V} {a i j : Nat} {v u : V} (hz : T.size = 0 → Subsingleton V) (hij : i ≠ j) (h : m (a + i * T.size) = some u) :
    writeBits T m (a + j * T.size) (some v) (a + i * T.size) = some u := by
  by_cases h0 : T.size = 0
  · have := hz h0
    simp only [writeBits]
    split
    · rw [Subsingleton.elim v u]
    · rw [if_neg (by omega)]; exact h
  · simp only [writeBits]
    rcases Nat.lt_or_gt_of_ne hij with hlt | hlt
    · have : (i + 1) * T.size ≤ j * T.size := Nat.mul_le_mul_right _ hlt
      rw [Nat.add_mul] at this
      rw [if_neg (by omega), if_neg (by omega)]; exact h
    · have : (j + 1) * T.size ≤ i * T.size := Nat.mul_le_mul_right _ hlt
      rw [Nat.add_mul] at this
      rw [if_neg (by omega), if_neg (by omega)]; exact h

/-- Appending by a write behind the end. -/
theorem holds_push {T : Layout} {m : Nat → Option V} {p : Nat} {xs : List V} {v : V} (hz : T.size = 0 → Subsingleton V) (h : Holds T m p xs) :
    Holds T (writeBits T m (p + xs.length * T.size) (some v)) p (xs ++ [v]) := by
  rw [holds_append]
  refine ⟨fun i u hi => writeBits_slot hz ?_ (h i u hi), ?_⟩
  · rw [List.getElem?_eq_some_iff] at hi
    have := hi.1
    omega
  · rw [holds_cons]
    exact ⟨writeBits_self, holds_nil⟩

theorem holds_set {T : Layout} {m : Nat → Option V} {p : Nat} {xs : List V} {v : V} (hz : T.size = 0 → Subsingleton V) (h : Holds T m p xs) (k : Nat) :
    Holds T (writeBits T m (p + k * T.size) (some v)) p (xs.set k v) := by
  intro i u hi
  by_cases hik : i = k
  · subst hik
    rw [List.getElem?_set] at hi
    simp only [if_true] at hi
    split at hi
    · cases hi; exact writeBits_self
    · cases hi
  · rw [List.getElem?_set_ne (Ne.symm hik)] at hi
    exact writeBits_slot hz hik (h i u hi)

theorem readSlice_eq {T : Layout} {h : Heap V} {p : Nat} {xs : List V} (hh : Holds T h.mem p xs) : readSlice T h p xs.length = .ret xs := by
  induction xs generalizing p with
  | nil => rfl
  | cons x xs ih =>
    rw [holds_cons] at hh
    simp only [List.length_cons, readSlice, read, hh.1, bind, Outcome.bind, ih hh.2]
    rfl

theorem dropSlice_eq {T : Layout} {panics : V → Bool} {h : Heap V} {p : Nat} {xs : List V} (hh : Holds T h.mem p xs) (u : Bool) :
    dropSlice T panics p u xs.length h = .ret ((dropAll panics u xs).2, { h with log := h.log ++ (dropAll panics u xs).1 }) := by
  induction xs generalizing p u h with
  | nil => cases u <;> simp [dropSlice, dropAll]
  | cons x xs ih =>
    rw [holds_cons] at hh
    simp only [List.length_cons, dropSlice, dropInPlace, hh.1, bind, Outcome.bind, dropAll]
    split
    · rfl
    · have hh2 : Holds T ({ h with log := h.log ++ [x] } : Heap V).mem (p + T.size) xs := hh.2
      rw [ih hh2]
      simp

theorem dropUntil_length_le (panics : V → Bool) (xs : List V) : (dropUntil panics xs).1.length ≤ xs.length := by
  induction xs with
  | nil => simp [dropUntil]
  | cons x xs ih => simp only [dropUntil]; split <;> simp [ih]

/-- What was dropped is a prefix. -/
theorem dropUntil_append (panics : V → Bool) (xs : List V) : (dropUntil panics xs).1 ++ xs.drop (dropUntil panics xs).1.length = xs := by
  induction xs with
  | nil => simp [dropUntil]
  | cons x xs ih => simp only [dropUntil]; split <;> simp [ih]

theorem dropUntil_not_panic (panics : V → Bool) (xs : List V) (h : (dropUntil panics xs).2 = false) : (dropUntil panics xs).1 = xs := by
  induction xs with
  | nil => simp [dropUntil]
  | cons x xs ih =>
    simp only [dropUntil] at h ⊢
    split
    · rename_i hp; simp [hp] at h
    · rename_i hp; simp [hp] at h; simp [ih h]

theorem dropAll_append (panics : V → Bool) (u : Bool) (xs : List V) : (dropAll panics u xs).1 ++ xs.drop (dropAll panics u xs).1.length = xs := by
  induction xs generalizing u with
  | nil => simp [dropAll]
  | cons x xs ih => simp only [dropAll]; split <;> simp [ih]

theorem truncateLoop_eq {T : Layout} {panics : V → Bool} {h : Heap V} {p : Nat} (xs ys : List V) (hh : Holds T h.mem p (xs ++ ys)) :
    FixedVec.truncateLoop T panics ys.length (p + (xs ++ ys).length * T.size) (xs ++ ys).length h =
      .ret ((dropUntil panics ys.reverse).2, (xs ++ ys).length - (dropUntil panics ys.reverse).1.length, { h with log := h.log ++ (dropUntil panics ys.reverse).1 }) := by
  induction hn : ys.length generalizing ys h with
  | zero =>
    have : ys = [] := List.eq_nil_of_length_eq_zero hn
    subst this
    simp [FixedVec.truncateLoop, dropUntil]
  | succ n ih =>
    obtain ⟨zs, y, rfl⟩ : ∃ zs y, ys = zs ++ [y] := by
      rcases List.eq_nil_or_concat ys with rfl | ⟨zs, y, rfl⟩
      · simp at hn
      · exact ⟨zs, y, by simp⟩
    simp only [List.length_append, List.length_cons, List.length_nil] at hn
    have hh' := hh
    rw [← List.append_assoc, holds_append, holds_cons] at hh'
    have hm : h.mem (p + (xs.length + zs.length) * T.size) = some y := by have := hh'.2.1; rwa [List.length_append] at this
    have hp : p + (xs.length + (zs.length + 1)) * T.size - T.size = p + (xs.length + zs.length) * T.size := by
      rw [show xs.length + (zs.length + 1) = (xs.length + zs.length) + 1 by omega, Nat.add_mul (xs.length + zs.length) 1]; omega
    simp only [FixedVec.truncateLoop, List.length_append, List.length_cons, List.length_nil, Nat.zero_add, hp, dropInPlace, hm, bind, Outcome.bind,
      List.reverse_append, List.reverse_cons, List.reverse_nil, List.nil_append, List.singleton_append, dropUntil]
    by_cases hy : panics y = true
    · simp [hy]; rfl
    · simp only [Bool.not_eq_true] at hy
      simp only [hy]
      have ihh : Holds T ({ h with log := h.log ++ [y] } : Heap V).mem p (xs ++ zs) := hh'.1
      have := ih zs ihh (by omega)
      simp only [List.length_append] at this
      rw [show xs.length + (zs.length + 1) - 1 = xs.length + zs.length by omega, this]
      have harith : ∀ k, xs.length + (zs.length + 1) - (k + 1) = xs.length + zs.length - k := by intro k; omega
      simp [harith]

/-- What is always true of a vector. -/
structure VecOk (t : Target) (T : Layout) (f : FixedVec) : Prop where
  elem : f.uninit.T = T
  aligned : T.align ∣ f.uninit.addr
  small : f.uninit.len ≤ t.isizeMax
  fits : f.length ≤ f.uninit.capacity t

theorem VecOk.bytes {t : Target} {T : Layout} {f : FixedVec} (h : VecOk t T f) : f.length * T.size ≤ f.uninit.len := by
  have h1 := h.fits
  have h2 : f.uninit.capacity t * f.uninit.T.size ≤ f.uninit.len := cap_mul_le
  rw [h.elem] at h2
  exact Nat.le_trans (Nat.mul_le_mul_right _ h1) h2

theorem cap_lt_iff {t : Target} {T : Layout} {f : FixedVec} (h : VecOk t T f) (h0 : T.size ≠ 0) : f.length < f.uninit.capacity t ↔ f.length * T.size + T.size ≤ f.uninit.len := by
  simp only [SliceView.capacity, h.elem, h0, if_false]
  rw [Nat.lt_iff_add_one_le, Nat.le_div_iff_mul_le (by omega), Nat.add_mul, Nat.one_mul]

theorem capacity_le_usizeMax {t : Target} {T : Layout} {f : FixedVec} (h : VecOk t T f) : f.uninit.capacity t ≤ t.usizeMax := by
  simp only [SliceView.capacity]
  split
  · exact Nat.le_refl _
  · have := Nat.div_le_self f.uninit.len f.uninit.T.size
    have := h.small
    have := isizeMax_lt_usizeMax t
    rw [usizeMax_eq]
    omega

theorem headTail_eq {t : Target} {T : Layout} (hT : T.ValidType t) {f : FixedVec} (h : VecOk t T f) :
    f.headTailMut t = .ret ({ f.uninit with len := f.length * T.size },
      ⟨f.uninit.addr + f.length * T.size, f.uninit.len - f.length * T.size, T, sliceCap t (f.uninit.len - f.length * T.size) T⟩) := by
  have hT' : f.uninit.T.ValidType t := by rw [h.elem]; exact hT
  have := splitAt_eq hT' (by rw [h.elem]; exact h.aligned) h.small (n := f.length)
  simp only [FixedVec.headTailMut, this]
  rw [h.elem, if_pos h.bytes]
  simp [bind, Outcome.bind, pure]

theorem push_eq {t : Target} {T : Layout} (hT : T.ValidType t) {f : FixedVec} (hf : VecOk t T f) (h : Heap V) (v : V) :
    f.push t h v = if f.length < f.uninit.capacity t then .ret (.ok (), { f with length := f.length + 1 }, write T h (f.uninit.addr + f.length * T.size) v)
      else .ret (.error v, f, h) := by
  have hle := capacity_le_usizeMax hf
  have hb := hf.bytes
  have hfit := hf.fits
  simp only [FixedVec.push]
  by_cases hmax : f.length = t.usizeMax
  · rw [if_pos hmax, if_neg (by omega)]
  · rw [if_neg hmax, headTail_eq hT hf]
    have hs := splitFirst_eq (t := t) (v := ⟨f.uninit.addr + f.length * T.size, f.uninit.len - f.length * T.size, T, sliceCap t (f.uninit.len - f.length * T.size) T⟩)
      hT (Nat.dvd_add hf.aligned (Nat.dvd_trans hT.2 (Nat.dvd_mul_left _ _))) (by have := hf.small; simp only; omega)
    simp only at hs
    simp only [bind, Outcome.bind, hs]
    by_cases h0 : T.size = 0
    · have : f.length < f.uninit.capacity t := by
        simp only [SliceView.capacity, hf.elem, h0, if_true] at hfit ⊢
        omega
      rw [if_pos (by omega), if_pos this]
      simp [pure, hf.elem]
    · have hc := cap_lt_iff hf h0
      by_cases hlt : f.length < f.uninit.capacity t
      · rw [if_pos (by omega), if_pos hlt]
        simp [pure, hf.elem]
      · rw [if_neg (by omega), if_neg hlt]
        rfl

theorem pop_eq {t : Target} {T : Layout} (hT : T.ValidType t) {f : FixedVec} (hf : VecOk t T f) {h : Heap V} {xs : List V} (hl : f.length = xs.length) (hh : Holds T h.mem f.uninit.addr xs) :
    f.pop t h = .ret (xs.getLast?, { f with length := xs.dropLast.length }) := by
  rcases List.eq_nil_or_concat xs with rfl | ⟨ys, y, rfl⟩
  · have : f.length = 0 := hl
    simp [FixedVec.pop, this]
    cases f
    simp_all
  · simp only [List.concat_eq_append, List.length_append, List.length_cons, List.length_nil] at hl hh
    rw [holds_append, holds_cons] at hh
    have hne : f.length ≠ 0 := by omega
    simp only [FixedVec.pop, hne, if_false, headTail_eq hT hf, bind, Outcome.bind]
    have hb := hf.bytes
    have hs := splitLast_eq (t := t) (v := { f.uninit with len := f.length * T.size }) (by simp only; rw [hf.elem]; exact hT) (by simp only [hf.elem]; exact hf.aligned)
      (by have := hf.small; simp only; omega)
    simp only [hf.elem] at hs
    have hle : T.size ≤ f.length * T.size := by
      have : 1 * T.size ≤ f.length * T.size := Nat.mul_le_mul_right _ (by omega)
      omega
    simp only [hf.elem, hs, hle, if_true]
    have haddr : f.uninit.addr + (({ addr := f.uninit.addr, len := f.length * T.size, T := T, count := f.uninit.count } : SliceView).capacity t - 1) * T.size = f.uninit.addr + ys.length * T.size := by
      simp only [SliceView.capacity]
      by_cases h0 : T.size = 0
      · simp [h0]
      · rw [if_neg h0, Nat.mul_div_cancel _ (by omega)]
        rw [hl]
        simp
    rw [haddr]
    simp only [read, hh.2.1]
    simp [pure, hl]

/-- The vector grows by the items, in the memory behind the elements. -/
theorem fillLoop_eq {t : Target} {T : Layout} (hz : T.size = 0 → Subsingleton V) (n : Nat) {f : FixedVec} (hf : VecOk t T f) (hn : f.length + n ≤ f.uninit.capacity t) {h : Heap V} {xs : List V}
    (hl : f.length = xs.length) (hh : Holds T h.mem f.uninit.addr xs) (it : Iter V) :
    ∃ h', f.fillLoop h it n = ((takeItems it.poll it.pos n).2.2, { f with length := f.length + (takeItems it.poll it.pos n).1.length }, h',
        { it with pos := it.pos + (takeItems it.poll it.pos n).2.1 }) ∧ (takeItems it.poll it.pos n).1.length ≤ n ∧
      h'.log = h.log ∧ Kept T ⟨f.uninit.addr, f.uninit.len⟩ h.mem h'.mem ∧ Holds T h'.mem f.uninit.addr (xs ++ (takeItems it.poll it.pos n).1) := by
  induction n generalizing f h xs it with
  | zero => exact ⟨h, by simp [FixedVec.fillLoop, takeItems], Nat.le_refl _, rfl, .refl, by simpa [takeItems] using hh⟩
  | succ n ih =>
    simp only [FixedVec.fillLoop, takeItems]
    cases hp : it.poll it.pos with
    | done => exact ⟨h, by simp, by simp, rfl, .refl, by simpa using hh⟩
    | panic => exact ⟨h, by simp, by simp, rfl, .refl, by simpa using hh⟩
    | item v =>
      have hf' : VecOk t T { f with length := f.length + 1 } := ⟨hf.elem, hf.aligned, hf.small, by simp only; omega⟩
      have haddr : f.endMutPtr = f.uninit.addr + xs.length * T.size := by simp [FixedVec.endMutPtr, FixedVec.asMutPtr, hf.elem, hl]
      have hh' : Holds T (write T h f.endMutPtr v).mem f.uninit.addr (xs ++ [v]) := by
        rw [haddr]; exact holds_push hz hh
      obtain ⟨h', e, h1, h2, h3, h4⟩ := ih (f := { f with length := f.length + 1 }) hf' (by simp only; omega) (h := write T h f.endMutPtr v) (xs := xs ++ [v])
        (by simp [hl]) hh' { it with pos := it.pos + 1 }
      refine ⟨h', ?_, by simp only [List.length_cons]; exact Nat.succ_le_succ h1, h2, Kept.trans ?_ h3, by simpa using h4⟩
      · simp only [hf.elem, e, List.length_cons]
        simp only [Prod.mk.injEq, FixedVec.mk.injEq, Iter.mk.injEq, true_and]
        omega
      · rw [haddr]
        refine writeBits_kept hz ?_
        have := hf'.bytes
        simp only [Nat.add_mul, Nat.one_mul, hl] at this
        simp only [Region.Within]
        omega

/-- Values written one after the other behind `xs`. -/
theorem writeAll_eq {T : Layout} (hz : T.size = 0 → Subsingleton V) {R : Region} {addr : Nat} (vs : List V) {h : Heap V} {xs : List V} (hx : Holds T h.mem addr xs)
    (hR : ∀ i, i < vs.length → Region.Within ⟨addr + xs.length * T.size + i * T.size, T.size⟩ R) :
    (writeAll T h (addr + xs.length * T.size) vs).log = h.log ∧ Kept T R h.mem (writeAll T h (addr + xs.length * T.size) vs).mem ∧
      Holds T (writeAll T h (addr + xs.length * T.size) vs).mem addr (xs ++ vs) := by
  induction vs generalizing h xs with
  | nil => exact ⟨rfl, .refl, by simpa [writeAll] using hx⟩
  | cons v vs ih =>
    have e : addr + xs.length * T.size + T.size = addr + (xs ++ [v]).length * T.size := by
      rw [List.length_append, List.length_singleton, Nat.add_mul, Nat.one_mul, Nat.add_assoc]
    simp only [writeAll, e]
    obtain ⟨h1, h2, h3⟩ := ih (h := write T h (addr + xs.length * T.size) v) (xs := xs ++ [v]) (holds_push hz hx) (fun i hi => by
      have := hR (i + 1) (by simpa using hi)
      rw [← e, Nat.add_assoc _ T.size, Nat.add_comm T.size, ← Nat.succ_mul]
      exact this)
    refine ⟨h1, Kept.trans (writeBits_kept hz ?_) h2, by simpa using h3⟩
    have := hR 0 (by simp)
    simpa using this

theorem takeItems_le (poll : Nat → Poll V) (pos n : Nat) : (takeItems poll pos n).1.length ≤ n := by
  induction n generalizing pos with
  | zero => simp [takeItems]
  | succ n ih =>
    simp only [takeItems]
    cases poll pos <;> simp [ih]

/-- Moving elements to the place behind `xs`. -/
theorem copy_eq {T : Layout} (hz : T.size = 0 → Subsingleton V) {h : Heap V} {R : Region} {addr src : Nat} {xs ys : List V} (hx : Holds T h.mem addr xs) (hy : Holds T h.mem src ys)
    (hR : ∀ i, i < ys.length → Region.Within ⟨addr + xs.length * T.size + i * T.size, T.size⟩ R) :
    (copy T h src (addr + xs.length * T.size) ys.length).log = h.log ∧ Kept T R h.mem (copy T h src (addr + xs.length * T.size) ys.length).mem ∧
      Holds T (copy T h src (addr + xs.length * T.size) ys.length).mem addr (xs ++ ys) := by
  refine ⟨rfl, ?_⟩
  have key : ∀ n, n ≤ ys.length →
      Kept T R h.mem ((List.range n).foldl (fun m i => writeBits T m (addr + xs.length * T.size + i * T.size) (h.mem (src + i * T.size))) h.mem) ∧
      Holds T ((List.range n).foldl (fun m i => writeBits T m (addr + xs.length * T.size + i * T.size) (h.mem (src + i * T.size))) h.mem) addr (xs ++ ys.take n) := by
    intro n hn
    induction n with
    | zero => exact ⟨.refl, by simpa using hx⟩
    | succ n ih =>
      obtain ⟨h1, h2⟩ := ih (by omega)
      have hv : ys[n]? = some ys[n] := List.getElem?_eq_getElem (by omega)
      have hs := hy n _ hv
      simp only [List.range_succ, List.foldl_append, List.foldl_cons, List.foldl_nil, hs]
      refine ⟨h1.trans (writeBits_kept hz (hR n (by omega))), ?_⟩
      have := holds_push (v := ys[n]) hz h2
      rw [List.take_succ, hv, Option.toList_some, ← List.append_assoc]
      rw [List.length_append, List.length_take, Nat.min_eq_left (by omega), Nat.add_mul, ← Nat.add_assoc] at this
      exact this
  have := key ys.length (Nat.le_refl _)
  rw [List.take_length] at this
  exact this

/-- A drain and what is to come from it; the vector at `addr` has `n` elements left. -/
structure DrainRel (T : Layout) (m : Nat → Option V) (addr n : Nat) (d : Drain) (sd : SDrain V) : Prop where
  elements : d.elements = addr + n * T.size
  rest_len : d.end_ = d.start + sd.rest.length
  le : d.end_ ≤ d.tail
  tail_len : d.tailLen = sd.tail.length
  rest : Holds T m (d.elements + d.start * T.size) sd.rest
  tail : Holds T m (d.elements + d.tail * T.size) sd.tail

theorem next_eq {T : Layout} {h : Heap V} {addr n : Nat} {d : Drain} {sd : SDrain V} (r : DrainRel T h.mem addr n d sd) :
    ∃ d', d.next T h = .ret (sd.rest.head?, d') ∧ DrainRel T h.mem addr n d' { sd with rest := sd.rest.tail } ∧ d'.tail = d.tail ∧ d'.tailLen = d.tailLen ∧
      d'.start = d.start + min 1 sd.rest.length ∧ d'.end_ = d.end_ ∧ d'.elements = d.elements := by
  obtain ⟨r1, r2, r3, r4, r5, r6⟩ := r
  cases hr : sd.rest with
  | nil =>
    rw [hr] at r2 r5
    have he : d.isEmpty = true := by simp [Drain.isEmpty, r2]
    refine ⟨d, by simp [Drain.next, he], ⟨r1, by simp [r2], r3, r4, by simpa using r5, r6⟩, rfl, rfl, by simp, rfl, rfl⟩
  | cons x xs =>
    rw [hr] at r2 r5
    have he : d.isEmpty = false := by simp [Drain.isEmpty, r2]
    rw [holds_cons] at r5
    refine ⟨{ d with start := d.start + 1 }, ?_, ⟨r1, ?_, r3, r4, ?_, r6⟩, rfl, rfl, ?_, rfl, rfl⟩
    · simp only [Drain.next, he, read, r5.1, bind, Outcome.bind]
      rfl
    · simp only [List.length_cons] at r2
      simp only [List.tail_cons]
      omega
    · simp only [List.tail_cons]
      rw [Nat.add_mul, Nat.one_mul, ← Nat.add_assoc]
      exact r5.2
    · simp [List.length_cons]

theorem nextBack_eq {T : Layout} {h : Heap V} {addr n : Nat} {d : Drain} {sd : SDrain V} (r : DrainRel T h.mem addr n d sd) :
    ∃ d', d.nextBack T h = .ret (sd.rest.getLast?, d') ∧ DrainRel T h.mem addr n d' { sd with rest := sd.rest.dropLast } ∧ d'.tail = d.tail ∧ d'.tailLen = d.tailLen := by
  obtain ⟨r1, r2, r3, r4, r5, r6⟩ := r
  rcases List.eq_nil_or_concat sd.rest with hr | ⟨ys, y, hr⟩
  · rw [hr] at r2 r5
    have he : d.isEmpty = true := by simp [Drain.isEmpty, r2]
    refine ⟨d, by simp [Drain.nextBack, he, hr], ⟨r1, by simp [r2, hr], r3, r4, by simpa [hr] using r5, r6⟩, rfl, rfl⟩
  · rw [List.concat_eq_append] at hr
    rw [hr] at r2 r5
    simp only [List.length_append, List.length_cons, List.length_nil] at r2
    have he : d.isEmpty = false := by simp [Drain.isEmpty, r2]
    rw [holds_append, holds_cons] at r5
    have ha : d.elements + (d.end_ - 1) * T.size = d.elements + d.start * T.size + ys.length * T.size := by
      rw [show d.end_ - 1 = d.start + ys.length by omega, Nat.add_mul]; omega
    refine ⟨{ d with end_ := d.end_ - 1 }, ?_, ⟨r1, ?_, ?_, r4, ?_, r6⟩, rfl, rfl⟩
    · simp only [Drain.nextBack, he, read, ha, r5.2.1, bind, Outcome.bind, hr]
      simp [pure]
    · simp only [hr, List.dropLast_concat]
      omega
    · simp only; omega
    · simp only [hr, List.dropLast_concat]
      exact r5.1

theorem dropItems_eq {T : Layout} {panics : V → Bool} {addr n : Nat} (k : Nat) {h : Heap V} {d : Drain} {sd : SDrain V} (r : DrainRel T h.mem addr n d sd) (hk : sd.rest.length = k) :
    ∃ d', d.dropItems T panics k h = .ret ((dropUntil panics sd.rest).2, d', { h with log := h.log ++ (dropUntil panics sd.rest).1 }) ∧
      DrainRel T h.mem addr n d' { sd with rest := sd.rest.drop (dropUntil panics sd.rest).1.length } ∧ d'.tail = d.tail ∧ d'.tailLen = d.tailLen ∧ d'.elements = d.elements := by
  induction k generalizing h d sd with
  | zero =>
    have : sd.rest = [] := List.eq_nil_of_length_eq_zero hk
    refine ⟨d, by simp [Drain.dropItems, this, dropUntil], ?_, rfl, rfl, rfl⟩
    simp only [this, dropUntil, List.length_nil, List.drop_zero]
    rw [show (⟨[], sd.tail⟩ : SDrain V) = sd by cases sd; simp_all]
    exact r
  | succ k ih =>
    obtain ⟨d1, e, r1, h2, h3, h4, h5, h6⟩ := next_eq r
    cases hr : sd.rest with
    | nil => rw [hr] at hk; simp at hk
    | cons x xs =>
      rw [hr] at e r1 hk
      simp only [List.head?_cons, List.tail_cons] at e r1
      simp only [Drain.dropItems, e, bind, Outcome.bind, dropValue, dropUntil]
      by_cases hp : panics x = true
      · simp only [hp, if_true]
        exact ⟨d1, rfl, by simpa using r1, h2, h3, h6⟩
      · simp only [Bool.not_eq_true] at hp
        simp only [hp]
        have r1' : DrainRel T ({ h with log := h.log ++ [x] } : Heap V).mem addr n d1 { sd with rest := xs } := r1
        obtain ⟨d2, e2, r2, g1, g2, g3⟩ := ih r1' (by simpa using hk)
        exact ⟨d2, by simp [e2], by simpa using r2, by rw [g1, h2], by rw [g2, h3], by rw [g3, h6]⟩

end Verif.FVec
