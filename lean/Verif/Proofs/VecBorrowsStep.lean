import Verif.Proofs.VecBorrows
/-! # Every action of a permitted program is defined -/
set_option autoImplicit false
namespace Verif.VecBorrows
open Verif.Borrows

/-- The item of a reference is in the stacks of all its bytes. -/
def Ref.Backed (m : Mem) (r : Ref) : Prop := ∀ b, r.lo ≤ b → b < r.hi → (⟨r.tag, permOf r.mutable⟩ : Item) ∈ m.stack b

structure Inv (w lo hi sz : Nat) (s : St) : Prop where
  root : Root w lo hi s.mem
  vecs : ∀ v ∈ s.vecs, VecOk w lo hi sz v
  apart : ∀ (j k : Nat) (u v : Vec), s.vecs[j]? = some u → s.vecs[k]? = some v → u.alive = true → v.alive = true → j ≠ k → j ∉ v.from_ → k ∉ u.from_ →
    u.endOff sz ≤ v.uninit.ptr.off ∨ v.endOff sz ≤ u.uninit.ptr.off
  fromLt : ∀ (k : Nat) (v : Vec), s.vecs[k]? = some v → ∀ a ∈ v.from_, a < k
  backed : ∀ r ∈ s.refs, r.Backed s.mem
  tags : ∀ r ∈ s.refs, w < r.tag ∧ r.tag < s.mem.next ∧ ∀ a ∈ r.from_, a < r.tag
  owner : ∀ r ∈ s.refs, ∃ v, s.vecs[r.owner]? = some v ∧ v.alive = true ∧ (∀ u ∈ s.vecs, u.alive = true → r.owner ∉ u.from_) ∧
    v.uninit.ptr.off ≤ r.lo ∧ r.hi ≤ v.endOff sz
  raws : ∀ p ∈ s.raws, p.ptr.tag = w ∧ lo ≤ p.ptr.off ∧ p.ptr.off + p.size ≤ hi

theorem Ref.Backed.has {m : Mem} {r : Ref} (h : r.Backed m) {a : Access} (ha : a = .write → r.mutable = true) {lo hi : Nat} (h1 : r.lo ≤ lo) (h2 : hi ≤ r.hi) :
    m.Has a r.tag lo hi := by
  intro b hb1 hb2
  refine ⟨_, h b (by omega) (by omega), ?_⟩
  unfold Item.is permOf
  cases hm : r.mutable with
  | true => simp [Perm.grants]
  | false =>
    cases a with
    | read => simp [Perm.grants]
    | write => rw [ha rfl] at hm; cases hm

/-- The references of other vectors are outside of the capacity. -/
theorem Inv.foreign {w lo hi sz : Nat} {s : St} (h : Inv w lo hi sz s) {k : Nat} (hu : s.Usable k) {v : Vec} (hv : s.vecs[k]? = some v) {r : Ref} (hr : r ∈ s.refs) (ho : r.owner ≠ k)
    {b : Nat} (h1 : r.lo ≤ b) (h2 : b < r.hi) : b < v.uninit.ptr.off ∨ v.endOff sz ≤ b := by
  obtain ⟨u, hu1, hu2, hu3, hu4, hu5⟩ := h.owner r hr
  obtain ⟨v', hv1, hv2, hv3⟩ := hu
  rw [hv] at hv1
  cases hv1
  have := h.apart r.owner k u v hu1 hv hu2 hv2 ho (hu3 v (List.mem_of_getElem? hv) hv2) (hv3 u (List.mem_of_getElem? hu1) hu2)
  omega

/-- References of other vectors stay backed when only bytes of this one change. -/
theorem Inv.foreign_backed {w lo hi sz : Nat} {s : St} (h : Inv w lo hi sz s) {k : Nat} (hu : s.Usable k) {v : Vec} (hv : s.vecs[k]? = some v) {m : Mem}
    (ho : Only v.uninit.ptr.off (v.endOff sz) s.mem m) {r : Ref} (hr : r ∈ s.refs) (hk : r.owner ≠ k) : r.Backed m := by
  intro b h1 h2
  rw [ho.out b (h.foreign hu hv hr hk h1 h2)]
  exact h.backed r hr b h1 h2

theorem mem_endRefs {k : Nat} {refs : List Ref} {r : Ref} : r ∈ endRefs k refs ↔ r ∈ refs ∧ r.owner ≠ k := by
  unfold endRefs; rw [List.mem_filter]; simp
theorem mem_endMutRefs {k : Nat} {refs : List Ref} {r : Ref} : r ∈ endMutRefs k refs ↔ r ∈ refs ∧ (r.owner ≠ k ∨ r.mutable = false) := by
  unfold endMutRefs; rw [List.mem_filter]; simp

theorem get_set {vs : List Vec} {k j : Nat} {v v' x : Vec} (hk : vs[k]? = some v) (h : (vs.set k v')[j]? = some x) :
    (j = k ∧ x = v') ∨ (j ≠ k ∧ vs[j]? = some x) := by
  rw [List.getElem?_set] at h
  by_cases e : k = j
  · subst e
    rw [if_pos rfl] at h
    have : k < vs.length := (List.getElem?_eq_some_iff.1 hk).1
    rw [if_pos this] at h
    cases h
    exact Or.inl ⟨rfl, rfl⟩
  · rw [if_neg e] at h
    exact Or.inr ⟨fun e' => e e'.symm, h⟩

theorem get_set_self {vs : List Vec} {k : Nat} {v v' : Vec} (hk : vs[k]? = some v) : (vs.set k v')[k]? = some v' := by
  rw [List.getElem?_set, if_pos rfl, if_pos (List.getElem?_eq_some_iff.1 hk).1]
theorem get_set_ne {vs : List Vec} {k j : Nat} {v' : Vec} (h : j ≠ k) : (vs.set k v')[j]? = vs[j]? := by
  rw [List.getElem?_set, if_neg (fun e => h e.symm)]

/-- After a method call with `&mut self`. -/
theorem Inv.setVec {w lo hi sz : Nat} {s : St} (h : Inv w lo hi sz s) {k : Nat} (hu : s.Usable k) {v v' : Vec} (hv : s.vecs[k]? = some v) {m : Mem}
    (hm : Root w lo hi m) (ho : Only v.uninit.ptr.off (v.endOff sz) s.mem m) (hk : VecOk w lo hi sz v') (hb : v'.uninit = v.uninit) (hf : v'.from_ = v.from_)
    (ha : v'.alive = true → v.alive = true) : Inv w lo hi sz (s.setVec k v' m) := by
  have hmem : ∀ x ∈ s.vecs.set k v', x = v' ∨ x ∈ s.vecs := fun x hx => (List.mem_or_eq_of_mem_set hx).symm
  have hend : v'.endOff sz = v.endOff sz := by unfold Vec.endOff; rw [hb]
  have hvm := List.mem_of_getElem? hv
  refine ⟨hm, ?_, ?_, ?_, ?_, ?_, ?_, h.raws⟩
  · intro x hx
    rcases hmem x hx with rfl | hx
    · exact hk
    · exact h.vecs x hx
  · intro i j x y hx hy hxa hya hne hn1 hn2
    rcases get_set hv hx with ⟨rfl, rfl⟩ | ⟨e1, hx'⟩ <;> rcases get_set hv hy with ⟨rfl, rfl⟩ | ⟨e2, hy'⟩
    · exact absurd rfl hne
    · have := h.apart i j v y hv hy' (ha hxa) hya hne hn1 (hf ▸ hn2)
      rw [hend, hb]; exact this
    · have := h.apart i j x v hx' hv hxa (ha hya) hne (hf ▸ hn1) hn2
      rw [hend, hb]; exact this
    · exact h.apart i j x y hx' hy' hxa hya hne hn1 hn2
  · intro j x hx
    rcases get_set hv hx with ⟨rfl, rfl⟩ | ⟨e1, hx⟩
    · rw [hf]; exact h.fromLt j v hv
    · exact h.fromLt j x hx
  · intro r hr
    obtain ⟨hr1, hr2⟩ := mem_endRefs.1 hr
    exact h.foreign_backed hu hv ho hr1 hr2
  · intro r hr
    obtain ⟨hr1, hr2⟩ := mem_endRefs.1 hr
    obtain ⟨t1, t2, t3⟩ := h.tags r hr1
    exact ⟨t1, Nat.lt_of_lt_of_le t2 ho.next, t3⟩
  · intro r hr
    obtain ⟨hr1, hr2⟩ := mem_endRefs.1 hr
    obtain ⟨u, u1, u2, u3, u4, u5⟩ := h.owner r hr1
    refine ⟨u, ?_, u2, ?_, u4, u5⟩
    · change (s.vecs.set k v')[r.owner]? = _
      rw [get_set_ne hr2]; exact u1
    · intro x hx hxa
      rcases hmem x hx with rfl | hx
      · rw [hf]; exact u3 v hvm (ha hxa)
      · exact u3 x hx hxa

theorem Inv.op {w lo hi sz : Nat} {s : St} (h : Inv w lo hi sz s) {k : Nat} (hu : s.Usable k) {v : Vec} (hv : s.vecs[k]? = some v)
    {r : Option (Vec × Mem)} (hr : OpOk w lo hi sz v s.mem r) :
    ∃ s', (do let (v, m) ← r; pure (s.setVec k v m)) = some s' ∧ Inv w lo hi sz s' := by
  obtain ⟨v', m', e, r1, o1, k1, b1, f1, a1⟩ := hr
  subst e
  exact ⟨_, rfl, h.setVec hu hv r1 o1 k1 b1 f1 a1⟩

theorem permOf_false : permOf false ≠ .unique := by decide

/-- A reference to bytes of the vector is made. -/
theorem Inv.newRef {w lo hi sz : Nat} {s : St} (h : Inv w lo hi sz s) {k : Nat} (hu : s.Usable k) {v : Vec} (hv : s.vecs[k]? = some v) (mu : Bool) {x y : Nat}
    (hx : v.uninit.ptr.off ≤ x) (hy : y ≤ v.endOff sz) :
    ∃ m', s.mem.retag mu w x y = some (s.mem.next, m') ∧
      Inv w lo hi sz { s with mem := m', refs := ⟨s.mem.next, mu, x, y, k, []⟩ :: (if mu then endRefs k s.refs else endMutRefs k s.refs) } := by
  have hvm := List.mem_of_getElem? hv
  have hvo := h.vecs v hvm
  have h1 := hvo.lo
  have h2 := hvo.hi
  have hend : v.endOff sz ≤ hi := h2
  obtain ⟨m', e, r1, u1, n1, i1⟩ := h.root.retag (x := x) (y := y) (by omega) (by omega) mu
  refine ⟨m', e, ⟨r1, h.vecs, h.apart, h.fromLt, ?_, ?_, ?_, h.raws⟩⟩
  · intro r hr
    rcases List.mem_cons.1 hr with rfl | hr
    · exact i1
    · by_cases ho : r.owner = k
      · cases mu with
        | true => exact absurd ho (mem_endRefs.1 hr).2
        | false =>
          obtain ⟨hr1, hr2⟩ := mem_endMutRefs.1 hr
          have hm : r.mutable = false := hr2.resolve_left (fun n => n ho)
          intro b hb1 hb2
          exact u1.keep b _ (h.backed r hr1 b hb1 hb2) (Or.inr ⟨rfl, by simp only [hm]; exact permOf_false⟩)
      · have hr1 : r ∈ s.refs := by
          cases mu with
          | true => exact (mem_endRefs.1 hr).1
          | false => exact (mem_endMutRefs.1 hr).1
        exact h.foreign_backed hu hv ((upd_only u1).mono hx hy) hr1 ho
  · intro r hr
    rcases List.mem_cons.1 hr with rfl | hr
    · refine ⟨h.root.next, ?_, fun a ha => absurd ha (by simp)⟩
      change s.mem.next < m'.next; omega
    · have hr1 : r ∈ s.refs := by
        cases mu with
        | true => exact (mem_endRefs.1 hr).1
        | false => exact (mem_endMutRefs.1 hr).1
      obtain ⟨t1, t2, t3⟩ := h.tags r hr1
      refine ⟨t1, ?_, t3⟩
      change r.tag < m'.next; omega
  · intro r hr
    rcases List.mem_cons.1 hr with rfl | hr
    · obtain ⟨v', hv1, hv2, hv3⟩ := hu
      rw [hv] at hv1
      cases hv1
      exact ⟨v, hv, hv2, hv3, hx, hy⟩
    · have hr1 : r ∈ s.refs := by
        cases mu with
        | true => exact (mem_endRefs.1 hr).1
        | false => exact (mem_endMutRefs.1 hr).1
      exact h.owner r hr1

theorem mem_keepRefs {a : Access} {t : Nat} {fr : List Nat} {lo hi : Nat} {refs : List Ref} {q : Ref} :
    q ∈ keepRefs a t fr lo hi refs ↔ q ∈ refs ∧ (q.tag = t ∨ q.tag ∈ fr ∨ (q.hi ≤ lo ∨ hi ≤ q.lo ∨ hi ≤ lo) ∨ (a = .read ∧ q.mutable = false)) := by
  unfold keepRefs
  rw [List.mem_filter]
  simp [or_assoc]

/-- References that are not ended by an access stay backed. -/
theorem keep_backed {w lo hi sz : Nat} {s : St} (h : Inv w lo hi sz s) {a : Access} {t x y : Nat} {fr : List Nat} {m : Mem} (hu : Mem.Upd a t x y s.mem m)
    (hf : ∀ i ∈ fr, i < t) {q : Ref} (hq : q ∈ keepRefs a t fr x y s.refs) : q.Backed m := by
  obtain ⟨hq1, hq2⟩ := mem_keepRefs.1 hq
  intro b h1 h2
  have hb := h.backed q hq1 b h1 h2
  rcases hq2 with e | e | e | ⟨e1, e2⟩
  · exact hu.keep b _ hb (Or.inl (by simp only; omega))
  · exact hu.keep b _ hb (Or.inl (by have := hf _ e; simp only; omega))
  · rw [hu.out b (by omega)]; exact hb
  · exact hu.keep b _ hb (Or.inr ⟨e1, by simp only [e2]; exact permOf_false⟩)

/-- Access through a reference or a raw pointer. -/
theorem Inv.use {w lo hi sz : Nat} {s : St} (h : Inv w lo hi sz s) {a : Access} {t x y : Nat} {fr : List Nat} (hh : s.mem.Has a t x y) (hw : w ≤ t) (hf : ∀ i ∈ fr, i < t) :
    ∃ m', s.mem.access a t x y = some m' ∧ Inv w lo hi sz { s with mem := m', refs := keepRefs a t fr x y s.refs } := by
  obtain ⟨m', e, g, u, n⟩ := Mem.access_spec h.root.good hh
  refine ⟨m', e, ⟨h.root.upd g u hw, h.vecs, h.apart, h.fromLt, fun r hr => keep_backed h u hf hr, ?_, ?_, h.raws⟩⟩
  · intro r hr
    obtain ⟨t1, t2, t3⟩ := h.tags r (mem_keepRefs.1 hr).1
    refine ⟨t1, ?_, t3⟩
    change r.tag < m'.next; omega
  · intro r hr
    exact h.owner r (mem_keepRefs.1 hr).1

theorem Inv.reborrow {w lo hi sz : Nat} {s : St} (h : Inv w lo hi sz s) {r : Ref} (hr : r ∈ s.refs) {mu : Bool} (hm : mu = true → r.mutable = true) {x y : Nat}
    (hx : r.lo ≤ x) (hy : y ≤ r.hi) :
    ∃ m', s.mem.retag mu r.tag x y = some (s.mem.next, m') ∧
      Inv w lo hi sz { s with mem := m', refs := ⟨s.mem.next, mu, x, y, r.owner, r.tag :: r.from_⟩ :: keepRefs (accessOf mu) r.tag r.from_ x y s.refs } := by
  obtain ⟨t1, t2, t3⟩ := h.tags r hr
  have hh : s.mem.Has (accessOf mu) r.tag x y := (h.backed r hr).has (fun e => hm (by cases mu with | true => rfl | false => cases e)) hx hy
  obtain ⟨m', e, g, u, n, i⟩ := Mem.retag_spec h.root.good hh
  refine ⟨m', e, ⟨h.root.upd g u (Nat.le_of_lt t1), h.vecs, h.apart, h.fromLt, ?_, ?_, ?_, h.raws⟩⟩
  · intro q hq
    rcases List.mem_cons.1 hq with rfl | hq
    · exact i
    · exact keep_backed h u t3 hq
  · intro q hq
    rcases List.mem_cons.1 hq with rfl | hq
    · refine ⟨h.root.next, ?_, ?_⟩
      · change s.mem.next < m'.next; omega
      · intro a ha
        change a < s.mem.next
        rcases List.mem_cons.1 ha with rfl | ha
        · exact t2
        · exact Nat.lt_trans (t3 a ha) t2
    · obtain ⟨q1, q2, q3⟩ := h.tags q (mem_keepRefs.1 hq).1
      refine ⟨q1, ?_, q3⟩
      change q.tag < m'.next; omega
  · intro q hq
    rcases List.mem_cons.1 hq with rfl | hq
    · obtain ⟨v, v1, v2, v3, v4, v5⟩ := h.owner r hr
      exact ⟨v, v1, v2, v3, by change v.uninit.ptr.off ≤ x; omega, by change y ≤ v.endOff sz; omega⟩
    · exact h.owner q (mem_keepRefs.1 hq).1

theorem get_append {vs : List Vec} {new x : Vec} {j : Nat} (h : (vs ++ [new])[j]? = some x) : (vs[j]? = some x) ∨ (j = vs.length ∧ x = new) := by
  by_cases hj : j < vs.length
  · rw [List.getElem?_append_left hj] at h
    exact Or.inl h
  · rw [List.getElem?_append_right (by omega)] at h
    have : j - vs.length = 0 := by
      have := (List.getElem?_eq_some_iff.1 h).1
      simp at this; omega
    rw [this] at h
    cases h
    exact Or.inr ⟨by omega, rfl⟩

/-- Both kinds of splits: the vector keeps or loses the rest, the new one has the rest. -/
theorem Inv.split {w lo hi sz : Nat} {s : St} (h : Inv w lo hi sz s) {k : Nat} (hu : s.Usable k) {v v' new : Vec} (hv : s.vecs[k]? = some v) (n : Nat) (hn : n ≤ v.uninit.cap)
    (hd : v.drain = none)
    (h1 : v' = { v with uninit := v'.uninit, length := v.length - (v.length - n) }) (hp : v'.uninit.ptr = v.uninit.ptr)
    (h2 : new = ⟨⟨v.uninit.ptr.add sz n, v.uninit.cap - n⟩, v.length - n, true, new.from_, none⟩)
    (hc : (v'.uninit.cap = v.uninit.cap ∧ new.from_ = k :: v.from_) ∨ (v'.uninit.cap = n ∧ new.from_ = v.from_)) :
    Inv w lo hi sz { s.setVec k v' s.mem with vecs := s.vecs.set k v' ++ [new] } := by
  have hvm := List.mem_of_getElem? hv
  have hvo := h.vecs v hvm
  have hkl : k < s.vecs.length := (List.getElem?_eq_some_iff.1 hv).1
  obtain ⟨v0, hv1, hv2, hv3⟩ := hu
  rw [hv] at hv1
  cases hv1
  have e : n * sz + (v.uninit.cap - n) * sz = v.uninit.cap * sz := by rw [← Nat.add_mul]; congr 1; omega
  have hlen := hvo.len
  have hhi := hvo.hi
  have hlo := hvo.lo
  have hf' : v'.from_ = v.from_ := by rw [h1]
  have ha' : v'.alive = v.alive := by rw [h1]
  have hd' : v'.drain = none := by rw [h1]; exact hd
  have hl' : v'.length = v.length - (v.length - n) := by rw [h1]
  have hcap' : n ≤ v'.uninit.cap ∧ v'.uninit.cap ≤ v.uninit.cap := by rcases hc with ⟨c, _⟩ | ⟨c, _⟩ <;> omega
  have hend' : v'.endOff sz ≤ v.endOff sz := by
    unfold Vec.endOff; rw [hp]; have := mul_le (sz := sz) hcap'.2; omega
  have hnp : new.uninit.ptr.off = v.uninit.ptr.off + n * sz := by rw [h2]; rfl
  have hne : new.endOff sz = v.endOff sz := by
    unfold Vec.endOff; rw [h2]; simp only [Ptr.add]; omega
  have hna : new.alive = true := by rw [h2]
  have hnew : VecOk w lo hi sz new := by
    refine ⟨by rw [h2]; exact hvo.tag, by omega, ?_, ?_, ?_⟩
    · change new.endOff sz ≤ hi
      rw [hne]; exact hhi
    · rw [h2]; simp only; omega
    · intro d hd'; rw [h2] at hd'; cases hd'
  have hvec' : VecOk w lo hi sz v' := by
    refine ⟨by rw [hp]; exact hvo.tag, by rw [hp]; exact hlo, ?_, by omega, fun d h' => by rw [hd'] at h'; cases h'⟩
    change v'.endOff sz ≤ hi
    exact Nat.le_trans hend' hhi
  have hnf : ∀ a ∈ new.from_, a = k ∨ a ∈ v.from_ := by
    intro a ha
    rcases hc with ⟨_, c⟩ | ⟨_, c⟩
    · rw [c] at ha; exact List.mem_cons.1 ha
    · rw [c] at ha; exact Or.inr ha
  have hvf : ∀ a ∈ v.from_, a ∈ new.from_ := by
    intro a ha
    rcases hc with ⟨_, c⟩ | ⟨_, c⟩ <;> rw [c]
    · exact List.mem_cons_of_mem _ ha
    · exact ha
  have hlenset : (s.vecs.set k v').length = s.vecs.length := List.length_set
  -- positions of the vectors
  have pos : ∀ j x, (s.vecs.set k v' ++ [new])[j]? = some x → (j = k ∧ x = v') ∨ (j ≠ k ∧ j < s.vecs.length ∧ s.vecs[j]? = some x) ∨ (j = s.vecs.length ∧ x = new) := by
    intro j x hx
    rcases get_append hx with hx | ⟨e1, e2⟩
    · rcases get_set hv hx with hx | ⟨e1, hx⟩
      · exact Or.inl hx
      · exact Or.inr (Or.inl ⟨e1, (List.getElem?_eq_some_iff.1 hx).1, hx⟩)
    · exact Or.inr (Or.inr ⟨by omega, e2⟩)
  -- an old vector that is not borrowed from the new one etc. is apart from the old extent of `v`
  have old : ∀ j x, j ≠ k → s.vecs[j]? = some x → x.alive = true → j ∉ v.from_ → k ∉ x.from_ → x.endOff sz ≤ v.uninit.ptr.off ∨ v.endOff sz ≤ x.uninit.ptr.off :=
    fun j x hj hx hxa n1 n2 => h.apart j k x v hx hv hxa hv2 hj n1 n2
  have hle : v'.uninit.ptr.off ≤ v'.endOff sz := Nat.le_add_right _ _
  refine ⟨h.root, ?_, ?_, ?_, ?_, ?_, ?_, h.raws⟩
  · intro x hx
    rcases List.mem_append.1 hx with hx | hx
    · rcases List.mem_or_eq_of_mem_set hx with hx | rfl
      · exact h.vecs x hx
      · exact hvec'
    · rw [List.mem_singleton.1 hx]; exact hnew
  · intro i j x y hx hy hxa hya hij n1 n2
    rcases pos i x hx with ⟨rfl, rfl⟩ | ⟨a1, a2, a3⟩ | ⟨rfl, rfl⟩ <;> rcases pos j y hy with ⟨rfl, rfl⟩ | ⟨b1, b2, b3⟩ | ⟨rfl, rfl⟩
    · exact absurd rfl hij
    · have := old j y b1 b3 hya (hf' ▸ n2) n1
      rw [hp]; omega
    · rcases hc with ⟨_, c⟩ | ⟨c1, c⟩
      · rw [c] at n1; exact absurd (List.mem_cons_self ..) n1
      · left
        unfold Vec.endOff; rw [hp, c1, hnp]; exact Nat.le_refl _
    · have := old i x a1 a3 hxa (hf' ▸ n1) n2
      rw [hp]; omega
    · exact h.apart i j x y a3 b3 hxa hya hij n1 n2
    · have := old i x a1 a3 hxa (fun c => n1 (hvf _ c)) (hv3 x (List.mem_of_getElem? a3) hxa)
      rw [hne, hnp]; omega
    · rcases hc with ⟨_, c⟩ | ⟨c1, c⟩
      · rw [c] at n2; exact absurd (List.mem_cons_self ..) n2
      · right
        unfold Vec.endOff; rw [hp, c1, hnp]; exact Nat.le_refl _
    · have := old j y b1 b3 hya (fun c => n2 (hvf _ c)) (hv3 y (List.mem_of_getElem? b3) hya)
      rw [hne, hnp]; omega
    · exact absurd rfl hij
  · intro j x hx a ha
    rcases pos j x hx with ⟨rfl, rfl⟩ | ⟨a1, a2, a3⟩ | ⟨rfl, rfl⟩
    · rw [hf'] at ha; exact h.fromLt _ v hv a ha
    · exact h.fromLt j x a3 a ha
    · rcases hnf a ha with rfl | ha
      · exact hkl
      · exact Nat.lt_trans (h.fromLt k v hv a ha) hkl
  · intro r hr
    exact h.backed r (mem_endRefs.1 hr).1
  · intro r hr
    exact h.tags r (mem_endRefs.1 hr).1
  · intro r hr
    obtain ⟨hr1, hr2⟩ := mem_endRefs.1 hr
    obtain ⟨u, u1, u2, u3, u4, u5⟩ := h.owner r hr1
    have hul := (List.getElem?_eq_some_iff.1 u1).1
    refine ⟨u, ?_, u2, ?_, u4, u5⟩
    · change (s.vecs.set k v' ++ [new])[r.owner]? = _
      rw [List.getElem?_append_left (by omega), get_set_ne hr2]; exact u1
    · intro x hx hxa
      rcases List.mem_append.1 hx with hx | hx
      · rcases List.mem_or_eq_of_mem_set hx with hx | rfl
        · exact u3 x hx hxa
        · rw [hf']; exact u3 v hvm hv2
      · rw [List.mem_singleton.1 hx]
        intro c
        rcases hnf _ c with c | c
        · exact hr2 c
        · exact u3 v hvm hv2 c

theorem VecOk.drainOk {w lo hi sz : Nat} {v : Vec} (h : VecOk w lo hi sz v) {d : Drain} (hd : v.drain = some d) : DrainOk w sz v d := by
  obtain ⟨a, b, c, e, f⟩ := h.drain d hd
  exact ⟨a, b, c, e, f⟩

/-- Every permitted action is defined and keeps the invariant. -/
theorem Inv.step {w lo hi sz : Nat} {s : St} (h : Inv w lo hi sz s) {a : Act} (hp : Permitted s a) :
    ∃ s', step sz s a = some s' ∧ Inv w lo hi sz s' := by
  have same : ∀ {k v}, s.Usable k → s.vecs[k]? = some v → ∀ v', VecOk w lo hi sz v' → v'.uninit = v.uninit → v'.from_ = v.from_ → (v'.alive = true → v.alive = true) →
      Inv w lo hi sz (s.setVec k v' s.mem) := fun hu hv v' h1 h2 h3 h4 => h.setVec hu hv h.root (Only.refl _ _ _) h1 h2 h3 h4
  cases a with
  | asSlice k =>
    obtain ⟨hu, hd⟩ := hp
    obtain ⟨v, hv, _, _⟩ := id hu
    have hvo := h.vecs v (List.mem_of_getElem? hv)
    obtain ⟨m', e, hi'⟩ := h.newRef hu hv false (Nat.le_refl _) (y := v.uninit.ptr.off + v.length * sz) (by have := mul_le (sz := sz) hvo.len; unfold Vec.endOff; omega)
    refine ⟨_, ?_, hi'⟩
    simp only [Verif.VecBorrows.step, hv, asSlice, hvo.tag, e, Option.bind_eq_bind, Option.bind_some, Option.pure_def]
    rfl
  | asMutSlice k =>
    obtain ⟨hu, hd⟩ := hp
    obtain ⟨v, hv, _, _⟩ := id hu
    have hvo := h.vecs v (List.mem_of_getElem? hv)
    obtain ⟨m', e, hi'⟩ := h.newRef hu hv true (Nat.le_refl _) (y := v.uninit.ptr.off + v.length * sz) (by have := mul_le (sz := sz) hvo.len; unfold Vec.endOff; omega)
    refine ⟨_, ?_, hi'⟩
    simp only [Verif.VecBorrows.step, hv, asMutSlice, hvo.tag, e, Option.bind_eq_bind, Option.bind_some, Option.pure_def]
    rfl
  | asMutPtr k =>
    obtain ⟨hu, hd⟩ := hp
    obtain ⟨v, hv, _, _⟩ := id hu
    have hvo := h.vecs v (List.mem_of_getElem? hv)
    refine ⟨{ s with raws := ⟨asMutPtr v, v.uninit.cap * sz⟩ :: s.raws, refs := endRefs k s.refs }, by simp only [Verif.VecBorrows.step, hv], ?_⟩
    refine ⟨h.root, h.vecs, h.apart, h.fromLt, fun r hr => h.backed r (mem_endRefs.1 hr).1, fun r hr => h.tags r (mem_endRefs.1 hr).1, fun r hr => h.owner r (mem_endRefs.1 hr).1, ?_⟩
    intro p hp
    rcases List.mem_cons.1 hp with rfl | hp
    · exact ⟨hvo.tag, hvo.lo, hvo.hi⟩
    · exact h.raws p hp
  | push k =>
    obtain ⟨hu, hd⟩ := hp
    obtain ⟨v, hv, _, _⟩ := id hu
    have := h.op hu hv (push_ok h.root (h.vecs v (List.mem_of_getElem? hv)) (hd v hv))
    simpa only [Verif.VecBorrows.step, hv] using this
  | pop k =>
    obtain ⟨hu, hd⟩ := hp
    obtain ⟨v, hv, _, _⟩ := id hu
    have := h.op hu hv (pop_ok h.root (h.vecs v (List.mem_of_getElem? hv)) (hd v hv))
    simpa only [Verif.VecBorrows.step, hv] using this
  | truncate k len ran =>
    obtain ⟨hu, hd⟩ := hp
    obtain ⟨v, hv, _, _⟩ := id hu
    have := h.op hu hv (truncate_ok h.root (h.vecs v (List.mem_of_getElem? hv)) (hd v hv) len ran)
    simpa only [Verif.VecBorrows.step, hv] using this
  | fill k n =>
    obtain ⟨hu, hd⟩ := hp
    obtain ⟨v, hv, _, _⟩ := id hu
    have := h.op hu hv (fill_ok n v s.mem h.root (h.vecs v (List.mem_of_getElem? hv)) (hd v hv))
    simpa only [Verif.VecBorrows.step, hv] using this
  | drop k =>
    obtain ⟨hu, hd⟩ := hp
    obtain ⟨v, hv, _, _⟩ := id hu
    have := h.op hu hv (dropVec_ok h.root (h.vecs v (List.mem_of_getElem? hv)))
    simpa only [Verif.VecBorrows.step, hv] using this
  | setLen k n =>
    obtain ⟨⟨hu, hd⟩, hn⟩ := hp
    obtain ⟨v, hv, _, _⟩ := id hu
    have hvo := h.vecs v (List.mem_of_getElem? hv)
    refine ⟨s.setVec k { v with length := n } s.mem, by simp only [Verif.VecBorrows.step, hv], same hu hv { v with length := n } ⟨hvo.tag, hvo.lo, hvo.hi, hn v hv, fun d h' => ?_⟩ rfl rfl id⟩
    simp only [hd v hv] at h'; cases h'
  | forget k =>
    obtain ⟨hu, hd⟩ := hp
    obtain ⟨v, hv, _, _⟩ := id hu
    have hvo := h.vecs v (List.mem_of_getElem? hv)
    exact ⟨s.setVec k { v with alive := false } s.mem, by simp only [Verif.VecBorrows.step, hv],
      same hu hv { v with alive := false } ⟨hvo.tag, hvo.lo, hvo.hi, hvo.len, hvo.drain⟩ rfl rfl (fun h' => by cases h')⟩
  | splitBorrowed k n =>
    obtain ⟨hu, hd⟩ := hp
    obtain ⟨v, hv, _, _⟩ := id hu
    have hvo := h.vecs v (List.mem_of_getElem? hv)
    by_cases hc : n ≤ v.uninit.cap
    · refine ⟨_, by simp only [Verif.VecBorrows.step, hv, splitBorrowed, Buf.splitAt, if_pos hc]; rfl, ?_⟩
      exact h.split hu hv n hc (hd v hv) rfl rfl rfl (Or.inl ⟨rfl, rfl⟩)
    · exact ⟨_, by simp only [Verif.VecBorrows.step, hv, splitBorrowed, Buf.splitAt, if_neg hc], same hu hv v hvo rfl rfl id⟩
  | splitShrink k n =>
    obtain ⟨hu, hd⟩ := hp
    obtain ⟨v, hv, _, _⟩ := id hu
    have hvo := h.vecs v (List.mem_of_getElem? hv)
    by_cases hc : n ≤ v.uninit.cap
    · refine ⟨_, by simp only [Verif.VecBorrows.step, hv, splitShrink, Buf.splitAt, if_pos hc]; rfl, ?_⟩
      exact h.split hu hv n hc (hd v hv) rfl rfl rfl (Or.inr ⟨rfl, rfl⟩)
    · exact ⟨_, by simp only [Verif.VecBorrows.step, hv, splitShrink, Buf.splitAt, if_neg hc], same hu hv v hvo rfl rfl id⟩
  | drain k a b =>
    obtain ⟨hu, hd⟩ := hp
    obtain ⟨v, hv, _, _⟩ := id hu
    have hvo := h.vecs v (List.mem_of_getElem? hv)
    have hlen := hvo.len
    refine ⟨s.setVec k (drain sz v a b) s.mem, by simp only [Verif.VecBorrows.step, hv], ?_⟩
    unfold Verif.VecBorrows.drain
    by_cases hc : a ≤ b ∧ b ≤ v.length
    · rw [if_pos hc]
      refine same hu hv _ ⟨hvo.tag, hvo.lo, hvo.hi, by simp only; omega, fun d h' => ?_⟩ rfl rfl id
      simp only [Option.some.injEq] at h'
      subst h'
      exact ⟨hvo.tag, rfl, Nat.zero_le _, Nat.le_refl _, by simp only; omega⟩
    · rw [if_neg hc]
      exact same hu hv v hvo rfl rfl id
  | drainNext k =>
    obtain ⟨hu, v, d, hv, hd⟩ := hp
    have hvo := h.vecs v (List.mem_of_getElem? hv)
    obtain ⟨d', m', e, r1, o1, k1, _⟩ := drainNext_ok h.root hvo (hvo.drainOk hd)
    refine ⟨s.setVec k { v with drain := some d' } m', by simp only [Verif.VecBorrows.step, hv, hd, e, Option.bind_eq_bind, Option.bind_some, Option.pure_def], ?_⟩
    refine h.setVec hu hv r1 o1 ⟨hvo.tag, hvo.lo, hvo.hi, hvo.len, fun x hx => ?_⟩ rfl rfl id
    simp only [Option.some.injEq] at hx
    subst hx
    exact ⟨k1.tag, k1.off, k1.start, k1.stop, k1.cap⟩
  | drainNextBack k =>
    obtain ⟨hu, v, d, hv, hd⟩ := hp
    have hvo := h.vecs v (List.mem_of_getElem? hv)
    obtain ⟨d', m', e, r1, o1, k1⟩ := drainNextBack_ok h.root hvo (hvo.drainOk hd)
    refine ⟨s.setVec k { v with drain := some d' } m', by simp only [Verif.VecBorrows.step, hv, hd, e, Option.bind_eq_bind, Option.bind_some, Option.pure_def], ?_⟩
    refine h.setVec hu hv r1 o1 ⟨hvo.tag, hvo.lo, hvo.hi, hvo.len, fun x hx => ?_⟩ rfl rfl id
    simp only [Option.some.injEq] at hx
    subst hx
    exact ⟨k1.tag, k1.off, k1.start, k1.stop, k1.cap⟩
  | drainSlice k mu =>
    obtain ⟨hu, v, d, hv, hd⟩ := hp
    have hvo := h.vecs v (List.mem_of_getElem? hv)
    have k1 := hvo.drainOk hd
    have h1 := k1.off
    have h2 := k1.start
    have h3 := k1.stop
    have h4 := k1.cap
    have hb := mul_le (sz := sz) (show v.length + d.start + (d.stop - d.start) ≤ v.uninit.cap by omega)
    rw [Nat.add_mul, Nat.add_mul] at hb
    obtain ⟨m', e, hi'⟩ := h.newRef hu hv mu (x := d.elements.off + d.start * sz) (y := d.elements.off + d.start * sz + (d.stop - d.start) * sz) (by omega) (by unfold Vec.endOff; omega)
    refine ⟨_, ?_, hi'⟩
    simp only [Verif.VecBorrows.step, hv, hd, drainSlice, Ptr.add, k1.tag, e, Option.bind_eq_bind, Option.bind_some, Option.pure_def]
  | drainDrop k ran =>
    obtain ⟨hu, v, d, hv, hd⟩ := hp
    have hvo := h.vecs v (List.mem_of_getElem? hv)
    have := h.op hu hv (drainDrop_ok h.root hvo (hvo.drainOk hd) ran)
    simpa only [Verif.VecBorrows.step, hv, hd] using this
  | drainForget k =>
    obtain ⟨hu, v, d, hv, hd⟩ := hp
    have hvo := h.vecs v (List.mem_of_getElem? hv)
    exact ⟨s.setVec k { v with drain := none } s.mem, by simp only [Verif.VecBorrows.step, hv],
      same hu hv { v with drain := none } ⟨hvo.tag, hvo.lo, hvo.hi, hvo.len, fun d h' => by cases h'⟩ rfl rfl id⟩
  | use r a lo hi =>
    obtain ⟨hr, hm, h1, h2⟩ := hp
    obtain ⟨t1, t2, t3⟩ := h.tags r hr
    obtain ⟨m', e, hi'⟩ := h.use (fr := r.from_) ((h.backed r hr).has hm h1 h2) (Nat.le_of_lt t1) t3
    refine ⟨_, ?_, hi'⟩
    simp only [Verif.VecBorrows.step, e, Option.bind_eq_bind, Option.bind_some, Option.pure_def]
  | reborrow r mu lo hi =>
    obtain ⟨hr, hm, h1, h2, h3⟩ := hp
    obtain ⟨m', e, hi'⟩ := h.reborrow hr hm h1 h3
    refine ⟨_, ?_, hi'⟩
    simp only [Verif.VecBorrows.step, e, Option.bind_eq_bind, Option.bind_some, Option.pure_def]
    rfl
  | useRaw p a x y =>
    obtain ⟨hr, h1, h2⟩ := hp
    obtain ⟨p1, p2, p3⟩ := h.raws p hr
    obtain ⟨m', e, hi'⟩ := h.use (fr := []) (h.root.has (x := x) (y := y) (by omega) (by omega) a) (Nat.le_refl _) (fun i hi => absurd hi (by simp))
    refine ⟨_, ?_, hi'⟩
    simp only [Verif.VecBorrows.step, p1, e, Option.bind_eq_bind, Option.bind_some, Option.pure_def]

/-- The invariant holds at the start. -/
theorem Start.inv {sz : Nat} {s : St} (h : Start sz s) : ∃ w lo hi, Inv w lo hi sz s := by
  obtain ⟨u, hv, hst, ht⟩ := h.vec
  refine ⟨u.ptr.tag, u.ptr.off, u.ptr.off + u.cap * sz, ⟨⟨⟨h.sorted, h.fresh⟩, ?_, ht⟩, ?_, ?_, ?_, ?_, ?_, ?_, ?_⟩⟩
  · intro b h1 h2
    obtain ⟨p, rest, e, hg⟩ := hst b h1 h2
    exact ⟨p, by rw [e]; exact List.mem_cons_self .., hg⟩
  · intro v hv'
    rw [hv] at hv'
    rw [List.mem_singleton.1 hv']
    exact ⟨rfl, Nat.le_refl _, Nat.le_refl _, Nat.zero_le _, fun d h' => by cases h'⟩
  · intro j k x y hx hy _ _ hne
    rw [hv] at hx hy
    have h1 := (List.getElem?_eq_some_iff.1 hx).1
    have h2 := (List.getElem?_eq_some_iff.1 hy).1
    simp at h1 h2
    omega
  · intro k x hx a ha
    rw [hv] at hx
    rw [List.mem_singleton.1 (List.mem_of_getElem? hx)] at ha
    cases ha
  · intro r hr; rw [h.refs] at hr; cases hr
  · intro r hr; rw [h.refs] at hr; cases hr
  · intro r hr; rw [h.refs] at hr; cases hr
  · intro r hr; rw [h.raws] at hr; cases hr

theorem Reach.inv {sz w lo hi : Nat} {s₀ s : St} (h₀ : Inv w lo hi sz s₀) (h : Reach sz s₀ s) : Inv w lo hi sz s := by
  induction h with
  | refl => exact h₀
  | step _ hp hs ih =>
    obtain ⟨s', e, hi'⟩ := ih.step hp
    rw [e] at hs
    cases hs
    exact hi'

/-! ### Lengths -/

theorem push_len {sz : Nat} {v v' : Vec} {m m' : Mem} (hl : v.length ≤ v.uninit.cap) (h : push sz v m = some (v', m')) :
    v'.uninit = v.uninit ∧ v'.length = min (v.length + 1) v.uninit.cap := by
  unfold push headTailMut Buf.splitAt at h
  rw [if_pos hl] at h
  simp only [Buf.first] at h
  by_cases hc : v.uninit.cap - v.length = 0
  · rw [if_pos hc] at h
    cases h
    exact ⟨rfl, by omega⟩
  · rw [if_neg hc] at h
    simp only at h
    cases h1 : writeElem sz (v.uninit.ptr.add sz v.length) m with
    | none => simp only [h1, Option.bind_eq_bind, Option.bind_none] at h; cases h
    | some m1 =>
      simp only [h1, Option.bind_eq_bind, Option.bind_some] at h
      cases h2 : m1.retag true (v.uninit.ptr.add sz v.length).tag (v.uninit.ptr.add sz v.length).off ((v.uninit.ptr.add sz v.length).off + sz) with
      | none => simp only [h2, Option.bind_none] at h; cases h
      | some p =>
        simp only [h2, Option.bind_some, Option.pure_def, Option.some.injEq, Prod.mk.injEq] at h
        obtain ⟨h, -⟩ := h
        subst h
        exact ⟨rfl, by simp only; omega⟩

theorem pop_len {sz : Nat} {v v' : Vec} {m m' : Mem} (hl : v.length ≤ v.uninit.cap) (h : pop sz v m = some (v', m')) :
    v'.uninit = v.uninit ∧ v'.length = v.length - 1 := by
  unfold pop at h
  by_cases h0 : v.length = 0
  · rw [if_pos h0] at h
    cases h
    exact ⟨rfl, by omega⟩
  · rw [if_neg h0] at h
    unfold headTailMut Buf.splitAt at h
    rw [if_pos hl] at h
    simp only [Buf.last] at h
    rw [if_neg h0] at h
    simp only at h
    cases h1 : readElem sz (v.uninit.ptr.add sz (v.length - 1)) m with
    | none => simp only [h1, Option.bind_eq_bind, Option.bind_none] at h; cases h
    | some m1 =>
      simp only [h1, Option.bind_eq_bind, Option.bind_some, Option.pure_def, Option.some.injEq, Prod.mk.injEq] at h
      obtain ⟨h, -⟩ := h
      subst h
      exact ⟨rfl, rfl⟩

theorem truncate_len {sz n ran : Nat} {v v' : Vec} {m m' : Mem} (hr : v.length - n ≤ ran) (h : truncate sz v n ran m = some (v', m')) :
    v'.uninit = v.uninit ∧ v'.length = min v.length n := by
  unfold truncate at h
  cases h1 : dropBack sz (min (v.length - n) ran) (endMutPtr sz v) m with
  | none => simp only [h1, Option.bind_eq_bind, Option.bind_none] at h; cases h
  | some m1 =>
    simp only [h1, Option.bind_eq_bind, Option.bind_some, Option.pure_def, Option.some.injEq, Prod.mk.injEq] at h
    obtain ⟨h, -⟩ := h
    subst h
    exact ⟨rfl, by simp only; omega⟩

theorem fill_len {sz : Nat} {v' : Vec} {m' : Mem} : ∀ (n : Nat) (v : Vec) (m : Mem), v.length ≤ v.uninit.cap → fill sz n v m = some (v', m') →
    v'.uninit = v.uninit ∧ v'.length = min (v.length + n) v.uninit.cap
  | 0, v, m, hl, h => by cases h; exact ⟨rfl, by omega⟩
  | n + 1, v, m, hl, h => by
    unfold fill at h
    by_cases hc : v.length < v.uninit.cap
    · rw [if_pos hc] at h
      cases h1 : writeElem sz (endMutPtr sz v) m with
      | none => simp only [h1, Option.bind_eq_bind, Option.bind_none] at h; cases h
      | some m1 =>
        simp only [h1, Option.bind_eq_bind, Option.bind_some] at h
        obtain ⟨a, b⟩ := fill_len n _ m1 (by simp only; omega) h
        simp only at a b
        exact ⟨a, by omega⟩
    · rw [if_neg hc] at h
      cases h
      exact ⟨rfl, by omega⟩

theorem drainSome_len {sz : Nat} {d' : Drain} {m' : Mem} : ∀ (n : Nat) (d : Drain) (m : Mem), n ≤ d.stop - d.start → drainSome sz n d m = some (d', m') →
    d'.start = d.start + n ∧ d'.stop = d.stop ∧ d'.tailLen = d.tailLen
  | 0, d, m, _, h => by cases h; exact ⟨rfl, rfl, rfl⟩
  | n + 1, d, m, hn, h => by
    unfold drainSome drainNext at h
    rw [if_neg (by omega)] at h
    cases h1 : readElem sz (d.elements.add sz d.start) m with
    | none => simp only [h1, Option.bind_eq_bind, Option.bind_none] at h; cases h
    | some m1 =>
      simp only [h1, Option.bind_eq_bind, Option.bind_some, Option.pure_def] at h
      obtain ⟨a, b, c⟩ := drainSome_len n _ m1 (by simp only; omega) h
      simp only at a b c
      exact ⟨by omega, b, c⟩

end Verif.VecBorrows
