import Verif.Proofs.GlobalRaces
import Verif.Proofs.GlobalTrace
/-! # The last write to a byte -/
set_option autoImplicit false
namespace Verif.Bump.Conc
open MM
variable {n : Nat} {e : Env} {X : Graph n GAct} {src : MM.Ev n → MM.Ev n}

theorem StoresByte.writes {a : MM.Ev n} {p : Nat} {v : Byte} (h : StoresByte X a p v) : WritesByte X a p := by
  rcases h with h | h | ⟨r, j, call, bytes, h, h', _⟩
  · exact .inl ⟨v, h⟩
  · exact .inr (.inl ⟨v, h⟩)
  · exact .inr (.inr ⟨r, h, h'⟩)

theorem Runs.unique {a : MM.Ev n} {j j' : Nat} {c c' : Call} (h : Runs X j a c) (h' : Runs X j' a c') : c = c' := by
  rcases Nat.lt_trichotomy j j' with hlt | rfl | hlt
  · exact absurd h'.2.1 (h.2.2 _ _ hlt h'.1)
  · cases at_unique h.2.1 h'.2.1; rfl
  · exact absurd h.2.1 (h'.2.2 _ _ hlt h.1)

theorem StoresByte.unique {a : MM.Ev n} {p : Nat} {v v' : Byte} (h : StoresByte X a p v) (h' : StoresByte X a p v') : v = v' := by
  rcases h with h | h | ⟨r, j, call, bytes, h, h2, h3, h4, h5⟩ <;> rcases h' with k | k | ⟨r', j', call', bytes', k, k2, k3, k4, k5⟩ <;> cases at_unique h k
  · rfl
  · rfl
  · cases h3.unique k3
    rw [h4] at k4
    cases k4
    rw [h5] at k5
    cases k5
    rfl

/-- `w` is the last write to this byte before `a`. -/
def Last (X : Graph n GAct) (w a : MM.Ev n) (q : Nat) (v : Byte) : Prop := StoresByte X w q v ∧ X.hb w a ∧ ∀ w', WritesByte X w' q → X.hb w' a → w' = w ∨ X.hb w' w

section
variable (he : e.Valid) (hi : X.initial ≤ e.len) (hp : GPossible X) (hx : GExecutes e X) (hd : Disciplined X src)

/-- What a read gets. -/
theorem Last.read (hr : ReadsVisible X) {w a : MM.Ev n} {q : Nat} {v v' : Byte} (h : Last X w a q v) (ha : X.At a (.userRead q v') ∨ X.At a (.read q v')) : v' = v := by
  rcases hr a q v' ha with ⟨w0, h1, h2, h3⟩ | h1
  · rcases h.2.2 w0 h1.writes h2 with rfl | h4
    · exact h1.unique h.1
    · exact absurd ⟨h4, h.2.1⟩ (h3 w h.1.writes)
  · exact absurd h.2.1 (h1 w h.1.writes)

include he hi hp hx hd in
/-- The writes to a byte of a block before something that is done through this block. -/
theorem writes_before {w a r g : MM.Ev n} {q d : Nat} {reg : Region} (hw : WritesByte X w q) (hwa : X.hb w a) (ha : Through X src a r) (hr : Root X src r g d) (hg : GrantAt X g reg) (hq : reg.Has q) :
    (∃ p, X.At w (.bump (.write p)) ∧ p.Has q ∧ X.hb w g) ∨ (∃ t j k v, w = (t, k) ∧ g = (t, j) ∧ j < k ∧ NoRet (X.acts t) j k ∧ X.At w (.write q v)) ∨
    ∃ d', d' ≤ d ∧ UserWrites X w q ∧ Root X src (src w) g d' := by
  rcases classify hp hx hd (.inr hw) with ⟨p, h1, h2⟩ | ⟨g', reg', h1, h2, h3, h4⟩
  · exact .inl ⟨p, h1, h2, value_before he hi hp hx hd h1 hg h2 hq⟩
  · cases grants_same he hi hp hx hd h1 hg h2 hq
    cases h4 with
    | value t j k v k1 k2 k3 k4 k5 => exact .inr (.inl ⟨t, j, k, v, k1, k2, k3, k4, k5⟩)
    | user d' hu hr' =>
      refine .inr (.inr ⟨d', Nat.le_of_not_lt fun hlt => ?_, ?_, hr'⟩)
      · exact hp.1.hb_irrefl _ (hp.1.hb_trans _ _ _ hwa (through_lt hp hd ha hr (user_through hd hu) hr' hlt))
      · rcases hu with ⟨v, hu⟩ | hu
        · rcases hw with hw | ⟨_, hw⟩ | ⟨_, hw, _⟩
          · exact hw
          · cases at_unique hu hw
          · cases at_unique hu hw
        · exact hu
    | copy t i k d' v b k1 k2 k3 k4 k5 hr' => rcases hw with ⟨_, hw⟩ | ⟨_, hw⟩ | ⟨_, hw, _⟩ <;> cases at_unique k5 hw

include he hi hp hx hd in
/-- What was written to a block before a call took it, or while that reads it, was written before. -/
theorem written_before_take {w a i g : MM.Ev n} {q d : Nat} {b : Block} {reg : Region} (hw : WritesByte X w q) (hwa : X.hb w a) (ha : Through X src a (src i)) (ht : Takes X i b)
    (hr : Root X src (src i) g d) (hg : GrantAt X g reg) (hq : reg.Has q) : X.hb w i := by
  rcases writes_before he hi hp hx hd hw hwa ha hr hg hq with ⟨p, h1, h2, h3⟩ | ⟨t, j, k, v, rfl, rfl, h1, h2, h3⟩ | ⟨d', h1, h2, h3⟩
  · exact hp.1.hb_trans _ _ _ (hp.1.hb_trans _ _ _ h3 (hr.hb hp.1 hd)) (hd.taken _ _ ht).2
  · exact value_through hp hd h1 h2 h3 (take_through hd ht) hr
  · rcases Nat.lt_or_eq_of_le h1 with hlt | rfl
    · exact through_lt hp hd (user_through hd (.inr h2)) h3 (take_through hd ht) hr hlt
    · exact hd.before _ _ _ _ (.inr h2) ht (hr.unique hd h3)

include he hi hp hx hd in
/-- The last write, of a byte which a block holds. -/
theorem Holds.last (hv : ReadsVisible X) {a r : MM.Ev n} {o : Nat} {v : Byte} (h : Holds X src a r o v) : ∀ b, Gives X r b → o < b.layout.size → Through X src a r → ∃ w, Last X w a (b.ptr + o) v := by
  induction h with
  | @written a r w b' o v h1 h2 h3 h4 h5 =>
    intro b hb ho ha
    cases gives_unique h1 hb
    refine ⟨w, .inl h2, h4, fun w' hw hwa => ?_⟩
    obtain ⟨g, d, hr⟩ := exists_root hp.1 hx hd r (by obtain ⟨_, _, h, _⟩ := hb; exact ⟨_, h⟩) b' hb
    obtain ⟨reg, h6, h7⟩ := hr.region hd _ hb
    have hq : reg.Has (b'.ptr + o) := within_has h7 ⟨Nat.le_add_right _ _, Nat.add_lt_add_left ho _⟩
    have hwt : Through X src w r := by have := user_through hd (a := w) (.inr ⟨v, h2⟩); rwa [h3] at this
    rcases writes_before he hi hp hx hd hw hwa ha hr h6 hq with ⟨p, k1, k2, k3⟩ | ⟨t, j, k, v', rfl, rfl, k1, k2, k3⟩ | ⟨d', k1, k2, k3⟩
    · exact .inr (hp.1.hb_trans _ _ _ (hp.1.hb_trans _ _ _ k3 (hr.hb hp.1 hd)) hwt.1)
    · exact .inr (value_through hp hd k1 k2 k3 hwt hr)
    · rcases Nat.lt_or_eq_of_le k1 with hlt | rfl
      · exact .inr (through_lt hp hd (user_through hd (.inr k2)) k3 hwt hr hlt)
      · exact h5 w' k2 (k3.unique hd hr) hwa
  | @zeroed a r l p o h1 h2 h3 h4 =>
    intro b hb ho ha
    have hb' : Gives X r ⟨p, l⟩ := ⟨_, _, h1, by simp [Op.gives, h2]⟩
    cases gives_unique hb hb'
    obtain ⟨t, k⟩ := r
    obtain ⟨l', hl'⟩ := hx.1 t
    obtain ⟨i0, -, -, hf⟩ := at_fin (valid_inv hx t) hl' h1
    obtain ⟨g, ⟨k1, ⟨call, res, k2, k3⟩, k4⟩, k5⟩ := hf h2
    obtain ⟨j, v, k6, k7, k8, rfl, k9⟩ := k5.2 o h3
    have hga : GrantAt X (t, g) ⟨p, l.size⟩ := ⟨_, _, k2, k3⟩
    have hr : Root X src (t, k) (t, g) 0 := .own hb' k1 hga k4 ⟨Nat.le_refl _, Nat.le_refl _⟩
    refine ⟨(t, j), .inr (.inl k8), hp.1.hb_trans _ _ _ (sb_hb hp.1 k7 h1) ha.1, fun w' hw hwa => ?_⟩
    rcases writes_before he hi hp hx hd hw hwa ha hr hga ⟨Nat.le_add_right _ _, Nat.add_lt_add_left h3 _⟩ with ⟨p', m1, m2, m3⟩ | ⟨t', j', k', v', rfl, m0, m1, m2, m3⟩ | ⟨d', m1, m2, m3⟩
    · exact .inr (hp.1.hb_trans _ _ _ m3 (sb_hb hp.1 k6 k8))
    · cases m0
      exact .inl (by rw [k9 k' v' m1 (in_call m3 (by simp) m2 k1 hb') m3])
    · cases Nat.le_zero.mp m1
      exact absurd hwa (h4 w' m2 (m3.unique hd hr))
  | @value a r call res reg bytes o v h1 h2 h3 h4 h5 =>
    intro b hb ho ha
    obtain ⟨t, k⟩ := r
    obtain ⟨l', hl'⟩ := hx.1 t
    obtain ⟨i0, -, -, hf⟩ := at_fin (valid_inv hx t) hl' h1
    obtain ⟨g, j, kw, rfl, k2, k3, k4, k5⟩ := hf reg bytes h2 h3
    have hbp : b.ptr = reg.start ∧ b.region = reg := by
      obtain ⟨op', r', k6, k7⟩ := hb
      cases at_unique h1 k6
      simp only [Op.gives, h2] at k7
      split at k7 <;> cases k7
      rename_i l reg' k8 k9
      cases k9
      simp only [grant, k8] at h2
      split at h2
      · cases h2
      · split at h2 <;> cases h2 <;> exact ⟨rfl, rfl⟩
    have hga : GrantAt X (t, g) reg := ⟨_, _, k2, h2⟩
    have hr : Root X src (t, g + 1) (t, g) 0 := .own hb (Nat.lt_succ_self _) hga (NoRet.start _ _) (by rw [hbp.2]; exact ⟨Nat.le_refl _, Nat.le_refl _⟩)
    have hob : o < bytes.length := (List.getElem?_eq_some_iff.mp h4).1
    have hhas : (⟨reg.start, bytes.length⟩ : Region).Has (reg.start + o) := ⟨Nat.le_add_right _ _, Nat.add_lt_add_left hob _⟩
    have hq : reg.Has (reg.start + o) := by rw [← hbp.2]; exact ⟨Nat.le_add_right _ _, Nat.add_lt_add_left ho _⟩
    rw [hbp.1]
    refine ⟨(t, kw), .inr (.inr ⟨_, j, call, bytes, k5, hhas, k4, h3, by simpa using h4⟩), hp.1.hb_trans _ _ _ (sb_hb hp.1 (by omega) h1) ha.1, fun w' hw hwa => ?_⟩
    rcases writes_before he hi hp hx hd hw hwa ha hr hga hq with ⟨p', m1, m2, m3⟩ | ⟨t', j', k', v', rfl, m0, m1, m2, m3⟩ | ⟨d', m1, m2, m3⟩
    · exact .inl (Classical.byContradiction fun hne => value_apart he hi hp hx hd m1 (b := (t, kw)) k5 hne _ ⟨m2, hhas⟩)
    · cases m0
      have := in_call m3 (by simp) m2 (Nat.lt_succ_self _) hb
      omega
    · cases Nat.le_zero.mp m1
      exact absurd hwa (h5 w' m2 (m3.unique hd hr))
  | @kept a t i k c b' ns p o v h1 h2 h3 h4 h5 h6 h7 h8 h9 ih =>
    intro b hb ho ha
    have hbb := gives_unique hb h5
    subst hbb
    have htk : Takes X (t, i) c := ⟨_, h2, rfl⟩
    obtain ⟨m1, m2⟩ := hd.taken _ _ htk
    obtain ⟨w, hl1, hl2, hl3⟩ := ih c m1 h6 (take_through hd htk)
    obtain ⟨g0, d0, hr0⟩ := exists_root hp.1 hx hd (src (t, i)) (by obtain ⟨_, _, h, _⟩ := m1; exact ⟨_, h⟩) c m1
    obtain ⟨reg0, m3, m4⟩ := hr0.region hd _ m1
    have hq0 : reg0.Has (c.ptr + o) := within_has m4 ⟨Nat.le_add_right _ _, Nat.add_lt_add_left h6 _⟩
    have hno : NoRet (X.acts t) i k := fun j op r k1 k2 => h4 j op r k1 k2
    have hbc : (p ≠ 0 ∧ b = ⟨p, ⟨ns, c.layout.align⟩⟩) ∨ (p = 0 ∧ b = c) := by
      obtain ⟨op', r', k6, k7⟩ := hb
      cases at_unique h1 k6
      simp only [Op.gives] at k7
      split at k7 <;> cases k7
      · rename_i h; exact .inr ⟨h, rfl⟩
      · rename_i h; exact .inl ⟨h, rfl⟩
    have inplace : b.ptr = c.ptr → b.layout.size ≤ c.layout.size → ∃ w, Last X w a (b.ptr + o) v := by
      intro hptr hsz
      have hr : Root X src (t, k) g0 (d0 + 1) := .inplace hb h3 htk hno (by simp only [Block.region, Region.Within]; omega) hr0
      rw [hptr] at h8 ⊢
      refine ⟨w, hl1, hp.1.hb_trans _ _ _ hl2 (hp.1.hb_trans _ _ _ (sb_hb hp.1 h3 h1) ha.1), fun w' hw hwa => ?_⟩
      refine hl3 w' hw ?_
      rcases writes_before he hi hp hx hd hw hwa ha hr m3 hq0 with ⟨p', k1, k2, k3⟩ | ⟨t', j', k', v', rfl, rfl, k1, k2, k3⟩ | ⟨d', k1, k2, k3⟩
      · exact hp.1.hb_trans _ _ _ (hp.1.hb_trans _ _ _ k3 (hr0.hb hp.1 hd)) m2
      · exact value_through hp hd k1 k2 k3 (take_through hd htk) hr0
      · rcases Nat.lt_or_eq_of_le k1 with hlt | rfl
        · rcases Nat.lt_or_eq_of_le (Nat.le_of_lt_succ hlt) with hlt | rfl
          · exact through_lt hp hd (user_through hd (.inr k2)) k3 (take_through hd htk) hr0 hlt
          · exact hd.before _ _ _ _ (.inr k2) htk (hr0.unique hd k3)
        · exact absurd hwa (h8 w' k2 (k3.unique hd hr))
    rcases hbc with ⟨hp0, rfl⟩ | ⟨hp0, rfl⟩
    · obtain ⟨l', hl'⟩ := hx.1 t
      obtain ⟨i0, -, hon, hf⟩ := at_fin (valid_inv hx t) hl' h1
      cases hon i _ h3 h2 hno
      rcases hf hp0 with ⟨rfl, hle⟩ | ⟨g, ⟨k1, ⟨call, res, k2, k3⟩, k4⟩, k5⟩
      · exact inplace rfl hle
      · obtain ⟨j, v', k6, k7, k8, ⟨j0, k10, k11, k12⟩, k9⟩ := k5.2 o (by simp only at h7; omega)
        have hj0 : j0 < k := by omega
        have hthr : Through X src (t, j0) (src (t, i)) := copy_through hp hd k10 htk (fun m op r q1 q2 => hno m op r q1 (by omega)) k12
        have hlast : Last X w (t, j0) (c.ptr + o) v := ⟨hl1, hp.1.hb_trans _ _ _ hl2 (sb_hb hp.1 k10 k12), fun w' hw hwa => hl3 w' hw (written_before_take he hi hp hx hd hw hwa hthr htk hr0 m3 hq0)⟩
        have hvv := hlast.read hv (.inr k12)
        subst hvv
        have hga : GrantAt X (t, g) ⟨p, ns⟩ := ⟨_, _, k2, k3⟩
        have hr : Root X src (t, k) (t, g) 0 := .own hb k1 hga k4 ⟨Nat.le_refl _, Nat.le_refl _⟩
        refine ⟨(t, j), .inr (.inl k8), hp.1.hb_trans _ _ _ (sb_hb hp.1 k7 h1) ha.1, fun w' hw hwa => ?_⟩
        rcases writes_before he hi hp hx hd hw hwa ha hr hga ⟨Nat.le_add_right _ _, Nat.add_lt_add_left h7 _⟩ with ⟨p', q1, q2, q3⟩ | ⟨t', j', k', v', rfl, q0, q1, q2, q3⟩ | ⟨d', q1, q2, q3⟩
        · exact .inr (hp.1.hb_trans _ _ _ q3 (sb_hb hp.1 k6 k8))
        · cases q0
          exact .inl (by rw [k9 k' v' q1 (in_call q3 (by simp) q2 k1 hb) q3])
        · cases Nat.le_zero.mp q1
          exact absurd hwa (h8 w' q2 (q3.unique hd hr))
    · exact inplace rfl (Nat.le_refl _)
end
end Verif.Bump.Conc
