import Verif.Model.AllocExt
import Verif.Spec.AllocExt
import Verif.Props.BumpGlobal
import Verif.Props.Uninit
import Verif.Props.Rc
import Verif.Proofs.Unsync
/-! # C58-C60, C68: the extension methods of allocators -/
namespace Verif
open AllocTraits AllocExt Uninit Bump

section
variable {σ α : Type} {t : Target} {A : LocalAlloc σ} {Inv : σ → Mem → List Block → Prop} {s : σ} {m : Mem} {live : List Block}

theorem fromLayout_zero {l : Layout} (h : l.size = 0) : NonZeroLayout.fromLayout l = none := if_pos h
theorem fromLayout_pos {l : Layout} (h : l.size ≠ 0) : ∃ k, NonZeroLayout.fromLayout l = some k ∧ k.toLayout = l := ⟨_, if_neg h, rfl⟩

theorem allocLayout_eq {k : NonZeroLayout} {a : Option Block} {s' : σ} {m1 : Mem} (h : A.alloc s m k.toLayout = .ret (a, s', m1)) :
    allocLayout A s m k = .ret (a.map fun b => fromMemory b.ptr b.layout.size, s', m1) := by
  simp only [allocLayout, h, bind, Outcome.bind]
  cases a <;> rfl

/-- A method that fails if the allocator fails, and otherwise writes only to the block. -/
theorem follows_of (hA : Contract t A Inv) (hi : Inv s m live) {l : Layout} (hl : l.Valid t) (h0 : l.size ≠ 0) {place : α → Region}
    {f : Outcome (Option α × σ × Mem)} (Q : α → Mem → Block → Prop)
    (hnone : ∀ s' m1, A.alloc s m l = .ret (none, s', m1) → f = .ret (none, s', m1))
    (hsome : ∀ b s' m1, A.alloc s m l = .ret (some b, s', m1) → b.Serves l → (∀ c ∈ live, b.region.Disjoint c.region) → Kept live m m1 →
      ∃ x m', f = .ret (some x, s', m') ∧ (place x).Within b.region ∧ CanHold (place x) l ∧ OnlyIn b.region m1 m' ∧ Q x m' b) :
    ∃ r s' m', f = .ret (r, s', m') ∧ Follows A Inv live s m l place r s' m' ∧
      ∀ x, r = some x → ∃ b m1, A.alloc s m l = .ret (some b, s', m1) ∧ Q x m' b := by
  obtain ⟨a, s', m1, h1, hk, hr⟩ := hA.alloc hi hl (Nat.pos_of_ne_zero h0)
  cases a with
  | none =>
    refine ⟨none, s', m1, hnone _ _ h1, ⟨hk, ?_⟩, fun x hx => by cases hx⟩
    rw [if_neg h0]
    exact ⟨none, m1, h1, rfl, rfl, hr⟩
  | some b =>
    obtain ⟨hs, hd, hi'⟩ := hr
    obtain ⟨x, m', hf, k1, k2, k3, k4⟩ := hsome b s' m1 h1 hs hd hk
    refine ⟨some x, s', m', hf, ⟨?_, ?_⟩, fun y hy => by cases hy; exact ⟨b, m1, h1, k4⟩⟩
    · refine hk.trans fun c hc y hy => k3 y fun hb => hd c hc y ⟨hb, hy⟩
    · rw [if_neg h0]
      exact ⟨some b, m1, h1, x, rfl, k1, k2, hs.1, hd, hA.frame hi' (fun y hy => k3 y (hy b (by simp))), k3⟩

theorem cast_ok {b : Block} {l V : Layout} (hV : V.ValidType t) (hs : b.Serves l) (ha : V.align ∣ l.align) (hsz : V.size ≤ l.size) :
    (fromMemory b.ptr b.layout.size).cast V = .ok ⟨b.ptr, b.layout.size, V⟩ :=
  (C40_cast hV).1 ⟨Nat.dvd_trans ha hs.2.1, Nat.le_trans hsz hs.2.2⟩

theorem allocT_pos {V : Layout} (h0 : V.size ≠ 0) :
    (∀ s' m1, A.alloc s m V = .ret (none, s', m1) → allocT A s m V = .ret (none, s', m1)) ∧
    (∀ b s' m1, V.ValidType t → A.alloc s m V = .ret (some b, s', m1) → b.Serves V → allocT A s m V = .ret (some ⟨b.ptr, b.layout.size, V⟩, s', m1)) := by
  obtain ⟨k, hk, rfl⟩ := fromLayout_pos h0
  constructor
  · intro s' m1 h
    simp only [allocT, NonZeroLayout.new, hk, allocLayout_eq h, bind, Outcome.bind, Option.map, orNone]
  · intro b s' m1 hV h hs
    simp only [allocT, NonZeroLayout.new, hk, allocLayout_eq h, bind, Outcome.bind, Option.map, orNone, AllocExt.cast,
      cast_ok hV hs (Nat.dvd_refl _) (Nat.le_refl _), Outcome.unwrap]
    rfl

theorem allocT_zero {V : Layout} (hV : V.ValidType t) (h0 : V.size = 0) : allocT A s m V = .ret (some ⟨V.align, 0, V⟩, s, m) := by
  simp only [allocT, NonZeroLayout.new, fromLayout_zero h0, zstFakeAlloc, (C43_invent_for_zst hV).1 h0, bind, Outcome.bind]
  rfl

theorem follows_zero {l : Layout} (h0 : l.size = 0) {place : α → Region} {x : α} (h1 : CanHold (place x) l) (h2 : (place x).start ≠ 0) (h3 : (place x).size = 0) :
    Follows A Inv live s m l place (some x) s m :=
  ⟨fun _ _ _ _ => rfl, by rw [if_pos h0]; exact ⟨x, rfl, rfl, rfl, h1, h2, h3⟩⟩

theorem onlyIn_refl (r : Region) (m : Mem) : OnlyIn r m m := fun _ _ => rfl

theorem onlyIn_write {r : Region} {m : Mem} {p : Nat} {bs : List Byte} (h1 : r.start ≤ p) (h2 : p + bs.length ≤ r.start + r.size) : OnlyIn r m (writeBytes m p bs) := by
  intro x hx
  apply writeBytes_of_not_mem
  intro h
  exact hx ⟨by omega, by omega⟩

theorem onlyIn_trans {r : Region} {a b c : Mem} (h1 : OnlyIn r a b) (h2 : OnlyIn r b c) : OnlyIn r a c := fun x hx => (h2 x hx).trans (h1 x hx)

/-! ## C58 -/

/-- **C58** `alloc_layout` answers what the allocator answers, as a view of all of the block. -/
theorem C58_alloc_layout (hA : Contract t A Inv) (hi : Inv s m live) {k : NonZeroLayout} (hl : k.toLayout.Valid t) (h0 : k.toLayout.size ≠ 0) :
    ∃ r s' m', allocLayout A s m k = .ret (r, s', m') ∧ Follows A Inv live s m k.toLayout (fun v => (AnyView.sized v).region) r s' m' ∧
      ∀ v, r = some v → v.T = unit ∧ ∃ b m1, A.alloc s m k.toLayout = .ret (some b, s', m1) ∧ (AnyView.sized v).region = b.region := by
  obtain ⟨r, s', m', h1, h2, h3⟩ := follows_of (α := View) (f := allocLayout A s m k) (place := fun v => (AnyView.sized v).region) hA hi hl h0
    (fun v _ b => v.T = unit ∧ (AnyView.sized v).region = b.region)
    (fun s' m1 h => by rw [allocLayout_eq h]; rfl)
    (fun b s' m1 h hs hd hk => ⟨fromMemory b.ptr b.layout.size, m1, by rw [allocLayout_eq h]; rfl, ⟨Nat.le_refl _, Nat.le_refl _⟩, ⟨hs.2.1, hs.2.2⟩, onlyIn_refl _ _, rfl, rfl⟩)
  exact ⟨r, s', m', h1, h2, fun v hv => by obtain ⟨b, m1, e, q1, q2⟩ := h3 v hv; exact ⟨q1, b, m1, e, q2⟩⟩

/-- **C58** `alloc_t` for every type: it does not panic, fails exactly if the allocator fails, and never for a zero-sized type; the view is for the type and memory is only reserved, not written. -/
theorem C58_alloc_t (hA : Contract t A Inv) (hi : Inv s m live) {V : Layout} (hV : V.ValidType t) :
    ∃ r s' m', allocT A s m V = .ret (r, s', m') ∧ Follows A Inv live s m V (fun v => (AnyView.sized v).region) r s' m' ∧ ∀ v, r = some v → v.T = V := by
  by_cases h0 : V.size = 0
  · refine ⟨_, _, _, allocT_zero hV h0, follows_zero h0 ⟨Nat.dvd_refl _, by rw [h0]; exact Nat.zero_le _⟩ (Nat.ne_of_gt hV.1.1.pos) rfl, fun v hv => by cases hv; rfl⟩
  · obtain ⟨r, s', m', h1, h2, h3⟩ := follows_of (α := View) (f := allocT A s m V) (place := fun v => (AnyView.sized v).region) hA hi hV.1 h0 (fun v _ _ => v.T = V)
      (allocT_pos (t := t) h0).1
      (fun b s' m1 h hs hd hk => ⟨_, m1, (allocT_pos h0).2 b s' m1 hV h hs, ⟨Nat.le_refl _, Nat.le_refl _⟩, ⟨hs.2.1, hs.2.2⟩, onlyIn_refl _ _, rfl⟩)
    exact ⟨r, s', m', h1, h2, fun v hv => by obtain ⟨_, _, _, q⟩ := h3 v hv; exact q⟩

/-- **C58** `boxed`: does not panic, fails exactly if the allocator fails; the value is stored at the address of the box. -/
theorem C58_boxed (hA : Contract t A Inv) (hi : Inv s m live) {V : Layout} (hV : V.ValidType t) {bytes : List Byte} (hb : bytes.length = V.size) :
    ∃ r s' m', boxed A s m V bytes = .ret (r, s', m') ∧ Follows A Inv live s m V (fun v => (AnyView.sized v).region) r s' m' ∧
      ∀ v, r = some v → v.T = V ∧ readBytes m' v.addr V.size = bytes := by
  by_cases h0 : V.size = 0
  · obtain rfl : bytes = [] := List.length_eq_zero_iff.mp (hb.trans h0)
    refine ⟨some ⟨V.align, 0, V⟩, s, m, ?_, follows_zero h0 ⟨Nat.dvd_refl _, by rw [h0]; exact Nat.zero_le _⟩ (Nat.ne_of_gt hV.1.1.pos) rfl, fun v hv => by cases hv; exact ⟨rfl, by rw [h0]; rfl⟩⟩
    simp only [boxed, allocT_zero hV h0, bind, Outcome.bind, orNone, View.init, writeBytes_nil]
    rfl
  · obtain ⟨r, s', m', h1, h2, h3⟩ := follows_of (α := View) (f := boxed A s m V bytes) (place := fun v => (AnyView.sized v).region) hA hi hV.1 h0
      (fun v m' _ => v.T = V ∧ readBytes m' v.addr V.size = bytes)
      (fun s' m1 h => by simp only [boxed, (allocT_pos (t := t) h0).1 s' m1 h, bind, Outcome.bind, orNone])
      (fun b s' m1 h hs hd hk => ⟨⟨b.ptr, b.layout.size, V⟩, writeBytes m1 b.ptr bytes, by
        simp only [boxed, (allocT_pos h0).2 b s' m1 hV h hs, bind, Outcome.bind, orNone]; rfl,
        ⟨Nat.le_refl _, Nat.le_refl _⟩, ⟨hs.2.1, hs.2.2⟩, onlyIn_write (Nat.le_refl _) (by rw [hb]; have := hs.2.2; simp only [Block.region]; omega), rfl, by
          rw [← hb]; exact readBytes_writeBytes_self _ _ _⟩)
    exact ⟨r, s', m', h1, h2, fun v hv => by obtain ⟨_, _, _, q⟩ := h3 v hv; exact q⟩

theorem rcLayout_pos (t : Target) (V : Layout) : (RcM.rcLayout t V).size ≠ 0 := by
  have hw : 0 < t.wordBytes := by cases t <;> decide
  have := le_alignUp (a := max V.align t.wordBytes) (by omega) (alignUp t.wordBytes V.size + t.wordBytes + t.wordBytes)
  simp only [RcM.rcLayout]
  omega

theorem loadUsize_other {t : Target} {m : Mem} {a p v : Nat} (h : a + t.wordBytes ≤ p ∨ p + t.wordBytes ≤ a) : loadUsize t (storeUsize t m p v) a = loadUsize t m a :=
  loadUsize_congr fun x h1 h2 => storeUsize_of_not_mem (by omega)

/-- **C58** `rc`: does not panic, fails exactly if the allocator fails; the value is stored at the start and both counts are 1. -/
theorem C58_rc (hA : Contract t A Inv) (hi : Inv s m live) {V : Layout} (hV : V.ValidType t) (hR : (RcM.rcLayout t V).ValidType t) {bytes : List Byte} (hb : bytes.length = V.size) :
    ∃ r s' m', AllocExt.rc t A s m V bytes = .ret (r, s', m') ∧ Follows A Inv live s m (RcM.rcLayout t V) (fun v => (AnyView.sized v).region) r s' m' ∧
      ∀ v, r = some v → v.T = RcM.rcLayout t V ∧ readBytes m' v.addr V.size = bytes ∧
        ∃ val strong weak, rcFieldRegions t V v.addr = [val, strong, weak] ∧ loadUsize t m' strong.start = 1 ∧ loadUsize t m' weak.start = 1 := by
  have h0 := rcLayout_pos t V
  obtain ⟨k, hk, ek⟩ := fromLayout_pos h0
  obtain ⟨f1, f2, f3, f4, f5, _⟩ := fields_within hV
  have hw : 0 < t.wordBytes := by cases t <;> decide
  have h1W : 1 < t.W := by cases t <;> decide
  obtain ⟨r, s', m', h1, h2, h3⟩ := follows_of (α := View) (f := AllocExt.rc t A s m V bytes) (place := fun v => (AnyView.sized v).region) hA hi hR.1 h0
    (fun v m' _ => v.T = RcM.rcLayout t V ∧ readBytes m' v.addr V.size = bytes ∧
        ∃ val strong weak, rcFieldRegions t V v.addr = [val, strong, weak] ∧ loadUsize t m' strong.start = 1 ∧ loadUsize t m' weak.start = 1)
    (fun s' m1 h => by
      rw [← ek] at h
      simp only [AllocExt.rc, hk, Outcome.unwrap, allocLayout_eq h, bind, Outcome.bind, orNone, Option.map])
    (fun b s' m1 h hs hd hkept => by
      rw [← ek] at h
      have hn : RcM.newView t V (fromMemory b.ptr b.layout.size) = .ret ⟨b.ptr, b.layout.size, RcM.rcLayout t V⟩ := by
        have hc : CanHold (AnyView.sized (fromMemory b.ptr b.layout.size)).region (RcM.rcLayout t V) := ⟨hs.2.1, hs.2.2⟩
        rw [RcM.newView, if_pos ((C40_fits hR).mpr hc), (C40_cast hR).1 hc]; rfl
      have hsz := hs.2.2
      have es : strongAddr t V b.ptr = b.ptr + alignUp t.wordBytes V.size := by rw [strongAddr, f1]; rfl
      have ew : weakAddr t V b.ptr = b.ptr + (alignUp t.wordBytes V.size + t.wordBytes) := by rw [weakAddr, f1]; rfl
      refine ⟨⟨b.ptr, b.layout.size, RcM.rcLayout t V⟩, storeUsize t (storeUsize t (writeBytes m1 b.ptr bytes) (strongAddr t V b.ptr) 1) (weakAddr t V b.ptr) 1, ?_,
        ⟨Nat.le_refl _, Nat.le_refl _⟩, ⟨hs.2.1, hs.2.2⟩, ?_, rfl, ?_, ?_⟩
      · simp only [AllocExt.rc, hk, Outcome.unwrap, allocLayout_eq h, bind, Outcome.bind, orNone, Option.map, hn]
        rfl
      · refine onlyIn_trans (onlyIn_trans (onlyIn_write (Nat.le_refl _) ?_) (onlyIn_write ?_ ?_)) (onlyIn_write ?_ ?_) <;>
          simp only [Block.region, hb, length_leBytes, es, ew] <;> omega
      · rw [readBytes_congr (m := writeBytes m1 b.ptr bytes), ← hb]
        · exact readBytes_writeBytes_self _ _ _
        · intro x hx1 hx2
          dsimp only at hx1 hx2
          rw [storeUsize_of_not_mem (by rw [ew]; omega), storeUsize_of_not_mem (by rw [es]; omega)]
      · refine ⟨⟨b.ptr, V.size⟩, ⟨strongAddr t V b.ptr, t.wordBytes⟩, ⟨weakAddr t V b.ptr, t.wordBytes⟩, ?_, ?_, loadUsize_storeUsize _ _ _ h1W⟩
        · simp only [rcFieldRegions, f1, es, ew]
          simp [RcM.fields]
        · rw [loadUsize_other (by simp only [es, ew]; omega)]
          exact loadUsize_storeUsize _ _ _ h1W)
  exact ⟨r, s', m', h1, h2, fun v hv => by obtain ⟨_, _, _, q⟩ := h3 v hv; exact q⟩

/-! ## Slices -/

theorem sliceMemory_pos {V l : Layout} (h0 : l.size ≠ 0) (hal : V.align = l.align) :
    (∀ s' m1, A.alloc s m l = .ret (none, s', m1) → sliceMemory t A s m V l = .ret (none, s', m1)) ∧
    (∀ b s' m1, V.ValidType t → A.alloc s m l = .ret (some b, s', m1) → b.Serves l →
      sliceMemory t A s m V l = .ret (some ⟨b.ptr, b.layout.size, V, sliceCap t b.layout.size V⟩, s', m1)) := by
  obtain ⟨k, hk, rfl⟩ := fromLayout_pos h0
  constructor
  · intro s' m1 h
    simp only [sliceMemory, hk, allocLayout_eq h, bind, Outcome.bind, Option.map, orNone]
  · intro b s' m1 hV h hs
    have hc : (fromMemory b.ptr b.layout.size).castSlice t V = .ok ⟨b.ptr, b.layout.size, V, sliceCap t b.layout.size V⟩ := by
      rcases castSlice_eq (t := t) (v := fromMemory b.ptr b.layout.size) (U := V) hV.1.1.pos with ⟨_, e⟩ | ⟨h', _⟩
      · exact e
      · exact absurd (hal ▸ hs.2.1) h'
    simp only [sliceMemory, hk, allocLayout_eq h, bind, Outcome.bind, Option.map, orNone, AllocExt.castSlice, hc, Outcome.unwrap]
    rfl

theorem sliceMemory_zero {V l : Layout} (h0 : l.size = 0) : sliceMemory t A s m V l = .ret (some (Uninit.empty V), s, m) := by
  simp only [sliceMemory, fromLayout_zero h0]

theorem valid_pos {l : Layout} (h : l.Valid t) : 0 < l.align := h.1.pos

/-! ## C60 -/

/-- **C60** `fixed_vec`: if the size overflows or is not a valid layout then it returns `None` without using the allocator. Otherwise it does not panic and fails exactly if the allocator fails (never if no memory is needed).
The vector is empty, has room for `n` elements - exactly `n` if the allocator returns exact layouts, unlimited for zero-sized elements -, all in the memory of the block. -/
theorem C60_fixed_vec (hA : Contract t A Inv) (hi : Inv s m live) {V : Layout} (hV : V.ValidType t) {n : Nat} (hn : n < t.W) :
    (¬ (⟨V.size * n, V.align⟩ : Layout).Valid t → fixedVec t A s m V n = .ret (none, s, m)) ∧
    ((⟨V.size * n, V.align⟩ : Layout).Valid t → ∃ r s' m', fixedVec t A s m V n = .ret (r, s', m') ∧
      Follows A Inv live s m ⟨V.size * n, V.align⟩ (fun f => (AnyView.slice f.uninit).region) r s' m' ∧
      ∀ f, r = some f → f.len = 0 ∧ f.uninit.T = V ∧ n ≤ f.capacity t ∧ (V.size = 0 → f.capacity t = t.usizeMax) ∧
        f.capacity t * V.size ≤ (AnyView.slice f.uninit).region.size ∧ (Exact A → 0 < V.size → f.capacity t = n)) := by
  have hmax : t.isizeMax < t.W := by have := Bump.isizeMax_lt t; omega
  constructor
  · intro h
    unfold fixedVec
    by_cases h1 : V.size * n < t.W
    · simp only [Usize.checkedMul, h1, if_true, layoutFromSizeAlign_of_not_valid hV.1.1 h]
    · simp only [Usize.checkedMul, h1, if_false]
  · intro h
    have h1 : V.size * n < t.W := by have := h.2; simp only at this; omega
    have e : fixedVec t A s m V n = (sliceMemory t A s m V ⟨V.size * n, V.align⟩).bind fun x => orNone x fun uninit s m => pure (some (FVec.FixedVec.new uninit), s, m) := by
      simp only [fixedVec, Usize.checkedMul, h1, if_true, layoutFromSizeAlign_of_valid h]
      rfl
    by_cases h0 : V.size * n = 0
    · refine ⟨some (FVec.FixedVec.new (Uninit.empty V)), s, m, ?_, follows_zero h0 ⟨Nat.dvd_refl _, by simp [h0]⟩ (Nat.ne_of_gt hV.1.1.pos) rfl, ?_⟩
      · rw [e, sliceMemory_zero h0]; rfl
      · intro f hf
        cases hf
        have hc : (FVec.FixedVec.new (Uninit.empty V)).capacity t = if V.size = 0 then t.usizeMax else 0 := by
          simp only [FVec.FixedVec.capacity, FVec.FixedVec.new, SliceView.capacity, Uninit.empty, Nat.zero_div]
        refine ⟨rfl, rfl, ?_, fun hz => by rw [hc, if_pos hz], ?_, fun _ hp => ?_⟩
        · rw [hc]
          rcases Nat.mul_eq_zero.mp h0 with hz | rfl
          · rw [if_pos hz]; simp only [Target.usizeMax]; omega
          · exact Nat.zero_le _
        · rw [hc]
          by_cases hz : V.size = 0
          · simp [hz]
          · simp [hz]
        · rw [hc, if_neg (by omega)]
          rcases Nat.mul_eq_zero.mp h0 with hz | rfl
          · omega
          · rfl
    · have hVp : 0 < V.size := Nat.pos_of_ne_zero fun hz => h0 (by rw [hz, Nat.zero_mul])
      obtain ⟨r, s', m', h1, h2, h3⟩ := follows_of (α := FVec.FixedVec) (f := fixedVec t A s m V n) (place := fun f => (AnyView.slice f.uninit).region) (l := ⟨V.size * n, V.align⟩) hA hi h h0
        (fun f _ b => f.len = 0 ∧ f.uninit.T = V ∧ f.capacity t = b.layout.size / V.size ∧ (AnyView.slice f.uninit).region = b.region ∧ V.size * n ≤ b.layout.size)
        (fun s' m1 h => by rw [e, (sliceMemory_pos (t := t) (V := V) (l := ⟨V.size * n, V.align⟩) h0 rfl).1 s' m1 h]; rfl)
        (fun b s' m1 h hs hd hk => ⟨FVec.FixedVec.new ⟨b.ptr, b.layout.size, V, sliceCap t b.layout.size V⟩, m1, by
          rw [e, (sliceMemory_pos (t := t) (V := V) (l := ⟨V.size * n, V.align⟩) h0 rfl).2 b s' m1 hV h hs]; rfl,
          ⟨Nat.le_refl _, Nat.le_refl _⟩, ⟨hs.2.1, hs.2.2⟩, onlyIn_refl _ _, rfl, rfl, by
            exact if_neg (Nat.ne_of_gt hVp), rfl, hs.2.2⟩)
      refine ⟨r, s', m', h1, h2, fun f hf => ?_⟩
      obtain ⟨b, m1, ha, q1, q2, q3, q4, q5⟩ := h3 f hf
      refine ⟨q1, q2, ?_, fun hz => by omega, ?_, fun hE _ => ?_⟩
      · rw [q3, Nat.le_div_iff_mul_le hVp, Nat.mul_comm]; exact q5
      · rw [q3, q4]; exact Nat.div_mul_le_self _ _
      · rw [q3, hE _ _ _ _ _ _ ha]; exact Nat.mul_div_cancel_left _ hVp

/-- **C58** `fixed_vec` never panics; it returns `None` exactly if the layout does not exist or the allocator cannot serve it (if no memory is needed: never). -/
theorem C58_fixed_vec (hA : Contract t A Inv) (hi : Inv s m live) {V : Layout} (hV : V.ValidType t) {n : Nat} (hn : n < t.W) :
    ∃ r s' m', fixedVec t A s m V n = .ret (r, s', m') ∧
      (r = none ↔ ¬ (⟨V.size * n, V.align⟩ : Layout).Valid t ∨ (V.size * n ≠ 0 ∧ ∃ s1 m1, A.alloc s m ⟨V.size * n, V.align⟩ = .ret (none, s1, m1))) := by
  obtain ⟨h1, h2⟩ := C60_fixed_vec hA hi hV hn
  by_cases hl : (⟨V.size * n, V.align⟩ : Layout).Valid t
  · obtain ⟨r, s', m', e, hf, _⟩ := h2 hl
    refine ⟨r, s', m', e, ?_⟩
    have hf := hf.2
    by_cases h0 : V.size * n = 0
    · rw [if_pos h0] at hf
      obtain ⟨x, rfl, _⟩ := hf
      exact ⟨fun h => (by cases h), fun h => h.elim (fun h => absurd hl h) fun h => absurd h0 h.1⟩
    · rw [if_neg h0] at hf
      obtain ⟨a, m1, ea, hf⟩ := hf
      cases a with
      | none => exact ⟨fun _ => .inr ⟨h0, s', m1, ea⟩, fun _ => hf.1⟩
      | some b =>
        obtain ⟨x, rfl, _⟩ := hf
        exact ⟨fun h => (by cases h), fun h => h.elim (fun h => absurd hl h) fun ⟨_, _, _, h⟩ => (by rw [ea] at h; cases h)⟩
  · exact ⟨none, s, m, h1 hl, by simp [hl]⟩


/-! ## C59 -/

theorem elements_congr {m m' : Mem} {a src size n : Nat} (h : ∀ k, k < n * size → m' (a + k) = m (src + k)) : elements m' a size n = elements m src size n := by
  unfold elements
  apply List.map_congr_left
  intro i hi
  unfold readBytes
  apply List.map_congr_left
  intro j hj
  have hi := List.mem_range.mp hi
  have hj := List.mem_range.mp hj
  have : i * size + j < n * size := by
    have := Nat.mul_le_mul_right size (show i + 1 ≤ n from hi)
    rw [Nat.add_mul, Nat.one_mul] at this
    omega
  have := h _ this
  rwa [← Nat.add_assoc, ← Nat.add_assoc] at this

theorem ptrCopy_at {m : Mem} {src dst n k : Nat} (hk : k < n) : ptrCopy m src dst n (dst + k) = m (src + k) := by
  unfold ptrCopy
  rw [writeBytes_of_mem (by rw [length_readBytes]; exact hk)]
  simp [readBytes]

theorem onlyIn_copy {r : Region} {m : Mem} {src dst n : Nat} (h1 : r.start ≤ dst) (h2 : dst + n ≤ r.start + r.size) : OnlyIn r m (ptrCopy m src dst n) :=
  onlyIn_write h1 (by rw [length_readBytes]; exact h2)

/-- What `copy_slice` does, with any allocator. -/
theorem copySlice_spec (hA : Contract t A Inv) (hi : Inv s m live) {T : Layout} (hT : T.ValidType t) {src n : Nat} (hl : (⟨n * T.size, T.align⟩ : Layout).Valid t) :
    ∃ r s' m', copySlice t A s m T src n = .ret (r, s', m') ∧
      Follows A Inv live s m ⟨n * T.size, T.align⟩ (fun x => ⟨x.1, x.2 * T.size⟩) r s' m' ∧
      ∀ x, r = some x → if n * T.size = 0 then x = (T.align, 0) ∧ m' = m else ∃ b m1, A.alloc s m ⟨n * T.size, T.align⟩ = .ret (some b, s', m1) ∧
        x = (b.ptr, b.layout.size / T.size) ∧ b.Serves ⟨n * T.size, T.align⟩ ∧ m' = ptrCopy m1 src b.ptr (n * T.size) := by
  have e : copySlice t A s m T src n = (sliceMemory t A s m T ⟨n * T.size, T.align⟩).bind fun x => orNone x fun (uninit : SliceView) s m =>
      pure (some (uninit.addr, uninit.count), s, ptrCopy m src uninit.addr (n * T.size)) := rfl
  by_cases h0 : n * T.size = 0
  · refine ⟨some (T.align, 0), s, m, ?_, follows_zero h0 ⟨Nat.dvd_refl _, by simp [h0]⟩ (Nat.ne_of_gt hT.1.1.pos) (Nat.zero_mul _), fun x hx => ?_⟩
    · rw [e, sliceMemory_zero h0, h0]
      show Outcome.ret _ = _
      simp only [ptrCopy, Uninit.empty]
      rw [show readBytes m src 0 = [] from rfl, writeBytes_nil]
    · cases hx
      rw [if_pos h0]
      exact ⟨rfl, rfl⟩
  · have hTp : 0 < T.size := Nat.pos_of_ne_zero fun hz => h0 (by rw [hz, Nat.mul_zero])
    obtain ⟨r, s', m', h1, h2, h3⟩ := follows_of (α := Nat × Nat) (f := copySlice t A s m T src n) (place := fun x => ⟨x.1, x.2 * T.size⟩) (l := ⟨n * T.size, T.align⟩) hA hi hl h0
      (fun x m' b => ∃ s' m1, A.alloc s m ⟨n * T.size, T.align⟩ = .ret (some b, s', m1) ∧ x = (b.ptr, b.layout.size / T.size) ∧ b.Serves ⟨n * T.size, T.align⟩ ∧ m' = ptrCopy m1 src b.ptr (n * T.size))
      (fun s' m1 h => by rw [e, (sliceMemory_pos (t := t) (V := T) (l := ⟨n * T.size, T.align⟩) h0 rfl).1 s' m1 h]; rfl)
      (fun b s' m1 h hs hd hk => by
        have hsz : n * T.size ≤ b.layout.size := hs.2.2
        have hdiv := Nat.div_mul_le_self b.layout.size T.size
        have hn : n ≤ b.layout.size / T.size := (Nat.le_div_iff_mul_le hTp).mpr hsz
        have := Nat.mul_le_mul_right T.size hn
        refine ⟨(b.ptr, b.layout.size / T.size), ptrCopy m1 src b.ptr (n * T.size), ?_, ?_, ⟨hs.2.1, this⟩, onlyIn_copy (Nat.le_refl _) ?_, s', m1, h, rfl, hs, rfl⟩
        · rw [e, (sliceMemory_pos (t := t) (V := T) (l := ⟨n * T.size, T.align⟩) h0 rfl).2 b s' m1 hT h hs]
          show Outcome.ret _ = _
          simp only [sliceCap, if_neg (Nat.ne_of_gt hTp)]
        · simp only [Region.Within, Block.region]; omega
        · simp only [Block.region]; omega)
    refine ⟨r, s', m', h1, h2, fun x hx => ?_⟩
    obtain ⟨b, m1, ha, s2, m2, ha2, q⟩ := h3 x hx
    rw [if_neg h0]
    rw [ha] at ha2
    cases ha2
    exact ⟨b, m1, ha, q⟩

/-- **C58** `copy_slice` of every slice: it does not panic, fails exactly if the allocator fails and never if no memory is needed. -/
theorem C58_copy_slice (hA : Contract t A Inv) (hi : Inv s m live) {T : Layout} (hT : T.ValidType t) {src n : Nat} (hl : (⟨n * T.size, T.align⟩ : Layout).Valid t) :
    ∃ r s' m', copySlice t A s m T src n = .ret (r, s', m') ∧ Follows A Inv live s m ⟨n * T.size, T.align⟩ (fun x => ⟨x.1, x.2 * T.size⟩) r s' m' := by
  obtain ⟨r, s', m', h1, h2, _⟩ := copySlice_spec hA hi hT (src := src) hl
  exact ⟨r, s', m', h1, h2⟩

theorem u8_valid (t : Target) : u8.ValidType t := ⟨⟨⟨0, rfl⟩, by cases t <;> decide⟩, by decide⟩

theorem copyStr_eq {src n : Nat} : copyStr t A s m src n = copySlice t A s m u8 src n := by
  unfold copyStr
  cases copySlice t A s m u8 src n with
  | ret x =>
    obtain ⟨r, s', m'⟩ := x
    cases r <;> rfl
  | panic => rfl
  | ub => rfl

/-- **C58** `copy_str` of every string. -/
theorem C58_copy_str (hA : Contract t A Inv) (hi : Inv s m live) {src n : Nat} (hl : n ≤ t.isizeMax) :
    ∃ r s' m', copyStr t A s m src n = .ret (r, s', m') ∧ Follows A Inv live s m ⟨n, 1⟩ (fun x => ⟨x.1, x.2⟩) r s' m' := by
  have hv : (⟨n * u8.size, u8.align⟩ : Layout).Valid t := ⟨⟨0, rfl⟩, by simpa [u8] using hl⟩
  obtain ⟨r, s', m', h1, h2⟩ := C58_copy_slice hA hi (u8_valid t) (src := src) hv
  rw [copyStr_eq]
  simp only [u8, Nat.mul_one] at h2
  exact ⟨r, s', m', h1, h2⟩

/-- **C59**, for every allocator: the source is unchanged; the result is disjoint from it; the first `n` elements of the result (all it has room for) equal the source. -/
theorem C59_copy_slice_prefix (hA : Contract t A Inv) (hi : Inv s m live) {T : Layout} (hT : T.ValidType t) {src n : Nat} (hl : (⟨n * T.size, T.align⟩ : Layout).Valid t)
    (hu : InUse t A s m ⟨src, n * T.size⟩) (hz : 0 < T.size ∨ n = 0) {a cnt : Nat} {s' : σ} {m' : Mem} (h : copySlice t A s m T src n = .ret (some (a, cnt), s', m')) :
    n ≤ cnt ∧ elements m' a T.size n = elements m src T.size n ∧ elements m' src T.size n = elements m src T.size n ∧ (0 < n → (⟨a, cnt * T.size⟩ : Region).Disjoint ⟨src, n * T.size⟩) := by
  obtain ⟨r, s2, m2, e, _, h3⟩ := copySlice_spec hA hi hT (src := src) hl
  rw [h] at e
  cases e
  have h3 := h3 _ rfl
  by_cases h0 : n * T.size = 0
  · rw [if_pos h0] at h3
    obtain ⟨hx, rfl⟩ := h3
    cases hx
    have : n = 0 := by
      rcases hz with hz | hz
      · rcases Nat.mul_eq_zero.mp h0 with hz' | hz' <;> omega
      · exact hz
    subst this
    exact ⟨Nat.le_refl _, rfl, rfl, fun hp => by omega⟩
  · rw [if_neg h0] at h3
    obtain ⟨b, m1, ha, hx, hs, rfl⟩ := h3
    cases hx
    obtain ⟨k1, k2⟩ := hu _ hl (Nat.pos_of_ne_zero h0) _ _ _ ha
    have k2 := k2 b rfl
    have hTp : 0 < T.size := Nat.pos_of_ne_zero fun hz => h0 (by rw [hz, Nat.mul_zero])
    have hsz : n * T.size ≤ b.layout.size := hs.2.2
    have hdiv := Nat.div_mul_le_self b.layout.size T.size
    refine ⟨(Nat.le_div_iff_mul_le hTp).mpr hsz, ?_, ?_, fun _ x hx => k2 x ⟨?_, hx.2⟩⟩
    · refine elements_congr fun k hk => ?_
      rw [ptrCopy_at hk]
      exact k1 _ ⟨by simp only; omega, by simp only; omega⟩
    · refine elements_congr fun k hk => ?_
      have hin : (⟨src, n * T.size⟩ : Region).Has (src + k) := ⟨by simp only; omega, by simp only; omega⟩
      have := onlyIn_copy (r := b.region) (m := m1) (src := src) (dst := b.ptr) (n := n * T.size) (Nat.le_refl _) (by simp only [Block.region]; omega) (src + k) (fun hb => k2 _ ⟨hb, hin⟩)
      rw [this]
      exact k1 _ hin
    · have := hx.1
      simp only [Region.Has, Block.region] at this ⊢
      omega

/-- **C59**, for allocators returning exact layouts and elements that are not zero-sized: the result equals the source as a slice (same length and elements), the source is unchanged, and both are disjoint.
Missing are zero-sized elements and allocators returning larger blocks, for which it is violated: see the theorems below. -/
theorem C59_copy_slice_partial (hA : Contract t A Inv) (hE : Exact A) (hi : Inv s m live) {T : Layout} (hT : T.ValidType t) {src n : Nat} (hl : (⟨n * T.size, T.align⟩ : Layout).Valid t)
    (hu : InUse t A s m ⟨src, n * T.size⟩) (hz : 0 < T.size ∨ n = 0) {a cnt : Nat} {s' : σ} {m' : Mem} (h : copySlice t A s m T src n = .ret (some (a, cnt), s', m')) :
    elements m' a T.size cnt = elements m src T.size n ∧ elements m' src T.size n = elements m src T.size n ∧ (0 < n → (⟨a, cnt * T.size⟩ : Region).Disjoint ⟨src, n * T.size⟩) := by
  obtain ⟨p1, p2, p3, p4⟩ := C59_copy_slice_prefix hA hi hT hl hu hz h
  refine ⟨?_, p3, p4⟩
  obtain ⟨r, s2, m2, e, _, h3⟩ := copySlice_spec hA hi hT (src := src) hl
  rw [h] at e
  cases e
  have h3 := h3 _ rfl
  have : cnt = n := by
    by_cases h0 : n * T.size = 0
    · rw [if_pos h0] at h3
      have : cnt = 0 := congrArg Prod.snd h3.1
      omega
    · rw [if_neg h0] at h3
      obtain ⟨b, m1, ha, hx, hs, _⟩ := h3
      have : cnt = b.layout.size / T.size := congrArg Prod.snd hx
      have hTp : 0 < T.size := Nat.pos_of_ne_zero fun hz => h0 (by rw [hz, Nat.mul_zero])
      rw [this, hE _ _ _ _ _ _ ha]
      exact Nat.mul_div_cancel _ hTp
  rw [this]
  exact p2

/-- **C59** is violated for zero-sized elements: with every allocator a non-empty slice is copied to an empty one. -/
theorem C59_violated_zst {T : Layout} (h0 : T.size = 0) {src n : Nat} (hn : 0 < n) :
    ∃ a cnt s' m', copySlice t A s m T src n = .ret (some (a, cnt), s', m') ∧ elements m' a T.size cnt ≠ elements m src T.size n := by
  have e : copySlice t A s m T src n = (sliceMemory t A s m T ⟨n * T.size, T.align⟩).bind fun x => orNone x fun (uninit : SliceView) s m =>
      pure (some (uninit.addr, uninit.count), s, ptrCopy m src uninit.addr (n * T.size)) := rfl
  refine ⟨T.align, 0, s, ptrCopy m src T.align (n * T.size), ?_, fun h => ?_⟩
  · rw [e, sliceMemory_zero (by simp [h0])]; rfl
  · have := congrArg List.length h
    simp [elements] at this
    omega

/-- **C59** is violated by every allocator that returns a block with room for more elements than requested, as the trait allows: the returned slice is longer than the source. The further elements are whatever was in the memory, which nobody has initialised. -/
theorem C59_violated_larger (hA : Contract t A Inv) (hi : Inv s m live) {T : Layout} (hT : T.ValidType t) {src n : Nat} (hl : (⟨n * T.size, T.align⟩ : Layout).Valid t) (h0 : 0 < n * T.size)
    {b : Block} {s1 : σ} {m1 : Mem} (ha : A.alloc s m ⟨n * T.size, T.align⟩ = .ret (some b, s1, m1)) (hb : (n + 1) * T.size ≤ b.layout.size) :
    ∃ a cnt s' m', copySlice t A s m T src n = .ret (some (a, cnt), s', m') ∧ n < cnt ∧ elements m' a T.size cnt ≠ elements m src T.size n := by
  obtain ⟨r, s2, m2, e, hf, h3⟩ := copySlice_spec hA hi hT (src := src) hl
  have hTp : 0 < T.size := Nat.pos_of_ne_zero fun hz => by rw [hz] at h0; omega
  cases r with
  | none =>
    obtain ⟨_, hf⟩ := hf
    rw [if_neg (by simp only; omega)] at hf
    obtain ⟨a, m3, ha', hf⟩ := hf
    rw [ha] at ha'
    cases ha'
    obtain ⟨x, hx, _⟩ := hf
    cases hx
  | some x =>
    have h3 := h3 _ rfl
    rw [if_neg (by omega)] at h3
    obtain ⟨b', m3, ha', rfl, _⟩ := h3
    rw [ha] at ha'
    cases ha'
    have hlt : n < b.layout.size / T.size := (Nat.le_div_iff_mul_le hTp).mpr hb
    refine ⟨_, _, _, _, e, hlt, fun h => ?_⟩
    have := congrArg List.length h
    simp [elements] at this
    omega

/-- **C59** `copy_str`, with allocators returning exact layouts: the returned string has the same bytes (so it is valid UTF-8, too). -/
theorem C59_copy_str_partial (hA : Contract t A Inv) (hE : Exact A) (hi : Inv s m live) {src n : Nat} (hl : n ≤ t.isizeMax)
    (hu : InUse t A s m ⟨src, n⟩) {a cnt : Nat} {s' : σ} {m' : Mem} (h : copyStr t A s m src n = .ret (some (a, cnt), s', m')) :
    cnt = n ∧ readBytes m' a n = readBytes m src n ∧ readBytes m' src n = readBytes m src n := by
  have hv : (⟨n * u8.size, u8.align⟩ : Layout).Valid t := ⟨⟨0, rfl⟩, by simpa [u8] using hl⟩
  rw [copyStr_eq] at h
  obtain ⟨h1, h2, _⟩ := C59_copy_slice_partial hA hE hi (u8_valid t) hv (by simpa [u8] using hu) (.inl (by decide)) h
  have hf : ∀ (m : Mem) (a n : Nat), (elements m a u8.size n).flatten = readBytes m a n := by
    intro m a n
    simp [elements, u8, readBytes, List.range_succ, List.flatten_eq_flatMap, List.flatMap_map]
    rw [← List.map_eq_flatMap]
  have hlen := congrArg List.length h1
  simp only [elements, List.length_map, List.length_range] at hlen
  subst hlen
  exact ⟨rfl, by rw [← hf, ← hf, h1], by rw [← hf, ← hf, h2]⟩

/-! ## C68 -/

/-- **C68** `copy_dst` of every value that is not zero-sized, with every allocator: it does not panic and fails exactly if the allocator fails; the returned reference has the metadata of the source, is aligned, and refers to a copy of the bytes; the source is unchanged.
Missing is the alignment of zero-sized values: `C68_violated`. -/
theorem C68_copy_dst_partial (hA : Contract t A Inv) (hi : Inv s m live) {l : Layout} (hl : l.Valid t) (h0 : 0 < l.size) {src metadata : Nat} (hu : InUse t A s m ⟨src, l.size⟩) :
    ∃ r s' m', copyDst A s m l src metadata = .ret (r, s', m') ∧ Follows A Inv live s m l (fun x => ⟨x.1, l.size⟩) r s' m' ∧
      ∀ a k, r = some (a, k) → k = metadata ∧ l.align ∣ a ∧ readBytes m' a l.size = readBytes m src l.size ∧ readBytes m' src l.size = readBytes m src l.size := by
  obtain ⟨k, hk, ek⟩ := fromLayout_pos (l := l) (by omega)
  have e : copyDst A s m l src metadata = (allocLayout A s m k).bind fun x => orNone x fun (uninit : View) s m =>
      pure (some (uninit.addr, metadata), s, ptrCopy m src uninit.addr l.size) := by
    simp only [copyDst, dstMemory, hk]; rfl
  obtain ⟨r, s', m', h1, h2, h3⟩ := follows_of (α := Nat × Nat) (f := copyDst A s m l src metadata) (place := fun x => ⟨x.1, l.size⟩) hA hi hl (by omega)
    (fun x m' b => x.2 = metadata ∧ l.align ∣ x.1 ∧ readBytes m' x.1 l.size = readBytes m src l.size ∧ readBytes m' src l.size = readBytes m src l.size)
    (fun s' m1 h => by rw [← ek] at h; rw [e, allocLayout_eq h]; rfl)
    (fun b s' m1 h hs hd hkept => by
      have hsz : l.size ≤ b.layout.size := hs.2.2
      obtain ⟨k1, k2⟩ := hu _ hl h0 _ _ _ h
      have k2 := k2 b rfl
      refine ⟨(b.ptr, metadata), ptrCopy m1 src b.ptr l.size, ?_, ⟨Nat.le_refl _, by simp only [Block.region]; omega⟩, ⟨hs.2.1, Nat.le_refl _⟩, onlyIn_copy (Nat.le_refl _) (by simp only [Block.region]; omega),
        rfl, hs.2.1, ?_, ?_⟩
      · rw [← ek] at h; rw [e, allocLayout_eq h]; rfl
      · simp only [readBytes]
        apply List.map_congr_left
        intro i hi
        have hi := List.mem_range.mp hi
        rw [ptrCopy_at hi]
        exact k1 _ ⟨by simp only; omega, by simp only; omega⟩
      · apply readBytes_congr
        intro x hx1 hx2
        have hin : (⟨src, l.size⟩ : Region).Has x := ⟨hx1, hx2⟩
        have := onlyIn_copy (r := b.region) (m := m1) (src := src) (dst := b.ptr) (n := l.size) (Nat.le_refl _) (by simp only [Block.region]; omega) x (fun hb => k2 _ ⟨hb, hin⟩)
        rw [this]
        exact k1 _ hin)
  exact ⟨r, s', m', h1, h2, fun a k hx => by obtain ⟨_, _, _, q⟩ := h3 _ hx; exact q⟩

/-- **C68** Of a zero-sized value exactly: always succeeds, nothing is allocated or written, the metadata is that of the source, and the reference is aligned if and only if the alignment is 1. -/
theorem C68_zero_sized {l : Layout} (h0 : l.size = 0) {src metadata : Nat} :
    ∃ a, copyDst A s m l src metadata = .ret (some (a, metadata), s, m) ∧ a ≠ 0 ∧ (l.align ∣ a ↔ l.align = 1) := by
  refine ⟨1, ?_, by decide, Nat.dvd_one⟩
  simp only [copyDst, dstMemory, fromLayout_zero h0, (C43_invent_for_zst (unit_valid .w64)).1 rfl, bind, Outcome.bind, orNone, h0]
  show Outcome.ret _ = _
  simp only [ptrCopy]
  rw [show readBytes m src 0 = [] from rfl, writeBytes_nil]
  rfl

/-- **C68** is violated for every zero-sized value of an alignment above 1 (for example a `dyn Trait` made from `[u64; 0]`), with every allocator: the returned reference is not aligned. -/
theorem C68_violated {l : Layout} (h0 : l.size = 0) (hal : 1 < l.align) {src metadata : Nat} :
    ∃ a, copyDst A s m l src metadata = .ret (some (a, metadata), s, m) ∧ ¬ l.align ∣ a := by
  refine ⟨1, ?_, fun h => ?_⟩
  · simp only [copyDst, dstMemory, fromLayout_zero h0, (C43_invent_for_zst (unit_valid .w64)).1 rfl, bind, Outcome.bind, orNone, h0]
    show Outcome.ret _ = _
    simp only [ptrCopy]
    rw [show readBytes m src 0 = [] from rfl, writeBytes_nil]
    rfl
  · have := Nat.le_of_dvd (by decide) h
    omega

end

/-! ## Instances -/

/-- Memory of a live block is in use. -/
theorem inUse_live {σ : Type} {t : Target} {A : LocalAlloc σ} {Inv : σ → Mem → List Block → Prop} (hA : Contract t A Inv) {s : σ} {m : Mem} {live : List Block} (hi : Inv s m live)
    {b : Block} (hb : b ∈ live) {S : Region} (hS : S.Within b.region) : InUse t A s m S := by
  intro l hl h0 r s' m' h
  obtain ⟨r2, s2, m2, e, hk, hr⟩ := hA.alloc hi hl h0
  rw [h] at e
  cases e
  refine ⟨fun x hx => hk b hb x (hS.has hx), fun d hd x hx => ?_⟩
  subst hd
  exact hr.2.1 b hb x ⟨hx.1, hS.has hx.2⟩

/-- Memory outside of a `Bump` is in use. -/
theorem inUse_bump {e : Env} (hv : e.Valid) {c : Nat} (hc : c ≤ e.len) {m : Mem} {S : Region} (hS : S.Disjoint ⟨e.base, e.len⟩) : InUse e.target (localAlloc e) c m S := by
  intro l hl h0 r s' m' h
  rw [localAlloc_spec hv hc m h0 hl.1.pos] at h
  cases hp : e.slab.place l c with
  | none =>
    rw [hp] at h; cases h
    exact ⟨fun _ _ => rfl, fun d hd => by cases hd⟩
  | some a =>
    rw [hp] at h; cases h
    refine ⟨fun _ _ => rfl, fun d hd x hx => hS x ⟨hx.2, ?_⟩⟩
    cases hd
    obtain ⟨_, _, h3, _⟩ := place_block hv hl.1.pos h0 hp (live := []) ⟨hc, by simp, by simp⟩
    have := h3.within ⟨a.ptr, l⟩ (by simp)
    have := h3.le
    have hx := hx.1
    simp only [Region.Has, Block.region] at hx ⊢
    dsimp only at *
    omega

theorem exact_bump (e : Env) : Exact (localAlloc e) := by
  intro s m l b s' m' h
  simp only [localAlloc] at h
  cases hs : tryAllocSeq e s l with
  | ret x =>
    obtain ⟨r, c'⟩ := x
    rw [hs] at h
    cases r with
    | none => cases h
    | some a => cases h; rfl
  | panic => rw [hs] at h; cases h
  | ub => rw [hs] at h; cases h

/-- **C59** for `Bump` and elements that are not zero-sized: `copy_slice` returns a slice equal to the source exactly if the slice fits in the rest of the memory; the source is unchanged. -/
theorem C59_copy_slice_bump {e : Env} (hv : e.Valid) {c : Nat} {m : Mem} {live : List Block} (hi : LInv e c live) {T : Layout} (hT : T.ValidType e.target) {src n : Nat}
    (hl : (⟨n * T.size, T.align⟩ : Layout).Valid e.target) (hz : 0 < n * T.size)
    (hsrc : (∃ b ∈ live, (⟨src, n * T.size⟩ : Region).Within b.region) ∨ (⟨src, n * T.size⟩ : Region).Disjoint ⟨e.base, e.len⟩) :
    (e.slab.Fits ⟨n * T.size, T.align⟩ c →
      ∃ a cnt c' m', copySlice e.target (localAlloc e) c m T src n = .ret (some (a, cnt), c', m') ∧ elements m' a T.size cnt = elements m src T.size n ∧
        elements m' src T.size n = elements m src T.size n ∧ (∀ b ∈ live, (⟨a, n * T.size⟩ : Region).Disjoint b.region) ∧ (⟨a, n * T.size⟩ : Region).Within ⟨e.base, e.len⟩ ∧ T.align ∣ a ∧ Kept live m m') ∧
    (¬ e.slab.Fits ⟨n * T.size, T.align⟩ c → copySlice e.target (localAlloc e) c m T src n = .ret (none, c, m)) := by
  have hA := localAlloc_contract hv
  obtain ⟨r, s', m', h1, hf, h3⟩ := copySlice_spec (m := m) hA hi hT (src := src) hl
  have ha : 0 < (⟨n * T.size, T.align⟩ : Layout).align := hT.1.1.pos
  have hspec := localAlloc_spec hv hi.le m (l := ⟨n * T.size, T.align⟩) hz ha
  have hu : InUse e.target (localAlloc e) c m ⟨src, n * T.size⟩ := by
    rcases hsrc with ⟨b, hb, hw⟩ | hd
    · exact inUse_live hA hi hb hw
    · exact inUse_bump hv hi.le hd
  have hTp : 0 < T.size := Nat.pos_of_ne_zero fun h => by rw [h] at hz; omega
  obtain ⟨hk, hf⟩ := hf
  rw [if_neg (show ¬ (⟨n * T.size, T.align⟩ : Layout).size = 0 from by simp only; omega)] at hf
  obtain ⟨o, m1, e1, hf⟩ := hf
  rw [hspec] at e1
  constructor
  · intro hfit
    cases hp : e.slab.place ⟨n * T.size, T.align⟩ c with
    | none => exact absurd hfit ((Slab.place_none_iff_not_fits ha).mp hp)
    | some p =>
      rw [hp] at e1
      cases e1
      obtain ⟨⟨a, cnt⟩, rfl, hw, hc, hne, hd, hi', _⟩ := hf
      obtain ⟨q1, q2, q3⟩ := C59_copy_slice_partial hA (exact_bump e) hi hT hl hu (.inl hTp) h1
      have hcnt := congrArg List.length q1
      simp only [elements, List.length_map, List.length_range] at hcnt
      subst hcnt
      refine ⟨a, cnt, p.level, m', h1, q1, q2, ?_, ?_, hc.1, hk⟩
      · intro b hb x hx
        exact hd b hb x ⟨hw.has hx.1, hx.2⟩
      · have := (hi' : LInv e p.level _).within ⟨p.ptr, ⟨cnt * T.size, T.align⟩⟩ (by simp)
        have := (hi' : LInv e p.level _).le
        simp only [Region.Within, Block.region] at *
        omega
  · intro hfit
    rw [(Slab.place_none_iff_not_fits ha).mpr hfit] at e1
    cases e1
    obtain ⟨rfl, rfl, _⟩ := hf
    exact h1

/-- An allocator for one block that always gives all of its 64 bytes (rounding up sizes is what many allocators do). -/
def oneBlock : LocalAlloc Bool where
  alloc := fun used m l => if used ∨ 64 < l.size ∨ ¬ l.align ∣ 4096 then .ret (none, used, m) else .ret (some ⟨4096, ⟨64, l.align⟩⟩, true, m)
  dealloc := fun _ m _ => .ret (false, m)

/-- It fulfils the contract of `LocalAlloc`. -/
theorem oneBlock_contract : Contract .w64 oneBlock (fun used _ live => live = [] ∨ used = true ∧ live.length = 1) where
  alloc := by
    intro used m live l hi hl h0
    by_cases h : used = true ∨ 64 < l.size ∨ ¬ l.align ∣ 4096
    · exact ⟨none, used, m, if_pos h, fun _ _ _ _ => rfl, hi⟩
    · have hne : used ≠ true := fun hu => h (.inl hu)
      have hlive : live = [] := hi.resolve_right fun hu => hne hu.1
      subst hlive
      refine ⟨some ⟨4096, ⟨64, l.align⟩⟩, true, m, if_neg h, fun _ _ _ _ => rfl, ⟨(show (4096 : Nat) ≠ 0 by decide), ?_, ?_⟩, (by simp), .inr ⟨rfl, rfl⟩⟩
      · by_contra hd; exact h (.inr (.inr hd))
      · show l.size ≤ 64; omega
  dealloc := by
    intro used m live b hi hb
    refine ⟨false, m, rfl, fun _ _ _ _ => rfl, .inl ?_⟩
    rcases hi with rfl | ⟨_, hlen⟩
    · cases hb
    · obtain ⟨c, rfl⟩ := List.length_eq_one_iff.mp hlen
      cases List.mem_singleton.mp hb
      simp
  frame := fun hi _ => hi

/-- **C59** So there is an allocator fulfilling the contract with which `copy_slice` of 2 elements returns 8. -/
theorem C59_violated_larger_run : ∃ a s' m', copySlice .w64 oneBlock false (fun _ => 7) ⟨8, 8⟩ 512 2 = .ret (some (a, 8), s', m') := ⟨_, _, _, rfl⟩

example : (⟨16, 8⟩ : Layout).Valid .w64 := ⟨⟨3, rfl⟩, by decide⟩
/-- The hypotheses of `C59_violated_larger` are met. -/
example : ∃ a cnt s' m', copySlice .w64 oneBlock false (fun _ => 7) ⟨8, 8⟩ 512 2 = .ret (some (a, cnt), s', m') ∧ 2 < cnt ∧ elements m' a 8 cnt ≠ elements (fun _ => 7) 512 8 2 :=
  C59_violated_larger oneBlock_contract (.inl rfl) (T := ⟨8, 8⟩) ⟨⟨⟨3, rfl⟩, by decide⟩, by decide⟩ ⟨⟨3, rfl⟩, by decide⟩ (by decide) rfl (by decide)
example : C59_violated_zst (t := .w64) (A := oneBlock) (s := false) (m := fun _ => 0) (T := ⟨0, 1⟩) rfl (src := 8) (n := 3) (by decide) = C59_violated_zst rfl (by decide) := rfl
/-- Concrete runs with `Bump`: a box, an `Rc`, a vector, a copy. -/
example : (match boxed (localAlloc exG) 3 (fun _ => 9) ⟨4, 4⟩ [1, 2, 3, 4] with | .ret (some v, c, m) => some (v, c, readBytes m 4099 6) | _ => none) = some (⟨4100, 4, ⟨4, 4⟩⟩, 8, [9, 1, 2, 3, 4, 9]) := by decide +kernel
example : (match AllocExt.rc .w64 (localAlloc exG) 3 (fun _ => 9) ⟨2, 2⟩ [5, 6] with | .ret (some v, c, m) => some (v, c, loadUsize .w64 m 4112, loadUsize .w64 m 4120, readBytes m 4104 3) | _ => none) =
    some (⟨4104, 24, ⟨24, 8⟩⟩, 32, 1, 1, [5, 6, 9]) := by decide +kernel
example : (match fixedVec .w64 (localAlloc exG) 3 (fun _ => 9) ⟨4, 4⟩ 5 with | .ret (some f, c, _) => some (f.capacity .w64, f.uninit.addr, c) | _ => none) = some (5, 4100, 24) := by decide +kernel
example : fixedVec .w64 (localAlloc exG) 3 (fun _ => 9) ⟨4, 4⟩ (2 ^ 62) = .ret (none, 3, fun _ => 9) := rfl
example : (match copySlice .w64 (localAlloc exG) 3 (fun x => UInt8.ofNat x) ⟨2, 2⟩ 16 2 with | .ret (some x, c, m) => some (x, c, elements m 4100 2 2) | _ => none) = some ((4100, 2), 8, [[16, 17], [18, 19]]) := by decide +kernel
example : exG.Valid ∧ LInv exG 8 [⟨4096, ⟨4, 4⟩⟩] := ⟨by refine ⟨?_, ?_, ?_, fun a h => ⟨h.pos, Nat.dvd_refl a⟩⟩ <;> decide, ⟨by decide, by intro b hb; cases List.mem_singleton.mp hb; decide, by simp⟩⟩
example : ∃ a, copyDst oneBlock false (fun _ => 7) ⟨0, 8⟩ 512 77 = .ret (some (a, 77), false, fun _ => 7) ∧ ¬ 8 ∣ a := C68_violated rfl (by decide)
example : ∃ a, copyDst oneBlock false (fun _ => 7) ⟨0, 1⟩ 512 77 = .ret (some (a, 77), false, fun _ => 7) ∧ a ≠ 0 ∧ (1 ∣ a ↔ 1 = 1) := C68_zero_sized (l := ⟨0, 1⟩) rfl

end Verif
