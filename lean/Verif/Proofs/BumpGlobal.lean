import Verif.Proofs.BumpPre
import Verif.Model.BumpGlobal
import Verif.Props.AllocTraits
/-! Proofs about the allocator traits of `Bump`. -/
namespace Verif.Bump
open Verif AllocTraits

theorem tryAllocAtSeq_spec {e : Env} (hv : e.Valid) {c : Nat} {l : Layout} (hs : 0 < l.size) (ha : 0 < l.align)
    {g : Nat} (hg : g ≤ e.len) :
    tryAllocAtSeq e c l g = match e.slab.place l g with
      | none => .ret (.error .exhausted, c)
      | some a => if c = g then .ret (.ok a, a.level) else .ret (.error (.mismatch c), c) := by
  have hb := hv.base_pos
  unfold tryAllocAtSeq
  rw [tryAllocAtPre_spec hv hs ha hg]
  cases hp : e.slab.place l g with
  | none => rfl
  | some a =>
    rw [Slab.place_eq_some] at hp
    obtain ⟨k1, k2, k3⟩ := hp
    have := le_alignUp ha (e.slab.base + g)
    have hbase : e.slab.base = e.base := rfl
    have e1 : e.base + (a.ptr - e.base) = a.ptr := by omega
    have e2 : ¬ (a.ptr = 0) := by omega
    by_cases hc : c = g <;> simp [bind, Outcome.bind, hc, tryAllocAtPost, e1, e2, pure]

theorem tryAllocSeq_spec {e : Env} (hv : e.Valid) {c : Nat} (hc : c ≤ e.len) {l : Layout} (hs : 0 < l.size) (ha : 0 < l.align) :
    tryAllocSeq e c l = match e.slab.place l c with
      | none => .ret (none, c)
      | some a => .ret (some a, a.level) := by
  unfold tryAllocSeq tryAllocLoop
  rw [tryAllocAtSeq_spec hv hs ha (Nat.zero_le _)]
  cases hp0 : e.slab.place l 0 with
  | none =>
    have := Slab.place_none_mono ha (Nat.zero_le c) hp0
    rw [this]; rfl
  | some a =>
    by_cases h0 : c = 0
    · subst h0; rw [hp0]; rfl
    · simp only [h0, if_false, bind, Outcome.bind]
      unfold tryAllocLoop
      rw [tryAllocAtSeq_spec hv hs ha hc]
      cases hp : e.slab.place l c <;> simp [bind, Outcome.bind, pure]

/-- Invariant: live blocks lie in the used part and are disjoint. -/
structure LInv (e : Env) (c : Nat) (live : List Block) : Prop where
  le : c ≤ e.len
  within : ∀ b ∈ live, e.base ≤ b.ptr ∧ b.ptr + b.layout.size ≤ e.base + c ∧ 0 < b.layout.size
  disj : (live.map Block.region).Pairwise Region.Disjoint

theorem localAlloc_spec {e : Env} (hv : e.Valid) {c : Nat} (hc : c ≤ e.len) (m : Mem) {l : Layout} (hs : 0 < l.size) (ha : 0 < l.align) :
    (localAlloc e).alloc c m l = match e.slab.place l c with
      | none => .ret (none, c, m)
      | some a => .ret (some ⟨a.ptr, l⟩, a.level, m) := by
  simp only [localAlloc]
  rw [tryAllocSeq_spec hv hc hs ha]
  cases e.slab.place l c <;> rfl

theorem Valid.align_pos {t : Target} {l : Layout} (h : l.Valid t) : 0 < l.align := h.1.pos

theorem place_block {e : Env} (hv : e.Valid) {c : Nat} {l : Layout} (ha : 0 < l.align) (hs : 0 < l.size) {a : Alloc}
    (hp : e.slab.place l c = some a) {live : List Block} (hi : LInv e c live) :
    (⟨a.ptr, l⟩ : Block).Serves l ∧ (∀ d ∈ live, (⟨a.ptr, l⟩ : Block).region.Disjoint d.region) ∧
    LInv e a.level (⟨a.ptr, l⟩ :: live) ∧ c ≤ a.level := by
  have hb := hv.base_pos
  rw [Slab.place_eq_some] at hp
  obtain ⟨k1, k2, k3⟩ := hp
  have := le_alignUp ha (e.slab.base + c)
  have hbase : e.slab.base = e.base := rfl
  have hlen : e.slab.len = e.len := rfl
  have hdis : ∀ d ∈ live, (⟨a.ptr, l⟩ : Block).region.Disjoint d.region := by
    intro d hd
    have := hi.within d hd
    apply Region.Disjoint.symm
    apply Region.disjoint_of_le
    simp only [Block.region]; omega
  refine ⟨⟨by show a.ptr ≠ 0; omega, by rw [show (⟨a.ptr, l⟩ : Block).ptr = a.ptr from rfl, k1]; exact dvd_alignUp _ _, Nat.le_refl _⟩, hdis, ⟨by omega, ?_, ?_⟩, by omega⟩
  · intro b hb
    rcases List.mem_cons.mp hb with rfl | hb
    · simp only; omega
    · have := hi.within b hb; omega
  · rw [List.map_cons, List.pairwise_cons]
    refine ⟨fun r hr => ?_, hi.disj⟩
    obtain ⟨d, hd, rfl⟩ := List.mem_map.mp hr
    exact hdis d hd

theorem LInv.erase {e : Env} {c : Nat} {live : List Block} (h : LInv e c live) (b : Block) : LInv e c (live.erase b) :=
  ⟨h.le, fun d hd => h.within d (List.mem_of_mem_erase hd),
    h.disj.sublist ((List.erase_sublist).map _)⟩

/-- `Bump` fulfils the contract of `LocalAlloc`. -/
theorem localAlloc_contract {e : Env} (hv : e.Valid) :
    Contract e.target (localAlloc e) (fun c _ live => LInv e c live) where
  alloc := by
    intro c m live l hi hl h0
    have ha := Valid.align_pos hl
    rw [localAlloc_spec hv hi.le m h0 ha]
    cases hp : e.slab.place l c with
    | none => exact ⟨none, c, m, rfl, fun _ _ _ _ => rfl, hi⟩
    | some a =>
      obtain ⟨h1, h2, h3, _⟩ := place_block hv ha h0 hp hi
      exact ⟨some ⟨a.ptr, l⟩, a.level, m, rfl, fun _ _ _ _ => rfl, h1, h2, h3⟩
  dealloc := by
    intro c m live b hi hb
    exact ⟨c, m, rfl, fun _ _ _ _ => rfl, hi.erase b⟩
  frame := fun hi _ => hi

/-- Replacing a live block by a part of it. -/
theorem LInv.shrink {e : Env} {c : Nat} {live : List Block} (h : LInv e c live) {b b' : Block} (hb : b ∈ live)
    (hp : b'.ptr = b.ptr) (hs : b'.layout.size ≤ b.layout.size) (h0 : 0 < b'.layout.size) :
    LInv e c (b' :: live.erase b) := by
  have hw := h.within b hb
  have hperm := List.perm_cons_erase hb
  have hd : ((b :: live.erase b).map Block.region).Pairwise Region.Disjoint :=
    (List.Perm.pairwise_iff (fun {x y} (h : Region.Disjoint x y) => h.symm) (hperm.map Block.region)).mp h.disj
  rw [List.map_cons, List.pairwise_cons] at hd
  refine ⟨h.le, ?_, ?_⟩
  · intro d hd
    rcases List.mem_cons.mp hd with rfl | hd
    · omega
    · exact h.within d (List.mem_of_mem_erase hd)
  · rw [List.map_cons, List.pairwise_cons]
    refine ⟨fun r hr x hx => hd.1 r hr x ⟨?_, hx.2⟩, hd.2⟩
    have := hx.1
    simp only [Block.region, Region.Has] at this ⊢
    omega

theorem mem_erase_disjoint {e : Env} {c : Nat} {live : List Block} (h : LInv e c live) {b : Block} (hb : b ∈ live) :
    ∀ d ∈ live.erase b, b.region.Disjoint d.region := by
  have hperm := List.perm_cons_erase hb
  have hd : ((b :: live.erase b).map Block.region).Pairwise Region.Disjoint :=
    (List.Perm.pairwise_iff (fun {x y} (h : Region.Disjoint x y) => h.symm) (hperm.map Block.region)).mp h.disj
  rw [List.map_cons, List.pairwise_cons] at hd
  intro d hdm
  exact hd.1 _ (List.mem_map.mpr ⟨d, hdm, rfl⟩)

/-- `LocalAlloc::realloc` of `Bump`. -/
theorem localRealloc_spec {e : Env} (hv : e.Valid) {c : Nat} {m : Mem} {live : List Block} (hi : LInv e c live)
    {old : Block} (hold : old ∈ live) {l : Layout} (hl : l.Valid e.target) (h0 : 0 < l.size) :
    ∃ r c' m', localRealloc e c m old l = .ret (r, c', m') ∧
      match r with
      | none => c' = c ∧ m' = m ∧ ¬ e.slab.Fits l c ∧ ¬ (l.align ∣ old.ptr ∧ l.size ≤ old.layout.size)
      | some b => b.layout = l ∧ b.Serves l ∧ e.base ≤ b.ptr ∧ b.ptr + l.size ≤ e.base + e.len ∧
          ((l.align ∣ old.ptr ∧ l.size ≤ old.layout.size ∧ b.ptr = old.ptr ∧ c' = c ∧ m' = m) ∨
            (¬ (l.align ∣ old.ptr ∧ l.size ≤ old.layout.size) ∧ e.slab.Fits l c ∧ ∀ d ∈ live, b.region.Disjoint d.region)) ∧
          readBytes m' b.ptr (min l.size old.layout.size) = readBytes m old.ptr (min l.size old.layout.size) ∧
          Kept live m m' ∧ LInv e c' (b :: live.erase old) := by
  have ha := Valid.align_pos hl
  have hb := hv.base_pos
  have hw := hi.within old hold
  have hle := hi.le
  unfold localRealloc
  by_cases hfit : old.ptr % l.align = 0 ∧ old.layout.size ≥ l.size
  · rw [if_pos hfit]
    refine ⟨some ⟨old.ptr, l⟩, c, m, rfl, rfl, ⟨by show old.ptr ≠ 0; omega, Nat.dvd_of_mod_eq_zero hfit.1, Nat.le_refl _⟩,
      hw.1, by show old.ptr + l.size ≤ _; omega, .inl ⟨Nat.dvd_of_mod_eq_zero hfit.1, hfit.2, rfl, rfl, rfl⟩, rfl, fun _ _ _ _ => rfl, ?_⟩
    exact hi.shrink hold rfl hfit.2 h0
  · rw [if_neg hfit, localAlloc_spec hv hi.le m h0 ha]
    cases hp : e.slab.place l c with
    | none =>
      refine ⟨none, c, m, rfl, rfl, rfl, ?_, fun h => hfit ⟨Nat.mod_eq_zero_of_dvd h.1, h.2⟩⟩
      rw [← Slab.place_none_iff_not_fits ha]; exact hp
    | some a =>
      obtain ⟨h1, h2, h3, h4⟩ := place_block hv ha h0 hp hi
      have hsep := disjoint_pos (h2 old hold) (show 0 < l.size from h0) (show 0 < old.layout.size from hw.2.2)
      simp only [Block.region] at hsep
      have hcopy := copyNonoverlapping_ret (m := m) (src := old.ptr) (dst := a.ptr) (n := min l.size old.layout.size) (by omega)
      have hin : (⟨a.ptr, l⟩ : Block).region.start ≤ a.ptr ∧
          a.ptr + (readBytes m old.ptr (min l.size old.layout.size)).length ≤ (⟨a.ptr, l⟩ : Block).region.start + (⟨a.ptr, l⟩ : Block).region.size := by
        rw [length_readBytes]; simp only [Block.region]; omega
      have hwn := h3.within ⟨a.ptr, l⟩ (by simp)
      have hc3 := h3.le
      simp only at hwn
      refine ⟨some ⟨a.ptr, l⟩, a.level, writeBytes m a.ptr (readBytes m old.ptr (min l.size old.layout.size)), ?_,
        rfl, h1, hwn.1, by show a.ptr + l.size ≤ _; omega, .inr ⟨fun h => hfit ⟨Nat.mod_eq_zero_of_dvd h.1, h.2⟩, ?_, h2⟩, ?_, kept_writeBytes hin h2, ?_⟩
      · simp only [bind, Outcome.bind, hcopy, pure]
      · refine Classical.byContradiction fun hn => ?_
        rw [(Slab.place_none_iff_not_fits ha).mpr hn] at hp; cases hp
      · have := readBytes_writeBytes_self m a.ptr (readBytes m old.ptr (min l.size old.layout.size))
        rw [length_readBytes] at this; exact this
      · refine ⟨h3.le, fun d hd => h3.within d ?_, ?_⟩
        · rcases List.mem_cons.mp hd with rfl | hd
          · simp
          · exact List.mem_cons_of_mem _ (List.mem_of_mem_erase hd)
        · exact h3.disj.sublist (((List.erase_sublist).cons_cons _).map _)

end Verif.Bump
