import Verif.Props.AllocExt
import Verif.Spec.Arena
/-! # C80: the objects of a program that uses one allocator do not interfere -/
namespace Verif
open AllocTraits AllocExt Uninit Bump

namespace Arena
variable {σ : Type} {t : Target} {A : LocalAlloc σ} {Inv : σ → Mem → List Block → Prop}

/-- The allocator is in order and every object that has memory lies in a live block. -/
structure AInv (Inv : σ → Mem → List Block → Prop) (live : List Block) (w : World σ) : Prop where
  inv : Inv w.s w.m live
  placed : ∀ o ∈ w.objs, o.size = 0 ∨ ∃ b ∈ live, o.Within b.region
  disj : w.objs.Pairwise Region.Disjoint

theorem disjoint_empty {o p : Region} (h : o.size = 0) : o.Disjoint p := fun x hx => by
  have := hx.1
  simp only [Region.Has] at this
  omega

/-- The effect of a call on the world. -/
structure Step (Inv : σ → Mem → List Block → Prop) (w w' : World σ) : Prop where
  inv : ∃ live, AInv Inv live w'
  objs : ∃ new, w'.objs = w.objs ++ new

theorem finish_step {α : Type} {live : List Block} {w : World σ} (hw : AInv Inv live w) {l : Layout} {place : α → Region} {r : Option α} {s' : σ} {m' : Mem}
    (hf : Follows A Inv live w.s w.m l place r s' m') :
    (∃ live', AInv Inv live' (finish w.objs place (r, s', m')).2) ∧ Kept live w.m m' ∧
      (r = none ∨ ∃ x, r = some x ∧ CanHold (place x) l) ∧
      (r.isSome = true ↔ l.size = 0 ∨ ∃ b s1 m1, A.alloc w.s w.m l = .ret (some b, s1, m1)) := by
  obtain ⟨hk, hf⟩ := hf
  by_cases h0 : l.size = 0
  · rw [if_pos h0] at hf
    obtain ⟨x, rfl, rfl, rfl, hc, _, hz⟩ := hf
    refine ⟨⟨live, hw.inv, ?_, ?_⟩, hk, .inr ⟨x, rfl, hc⟩, ⟨fun _ => .inl h0, fun _ => rfl⟩⟩
    · intro o ho
      rcases List.mem_append.mp ho with ho | ho
      · exact hw.placed o ho
      · cases List.mem_singleton.mp ho; exact .inl hz
    · refine List.pairwise_append.mpr ⟨hw.disj, List.pairwise_singleton _ _, fun a _ b hb => ?_⟩
      cases List.mem_singleton.mp hb
      exact (disjoint_empty hz).symm
  · rw [if_neg h0] at hf
    obtain ⟨a, m1, ea, hf⟩ := hf
    cases a with
    | none =>
      obtain ⟨rfl, rfl, hi⟩ := hf
      refine ⟨⟨live, hi, hw.placed, hw.disj⟩, hk, .inl rfl, ⟨(fun h => by cases h), ?_⟩⟩
      rintro (h | ⟨b, s1, m2, e⟩)
      · exact absurd h h0
      · rw [ea] at e; cases e
    | some b =>
      obtain ⟨x, rfl, hwi, hc, _, hd, hi, _⟩ := hf
      refine ⟨⟨b :: live, hi, ?_, ?_⟩, hk, .inr ⟨x, rfl, hc⟩, ⟨fun _ => .inr ⟨b, _, _, ea⟩, fun _ => rfl⟩⟩
      · intro o ho
        rcases List.mem_append.mp ho with ho | ho
        · rcases hw.placed o ho with h | ⟨c, hcm, hcw⟩
          · exact .inl h
          · exact .inr ⟨c, List.mem_cons_of_mem _ hcm, hcw⟩
        · cases List.mem_singleton.mp ho; exact .inr ⟨b, List.mem_cons_self .., hwi⟩
      · refine List.pairwise_append.mpr ⟨hw.disj, List.pairwise_singleton _ _, fun o ho p hp => ?_⟩
        cases List.mem_singleton.mp hp
        rcases hw.placed o ho with h | ⟨c, hcm, hcw⟩
        · exact disjoint_empty h
        · exact fun y hy => hd c hcm y ⟨hwi.has hy.2, hcw.has hy.1⟩

/-- What a call other than a write does. -/
theorem alloc_step (hA : Contract t A Inv) {live : List Block} {w : World σ} (hw : AInv Inv live w) {op : Op} (ha : Allowed t w.objs op) (hop : ∀ k off bytes, op ≠ .write k off bytes) :
    ∃ r w', exec t A w op = .ret (r, w') ∧ (∃ live', AInv Inv live' w') ∧ Kept live w.m w'.m ∧
      (r = true ↔ ∃ l, needs t op = some l ∧ (l.size = 0 ∨ ∃ b s1 m1, A.alloc w.s w.m l = .ret (some b, s1, m1))) ∧
      (r = false → w'.objs = w.objs) ∧
      (r = true → ∃ o l, needs t op = some l ∧ w'.objs = w.objs ++ [o] ∧ CanHold o l ∧ readBytes w'.m o.start (initial w op).length = initial w op) := by
  -- from the specification of the method
  have key : ∀ {α : Type} {l : Layout} {place : α → Region} {f : Outcome (Option α × σ × Mem)} {r : Option α} {s' : σ} {m' : Mem}, f = .ret (r, s', m') → Follows A Inv live w.s w.m l place r s' m' →
      exec t A w op = (f >>= fun x => pure (finish w.objs place x)) → needs t op = some l → (∀ x, r = some x → readBytes m' (place x).start (initial w op).length = initial w op) →
      ∃ r w', exec t A w op = .ret (r, w') ∧ (∃ live', AInv Inv live' w') ∧ Kept live w.m w'.m ∧
      (r = true ↔ ∃ l, needs t op = some l ∧ (l.size = 0 ∨ ∃ b s1 m1, A.alloc w.s w.m l = .ret (some b, s1, m1))) ∧
      (r = false → w'.objs = w.objs) ∧
      (r = true → ∃ o l, needs t op = some l ∧ w'.objs = w.objs ++ [o] ∧ CanHold o l ∧ readBytes w'.m o.start (initial w op).length = initial w op) := by
    intro α l place f r s' m' e1 hf e2 hn hi
    obtain ⟨h1, h2, h3, h4⟩ := finish_step hw hf
    rw [e1] at e2
    refine ⟨(finish w.objs place (r, s', m')).1, (finish w.objs place (r, s', m')).2, e2, h1, ?_, ?_, ?_, ?_⟩
    · cases r <;> exact h2
    · rw [hn]
      have : (finish w.objs place (r, s', m')).1 = r.isSome := by cases r <;> rfl
      rw [this, h4]
      constructor
      · intro h; exact ⟨l, rfl, h⟩
      · rintro ⟨l', e, h⟩; cases e; exact h
    · intro h; cases r with
      | none => rfl
      | some x => cases h
    · intro h; cases r with
      | none => cases h
      | some x =>
        rcases h3 with h3 | ⟨y, e, hc⟩
        · cases h3
        · cases e; exact ⟨place x, l, hn, rfl, hc, hi x rfl⟩
  cases op with
  | write k off bytes => exact absurd rfl (hop k off bytes)
  | layout l =>
    by_cases h0 : l.size = 0
    · refine ⟨false, w, ?_, ⟨live, hw⟩, fun _ _ _ _ => rfl, ?_, fun _ => rfl, fun h => by cases h⟩
      · simp only [exec, fromLayout_zero h0]
      · simp [needs, h0]
    · obtain ⟨k, ek, hk⟩ := fromLayout_pos h0
      subst hk
      obtain ⟨r, s', m', e, hf, _⟩ := C58_alloc_layout hA hw.inv (k := k) ha h0
      exact key e hf (by simp only [exec, ek]; rfl) (by simp only [needs, h0, if_false]) (fun _ _ => rfl)
  | uninit V =>
    obtain ⟨r, s', m', e, hf, _⟩ := C58_alloc_t hA hw.inv (V := V) ha
    exact key e hf rfl rfl (fun _ _ => rfl)
  | boxed V bytes =>
    obtain ⟨r, s', m', e, hf, h3⟩ := C58_boxed hA hw.inv (V := V) ha.1 ha.2
    exact key e hf rfl rfl (fun x hx => by simp only [initial, ha.2]; exact (h3 x hx).2)
  | rc V bytes =>
    obtain ⟨r, s', m', e, hf, h3⟩ := C58_rc hA hw.inv (V := V) ha.1 ha.2.1 ha.2.2
    exact key e hf rfl rfl (fun x hx => by simp only [initial, ha.2.2]; exact (h3 x hx).2.1)
  | vec V n =>
    have hc := C60_fixed_vec hA hw.inv (V := V) ha.1 ha.2
    by_cases hl : V.size * n + (V.align - 1) ≤ t.isizeMax
    · obtain ⟨r, s', m', e, hf, h3⟩ := hc.2 ⟨ha.1.1.1, hl⟩
      exact key e hf rfl (by simp only [needs, hl, if_true]) (fun _ _ => rfl)
    · refine ⟨false, w, ?_, ⟨live, hw⟩, fun _ _ _ _ => rfl, ?_, fun _ => rfl, fun h => by cases h⟩
      · simp only [exec, hc.1 (fun h => hl h.2), bind, Outcome.bind, pure, finish]
      · simp [needs, hl]
  | copy T k off n =>
    obtain ⟨hT, hl, o, ho, hle⟩ := ha
    have hst : (w.objs.getD k ⟨0, 0⟩) = o := by simp [List.getD, ho]
    obtain ⟨r, s', m', e, hf⟩ := C58_copy_slice hA hw.inv hT (src := w.start k + off) hl
    refine key e hf rfl rfl (fun x hx => ?_)
    subst hx
    simp only [initial, hst, length_readBytes]
    by_cases h0 : n * T.size = 0
    · rw [h0]; rfl
    · have hTp : 0 < T.size := Nat.pos_of_ne_zero fun h => h0 (by rw [h, Nat.mul_zero])
      have hws : w.start k = o.start := by simp only [World.start, hst]
      obtain ⟨b, hb, hbw⟩ := (hw.placed o (List.mem_of_getElem? ho)).resolve_left (by omega)
      have hu : InUse t A w.s w.m ⟨w.start k + off, n * T.size⟩ := inUse_live hA hw.inv hb (by simp only [Region.Within, hws] at *; omega)
      obtain ⟨_, _, _, e', _, h3⟩ := copySlice_spec (m := w.m) hA hw.inv hT (src := w.start k + off) hl
      rw [e] at e'
      cases e'
      have h3 := h3 x rfl
      rw [if_neg h0] at h3
      obtain ⟨c, m1, ea, rfl, hcs, rfl⟩ := h3
      have huu := hu _ hl (by simp only; omega) _ _ _ ea
      show readBytes (ptrCopy m1 (w.start k + off) c.ptr (n * T.size)) c.ptr (n * T.size) = readBytes w.m (o.start + off) (n * T.size)
      unfold readBytes
      apply List.map_congr_left
      intro i hi
      have hi := List.mem_range.mp hi
      rw [ptrCopy_at hi, huu.1 _ ⟨by simp only; omega, by simp only; omega⟩, hws]

theorem write_step {live : List Block} {w : World σ} (hA : Contract t A Inv) (hw : AInv Inv live w) {k off : Nat} {bytes : List Byte} {o : Region} (ho : w.objs[k]? = some o) (hle : off + bytes.length ≤ o.size) :
    ∃ w', exec t A w (.write k off bytes) = .ret (true, w') ∧ AInv Inv live w' ∧ w'.objs = w.objs ∧ readBytes w'.m (o.start + off) bytes.length = bytes ∧
      OnlyIn ⟨o.start + off, bytes.length⟩ w.m w'.m := by
  have hst : w.start k = o.start := by simp [World.start, List.getD, ho]
  have honly : OnlyIn ⟨o.start + off, bytes.length⟩ w.m (writeBytes w.m (o.start + off) bytes) := onlyIn_write (Nat.le_refl _) (Nat.le_refl _)
  refine ⟨{ w with m := writeBytes w.m (o.start + off) bytes }, ?_, ⟨?_, hw.placed, hw.disj⟩, rfl, readBytes_writeBytes_self _ _ _, honly⟩
  · simp only [exec, hst]
  · refine hA.frame hw.inv fun x hx => ?_
    rcases hw.placed o (List.mem_of_getElem? ho) with h | ⟨b, hb, hbw⟩
    · have : bytes = [] := List.length_eq_zero_iff.mp (by omega)
      subst this
      exact writeBytes_of_not_mem (by simp)
    · refine honly x fun hh => hx b hb ?_
      simp only [Region.Has, Region.Within, Block.region] at *
      omega

/-- One allowed call: it returns, the invariant holds again, earlier objects stay where they are, and keep their contents if the call does not write to them. -/
theorem exec_step (hA : Contract t A Inv) {live : List Block} {w : World σ} (hw : AInv Inv live w) {op : Op} (ha : Allowed t w.objs op) :
    ∃ r w', exec t A w op = .ret (r, w') ∧ (∃ live', AInv Inv live' w') ∧ (∃ new, w'.objs = w.objs ++ new) ∧
      ∀ (k : Nat) o, w.objs[k]? = some o → (∀ off bytes, op ≠ .write k off bytes) → contents w'.m o = contents w.m o := by
  by_cases hop : ∃ k off bytes, op = .write k off bytes
  · obtain ⟨k, off, bytes, rfl⟩ := hop
    obtain ⟨o, ho, hle⟩ := ha
    obtain ⟨w', e, hi, hobj, _, honly⟩ := write_step (t := t) hA hw ho hle
    refine ⟨true, w', e, ⟨live, hi⟩, ⟨[], by simp [hobj]⟩, fun j p hp hne => ?_⟩
    have hjk : j ≠ k := fun h => hne off bytes (by rw [h])
    have hd : p.Disjoint o := by
      obtain ⟨hj, ej⟩ := List.getElem?_eq_some_iff.mp hp
      obtain ⟨hk, ek⟩ := List.getElem?_eq_some_iff.mp ho
      have hpw := List.pairwise_iff_getElem.mp hw.disj
      rcases Nat.lt_or_gt_of_ne hjk with h | h
      · have := hpw j k hj hk h; rwa [ej, ek] at this
      · have := hpw k j hk hj h; rw [ej, ek] at this; exact this.symm
    unfold contents
    apply readBytes_congr
    intro x hx1 hx2
    refine honly x fun hh => hd x ⟨⟨hx1, hx2⟩, ?_⟩
    simp only [Region.Has] at *
    omega
  · have hop' : ∀ k off bytes, op ≠ .write k off bytes := fun k off bytes h => hop ⟨k, off, bytes, h⟩
    obtain ⟨r, w', e, hi, hk, _, hf, ht⟩ := alloc_step hA hw ha hop'
    refine ⟨r, w', e, hi, ?_, fun k o ho _ => ?_⟩
    · cases r with
      | false => exact ⟨[], by simp [hf rfl]⟩
      | true => obtain ⟨o, _, _, h, _⟩ := ht rfl; exact ⟨[o], h⟩
    · unfold contents
      apply readBytes_congr
      intro x hx1 hx2
      rcases hw.placed o (List.mem_of_getElem? ho) with h | ⟨b, hb, hbw⟩
      · omega
      · exact hk b hb x (hbw.has ⟨hx1, hx2⟩)

theorem run_step (hA : Contract t A Inv) {ops : List Op} {live : List Block} {w : World σ} (hw : AInv Inv live w) (hs : SafeRun t A w ops) :
    ∃ rs w', run t A w ops = .ret (rs, w') ∧ (∃ live', AInv Inv live' w') ∧ (∃ new, w'.objs = w.objs ++ new) ∧
      ∀ (k : Nat) o, w.objs[k]? = some o → NotWritten k ops → contents w'.m o = contents w.m o := by
  induction ops generalizing w live with
  | nil => exact ⟨[], w, rfl, ⟨live, hw⟩, ⟨[], by simp⟩, fun _ _ _ _ => rfl⟩
  | cons op ops ih =>
    obtain ⟨r, w1, e1, ⟨live1, hw1⟩, ⟨n1, ho1⟩, hc1⟩ := exec_step hA hw hs.1
    obtain ⟨rs, w2, e2, hi2, ⟨n2, ho2⟩, hc2⟩ := ih hw1 (hs.2 r w1 e1)
    refine ⟨r :: rs, w2, ?_, hi2, ⟨n1 ++ n2, by rw [ho2, ho1, List.append_assoc]⟩, fun k o hk hn => ?_⟩
    · simp only [run, e1, e2, bind, Outcome.bind, pure]
    · have hk1 : w1.objs[k]? = some o := by
        rw [ho1, List.getElem?_append_left (List.getElem?_eq_some_iff.mp hk).1]; exact hk
      rw [hc2 k o hk1 (fun off bytes h => hn off bytes (List.mem_cons_of_mem _ h)), hc1 k o hk (fun off bytes h => hn off bytes (by rw [h]; exact List.mem_cons_self ..))]

theorem safeRun_append {w : World σ} {xs ys : List Op} {rs : List Bool} {w' : World σ} (h : SafeRun t A w (xs ++ ys)) (e : run t A w xs = .ret (rs, w')) : SafeRun t A w' ys := by
  induction xs generalizing w rs with
  | nil => cases e; exact h
  | cons x xs ih =>
    simp only [run, bind, Outcome.bind, pure] at e
    cases e1 : exec t A w x with
    | panic => rw [e1] at e; cases e
    | ub => rw [e1] at e; cases e
    | ret p =>
      obtain ⟨r, w1⟩ := p
      rw [e1] at e
      simp only at e
      cases e2 : run t A w1 xs with
      | panic => rw [e2] at e; cases e
      | ub => rw [e2] at e; cases e
      | ret q =>
        obtain ⟨rs2, w2⟩ := q
        rw [e2] at e
        cases e
        exact ih (h.2 r w1 e1) e2

theorem safeRun_left {w : World σ} {xs ys : List Op} (h : SafeRun t A w (xs ++ ys)) : SafeRun t A w xs := by
  induction xs generalizing w with
  | nil => trivial
  | cons x xs ih => exact ⟨h.1, fun r w' e => ih (h.2 r w' e)⟩

end Arena
open Arena

section
variable {σ : Type} {t : Target} {A : LocalAlloc σ} {Inv : σ → Mem → List Block → Prop} {s : σ} {m : Mem} {live : List Block}

/-- **C80** For every allocator that fulfils its contract and every history: no call panics or is undefined behaviour, and the objects are pairwise disjoint. -/
theorem C80_disjoint (hA : Contract t A Inv) (hi : Inv s m live) {ops : List Op} (hs : SafeRun t A ⟨s, m, []⟩ ops) :
    ∃ rs w, run t A ⟨s, m, []⟩ ops = .ret (rs, w) ∧ w.objs.Pairwise Region.Disjoint := by
  obtain ⟨rs, w, e, ⟨_, hw⟩, _⟩ := run_step hA (live := live) ⟨hi, (by simp), (by simp)⟩ hs
  exact ⟨rs, w, e, hw.disj⟩

/-- **C80** At any point of a history, an object stays where it is and keeps its contents until its owner writes to it, whatever else the program allocates, copies or writes. -/
theorem C80_contents_kept (hA : Contract t A Inv) (hi : Inv s m live) {before after : List Op} (hs : SafeRun t A ⟨s, m, []⟩ (before ++ after)) {rs : List Bool} {w : World σ}
    (hw : run t A ⟨s, m, []⟩ before = .ret (rs, w)) {k : Nat} {o : Region} (ho : w.objs[k]? = some o) (hn : NotWritten k after) :
    ∃ rs' w', run t A w after = .ret (rs', w') ∧ w'.objs[k]? = some o ∧ contents w'.m o = contents w.m o := by
  obtain ⟨_, w1, e, ⟨_, hw1⟩, _⟩ := run_step hA (live := live) ⟨hi, (by simp), (by simp)⟩ (safeRun_left hs)
  rw [hw] at e
  cases e
  obtain ⟨rs', w', e', _, ⟨new, hnew⟩, hc⟩ := run_step hA hw1 (safeRun_append hs hw)
  exact ⟨rs', w', e', by rw [hnew, List.getElem?_append_left (List.getElem?_eq_some_iff.mp ho).1]; exact ho, hc k o ho hn⟩

/-- **C80** At any point of a history, a call for memory succeeds exactly if its layout is valid and the allocator provides it; then there is one more object, at which the memory can hold the layout and which holds the value given, respectively a
copy of the source. -/
theorem C80_new_object (hA : Contract t A Inv) (hi : Inv s m live) {before : List Op} {op : Op} (hs : SafeRun t A ⟨s, m, []⟩ (before ++ [op])) (hop : ∀ k off bytes, op ≠ .write k off bytes) {rs : List Bool} {w : World σ}
    (hw : run t A ⟨s, m, []⟩ before = .ret (rs, w)) :
    ∃ r w', exec t A w op = .ret (r, w') ∧ (r = true ↔ ∃ l, needs t op = some l ∧ (l.size = 0 ∨ ∃ b s1 m1, A.alloc w.s w.m l = .ret (some b, s1, m1))) ∧ (r = false → w'.objs = w.objs) ∧
      (r = true → ∃ o l, needs t op = some l ∧ w'.objs = w.objs ++ [o] ∧ CanHold o l ∧ readBytes w'.m o.start (initial w op).length = initial w op) := by
  obtain ⟨_, w1, e, ⟨_, hw1⟩, _⟩ := run_step hA (live := live) ⟨hi, (by simp), (by simp)⟩ (safeRun_left hs)
  rw [hw] at e
  cases e
  obtain ⟨r, w', e', _, _, h1, h2, h3⟩ := alloc_step hA hw1 (safeRun_append hs hw).1 hop
  exact ⟨r, w', e', h1, h2, h3⟩

/-- **C80** A write is read back, and changes nothing but the bytes written. -/
theorem C80_write (hA : Contract t A Inv) (hi : Inv s m live) {before : List Op} {k off : Nat} {bytes : List Byte} (hs : SafeRun t A ⟨s, m, []⟩ (before ++ [.write k off bytes])) {rs : List Bool} {w : World σ}
    (hw : run t A ⟨s, m, []⟩ before = .ret (rs, w)) {o : Region} (ho : w.objs[k]? = some o) :
    ∃ w', exec t A w (.write k off bytes) = .ret (true, w') ∧ w'.objs = w.objs ∧ readBytes w'.m (o.start + off) bytes.length = bytes ∧ OnlyIn ⟨o.start + off, bytes.length⟩ w.m w'.m := by
  obtain ⟨_, w1, e, ⟨_, hw1⟩, _⟩ := run_step hA (live := live) ⟨hi, (by simp), (by simp)⟩ (safeRun_left hs)
  rw [hw] at e
  cases e
  obtain ⟨p, hp, hle⟩ := (safeRun_append hs hw).1
  rw [ho] at hp
  cases hp
  obtain ⟨w', e', _, h2, h3, h4⟩ := write_step (t := t) hA hw1 ho hle
  exact ⟨w', e', h2, h3, h4⟩
end

/-- **C80** for a fresh `Bump`: no assumption on the allocator is left. All objects are inside of the slab. -/
theorem C80_bump {e : Bump.Env} (hv : e.Valid) (m : Mem) {ops : List Op} (hs : SafeRun e.target (localAlloc e) ⟨0, m, []⟩ ops) :
    ∃ rs w, run e.target (localAlloc e) ⟨0, m, []⟩ ops = .ret (rs, w) ∧ w.objs.Pairwise Region.Disjoint ∧ ∀ o ∈ w.objs, 0 < o.size → o.Within ⟨e.base, e.len⟩ := by
  have hi : LInv e 0 [] := ⟨Nat.zero_le _, (by simp), (by simp)⟩
  obtain ⟨rs, w, er, ⟨live, hw⟩, _⟩ := run_step (localAlloc_contract hv) (live := []) ⟨hi, (by simp), (by simp)⟩ hs
  refine ⟨rs, w, er, hw.disj, fun o ho hp => ?_⟩
  obtain ⟨b, hb, hbw⟩ := (hw.placed o ho).resolve_left (by omega)
  have h1 := (hw.inv : LInv e w.s live).within b hb
  have h2 := (hw.inv : LInv e w.s live).le
  simp only [Region.Within, Block.region] at *
  omega

/-! ## Examples -/
namespace Arena
/-- A box, an `Rc`, a vector, a copy of the box, writes to the vector and to the box. -/
def demo : List Op := [.boxed ⟨4, 4⟩ [1, 2, 3, 4], .rc ⟨2, 2⟩ [5, 6], .vec ⟨4, 4⟩ 2, .copy ⟨2, 2⟩ 0 0 2, .write 2 4 [7, 7, 7, 7], .write 0 1 [9], .uninit ⟨0, 8⟩, .layout ⟨5000, 1⟩, .copy ⟨1, 1⟩ 2 4 3]

def pow2B (n : Nat) : Bool := (List.range 64).any fun k => n = 2 ^ k
theorem pow2B_sound {n : Nat} (h : pow2B n = true) : IsPow2 n := by
  obtain ⟨k, _, hk⟩ := List.any_eq_true.mp h
  exact ⟨k, of_decide_eq_true hk⟩
def validB (t : Target) (l : Layout) : Bool := pow2B l.align && decide (l.size + (l.align - 1) ≤ t.isizeMax)
theorem validB_sound {t : Target} {l : Layout} (h : validB t l = true) : l.Valid t := by
  simp only [validB, Bool.and_eq_true, decide_eq_true_eq] at h
  exact ⟨pow2B_sound h.1, h.2⟩
def typeB (t : Target) (l : Layout) : Bool := validB t l && decide (l.align ∣ l.size)
theorem typeB_sound {t : Target} {l : Layout} (h : typeB t l = true) : l.ValidType t := by
  simp only [typeB, Bool.and_eq_true, decide_eq_true_eq] at h
  exact ⟨validB_sound h.1, h.2⟩

def insideB (objs : List Region) (k n : Nat) : Bool := match objs[k]? with | some o => decide (n ≤ o.size) | none => false
theorem insideB_sound {objs : List Region} {k n : Nat} (h : insideB objs k n = true) : ∃ o, objs[k]? = some o ∧ n ≤ o.size := by
  unfold insideB at h
  cases e : objs[k]? with
  | none => rw [e] at h; cases h
  | some o => rw [e] at h; exact ⟨o, rfl, of_decide_eq_true h⟩

def allowedB (t : Target) (objs : List Region) : Op → Bool
  | .layout l => validB t l
  | .uninit V => typeB t V
  | .boxed V bytes => typeB t V && decide (bytes.length = V.size)
  | .rc V bytes => typeB t V && typeB t (RcM.rcLayout t V) && decide (bytes.length = V.size)
  | .vec V n => typeB t V && decide (n < t.W)
  | .copy T k off n => typeB t T && validB t ⟨n * T.size, T.align⟩ && insideB objs k (off + n * T.size)
  | .write k off bytes => insideB objs k (off + bytes.length)
theorem allowedB_sound {t : Target} {objs : List Region} {op : Op} (h : allowedB t objs op = true) : Allowed t objs op := by
  cases op <;> simp only [allowedB, Bool.and_eq_true, decide_eq_true_eq] at h
  · exact validB_sound h
  · exact typeB_sound h
  · exact ⟨typeB_sound h.1, h.2⟩
  · exact ⟨typeB_sound h.1.1, typeB_sound h.1.2, h.2⟩
  · exact ⟨typeB_sound h.1, h.2⟩
  · exact ⟨typeB_sound h.1.1, validB_sound h.1.2, insideB_sound h.2⟩
  · exact insideB_sound h
def safeB {σ : Type} (t : Target) (A : LocalAlloc σ) : World σ → List Op → Bool
  | _, [] => true
  | w, op :: ops => allowedB t w.objs op && match exec t A w op with | .ret (_, w') => safeB t A w' ops | _ => true
theorem safeB_sound {σ : Type} {t : Target} {A : LocalAlloc σ} {w : World σ} {ops : List Op} (h : safeB t A w ops = true) : SafeRun t A w ops := by
  induction ops generalizing w with
  | nil => trivial
  | cons op ops ih =>
    simp only [safeB, Bool.and_eq_true] at h
    refine ⟨allowedB_sound h.1, fun r w' e => ih ?_⟩
    have h2 := h.2
    rw [e] at h2
    exact h2

def exA : Env := { exG with len := 64 }
theorem demo_safe : SafeRun .w64 (localAlloc exA) ⟨0, fun _ => 0, []⟩ demo := safeB_sound (by decide +kernel)
/-- The hypotheses of `C80_bump` are met. -/
example : ∃ rs w, run .w64 (localAlloc exA) ⟨0, fun _ => 0, []⟩ demo = .ret (rs, w) ∧ w.objs.Pairwise Region.Disjoint ∧ ∀ o ∈ w.objs, 0 < o.size → o.Within ⟨exA.base, exA.len⟩ :=
  C80_bump (e := exA) (by refine ⟨?_, ?_, ?_, fun a h => ⟨h.pos, Nat.dvd_refl a⟩⟩ <;> decide) _ demo_safe
/-- What the program computes. -/
example : (match run .w64 (localAlloc exA) ⟨0, fun _ => 0, []⟩ demo with
    | .ret (rs, w) => some (rs, w.objs, w.objs.map (contents w.m))
    | _ => none) = some ([true, true, true, true, true, true, true, false, true],
      [⟨4096, 4⟩, ⟨4104, 24⟩, ⟨4128, 8⟩, ⟨4136, 4⟩, ⟨8, 0⟩, ⟨4140, 3⟩],
      [[1, 9, 3, 4], [5, 6, 0, 0, 0, 0, 0, 0, 1, 0, 0, 0, 0, 0, 0, 0, 1, 0, 0, 0, 0, 0, 0, 0], [0, 0, 0, 0, 7, 7, 7, 7], [1, 2, 3, 4], [], [7, 7, 7]]) := by decide +kernel
end Arena
end Verif
