import Verif.Model.Dtor
import Verif.Proofs.Shared
/-!
# Proofs for destructors that use pointers

The counters are those of `Proofs/Shared` (`CInv`), where the pointers of values that are being destroyed count as forgotten ones.
-/
set_option autoImplicit false
namespace Verif.Dtor
open Shared (Ptr Value Resp CInv Ref)
open Linked (var all all_append all_single all_set all_var var_lt)
open RcM (RcBox)

theorem bind_ret {α β : Type} {o : Outcome α} {f : α → Outcome β} {b : β} (h : (o >>= f) = .ret b) : ∃ a, o = .ret a ∧ f a = .ret b := by
  cases o with
  | ret a => exact ⟨a, rfl, h⟩
  | panic => simp [bind, Outcome.bind] at h
  | ub => simp [bind, Outcome.bind] at h

/-! ## Bits -/

/-- The bits of the value in block `b` are those of `v`. -/
def Bits (mb : List (RcBox Value)) (b : Nat) (v : Value) : Prop := ∃ x, mb[b]? = some x ∧ x.val = some v

theorem Bits.read {mb : List (RcBox Value)} {b : Nat} {v : Value} (h : Bits mb b v) : read mb (.block b) = .ret v := by
  obtain ⟨⟨o, s, w⟩, hx, hv⟩ := h
  simp only at hv
  subst hv
  simp only [Dtor.read, hx]

/-- Where a value that is being destroyed is. -/
def At (mb : List (RcBox Value)) : Option Nat → Place → Value → Prop
  | none, .moved w, v => w = v
  | some b, .block c, v => b = c ∧ Bits mb b v
  | _, _, _ => False

theorem At.read {mb : List (RcBox Value)} {o : Option Nat} {pl : Place} {v : Value} (h : At mb o pl v) : Dtor.read mb pl = .ret v := by
  cases o with
  | none => cases pl with
    | moved w => simp only [At] at h; subst h; rfl
    | block c => exact h.elim
  | some b => cases pl with
    | moved w => exact h.elim
    | block c => obtain ⟨rfl, h⟩ := h; exact h.read

/-- All bits in these blocks are kept. -/
def Keeps (ds : List Nat) (mb mb' : List (RcBox Value)) : Prop := ∀ b ∈ ds, ∀ v, Bits mb b v → Bits mb' b v

theorem At.keeps {mb mb' : List (RcBox Value)} {o : Option Nat} {pl : Place} {v : Value} (h : At mb o pl v) (hk : ∀ b, o = some b → ∀ v, Bits mb b v → Bits mb' b v) : At mb' o pl v := by
  cases o with
  | none => cases pl with
    | moved w => exact h
    | block c => exact h.elim
  | some b => cases pl with
    | moved w => exact h.elim
    | block c => exact ⟨h.1, hk b rfl v h.2⟩

theorem Bits.set_ne {mb : List (RcBox Value)} {b c : Nat} {v : Value} {x : RcBox Value} (h : Bits mb b v) (hne : c ≠ b) : Bits (mb.set c x) b v := by
  obtain ⟨y, hy, hv⟩ := h
  exact ⟨y, by rw [List.getElem?_set_ne hne]; exact hy, hv⟩
theorem Bits.set_same {mb : List (RcBox Value)} {b c : Nat} {v : Value} {x y : RcBox Value} (h : Bits mb b v) (hx : mb[c]? = some x) (hy : y.val = x.val) : Bits (mb.set c y) b v := by
  by_cases hc : c = b
  · subst hc
    obtain ⟨z, hz, hv⟩ := h
    rw [hx] at hz
    cases hz
    exact ⟨y, by rw [List.getElem?_set_self (List.getElem?_eq_some_iff.mp hx).1], by rw [hy]; exact hv⟩
  · exact h.set_ne hc

/-! ## Frames -/

inductive Match (mb : List (RcBox Value)) : Frame → Task → Prop
  | body {v : Value} {o : Option Nat} {pl : Place} (u : Bool) (h : At mb o pl v) : Match mb (.body v o u) (.body pl u)
  | rest {v : Value} {o : Option Nat} {pl : Place} {i n : Nat} {ps : List Ptr} (u : Bool) (h : At mb o pl v) (hp : v.fields.drop i = ps) (hn : n = v.fields.length) :
      Match mb (.rest ps o u) (.glue pl i n u)

inductive Matches (mb : List (RcBox Value)) : List Frame → List Task → Prop
  | nil : Matches mb [] []
  | cons {f : Frame} {t : Task} {fs : List Frame} {ts : List Task} (h : Match mb f t) (hs : Matches mb fs ts) : Matches mb (f :: fs) (t :: ts)

theorem dying_cons (f : Frame) (fs : List Frame) : dying (f :: fs) = (f.place.toList) ++ dying fs := by
  cases f <;> rename_i a b c <;> cases b <;> rfl

theorem Match.keeps {mb mb' : List (RcBox Value)} {f : Frame} {t : Task} (h : Match mb f t) (hk : ∀ b, f.place = some b → ∀ v, Bits mb b v → Bits mb' b v) : Match mb' f t := by
  cases h with
  | body u h => exact .body u (h.keeps hk)
  | rest u h hp hn => exact .rest u (h.keeps hk) hp hn

theorem Matches.keeps {mb mb' : List (RcBox Value)} {fs : List Frame} {ts : List Task} (h : Matches mb fs ts) (hk : Keeps (dying fs) mb mb') : Matches mb' fs ts := by
  induction h with
  | nil => exact .nil
  | cons h hs ih =>
    rename_i f t fs ts
    rw [dying_cons] at hk
    refine .cons (h.keeps fun b hb v hv => hk b (by simp [hb]) v hv) (ih fun b hb v hv => hk b (by simp [hb]) v hv)

theorem Matches.bits {mb : List (RcBox Value)} {fs : List Frame} {ts : List Task} (h : Matches mb fs ts) {b : Nat} (hb : b ∈ dying fs) : ∃ v, Bits mb b v := by
  induction h with
  | nil => simp [dying] at hb
  | cons h hs ih =>
    rw [dying_cons, List.mem_append] at hb
    rcases hb with hb | hb
    · have key : ∀ {o : Option Nat} {pl : Place} {v : Value}, At mb o pl v → b ∈ o.toList → ∃ v, Bits mb b v := by
        intro o pl v ha hm
        cases o with
        | none => simp at hm
        | some c => cases pl with
          | moved _ => exact ha.elim
          | block d =>
            simp only [Option.toList, List.mem_singleton] at hm
            subst hm
            exact ⟨v, ha.2⟩
      cases h with
      | body u ha => exact key ha hb
      | rest u ha _ _ => exact key ha hb
    · exact ih hb

/-! ## Dropping a pointer -/

variable {t : Target} {checks : Bool} {ps qs : List Ptr} {sb : List (Option Value)} {mb : List (RcBox Value)}

theorem dropPtr_spec {p : Ptr} (h : CInv (p :: ps) sb mb) :
    ∃ r mb', dropPtr t checks mb p = .ret (r, mb') ∧ (∀ b v, Bits mb b v → Bits mb' b v) ∧
      (if p.strong = false ∨ p ∈ ps then r = false ∧ CInv ps sb mb' else r = true ∧ ∃ v, var sb p.block = some v ∧ Bits mb p.block v ∧ CInv ps (sb.set p.block none) mb') := by
  obtain ⟨x, hx⟩ := h.get (h.lt p (by simp))
  cases p with | mk k b =>
  simp only at hx
  cases k with
  | false =>
    obtain ⟨c1, c2, c3, c4⟩ := Shared.count_cons_self' (ps := ps) b
    have hw := h.weak b x hx
    rw [c4] at hw
    refine ⟨false, mb.set b { x with weak := x.weak - 1 }, ?_, fun c v hv => hv.set_same hx rfl, ?_⟩
    · simp only [dropPtr, hx, Bool.false_eq_true, if_false, RcBox.decWeak, Shared.minusOne_ret (t := t) (checks := checks) (a := x.weak) (by omega), bind, Outcome.bind, pure]
    · rw [if_pos (.inl rfl)]
      exact ⟨rfl, (h.dropWeak hx).2⟩
  | true =>
    obtain ⟨c1, c2, c3, c4⟩ := Shared.count_cons_self' (ps := ps) b
    have hs := h.strong b x hx
    rw [c1] at hs
    by_cases hm : (⟨true, b⟩ : Ptr) ∈ ps
    · have h0 : 0 < ps.count ⟨true, b⟩ := List.count_pos_iff.mpr hm
      refine ⟨false, mb.set b { x with strong := x.strong - 1 }, ?_, fun c v hv => hv.set_same hx rfl, ?_⟩
      · have hne : ¬ x.strong - 1 = 0 := by omega
        simp only [dropPtr, hx, if_true, RcBox.dropRc, RcBox.decStrong, Shared.minusOne_ret (t := t) (checks := checks) (a := x.strong) (by omega), bind, Outcome.bind, pure, hne, if_false]
      · rw [if_pos (.inr hm)]
        exact ⟨rfl, h.dropStrong hx h0⟩
    · have h0 : ps.count ⟨true, b⟩ = 0 := List.count_eq_zero.mpr hm
      obtain ⟨k1, k2, ⟨v, k3, k4⟩, k5⟩ := h.destroy hx h0
      refine ⟨true, mb.set b { x with strong := 0, weak := x.weak - 1 }, ?_, fun c v hv => hv.set_same hx rfl, ?_⟩
      · have hz : x.strong - 1 = 0 := by omega
        simp only [dropPtr, hx, if_true, RcBox.dropRc, RcBox.decStrong, RcBox.decWeak, Shared.minusOne_ret (t := t) (checks := checks) (a := x.strong) (by omega),
          Shared.minusOne_ret (t := t) (checks := checks) (a := x.weak) k2, bind, Outcome.bind, pure, hz]
      · rw [if_neg (by simp [hm])]
        exact ⟨rfl, v, k3, ⟨x, hx, k4⟩, k5⟩

/-- What the drop glue does with the remaining pointers. -/
theorem glue_spec {base : Shared.Spec} {others : List Ptr} {o : Option Nat} {pl : Place} {v : Value} :
    ∀ {ps : List Ptr} {i : Nat} {mb : List (RcBox Value)} (_ : CInv (others ++ ps) base.blocks mb) (_ : At mb o pl v) (_ : v.fields.drop i = ps),
    ∃ r mb', glue t checks pl ps.length i mb = .ret (mb', r) ∧ (∀ b v, Bits mb b v → Bits mb' b v) ∧
      match next base others ps with
      | none => r = none ∧ CInv others base.blocks mb'
      | some (b, y, ps') => ∃ j, r = some (b, j) ∧ v.fields.drop j = ps' ∧ var base.blocks b = some y ∧ Bits mb' b y ∧ CInv (others ++ ps') (base.blocks.set b none) mb' := by
  intro ps
  induction ps with
  | nil =>
    intro i mb h ha hi
    exact ⟨none, mb, rfl, fun _ _ h => h, rfl, by simpa using h⟩
  | cons p ps ih =>
    intro i mb h ha hi
    have hget : v.fields[i]? = some p := by
      have := congrArg (fun l => l[0]?) hi
      simpa [List.getElem?_drop] using this
    have hdrop : v.fields.drop (i + 1) = ps := by rw [← List.drop_drop, hi]; rfl
    obtain ⟨r, mb', h1, h2, h3⟩ := dropPtr_spec (t := t) (checks := checks) (p := p) (ps := others ++ ps)
      (h.perm (Shared.perm_count.mpr fun a => by simp only [List.count_append, List.count_cons]; omega))
    simp only [glue, List.length_cons, ha.read, hget, h1, bind, Outcome.bind, next, destroys]
    by_cases hc : p.strong = false ∨ p ∈ others ++ ps
    · rw [if_pos hc] at h3
      obtain ⟨rfl, h3⟩ := h3
      obtain ⟨r, mb2, g1, g2, g3⟩ := ih h3 (ha.keeps fun b _ v => h2 b v) hdrop
      simp only [if_pos hc, Bool.false_eq_true, if_false]
      exact ⟨r, mb2, g1, fun b v hb => g2 b v (h2 b v hb), g3⟩
    · rw [if_neg hc] at h3
      obtain ⟨rfl, y, k1, k2, k3⟩ := h3
      simp only [if_neg hc, k1, if_true, pure]
      exact ⟨some (p.block, i + 1), mb', rfl, h2, i + 1, rfl, hdrop, trivial, h2 _ _ k2, k3⟩

/-! ## Until code of the user runs again -/

/-- The states that belong together. -/
structure Good (base : Shared.Spec) (fs : List Frame) (mb : List (RcBox Value)) (ts : List Task) : Prop where
  inv : CInv (base.pointers ++ stackPtrs fs) base.blocks mb
  frames : Matches mb fs ts
  nodup : (dying fs).Nodup
  dead : ∀ b ∈ dying fs, var base.blocks b = none

/-- Destroying a value moves its pointers. -/
theorem beginDrop_pointers {base : Shared.Spec} {b : Nat} {v : Value} (h : var base.blocks b = some v) : base.pointers.Perm (v.fields ++ (beginDrop base b v).pointers) := by
  refine Shared.perm_count.mpr fun a => ?_
  have := Shared.perm_count.mp (all_var (f := Value.fields) h) a
  simp only [Shared.pointers_eq, beginDrop, List.count_append] at this ⊢
  omega

theorem dead_begin {base : Shared.Spec} {b c : Nat} {v : Value} (h : var base.blocks c = none) : var (beginDrop base b v).blocks c = none := by
  cases hx : var (beginDrop base b v).blocks c with
  | none => rfl
  | some y => rw [Linked.var_set_none hx |>.2] at h; cases h

theorem stackPtrs_cons (f : Frame) (fs : List Frame) : stackPtrs (f :: fs) = f.ptrs ++ stackPtrs fs := rfl

theorem settle_spec {base : Shared.Spec} : ∀ {fs : List Frame} {ts : List Task} {mb : List (RcBox Value)} (u : Bool) (_ : Good base fs mb ts),
    ∃ mb' ts', settle t checks u mb base.log ts = .ret ((resume base u fs).1, mb', (resume base u fs).2.1.log, ts') ∧ Good (resume base u fs).2.1 (resume base u fs).2.2 mb' ts' := by
  intro fs
  induction fs with
  | nil =>
    intro ts mb u h
    cases h.frames
    exact ⟨mb, [], rfl, h⟩
  | cons f fs ih =>
    intro ts mb u h
    obtain ⟨hi, hf, hn, hd⟩ := h
    cases hf with
    | cons hm hs =>
      rename_i tk ts
      cases hm with
      | body w ha => exact ⟨mb, _, rfl, hi, .cons (.body w ha) hs, hn, hd⟩
      | rest w ha hp hl =>
        rename_i v o pl i n ps
        have hlen : n - i = ps.length := by rw [← hp, List.length_drop, hl]
        rw [stackPtrs_cons] at hi
        have hnd := hn
        rw [dying_cons] at hn hd
        obtain ⟨r, mb', h1, h2, h3⟩ := glue_spec (t := t) (checks := checks) (base := base) (others := base.pointers ++ stackPtrs fs)
          (hi.perm (Shared.perm_count.mpr fun a => by simp only [List.count_append, Frame.ptrs]; omega)) ha hp
        have hs' : Matches mb' fs ts := hs.keeps fun b _ v => h2 b v
        simp only [settle, hlen, h1, bind, Outcome.bind, resume]
        cases hx : next base (base.pointers ++ stackPtrs fs) ps with
        | none =>
          rw [hx] at h3
          obtain ⟨rfl, h3⟩ := h3
          exact ih (u || w) ⟨h3, hs', (List.nodup_append.mp hn).2.1, fun b hb => hd b (by simp [hb])⟩
        | some q =>
          obtain ⟨b, y, ps'⟩ := q
          rw [hx] at h3
          obtain ⟨j, rfl, k1, k2, k3, k4⟩ := h3
          simp only [k3.read, pure]
          refine ⟨mb', _, rfl, ?_, .cons (.body _ ⟨rfl, k3⟩) (.cons (.rest _ (ha.keeps fun b _ v => h2 b v) k1 hl) hs'), ?_, ?_⟩
          · refine k4.perm (Shared.perm_count.mpr fun a => ?_)
            have := Shared.perm_count.mp (beginDrop_pointers k2) a
            simp only [List.count_append, stackPtrs_cons, Frame.ptrs] at this ⊢
            omega
          · rw [dying_cons, dying_cons]
            rw [dying_cons] at hnd
            refine List.nodup_append.mpr ⟨by simp [Frame.place], hnd, ?_⟩
            intro a ha' c hc hac
            simp only [Frame.place, Option.toList, List.mem_singleton] at ha'
            subst hac ha'
            have := hd a hc
            rw [k2] at this
            cases this
          · intro c hc
            rw [dying_cons, dying_cons] at hc
            simp only [Frame.place, Option.toList, List.mem_append, List.mem_singleton] at hc
            rcases hc with rfl | hc
            · exact Shared.var_set_self (var_lt k2) none
            · exact dead_begin (hd c (by simp only [Frame.place, List.mem_append]; exact hc))

theorem resume_frame {base : Shared.Spec} (fs : List Frame) : ∀ (u : Bool), Shared.Frame base (resume base u fs).2.1 := by
  induction fs with
  | nil => intro u; exact ⟨rfl, rfl, rfl, rfl, rfl, rfl⟩
  | cons f fs ih =>
    intro u
    cases f with
    | body v o w => exact ⟨rfl, rfl, rfl, rfl, rfl, rfl⟩
    | rest ps o w =>
      simp only [resume]
      cases next base (base.pointers ++ stackPtrs fs) ps with
      | none => exact ih (u || w)
      | some q => exact ⟨rfl, rfl, rfl, rfl, rfl, rfl⟩

/-! ## Operations that begin no destructor -/

/-- The operations that `Shared.exec` executes here. -/
def Plain : Shared.Op → Prop
  | .dropPtr _ | .dropVal _ | .rc _ _ | .forget _ => False
  | _ => True

variable {e : Bump.Env} {s : Shared.Spec} {w w' : Shared.World} {r : Resp} {ds : List Nat}

theorem keeps_refl : Keeps ds mb mb := fun _ _ _ h => h
theorem keeps_set {c : Nat} {x y : RcBox Value} (hx : mb[c]? = some x) (hy : y.val = x.val) : Keeps ds mb (mb.set c y) := fun _ _ _ h => h.set_same hx hy
theorem keeps_ne {c : Nat} {y : RcBox Value} (hc : c ∉ ds) : Keeps ds mb (mb.set c y) := fun b hb _ h => h.set_ne fun heq => hc (heq ▸ hb)

theorem plus_val {x y : RcBox Value} (h : x.incStrong t checks = .ret y) : y.val = x.val := by
  obtain ⟨n, _, h⟩ := bind_ret h
  cases h; rfl
theorem plusWeak_val {x y : RcBox Value} (h : x.incWeak t checks = .ret y) : y.val = x.val := by
  obtain ⟨n, _, h⟩ := bind_ret h
  cases h; rfl
theorem minus_val {x y : RcBox Value} (h : x.decStrong t checks = .ret y) : y.val = x.val := by
  obtain ⟨n, _, h⟩ := bind_ret h
  cases h; rfl
theorem block_ret {b : Nat} {x : RcBox Value} (h : w.block b = .ret x) : w.blocks[b]? = some x := by
  unfold Shared.World.block at h
  split at h
  · cases h
  · rename_i y hy; cases h; exact hy

theorem keeps_clone {q : Ptr} (h : w.clone t checks q = .ret (r, w')) : Keeps ds w.blocks w'.blocks := by
  obtain ⟨x, h1, h⟩ := bind_ret h
  simp only at h
  split at h
  · obtain ⟨y, h2, h⟩ := bind_ret h
    simp only [pure, Outcome.ret.injEq] at h
    have := congrArg Prod.snd h
    simp only [Shared.World.add] at this
    subst this
    exact keeps_set (block_ret h1) (plus_val h2)
  · obtain ⟨y, h2, h⟩ := bind_ret h
    simp only [pure, Outcome.ret.injEq] at h
    have := congrArg Prod.snd h
    simp only [Shared.World.add] at this
    subst this
    exact keeps_set (block_ret h1) (plusWeak_val h2)

theorem keeps_exec {op : Shared.Op} (h : Ref e s w) (hx : Shared.exec e checks (fun _ => false) w op = .ret (r, w')) (hp : Plain op)
    (hd : ∀ b ∈ ds, var s.blocks b = none) (ha : ∀ p v, op = .recycle p v → ∀ b ∈ ds, var s.ptrs p ≠ some ⟨false, b⟩) : Keeps ds w.blocks w'.blocks := by
  have hne : ∀ {p b : Nat}, w.strong p = some b → b ∉ ds := by
    intro p b hs hm
    obtain ⟨_, v, _, k, _⟩ := Shared.strong_some h hs
    rw [hd b hm] at k; cases k
  cases op with
  | dropPtr p => exact hp.elim
  | dropVal p => exact hp.elim
  | rc v L => exact hp.elim
  | forget p => exact hp.elim
  | make => simp only [Shared.exec, pure, Outcome.ret.injEq, Prod.mk.injEq] at hx; obtain ⟨_, rfl⟩ := hx; exact keeps_refl
  | alloc L =>
    obtain ⟨⟨o, c⟩, _, hx⟩ := bind_ret hx
    cases o <;> (simp only [pure, Outcome.ret.injEq, Prod.mk.injEq] at hx; obtain ⟨_, rfl⟩ := hx; exact keeps_refl)
  | clone p =>
    simp only [Shared.exec] at hx
    split at hx
    · simp only [pure, Outcome.ret.injEq, Prod.mk.injEq] at hx; obtain ⟨_, rfl⟩ := hx; exact keeps_refl
    · exact keeps_clone hx
  | downgrade p =>
    simp only [Shared.exec] at hx
    split at hx
    · simp only [pure, Outcome.ret.injEq, Prod.mk.injEq] at hx; obtain ⟨_, rfl⟩ := hx; exact keeps_refl
    · obtain ⟨x, h1, hx⟩ := bind_ret hx
      obtain ⟨y, h2, hx⟩ := bind_ret hx
      simp only [pure, Outcome.ret.injEq, Shared.World.add, Prod.mk.injEq] at hx
      obtain ⟨_, rfl⟩ := hx
      exact keeps_set (block_ret h1) (plusWeak_val h2)
  | upgrade p =>
    simp only [Shared.exec] at hx
    split at hx
    · obtain ⟨x, h1, hx⟩ := bind_ret hx
      split at hx
      · simp only [pure, Outcome.ret.injEq, Prod.mk.injEq] at hx; obtain ⟨_, rfl⟩ := hx; exact keeps_refl
      · obtain ⟨y, h2, hx⟩ := bind_ret hx
        simp only [pure, Outcome.ret.injEq, Shared.World.add, Prod.mk.injEq] at hx
        obtain ⟨_, rfl⟩ := hx
        exact keeps_set (block_ret h1) (plus_val h2)
    · simp only [pure, Outcome.ret.injEq, Prod.mk.injEq] at hx; obtain ⟨_, rfl⟩ := hx; exact keeps_refl
  | attach v p =>
    simp only [Shared.exec] at hx
    split at hx <;> (simp only [pure, Outcome.ret.injEq, Prod.mk.injEq] at hx; obtain ⟨_, rfl⟩ := hx; exact keeps_refl)
  | unpack v i =>
    simp only [Shared.exec] at hx
    split at hx
    · simp only [pure, Outcome.ret.injEq, Prod.mk.injEq] at hx; obtain ⟨_, rfl⟩ := hx; exact keeps_refl
    · split at hx <;> (simp only [pure, Outcome.ret.injEq, Shared.World.add, Prod.mk.injEq] at hx; obtain ⟨_, rfl⟩ := hx; exact keeps_refl)
  | push p k =>
    simp only [Shared.exec] at hx
    split at hx
    · simp only [pure, Outcome.ret.injEq, Prod.mk.injEq] at hx; obtain ⟨_, rfl⟩ := hx; exact keeps_refl
    · rename_i b hb
      obtain ⟨x, h1, hx⟩ := bind_ret hx
      split at hx
      · simp only [pure, Outcome.ret.injEq, Prod.mk.injEq] at hx; obtain ⟨_, rfl⟩ := hx; exact keeps_refl
      · obtain ⟨y, h2, hx⟩ := bind_ret hx
        obtain ⟨z, h3, h2⟩ := bind_ret h2
        simp only [pure, Outcome.ret.injEq] at h2
        subst h2
        simp only [pure, Outcome.ret.injEq, Prod.mk.injEq] at hx
        obtain ⟨_, rfl⟩ := hx
        exact keeps_ne (hne hb)
  | pull p i =>
    simp only [Shared.exec] at hx
    split at hx
    · simp only [pure, Outcome.ret.injEq, Prod.mk.injEq] at hx; obtain ⟨_, rfl⟩ := hx; exact keeps_refl
    · rename_i b hb
      obtain ⟨x, h1, hx⟩ := bind_ret hx
      split at hx
      · simp only [pure, Outcome.ret.injEq, Prod.mk.injEq] at hx; obtain ⟨_, rfl⟩ := hx; exact keeps_refl
      · obtain ⟨y, h2, hx⟩ := bind_ret hx
        obtain ⟨z, h3, h2⟩ := bind_ret h2
        simp only [pure, Outcome.ret.injEq] at h2
        subst h2
        simp only [pure, Outcome.ret.injEq, Shared.World.add, Prod.mk.injEq] at hx
        obtain ⟨_, rfl⟩ := hx
        exact keeps_ne (hne hb)
  | follow p i =>
    simp only [Shared.exec] at hx
    split at hx
    · simp only [pure, Outcome.ret.injEq, Prod.mk.injEq] at hx; obtain ⟨_, rfl⟩ := hx; exact keeps_refl
    · obtain ⟨x, h1, hx⟩ := bind_ret hx
      split at hx
      · simp only [pure, Outcome.ret.injEq, Prod.mk.injEq] at hx; obtain ⟨_, rfl⟩ := hx; exact keeps_refl
      · exact keeps_clone hx
  | read p =>
    simp only [Shared.exec] at hx
    split at hx
    · simp only [pure, Outcome.ret.injEq, Prod.mk.injEq] at hx; obtain ⟨_, rfl⟩ := hx; exact keeps_refl
    · obtain ⟨x, h1, hx⟩ := bind_ret hx
      simp only [pure, Outcome.ret.injEq, Prod.mk.injEq] at hx; obtain ⟨_, rfl⟩ := hx; exact keeps_refl
  | counts p =>
    simp only [Shared.exec] at hx
    split at hx
    · simp only [pure, Outcome.ret.injEq, Prod.mk.injEq] at hx; obtain ⟨_, rfl⟩ := hx; exact keeps_refl
    · obtain ⟨x, h1, hx⟩ := bind_ret hx
      simp only [pure, Outcome.ret.injEq, Prod.mk.injEq] at hx; obtain ⟨_, rfl⟩ := hx; exact keeps_refl
  | ptrEq p q =>
    simp only [Shared.exec] at hx
    split at hx <;> (simp only [pure, Outcome.ret.injEq, Prod.mk.injEq] at hx; obtain ⟨_, rfl⟩ := hx; exact keeps_refl)
  | replace p v =>
    simp only [Shared.exec] at hx
    split at hx
    · rename_i b y hb hy
      obtain ⟨x, h1, hx⟩ := bind_ret hx
      split at hx
      · obtain ⟨o, h2, hx⟩ := bind_ret hx
        obtain ⟨z, h3, hx⟩ := bind_ret hx
        obtain ⟨z', h4, h3⟩ := bind_ret h3
        simp only [pure, Outcome.ret.injEq] at h3
        subst h3
        simp only [pure, Outcome.ret.injEq, Prod.mk.injEq] at hx
        obtain ⟨_, rfl⟩ := hx
        exact keeps_ne (hne hb)
      · simp only [pure, Outcome.ret.injEq, Prod.mk.injEq] at hx; obtain ⟨_, rfl⟩ := hx; exact keeps_refl
    · simp only [pure, Outcome.ret.injEq, Prod.mk.injEq] at hx; obtain ⟨_, rfl⟩ := hx; exact keeps_refl
  | tryUnwrap p =>
    simp only [Shared.exec] at hx
    split at hx
    · simp only [pure, Outcome.ret.injEq, Prod.mk.injEq] at hx; obtain ⟨_, rfl⟩ := hx; exact keeps_refl
    · obtain ⟨x, h1, hx⟩ := bind_ret hx
      split at hx
      · simp only [pure, Outcome.ret.injEq, Prod.mk.injEq] at hx; obtain ⟨_, rfl⟩ := hx; exact keeps_refl
      · obtain ⟨y, h2, hx⟩ := bind_ret hx
        obtain ⟨z, h3, hx⟩ := bind_ret hx
        simp only [pure, Outcome.ret.injEq, Prod.mk.injEq] at hx
        obtain ⟨_, rfl⟩ := hx
        exact keeps_set (block_ret h1) (minus_val h2)
  | recycle p v =>
    simp only [Shared.exec] at hx
    split at hx
    · rename_i b y hb hy
      rw [h.ptrs] at hb
      obtain ⟨x, h1, hx⟩ := bind_ret hx
      split at hx
      · obtain ⟨z, h2, hx⟩ := bind_ret hx
        simp only [pure, Outcome.ret.injEq, Prod.mk.injEq] at hx
        obtain ⟨_, rfl⟩ := hx
        exact keeps_ne fun hm => ha p v rfl b hm hb
      · simp only [pure, Outcome.ret.injEq, Prod.mk.injEq] at hx; obtain ⟨_, rfl⟩ := hx; exact keeps_refl
    · simp only [pure, Outcome.ret.injEq, Prod.mk.injEq] at hx; obtain ⟨_, rfl⟩ := hx; exact keeps_refl

theorem dead_set {sb : List (Option Value)} {b c : Nat} {o : Option Value} (h : var sb b = none) (hc : c ≠ b ∨ o = none) : var (sb.set c o) b = none := by
  rcases hc with hc | rfl
  · rw [Shared.var_set_ne hc]; exact h
  · cases hx : var (sb.set c none) b with
    | none => rfl
    | some y => rw [(Linked.var_set_none hx).2] at h; cases h

/-- Values that are gone do not come back, except by `recycle`. The other fields that matter here. -/
theorem dead_exec {slab : Slab} {op : Shared.Op} (hp : Plain op) (hd : ∀ b ∈ ds, var s.blocks b = none)
    (ha : ∀ p v, op = .recycle p v → ∀ b ∈ ds, var s.ptrs p ≠ some ⟨false, b⟩) :
    (∀ b ∈ ds, var (s.exec slab (fun _ => false) op).2.blocks b = none) ∧ (s.exec slab (fun _ => false) op).2.aborted = s.aborted ∧
      (s.exec slab (fun _ => false) op).2.forgotten = s.forgotten ∧ (s.exec slab (fun _ => false) op).2.log = s.log := by
  have hne : ∀ {p b : Nat} {v : Value}, s.target p = some (b, v) → ∀ c ∈ ds, b ≠ c := by
    intro p b v hs c hm hbc
    have := (Shared.target_some hs).2
    rw [hbc, hd c hm] at this; cases this
  cases op with
  | dropPtr p => exact hp.elim
  | dropVal p => exact hp.elim
  | rc v L => exact hp.elim
  | forget p => exact hp.elim
  | make => exact ⟨hd, rfl, rfl, rfl⟩
  | alloc L | clone p | downgrade p | counts p | unpack v i | attach v p | ptrEq p q | read p | follow p i =>
    simp only [Shared.Spec.exec]
    repeat' split
    all_goals exact ⟨hd, rfl, rfl, rfl⟩
  | upgrade p =>
    simp only [Shared.Spec.exec]
    repeat' split
    all_goals exact ⟨hd, rfl, rfl, rfl⟩
  | push p k =>
    simp only [Shared.Spec.exec]
    split
    · exact ⟨hd, rfl, rfl, rfl⟩
    · rename_i b x hx
      split
      · exact ⟨hd, rfl, rfl, rfl⟩
      · exact ⟨fun c hc => dead_set (hd c hc) (.inl (hne hx c hc)), rfl, rfl, rfl⟩
  | pull p k =>
    simp only [Shared.Spec.exec]
    split
    · exact ⟨hd, rfl, rfl, rfl⟩
    · rename_i b x hx
      split
      · exact ⟨hd, rfl, rfl, rfl⟩
      · exact ⟨fun c hc => dead_set (hd c hc) (.inl (hne hx c hc)), rfl, rfl, rfl⟩
  | replace p v =>
    simp only [Shared.Spec.exec]
    split
    · rename_i b x y hx hy
      split
      · exact ⟨fun c hc => dead_set (hd c hc) (.inl (hne hx c hc)), rfl, rfl, rfl⟩
      · exact ⟨hd, rfl, rfl, rfl⟩
    · exact ⟨hd, rfl, rfl, rfl⟩
  | tryUnwrap p =>
    simp only [Shared.Spec.exec]
    split
    · exact ⟨hd, rfl, rfl, rfl⟩
    · split
      · exact ⟨fun c hc => dead_set (hd c hc) (.inr rfl), rfl, rfl, rfl⟩
      · exact ⟨hd, rfl, rfl, rfl⟩
  | recycle p v =>
    simp only [Shared.Spec.exec]
    split
    · rename_i b y hb hy
      split
      · exact ⟨fun c hc => dead_set (hd c hc) (.inl fun heq => ha p v rfl c hc (heq ▸ hb)), rfl, rfl, rfl⟩
      · exact ⟨hd, rfl, rfl, rfl⟩
    · exact ⟨hd, rfl, rfl, rfl⟩

/-! ## Refinement -/

theorem view_pointers (s : Spec) : s.view.pointers = s.base.pointers ++ stackPtrs s.stack := by
  simp [Shared.Spec.pointers, Spec.view, List.append_assoc]

structure Rel (e : Bump.Env) (s : Spec) (w : World) : Prop where
  ref : Ref e s.view w.base
  frames : Matches w.base.blocks s.stack w.tasks
  nodup : (dying s.stack).Nodup
  dead : ∀ b ∈ dying s.stack, var s.base.blocks b = none

def Refines (e : Bump.Env) (r : Resp × Spec) (o : Outcome (Resp × World)) : Prop :=
  ∃ w', o = .ret (r.1, w') ∧ w'.base.log = r.2.base.log ∧ w'.base.aborted = r.2.base.aborted ∧ w'.base.made = r.2.base.made ∧ (r.2.base.aborted = false → Rel e r.2 w')

theorem Rel.refines {s : Spec} {w : World} {r : Resp} (h : Rel e s w) : Refines e (r, s) (.ret (r, w)) := ⟨w, rfl, h.ref.log, h.ref.aborted, h.ref.made, fun _ => h⟩

theorem Rel.good {s : Spec} {w : World} (h : Rel e s w) : Good s.base s.stack w.base.blocks w.tasks :=
  ⟨by rw [← view_pointers]; exact h.ref.inv, h.frames, h.nodup, h.dead⟩

/-- The other way. -/
theorem Good.rel {s : Spec} {w : World} (h : Good s.base s.stack w.base.blocks w.tasks) (hv : w.base.vals = s.base.vals) (hp : w.base.ptrs = s.base.ptrs) (hl : w.base.level = s.base.level)
    (hm : w.base.made = s.base.made) (hg : w.base.log = s.base.log) (ha : w.base.aborted = s.base.aborted) (hle : s.base.level ≤ e.len) : Rel e s w :=
  ⟨⟨hv, hp, hl, hm, hg, ha, hle, by rw [view_pointers]; exact h.inv⟩, h.frames, h.nodup, h.dead⟩

theorem not_dying {s : Spec} {w : World} (h : Rel e s w) {b : Nat} {v : Value} (hv : var s.base.blocks b = some v) : b ∉ dying s.stack := fun hm => by
  have := h.dead b hm
  rw [hv] at this; cases this

theorem ref_dropVal {s : Spec} {w : World} (h : Rel e s w) {v : Nat} {x : Value} (hx : var s.base.vals v = some x) {c : Nat} (hc : w.base.level = c) (done : Resp) :
    Refines e (done, { s with base := { s.base with vals := s.base.vals.set v none } }.dropVal x) (.ret (done, { w with base := { w.base with vals := w.base.vals.set v none, level := c } }.dropVal x)) := by
  refine ⟨_, rfl, ?_⟩
  refine ⟨by simp only [World.dropVal, Spec.dropVal, h.ref.log]; rfl, h.ref.aborted, h.ref.made, fun _ => ?_⟩
  subst hc
  have hi := h.good.inv
  refine Good.rel ⟨?_, .cons (.body _ rfl) h.frames, h.nodup, h.dead⟩ (by simp only [World.dropVal, Spec.dropVal, h.ref.vals]; rfl) h.ref.ptrs h.ref.level h.ref.made
    (by simp only [World.dropVal, Spec.dropVal, h.ref.log]; rfl) h.ref.aborted h.ref.le
  refine hi.perm (Shared.perm_count.mpr fun a => ?_)
  have := Shared.perm_count.mp (all_var (f := Value.fields) hx) a
  simp only [Spec.dropVal, Shared.pointers_eq, stackPtrs_cons, Frame.ptrs, List.count_append] at this ⊢
  omega

theorem ref_plain {s : Spec} {w : World} {op : Shared.Op} (hv : e.Valid) (h : Rel e s w) (hf : s.view.Few e.target) (ho : op.Valid e.target) (hp : Plain op)
    (ha : ∀ p v, op = .recycle p v → ∀ b ∈ dying s.stack, var s.base.ptrs p ≠ some ⟨false, b⟩) :
    Refines e ((s.view.exec e.slab (fun _ => false) op).1, { s with base := { (s.view.exec e.slab (fun _ => false) op).2 with forgotten := s.base.forgotten } })
      (do let (r, base) ← Shared.exec e checks (fun _ => false) w.base op; pure (r, { w with base := base })) := by
  obtain ⟨w1, h1, h2, h3, h4, h5⟩ := Shared.ref_exec (panics := fun _ => false) (checks := checks) hv h.ref hf ho
  obtain ⟨d1, d2, d3, d4⟩ := dead_exec (s := s.view) (slab := e.slab) hp h.dead ha
  have hk := keeps_exec h.ref h1 hp h.dead ha
  rw [h1]
  refine ⟨_, rfl, ?_⟩
  refine ⟨h2, h3, h4, fun hab => ?_⟩
  have hr := h5 hab
  refine ⟨⟨hr.vals, hr.ptrs, hr.level, hr.made, hr.log, hr.aborted, hr.le, ?_⟩, h.frames.keeps hk, h.nodup, d1⟩
  have : (Spec.mk { (s.view.exec e.slab (fun _ => false) op).2 with forgotten := s.base.forgotten } s.stack).view.pointers = (s.view.exec e.slab (fun _ => false) op).2.pointers := by
    simp only [Shared.Spec.pointers, Spec.view]
    simp only [Spec.view] at d3
    rw [d3]
  show CInv (Spec.mk _ s.stack).view.pointers _ _
  rw [this]
  exact hr.inv

/-- The value that is being destroyed is where the model finds it, and can be changed. -/
theorem setSelf_spec {s : Spec} {w : World} (h : Rel e s w) {v y : Value} {o : Option Nat} {u : Bool} {fs : List Frame} (hs : s.stack = .body v o u :: fs) {pl : Place} {ts : List Task}
    (hm : Match w.base.blocks (.body v o u) (.body pl u)) (hms : Matches w.base.blocks fs ts) :
    ∃ mb' pl', w.setSelf pl u ts y = .ret ⟨{ w.base with blocks := mb' }, .body pl' u :: ts⟩ ∧ Matches mb' (.body y o u :: fs) (.body pl' u :: ts) ∧
      ∀ qs, CInv qs s.base.blocks w.base.blocks → CInv qs s.base.blocks mb' := by
  have hn := h.nodup
  rw [hs, dying_cons] at hn
  cases hm with
  | body _ ha =>
    cases o with
    | none => cases pl with
      | moved v' => exact ⟨w.base.blocks, .moved y, rfl, .cons (.body _ rfl) hms, fun _ h => h⟩
      | block c => exact ha.elim
    | some b => cases pl with
      | moved v' => exact ha.elim
      | block c =>
        obtain ⟨rfl, x, hx, hval⟩ := ha
        have hlt : b < w.base.blocks.length := (List.getElem?_eq_some_iff.mp hx).1
        refine ⟨w.base.blocks.set b { x with val := some y }, .block b, ?_, .cons (.body _ ⟨rfl, _, by rw [List.getElem?_set_self hlt], rfl⟩) (hms.keeps (keeps_ne ?_)), ?_⟩
        · simp only [World.setSelf, Shared.ref_setVal hx, Shared.World.set, bind, Outcome.bind, pure]
        · intro hmem
          exact (List.nodup_append.mp hn).2.2 b (by simp [Frame.place]) b hmem rfl
        · intro qs hi
          have hd := h.dead b (by rw [hs, dying_cons]; simp [Frame.place])
          have hset : s.base.blocks.set b none = s.base.blocks := by
            have := Shared.set_same (xs := s.base.blocks) (i := b) (by rw [← hi.len]; exact hlt)
            rwa [hd] at this
          have := hi.update (o := none) (x := { x with val := some y }) (by rw [← hi.len]; exact hlt) (fun _ _ _ => rfl) (hi.strong b x hx) (hi.weak b x hx) (hi.zero b hd)
          rwa [hset] at this

theorem body_inv {s : Spec} {w : World} (h : Rel e s w) {v : Value} {o : Option Nat} {u : Bool} {fs : List Frame} (hs : s.stack = .body v o u :: fs) :
    ∃ pl ts, w.tasks = .body pl u :: ts ∧ At w.base.blocks o pl v ∧ Matches w.base.blocks fs ts := by
  obtain ⟨base, tasks⟩ := w
  have := h.frames
  simp only [hs] at this
  cases this with
  | cons hm hms => cases hm with
    | body _ ha => exact ⟨_, _, rfl, ha, hms⟩

/-- No destructor is running. -/
theorem no_body {s : Spec} {w : World} (h : Rel e s w) (hs : ∀ v o u fs, s.stack ≠ .body v o u :: fs) : ∀ pl u ts, w.tasks ≠ .body pl u :: ts := by
  intro pl u ts ht
  obtain ⟨base, tasks⟩ := w
  have := h.frames
  simp only at ht
  simp only [ht] at this
  generalize hst : s.stack = st at this
  cases this with
  | cons hm hms => cases hm with
    | body _ ha => exact hs _ _ _ _ hst

def OfSelf : Op → Prop
  | .call _ => False
  | _ => True

theorem ref_absent {s : Spec} {w : World} {op : Op} (hop : OfSelf op) (h : Rel e s w) (hs : ∀ v o u fs, s.stack ≠ .body v o u :: fs) : Refines e (s.exec e.slab op) (exec e checks w op) := by
  have hb := no_body h hs
  have e1 : s.exec e.slab op = (.absent, s) := by
    cases op with
    | call op => exact hop.elim
    | selfTake i | selfPush i | selfClone i | endDrop i =>
      simp only [Spec.exec]
  have e2 : exec e checks w op = .ret (.absent, w) := by
    cases op with
    | call op => exact hop.elim
    | selfTake i | selfPush i | selfClone i | endDrop i =>
      simp only [exec]; rfl
  rw [e1, e2]
  exact h.refines

theorem ref_exec {s : Spec} {w : World} (hv : e.Valid) (h : Rel e s w) (hab : s.base.aborted = false) (hf : s.view.Few e.target) {op : Op} (ho : op.Valid e.target) (hal : s.Allowed op) :
    Refines e (s.exec e.slab op) (exec e checks w op) := by
  have hi := h.good.inv
  have hptrs : w.base.ptrs = s.base.ptrs := h.ref.ptrs
  have hvals : w.base.vals = s.base.vals := h.ref.vals
  have hlevel : w.base.level = s.base.level := h.ref.level
  have hlog : w.base.log = s.base.log := h.ref.log
  have hle : s.base.level ≤ e.len := h.ref.le
  by_cases hb : OfSelf op ∧ ¬ ∃ v o u fs, s.stack = .body v o u :: fs
  · exact ref_absent hb.1 h fun v o u fs hx => hb.2 ⟨v, o, u, fs, hx⟩
  cases op with
  | selfTake i =>
    obtain ⟨v, o, u, fs, hs⟩ := Classical.byContradiction fun hn => hb ⟨trivial, hn⟩
    obtain ⟨pl, ts, ht, ha, hms⟩ := body_inv h hs
    simp only [exec, Spec.exec, hs, ht, ha.read, bind, Outcome.bind]
    cases hq : v.fields[i]? with
    | none => exact h.refines
    | some q =>
      obtain ⟨mb', pl', k1, k2, k3⟩ := setSelf_spec (y := { v with fields := v.fields.eraseIdx i }) h hs (.body u ha) hms
      simp only [k1, pure, World.add, Shared.World.add, Spec.add]
      refine ⟨_, by rw [hptrs], ?_⟩
      refine ⟨hlog, h.ref.aborted, h.ref.made, fun _ => Good.rel ⟨?_, k2, ?_, ?_⟩ hvals rfl hlevel h.ref.made hlog h.ref.aborted hle⟩
      · refine (k3 _ hi).perm (Shared.perm_count.mpr fun a => ?_)
        have := Shared.eraseIdx_count hq a
        simp only [hs, Shared.pointers_eq, stackPtrs_cons, Frame.ptrs, all_append, all_single, List.count_append, List.count_cons, List.count_nil] at this ⊢
        omega
      · have := h.nodup; rw [hs, dying_cons] at this; rw [dying_cons]; exact this
      · have := h.dead; rw [hs, dying_cons] at this; rw [dying_cons]; exact this
  | selfPush k =>
    obtain ⟨v, o, u, fs, hs⟩ := Classical.byContradiction fun hn => hb ⟨trivial, hn⟩
    obtain ⟨pl, ts, ht, ha, hms⟩ := body_inv h hs
    simp only [exec, Spec.exec, hs, ht, hptrs]
    cases hq : var s.base.ptrs k with
    | none => exact h.refines
    | some q =>
      obtain ⟨mb', pl', k1, k2, k3⟩ := setSelf_spec (y := { v with fields := v.fields ++ [q] }) h hs (.body u ha) hms
      simp only [ha.read, bind, Outcome.bind, k1, pure]
      refine ⟨_, rfl, ?_⟩
      refine ⟨hlog, h.ref.aborted, h.ref.made, fun _ => Good.rel ⟨?_, k2, ?_, ?_⟩ hvals (by simp only [hptrs]) hlevel h.ref.made hlog h.ref.aborted hle⟩
      · refine (k3 _ hi).perm (Shared.perm_count.mpr fun a => ?_)
        have := Shared.perm_count.mp (all_var (f := fun p => [p]) hq) a
        simp only [hs, Shared.pointers_eq, stackPtrs_cons, Frame.ptrs, List.count_append, List.count_cons, List.count_nil] at this ⊢
        omega
      · have := h.nodup; rw [hs, dying_cons] at this; rw [dying_cons]; exact this
      · have := h.dead; rw [hs, dying_cons] at this; rw [dying_cons]; exact this
  | selfClone i =>
    obtain ⟨v, o, u, fs, hs⟩ := Classical.byContradiction fun hn => hb ⟨trivial, hn⟩
    obtain ⟨pl, ts, ht, ha, hms⟩ := body_inv h hs
    simp only [exec, Spec.exec, hs, ht, ha.read, bind, Outcome.bind]
    cases hq : v.fields[i]? with
    | none => exact h.refines
    | some q =>
      have hmem : q ∈ s.view.pointers := by
        rw [view_pointers, hs, stackPtrs_cons]
        simp only [Frame.ptrs, List.mem_append]
        exact .inr (.inl (List.mem_of_getElem? hq))
      obtain ⟨w1, h1, h2, h3, h4, h5⟩ := Shared.ref_clone (checks := checks) h.ref hf hmem
      have hk := keeps_clone (ds := dying s.stack) h1
      have hr := h5 hab
      simp only [h1, pure]
      refine ⟨_, rfl, ?_⟩
      refine ⟨h2, h3, h4, fun _ => ?_⟩
      exact ⟨hr, by have := h.frames.keeps hk; rwa [ht] at this, h.nodup, h.dead⟩
  | endDrop panics =>
    obtain ⟨v, o, u, fs, hs⟩ := Classical.byContradiction fun hn => hb ⟨trivial, hn⟩
    obtain ⟨pl, ts, ht, ha, hms⟩ := body_inv h hs
    simp only [exec, Spec.exec, hs, ht]
    by_cases hp : (panics && u) = true
    · rw [if_pos hp, if_pos hp]
      exact ⟨_, rfl, hlog, rfl, h.ref.made, fun hc => by simp at hc⟩
    · rw [if_neg hp, if_neg hp]
      have hg : Good s.base (.rest v.fields o (u || panics) :: fs) w.base.blocks (.glue pl 0 v.fields.length (u || panics) :: ts) := by
        refine ⟨?_, .cons (.rest _ ha rfl rfl) hms, ?_, ?_⟩
        · rw [hs] at hi; exact hi
        · have := h.nodup; rw [hs, dying_cons] at this; rw [dying_cons]; exact this
        · have := h.dead; rw [hs, dying_cons] at this; rw [dying_cons]; exact this
      obtain ⟨mb', ts', k1, k2⟩ := settle_spec (t := e.target) (checks := checks) false hg
      obtain ⟨f1, f2, f3, f4, f5, f6⟩ := resume_frame (base := s.base) (.rest v.fields o (u || panics) :: fs) false
      rcases hres : resume s.base false (.rest v.fields o (u || panics) :: fs) with ⟨u', base', fs'⟩
      rw [hres] at k1 k2 f1 f2 f3 f4 f5 f6
      simp only at k1 k2 f1 f2 f3 f4 f5 f6
      simp only [ha.read, hlog, k1, bind, Outcome.bind, pure]
      refine ⟨_, rfl, ?_⟩
      refine ⟨rfl, h.ref.aborted.trans f6.symm, h.ref.made.trans f4.symm, fun _ => ?_⟩
      exact Good.rel k2 (hvals.trans f1.symm) (hptrs.trans f2.symm) (hlevel.trans f3.symm) (h.ref.made.trans f4.symm) rfl (h.ref.aborted.trans f6.symm) (by simp only [f3]; exact hle)
  | call op =>
    have ho : op.Valid e.target := ho
    by_cases hp : Plain op
    · have hal' : ∀ p v, op = .recycle p v → ∀ b ∈ dying s.stack, var s.base.ptrs p ≠ some ⟨false, b⟩ := by
        rintro p v rfl
        exact hal
      have := ref_plain (checks := checks) hv h hf ho hp hal'
      cases op with
      | dropPtr p | dropVal p | rc v L | forget p => exact hp.elim
      | _ => exact this
    cases op with
    | dropVal v =>
      simp only [exec, Spec.exec, hvals]
      cases hx : var s.base.vals v with
      | none => exact h.refines
      | some x =>
        have := ref_dropVal h hx rfl .unit
        rw [hvals] at this
        exact this
    | rc v L =>
      simp only [exec, Spec.exec, hvals]
      cases hx : var s.base.vals v with
      | none => exact h.refines
      | some x =>
        have ht := Bump.tryAllocSeq_spec hv (c := s.base.level) hle ho.2 (Bump.Valid.align_pos ho.1)
        simp only [hlevel, ht]
        cases hpl : e.slab.place L s.base.level with
        | none =>
          have := ref_dropVal h hx hlevel .full
          rw [hvals] at this
          exact this
        | some a =>
          have hq := hpl
          rw [Slab.place_eq_some] at hq
          obtain ⟨k1, k2, k3⟩ := hq
          have := le_alignUp (Bump.Valid.align_pos ho.1) (e.slab.base + s.base.level)
          have hbase : e.slab.base = e.base := rfl
          have hlen : e.slab.len = e.len := rfl
          simp only [bind, Outcome.bind, pure, World.add, Shared.World.add, Spec.add, hptrs, h.ref.inv.len]
          refine ⟨_, rfl, ?_⟩
          refine ⟨hlog, h.ref.aborted, h.ref.made, fun _ => Good.rel ⟨?_, ?_, h.nodup, ?_⟩ rfl rfl rfl h.ref.made hlog h.ref.aborted (by simp only; omega)⟩
          · refine (hi.new x).perm (Shared.perm_count.mpr fun a => ?_)
            have := Shared.perm_count.mp (all_var (f := Value.fields) hx) a
            simp only [Shared.pointers_eq, all_append, all_single, List.count_append, List.count_cons, List.count_nil] at this ⊢
            omega
          · refine h.frames.keeps fun b hb v hbits => ?_
            obtain ⟨y, hy, hval⟩ := hbits
            exact ⟨y, by rw [List.getElem?_append_left (List.getElem?_eq_some_iff.mp hy).1]; exact hy, hval⟩
          · intro b hb
            have hd := h.dead b hb
            have hlt : b < s.base.blocks.length := by
              obtain ⟨v, y, hy, _⟩ := h.frames.bits hb
              rw [← hi.len]
              exact (List.getElem?_eq_some_iff.mp hy).1
            simp only [Shared.var_append_lt hlt]
            exact hd
    | forget p =>
      simp only [exec, Spec.exec, Shared.exec, hptrs]
      cases hx : var s.base.ptrs p with
      | none => exact h.refines
      | some q =>
        refine ⟨_, rfl, ?_⟩
        refine ⟨hlog, h.ref.aborted, h.ref.made, fun _ => Good.rel ⟨?_, h.frames, h.nodup, h.dead⟩ hvals rfl hlevel h.ref.made hlog h.ref.aborted hle⟩
        refine hi.perm (Shared.perm_count.mpr fun a => ?_)
        have := Shared.perm_count.mp (all_var (f := fun p => [p]) hx) a
        simp only [Shared.pointers_eq, List.count_append, List.count_cons, List.count_nil] at this ⊢
        omega
    | dropPtr p =>
      simp only [exec, Spec.exec, hptrs]
      cases hx : var s.base.ptrs p with
      | none => exact h.refines
      | some q =>
        have hperm : (s.base.pointers ++ stackPtrs s.stack).Perm (q :: (Shared.Spec.pointers { s.base with ptrs := s.base.ptrs.set p none } ++ stackPtrs s.stack)) := by
          refine Shared.perm_count.mpr fun a => ?_
          have := Shared.perm_count.mp (all_var (f := fun p => [p]) hx) a
          simp only [Shared.pointers_eq, List.count_append, List.count_cons, List.count_nil] at this ⊢
          omega
        obtain ⟨r, mb', g1, g2, g3⟩ := dropPtr_spec (t := e.target) (checks := checks) (hi.perm hperm)
        have hms : Matches mb' s.stack w.tasks := h.frames.keeps fun b _ v => g2 b v
        simp only [g1, bind, Outcome.bind, destroys]
        split at g3
        · rename_i hc
          obtain ⟨rfl, g3⟩ := g3
          simp only [if_pos hc, Bool.false_eq_true, if_false, pure]
          refine ⟨_, rfl, ?_⟩
          refine ⟨hlog, h.ref.aborted, h.ref.made, fun _ => Good.rel ⟨g3, hms, h.nodup, h.dead⟩ hvals rfl hlevel h.ref.made hlog h.ref.aborted hle⟩
        · rename_i hc
          obtain ⟨rfl, v, k1, k2, k3⟩ := g3
          simp only [if_neg hc, k1, if_true, (g2 _ _ k2).read, pure]
          refine ⟨_, rfl, ?_⟩
          refine ⟨by simp only [beginDrop, hlog], h.ref.aborted, h.ref.made, fun _ => Good.rel ⟨?_, .cons (.body _ ⟨rfl, g2 _ _ k2⟩) hms, ?_, ?_⟩ hvals rfl hlevel h.ref.made (by simp only [beginDrop, hlog]) h.ref.aborted hle⟩
          · refine k3.perm (Shared.perm_count.mpr fun a => ?_)
            have := Shared.perm_count.mp (beginDrop_pointers (base := { s.base with ptrs := s.base.ptrs.set p none }) k1) a
            simp only [List.count_append, stackPtrs_cons, Frame.ptrs] at this ⊢
            omega
          · rw [dying_cons]
            refine List.nodup_append.mpr ⟨by simp [Frame.place], h.nodup, ?_⟩
            intro a ha' c hc' hac
            simp only [Frame.place, Option.toList, List.mem_singleton] at ha'
            subst hac ha'
            exact not_dying h k1 hc'
          · intro c hc'
            rw [dying_cons] at hc'
            simp only [Frame.place, Option.toList, List.mem_append, List.mem_singleton] at hc'
            rcases hc' with rfl | hc'
            · exact Shared.var_set_self (var_lt k1) none
            · exact dead_begin (h.dead c hc')
    | _ => exact absurd trivial hp

theorem ref_run {s : Spec} {w : World} (hv : e.Valid) (ops : List Op) (ho : ∀ op ∈ ops, op.Valid e.target) (h : Rel e s w)
    (hf : s.FewRun e.target e.slab ops) (hal : s.AllowedRun e.slab ops) (ha : s.base.aborted = false) :
    ∃ w', run e checks w ops = .ret ((s.run e.slab ops).1, w') ∧ w'.base.log = (s.run e.slab ops).2.base.log ∧ w'.base.aborted = (s.run e.slab ops).2.base.aborted ∧
      w'.base.made = (s.run e.slab ops).2.base.made ∧ ((s.run e.slab ops).2.base.aborted = false → Rel e (s.run e.slab ops).2 w') := by
  induction ops generalizing s w with
  | nil => exact ⟨w, rfl, h.ref.log, h.ref.aborted, h.ref.made, fun _ => h⟩
  | cons op ops ih =>
    obtain ⟨w1, h1, h2, h3, h4, h5⟩ := ref_exec (checks := checks) hv h ha hf.1 (ho op (by simp)) hal.1
    simp only [run, h1, bind, Outcome.bind, Spec.run, h3]
    cases hx : (s.exec e.slab op).2.base.aborted with
    | true => exact ⟨w1, by simp [pure], by simpa using h2, by simp [h3, hx], by simpa using h4, by simp [hx]⟩
    | false =>
      obtain ⟨w2, g1, g2, g3, g4, g5⟩ := ih (fun o hm => ho o (by simp [hm])) (h5 hx) (hf.2 hx) (hal.2 hx) hx
      exact ⟨w2, by simp [pure, g1], by simpa using g2, by simpa using g3, by simpa using g4, by simpa using g5⟩

theorem Rel.init {l : Nat} (hl : l ≤ e.len) : Rel e (Spec.init l) (World.init l) :=
  ⟨Ref.init hl, .nil, by simp [Spec.init, dying], by simp [Spec.init, dying]⟩

/-! ## Every value is in one place -/

theorem id_begin {base : Shared.Spec} {b : Nat} {v : Value} (h : Shared.IdInv base) (hv : var base.blocks b = some v) : Shared.IdInv (beginDrop base b v) := by
  refine h.of rfl fun a => ?_
  have := List.perm_iff_count.mp (all_var (f := fun v : Value => [v.id]) hv) a
  simp only [Shared.idsOf, beginDrop, List.count_append] at this ⊢
  omega

theorem next_some {base : Shared.Spec} {others : List Ptr} {ps ps' : List Ptr} {b : Nat} {v : Value} (h : next base others ps = some (b, v, ps')) :
    var base.blocks b = some v ∧ ps'.length < ps.length := by
  induction ps with
  | nil => simp [next] at h
  | cons p ps ih =>
    simp only [next] at h
    split at h
    · rename_i y hy
      simp only [Option.some.injEq, Prod.mk.injEq] at h
      obtain ⟨rfl, rfl, rfl⟩ := h
      unfold destroys at hy
      split at hy
      · cases hy
      · exact ⟨hy, by simp⟩
    · have := ih h
      exact ⟨this.1, by simp only [List.length_cons]; omega⟩

theorem id_resume {base : Shared.Spec} (h : Shared.IdInv base) (fs : List Frame) : ∀ (u : Bool), Shared.IdInv (resume base u fs).2.1 := by
  induction fs with
  | nil => intro u; exact h
  | cons f fs ih =>
    intro u
    cases f with
    | body v o w => exact h
    | rest ps o w =>
      simp only [resume]
      cases hn : next base (base.pointers ++ stackPtrs fs) ps with
      | none => exact ih (u || w)
      | some q => exact id_begin h (next_some hn).1

theorem id_dropVal {s : Spec} (h : Shared.IdInv s.base) {v : Nat} {x : Value} (hx : var s.base.vals v = some x) :
    Shared.IdInv ({ s with base := { s.base with vals := s.base.vals.set v none } }.dropVal x).base := by
  refine h.of rfl fun a => ?_
  have := List.perm_iff_count.mp (all_var (f := fun v : Value => [v.id]) hx) a
  simp only [Shared.idsOf, Spec.dropVal, List.count_append] at this ⊢
  omega

theorem id_exec {s : Spec} {w : World} (hr : Rel e s w) (h : Shared.IdInv s.base) (op : Op) : Shared.IdInv (s.exec e.slab op).2.base := by
  cases op with
  | selfTake i =>
    simp only [Spec.exec]
    repeat' split
    all_goals exact h
  | selfPush i =>
    simp only [Spec.exec]
    repeat' split
    all_goals exact h
  | selfClone i =>
    simp only [Spec.exec]
    repeat' split
    all_goals exact h
  | endDrop p =>
    simp only [Spec.exec]
    split
    · rename_i v o u fs hs
      split
      · exact h
      · exact id_resume h _ _
    · exact h
  | call op =>
    by_cases hp : Plain op
    · have hz : ∀ b, var s.view.blocks b = none ∨ 0 < s.view.strongs b := by
        intro b
        cases hb : var s.view.blocks b with
        | none => exact .inl rfl
        | some v => exact .inr (hr.ref.inv.pos b v hb)
      have := Shared.IdInv.exec (s := s.view) (panics := fun _ => false) (slab := e.slab) h hz hr.ref.inv.lt op
      cases op with
      | dropPtr p | dropVal p | rc v L | forget p => exact hp.elim
      | _ => exact this
    · cases op with
      | dropPtr p =>
        simp only [Spec.exec]
        split
        · exact h
        · split
          · exact h
          · rename_i v hv
            unfold destroys at hv
            split at hv
            · cases hv
            · exact id_begin (base := { s.base with ptrs := s.base.ptrs.set p none }) h hv
      | dropVal v =>
        simp only [Spec.exec]
        split
        · exact h
        · rename_i x hx
          exact id_dropVal h hx
      | rc v L =>
        simp only [Spec.exec]
        split
        · exact h
        · rename_i x hx
          split
          · exact id_dropVal h hx
          · refine h.of rfl fun a => ?_
            have := List.perm_iff_count.mp (all_var (f := fun v : Value => [v.id]) hx) a
            simp only [Shared.idsOf, Spec.add, all_append, all_single, List.count_append] at this ⊢
            omega
      | forget p =>
        simp only [Spec.exec]
        split <;> exact h
      | _ => exact absurd trivial hp

theorem id_run {s : Spec} {w : World} (hv : e.Valid) (ops : List Op) (ho : ∀ op ∈ ops, op.Valid e.target) (h : Rel e s w)
    (hf : s.FewRun e.target e.slab ops) (hal : s.AllowedRun e.slab ops) (ha : s.base.aborted = false) (hi : Shared.IdInv s.base) : Shared.IdInv (s.run e.slab ops).2.base := by
  induction ops generalizing s w with
  | nil => exact hi
  | cons op ops ih =>
    obtain ⟨w1, h1, h2, h3, h4, h5⟩ := ref_exec (checks := false) hv h ha hf.1 (ho op (by simp)) hal.1
    have := id_exec h hi op
    simp only [Spec.run]
    cases hx : (s.exec e.slab op).2.base.aborted with
    | true => simpa using this
    | false => simpa using ih (fun o hm => ho o (by simp [hm])) (h5 hx) (hf.2 hx) (hal.2 hx) hx this

/-! ## The number of pointers -/

theorem length_resume {base : Shared.Spec} (fs : List Frame) : ∀ (u : Bool), ((resume base u fs).2.1.pointers ++ stackPtrs (resume base u fs).2.2).length ≤ (base.pointers ++ stackPtrs fs).length := by
  induction fs with
  | nil => intro u; exact Nat.le_refl _
  | cons f fs ih =>
    intro u
    cases f with
    | body v o w => exact Nat.le_refl _
    | rest ps o w =>
      simp only [resume]
      cases hn : next base (base.pointers ++ stackPtrs fs) ps with
      | none =>
        have := ih (u || w)
        simp only [List.length_append, stackPtrs_cons] at this ⊢
        omega
      | some q =>
        have h1 := (beginDrop_pointers (next_some hn).1).length_eq
        have h2 := (next_some hn).2
        simp only [List.length_append, stackPtrs_cons, Frame.ptrs] at h1 h2 ⊢
        omega

theorem pointers_length (s : Shared.Spec) : s.pointers.length = (all (fun p => [p]) s.ptrs).length + (all Value.fields s.vals).length + (all Value.fields s.blocks).length + s.forgotten.length := by
  simp only [Shared.pointers_eq, List.length_append]

theorem length_exec {slab : Slab} {s : Spec} (op : Op) : (s.exec slab op).2.view.pointers.length ≤ s.view.pointers.length + 1 := by
  have hself : ∀ {v : Value} {o : Option Nat} {u : Bool} {fs : List Frame}, s.stack = .body v o u :: fs → s.view.pointers.length = s.base.pointers.length + (v.fields.length + (stackPtrs fs).length) := by
    intro v o u fs hs
    simp only [pointers_length, Spec.view, hs, stackPtrs_cons, Frame.ptrs, List.length_append]
    omega
  have hval : ∀ {v : Nat} {x : Value}, var s.base.vals v = some x → ({ s with base := { s.base with vals := s.base.vals.set v none } }.dropVal x).view.pointers.length ≤ s.view.pointers.length + 1 := by
    intro v x hx
    have := (all_var (f := Value.fields) hx).length_eq
    simp only [pointers_length, Spec.view, Spec.dropVal, stackPtrs_cons, Frame.ptrs, List.length_append] at this ⊢
    omega
  cases op with
  | selfTake i =>
    simp only [Spec.exec]
    split
    · rename_i v o u fs hs
      split
      · exact Nat.le_succ _
      · rename_i q hq
        have hl := (List.getElem?_eq_some_iff.mp hq).1
        rw [hself hs]
        simp only [pointers_length, Spec.view, Spec.add, stackPtrs_cons, Frame.ptrs, all_append, all_single, List.length_append, List.length_eraseIdx, if_pos hl, List.length_singleton]
        omega
    · exact Nat.le_succ _
  | selfPush k =>
    simp only [Spec.exec]
    split
    · rename_i v o u fs hs
      split
      · exact Nat.le_succ _
      · rename_i q hq
        have := (all_var (f := fun p => [p]) hq).length_eq
        rw [hself hs]
        simp only [pointers_length, Spec.view, stackPtrs_cons, Frame.ptrs, List.length_append, List.length_singleton] at this ⊢
        omega
    · exact Nat.le_succ _
  | selfClone i =>
    simp only [Spec.exec]
    split
    · split
      · exact Nat.le_succ _
      · simp only [pointers_length, Spec.view, Spec.add, all_append, all_single, List.length_append, List.length_singleton]
        omega
    · exact Nat.le_succ _
  | endDrop p =>
    simp only [Spec.exec]
    split
    · rename_i v o u fs hs
      split
      · exact Nat.le_succ _
      · have := length_resume (base := s.base) (.rest v.fields o (u || p) :: fs) false
        rcases hres : resume s.base false (.rest v.fields o (u || p) :: fs) with ⟨u', base', fs'⟩
        rw [hres] at this
        rw [hself hs]
        simp only [pointers_length, Spec.view, stackPtrs_cons, Frame.ptrs, List.length_append] at this ⊢
        omega
    · exact Nat.le_succ _
  | call op =>
    by_cases hp : Plain op
    · have h1 := Shared.length_exec (s := s.view) (panics := fun _ => false) (slab := slab) op
      have h2 := (dead_exec (s := s.view) (slab := slab) (op := op) (ds := []) hp (by simp) (by simp)).2.2.1
      have h3 : (Spec.mk { (s.view.exec slab (fun _ => false) op).2 with forgotten := s.base.forgotten } s.stack).view.pointers = (s.view.exec slab (fun _ => false) op).2.pointers := by
        simp only [Shared.Spec.pointers, Spec.view]
        simp only [Spec.view] at h2
        rw [h2]
      rw [← h3] at h1
      cases op with
      | dropPtr p | dropVal p | rc v L | forget p => exact hp.elim
      | _ => exact h1
    · cases op with
      | dropPtr p =>
        simp only [Spec.exec]
        split
        · exact Nat.le_succ _
        · rename_i q hq
          have := (all_var (f := fun p => [p]) hq).length_eq
          split
          · simp only [pointers_length, Spec.view, List.length_append] at this ⊢
            omega
          · rename_i v hv
            unfold destroys at hv
            split at hv
            · cases hv
            · have h2 := (beginDrop_pointers (base := { s.base with ptrs := s.base.ptrs.set p none }) hv).length_eq
              simp only [pointers_length, Spec.view, beginDrop, stackPtrs_cons, Frame.ptrs, List.length_append] at this h2 ⊢
              omega
      | dropVal v =>
        simp only [Spec.exec]
        split
        · exact Nat.le_succ _
        · rename_i x hx
          exact hval hx
      | rc v L =>
        simp only [Spec.exec]
        split
        · exact Nat.le_succ _
        · rename_i x hx
          split
          · exact hval hx
          · have := (all_var (f := Value.fields) hx).length_eq
            simp only [pointers_length, Spec.view, Spec.add, all_append, all_single, List.length_append, List.length_singleton] at this ⊢
            omega
      | forget p =>
        simp only [Spec.exec]
        split
        · exact Nat.le_succ _
        · rename_i q hq
          have := (all_var (f := fun p => [p]) hq).length_eq
          simp only [pointers_length, Spec.view, List.length_append, List.length_cons, List.length_nil] at this ⊢
          omega
      | _ => exact absurd trivial hp

theorem few_run {slab : Slab} (ops : List Op) : ∀ {s : Spec}, s.view.pointers.length + ops.length ≤ t.usizeMax → s.FewRun t slab ops := by
  induction ops with
  | nil => intro s _; trivial
  | cons op ops ih =>
    intro s h
    simp only [List.length_cons] at h
    refine ⟨Shared.few_of_length (by omega), fun _ => ih ?_⟩
    have := length_exec (slab := slab) (s := s) op
    omega

/-! ## Nothing is forgotten unless by `forget` -/

theorem forgotten_exec {slab : Slab} {s : Spec} {op : Op} (h : ∀ p, op ≠ .call (.forget p)) : (s.exec slab op).2.base.forgotten = s.base.forgotten := by
  cases op with
  | selfTake i | selfPush i | selfClone i =>
    simp only [Spec.exec]
    repeat' split
    all_goals rfl
  | endDrop p =>
    simp only [Spec.exec]
    split
    · split
      · rfl
      · exact (resume_frame _ _).2.2.2.2.1
    · rfl
  | call op =>
    cases op with
    | forget p => exact absurd rfl (h p)
    | dropPtr p | dropVal p | rc v L =>
      simp only [Spec.exec]
      repeat' split
      all_goals rfl
    | _ => rfl

theorem forgotten_run {slab : Slab} (ops : List Op) : ∀ {s : Spec}, (∀ p, Op.call (.forget p) ∉ ops) → (s.run slab ops).2.base.forgotten = s.base.forgotten := by
  induction ops with
  | nil => intro s _; rfl
  | cons op ops ih =>
    intro s h
    have h1 := forgotten_exec (slab := slab) (s := s) (op := op) fun p hp => h p (by simp [hp])
    simp only [Spec.run]
    split
    · exact h1
    · exact (ih fun p hm => h p (by simp [hm])).trans h1

end Verif.Dtor
