import Verif.Model.Mixed
import Verif.Proofs.Shared
/-!
# Proofs for programs with boxes and reference counted pointers
-/
set_option autoImplicit false
namespace Verif.Mixed
open Linked (var all all_append all_single all_set all_var var_lt)
open Shared (var_set_self var_set_ne var_append_lt set_same plusOne_ret minusOne_ret)
open RcM (RcBox)

/-! ## Pointers -/

theorem fieldsOf_eq (xs : List (Option Value)) : fieldsOf xs = all Value.fields xs := by
  unfold fieldsOf all
  congr 1
  funext o
  cases o <;> rfl

theorem ptrs_eq (xs : List (Option Ptr)) : xs.filterMap id = all (fun p => [p]) xs := by
  induction xs with
  | nil => rfl
  | cons x xs ih => cases x <;> simp_all [all]

theorem pointers_eq (s : Spec) : s.pointers = all (fun p => [p]) s.ptrs ++ all Value.fields s.vals ++ stackPtrs s.stack ++ s.forgotten ++ all Value.fields s.blocks := by
  simp only [Spec.pointers, Spec.roots, fieldsOf_eq, ptrs_eq]

theorem perm_count {xs ys : List Ptr} : xs.Perm ys ↔ ∀ a, xs.count a = ys.count a := List.perm_iff_count

theorem stackPtrs_cons (f : Frame) (fs : List Frame) : stackPtrs (f :: fs) = f.ptrs ++ stackPtrs fs := rfl

theorem dying_cons (f : Frame) (fs : List Frame) : dying (f :: fs) = (f.place.toList) ++ dying fs := by
  cases f <;> rename_i a b c <;> cases b <;> rfl

/-! ## The counters -/

/-- A block, if there are this many pointers of each kind, and the value `y` exists in it. -/
def Ok (own strong weak : Nat) (y : Option Value) : Block → Prop
  | .box v => strong = 0 ∧ weak = 0 ∧ (match y with | some z => own = 1 ∧ v = z | none => own = 0)
  | .rc x => own = 0 ∧ x.strong = strong ∧ x.weak = weak + (if 0 < strong then 1 else 0) ∧ (match y with | some z => 0 < strong ∧ x.val = some z | none => strong = 0)

structure CInv (ps : List Ptr) (sb : List (Option Value)) (mb : List Block) : Prop where
  len : mb.length = sb.length
  lt : ∀ p ∈ ps, p.block < sb.length
  ok : ∀ b x, mb[b]? = some x → Ok (ps.count ⟨.own, b⟩) (ps.count ⟨.strong, b⟩) (ps.count ⟨.weak, b⟩) (var sb b) x

section
variable {ps qs : List Ptr} {sb : List (Option Value)} {mb : List Block}

theorem CInv.perm (h : CInv ps sb mb) (hp : ps.Perm qs) : CInv qs sb mb := by
  have hc := perm_count.mp hp
  refine ⟨h.len, fun p hm => h.lt p (hp.mem_iff.mpr hm), fun b x hx => ?_⟩
  rw [← hc, ← hc, ← hc]; exact h.ok b x hx

theorem CInv.get (h : CInv ps sb mb) {b : Nat} (hb : b < sb.length) : ∃ x, mb[b]? = .some x :=
  ⟨mb[b]'(by rw [h.len]; exact hb), List.getElem?_eq_getElem _⟩

/-- A change of block `b`. -/
theorem CInv.update (h : CInv ps sb mb) {b : Nat} (hb : b < sb.length) {o : Option Value} {x : Block}
    (hother : ∀ c, c ≠ b → ∀ k, qs.count ⟨k, c⟩ = ps.count ⟨k, c⟩)
    (hx : Ok (qs.count ⟨.own, b⟩) (qs.count ⟨.strong, b⟩) (qs.count ⟨.weak, b⟩) o x) :
    CInv qs (sb.set b o) (mb.set b x) := by
  refine ⟨by simp [h.len], ?_, ?_⟩
  · intro p hp
    rw [List.length_set]
    by_cases hc : p.block = b
    · omega
    · have h1 : 0 < qs.count ⟨p.kind, p.block⟩ := List.count_pos_iff.mpr hp
      rw [hother _ hc] at h1
      exact h.lt p (List.count_pos_iff.mp h1)
  · intro c y hy
    by_cases hc : c = b
    · subst hc
      rw [List.getElem?_set_self (by rw [h.len]; exact hb)] at hy
      cases hy
      rw [var_set_self hb]
      exact hx
    · rw [List.getElem?_set_ne (fun e => hc e.symm)] at hy
      rw [var_set_ne (fun e => hc e.symm), hother c hc, hother c hc, hother c hc]
      exact h.ok c y hy

/-- A change of block `b`, but not of the values that exist. -/
theorem CInv.change (h : CInv ps sb mb) {b : Nat} (hb : b < sb.length) {x : Block}
    (hother : ∀ c, c ≠ b → ∀ k, qs.count ⟨k, c⟩ = ps.count ⟨k, c⟩)
    (hx : Ok (qs.count ⟨.own, b⟩) (qs.count ⟨.strong, b⟩) (qs.count ⟨.weak, b⟩) (var sb b) x) : CInv qs sb (mb.set b x) := by
  have := h.update hb hother hx
  rwa [set_same hb] at this

theorem count_cons_ne {p : Ptr} {k : Kind} {c : Nat} (h : c ≠ p.block) : (p :: ps).count ⟨k, c⟩ = ps.count ⟨k, c⟩ := by
  rw [List.count_cons_of_ne]
  intro e
  exact h (by rw [e])

theorem count_self (k k' : Kind) (b : Nat) : ((⟨k, b⟩ : Ptr) :: ps).count ⟨k', b⟩ = ps.count ⟨k', b⟩ + (if k = k' then 1 else 0) := by
  rw [List.count_cons]
  congr 1
  cases k <;> cases k' <;> simp

/-- Pointers that keep a value. -/
theorem CInv.hold (h : CInv ps sb mb) {k : Kind} {b : Nat} (hk : k ≠ .weak) (hp : (⟨k, b⟩ : Ptr) ∈ ps) : ∃ v, var sb b = .some v := by
  obtain ⟨x, hx⟩ := h.get (h.lt _ hp)
  have h1 := h.ok b x hx
  have h2 : 0 < ps.count ⟨k, b⟩ := List.count_pos_iff.mpr hp
  cases hv : var sb b with
  | some v => exact ⟨v, rfl⟩
  | none =>
    rw [hv] at h1
    cases x with
    | box v =>
      obtain ⟨h3, h4, h5⟩ := h1
      simp only at h5
      cases k with
      | own => omega
      | strong => omega
      | weak => exact absurd rfl hk
    | rc x =>
      obtain ⟨h3, h4, h5, h6⟩ := h1
      simp only at h6
      cases k with
      | own => omega
      | strong => omega
      | weak => exact absurd rfl hk

/-- And there are such pointers. -/
theorem CInv.held (h : CInv ps sb mb) {b : Nat} {v : Value} (hv : var sb b = .some v) : (⟨.own, b⟩ : Ptr) ∈ ps ∨ (⟨.strong, b⟩ : Ptr) ∈ ps := by
  obtain ⟨x, hx⟩ := h.get (var_lt hv)
  have h1 := h.ok b x hx
  rw [hv] at h1
  cases x with
  | box v => exact .inl (List.count_pos_iff.mp (by have := h1.2.2.1; omega))
  | rc x => exact .inr (List.count_pos_iff.mp h1.2.2.2.1)

theorem CInv.bits (h : CInv ps sb mb) {b : Nat} {v : Value} (hv : var sb b = .some v) : bits mb b = .ret v := by
  obtain ⟨x, hx⟩ := h.get (var_lt hv)
  have h1 := h.ok b x hx
  rw [hv] at h1
  unfold Mixed.bits
  rw [hx]
  cases x with
  | box v => obtain ⟨_, _, _, rfl⟩ := h1; rfl
  | rc x =>
    obtain ⟨o, n, m⟩ := x
    obtain ⟨_, _, _, _, h2⟩ := h1
    simp only at h2
    subst h2
    rfl

/-- `Rc` and `Weak` belong to blocks with counters. -/
theorem CInv.rc (h : CInv ps sb mb) {k : Kind} {b : Nat} (hk : k ≠ .own) (hp : (⟨k, b⟩ : Ptr) ∈ ps) :
    ∃ x, mb[b]? = .some (.rc x) ∧ counters mb b = .ret x ∧ b < sb.length ∧ Ok (ps.count ⟨.own, b⟩) (ps.count ⟨.strong, b⟩) (ps.count ⟨.weak, b⟩) (var sb b) (.rc x) := by
  obtain ⟨x, hx⟩ := h.get (h.lt _ hp)
  have h1 := h.ok b x hx
  have h2 : 0 < ps.count ⟨k, b⟩ := List.count_pos_iff.mpr hp
  cases x with
  | box v =>
    obtain ⟨h3, h4, h5⟩ := h1
    cases k with
    | own => exact absurd rfl hk
    | strong => omega
    | weak => omega
  | rc x => exact ⟨x, hx, by simp only [counters, hx], h.lt _ hp, h1⟩

end

/-! ## Bits -/

/-- The bits of the value in block `b` are those of `v`. -/
def Bits (mb : List Block) (b : Nat) (v : Value) : Prop := bits mb b = .ret v

theorem bits_set_ne {mb : List Block} {b c : Nat} {x : Block} (hne : c ≠ b) : bits (mb.set c x) b = bits mb b := by
  unfold bits; rw [List.getElem?_set_ne hne]
theorem bits_set_self {mb : List Block} {b : Nat} {x : Block} (hb : b < mb.length) : bits (mb.set b x) b = (match x with | .box v => .ret v | .rc ⟨some v, _, _⟩ => .ret v | .rc ⟨none, _, _⟩ => .ub) := by
  unfold bits; rw [List.getElem?_set_self hb]
  cases x with
  | box v => rfl
  | rc x => obtain ⟨o, n, m⟩ := x; cases o <;> rfl
theorem bits_set_rc {mb : List Block} {b c : Nat} {x y : RcBox Value} (hx : mb[c]? = some (.rc x)) (hy : y.val = x.val) : bits (mb.set c (.rc y)) b = bits mb b := by
  by_cases hc : c = b
  · subst hc
    rw [bits_set_self (List.getElem?_eq_some_iff.mp hx).1]
    unfold bits
    rw [hx]
    obtain ⟨o, n, m⟩ := x
    obtain ⟨o', n', m'⟩ := y
    simp only at hy
    subst hy
    cases o' <;> rfl
  · exact bits_set_ne hc

/-- Writing the bits. -/
theorem setBits_spec {mb : List Block} {b : Nat} (hb : b < mb.length) (v : Value) :
    ∃ x, setBits mb b v = .ret (mb.set b x) ∧ bits (mb.set b x) b = .ret v ∧
      ∀ o s w y z, mb[b]? = some y → Ok o s w (some z) y → Ok o s w (some v) x := by
  have hg : mb[b]? = some mb[b] := List.getElem?_eq_getElem hb
  cases hx : mb[b] with
  | box u =>
    rw [hx] at hg
    refine ⟨.box v, by simp only [setBits, hg], by rw [bits_set_self hb], ?_⟩
    intro o s w y z hy h
    rw [hg] at hy
    cases hy
    exact ⟨h.1, h.2.1, h.2.2.1, rfl⟩
  | rc u =>
    rw [hx] at hg
    refine ⟨.rc { u with val := some v }, by simp only [setBits, hg], by rw [bits_set_self hb], ?_⟩
    intro o s w y z hy h
    rw [hg] at hy
    cases hy
    exact ⟨h.1, h.2.1, h.2.2.1, h.2.2.2.1, rfl⟩
theorem setBits_dead {mb : List Block} {b : Nat} (hb : b < mb.length) (v : Value) :
    ∃ x, setBits mb b v = .ret (mb.set b x) ∧ bits (mb.set b x) b = .ret v ∧ ∀ o s w y, mb[b]? = some y → Ok o s w none y → Ok o s w none x := by
  have hg : mb[b]? = some mb[b] := List.getElem?_eq_getElem hb
  cases hx : mb[b] with
  | box u =>
    rw [hx] at hg
    refine ⟨.box v, by simp only [setBits, hg], by rw [bits_set_self hb], ?_⟩
    intro o s w y hy h
    rw [hg] at hy
    cases hy
    exact h
  | rc u =>
    rw [hx] at hg
    refine ⟨.rc { u with val := some v }, by simp only [setBits, hg], by rw [bits_set_self hb], ?_⟩
    intro o s w y hy h
    rw [hg] at hy
    cases hy
    exact h

/-- Where a value that is being destroyed is. -/
def At (mb : List Block) : Option Nat → Where → Value → Prop
  | none, .moved w, v => w = v
  | some b, .block c, v => b = c ∧ Bits mb b v
  | _, _, _ => False

theorem At.read {mb : List Block} {o : Option Nat} {pl : Where} {v : Value} (h : At mb o pl v) : Mixed.read mb pl = .ret v := by
  cases o with
  | none => cases pl with
    | moved w => simp only [At] at h; subst h; rfl
    | block c => exact h.elim
  | some b => cases pl with
    | moved w => exact h.elim
    | block c => obtain ⟨rfl, h⟩ := h; exact h

theorem At.keeps {mb mb' : List Block} {o : Option Nat} {pl : Where} {v : Value} (h : At mb o pl v) (hk : ∀ b, o = some b → bits mb' b = bits mb b) : At mb' o pl v := by
  cases o with
  | none => cases pl with
    | moved w => exact h
    | block c => exact h.elim
  | some b => cases pl with
    | moved w => exact h.elim
    | block c => exact ⟨h.1, (hk b rfl).trans h.2⟩

inductive Match (mb : List Block) : Frame → Task → Prop
  | body {v : Value} {o : Option Nat} {pl : Where} (u : Bool) (h : At mb o pl v) : Match mb (.body v o u) (.body pl u)
  | rest {v : Value} {o : Option Nat} {pl : Where} {i n : Nat} {ps : List Ptr} (u : Bool) (h : At mb o pl v) (hp : v.fields.drop i = ps) (hn : n = v.fields.length) :
      Match mb (.rest ps o u) (.glue pl i n u)

inductive Matches (mb : List Block) : List Frame → List Task → Prop
  | nil : Matches mb [] []
  | cons {f : Frame} {t : Task} {fs : List Frame} {ts : List Task} (h : Match mb f t) (hs : Matches mb fs ts) : Matches mb (f :: fs) (t :: ts)

theorem Match.keeps {mb mb' : List Block} {f : Frame} {t : Task} (h : Match mb f t) (hk : ∀ b, f.place = some b → bits mb' b = bits mb b) : Match mb' f t := by
  cases h with
  | body u h => exact .body u (h.keeps hk)
  | rest u h hp hn => exact .rest u (h.keeps hk) hp hn

theorem Matches.keeps {mb mb' : List Block} {fs : List Frame} {ts : List Task} (h : Matches mb fs ts) (hk : ∀ b ∈ dying fs, bits mb' b = bits mb b) : Matches mb' fs ts := by
  induction h with
  | nil => exact .nil
  | cons h hs ih =>
    rename_i f t fs ts
    rw [dying_cons] at hk
    exact .cons (h.keeps fun b hb => hk b (by simp [hb])) (ih fun b hb => hk b (by simp [hb]))

theorem Matches.lt {mb : List Block} {fs : List Frame} {ts : List Task} (h : Matches mb fs ts) {b : Nat} (hb : b ∈ dying fs) : b < mb.length := by
  have key : ∀ {b : Nat} {v : Value}, Bits mb b v → b < mb.length := by
    intro b v hv
    unfold Bits bits at hv
    split at hv
    · rename_i h; exact (List.getElem?_eq_some_iff.mp h).1
    · rename_i h; exact (List.getElem?_eq_some_iff.mp h).1
    · cases hv
  have key2 : ∀ {o : Option Nat} {pl : Where} {v : Value}, At mb o pl v → b ∈ o.toList → b < mb.length := by
    intro o pl v ha hm
    cases o with
    | none => simp at hm
    | some c => cases pl with
      | moved _ => exact ha.elim
      | block d =>
        simp only [Option.toList, List.mem_singleton] at hm
        subst hm
        exact key ha.2
  induction h with
  | nil => simp [dying] at hb
  | cons h hs ih =>
    rw [dying_cons, List.mem_append] at hb
    rcases hb with hb | hb
    · cases h with
      | body u ha => exact key2 ha hb
      | rest u ha _ _ => exact key2 ha hb
    · exact ih hb

/-! ## Dropping a pointer -/

variable {t : Target} {checks : Bool} {ps qs : List Ptr} {sb : List (Option Value)} {mb : List Block}

/-- The value that is destroyed when `p` is dropped and `ps` remain. -/
def gone (sb : List (Option Value)) (ps : List Ptr) (p : Ptr) : Option Value := match p.kind with
  | .own => var sb p.block
  | .strong => if p ∈ ps then none else var sb p.block
  | .weak => none

theorem dropPtr_spec {p : Ptr} (h : CInv (p :: ps) sb mb) :
    ∃ r mb', dropPtr t checks mb p = .ret (r, mb') ∧ (∀ b, bits mb' b = bits mb b) ∧
      (match gone sb ps p with | none => r = false ∧ CInv ps sb mb' | some v => r = true ∧ var sb p.block = some v ∧ Bits mb' p.block v ∧ CInv ps (sb.set p.block none) mb') := by
  have hm : p ∈ p :: ps := by simp
  cases p with | mk k b =>
  have hother : ∀ c, c ≠ b → ∀ k', ps.count ⟨k', c⟩ = ((⟨k, b⟩ : Ptr) :: ps).count ⟨k', c⟩ := fun c hc k' => (count_cons_ne hc).symm
  cases k with
  | own =>
    obtain ⟨v, hv⟩ := h.hold (by decide) hm
    obtain ⟨x, hx⟩ := h.get (var_lt hv)
    have h1 := h.ok b x hx
    have hb := h.bits hv
    simp only [count_self, hv, reduceCtorEq, if_false, if_true] at h1
    refine ⟨true, mb, rfl, fun _ => rfl, ?_⟩
    simp only [gone, hv]
    refine ⟨trivial, trivial, hb, ?_⟩
    have h2 := h.update (qs := ps) (x := x) (o := none) (var_lt hv) hother (by
      cases x with
      | box u => exact ⟨h1.1, h1.2.1, by have := h1.2.2.1; omega⟩
      | rc u => have := h1.1; omega)
    rwa [show mb.set b x = mb from by
      apply List.ext_getElem?; intro i
      by_cases hi : b = i
      · subst hi; rw [List.getElem?_set_self (List.getElem?_eq_some_iff.mp hx).1, hx]
      · rw [List.getElem?_set_ne hi]] at h2
  | weak =>
    obtain ⟨x, hx, hc, hb, h1⟩ := h.rc (by decide) hm
    simp only [count_self, reduceCtorEq, if_false, if_true, Nat.add_zero] at h1
    have hw := h1.2.2.1
    refine ⟨false, mb.set b (.rc { x with weak := x.weak - 1 }), ?_, fun c => bits_set_rc hx rfl, ?_⟩
    · simp only [dropPtr, hc, RcBox.decWeak, minusOne_ret (t := t) (checks := checks) (a := x.weak) (by omega), bind, Outcome.bind, pure]
    · simp only [gone]
      exact ⟨trivial, h.change hb hother ⟨h1.1, h1.2.1, by simp only; omega, h1.2.2.2⟩⟩
  | strong =>
    obtain ⟨x, hx, hc, hb, h1⟩ := h.rc (by decide) hm
    obtain ⟨v, hv⟩ := h.hold (by decide) hm
    have hbits := h.bits hv
    simp only [count_self, reduceCtorEq, if_false, if_true, hv] at h1
    obtain ⟨k1, k2, k3, k4, k5⟩ := h1
    by_cases hin : (⟨.strong, b⟩ : Ptr) ∈ ps
    · have h0 : 0 < ps.count ⟨.strong, b⟩ := List.count_pos_iff.mpr hin
      refine ⟨false, mb.set b (.rc { x with strong := x.strong - 1 }), ?_, fun c => bits_set_rc hx rfl, ?_⟩
      · have hne : ¬ x.strong - 1 = 0 := by omega
        simp only [dropPtr, hc, RcBox.dropRc, RcBox.decStrong, minusOne_ret (t := t) (checks := checks) (a := x.strong) (by omega), bind, Outcome.bind, pure, hne, if_false]
      · simp only [gone, if_pos hin]
        refine ⟨trivial, h.change hb hother ⟨k1, by simp only; omega, ?_, by rw [hv]; exact ⟨h0, k5⟩⟩⟩
        simp only [if_pos h0]
        rw [if_pos (by omega)] at k3
        exact k3
    · have h0 : ps.count ⟨.strong, b⟩ = 0 := List.count_eq_zero.mpr hin
      rw [if_pos (by omega)] at k3
      refine ⟨true, mb.set b (.rc { x with strong := 0, weak := x.weak - 1 }), ?_, fun c => bits_set_rc hx rfl, ?_⟩
      · have hz : x.strong - 1 = 0 := by omega
        simp only [dropPtr, hc, RcBox.dropRc, RcBox.decStrong, RcBox.decWeak, minusOne_ret (t := t) (checks := checks) (a := x.strong) (by omega),
          minusOne_ret (t := t) (checks := checks) (a := x.weak) (by omega), bind, Outcome.bind, pure, hz, if_true]
      · simp only [gone, if_neg hin, hv]
        refine ⟨trivial, trivial, (bits_set_rc (y := { x with strong := 0, weak := x.weak - 1 }) hx rfl).trans hbits, h.update hb hother ⟨k1, h0.symm, ?_, h0⟩⟩
        simp only [h0, Nat.lt_irrefl, if_false]
        omega

theorem destroys_eq (s : Spec) (ps : List Ptr) (p : Ptr) : s.destroys ps p = gone s.blocks (s.pointers ++ ps) p := by
  unfold Spec.destroys gone
  cases p.kind <;> rfl

/-- What the drop glue does with the remaining pointers. -/
theorem glue_spec {s : Spec} {o : Option Nat} {pl : Where} {v : Value} :
    ∀ {ps : List Ptr} {i : Nat} {mb : List Block} (_ : CInv (s.pointers ++ ps) s.blocks mb) (_ : At mb o pl v) (_ : v.fields.drop i = ps),
    ∃ r mb', glue t checks pl ps.length i mb = .ret (mb', r) ∧ (∀ b, bits mb' b = bits mb b) ∧
      match s.next ps with
      | none => r = none ∧ CInv s.pointers s.blocks mb'
      | some (b, y, ps') => ∃ j, r = some (b, j) ∧ v.fields.drop j = ps' ∧ var s.blocks b = some y ∧ Bits mb' b y ∧ CInv (s.pointers ++ ps') (s.blocks.set b none) mb' := by
  intro ps
  induction ps with
  | nil =>
    intro i mb h ha hi
    exact ⟨none, mb, rfl, fun _ => rfl, rfl, by simpa using h⟩
  | cons p ps ih =>
    intro i mb h ha hi
    have hget : v.fields[i]? = some p := by
      have := congrArg (fun l => l[0]?) hi
      simpa [List.getElem?_drop] using this
    have hdrop : v.fields.drop (i + 1) = ps := by rw [← List.drop_drop, hi]; rfl
    obtain ⟨r, mb', h1, h2, h3⟩ := dropPtr_spec (t := t) (checks := checks) (p := p) (ps := s.pointers ++ ps)
      (h.perm (perm_count.mpr fun a => by simp only [List.count_append, List.count_cons]; omega))
    simp only [glue, List.length_cons, ha.read, hget, h1, bind, Outcome.bind, Spec.next, destroys_eq]
    cases hg : gone s.blocks (s.pointers ++ ps) p with
    | none =>
      rw [hg] at h3
      obtain ⟨rfl, h3⟩ := h3
      obtain ⟨r, mb2, g1, g2, g3⟩ := ih h3 (ha.keeps fun b _ => h2 b) hdrop
      simp only [Bool.false_eq_true, if_false]
      exact ⟨r, mb2, g1, fun b => (g2 b).trans (h2 b), g3⟩
    | some y =>
      rw [hg] at h3
      obtain ⟨rfl, k1, k2, k3⟩ := h3
      simp only [if_true, pure]
      exact ⟨some (p.block, i + 1), mb', rfl, h2, i + 1, rfl, hdrop, k1, k2, k3⟩

/-! ## The states that belong together -/

variable {e : Bump.Env}

/-- `ps` are the pointers that are counted. -/
structure RelAt (e : Bump.Env) (ps : List Ptr) (s : Spec) (w : World) : Prop where
  vals : w.vals = s.vals
  ptrs : w.ptrs = s.ptrs
  level : w.level = s.level
  made : w.made = s.made
  log : w.log = s.log
  aborted : w.aborted = s.aborted
  le : s.level ≤ e.len
  inv : CInv ps s.blocks w.blocks
  frames : Matches w.blocks s.stack w.tasks
  nodup : (dying s.stack).Nodup
  dead : ∀ b ∈ dying s.stack, var s.blocks b = none

def Rel (e : Bump.Env) (s : Spec) (w : World) : Prop := RelAt e s.pointers s w

theorem RelAt.perm {s : Spec} {w : World} (h : RelAt e ps s w) (hp : ps.Perm qs) : RelAt e qs s w := { h with inv := h.inv.perm hp }
theorem RelAt.rel {s : Spec} {w : World} (h : RelAt e ps s w) (hp : ∀ a, ps.count a = s.pointers.count a) : Rel e s w := h.perm (perm_count.mpr hp)

/-! ## Until code of the user runs again -/

/-- Destroying a value moves its pointers. -/
theorem begin_pointers {s : Spec} {b : Nat} {v : Value} (h : var s.blocks b = some v) (u : Bool) : s.pointers.Perm (s.begin b v u).pointers := by
  refine perm_count.mpr fun a => ?_
  have := perm_count.mp (all_var (f := Value.fields) h) a
  simp only [pointers_eq, Spec.begin, List.count_append, stackPtrs_cons, Frame.ptrs] at this ⊢
  omega

/-- The destructor is begun. -/
theorem RelAt.begin {s : Spec} {w w' : World} {b : Nat} {v : Value} {u : Bool} {mb' : List Block} (h : RelAt e qs s w) (hv : var s.blocks b = some v) (hk : ∀ c, bits mb' c = bits w.blocks c)
    (hb : Bits mb' b v) (hi : CInv ps (s.blocks.set b none) mb') (hw : w' = { w with blocks := mb', log := w.log ++ [v.id], tasks := .body (.block b) u :: w.tasks }) :
    RelAt e ps (s.begin b v u) w' := by
  subst hw
  refine ⟨h.vals, h.ptrs, h.level, h.made, by simp only [Spec.begin, h.log], h.aborted, h.le, hi, ?_, ?_, ?_⟩
  · exact .cons (.body u ⟨rfl, hb⟩) (h.frames.keeps fun c _ => hk c)
  · simp only [Spec.begin, dying_cons, Frame.place, Option.toList]
    refine List.nodup_append.mpr ⟨by simp, h.nodup, ?_⟩
    intro a ha' c hc hac
    simp only [List.mem_singleton] at ha'
    subst hac ha'
    have := h.dead a hc
    rw [hv] at this
    cases this
  · intro c hc
    simp only [Spec.begin, dying_cons, Frame.place, Option.toList, List.mem_append, List.mem_singleton] at hc ⊢
    rcases hc with rfl | hc
    · exact var_set_self (var_lt hv) none
    · cases hx : var (s.blocks.set b none) c with
      | none => rfl
      | some y =>
        have := (Linked.var_set_none hx).2
        rw [h.dead c hc] at this; cases this

theorem settle_spec {s : Spec} : ∀ {fs : List Frame} {w : World} (u : Bool) (_ : Rel e { s with stack := fs } w),
    ∃ mb' log' ts', settle t checks u w.blocks w.log w.tasks = .ret ((s.resume u fs).1, mb', log', ts') ∧ Rel e (s.resume u fs).2 { w with blocks := mb', log := log', tasks := ts' } := by
  intro fs
  induction fs with
  | nil =>
    intro w u h
    obtain ⟨vs, ps, bs, l, m, lg, ab, ts⟩ := w
    have hf := h.frames
    simp only at hf
    cases hf
    exact ⟨bs, lg, [], rfl, h⟩
  | cons f fs ih =>
    intro w u h
    obtain ⟨vs, ps, bs, l, m, lg, ab, ts⟩ := w
    have hf := h.frames
    simp only at hf
    cases hf with
    | cons hm hs =>
      rename_i tk ts
      cases hm with
      | body w ha => exact ⟨bs, lg, _, rfl, h⟩
      | rest w ha hp hl =>
        rename_i v o pl i n qs
        have hlen : n - i = qs.length := by rw [← hp, List.length_drop, hl]
        have hnd := h.nodup
        have hdd := h.dead
        simp only [dying_cons] at hnd hdd
        have hi : CInv ({ s with stack := fs }.pointers ++ qs) { s with stack := fs }.blocks bs := by
          refine h.inv.perm (perm_count.mpr fun a => ?_)
          simp only [pointers_eq, stackPtrs_cons, Frame.ptrs, List.count_append]
          omega
        obtain ⟨r, mb', h1, h2, h3⟩ := glue_spec (t := t) (checks := checks) (s := { s with stack := fs }) hi ha hp
        simp only [settle, hlen, h1, bind, Outcome.bind, Spec.resume]
        cases hx : Spec.next { s with stack := fs } qs with
        | none =>
          rw [hx] at h3
          obtain ⟨rfl, h3⟩ := h3
          exact ih (w := ⟨vs, ps, mb', l, m, lg, ab, ts⟩) (u || w) ⟨h.vals, h.ptrs, h.level, h.made, h.log, h.aborted, h.le, h3, hs.keeps fun b _ => h2 b,
            (List.nodup_append.mp hnd).2.1, fun b hb => hdd b (by simp [hb])⟩
        | some q =>
          obtain ⟨b, y, ps'⟩ := q
          rw [hx] at h3
          obtain ⟨j, rfl, k1, k2, k3, k4⟩ := h3
          have k3' : Mixed.bits mb' b = .ret y := k3
          simp only [k3', pure]
          refine ⟨mb', _, _, rfl, ?_⟩
          refine (RelAt.begin (s := { s with stack := .rest ps' o (u || w) :: fs }) (w := ⟨vs, ps, bs, l, m, lg, ab, .glue pl j n (u || w) :: ts⟩) (ps := { s with stack := fs }.pointers ++ ps') (mb' := mb') (u := u || w)
            ⟨h.vals, h.ptrs, h.level, h.made, h.log, h.aborted, h.le, h.inv, .cons (.rest _ ha k1 hl) hs, by simpa only [dying_cons, Frame.place] using hnd, by simpa only [dying_cons, Frame.place] using hdd⟩ k2 h2 k3 k4 rfl).perm ?_
          refine List.Perm.trans ?_ (begin_pointers (s := { s with stack := .rest ps' o (u || w) :: fs }) k2 (u || w))
          refine perm_count.mpr fun a => ?_
          simp only [pointers_eq, stackPtrs_cons, Frame.ptrs, List.count_append]
          omega

/-! ## Going to values -/

variable {s : Spec} {w : World}

theorem mem_ptrs {p : Nat} {q : Ptr} (h : var s.ptrs p = some q) : q ∈ s.pointers := by
  rw [pointers_eq]
  have := (all_var (f := fun p : Ptr => [p]) h).mem_iff (a := q)
  simp only [List.mem_append]
  simp only [List.mem_append, List.mem_singleton, true_or, iff_true] at this
  simp [this]

theorem mem_fields {pl : Place} {v : Value} {q : Ptr} (h : s.at pl = some v) (hq : q ∈ v.fields) : q ∈ s.pointers := by
  rw [pointers_eq]
  cases pl with
  | val i =>
    have := (all_var (f := Value.fields) h).mem_iff (a := q)
    simp only [List.mem_append, hq, true_or, iff_true] at this
    simp [this]
  | block b =>
    have := (all_var (f := Value.fields) h).mem_iff (a := q)
    simp only [List.mem_append, hq, true_or, iff_true] at this
    simp [this]
  | self =>
    simp only [Spec.at] at h
    split at h
    · rename_i y o u fs hs
      cases h
      simp [hs, stackPtrs_cons, Frame.ptrs, hq]
    · cases h

/-- A value in a block that can be accessed exists. -/
def Alive (s : Spec) : Place → Prop
  | .block b => ∃ v, var s.blocks b = some v
  | _ => True

theorem Rel.target (h : Rel e s w) {q : Ptr} (hq : q ∈ s.pointers) {pl : Place} (ht : q.target = some pl) : Alive s pl := by
  unfold Ptr.target at ht
  split at ht
  · cases ht
  · rename_i hk
    cases ht
    exact h.inv.hold hk hq

theorem at_spec (h : Rel e s w) {pl : Place} (ha : Alive s pl) : w.at pl = .ret (s.at pl) := by
  cases pl with
  | val v => simp only [World.at, Spec.at, h.vals]
  | block b =>
    obtain ⟨v, hv⟩ := ha
    simp only [World.at, Spec.at, h.inv.bits hv, hv, bind, Outcome.bind, pure]
  | self =>
    have hf := h.frames
    obtain ⟨vs, ps, bs, l, m, lg, fg, ab, st⟩ := s
    obtain ⟨vs', ps', bs', l', m', lg', ab', ts⟩ := w
    simp only at hf
    cases hf with
    | nil => rfl
    | cons hm hs =>
      cases hm with
      | body u hat => simp only [World.at, Spec.at, hat.read, bind, Outcome.bind, pure]
      | rest u ha hp hl => rfl

theorem walk_spec (h : Rel e s w) (path : List Nat) : ∀ {pl : Place}, Alive s pl → w.walk pl path = .ret (s.walk pl path) ∧ ∀ pl', s.walk pl path = some pl' → Alive s pl' := by
  induction path with
  | nil => intro pl ha; exact ⟨rfl, fun pl' hp => by cases hp; exact ha⟩
  | cons i path ih =>
    intro pl ha
    simp only [World.walk, Spec.walk, at_spec h ha, bind, Outcome.bind]
    cases hx : s.at pl with
    | none => exact ⟨rfl, fun _ hp => by cases hp⟩
    | some x =>
      simp only
      cases ht : (x.fields[i]?).bind Ptr.target with
      | none => exact ⟨rfl, fun _ hp => by cases hp⟩
      | some pl' =>
        simp only
        cases hq : x.fields[i]? with
        | none => rw [hq] at ht; cases ht
        | some q =>
          rw [hq] at ht
          exact ih (h.target (mem_fields hx (List.mem_of_getElem? hq)) ht)

theorem find_spec (h : Rel e s w) (root : Root) (path : List Nat) : w.find root path = .ret (s.find root path) ∧ ∀ pl x, s.find root path = some (pl, x) → Alive s pl ∧ s.at pl = some x := by
  have hst : w.start root = s.start root := by cases root <;> simp only [World.start, Spec.start, h.ptrs]
  have ha : ∀ pl, s.start root = some pl → Alive s pl := by
    intro pl hp
    cases root with
    | val v => cases hp; trivial
    | self => cases hp; trivial
    | ptr p =>
      simp only [Spec.start] at hp
      cases hq : var s.ptrs p with
      | none => rw [hq] at hp; cases hp
      | some q => rw [hq] at hp; exact h.target (mem_ptrs hq) hp
  simp only [World.find, Spec.find, hst]
  cases hp : s.start root with
  | none => exact ⟨rfl, fun _ _ hx => by cases hx⟩
  | some pl =>
    obtain ⟨h1, h2⟩ := walk_spec h path (ha pl hp)
    simp only [h1, bind, Outcome.bind]
    cases hw : s.walk pl path with
    | none => exact ⟨rfl, fun _ _ hx => by cases hx⟩
    | some pl' =>
      simp only [at_spec h (h2 pl' hw)]
      cases hx : s.at pl' with
      | none => exact ⟨rfl, fun _ _ hy => by simp at hy⟩
      | some x =>
        refine ⟨rfl, fun pl2 y hy => ?_⟩
        simp only [Option.map_some, Option.some.injEq, Prod.mk.injEq] at hy
        obtain ⟨rfl, rfl⟩ := hy
        exact ⟨h2 pl' hw, hx⟩

/-- Writing a value. -/
theorem put_spec (h : RelAt e ps s w) {pl : Place} {x : Value} (hx : s.at pl = some x) (y : Value) : ∃ w', w.put y pl = .ret w' ∧ RelAt e ps (s.put y pl) w' := by
  cases pl with
  | val v => exact ⟨_, rfl, { h with vals := by simp only [Spec.put, h.vals] }⟩
  | block b =>
    have hlt := var_lt hx
    obtain ⟨z, h1, h2, h3⟩ := setBits_spec (mb := w.blocks) (b := b) (by rw [h.inv.len]; exact hlt) y
    refine ⟨{ w with blocks := w.blocks.set b z }, by simp only [World.put, h1, bind, Outcome.bind, pure], ?_⟩
    obtain ⟨z0, hz⟩ := h.inv.get hlt
    have hok := h.inv.ok b z0 hz
    have hx' : var s.blocks b = some x := hx
    rw [hx'] at hok
    have hnd : ∀ c ∈ dying s.stack, c ≠ b := by
      intro c hc hcb
      subst hcb
      have := h.dead c hc
      rw [hx'] at this; cases this
    refine ⟨h.vals, h.ptrs, h.level, h.made, h.log, h.aborted, h.le, h.inv.update hlt (fun _ _ _ => rfl) (h3 _ _ _ _ _ hz hok), ?_, h.nodup, ?_⟩
    · exact h.frames.keeps fun c hc => bits_set_ne fun hcb => hnd c hc hcb.symm
    · intro c hc
      simp only [Spec.put]
      rw [var_set_ne (fun hcb => hnd c hc hcb.symm)]
      exact h.dead c hc
  | self =>
    obtain ⟨h1, h2, h3, h4, h5, h6, h7, h8, hf, h10, h11⟩ := h
    obtain ⟨vs, qs, bs, l, m, lg, fg, ab, st⟩ := s
    obtain ⟨vs', qs', bs', l', m', lg', ab', ts⟩ := w
    simp only at hf h1 h2 h3 h4 h5 h6 h7 h8 h10 h11
    cases hf with
    | nil => cases hx
    | cons hm hs =>
      cases hm with
      | rest u ha hp hl => cases hx
      | body u ha =>
        rename_i fs ts v o pl
        simp only [Spec.at, Option.some.injEq] at hx
        subst hx
        cases o with
        | none => cases pl with
          | block c => exact ha.elim
          | moved v' => exact ⟨_, rfl, h1, h2, h3, h4, h5, h6, h7, h8, .cons (.body u rfl) hs, h10, h11⟩
        | some b => cases pl with
          | moved v' => exact ha.elim
          | block c =>
            obtain ⟨rfl, hb⟩ := ha
            have hat : At bs' (some b) (.block b) v := ⟨rfl, hb⟩
            have hlt : b < bs'.length := Matches.lt (.cons (.body u hat) hs) (by simp [dying_cons, Frame.place])
            obtain ⟨z, k1, k2, k3⟩ := setBits_dead hlt y
            have hd : var bs b = none := h11 b (by simp [dying_cons, Frame.place])
            refine ⟨⟨vs', qs', bs'.set b z, l', m', lg', ab', _⟩, by simp only [World.put, k1, bind, Outcome.bind, pure]; rfl, h1, h2, h3, h4, h5, h6, h7, ?_, ?_, h10, h11⟩
            · obtain ⟨z0, hz⟩ := h8.get (b := b) (by rw [← h8.len]; exact hlt)
              refine h8.change (by rw [← h8.len]; exact hlt) (fun _ _ _ => rfl) ?_
              have hok := h8.ok b z0 hz
              rw [hd] at hok ⊢
              exact k3 _ _ _ _ hz hok
            · refine .cons (.body u ⟨rfl, k2⟩) (hs.keeps fun c hc => bits_set_ne fun hcb => ?_)
              subst hcb
              simp only [dying_cons, Frame.place, Option.toList, List.singleton_append, List.nodup_cons] at h10
              exact h10.1 hc

/-- The pointers in the value are exchanged. -/
theorem put_count {pl : Place} {x : Value} (hx : s.at pl = some x) (y : Value) (a : Ptr) : (s.put y pl).pointers.count a + x.fields.count a = s.pointers.count a + y.fields.count a := by
  cases pl with
  | val v =>
    have h1 := perm_count.mp (all_var (f := Value.fields) hx) a
    have h2 := perm_count.mp (all_set (f := Value.fields) (var_lt hx) (some y)) a
    simp only [pointers_eq, Spec.put, List.count_append, Option.elim_some] at h1 h2 ⊢
    omega
  | block b =>
    have h1 := perm_count.mp (all_var (f := Value.fields) hx) a
    have h2 := perm_count.mp (all_set (f := Value.fields) (var_lt hx) (some y)) a
    simp only [pointers_eq, Spec.put, List.count_append, Option.elim_some] at h1 h2 ⊢
    omega
  | self =>
    simp only [Spec.at] at hx
    split at hx
    · rename_i z o u fs hs
      cases hx
      simp only [pointers_eq, Spec.put, hs, stackPtrs_cons, Frame.ptrs, List.count_append]
      omega
    · cases hx

/-! ## One operation -/

def Refines (e : Bump.Env) (r : Resp × Spec) (o : Outcome (Resp × World)) : Prop := ∃ w, o = .ret (r.1, w) ∧ Rel e r.2 w

theorem Rel.same {r : Resp} (h : Rel e s w) : Refines e (r, s) (.ret (r, w)) := ⟨w, rfl, h⟩

theorem add_count (s : Spec) (q a : Ptr) : (s.add q).2.pointers.count a = s.pointers.count a + [q].count a := by
  simp only [pointers_eq, Spec.add, all_append, all_single, List.count_append]
  omega

/-- A new variable, for a pointer that is already counted. -/
theorem ref_add {q : Ptr} {s0 : Spec} {w0 : World} (h : RelAt e ps s0 w0) (hp : ∀ a, ps.count a = s0.pointers.count a + [q].count a) : Refines e (s0.add q) (.ret (w0.add q)) := by
  refine ⟨(w0.add q).2, by simp only [World.add, Spec.add, h.ptrs], RelAt.rel (ps := ps) ?_ fun a => by rw [hp, add_count]⟩
  exact { h with ptrs := by simp only [World.add, Spec.add, h.ptrs] }

theorem count_single_ne {q : Ptr} {k : Kind} {c : Nat} (h : c ≠ q.block) : [q].count (⟨k, c⟩ : Ptr) = 0 := by
  rw [count_cons_ne h]; rfl

/-- Another counter in an `RcBox`. -/
theorem RelAt.counter (h : RelAt e ps s w) {b : Nat} {x y : RcBox Value} (hx : w.blocks[b]? = some (.rc x)) (hy : y.val = x.val)
    (hother : ∀ c, c ≠ b → ∀ k, qs.count ⟨k, c⟩ = ps.count ⟨k, c⟩)
    (hok : Ok (qs.count ⟨.own, b⟩) (qs.count ⟨.strong, b⟩) (qs.count ⟨.weak, b⟩) (var s.blocks b) (.rc y)) : RelAt e qs s { w with blocks := w.blocks.set b (.rc y) } := by
  have hlt : b < s.blocks.length := by rw [← h.inv.len]; exact (List.getElem?_eq_some_iff.mp hx).1
  exact { h with inv := h.inv.change hlt hother hok, frames := h.frames.keeps fun c _ => bits_set_rc hx hy }

/-- One more `Rc`. -/
theorem ref_strong (h : Rel e s w) (hf : s.Few e.target) {b : Nat} (hq : (⟨.strong, b⟩ : Ptr) ∈ s.pointers) {x : RcBox Value} (hx : w.blocks[b]? = some (.rc x))
    (k1 : Ok (s.pointers.count ⟨.own, b⟩) (s.pointers.count ⟨.strong, b⟩) (s.pointers.count ⟨.weak, b⟩) (var s.blocks b) (.rc x)) :
    Refines e (s.add ⟨.strong, b⟩) (do
      let x ← x.incStrong e.target checks
      pure ({ w with blocks := w.blocks.set b (.rc x) }.add ⟨.strong, b⟩)) := by
  obtain ⟨k1, k2, k3, k4⟩ := k1
  have hlt := (hf b).1
  unfold Spec.strongs at hlt
  simp only [RcBox.incStrong, plusOne_ret (t := e.target) (checks := checks) (a := x.strong) (by omega), bind, Outcome.bind, pure]
  have h0 : 0 < s.pointers.count ⟨.strong, b⟩ := List.count_pos_iff.mpr hq
  refine ref_add (h.counter (qs := ⟨.strong, b⟩ :: s.pointers) (y := { x with strong := x.strong + 1 }) hx rfl (fun c hc k' => count_cons_ne hc) ?_)
    (fun a => by simp only [List.count_cons, List.count_nil]; omega)
  simp only [count_self, reduceCtorEq, if_false, if_true, Nat.add_zero]
  refine ⟨k1, by simp only; omega, ?_, ?_⟩
  · rw [if_pos h0] at k3
    rw [if_pos (by omega)]; exact k3
  · cases hv : var s.blocks b with
    | none => rw [hv] at k4; simp only at k4; omega
    | some v => rw [hv] at k4; exact ⟨by omega, k4.2⟩

/-- One more `Weak`. -/
theorem ref_weak (h : Rel e s w) (hf : s.Few e.target) {k : Kind} {b : Nat} (hk : k ≠ .own) (hq : (⟨k, b⟩ : Ptr) ∈ s.pointers) :
    Refines e (s.add ⟨.weak, b⟩) (do
      let x ← counters w.blocks b
      let x ← x.incWeak e.target checks
      pure ({ w with blocks := w.blocks.set b (.rc x) }.add ⟨.weak, b⟩)) := by
  obtain ⟨x, hx, hcnt, hb, k1, k2, k3, k4⟩ := h.inv.rc hk hq
  have hlt := (hf b).2
  unfold Spec.weaks Spec.strongs at hlt
  simp only [hcnt, RcBox.incWeak, plusOne_ret (t := e.target) (checks := checks) (a := x.weak) (by omega), bind, Outcome.bind, pure]
  refine ref_add (h.counter (qs := ⟨.weak, b⟩ :: s.pointers) (y := { x with weak := x.weak + 1 }) hx rfl (fun c hc k' => count_cons_ne hc) ?_)
    (fun a => by simp only [List.count_cons, List.count_nil]; omega)
  simp only [count_self, reduceCtorEq, if_false, if_true, Nat.add_zero]
  exact ⟨k1, k2, by simp only; omega, k4⟩

theorem ref_clone (h : Rel e s w) (hf : s.Few e.target) {q : Ptr} (hq : q ∈ s.pointers) :
    Refines e (if q.kind = .own then (.absent, s) else s.add q) (w.clone e.target checks q) := by
  cases q with | mk k b =>
  cases k with
  | own => simp only [if_true, World.clone]; exact h.same
  | strong =>
    obtain ⟨x, hx, hcnt, hb, k1⟩ := h.inv.rc (by decide) hq
    have := ref_strong (checks := checks) h hf hq hx k1
    simp only [reduceCtorEq, if_false, World.clone, hcnt]
    exact this
  | weak =>
    have := ref_weak (checks := checks) h hf (by decide) hq
    simp only [reduceCtorEq, if_false, World.clone]
    exact this

theorem ofKind_some {ptrs : List (Option Ptr)} {k : Kind} {p b : Nat} (h : ofKind ptrs k p = some b) : var ptrs p = some ⟨k, b⟩ := by
  unfold ofKind at h
  split at h
  · rename_i q hq
    split at h
    · rename_i hk
      cases h
      subst hk
      exact hq
    · cases h
  · cases h

theorem set_count {p : Nat} {q : Ptr} (hq : var s.ptrs p = some q) (a : Ptr) : s.pointers.count a = { s with ptrs := s.ptrs.set p none }.pointers.count a + [q].count a := by
  have := perm_count.mp (all_var (f := fun p : Ptr => [p]) hq) a
  simp only [pointers_eq, List.count_append] at this ⊢
  omega

theorem val_count {v : Nat} {x : Value} (hx : var s.vals v = some x) (a : Ptr) : s.pointers.count a = { s with vals := s.vals.set v none }.pointers.count a + x.fields.count a := by
  have := perm_count.mp (all_var (f := Value.fields) hx) a
  simp only [pointers_eq, List.count_append] at this ⊢
  omega

theorem vals_count {v : Nat} (hv : v < s.vals.length) (y : Value) (a : Ptr) :
    { s with vals := s.vals.set v (some y) }.pointers.count a = { s with vals := s.vals.set v none }.pointers.count a + y.fields.count a := by
  have := perm_count.mp (all_set (f := Value.fields) hv (some y)) a
  simp only [pointers_eq, List.count_append, Option.elim_some] at this ⊢
  omega

theorem eraseIdx_count {xs : List Ptr} {i : Nat} {q : Ptr} (h : xs[i]? = some q) (a : Ptr) : xs.count a = (xs.eraseIdx i).count a + [q].count a := by
  induction xs generalizing i with
  | nil => simp at h
  | cons x xs ih => cases i with
    | zero => simp only [List.getElem?_cons_zero, Option.some.injEq] at h; subst h; simp only [List.eraseIdx_zero, List.tail_cons, List.count_cons, List.count_nil]; omega
    | succ i => have := ih (i := i) (by simpa using h); simp only [List.eraseIdx_cons_succ, List.count_cons, List.count_nil] at this ⊢; omega

/-- A value is dropped that is not in a block. -/
theorem RelAt.dropVal (h : RelAt e ps s w) (v : Value) : RelAt e ps (s.dropVal v) (w.dropVal v) :=
  ⟨h.vals, h.ptrs, h.level, h.made, by simp only [World.dropVal, Spec.dropVal, h.log], h.aborted, h.le, h.inv, .cons (.body false rfl) h.frames, h.nodup, h.dead⟩

theorem dropVal_count (s : Spec) (v : Value) (a : Ptr) : (s.dropVal v).pointers.count a = s.pointers.count a + v.fields.count a := by
  simp only [pointers_eq, Spec.dropVal, stackPtrs_cons, Frame.ptrs, List.count_append]
  omega

/-- Two ways to make a block. -/
def kindOf : Block → Kind | .box _ => .own | .rc _ => .strong

theorem CInv.new (h : CInv ps sb mb) {x : Value} {z : Block} (hz : z = .box x ∨ z = .rc (.init x)) : CInv (⟨kindOf z, sb.length⟩ :: ps) (sb ++ [some x]) (mb ++ [z]) := by
  have hfresh : ∀ k, ps.count ⟨k, sb.length⟩ = 0 := by
    intro k
    refine List.count_eq_zero.mpr fun hm => ?_
    have := h.lt _ hm
    simp only at this
    omega
  refine ⟨by simp [h.len], ?_, ?_⟩
  · intro p hp
    rw [List.length_append, List.length_singleton]
    rcases List.mem_cons.mp hp with rfl | hp
    · simp
    · have := h.lt p hp; omega
  · intro b y hy
    by_cases hb : b < mb.length
    · rw [List.getElem?_append_left hb] at hy
      have hne : b ≠ sb.length := by rw [← h.len]; omega
      rw [var_append_lt (by rw [← h.len]; exact hb), count_cons_ne hne, count_cons_ne hne, count_cons_ne hne]
      exact h.ok b y hy
    · have hb' : b = mb.length := by
        have := (List.getElem?_eq_some_iff.mp hy).1
        simp only [List.length_append, List.length_singleton] at this
        omega
      subst hb'
      simp only [List.getElem?_concat_length, Option.some.injEq] at hy
      subst hy
      have hv : var (sb ++ [some x]) mb.length = some x := by unfold var; rw [h.len]; simp
      rw [hv, h.len]
      simp only [count_self, hfresh]
      rcases hz with rfl | rfl
      · exact ⟨rfl, rfl, rfl, rfl⟩
      · exact ⟨rfl, rfl, rfl, by simp [kindOf], rfl⟩

theorem new_frames (h : RelAt e ps s w) (z : Block) : Matches (w.blocks ++ [z]) s.stack w.tasks := by
  refine h.frames.keeps fun c hc => ?_
  have := h.frames.lt hc
  unfold bits
  rw [List.getElem?_append_left this]

theorem ref_place (hv : e.Valid) (h : Rel e s w) {v : Nat} {L : Layout} (hL : L.Valid e.target ∧ 0 < L.size) {k : Kind} {block : Value → Block} (hk : ∀ x, kindOf (block x) = k ∧ (block x = .box x ∨ block x = .rc (.init x))) :
    Refines e (s.place e.slab v L k) (w.place e v L k block) := by
  simp only [World.place, Spec.place, h.vals, h.level]
  cases hx : var s.vals v with
  | none => exact h.same
  | some x =>
    have ht := Bump.tryAllocSeq_spec hv (c := s.level) h.le hL.2 (Bump.Valid.align_pos hL.1)
    simp only [ht]
    have hc := val_count (s := s) hx
    cases hp : e.slab.place L s.level with
    | none =>
      refine ⟨_, rfl, (RelAt.dropVal (ps := s.pointers) (s := { s with vals := s.vals.set v none }) (w := { w with vals := s.vals.set v none, level := s.level }) ?_ x).rel fun a => ?_⟩
      · exact { h with vals := rfl, level := rfl }
      · rw [dropVal_count, hc a]
    | some a =>
      have hq := hp
      rw [Slab.place_eq_some] at hq
      obtain ⟨k1, k2, k3⟩ := hq
      have := le_alignUp (Bump.Valid.align_pos hL.1) (e.slab.base + s.level)
      have hbase : e.slab.base = e.base := rfl
      have hlen : e.slab.len = e.len := rfl
      simp only [bind, Outcome.bind, pure, h.inv.len]
      obtain ⟨hk1, hk2⟩ := hk x
      subst hk1
      refine ref_add (ps := ⟨kindOf (block x), s.blocks.length⟩ :: s.pointers) (s0 := { s with vals := s.vals.set v none, blocks := s.blocks ++ [some x], level := a.level })
        ⟨rfl, h.ptrs, rfl, h.made, h.log, h.aborted, by simp only; omega, h.inv.new hk2, new_frames h _, h.nodup, ?_⟩ ?_
      · intro c hc
        rw [var_append_lt (by rw [← h.inv.len]; exact h.frames.lt hc)]
        exact h.dead c hc
      · intro a
        have := hc a
        simp only [pointers_eq, all_append, all_single, List.count_append, List.count_cons, List.count_nil] at this ⊢
        omega

theorem find_val {root : Root} {path : List Nat} {v : Nat} {x : Value} (h : s.find root path = some (.val v, x)) : root = .val v := by
  have key : ∀ (path : List Nat) (pl : Place), s.walk pl path = some (.val v) → pl = .val v := by
    intro path
    induction path with
    | nil => intro pl h; cases h; rfl
    | cons i path ih =>
      intro pl h
      simp only [Spec.walk] at h
      split at h
      · cases h
      · split at h
        · cases h
        · rename_i ht
          have := ih _ h
          subst this
          obtain ⟨q, _, hq⟩ := Option.bind_eq_some_iff.mp ht
          unfold Ptr.target at hq
          split at hq <;> cases hq
  unfold Spec.find at h
  split at h
  · cases h
  · rename_i pl hs
    split at h
    · cases h
    · rename_i pl' hw
      obtain ⟨y, _, hy⟩ := Option.map_eq_some_iff.mp h
      simp only [Prod.mk.injEq] at hy
      obtain ⟨rfl, rfl⟩ := hy
      have := key path pl hw
      subst this
      cases root with
      | val u => cases hs; rfl
      | self => cases hs
      | ptr p =>
        obtain ⟨q, _, hq⟩ := Option.bind_eq_some_iff.mp hs
        unfold Ptr.target at hq
        split at hq <;> cases hq

theorem dead_set (h : RelAt e ps s w) {b : Nat} : ∀ c ∈ dying s.stack, var (s.blocks.set b none) c = none := by
  intro c hc
  cases hx : var (s.blocks.set b none) c with
  | none => rfl
  | some y =>
    have := (Linked.var_set_none hx).2
    rw [h.dead c hc] at this; cases this

theorem at_ptrs (s : Spec) (ps : List (Option Ptr)) (pl : Place) : { s with ptrs := ps }.at pl = s.at pl := by cases pl <;> rfl

theorem block_count {b : Nat} {x : Value} (hx : var s.blocks b = some x) (a : Ptr) : s.pointers.count a = { s with blocks := s.blocks.set b none }.pointers.count a + x.fields.count a := by
  have := perm_count.mp (all_var (f := Value.fields) hx) a
  simp only [pointers_eq, List.count_append] at this ⊢
  omega

theorem ref_push (h : Rel e s w) (root : Root) (path : List Nat) (k : Nat) : Refines e (s.exec e.slab (.push root path k)) (exec e checks w (.push root path k)) := by
  obtain ⟨hf, hfa⟩ := find_spec h root path
  simp only [exec, Spec.exec, hf, bind, Outcome.bind, h.ptrs]
  cases hx : s.find root path with
  | none => exact h.same
  | some r =>
    obtain ⟨pl, x⟩ := r
    obtain ⟨h1, h2⟩ := hfa pl x hx
    cases hq : (if root = .ptr k then none else var s.ptrs k) with
    | none => exact h.same
    | some q =>
      have hq' : var s.ptrs k = some q := by split at hq; cases hq; exact hq
      obtain ⟨w', k1, k2⟩ := put_spec (s := { s with ptrs := s.ptrs.set k none }) (w := { w with ptrs := s.ptrs.set k none }) (ps := s.pointers) (pl := pl) { h with ptrs := rfl } (by rw [at_ptrs]; exact h2) { x with fields := x.fields ++ [q] }
      simp only [k1, pure]
      refine ⟨w', rfl, k2.rel fun a => ?_⟩
      have c1 := set_count hq' a
      have c2 := put_count (s := { s with ptrs := s.ptrs.set k none }) (pl := pl) (x := x) (by rw [at_ptrs]; exact h2) { x with fields := x.fields ++ [q] } a
      simp only [List.count_append] at c2
      omega

theorem ref_pull (h : Rel e s w) (root : Root) (path : List Nat) (i : Nat) : Refines e (s.exec e.slab (.pull root path i)) (exec e checks w (.pull root path i)) := by
  obtain ⟨hf, hfa⟩ := find_spec h root path
  simp only [exec, Spec.exec, hf, bind, Outcome.bind]
  cases hx : s.find root path with
  | none => exact h.same
  | some r =>
    obtain ⟨pl, x⟩ := r
    obtain ⟨h1, h2⟩ := hfa pl x hx
    simp only
    cases hq : x.fields[i]? with
    | none => exact h.same
    | some q =>
      obtain ⟨w', k1, k2⟩ := put_spec (pl := pl) h h2 { x with fields := x.fields.eraseIdx i }
      simp only [k1, pure]
      refine ref_add k2 fun a => ?_
      have c1 := eraseIdx_count hq a
      have c2 := put_count h2 { x with fields := x.fields.eraseIdx i } a
      simp only at c2
      omega

theorem ref_swap (h : Rel e s w) (root : Root) (path : List Nat) (v : Nat) : Refines e (s.exec e.slab (.swap root path v)) (exec e checks w (.swap root path v)) := by
  obtain ⟨hf, hfa⟩ := find_spec h root path
  simp only [exec, Spec.exec, hf, h.vals]
  by_cases hroot : root = .val v
  · simp only [hroot, if_true]; exact h.same
  simp only [hroot, if_false, bind, Outcome.bind]
  cases hx : s.find root path with
  | none => exact h.same
  | some r =>
    obtain ⟨pl, x⟩ := r
    obtain ⟨h1, h2⟩ := hfa pl x hx
    have main : ∀ y, var s.vals v = some y → { s with vals := s.vals.set v (some x) }.at pl = some x → ∃ w', { w with vals := s.vals.set v (some x) }.put y pl = .ret w' ∧ Rel e ({ s with vals := s.vals.set v (some x) }.put y pl) w' := by
      intro y hy hat
      obtain ⟨w', k1, k2⟩ := put_spec (s := { s with vals := s.vals.set v (some x) }) (w := { w with vals := s.vals.set v (some x) }) (ps := s.pointers) (pl := pl) { h with vals := rfl } hat y
      refine ⟨w', k1, k2.rel fun a => ?_⟩
      have c1 := val_count hy a
      have c2 := vals_count (var_lt hy) x a
      have c3 := put_count hat y a
      omega
    cases pl with
    | self => exact h.same
    | val u =>
      have hne : u ≠ v := fun hc => hroot (by rw [find_val hx, hc])
      cases hy : var s.vals v with
      | none => exact h.same
      | some y =>
        obtain ⟨w', k1, k2⟩ := main y hy (by simp only [Spec.at]; rw [var_set_ne (fun hc => hne hc.symm)]; exact h2)
        simp only [k1, pure]
        exact ⟨w', rfl, k2⟩
    | block b =>
      cases hy : var s.vals v with
      | none => exact h.same
      | some y =>
        obtain ⟨w', k1, k2⟩ := main y hy h2
        simp only [k1, pure]
        exact ⟨w', rfl, k2⟩

theorem isUnique_iff {b : Nat} {o : Option Value} {x : RcBox Value} (k1 : Ok (s.pointers.count ⟨.own, b⟩) (s.pointers.count ⟨.strong, b⟩) (s.pointers.count ⟨.weak, b⟩) o (.rc x)) : x.isUnique = true ↔ s.strongs b = 1 ∧ s.weaks b = 1 := by
  obtain ⟨_, k2, k3, _⟩ := k1
  simp only [RcBox.isUnique, Bool.and_eq_true, decide_eq_true_eq, Spec.weaks, Spec.strongs, k2, k3]
  exact Iff.rfl

theorem isUniqueToRcMemory_iff {b : Nat} {o : Option Value} {x : RcBox Value} (k1 : Ok (s.pointers.count ⟨.own, b⟩) (s.pointers.count ⟨.strong, b⟩) (s.pointers.count ⟨.weak, b⟩) o (.rc x)) : x.isUniqueToRcMemory = true ↔ s.strongs b = 0 ∧ s.weaks b = 1 := by
  obtain ⟨_, k2, k3, _⟩ := k1
  simp only [RcBox.isUniqueToRcMemory, Bool.and_eq_true, decide_eq_true_eq, Spec.weaks, Spec.strongs, k2, k3]
  exact Iff.rfl

theorem ref_getMut (h : Rel e s w) (p v : Nat) : Refines e (s.exec e.slab (.getMut p v)) (exec e checks w (.getMut p v)) := by
  simp only [exec, Spec.exec, h.ptrs, h.vals]
  cases hp : ofKind s.ptrs .strong p with
  | none => exact h.same
  | some b =>
    cases hy : var s.vals v with
    | none => exact h.same
    | some y =>
      have hm := mem_ptrs (ofKind_some hp)
      obtain ⟨x, hx, hcnt, hb, k1⟩ := h.inv.rc (by decide) hm
      obtain ⟨z, hz⟩ := h.inv.hold (by decide) hm
      simp only [hcnt, bind, Outcome.bind, hz]
      by_cases hu : s.strongs b = 1 ∧ s.weaks b = 1
      · rw [if_pos ((isUnique_iff k1).mpr hu), if_pos hu]
        obtain ⟨w', g1, g2⟩ := put_spec (s := { s with vals := s.vals.set v (some z) }) (w := { w with vals := s.vals.set v (some z), ptrs := s.ptrs }) (ps := s.pointers) (pl := .block b) { h with vals := rfl, ptrs := rfl } hz y
        simp only [World.put] at g1
        obtain ⟨m, n1, n2, _⟩ := setBits_spec (mb := w.blocks) (b := b) (by rw [h.inv.len]; exact hb) y
        simp only [n1, bind, Outcome.bind, pure, Outcome.ret.injEq] at g1
        subst g1
        simp only [h.inv.bits hz, n1, pure]
        refine ⟨_, rfl, g2.rel fun a => ?_⟩
        have c1 := val_count hy a
        have c2 := vals_count (var_lt hy) z a
        have c3 := put_count (s := { s with vals := s.vals.set v (some z) }) (pl := .block b) hz y a
        simp only [Spec.put] at c3 ⊢
        omega
      · rw [if_neg fun hc => hu ((isUnique_iff k1).mp hc), if_neg hu]; exact h.same

theorem ref_take (h : Rel e s w) (p : Nat) : Refines e (s.exec e.slab (.take p)) (exec e checks w (.take p)) := by
  simp only [exec, Spec.exec, h.ptrs, h.vals]
  cases hp : ofKind s.ptrs .own p with
  | none => exact h.same
  | some b =>
    have hv := ofKind_some hp
    obtain ⟨x, hx⟩ := h.inv.hold (by decide) (mem_ptrs hv)
    simp only [h.inv.bits hx, hx, bind, Outcome.bind, pure]
    have hperm : s.pointers.Perm (⟨.own, b⟩ :: { s with ptrs := s.ptrs.set p none }.pointers) := perm_count.mpr fun a => by rw [set_count hv a]; simp only [List.count_cons, List.count_nil]; omega
    obtain ⟨r, mb', h1, _, h3⟩ := dropPtr_spec (t := e.target) (checks := checks) (h.inv.perm hperm)
    simp only [dropPtr, Outcome.ret.injEq, Prod.mk.injEq] at h1
    obtain ⟨_, rfl⟩ := h1
    simp only [gone, hx] at h3
    refine ⟨_, rfl, RelAt.rel (ps := { s with ptrs := s.ptrs.set p none }.pointers) ⟨rfl, rfl, h.level, h.made, h.log, h.aborted, h.le, h3.2.2.2, h.frames, h.nodup, dead_set h⟩ fun a => ?_⟩
    have c := block_count (s := { s with ptrs := s.ptrs.set p none }) hx a
    rw [c]
    simp only [pointers_eq, all_append, all_single, List.count_append]
    omega

theorem ref_tryUnwrap (h : Rel e s w) (p : Nat) : Refines e (s.exec e.slab (.tryUnwrap p)) (exec e checks w (.tryUnwrap p)) := by
  simp only [exec, Spec.exec, h.ptrs, h.vals]
  cases hp : ofKind s.ptrs .strong p with
  | none => exact h.same
  | some b =>
    have hv := ofKind_some hp
    have hm := mem_ptrs hv
    obtain ⟨z, hz⟩ := h.inv.hold (by decide) hm
    obtain ⟨x, hx, hcnt, hb, k1, k2, k3, k4⟩ := h.inv.rc (by decide) hm
    simp only [hz, hcnt, bind, Outcome.bind]
    unfold Spec.strongs
    by_cases hu : s.pointers.count ⟨.strong, b⟩ = 1
    · have hs : x.strong = 1 := by rw [k2]; exact hu
      rw [if_neg (show ¬ x.strong ≠ 1 by omega), if_pos hu]
      simp only [RcBox.decStrong, minusOne_ret (t := e.target) (checks := checks) (a := x.strong) (by omega), h.inv.bits hz, bind, Outcome.bind, pure]
      refine ⟨_, rfl, RelAt.rel (ps := ⟨.weak, b⟩ :: { s with ptrs := s.ptrs.set p none }.pointers) ⟨rfl, rfl, h.level, h.made, h.log, h.aborted, h.le, ?_, h.frames.keeps fun c _ => bits_set_rc hx rfl, h.nodup, dead_set h⟩ fun a => ?_⟩
      · refine h.inv.update hb ?_ ?_
        · intro c hc k
          rw [count_cons_ne hc, set_count hv ⟨k, c⟩, count_single_ne hc]; rfl
        · have c1 := set_count hv ⟨.own, b⟩
          have c2 := set_count hv ⟨.strong, b⟩
          have c3 := set_count hv ⟨.weak, b⟩
          simp only [count_self, List.count_nil, reduceCtorEq, if_false, if_true] at c1 c2 c3 ⊢
          rw [if_pos (by omega)] at k3
          refine ⟨by omega, by simp only; omega, ?_, by simp only; omega⟩
          rw [if_neg (by omega)]
          simp only
          omega
      · have c := block_count (s := { s with ptrs := s.ptrs.set p none }) hz a
        have c4 := perm_count.mp (all_set (f := fun p : Ptr => [p]) (var_lt hv) (some ⟨.weak, b⟩)) a
        simp only [pointers_eq, all_append, all_single, List.count_append, List.count_cons, List.count_nil, Option.elim_some] at c c4 ⊢
        omega
    · rw [if_pos (show x.strong ≠ 1 by omega), if_neg hu]; exact h.same

theorem ref_recycle (h : Rel e s w) {p v : Nat} (hal : s.Allowed (.recycle p v)) : Refines e (s.exec e.slab (.recycle p v)) (exec e checks w (.recycle p v)) := by
  simp only [exec, Spec.exec, h.ptrs, h.vals]
  cases hp : ofKind s.ptrs .weak p with
  | none => exact h.same
  | some b =>
    cases hy : var s.vals v with
    | none => exact h.same
    | some y =>
      have hv := ofKind_some hp
      have hm := mem_ptrs hv
      have hnd : ∀ c ∈ dying s.stack, b ≠ c := fun c hc hcb => hal c hc (hcb ▸ hv)
      obtain ⟨x, hx, hcnt, hb, k1⟩ := h.inv.rc (by decide) hm
      simp only [hcnt, bind, Outcome.bind]
      by_cases hu : s.strongs b = 0 ∧ s.weaks b = 1
      · rw [if_pos ((isUniqueToRcMemory_iff k1).mpr hu), if_pos hu]
        obtain ⟨k1, k2, k3, k4⟩ := k1
        obtain ⟨u1, u2⟩ := hu
        unfold Spec.weaks at u2
        rw [u1, if_neg (by omega)] at u2
        unfold Spec.strongs at u1
        rw [if_neg (by omega)] at k3
        simp only [RcBox.decWeak, minusOne_ret (t := e.target) (checks := checks) (a := x.weak) (by omega), bind, Outcome.bind, pure]
        have hz : var s.blocks b = none := by
          cases hz : var s.blocks b with
          | none => rfl
          | some z => rw [hz] at k4; have := k4.1; omega
        refine ⟨_, rfl, RelAt.rel (ps := ⟨.strong, b⟩ :: { s with ptrs := s.ptrs.set p none }.pointers) ⟨rfl, rfl, h.level, h.made, h.log, h.aborted, h.le, ?_, h.frames.keeps fun c hc => bits_set_ne (hnd c hc), h.nodup, ?_⟩ fun a => ?_⟩
        · refine h.inv.update hb ?_ ?_
          · intro c hc k
            rw [count_cons_ne hc, set_count hv ⟨k, c⟩, count_single_ne hc]; rfl
          · have c1 := set_count hv ⟨.own, b⟩
            have c2 := set_count hv ⟨.strong, b⟩
            have c3 := set_count hv ⟨.weak, b⟩
            simp only [count_self, List.count_nil, reduceCtorEq, if_false, if_true] at c1 c2 c3 ⊢
            refine ⟨by omega, by simp only [RcBox.init]; omega, ?_, by omega, rfl⟩
            rw [if_pos (by omega)]
            simp only [RcBox.init]
            omega
        · intro c hc
          simp only
          rw [var_set_ne (hnd c hc)]
          exact h.dead c hc
        · have c1 := val_count (s := { s with ptrs := s.ptrs.set p none }) hy a
          have c4 := perm_count.mp (all_set (f := fun p : Ptr => [p]) (var_lt hv) (some ⟨.strong, b⟩)) a
          have c5 := perm_count.mp (all_set (f := Value.fields) hb (some y)) a
          rw [show s.blocks.set b none = s.blocks from by rw [← hz]; exact set_same hb] at c5
          simp only [pointers_eq, List.count_append, List.count_cons, List.count_nil, Option.elim_some] at c1 c4 c5 ⊢
          omega
      · rw [if_neg fun hc => hu ((isUniqueToRcMemory_iff k1).mp hc), if_neg hu]; exact h.same

theorem ref_dropPtr (h : Rel e s w) (p : Nat) : Refines e (s.exec e.slab (.dropPtr p)) (exec e checks w (.dropPtr p)) := by
  simp only [exec, Spec.exec, h.ptrs]
  cases hq : var s.ptrs p with
  | none => exact h.same
  | some q =>
    have hperm : s.pointers.Perm (q :: { s with ptrs := s.ptrs.set p none }.pointers) := perm_count.mpr fun a => by rw [set_count hq a]; simp only [List.count_cons, List.count_nil]; omega
    obtain ⟨r, mb', h1, h2, h3⟩ := dropPtr_spec (t := e.target) (checks := checks) (h.inv.perm hperm)
    simp only [h1, bind, Outcome.bind, destroys_eq, List.append_nil]
    cases hg : gone s.blocks { s with ptrs := s.ptrs.set p none }.pointers q with
    | none =>
      rw [hg] at h3
      obtain ⟨rfl, h3⟩ := h3
      simp only [Bool.false_eq_true, if_false, pure]
      exact ⟨_, rfl, ⟨h.vals, rfl, h.level, h.made, h.log, h.aborted, h.le, h3, h.frames.keeps fun c _ => h2 c, h.nodup, h.dead⟩⟩
    | some z =>
      rw [hg] at h3
      obtain ⟨rfl, k1, k2, k3⟩ := h3
      have k2' : Mixed.bits mb' q.block = .ret z := k2
      simp only [if_true, pure, k2']
      refine ⟨_, rfl, ?_⟩
      refine (RelAt.begin (s := { s with ptrs := s.ptrs.set p none }) (w := { w with ptrs := s.ptrs.set p none }) (qs := s.pointers) { h with ptrs := rfl } k1 h2 k2 k3 rfl).perm ?_
      exact begin_pointers (s := { s with ptrs := s.ptrs.set p none }) k1 false

theorem ref_endDrop (h : Rel e s w) (panics : Bool) : Refines e (s.exec e.slab (.endDrop panics)) (exec e checks w (.endDrop panics)) := by
  obtain ⟨vs, ps, bs, l, m, lg, fg, ab, st⟩ := s
  obtain ⟨vs', ps', bs', l', m', lg', ab', ts⟩ := w
  have hf := h.frames
  simp only at hf
  cases hf with
  | nil => exact h.same
  | cons hm hs =>
    cases hm with
    | rest u ha hp hl => exact h.same
    | body u ha =>
      rename_i fs ts v o pl
      simp only [exec, Spec.exec]
      by_cases hpu : (panics && u) = true
      · simp only [hpu, if_true]
        exact ⟨_, rfl, { h with aborted := rfl }⟩
      · simp only [hpu, Bool.false_eq_true, if_false, ha.read, bind, Outcome.bind]
        have hr : Rel e ⟨vs, ps, bs, l, m, lg, fg, ab, .rest v.fields o (u || panics) :: fs⟩ ⟨vs', ps', bs', l', m', lg', ab', .glue pl 0 v.fields.length (u || panics) :: ts⟩ :=
          ⟨h.vals, h.ptrs, h.level, h.made, h.log, h.aborted, h.le, h.inv, .cons (.rest _ ha rfl rfl) hs, h.nodup, h.dead⟩
        obtain ⟨mb', log', ts', k1, k2⟩ := settle_spec (t := e.target) (checks := checks) (s := ⟨vs, ps, bs, l, m, lg, fg, ab, .body v o u :: fs⟩) false hr
        simp only [k1, pure]
        exact ⟨_, rfl, k2⟩

theorem ref_exec (hv : e.Valid) (h : Rel e s w) (hf : s.Few e.target) {op : Op} (ho : op.Valid e.target) (hal : s.Allowed op) : Refines e (s.exec e.slab op) (exec e checks w op) := by
  cases op with
  | make =>
    simp only [exec, Spec.exec, h.vals, h.made]
    refine ⟨_, rfl, RelAt.rel (ps := s.pointers) { h with vals := rfl, made := rfl } fun a => ?_⟩
    simp only [pointers_eq, all_append, all_single, List.count_append, List.count_nil]
    omega
  | box v L => exact ref_place hv h ho fun x => ⟨rfl, .inl rfl⟩
  | rc v L => exact ref_place hv h ho fun x => ⟨rfl, .inr rfl⟩
  | alloc L =>
    have ht := Bump.tryAllocSeq_spec hv (c := s.level) h.le ho.2 (Bump.Valid.align_pos ho.1)
    simp only [exec, Spec.exec, h.level, ht]
    cases hp : e.slab.place L s.level with
    | none => exact ⟨_, rfl, { h with level := rfl }⟩
    | some a =>
      have hq := hp
      rw [Slab.place_eq_some] at hq
      obtain ⟨k1, k2, k3⟩ := hq
      have := le_alignUp (Bump.Valid.align_pos ho.1) (e.slab.base + s.level)
      have hbase : e.slab.base = e.base := rfl
      have hlen : e.slab.len = e.len := rfl
      exact ⟨_, rfl, { h with level := rfl, le := by simp only; omega }⟩
  | clone p =>
    simp only [exec, Spec.exec, h.ptrs]
    cases hx : var s.ptrs p with
    | none => exact h.same
    | some q => exact ref_clone h hf (mem_ptrs hx)
  | downgrade p =>
    have hpt : ofKind w.ptrs .strong p = ofKind s.ptrs .strong p := by rw [h.ptrs]
    simp only [exec, Spec.exec, hpt]
    cases hx : ofKind s.ptrs .strong p with
    | none => exact h.same
    | some b => exact ref_weak h hf (by decide) (mem_ptrs (ofKind_some hx))
  | upgrade p =>
    have hpt : ofKind w.ptrs .weak p = ofKind s.ptrs .weak p := by rw [h.ptrs]
    simp only [exec, Spec.exec, hpt]
    cases hx : ofKind s.ptrs .weak p with
    | none => exact h.same
    | some b =>
      obtain ⟨x, hx, hcnt, hb, k1⟩ := h.inv.rc (by decide) (mem_ptrs (ofKind_some hx))
      have k2 := k1.2.1
      simp only [hcnt, bind, Outcome.bind]
      by_cases h0 : 0 < s.strongs b
      · have h0' := h0
        unfold Spec.strongs at h0'
        rw [if_neg (show ¬ x.strong = 0 by omega), if_pos h0]
        exact ref_strong h hf (List.count_pos_iff.mp h0') hx k1
      · have h0' := h0
        unfold Spec.strongs at h0'
        rw [if_pos (show x.strong = 0 by omega), if_neg h0]
        exact h.same
  | push root path k => exact ref_push h root path k
  | pull root path i => exact ref_pull h root path i
  | follow root path i =>
    obtain ⟨hfi, hfa⟩ := find_spec h root path
    simp only [exec, Spec.exec, hfi, bind, Outcome.bind]
    cases hx : s.find root path with
    | none => exact h.same
    | some r =>
      obtain ⟨pl, x⟩ := r
      simp only
      cases hq : x.fields[i]? with
      | none => exact h.same
      | some q => exact ref_clone h hf (mem_fields (hfa pl x hx).2 (List.mem_of_getElem? hq))
  | read root path =>
    obtain ⟨hfi, hfa⟩ := find_spec h root path
    simp only [exec, Spec.exec, hfi, bind, Outcome.bind]
    cases hx : s.find root path with
    | none => exact h.same
    | some r => exact h.same
  | swap root path v => exact ref_swap h root path v
  | counts p =>
    simp only [exec, Spec.exec, h.ptrs]
    cases hx : var s.ptrs p with
    | none => exact h.same
    | some q =>
      cases q with | mk k b =>
      by_cases hk : k = .own
      · simp only [hk, if_true]; exact h.same
      · obtain ⟨x, hx, hcnt, hb, k1, k2, k3, k4⟩ := h.inv.rc hk (mem_ptrs hx)
        simp only [hk, if_false, hcnt, bind, Outcome.bind, pure, k2, k3]
        exact h.same
  | ptrEq p q =>
    simp only [exec, Spec.exec, h.ptrs]
    cases ofKind s.ptrs .strong p with
    | none => exact h.same
    | some b => cases ofKind s.ptrs .strong q with
      | none => exact h.same
      | some c => exact h.same
  | getMut p v => exact ref_getMut h p v
  | take p => exact ref_take h p
  | tryUnwrap p => exact ref_tryUnwrap h p
  | recycle p v => exact ref_recycle h hal
  | dropPtr p => exact ref_dropPtr h p
  | dropVal v =>
    simp only [exec, Spec.exec, h.vals]
    cases hx : var s.vals v with
    | none => exact h.same
    | some x =>
      refine ⟨_, rfl, (RelAt.dropVal (ps := s.pointers) (s := { s with vals := s.vals.set v none }) (w := { w with vals := s.vals.set v none }) { h with vals := rfl } x).rel fun a => ?_⟩
      rw [dropVal_count, val_count hx a]
  | forget p =>
    simp only [exec, Spec.exec, h.ptrs]
    cases hx : var s.ptrs p with
    | none => exact h.same
    | some q =>
      refine ⟨_, rfl, RelAt.rel (ps := s.pointers) { h with ptrs := rfl } fun a => ?_⟩
      have := set_count hx a
      simp only [pointers_eq, List.count_append, List.count_cons, List.count_nil] at this ⊢
      omega
  | endDrop panics => exact ref_endDrop h panics

/-! ## Programs -/

theorem Rel.init {l : Nat} (hl : l ≤ e.len) : Rel e (Spec.init l) (World.init l) :=
  ⟨rfl, rfl, rfl, rfl, rfl, rfl, hl, ⟨rfl, by simp [Spec.pointers, Spec.roots, Spec.init, fieldsOf, stackPtrs], by simp [World.init]⟩, .nil, by simp [Spec.init, dying], by simp [Spec.init, dying]⟩

theorem ref_run (hv : e.Valid) (ops : List Op) : ∀ {s : Spec} {w : World}, (∀ op ∈ ops, op.Valid e.target) → Rel e s w → s.FewRun e.target e.slab ops → s.AllowedRun e.slab ops →
    ∃ w', run e checks w ops = .ret ((s.run e.slab ops).1, w') ∧ Rel e (s.run e.slab ops).2 w' := by
  induction ops with
  | nil => intro s w _ h _ _; exact ⟨w, rfl, h⟩
  | cons op ops ih =>
    intro s w ho h hf ha
    obtain ⟨w1, h1, h2⟩ := ref_exec (checks := checks) hv h hf.1 (ho op (by simp)) ha.1
    simp only [run, Spec.run, h1, bind, Outcome.bind, h2.aborted]
    cases hab : (s.exec e.slab op).2.aborted with
    | true => simp only [if_true, pure]; exact ⟨w1, rfl, h2⟩
    | false =>
      obtain ⟨w2, k1, k2⟩ := ih (fun o hm => ho o (by simp [hm])) h2 (hf.2 hab) (ha.2 hab)
      simp only [Bool.false_eq_true, if_false, k1, pure]
      exact ⟨w2, rfl, k2⟩

/-! ## Every value is in one place -/

theorem find_at {root : Root} {path : List Nat} {pl : Place} {x : Value} (h : s.find root path = some (pl, x)) : s.at pl = some x := by
  unfold Spec.find at h
  split at h
  · cases h
  · split at h
    · cases h
    · obtain ⟨y, hy, hp⟩ := Option.map_eq_some_iff.mp h
      simp only [Prod.mk.injEq] at hp
      obtain ⟨rfl, rfl⟩ := hp
      exact hy

theorem next_some {ps ps' : List Ptr} {b : Nat} {v : Value} (h : s.next ps = some (b, v, ps')) : var s.blocks b = some v ∧ ps'.length < ps.length := by
  induction ps with
  | nil => simp [Spec.next] at h
  | cons p ps ih =>
    simp only [Spec.next] at h
    split at h
    · rename_i y hy
      simp only [Option.some.injEq, Prod.mk.injEq] at h
      obtain ⟨rfl, rfl, rfl⟩ := h
      unfold Spec.destroys at hy
      split at hy
      · exact ⟨hy, by simp⟩
      · split at hy
        · cases hy
        · exact ⟨hy, by simp⟩
      · cases hy
    · have := ih h
      exact ⟨this.1, by simp only [List.length_cons]; omega⟩

theorem destroys_some {ps : List Ptr} {p : Ptr} {v : Value} (h : s.destroys ps p = some v) : var s.blocks p.block = some v :=
  (next_some (s := s) (ps := p :: ps) (ps' := ps) (b := p.block) (v := v) (by simp only [Spec.next, h])).1

def idsOf (s : Spec) : List Nat := all (fun v : Value => [v.id]) s.vals ++ all (fun v : Value => [v.id]) s.blocks ++ s.log

def IdInv (s : Spec) : Prop := (idsOf s).Perm (List.range s.made)

theorem IdInv.of {s s' : Spec} (h : IdInv s) (hm : s'.made = s.made) (hc : ∀ a, (idsOf s').count a = (idsOf s).count a) : IdInv s' := by
  unfold IdInv
  rw [hm]
  exact (List.perm_iff_count.mpr hc).trans h

theorem id_begin {b : Nat} {v : Value} {u : Bool} (h : IdInv s) (hv : var s.blocks b = some v) : IdInv (s.begin b v u) := by
  refine h.of rfl fun a => ?_
  have := List.perm_iff_count.mp (all_var (f := fun v : Value => [v.id]) hv) a
  simp only [idsOf, Spec.begin, List.count_append] at this ⊢
  omega

theorem id_resume (h : IdInv s) (fs : List Frame) : ∀ (u : Bool), IdInv (s.resume u fs).2 := by
  induction fs with
  | nil => intro u; exact h
  | cons f fs ih =>
    intro u
    cases f with
    | body v o w => exact h
    | rest ps o w =>
      simp only [Spec.resume]
      cases hn : Spec.next { s with stack := fs } ps with
      | none => exact ih (u || w)
      | some q => exact id_begin (s := { s with stack := .rest q.2.2 o (u || w) :: fs }) h (next_some hn).1

theorem id_dropVal {v : Nat} {x : Value} (h : IdInv s) (hx : var s.vals v = some x) : IdInv ({ s with vals := s.vals.set v none }.dropVal x) := by
  refine h.of rfl fun a => ?_
  have := List.perm_iff_count.mp (all_var (f := fun v : Value => [v.id]) hx) a
  simp only [idsOf, Spec.dropVal, List.count_append] at this ⊢
  omega

/-- The identities, if another value is written to a place in a variable or in a block. -/
theorem put_ids {pl : Place} {x : Value} (hx : s.at pl = some x) (y : Value) (hp : pl ≠ .self ∨ y.id = x.id) (a : Nat) : (idsOf (s.put y pl)).count a + [x.id].count a = (idsOf s).count a + [y.id].count a := by
  cases pl with
  | val v =>
    have h1 := List.perm_iff_count.mp (all_var (f := fun v : Value => [v.id]) hx) a
    have h2 := List.perm_iff_count.mp (all_set (f := fun v : Value => [v.id]) (var_lt hx) (some y)) a
    simp only [idsOf, Spec.put, List.count_append, Option.elim_some] at h1 h2 ⊢
    omega
  | block b =>
    have h1 := List.perm_iff_count.mp (all_var (f := fun v : Value => [v.id]) hx) a
    have h2 := List.perm_iff_count.mp (all_set (f := fun v : Value => [v.id]) (var_lt hx) (some y)) a
    simp only [idsOf, Spec.put, List.count_append, Option.elim_some] at h1 h2 ⊢
    omega
  | self =>
    have hid := hp.resolve_left (fun h => h rfl)
    rw [hid]
    simp only [Spec.put]
    split <;> rfl

theorem put_made (s : Spec) (y : Value) (pl : Place) : (s.put y pl).made = s.made := by
  cases pl with
  | self => simp only [Spec.put]; split <;> rfl
  | _ => rfl
theorem put_forgotten (s : Spec) (y : Value) (pl : Place) : (s.put y pl).forgotten = s.forgotten := by
  cases pl with
  | self => simp only [Spec.put]; split <;> rfl
  | _ => rfl

theorem IdInv.put {pl : Place} {x y : Value} (h : IdInv s) (hx : s.at pl = some x) (hi : y.id = x.id) : IdInv (s.put y pl) :=
  h.of (put_made s y pl) fun a => by have := put_ids hx y (.inr hi) a; rw [hi] at this; omega

theorem IdInv.add {q : Ptr} (h : IdInv s) : IdInv (s.add q).2 := h

theorem id_place {slab : Slab} {v : Nat} {L : Layout} {k : Kind} (h : IdInv s) : IdInv (s.place slab v L k).2 := by
  unfold Spec.place
  split
  · exact h
  · rename_i x hx
    split
    · exact id_dropVal h hx
    · refine IdInv.add ?_
      refine h.of rfl fun a => ?_
      have := List.perm_iff_count.mp (all_var (f := fun v : Value => [v.id]) hx) a
      simp only [idsOf, all_append, all_single, List.count_append] at this ⊢
      omega

theorem id_exec {slab : Slab} (hr : Rel e s w) (h : IdInv s) (op : Op) : IdInv (s.exec slab op).2 := by
  cases op with
  | make =>
    unfold IdInv at h ⊢
    simp only [Spec.exec, idsOf, all_append, all_single, List.range_succ]
    refine List.Perm.trans ?_ (h.append_right [s.made])
    refine List.perm_iff_count.mpr fun a => ?_
    simp only [idsOf, List.count_append]
    omega
  | box v L => exact id_place h
  | rc v L => exact id_place h
  | push root path k =>
    simp only [Spec.exec]
    split
    · rename_i pl x q hx hq
      exact IdInv.put (s := { s with ptrs := s.ptrs.set k none }) h (x := x) (by rw [at_ptrs]; exact find_at hx) rfl
    · exact h
  | pull root path i =>
    simp only [Spec.exec]
    split
    · exact h
    · rename_i pl x hx
      split
      · exact h
      · exact IdInv.add (h.put (find_at hx) rfl)
  | swap root path v =>
    simp only [Spec.exec]
    split
    · exact h
    · rename_i hroot
      split
      · exact h
      · rename_i pl x y hns hx hy
        have hat : { s with vals := s.vals.set v (some x) }.at pl = some x := by
          have hf := find_at hx
          cases pl with
          | self => exact hf
          | block b => exact hf
          | val u =>
            have hne : u ≠ v := fun hc => hroot (by rw [find_val hx, hc])
            simp only [Spec.at]; rw [var_set_ne (fun hc => hne hc.symm)]; exact hf
        refine h.of (put_made _ _ _) fun a => ?_
        have c1 := put_ids hat y (.inl (by rintro rfl; exact hns rfl)) a
        have c2 := List.perm_iff_count.mp (all_var (f := fun v : Value => [v.id]) hy) a
        have c3 := List.perm_iff_count.mp (all_set (f := fun v : Value => [v.id]) (var_lt hy) (some x)) a
        simp only [idsOf, List.count_append, Option.elim_some] at c1 c2 c3 ⊢
        omega
      · exact h
  | getMut p v =>
    simp only [Spec.exec]
    split
    · rename_i b y hp hy
      split
      · exact h
      · rename_i x hx
        split
        · refine h.of rfl fun a => ?_
          have c1 := List.perm_iff_count.mp (all_var (f := fun v : Value => [v.id]) hx) a
          have c2 := List.perm_iff_count.mp (all_set (f := fun v : Value => [v.id]) (var_lt hx) (some y)) a
          have c3 := List.perm_iff_count.mp (all_var (f := fun v : Value => [v.id]) hy) a
          have c4 := List.perm_iff_count.mp (all_set (f := fun v : Value => [v.id]) (var_lt hy) (some x)) a
          simp only [idsOf, List.count_append, Option.elim_some] at c1 c2 c3 c4 ⊢
          omega
        · exact h
    · exact h
  | take p =>
    simp only [Spec.exec]
    split
    · exact h
    · split
      · exact h
      · rename_i x hx
        refine h.of rfl fun a => ?_
        have c1 := List.perm_iff_count.mp (all_var (f := fun v : Value => [v.id]) hx) a
        simp only [idsOf, all_append, all_single, List.count_append] at c1 ⊢
        omega
  | tryUnwrap p =>
    simp only [Spec.exec]
    split
    · exact h
    · split
      · exact h
      · rename_i x hx
        split
        · refine h.of rfl fun a => ?_
          have c1 := List.perm_iff_count.mp (all_var (f := fun v : Value => [v.id]) hx) a
          simp only [idsOf, all_append, all_single, List.count_append] at c1 ⊢
          omega
        · exact h
  | recycle p v =>
    simp only [Spec.exec]
    split
    · rename_i b y hp hy
      split
      · rename_i hu
        have hm := mem_ptrs (ofKind_some hp)
        have hb := hr.inv.lt _ hm
        have hz : var s.blocks b = none := by
          cases hz : var s.blocks b with
          | none => rfl
          | some z =>
            obtain ⟨x, _, _, _, k1, _, _, k4⟩ := hr.inv.rc (by decide) hm
            rw [hz] at k4
            have := k4.1
            have := hu.1
            unfold Spec.strongs at this
            omega
        refine h.of rfl fun a => ?_
        have c1 := List.perm_iff_count.mp (all_var (f := fun v : Value => [v.id]) hy) a
        have c5 := List.perm_iff_count.mp (all_set (f := fun v : Value => [v.id]) hb (some y)) a
        simp only at c5
        rw [show s.blocks.set b none = s.blocks from by rw [← hz]; exact set_same hb] at c5
        simp only [idsOf, List.count_append, Option.elim_some] at c1 c5 ⊢
        omega
      · exact h
    · exact h
  | dropPtr p =>
    simp only [Spec.exec]
    split
    · exact h
    · split
      · exact h
      · rename_i v hv
        exact id_begin (s := { s with ptrs := s.ptrs.set p none }) h (destroys_some hv)
  | dropVal v =>
    simp only [Spec.exec]
    split
    · exact h
    · rename_i x hx
      exact id_dropVal h hx
  | endDrop panics =>
    simp only [Spec.exec]
    split
    · split
      · exact h
      · exact id_resume h _ _
    · exact h
  | _ =>
    simp only [Spec.exec]
    repeat' split
    all_goals exact h

theorem IdInv.init (l : Nat) : IdInv (Spec.init l) := List.Perm.refl _

theorem id_run (hv : e.Valid) (ops : List Op) : ∀ {s : Spec} {w : World}, (∀ op ∈ ops, op.Valid e.target) → Rel e s w → s.FewRun e.target e.slab ops → s.AllowedRun e.slab ops → IdInv s → IdInv (s.run e.slab ops).2 := by
  induction ops with
  | nil => intro s w _ _ _ _ h; exact h
  | cons op ops ih =>
    intro s w ho h hf ha hi
    obtain ⟨w1, _, h2⟩ := ref_exec (checks := false) hv h hf.1 (ho op (by simp)) ha.1
    have h3 := id_exec (slab := e.slab) h hi op
    simp only [Spec.run]
    cases hab : (s.exec e.slab op).2.aborted with
    | true => simpa using h3
    | false => simpa using ih (fun o hm => ho o (by simp [hm])) h2 (hf.2 hab) (ha.2 hab) h3

/-! ## The number of pointers -/

theorem pointers_length (s : Spec) : s.pointers.length = (all (fun p => [p]) s.ptrs).length + (all Value.fields s.vals).length + (stackPtrs s.stack).length + s.forgotten.length + (all Value.fields s.blocks).length := by
  simp only [pointers_eq, List.length_append]

theorem length_put {pl : Place} {x : Value} (hx : s.at pl = some x) (y : Value) : (s.put y pl).pointers.length + x.fields.length = s.pointers.length + y.fields.length := by
  cases pl with
  | val v =>
    have h1 := (all_var (f := Value.fields) hx).length_eq
    have h2 := (all_set (f := Value.fields) (var_lt hx) (some y)).length_eq
    simp only [pointers_length, Spec.put, List.length_append, Option.elim_some] at h1 h2 ⊢
    omega
  | block b =>
    have h1 := (all_var (f := Value.fields) hx).length_eq
    have h2 := (all_set (f := Value.fields) (var_lt hx) (some y)).length_eq
    simp only [pointers_length, Spec.put, List.length_append, Option.elim_some] at h1 h2 ⊢
    omega
  | self =>
    simp only [Spec.at] at hx
    split at hx
    · rename_i z o u fs hs
      cases hx
      simp only [pointers_length, Spec.put, hs, stackPtrs_cons, Frame.ptrs, List.length_append]
      omega
    · cases hx

theorem length_add (s : Spec) (q : Ptr) : (s.add q).2.pointers.length = s.pointers.length + 1 := by
  simp only [pointers_length, Spec.add, all_append, all_single, List.length_append, List.length_singleton]
  omega

theorem length_resume (fs : List Frame) : ∀ {s : Spec} (u : Bool), (s.resume u fs).2.pointers.length ≤ { s with stack := fs }.pointers.length := by
  induction fs with
  | nil => intro s u; exact Nat.le_refl _
  | cons f fs ih =>
    intro s u
    cases f with
    | body v o w => exact Nat.le_refl _
    | rest ps o w =>
      simp only [Spec.resume]
      cases hn : Spec.next { s with stack := fs } ps with
      | none =>
        have := ih (s := s) (u || w)
        simp only [pointers_length, List.length_append, stackPtrs_cons] at this ⊢
        omega
      | some q =>
        have h1 := (begin_pointers (s := { s with stack := .rest q.2.2 o (u || w) :: fs }) (next_some hn).1 (u || w)).length_eq
        have h2 := (next_some hn).2
        simp only [pointers_length, List.length_append, stackPtrs_cons, Frame.ptrs, Spec.begin] at h1 h2 ⊢
        omega

theorem length_dropVal {v : Nat} {x : Value} (hx : var s.vals v = some x) : ({ s with vals := s.vals.set v none }.dropVal x).pointers.length = s.pointers.length := by
  have := (all_var (f := Value.fields) hx).length_eq
  simp only [pointers_length, Spec.dropVal, stackPtrs_cons, Frame.ptrs, List.length_append] at this ⊢
  omega

theorem length_set {p : Nat} {q : Ptr} (hq : var s.ptrs p = some q) : { s with ptrs := s.ptrs.set p none }.pointers.length + 1 = s.pointers.length := by
  have := (all_var (f := fun p : Ptr => [p]) hq).length_eq
  simp only [pointers_length, List.length_append, List.length_singleton] at this ⊢
  omega

theorem all_none_le {α β : Type} {f : α → List β} {xs : List (Option α)} (i : Nat) : (all f (xs.set i none)).length ≤ (all f xs).length := by
  cases hx : var xs i with
  | some x => rw [(all_var hx).length_eq, List.length_append]; omega
  | none =>
    by_cases hi : i < xs.length
    · rw [← hx, set_same hi]
    · rw [List.set_eq_of_length_le (by omega)]

theorem all_set_le {α β : Type} {f : α → List β} {xs : List (Option α)} (i : Nat) (y : α) : (all f (xs.set i (some y))).length ≤ (all f xs).length + (f y).length := by
  by_cases hi : i < xs.length
  · have h1 := (all_set (f := f) hi (some y)).length_eq
    have h2 := all_none_le (f := f) (xs := xs) i
    simp only [List.length_append, Option.elim_some] at h1
    omega
  · rw [List.set_eq_of_length_le (by omega)]; exact Nat.le_add_right _ _

theorem length_place {slab : Slab} {v : Nat} {L : Layout} {k : Kind} : (s.place slab v L k).2.pointers.length ≤ s.pointers.length + 1 := by
  unfold Spec.place
  split
  · exact Nat.le_succ _
  · rename_i x hx
    split
    · rw [length_dropVal hx]; exact Nat.le_succ _
    · rw [length_add]
      have := (all_var (f := Value.fields) hx).length_eq
      simp only [pointers_length, all_append, all_single, List.length_append] at this ⊢
      omega

theorem length_exec {slab : Slab} (s : Spec) (op : Op) : (s.exec slab op).2.pointers.length ≤ s.pointers.length + 1 := by
  cases op with
  | make =>
    simp only [Spec.exec, pointers_length, all_append, all_single, List.length_append, List.length_nil]
    omega
  | box v L => exact length_place
  | rc v L => exact length_place
  | push root path k =>
    simp only [Spec.exec]
    split
    · rename_i pl x q hx hq
      have hq' : var s.ptrs k = some q := by split at hq; cases hq; exact hq
      have h1 := length_put (s := { s with ptrs := s.ptrs.set k none }) (pl := pl) (x := x) (by rw [at_ptrs]; exact find_at hx) { x with fields := x.fields ++ [q] }
      have h2 := length_set hq'
      simp only [List.length_append, List.length_singleton] at h1 ⊢
      omega
    · exact Nat.le_succ _
  | pull root path i =>
    simp only [Spec.exec]
    split
    · exact Nat.le_succ _
    · rename_i pl x hx
      split
      · exact Nat.le_succ _
      · rename_i q hq
        have h1 := length_put (find_at hx) { x with fields := x.fields.eraseIdx i }
        have hl := (List.getElem?_eq_some_iff.mp hq).1
        rw [length_add]
        simp only [List.length_eraseIdx, if_pos hl] at h1
        omega
  | swap root path v =>
    simp only [Spec.exec]
    split
    · exact Nat.le_succ _
    · rename_i hroot
      split
      · exact Nat.le_succ _
      · rename_i pl x y hns hx hy
        have hat : { s with vals := s.vals.set v (some x) }.at pl = some x := by
          have hf := find_at hx
          cases pl with
          | self => exact hf
          | block b => exact hf
          | val u =>
            have hne : u ≠ v := fun hc => hroot (by rw [find_val hx, hc])
            simp only [Spec.at]; rw [var_set_ne (fun hc => hne hc.symm)]; exact hf
        have c1 := length_put hat y
        have c2 := (all_var (f := Value.fields) hy).length_eq
        have c3 := (all_set (f := Value.fields) (var_lt hy) (some x)).length_eq
        simp only [pointers_length, List.length_append, Option.elim_some] at c1 c2 c3 ⊢
        omega
      · exact Nat.le_succ _
  | getMut p v =>
    simp only [Spec.exec]
    split
    · rename_i b y hp hy
      split
      · exact Nat.le_succ _
      · rename_i x hx
        split
        · have c1 := (all_var (f := Value.fields) hx).length_eq
          have c2 := (all_set (f := Value.fields) (var_lt hx) (some y)).length_eq
          have c3 := (all_var (f := Value.fields) hy).length_eq
          have c4 := (all_set (f := Value.fields) (var_lt hy) (some x)).length_eq
          simp only [pointers_length, List.length_append, Option.elim_some] at c1 c2 c3 c4 ⊢
          omega
        · exact Nat.le_succ _
    · exact Nat.le_succ _
  | take p =>
    simp only [Spec.exec]
    split
    · exact Nat.le_succ _
    · rename_i b hb
      split
      · exact Nat.le_succ _
      · rename_i x hx
        have c1 := (all_var (f := Value.fields) hx).length_eq
        have c2 := all_none_le (f := fun p : Ptr => [p]) (xs := s.ptrs) p
        simp only [pointers_length, all_append, all_single, List.length_append] at c1 c2 ⊢
        omega
  | tryUnwrap p =>
    simp only [Spec.exec]
    split
    · exact Nat.le_succ _
    · rename_i b hb
      split
      · exact Nat.le_succ _
      · rename_i x hx
        split
        · have c1 := (all_var (f := Value.fields) hx).length_eq
          have c2 := all_set_le (f := fun p : Ptr => [p]) (xs := s.ptrs) p ⟨.weak, b⟩
          simp only [pointers_length, all_append, all_single, List.length_append, List.length_singleton] at c1 c2 ⊢
          omega
        · exact Nat.le_succ _
  | recycle p v =>
    simp only [Spec.exec]
    split
    · rename_i b y hp hy
      split
      · have c1 := (all_var (f := Value.fields) hy).length_eq
        have c2 := all_set_le (f := fun p : Ptr => [p]) (xs := s.ptrs) p ⟨.strong, b⟩
        have c3 := all_set_le (f := Value.fields) (xs := s.blocks) b y
        simp only [pointers_length, List.length_append, List.length_singleton] at c1 c2 c3 ⊢
        omega
      · exact Nat.le_succ _
    · exact Nat.le_succ _
  | dropPtr p =>
    simp only [Spec.exec]
    split
    · exact Nat.le_succ _
    · rename_i q hq
      have h1 := length_set hq
      split
      · simp only; omega
      · rename_i v hv
        have h2 := (begin_pointers (s := { s with ptrs := s.ptrs.set p none }) (destroys_some hv) false).length_eq
        simp only at h1 h2 ⊢
        omega
  | dropVal v =>
    simp only [Spec.exec]
    split
    · exact Nat.le_succ _
    · rename_i x hx
      rw [length_dropVal hx]; exact Nat.le_succ _
  | forget p =>
    simp only [Spec.exec]
    split
    · exact Nat.le_succ _
    · rename_i q hq
      have h1 := length_set hq
      simp only [pointers_length, List.length_cons] at h1 ⊢
      omega
  | endDrop panics =>
    simp only [Spec.exec]
    split
    · rename_i v o u fs hs
      split
      · exact Nat.le_succ _
      · have h1 := length_resume (.rest v.fields o (u || panics) :: fs) (s := s) false
        simp only [pointers_length, stackPtrs_cons, Frame.ptrs, List.length_append, hs] at h1 ⊢
        omega
    · exact Nat.le_succ _
  | _ =>
    simp only [Spec.exec]
    repeat' split
    all_goals first | exact Nat.le_succ _ | rw [length_add]

theorem few_of_length (h : s.pointers.length < t.usizeMax) : s.Few t := by
  intro b
  have h1 : s.strongs b ≤ s.pointers.length := List.count_le_length
  refine ⟨by omega, ?_⟩
  unfold Spec.weaks
  have h2 : s.pointers.count ⟨.weak, b⟩ + s.pointers.count ⟨.strong, b⟩ ≤ s.pointers.length := by
    generalize s.pointers = ps
    induction ps with
    | nil => simp
    | cons p ps ih =>
      simp only [List.count_cons, List.length_cons]
      by_cases h1 : p = ⟨.weak, b⟩
      · subst h1; simp; omega
      · by_cases h2 : p = ⟨.strong, b⟩
        · subst h2; simp; omega
        · simp [h1, h2]; omega
  unfold Spec.strongs
  split <;> omega

theorem few_run {slab : Slab} (ops : List Op) : ∀ {s : Spec}, s.pointers.length + ops.length ≤ t.usizeMax → s.FewRun t slab ops := by
  induction ops with
  | nil => intro s _; trivial
  | cons op ops ih =>
    intro s h
    simp only [List.length_cons] at h
    refine ⟨few_of_length (by omega), fun _ => ih ?_⟩
    have := length_exec (slab := slab) s op
    omega

/-! ## Nothing is forgotten unless by `forget` -/

theorem forgotten_resume (fs : List Frame) : ∀ {s : Spec} (u : Bool), (s.resume u fs).2.forgotten = s.forgotten := by
  induction fs with
  | nil => intro s u; rfl
  | cons f fs ih =>
    intro s u
    cases f with
    | body v o w => rfl
    | rest ps o w =>
      simp only [Spec.resume]
      split
      · exact ih _
      · rfl

theorem forgotten_exec {slab : Slab} {op : Op} (h : ∀ p, op ≠ .forget p) : (s.exec slab op).2.forgotten = s.forgotten := by
  cases op with
  | forget p => exact absurd rfl (h p)
  | endDrop p =>
    simp only [Spec.exec]
    split
    · split
      · rfl
      · exact forgotten_resume _ _
    · rfl
  | box v L | rc v L =>
    simp only [Spec.exec, Spec.place]
    repeat' split
    all_goals rfl
  | _ =>
    simp only [Spec.exec]
    repeat' split
    all_goals first | rfl | rw [put_forgotten] | exact put_forgotten _ _ _

theorem forgotten_run {slab : Slab} (ops : List Op) : ∀ {s : Spec}, (∀ p, Op.forget p ∉ ops) → (s.run slab ops).2.forgotten = s.forgotten := by
  induction ops with
  | nil => intro s _; rfl
  | cons op ops ih =>
    intro s h
    have h1 := forgotten_exec (slab := slab) (s := s) (op := op) fun p hp => h p (by simp [hp])
    simp only [Spec.run]
    split
    · exact h1
    · exact (ih fun p hm => h p (by simp [hm])).trans h1

/-! ## The graph -/

theorem Spec.Path.trans {b c d : Nat} (h : s.Path b c) (h' : s.Path c d) : s.Path b d := by
  induction h with
  | one hk h => exact .more hk h h'
  | more hk h _ ih => exact .more hk h (ih h')

theorem mem_fieldsOf {xs : List (Option Value)} {q : Ptr} : q ∈ fieldsOf xs ↔ ∃ b v, var xs b = some v ∧ q ∈ v.fields := by
  unfold fieldsOf
  rw [List.mem_flatMap]
  constructor
  · rintro ⟨o, ho, hq⟩
    cases o with
    | none => cases hq
    | some v =>
      obtain ⟨i, hi⟩ := List.mem_iff_getElem?.mp ho
      exact ⟨i, v, by unfold var; rw [hi]; rfl, hq⟩
  · rintro ⟨b, v, hv, hq⟩
    refine ⟨some v, ?_, hq⟩
    unfold var at hv
    cases hb : xs[b]? with
    | none => rw [hb] at hv; cases hv
    | some o =>
      rw [hb, Option.join_some] at hv
      subst hv
      exact List.mem_of_getElem? hb

theorem mem_pointers {q : Ptr} : q ∈ s.pointers ↔ q ∈ s.roots ∨ ∃ b v, var s.blocks b = some v ∧ q ∈ v.fields := by
  rw [Spec.pointers, List.mem_append, mem_fieldsOf]

theorem fieldsOf_none {xs : List (Option Value)} (h : ∀ v ∈ xs, v = none) : fieldsOf xs = [] := by
  unfold fieldsOf
  refine List.flatMap_eq_nil_iff.mpr fun o ho => ?_
  rw [h o ho]

theorem alive_iff (h : RelAt e s.pointers s w) (b : Nat) : (∃ v, var s.blocks b = some v) ↔ ∃ k, k ≠ Kind.weak ∧ ⟨k, b⟩ ∈ s.pointers := by
  constructor
  · rintro ⟨v, hv⟩
    rcases h.inv.held hv with hm | hm
    · exact ⟨.own, by decide, hm⟩
    · exact ⟨.strong, by decide, hm⟩
  · rintro ⟨k, hk, hm⟩
    exact h.inv.hold hk hm

/-- A value that is not reachable is on a cycle or behind one. -/
theorem cycle_of_unreachable (h : Rel e s w) {b : Nat} (hv : ∃ v, var s.blocks b = some v) (hr : ¬ s.Reach b) :
    ∃ c, ¬ s.Reach c ∧ s.Path c c ∧ (c = b ∨ s.Path c b) := by
  refine Classical.byContradiction fun hno => ?_
  have hno : ∀ c, ¬ s.Reach c → (c = b ∨ s.Path c b) → ¬ s.Path c c := fun c h1 h2 h3 => hno ⟨c, h1, h3, h2⟩
  let S : Fin s.blocks.length → Prop := fun c => (∃ v, var s.blocks c.1 = some v) ∧ ¬ s.Reach c.1 ∧ (c.1 = b ∨ s.Path c.1 b)
  let r : Fin s.blocks.length → Fin s.blocks.length → Prop := fun x y => S x ∧ S y ∧ s.Path x.1 y.1
  have htrans : IsTrans _ r := ⟨fun x y z h1 h2 => ⟨h1.1, h2.2.1, h1.2.2.trans h2.2.2⟩⟩
  have hirr : Std.Irrefl r := ⟨fun x h1 => hno x.1 h1.1.2.1 h1.1.2.2 h1.2.2⟩
  have hwf := Finite.wellFounded_of_trans_of_irrefl r
  obtain ⟨v, hv'⟩ := hv
  have hpred : ∀ x, ¬ S x := by
    intro x
    induction x using hwf.induction with
    | _ x ih =>
      rintro ⟨hx1, hx2, hx3⟩
      obtain ⟨k, hk, hm⟩ := (alive_iff h x.1).mp hx1
      rcases mem_pointers.mp hm with hm | ⟨c, u, hc, hm⟩
      · exact hx2 (.root hk hm)
      · have hedge : s.Edge k c x.1 := ⟨u, hc, hm⟩
        have hS : S ⟨c, var_lt hc⟩ := by
          refine ⟨⟨u, hc⟩, fun hr => hx2 (.edge hk hr hedge), .inr ?_⟩
          rcases hx3 with rfl | hp
          · exact .one hk hedge
          · exact .more hk hedge hp
        exact ih ⟨c, var_lt hc⟩ ⟨hS, ⟨hx1, hx2, hx3⟩, .one hk hedge⟩ hS
  exact hpred ⟨b, var_lt hv'⟩ ⟨⟨v, hv'⟩, hr, .inl rfl⟩

/-! ## Boxes alone form no cycle -/

section
variable {α : Type} {R N : α → α → Prop} {d : α}

/-- New edges from `d` make no cycle if there is no way back to `d`. -/
theorem acyclic_add (h : ∀ x, ¬ Relation.TransGen R x x) (hd : ∀ x y, N x y → ¬ R x y → x = d ∧ ¬ Relation.ReflTransGen R y d) : ∀ x, ¬ Relation.TransGen N x x := by
  have key : ∀ x y, Relation.TransGen N x y → Relation.TransGen R x y ∨ (Relation.ReflTransGen R x d ∧ ∃ c, ¬ Relation.ReflTransGen R c d ∧ Relation.ReflTransGen R c y) := by
    intro x y hp
    induction hp with
    | single hn =>
      rename_i y
      by_cases hr : R x y
      · exact .inl (.single hr)
      · obtain ⟨rfl, h2⟩ := hd x y hn hr
        exact .inr ⟨.refl, y, h2, .refl⟩
    | tail _ hn ih =>
      rename_i y z _
      by_cases hr : R y z
      · rcases ih with ih | ⟨h1, c, h2, h3⟩
        · exact .inl (ih.tail hr)
        · exact .inr ⟨h1, c, h2, h3.tail hr⟩
      · obtain ⟨rfl, h2⟩ := hd y z hn hr
        refine .inr ⟨?_, z, h2, .refl⟩
        rcases ih with ih | ⟨h1, _⟩
        · exact ih.to_reflTransGen
        · exact h1
  intro x hp
  rcases key x x hp with h1 | ⟨h1, c, h2, h3⟩
  · exact h x h1
  · exact h2 (h3.trans h1)
end

/-- Where pointers are. -/
inductive Loc where | ptr (p : Nat) | val (v : Nat) | self | block (b : Nat)

def Holds (s : Spec) : Loc → Ptr → Prop
  | .ptr p, q => var s.ptrs p = some q
  | .val v, q => ∃ x, var s.vals v = some x ∧ q ∈ x.fields
  | .self, q => ∃ x, s.at .self = some x ∧ q ∈ x.fields
  | .block b, q => ∃ x, var s.blocks b = some x ∧ q ∈ x.fields

theorem count_all {α : Type} {f : α → List Ptr} {xs : List (Option α)} {i : Nat} {x : α} {q : Ptr} (h : var xs i = some x) (hq : q ∈ f x) : 0 < (all f xs).count q := by
  rw [perm_count.mp (all_var (f := f) h) q, List.count_append]
  have := List.count_pos_iff.mpr hq
  omega

theorem count_two {α : Type} {f : α → List Ptr} {xs : List (Option α)} {i j : Nat} {x y : α} {q : Ptr} (h : var xs i = some x) (h' : var xs j = some y) (hne : i ≠ j) (hq : q ∈ f x) (hq' : q ∈ f y) : 1 < (all f xs).count q := by
  rw [perm_count.mp (all_var (f := f) h) q, List.count_append]
  have h1 := List.count_pos_iff.mpr hq
  have h2 := count_all (f := f) (xs := xs.set i none) (i := j) (x := y) (q := q) (by rw [var_set_ne hne]; exact h') hq'
  omega

theorem Holds.mem {l : Loc} {q : Ptr} (h : Holds s l q) : q ∈ s.pointers := by
  cases l with
  | ptr p => exact mem_ptrs h
  | val v => obtain ⟨x, hx, hq⟩ := h; exact mem_fields (pl := .val v) hx hq
  | self => obtain ⟨x, hx, hq⟩ := h; exact mem_fields hx hq
  | block b => obtain ⟨x, hx, hq⟩ := h; exact mem_fields (pl := .block b) hx hq

theorem own_count (h : Rel e s w) (b : Nat) : s.pointers.count ⟨.own, b⟩ ≤ 1 := by
  by_cases hb : b < s.blocks.length
  · obtain ⟨x, hx⟩ := h.inv.get hb
    have hok := h.inv.ok b x hx
    cases x with
    | rc x => have := hok.1; omega
    | box v =>
      obtain ⟨_, _, k⟩ := hok
      cases hv : var s.blocks b with
      | none => rw [hv] at k; simp only at k; omega
      | some v => rw [hv] at k; have := k.1; omega
  · rw [List.count_eq_zero.mpr fun hm => hb (h.inv.lt _ hm)]; omega

theorem own_excl (h : Rel e s w) {b : Nat} {k : Kind} (h1 : (⟨.own, b⟩ : Ptr) ∈ s.pointers) (h2 : (⟨k, b⟩ : Ptr) ∈ s.pointers) : k = .own := by
  refine Classical.byContradiction fun hk => ?_
  obtain ⟨x, _, _, _, k1, _⟩ := h.inv.rc hk h2
  exact absurd (List.count_pos_iff.mpr h1) (by omega)

/-- There is one `LeakBox` for a block, at one place. -/
theorem own_unique (h : Rel e s w) {b : Nat} {k : Kind} {l l' : Loc} (h1 : Holds s l ⟨.own, b⟩) (h2 : Holds s l' ⟨k, b⟩) : k = .own ∧ l = l' := by
  have hk := own_excl h h1.mem h2.mem
  subst hk
  refine ⟨rfl, Classical.byContradiction fun hne => ?_⟩
  have hc := own_count h b
  have hs : ∀ {x : Value}, s.at .self = some x → (⟨.own, b⟩ : Ptr) ∈ x.fields → 0 < (stackPtrs s.stack).count ⟨.own, b⟩ := by
    intro x hx hq
    simp only [Spec.at] at hx
    split at hx
    · rename_i z o u fs hst
      cases hx
      rw [hst, stackPtrs_cons, List.count_append]
      have := List.count_pos_iff.mpr hq
      simp only [Frame.ptrs]
      omega
    · cases hx
  simp only [pointers_eq, List.count_append] at hc
  cases l with
  | ptr p =>
    have c1 := count_all (f := fun p : Ptr => [p]) (q := ⟨.own, b⟩) h1 (by simp)
    cases l' with
    | ptr p' => have := count_two (f := fun p : Ptr => [p]) (q := ⟨.own, b⟩) h1 h2 (fun hc => hne (by rw [hc])) (by simp) (by simp); omega
    | val v => obtain ⟨x, hx, hq⟩ := h2; have := count_all (f := Value.fields) hx hq; omega
    | self => obtain ⟨x, hx, hq⟩ := h2; have := hs hx hq; omega
    | block c => obtain ⟨x, hx, hq⟩ := h2; have := count_all (f := Value.fields) hx hq; omega
  | val v =>
    obtain ⟨y, hy, hq1⟩ := h1
    have c1 := count_all (f := Value.fields) hy hq1
    cases l' with
    | ptr p' => have := count_all (f := fun p : Ptr => [p]) (q := ⟨.own, b⟩) h2 (by simp); omega
    | val v' => obtain ⟨x, hx, hq⟩ := h2; have := count_two (f := Value.fields) hy hx (fun hc => hne (by rw [hc])) hq1 hq; omega
    | self => obtain ⟨x, hx, hq⟩ := h2; have := hs hx hq; omega
    | block c => obtain ⟨x, hx, hq⟩ := h2; have := count_all (f := Value.fields) hx hq; omega
  | self =>
    obtain ⟨y, hy, hq1⟩ := h1
    have c1 := hs hy hq1
    cases l' with
    | ptr p' => have := count_all (f := fun p : Ptr => [p]) (q := ⟨.own, b⟩) h2 (by simp); omega
    | val v' => obtain ⟨x, hx, hq⟩ := h2; have := count_all (f := Value.fields) hx hq; omega
    | self => exact hne rfl
    | block c => obtain ⟨x, hx, hq⟩ := h2; have := count_all (f := Value.fields) hx hq; omega
  | block c =>
    obtain ⟨y, hy, hq1⟩ := h1
    have c1 := count_all (f := Value.fields) hy hq1
    cases l' with
    | ptr p' => have := count_all (f := fun p : Ptr => [p]) (q := ⟨.own, b⟩) h2 (by simp); omega
    | val v' => obtain ⟨x, hx, hq⟩ := h2; have := count_all (f := Value.fields) hx hq; omega
    | self => obtain ⟨x, hx, hq⟩ := h2; have := hs hx hq; omega
    | block c' => obtain ⟨x, hx, hq⟩ := h2; have := count_two (f := Value.fields) hy hx (fun hc => hne (by rw [hc])) hq1 hq; omega

/-- Boxes in boxes. -/
abbrev Sub (s : Spec) : Nat → Nat → Prop := Relation.ReflTransGen (s.Edge .own)

/-- `l` is not in a block and has the box `c`. What is in this box is reached only from `l`. -/
theorem sub_step (h : Rel e s w) {l l' : Loc} (hl : ∀ b, l ≠ .block b) {c d : Nat} {k : Kind} (hc : Holds s l ⟨.own, c⟩) (hs : Sub s c d) (hd : Holds s l' ⟨k, d⟩) : l' = l ∨ ∃ d', l' = .block d' ∧ Sub s c d' := by
  cases hs with
  | refl => exact .inl (own_unique h hc hd).2.symm
  | tail hs he =>
    rename_i d'
    exact .inr ⟨d', (own_unique h (l := .block d') he hd).2.symm, hs⟩

theorem sub_walk (h : Rel e s w) {l : Loc} (hl : ∀ b, l ≠ .block b) {c : Nat} (hc : Holds s l ⟨.own, c⟩) (path : List Nat) :
    ∀ {pl : Place}, (match pl with | .val v => l ≠ .val v | .self => l ≠ .self | .block b => ¬ Sub s c b) → ∀ {d : Nat}, s.walk pl path = some (.block d) → ¬ Sub s c d := by
  induction path with
  | nil => intro pl hp d hw; cases hw; exact hp
  | cons i path ih =>
    intro pl hp d hw
    simp only [Spec.walk] at hw
    split at hw
    · cases hw
    · rename_i x hx
      split at hw
      · cases hw
      · rename_i pl' ht
        obtain ⟨q, hq, hqt⟩ := Option.bind_eq_some_iff.mp ht
        unfold Ptr.target at hqt
        split at hqt
        · cases hqt
        · cases hqt
          refine ih (pl := .block q.block) ?_ hw
          intro hsub
          have hmem := List.mem_of_getElem? hq
          cases pl with
          | val v =>
            rcases sub_step h hl hc hsub (l' := .val v) ⟨x, hx, hmem⟩ with h1 | ⟨d', h1, _⟩
            · exact hp h1.symm
            · cases h1
          | self =>
            rcases sub_step h hl hc hsub (l' := .self) ⟨x, hx, hmem⟩ with h1 | ⟨d', h1, _⟩
            · exact hp h1.symm
            · cases h1
          | block b =>
            rcases sub_step h hl hc hsub (l' := .block b) ⟨x, hx, hmem⟩ with h1 | ⟨d', h1, h2⟩
            · exact hl b h1.symm
            · cases h1; exact hp h2

/-- So a box is never put into itself. -/
theorem sub_find (h : Rel e s w) {l : Loc} (hl : ∀ b, l ≠ .block b) {c : Nat} (hc : Holds s l ⟨.own, c⟩) {root : Root} (hroot : match root with | .val v => l ≠ .val v | .ptr p => l ≠ .ptr p | .self => l ≠ .self)
    {path : List Nat} {d : Nat} {x : Value} (hf : s.find root path = some (.block d, x)) : ¬ Sub s c d := by
  unfold Spec.find at hf
  split at hf
  · cases hf
  · rename_i pl hs
    split at hf
    · cases hf
    · rename_i pl' hw
      obtain ⟨y, _, hy⟩ := Option.map_eq_some_iff.mp hf
      simp only [Prod.mk.injEq] at hy
      obtain ⟨rfl, rfl⟩ := hy
      refine sub_walk h hl hc path (pl := pl) ?_ hw
      cases root with
      | val v => cases hs; exact hroot
      | self => cases hs; exact hroot
      | ptr p =>
        obtain ⟨q, hq, hqt⟩ := Option.bind_eq_some_iff.mp hs
        unfold Ptr.target at hqt
        split at hqt
        · cases hqt
        · cases hqt
          intro hsub
          rcases sub_step h hl hc hsub (l' := .ptr p) hq with h1 | ⟨d', h1, _⟩
          · exact hroot h1.symm
          · cases h1

def NoCycle (s : Spec) : Prop := ∀ b, ¬ Relation.TransGen (s.Edge .own) b b

/-- No new boxes in blocks. -/
theorem NoCycle.of {s' : Spec} (h : NoCycle s) (hs : ∀ b v, var s'.blocks b = some v → ∃ v', var s.blocks b = some v' ∧ ∀ c, (⟨.own, c⟩ : Ptr) ∈ v.fields → ⟨.own, c⟩ ∈ v'.fields) : NoCycle s' := by
  intro b hb
  refine h b (Relation.TransGen.mono (r := s'.Edge .own) (fun x y hxy => ?_) b b hb)
  revert x y hxy
  rintro x y ⟨v, hv, hm⟩
  obtain ⟨v', h1, h2⟩ := hs x v hv
  exact ⟨v', h1, h2 y hm⟩

/-- Another value in block `d`. -/
theorem NoCycle.set {s' : Spec} (h : NoCycle s) {d : Nat} {y : Value} (hb : s'.blocks = s.blocks.set d (some y)) (hd : ∀ c, (⟨.own, c⟩ : Ptr) ∈ y.fields → s.Edge .own d c ∨ ¬ Sub s c d) : NoCycle s' := by
  refine acyclic_add (d := d) h ?_
  rintro a c ⟨v, hv, hm⟩ hn
  rw [hb] at hv
  by_cases ha : a = d
  · subst ha
    refine ⟨rfl, ?_⟩
    by_cases hlt : a < s.blocks.length
    · rw [var_set_self hlt] at hv
      cases hv
      exact (hd c hm).resolve_left hn
    · rw [List.set_eq_of_length_le (by omega)] at hv
      exact absurd (var_lt hv) hlt
  · rw [var_set_ne (fun hc => ha hc.symm)] at hv
    exact absurd ⟨v, hv, hm⟩ hn

theorem NoCycle.same {s' : Spec} (h : NoCycle s) (hb : s'.blocks = s.blocks) : NoCycle s' := h.of fun b v hv => ⟨v, by rw [← hb]; exact hv, fun _ hm => hm⟩
theorem NoCycle.less {s' : Spec} {b : Nat} (h : NoCycle s) (hb : s'.blocks = s.blocks.set b none) : NoCycle s' := h.of fun c v hv => by
  rw [hb] at hv
  exact ⟨v, (Linked.var_set_none hv).2, fun _ hm => hm⟩

theorem put_blocks (s : Spec) (y : Value) (pl : Place) : (s.put y pl).blocks = match pl with | .block b => s.blocks.set b (some y) | _ => s.blocks := by
  cases pl with
  | self => simp only [Spec.put]; split <;> rfl
  | _ => rfl

theorem NoCycle.put {s' : Spec} (h : NoCycle s) {pl : Place} {y : Value} (hb : s'.blocks = s.blocks) (hd : ∀ d, pl = .block d → ∀ c, (⟨.own, c⟩ : Ptr) ∈ y.fields → s.Edge .own d c ∨ ¬ Sub s c d) : NoCycle (s'.put y pl) := by
  have hp := put_blocks s' y pl
  cases pl with
  | self => exact h.same (hp.trans hb)
  | val v => exact h.same (hp.trans hb)
  | block d =>
    simp only [hb] at hp
    exact h.set hp (hd d rfl)

theorem no_sub (h : Rel e s w) {c d : Nat} {k : Kind} (hk : k ≠ .own) (hd : (⟨k, d⟩ : Ptr) ∈ s.pointers) (hc : (⟨.own, c⟩ : Ptr) ∈ s.pointers) : ¬ Sub s c d := by
  intro hs
  cases hs with
  | refl => exact hk (own_excl h hc hd)
  | tail _ he => exact hk (own_excl h (Holds.mem (l := .block _) he) hd)

theorem cycle_resume (h : NoCycle s) (fs : List Frame) : ∀ (u : Bool), NoCycle (s.resume u fs).2 := by
  induction fs with
  | nil => intro u; exact h
  | cons f fs ih =>
    intro u
    cases f with
    | body v o w => exact h
    | rest ps o w =>
      simp only [Spec.resume]
      cases hn : Spec.next { s with stack := fs } ps with
      | none => exact ih (u || w)
      | some q => exact h.less rfl

theorem cycle_place {slab : Slab} (hr : Rel e s w) (h : NoCycle s) {v : Nat} {L : Layout} {k : Kind} : NoCycle (s.place slab v L k).2 := by
  unfold Spec.place
  split
  · exact h
  · rename_i x hx
    split
    · exact h.same rfl
    · have h1 : NoCycle { s with blocks := s.blocks ++ [none] } := h.of fun b v hv => by
        have hlt : b < s.blocks.length := by
          have := var_lt hv
          simp only [List.length_append, List.length_singleton] at this
          refine Classical.byContradiction fun hn => ?_
          have : b = s.blocks.length := by omega
          subst this
          unfold var at hv
          simp at hv
        simp only at hv
        rw [var_append_lt hlt] at hv
        exact ⟨v, hv, fun _ hm => hm⟩
      refine NoCycle.set (d := s.blocks.length) (y := x) h1 (by simp [Spec.add]) fun c hc => .inr ?_
      have hmem : (⟨.own, c⟩ : Ptr) ∈ s.pointers := Holds.mem (l := .val v) ⟨x, hx, hc⟩
      intro hsub
      have hin : ∀ {a b}, Spec.Edge { s with blocks := s.blocks ++ [none] } .own a b → b < s.blocks.length := by
        rintro a b ⟨y, hy, hm⟩
        have hya : var s.blocks a = some y := by
          have hlt := var_lt hy
          simp only [List.length_append, List.length_singleton] at hlt
          by_cases ha : a < s.blocks.length
          · rw [← hy]; exact (var_append_lt ha).symm
          · have : a = s.blocks.length := by omega
            subst this
            unfold var at hy
            simp at hy
        exact hr.inv.lt _ (Holds.mem (l := .block a) ⟨y, hya, hm⟩)
      cases hsub with
      | refl => exact Nat.lt_irrefl _ (hr.inv.lt _ hmem)
      | tail _ he => exact Nat.lt_irrefl _ (hin he)

theorem cycle_exec {slab : Slab} (hr : Rel e s w) (h : NoCycle s) (op : Op) : NoCycle (s.exec slab op).2 := by
  cases op with
  | box v L => exact cycle_place hr h
  | rc v L => exact cycle_place hr h
  | push root path k =>
    simp only [Spec.exec]
    split
    · rename_i pl x q hx hq
      have hroot : root ≠ .ptr k := by intro hc; rw [if_pos hc] at hq; cases hq
      rw [if_neg hroot] at hq
      refine h.put rfl ?_
      rintro d rfl c hc
      rcases List.mem_append.mp hc with hc | hc
      · exact .inl ⟨x, find_at hx, hc⟩
      · rw [List.mem_singleton] at hc
        subst hc
        refine .inr (sub_find hr (l := .ptr k) (by intro b; simp) hq ?_ hx)
        cases root with
        | ptr p => intro hc; cases hc; exact hroot rfl
        | val v => simp
        | self => simp
    · exact h
  | pull root path i =>
    simp only [Spec.exec]
    split
    · exact h
    · rename_i pl x hx
      split
      · exact h
      · refine NoCycle.same (s := s.put { x with fields := x.fields.eraseIdx i } pl) (h.put rfl ?_) rfl
        rintro d rfl c hc
        exact .inl ⟨x, find_at hx, List.mem_of_mem_eraseIdx hc⟩
  | swap root path v =>
    simp only [Spec.exec]
    split
    · exact h
    · rename_i hroot
      split
      · exact h
      · rename_i pl x y hns hx hy
        refine h.put rfl ?_
        rintro d rfl c hc
        refine .inr (sub_find hr (l := .val v) (by intro b; simp) ⟨y, hy, hc⟩ ?_ hx)
        cases root with
        | ptr p => simp
        | val u => intro hc; cases hc; exact hroot rfl
        | self => simp
      · exact h
  | getMut p v =>
    simp only [Spec.exec]
    split
    · rename_i b y hp hy
      split
      · exact h
      · rename_i x hx
        split
        · exact h.set rfl fun c hc => .inr (no_sub hr (k := .strong) (by decide) (mem_ptrs (ofKind_some hp)) (Holds.mem (l := .val v) ⟨y, hy, hc⟩))
        · exact h
    · exact h
  | take p =>
    simp only [Spec.exec]
    repeat' split
    all_goals first | exact h | exact h.less rfl
  | tryUnwrap p =>
    simp only [Spec.exec]
    repeat' split
    all_goals first | exact h | exact h.less rfl
  | recycle p v =>
    simp only [Spec.exec]
    split
    · rename_i b y hp hy
      split
      · exact h.set rfl fun c hc => .inr (no_sub hr (k := .weak) (by decide) (mem_ptrs (ofKind_some hp)) (Holds.mem (l := .val v) ⟨y, hy, hc⟩))
      · exact h
    · exact h
  | dropPtr p =>
    simp only [Spec.exec]
    repeat' split
    all_goals first | exact h | exact h.less rfl
  | endDrop panics =>
    simp only [Spec.exec]
    split
    · split
      · exact h
      · exact cycle_resume h _ _
    · exact h
  | _ =>
    simp only [Spec.exec]
    repeat' split
    all_goals exact h

theorem NoCycle.init (l : Nat) : NoCycle (Spec.init l) := by
  have key : ∀ b c, ¬ (Spec.init l).Edge .own b c := by
    rintro b c ⟨v, hv, _⟩
    simp [Spec.init, var] at hv
  intro b hb
  cases hb with
  | single h => exact key _ _ h
  | tail _ h => exact key _ _ h

theorem cycle_run (hv : e.Valid) (ops : List Op) : ∀ {s : Spec} {w : World}, (∀ op ∈ ops, op.Valid e.target) → Rel e s w → s.FewRun e.target e.slab ops → s.AllowedRun e.slab ops → NoCycle s → NoCycle (s.run e.slab ops).2 := by
  induction ops with
  | nil => intro s w _ _ _ _ h; exact h
  | cons op ops ih =>
    intro s w ho h hf ha hi
    obtain ⟨w1, _, h2⟩ := ref_exec (checks := false) hv h hf.1 (ho op (by simp)) ha.1
    have h3 := cycle_exec (slab := e.slab) h hi op
    simp only [Spec.run]
    cases hab : (s.exec e.slab op).2.aborted with
    | true => simpa using h3
    | false => simpa using ih (fun o hm => ho o (by simp [hm])) h2 (hf.2 hab) (ha.2 hab) h3

/-- A way by boxes only, or there is an `Rc` on it. -/
theorem path_cases {b c : Nat} (h : s.Path b c) : Relation.TransGen (s.Edge .own) b c ∨ ∃ x y, s.Edge .strong x y ∧ (b = x ∨ s.Path b x) ∧ (y = c ∨ s.Path y c) := by
  induction h with
  | one hk he =>
    rename_i k b c
    cases k with
    | own => exact .inl (.single he)
    | strong => exact .inr ⟨b, c, he, .inl rfl, .inl rfl⟩
    | weak => exact absurd rfl hk
  | more hk he hp ih =>
    rename_i k b c d
    cases k with
    | weak => exact absurd rfl hk
    | strong => exact .inr ⟨b, c, he, .inl rfl, .inr hp⟩
    | own =>
      rcases ih with ih | ⟨x, y, h1, h2, h3⟩
      · exact .inl (.head he ih)
      · refine .inr ⟨x, y, h1, .inr ?_, h3⟩
        rcases h2 with rfl | h2
        · exact .one hk he
        · exact .more hk he h2

end Verif.Mixed
