import Verif.Proofs.GlobalLocal
import Verif.Spec.GlobalContents
/-! # What a call of the global allocator has written when it returns -/
set_option autoImplicit false
namespace Verif.Bump.Conc
open MM Verif.AllocTraits
variable {e : Env}

/-- The call that runs was started at `i0`, and no other one. -/
def Only (xs : List GAct) (i0 k : Nat) : Prop := ∀ i op, i < k → xs[i]? = some (.invoke op) → NoRet xs i k → i = i0

/-- The method of `Bump` was called at `j`. -/
def RunsL (xs : List GAct) (j k : Nat) (call : Call) : Prop := j < k ∧ xs[j]? = some (.bump (.invoke call)) ∧ ∀ i c, j < i → i < k → xs[i]? ≠ some (.bump (.invoke c))

/-- The memory was granted at `g`, in this call. -/
def GAt (xs : List GAct) (g k : Nat) (reg : Region) : Prop := g < k ∧ (∃ call r, xs[g]? = some (.bump (.ret call r)) ∧ grant call r = some reg) ∧ NoRet xs g k

/-- Since `g` the bytes from `p` to `p + i` were written, each of them once, and nothing else. -/
def Did (xs : List GAct) (g k p i : Nat) (S : Nat → Nat → Byte → Prop) : Prop :=
  (∀ j q v, g < j → j < k → xs[j]? = some (.write q v) → q < p + i) ∧
  ∀ o, o < i → ∃ j v, g < j ∧ j < k ∧ xs[j]? = some (.write (p + o) v) ∧ S j o v ∧ ∀ j' v', g < j' → j' < k → xs[j']? = some (.write (p + o) v') → j' = j

def Zeroes (_ _ : Nat) (v : Byte) : Prop := v = 0
def Copies (xs : List GAct) (i0 src j o : Nat) (v : Byte) : Prop := ∃ j0, i0 < j0 ∧ j0 < j ∧ xs[j0]? = some (.read (src + o) v)

/-- In a method of `Bump`. -/
def Inn (xs : List GAct) (k : Nat) (p : Bump.Pc) : Prop :=
  (∀ call, p.call = some call → ∃ j, RunsL xs j k call) ∧
  ∀ call r reg bytes, p = .ret call r → grant call r = some reg → call.value = some bytes → ∃ j kw, RunsL xs j kw call ∧ kw < k ∧ xs[kw]? = some (.bump (.write ⟨reg.start, bytes.length⟩))

theorem RunsL.succ {xs : List GAct} {j k : Nat} {call : Call} (h : RunsL xs j k call) {x : GAct} (hk : xs[k]? = some x) (hx : ∀ c, x ≠ .bump (.invoke c)) : RunsL xs j (k + 1) call := by
  refine ⟨by have := h.1; omega, h.2.1, fun i c h1 h2 h3 => ?_⟩
  rcases Nat.lt_succ_iff_lt_or_eq.mp h2 with h2 | rfl
  · exact h.2.2 i c h1 h2 h3
  · rw [hk] at h3; cases h3; exact hx _ rfl

theorem grant_onErr (call : Call) (f : Failure) : grant call (onErr call f) = none := by
  cases call <;> simp only [grant, onErr, Call.layout] <;> split <;> rfl

theorem grant_panicked (call : Call) : grant call .panicked = none := by
  cases call <;> simp only [grant, Call.layout] <;> split <;> rfl

/-- Nothing is left to do if memory is returned: if there is a value then it is written. -/
theorem lnext_value {p q : Bump.Pc} {x : Act} (h : lnext e p x = some q) (hc : ∀ c r, x ≠ .ret c r) {call : Call} {r : Ret} {reg : Region} {bytes : List Byte}
    (hq : q = .ret call r) (hg : grant call r = some reg) (hb : call.value = some bytes) : x = .write ⟨reg.start, bytes.length⟩ := by
  have hok : ∀ c a, onOk c a ≠ .ret call r := by
    intro c a h; cases c <;> simp only [onOk, reduceCtorEq, Bump.Pc.ret.injEq] at h <;> obtain ⟨rfl, h2⟩ := h <;> simp [Call.value] at hb
  have herr : ∀ c f, ¬ (c = call ∧ onErr c f = r) := by rintro c f ⟨rfl, rfl⟩; rw [grant_onErr] at hg; cases hg
  have hpan : ∀ c, ¬ (c = call ∧ Ret.panicked = r) := by rintro c ⟨rfl, rfl⟩; rw [grant_panicked] at hg; cases hg
  subst hq
  cases p <;> cases x <;> simp only [lnext, reduceCtorEq, Option.some.injEq] at h
  case idle.invoke c => cases c <;> simp only [enter] at h <;> (try split at h) <;> cases h
  case attempt.compute c l retry guess =>
    split at h <;> simp only [Option.some.injEq, reduceCtorEq, Bump.Pc.ret.injEq] at h
    · exact absurd h (herr _ _)
    · exact absurd h (hpan _)
  case cas.cas c l retry expect at_ new expect' new' seen =>
    split at h
    · split at h
      · split at h <;> simp only [Option.some.injEq] at h
        · exact absurd h (hok _ _)
        · rw [Bump.Pc.ret.injEq] at h; exact absurd h (hpan _)
      · split at h <;> simp only [Option.some.injEq, reduceCtorEq, Bump.Pc.ret.injEq] at h
        exact absurd h (herr _ _)
    · cases h
  case load.load c v =>
    have hz : ∀ V ex, onZst e c V ex v ≠ .ret call r := by
      intro V ex h
      simp only [onZst] at h
      split at h
      · rw [Bump.Pc.ret.injEq] at h; exact hpan _ h
      · split at h
        · exact hok _ _ h
        · split at h
          · rw [Bump.Pc.ret.injEq] at h; exact herr _ _ h
          · exact hok _ _ h
    cases c <;> simp only [onLoad] at h <;> (try exact absurd h (hz _ _)) <;> rw [Bump.Pc.ret.injEq] at h
    all_goals first | exact absurd h (hpan _) | (obtain ⟨rfl, _⟩ := h; simp [Call.value] at hb)
  case write.write c a rg =>
    split at h <;> simp only [Option.some.injEq, reduceCtorEq, Bump.Pc.ret.injEq] at h
    rename_i hr
    obtain ⟨rfl, rfl⟩ := h
    subst hr
    cases c <;> simp only [Call.value, reduceCtorEq, Option.some.injEq] at hb <;> subst hb <;> simp only [grant, Call.layout, afterWrite] at hg <;> split at hg <;> cases hg <;> rfl
  case ret.ret => exact absurd rfl (hc _ _)

theorem inn_next {xs : List GAct} {k : Nat} {p q : Bump.Pc} {x : Act} (hk : xs[k]? = some (.bump x)) (hp : Inn xs k p) (hc : ∀ c r, x ≠ .ret c r) (h : lnext e p x = some q) : Inn xs (k + 1) q := by
  have h0 : ∀ call, q.call = some call → ∃ j, RunsL xs j (k + 1) call := by
    intro call hq
    cases hpc : p.call with
    | none =>
      cases p <;> simp only [Bump.Pc.call, reduceCtorEq] at hpc
      cases x <;> simp only [lnext, reduceCtorEq, Option.some.injEq] at h
      subst h
      rw [ConcBoxes.enter_call] at hq
      cases hq
      exact ⟨k, by omega, hk, fun i c h1 h2 => by omega⟩
    | some c =>
      have := lnext_call hpc hc h
      rw [hq] at this
      cases this
      obtain ⟨j, hj⟩ := hp.1 _ hpc
      refine ⟨j, hj.succ hk fun c' heq => ?_⟩
      cases heq
      cases p <;> simp only [lnext, reduceCtorEq] at h <;> simp [Bump.Pc.call] at hpc
  refine ⟨h0, fun call r reg bytes hq hg hb => ?_⟩
  have hx := lnext_value h hc hq hg hb
  subst hx
  cases hpc : p.call with
  | none => cases p <;> simp only [Bump.Pc.call, reduceCtorEq] at hpc; simp only [lnext, reduceCtorEq] at h
  | some c =>
    have := lnext_call hpc hc h
    rw [hq] at this
    simp only [Bump.Pc.call, Option.some.injEq] at this
    subst this
    obtain ⟨j, hj⟩ := hp.1 _ hpc
    exact ⟨j, k, hj, by omega, hk⟩

/-! ## The methods of the allocator -/

/-- What the call has done when it returns. -/
def Fin (xs : List GAct) (i0 k : Nat) : Op → Res → Prop
  | .allocZeroed l, .ptr p => p ≠ 0 → ∃ g, GAt xs g k ⟨p, l.size⟩ ∧ Did xs g k p l.size Zeroes
  | .realloc b ns, .ptr p => p ≠ 0 → (p = b.ptr ∧ ns ≤ b.layout.size) ∨ ∃ g, GAt xs g k ⟨p, ns⟩ ∧ Did xs g k p (min ns b.layout.size) (Copies xs i0 b.ptr)
  | .api call, .api r => ∀ reg bytes, grant call r = some reg → call.value = some bytes →
      ∃ g j kw, k = g + 1 ∧ xs[g]? = some (.bump (.ret call r)) ∧ kw < g ∧ RunsL xs j kw call ∧ xs[kw]? = some (.bump (.write ⟨reg.start, bytes.length⟩))
  | _, _ => True

/-- What is known after `k` actions, in a call that was started at `i0`. -/
def Tr2 (xs : List GAct) (i0 k : Nat) (l : Loc) : Prop :=
  match l.pc with
  | .idle => True
  | .start _ => True
  | .inner _ => True
  | .zero lay p i => i ≤ lay.size ∧ ∃ g, GAt xs g k ⟨p, lay.size⟩ ∧ Did xs g k p i Zeroes
  | .copy b ns dst i => i ≤ min ns b.layout.size ∧ (∃ g, GAt xs g k ⟨dst, ns⟩ ∧ Did xs g k dst i (Copies xs i0 b.ptr)) ∧ ∀ v, l.held = some v → i < min ns b.layout.size ∧ ∃ j0, i0 < j0 ∧ j0 < k ∧ xs[j0]? = some (.read (b.ptr + i) v)
  | .ret op r => Fin xs i0 k op r

def Tr3 (xs : List GAct) (k : Nat) (l : Loc) : Prop :=
  (l.pc = .idle → ∀ i op, i < k → xs[i]? = some (.invoke op) → ¬ NoRet xs i k) ∧
  ((∀ op, l.pc ≠ .inner op) → l.inner = .idle) ∧ Inn xs k l.inner ∧
  (l.pc ≠ .idle → ∃ i0, i0 < k ∧ Only xs i0 k ∧ Tr2 xs i0 k l)

theorem NoRet.pred {xs : List GAct} {i k : Nat} (h : NoRet xs i (k + 1)) : NoRet xs i k := fun j op r h1 h2 => h j op r h1 (by omega)

theorem Only.succ {xs : List GAct} {i0 k : Nat} (h : Only xs i0 k) {x : GAct} (hk : xs[k]? = some x) (hx : ∀ op, x ≠ .invoke op) : Only xs i0 (k + 1) := by
  intro i op h1 h2 h3
  rcases Nat.lt_succ_iff_lt_or_eq.mp h1 with h1 | rfl
  · exact h i op h1 h2 h3.pred
  · rw [hk] at h2; cases h2; exact absurd rfl (hx _)

theorem GAt.succ {xs : List GAct} {g k : Nat} {reg : Region} (h : GAt xs g k reg) {x : GAct} (hk : xs[k]? = some x) (hx : ∀ op r, x ≠ .ret op r) : GAt xs g (k + 1) reg :=
  ⟨by have := h.1; omega, h.2.1, h.2.2.succ hk hx⟩

theorem Did.succ {xs : List GAct} {g k p i : Nat} {S : Nat → Nat → Byte → Prop} (h : Did xs g k p i S) {x : GAct} (hk : xs[k]? = some x) (hx : ∀ q v, x ≠ .write q v) : Did xs g (k + 1) p i S := by
  have hne : ∀ j q v, j < k + 1 → xs[j]? = some (.write q v) → j < k := by
    intro j q v h1 h2
    rcases Nat.lt_succ_iff_lt_or_eq.mp h1 with h1 | rfl
    · exact h1
    · rw [hk] at h2; cases h2; exact absurd rfl (hx _ _)
  refine ⟨fun j q v h1 h2 h3 => h.1 j q v h1 (hne _ _ _ h2 h3) h3, fun o ho => ?_⟩
  obtain ⟨j, v, h1, h2, h3, h4, h5⟩ := h.2 o ho
  exact ⟨j, v, h1, by omega, h3, h4, fun j' v' k1 k2 k3 => h5 j' v' k1 (hne _ _ _ k2 k3) k3⟩

theorem Did.write {xs : List GAct} {g k p i : Nat} {S : Nat → Nat → Byte → Prop} (h : Did xs g k p i S) {v : Byte} (hk : xs[k]? = some (.write (p + i) v)) (hg : g < k) (hS : S k i v) : Did xs g (k + 1) p (i + 1) S := by
  refine ⟨fun j q v h1 h2 h3 => ?_, fun o ho => ?_⟩
  · rcases Nat.lt_succ_iff_lt_or_eq.mp h2 with h2 | rfl
    · have := h.1 j q v h1 h2 h3; omega
    · rw [hk] at h3; cases h3; omega
  · rcases Nat.lt_succ_iff_lt_or_eq.mp ho with ho | rfl
    · obtain ⟨j, v, h1, h2, h3, h4, h5⟩ := h.2 o ho
      refine ⟨j, v, h1, by omega, h3, h4, fun j' v' k1 k2 k3 => ?_⟩
      rcases Nat.lt_succ_iff_lt_or_eq.mp k2 with k2 | rfl
      · exact h5 j' v' k1 k2 k3
      · rw [hk] at k3; simp only [Option.some.injEq, GAct.write.injEq] at k3; omega
    · refine ⟨k, v, hg, by omega, hk, hS, fun j' v' k1 k2 k3 => ?_⟩
      rcases Nat.lt_succ_iff_lt_or_eq.mp k2 with k2 | rfl
      · have := h.1 j' _ v' k1 k2 k3; omega
      · rfl

theorem Did.zero (xs : List GAct) (k p : Nat) (S : Nat → Nat → Byte → Prop) : Did xs k (k + 1) p 0 S := ⟨fun j q v h1 h2 => by omega, fun o ho => by omega⟩

theorem tr2_resume {xs : List GAct} {k i0 : Nat} {l : Loc} {op : Op} {call : Call} {r : Ret} (hv : op.Valid e.target) (hi : Inn xs k (.ret call r)) (hs : start e op = .ret (.inl call)) (hk : xs[k]? = some (.bump (.ret call r)))
    (hpc : l.pc = resume op r) (hh : l.held = none) : Tr2 xs i0 (k + 1) l := by
  have hg : ∀ reg, grant call r = some reg → GAt xs k (k + 1) reg := fun reg h => ⟨by omega, ⟨call, r, hk, h⟩, NoRet.start _ _⟩
  simp only [Tr2, hpc]
  cases op with
  | alloc lay => cases r <;> simp only [resume, Fin]
  | allocZeroed lay =>
    cases hs
    cases r <;> simp only [resume]
    case ptr p =>
      by_cases hp : p = 0
      · simp [hp, Fin]
      · simp only [ne_eq, hp, not_false_eq_true, if_true]
        exact ⟨Nat.zero_le _, k, hg _ (by simp only [grant, Call.layout, if_neg (Nat.pos_iff_ne_zero.mp hv.2)]), Did.zero _ _ _ _⟩
    all_goals simp [Fin]
  | realloc b ns =>
    have hcall : call = .getLayout ⟨ns, b.layout.align⟩ := by
      rcases start_realloc' e b ns with h | h | ⟨h, _⟩ | ⟨h, _⟩ <;> rw [h] at hs <;> cases hs; rfl
    subst hcall
    have h0 : 0 < ns := hv
    cases r <;> simp only [resume]
    case allocation a =>
      by_cases hov : min ns b.layout.size = 0 ∨ b.ptr + min ns b.layout.size ≤ a.ptr ∨ a.ptr + min ns b.layout.size ≤ b.ptr
      · rw [if_pos hov]
        exact ⟨Nat.zero_le _, ⟨k, hg ⟨a.ptr, ns⟩ (by simp only [grant, Call.layout, if_neg (Nat.pos_iff_ne_zero.mp h0)]), Did.zero _ _ _ _⟩, by simp [hh]⟩
      · rw [if_neg hov]
        simp [Fin]
    all_goals simp [Fin]
  | dealloc b => cases hs
  | api call' =>
    cases hs
    simp only [resume, Fin]
    intro reg bytes h1 h2
    obtain ⟨j, kw, h3, h4, h5⟩ := hi.2 _ _ _ _ rfl h1 h2
    exact ⟨k, j, kw, rfl, hk, h4, h3, h5⟩

theorem Inn.succ {xs : List GAct} {k : Nat} {p : Bump.Pc} (h : Inn xs k p) {x : GAct} (hk : xs[k]? = some x) (hx : ∀ c, x ≠ .bump (.invoke c)) : Inn xs (k + 1) p :=
  ⟨fun call hc => let ⟨j, hj⟩ := h.1 call hc; ⟨j, hj.succ hk hx⟩, fun call r reg bytes h1 h2 h3 => let ⟨j, kw, k1, k2, k3⟩ := h.2 call r reg bytes h1 h2 h3; ⟨j, kw, k1, by omega, k3⟩⟩

theorem Inn.idle (xs : List GAct) (k : Nat) : Inn xs k .idle := ⟨fun _ h => by simp [Bump.Pc.call] at h, fun _ _ _ _ h => by cases h⟩

theorem tr3_next {xs : List GAct} {k : Nat} {l m : Loc} {x : GAct} (hv : ∀ op, GAct.invoke op ∈ xs → op.Valid e.target) (hk : xs[k]? = some x) (hh : (∀ b ns d i, l.pc ≠ .copy b ns d i) → l.held = none)
    (ht1 : Tr e xs k l) (ht : Tr3 xs k l) (h : gnext e l x = some m) : Tr3 xs (k + 1) m := by
  obtain ⟨hid, hin, hinn, hnid⟩ := ht
  simp only [gnext] at h
  have hidle : ∀ i op, (∀ op, x ≠ .invoke op) → (∀ i op, i < k → xs[i]? = some (.invoke op) → ¬ NoRet xs i k) → i < k + 1 → xs[i]? = some (.invoke op) → ¬ NoRet xs i (k + 1) := by
    intro i op hx h0 h1 h2 h3
    rcases Nat.lt_succ_iff_lt_or_eq.mp h1 with h1 | rfl
    · exact h0 i op h1 h2 h3.pred
    · rw [hk] at h2; cases h2; exact hx _ rfl
  split at h
  case h_1 hpc =>
    cases h
    have h1 := hin (by rw [hpc]; simp)
    refine ⟨by simp, fun _ => h1, by simp only [h1]; exact Inn.idle _ _, fun _ => ⟨k, by omega, fun i op h2 h3 h4 => ?_, trivial⟩⟩
    rcases Nat.lt_succ_iff_lt_or_eq.mp h2 with h2 | rfl
    · exact absurd h4.pred (hid hpc i op h2 h3)
    · rfl
  case h_2 hpc => cases h; exact ⟨fun h i op => hidle i op (by simp) (hid h), hin, hinn.succ hk (by simp), fun h => absurd hpc h⟩
  case h_3 hpc => cases h; exact ⟨fun h i op => hidle i op (by simp) (hid h), hin, hinn.succ hk (by simp), fun h => absurd hpc h⟩
  case h_4 hpc => cases h; exact ⟨fun h i op => hidle i op (by simp) (hid h), hin, hinn.succ hk (by simp), fun h => absurd hpc h⟩
  case h_5 op call hpc =>
    obtain ⟨i0, k1, k2, -⟩ := hnid (by rw [hpc]; simp)
    split at h
    · simp only [Option.map_eq_some_iff] at h
      obtain ⟨q, hq, rfl⟩ := h
      exact ⟨by simp, fun h => absurd rfl (h _), inn_next hk hinn (by simp) hq, fun _ => ⟨i0, by omega, k2.succ hk (by simp), trivial⟩⟩
    · cases h
  case h_6 op hpc =>
    obtain ⟨i0, k1, k2, -⟩ := hnid (by rw [hpc]; simp)
    have h1 := hin (by rw [hpc]; simp)
    have key : ∀ r, Fin xs i0 (k + 1) op r → Tr3 xs (k + 1) { l with pc := .ret op r } := fun r hr =>
      ⟨by simp, fun _ => h1, by simp only [h1]; exact Inn.idle _ _, fun _ => ⟨i0, by omega, k2.succ hk (by simp), hr⟩⟩
    cases op with
    | alloc lay => simp only [start, pure] at h; cases h
    | allocZeroed lay => simp only [start, pure] at h; cases h
    | api call => simp only [start, pure] at h; cases h
    | dealloc b => simp only [start, pure] at h; cases h; exact key _ trivial
    | realloc b ns =>
      rcases start_realloc' e b ns with hs | hs | ⟨hs, hle⟩ | ⟨hs, _⟩ <;> rw [hs] at h <;> cases h
      · exact key _ trivial
      · exact key _ fun h => absurd rfl h
      · exact key _ fun _ => .inl ⟨rfl, hle⟩
  case h_7 op call r hpc =>
    obtain ⟨i0, k1, k2, -⟩ := hnid (by rw [hpc]; simp)
    simp only [Option.map_eq_some_iff] at h
    obtain ⟨q, hq, rfl⟩ := h
    simp only [Tr, hpc] at ht1
    obtain ⟨⟨i, -, hi2, -⟩, call', h2, h3⟩ := ht1
    have := lnext_ret h3 hq
    subst this
    have hpi : l.inner = .ret call r ∧ q = .idle := by
      cases hi : l.inner <;> simp only [hi, lnext, reduceCtorEq] at hq
      split at hq <;> cases hq
      rename_i hc
      rw [hc.1, hc.2]
      exact ⟨rfl, rfl⟩
    rw [hpi.1] at hinn
    refine ⟨fun h => ?_, fun _ => hpi.2, by simp only [hpi.2]; exact Inn.idle _ _, fun _ => ⟨i0, by omega, k2.succ hk (by simp), ?_⟩⟩
    · simp only at h
      cases op <;> cases r <;> simp only [resume, reduceCtorEq] at h <;> split at h <;> cases h
    · exact tr2_resume (hv op (List.mem_of_getElem? hi2)) hinn h2 hk rfl (hh (by rw [hpc]; simp))
  case h_8 op x hx hpc =>
    obtain ⟨i0, k1, k2, -⟩ := hnid (by rw [hpc]; simp)
    simp only [Option.map_eq_some_iff] at h
    obtain ⟨q, hq, rfl⟩ := h
    refine ⟨(fun h => by rw [hpc] at h; cases h), fun h => absurd hpc (h _), inn_next hk hinn hx hq, fun _ => ⟨i0, by omega, k2.succ hk (by simp), by simp only [Tr2, hpc]⟩⟩
  case h_9 lay p i q v hpc =>
    obtain ⟨i0, k1, k2, k3⟩ := hnid (by rw [hpc]; simp)
    have h1 := hin (by rw [hpc]; simp)
    simp only [Tr2, hpc] at k3
    obtain ⟨k3, g, k4, k5⟩ := k3
    split at h <;> cases h
    rename_i hc
    obtain ⟨hc1, rfl, rfl⟩ := hc
    exact ⟨by simp, fun _ => h1, by simp only [h1]; exact Inn.idle _ _, fun _ => ⟨i0, by omega, k2.succ hk (by simp), hc1, g, k4.succ hk (by simp), k5.write hk k4.1 rfl⟩⟩
  case h_10 lay p i hpc =>
    obtain ⟨i0, k1, k2, k3⟩ := hnid (by rw [hpc]; simp)
    have h1 := hin (by rw [hpc]; simp)
    simp only [Tr2, hpc] at k3
    obtain ⟨k3, g, k4, k5⟩ := k3
    split at h <;> cases h
    rename_i hc
    have : i = lay.size := by omega
    subst this
    exact ⟨by simp, fun _ => h1, by simp only [h1]; exact Inn.idle _ _, fun _ => ⟨i0, by omega, k2.succ hk (by simp), fun _ => ⟨g, k4.succ hk (by simp), k5.succ hk (by simp)⟩⟩⟩
  case h_11 b ns d i q v hpc =>
    obtain ⟨i0, k1, k2, k3⟩ := hnid (by rw [hpc]; simp)
    have h1 := hin (by rw [hpc]; simp)
    simp only [Tr2, hpc] at k3
    obtain ⟨k3, ⟨g, k4, k5⟩, k6⟩ := k3
    split at h <;> cases h
    rename_i hc
    obtain ⟨hc1, hc2, rfl⟩ := hc
    refine ⟨(fun h => by simp only [hpc] at h; cases h), fun _ => h1, by simp only [h1]; exact Inn.idle _ _, fun _ => ⟨i0, by omega, k2.succ hk (by simp), ?_⟩⟩
    simp only [Tr2, hpc]
    exact ⟨k3, ⟨g, k4.succ hk (by simp), k5.succ hk (by simp)⟩, fun v' hv' => ⟨hc2, k, k1, by omega, by cases hv'; exact hk⟩⟩
  case h_12 b ns d i q v hpc =>
    obtain ⟨i0, k1, k2, k3⟩ := hnid (by rw [hpc]; simp)
    have h1 := hin (by rw [hpc]; simp)
    simp only [Tr2, hpc] at k3
    obtain ⟨k3, ⟨g, k4, k5⟩, k6⟩ := k3
    split at h <;> cases h
    rename_i hc
    obtain ⟨hc1, rfl⟩ := hc
    obtain ⟨k7, j0, k8, k9, k10⟩ := k6 v hc1
    exact ⟨by simp, fun _ => h1, by simp only [h1]; exact Inn.idle _ _, fun _ => ⟨i0, by omega, k2.succ hk (by simp), k7, ⟨g, k4.succ hk (by simp), k5.write hk k4.1 ⟨j0, k8, k9, k10⟩⟩, by simp⟩⟩
  case h_13 b ns d i hpc =>
    obtain ⟨i0, k1, k2, k3⟩ := hnid (by rw [hpc]; simp)
    have h1 := hin (by rw [hpc]; simp)
    simp only [Tr2, hpc] at k3
    obtain ⟨k3, ⟨g, k4, k5⟩, k6⟩ := k3
    split at h <;> cases h
    rename_i hc
    have : i = min ns b.layout.size := by omega
    subst this
    exact ⟨by simp, fun _ => h1, by simp only [h1]; exact Inn.idle _ _, fun _ => ⟨i0, by omega, k2.succ hk (by simp), fun _ => .inr ⟨g, k4.succ hk (by simp), k5.succ hk (by simp)⟩⟩⟩
  case h_14 op r op' r' hpc =>
    have h1 := hin (by rw [hpc]; simp)
    split at h <;> cases h
    refine ⟨fun _ i op h2 h3 h4 => ?_, fun _ => h1, by simp only [h1]; exact Inn.idle _ _, fun h => absurd rfl h⟩
    rcases Nat.lt_succ_iff_lt_or_eq.mp h2 with h2 | rfl
    · exact h4 k _ _ h2 (by omega) hk
    · rw [hk] at h3; cases h3
  case h_15 => cases h

theorem tr3_at {xs : List GAct} (hv : ∀ op, GAct.invoke op ∈ xs → op.Valid e.target) {l' : Loc} (hr : grun e .start xs = some l') {k : Nat} {x : GAct} (hk : xs[k]? = some x) :
    ∃ l m, gnext e l x = some m ∧ Tr3 xs k l := by
  have hlen : k < xs.length := (List.getElem?_eq_some_iff.mp hk).1
  have key : ∀ j, j ≤ xs.length → ∃ l, grun e .start (xs.take j) = some l ∧ Tr e xs j l ∧ Tr3 xs j l ∧ ((∀ b ns d i, l.pc ≠ .copy b ns d i) → l.held = none) := by
    intro j
    induction j with
    | zero => exact fun _ => ⟨.start, rfl, trivial, ⟨fun _ i _ h => absurd h (Nat.not_lt_zero _), fun _ => rfl, Inn.idle _ _, fun h => absurd rfl h⟩, fun _ => rfl⟩
    | succ j ih =>
      intro hj
      obtain ⟨l, h1, h2, h4, h3⟩ := ih (by omega)
      have hx : xs[j]? = some xs[j] := List.getElem?_eq_getElem (by omega)
      have hsplit : xs = xs.take j ++ xs[j] :: xs.drop (j + 1) := by
        conv => lhs; rw [← List.take_append_drop j xs, List.drop_eq_getElem_cons (by omega : j < xs.length)]
      have hrun := hr
      rw [hsplit, grun_append, h1] at hrun
      simp only [Option.bind_some, grun] at hrun
      cases hn : gnext e l xs[j] with
      | none => rw [hn] at hrun; cases hrun
      | some m =>
        refine ⟨m, ?_, tr_next hv hx h3 h2 hn, tr3_next hv hx h3 h2 h4 hn, held_none h3 hn⟩
        rw [List.take_add_one, hx, grun_append, h1]
        simp only [Option.toList_some, Option.bind_some, grun, hn]
  obtain ⟨l, h1, -, h2, -⟩ := key k (by omega)
  have hsplit : xs = xs.take k ++ xs[k] :: xs.drop (k + 1) := by
    conv => lhs; rw [← List.take_append_drop k xs, List.drop_eq_getElem_cons hlen]
  have hrun := hr
  rw [hsplit, grun_append, h1] at hrun
  simp only [Option.bind_some, grun] at hrun
  rw [List.getElem?_eq_getElem hlen] at hk
  cases hk
  cases hn : gnext e l xs[k] with
  | none => rw [hn] at hrun; cases hrun
  | some m => exact ⟨l, m, hn, h2⟩

/-- What a call has done when it returns. -/
theorem at_fin {xs : List GAct} {k : Nat} (hv : ∀ op, GAct.invoke op ∈ xs → op.Valid e.target) {l' : Loc} (hr : grun e .start xs = some l') {op : Op} {r : Res} (hk : xs[k]? = some (.ret op r)) :
    ∃ i0, i0 < k ∧ Only xs i0 k ∧ Fin xs i0 k op r := by
  obtain ⟨l, m, h1, -, -, -, h2⟩ := tr3_at hv hr hk
  have hpc : l.pc = .ret op r := by
    cases hp : l.pc <;> simp only [gnext, hp, reduceCtorEq] at h1
    split at h1
    · rename_i h; rw [h.1, h.2]
    · cases h1
  obtain ⟨i0, h3, h4, h5⟩ := h2 (by rw [hpc]; simp)
  simp only [Tr2, hpc] at h5
  exact ⟨i0, h3, h4, h5⟩

end Verif.Bump.Conc
