import Verif.Spec.GlobalRaces
import Verif.Proofs.MemoryProject
import Verif.Proofs.ConcGlobal
import Verif.Proofs.ConcBoxesTrace
/-! # What a thread has done, at every point of the methods of the global allocator -/
set_option autoImplicit false
namespace Verif.Bump.Conc
open MM Verif.AllocTraits
variable {n : Nat} {e : Env}

theorem lnext_call {p q : Bump.Pc} {x : Act} {c : Call} (hp : p.call = some c) (hx : ∀ c' r, x ≠ .ret c' r) (h : lnext e p x = some q) : q.call = some c := by
  cases p <;> cases x <;> simp only [lnext, reduceCtorEq, Option.some.injEq] at h <;> simp only [Bump.Pc.call, Option.some.injEq, reduceCtorEq] at hp
  case attempt.compute call l retry guess =>
    subst hp
    split at h <;> cases h <;> rfl
  case cas.cas call l retry expect at_ new expect' new' seen =>
    subst hp
    split at h
    · split at h
      · split at h <;> cases h
        · exact ConcBoxes.onOk_call _ _
        · rfl
      · split at h <;> cases h <;> rfl
    · cases h
  case load.load call v => subst hp; subst h; exact ConcBoxes.onLoad_call _ _ _
  case write.write call a r => subst hp; split at h <;> cases h; rfl
  case ret.ret call r call' r' => exact absurd rfl (hx _ _)

theorem lnext_ret {p q : Bump.Pc} {c c' : Call} {r : Ret} (hp : p.call = some c) (h : lnext e p (.ret c' r) = some q) : c' = c := by
  cases p <;> simp only [lnext, reduceCtorEq] at h <;> simp only [Bump.Pc.call, Option.some.injEq] at hp
  split at h
  · rename_i hc; rw [hc.1]; exact hp
  · cases h

/-- The first instructions of `realloc`. -/
theorem start_realloc' (e : Env) (b : Block) (ns : Nat) :
    start e (.realloc b ns) = .panic ∨ start e (.realloc b ns) = .ret (.inr (.ptr 0)) ∨ (start e (.realloc b ns) = .ret (.inr (.ptr b.ptr)) ∧ ns ≤ b.layout.size) ∨
    (start e (.realloc b ns) = .ret (.inl (.getLayout ⟨ns, b.layout.align⟩)) ∧ ns + (b.layout.align - 1) ≤ e.target.isizeMax) := by
  simp only [start, NonZeroLayout.fromLayout]
  by_cases h0 : b.layout.size = 0
  · simp [h0, Outcome.unwrap, bind, Outcome.bind]
  simp only [h0, if_false, Outcome.unwrap, bind, Outcome.bind, layoutReallocated, layoutFromSizeAlign, NonZeroLayout.align]
  by_cases hv : ns + (b.layout.align - 1) ≤ e.target.isizeMax
  · simp only [hv, if_true, NonZeroLayout.fromLayout]
    by_cases h1 : ns = 0
    · simp [h1]
    · simp only [h1, if_false, pure, NonZeroLayout.toLayout]
      by_cases h2 : b.ptr % b.layout.align = 0 ∧ b.layout.size ≥ ns
      · simp [h2.1, h2.2]
      · simp [h2]
  · simp [hv, pure]

theorem grun_append (l : Loc) (xs ys : List GAct) : grun e l (xs ++ ys) = (grun e l xs).bind fun m => grun e m ys := by
  induction xs generalizing l with
  | nil => rfl
  | cons x xs ih =>
    simp only [List.cons_append, grun]
    cases gnext e l x with
    | none => rfl
    | some m => exact ih m

/-- What the thread does with the bump is what the methods of `Bump` do. -/
theorem gnext_inner {l m : Loc} {x : GAct} (h : gnext e l x = some m) : match x.bump? with | some a => lnext e l.inner a = some m.inner | none => m.inner = l.inner := by
  simp only [gnext] at h
  split at h <;> simp only [GAct.bump?] <;> (try (cases h; done)) <;> (try (cases h; rfl))
  case h_5 =>
    split at h
    · simp only [Option.map_eq_some_iff] at h; obtain ⟨q, h1, rfl⟩ := h; exact h1
    · cases h
  case h_6 => split at h <;> cases h <;> rfl
  case h_7 => simp only [Option.map_eq_some_iff] at h; obtain ⟨q, h1, rfl⟩ := h; exact h1
  case h_8 => simp only [Option.map_eq_some_iff] at h; obtain ⟨q, h1, rfl⟩ := h; exact h1
  all_goals (split at h <;> cases h; rfl)

theorem grun_inner {l m : Loc} {xs : List GAct} (h : grun e l xs = some m) : lrun e l.inner (xs.filterMap GAct.bump?) = some m.inner := by
  induction xs generalizing l with
  | nil => cases h; rfl
  | cons x xs ih =>
    simp only [grun] at h
    cases hx : gnext e l x with
    | none => rw [hx] at h; cases h
    | some k =>
      rw [hx] at h
      have h1 := gnext_inner hx
      have h2 := ih h
      rw [List.filterMap_cons]
      cases hb : x.bump? with
      | none => rw [hb] at h1; simp only at h1 ⊢; rw [← h1]; exact h2
      | some a => rw [hb] at h1; simp only [lrun]; rw [show lnext e l.inner a = some k.inner from h1]; exact h2

/-! ## What happened before -/

/-- No call returned between the two. -/
def NoRet (xs : List GAct) (j k : Nat) : Prop := ∀ i op r, j < i → i < k → xs[i]? ≠ some (.ret op r)
/-- The call that was started last, and has not returned. -/
def InCall (xs : List GAct) (k : Nat) (op : Op) : Prop := ∃ i, i < k ∧ xs[i]? = some (.invoke op) ∧ NoRet xs i k
/-- The memory that was got from the bump in this call. -/
def Granted (xs : List GAct) (k : Nat) (reg : Region) : Prop := ∃ g call r, g < k ∧ xs[g]? = some (.bump (.ret call r)) ∧ grant call r = some reg ∧ NoRet xs g k

/-- What is known of the place where a thread is after `k` actions. -/
def Tr (e : Env) (xs : List GAct) (k : Nat) (l : Loc) : Prop :=
  match l.pc with
  | .idle => True
  | .start op => InCall xs k op
  | .inner op => InCall xs k op ∧ ∃ call, start e op = .ret (.inl call) ∧ l.inner.call = some call
  | .zero lay p _ => InCall xs k (.allocZeroed lay) ∧ Granted xs k ⟨p, lay.size⟩
  | .copy b ns dst i => InCall xs k (.realloc b ns) ∧ Granted xs k ⟨dst, ns⟩ ∧ (l.held ≠ none → i < min ns b.layout.size)
  | .ret op r => InCall xs k op ∧ (r ≠ .ub ∨ ∃ b, op.takes = some b ∧ ∃ reg, Granted xs k reg ∧ ¬ reg.Disjoint b.region) ∧
    ∀ blk, op.gives r = some blk → Granted xs k blk.region ∨ ∃ b, op.takes = some b ∧ blk.region.Within b.region

theorem NoRet.succ {xs : List GAct} {j k : Nat} (h : NoRet xs j k) {x : GAct} (hk : xs[k]? = some x) (hx : ∀ op r, x ≠ .ret op r) : NoRet xs j (k + 1) := by
  intro i op r h1 h2 h3
  rcases Nat.lt_succ_iff_lt_or_eq.mp h2 with h2 | rfl
  · exact h i op r h1 h2 h3
  · rw [hk] at h3; cases h3; exact hx _ _ rfl
theorem NoRet.start (xs : List GAct) (k : Nat) : NoRet xs k (k + 1) := fun i _ _ h1 h2 => absurd h2 (by omega)
theorem InCall.succ {xs : List GAct} {k : Nat} {op : Op} (h : InCall xs k op) {x : GAct} (hk : xs[k]? = some x) (hx : ∀ op r, x ≠ .ret op r) : InCall xs (k + 1) op :=
  let ⟨i, h1, h2, h3⟩ := h; ⟨i, by omega, h2, h3.succ hk hx⟩
theorem Granted.succ {xs : List GAct} {k : Nat} {reg : Region} (h : Granted xs k reg) {x : GAct} (hk : xs[k]? = some x) (hx : ∀ op r, x ≠ .ret op r) : Granted xs (k + 1) reg :=
  let ⟨g, c, r, h1, h2, h3, h4⟩ := h; ⟨g, c, r, by omega, h2, h3, h4.succ hk hx⟩

theorem tr_resume {xs : List GAct} {k : Nat} {l : Loc} {op : Op} {call : Call} {r : Ret} (hv : op.Valid e.target) (hc : InCall xs (k + 1) op) (hs : start e op = .ret (.inl call)) (hk : xs[k]? = some (.bump (.ret call r)))
    (hpc : l.pc = resume op r) (hh : l.held = none) : Tr e xs (k + 1) l := by
  have hg : ∀ reg, grant call r = some reg → Granted xs (k + 1) reg := fun reg h => ⟨k, call, r, by omega, hk, h, NoRet.start _ _⟩
  simp only [Tr, hpc]
  cases op with
  | alloc lay =>
    cases hs
    cases r <;> simp only [resume]
    case ptr p =>
      refine ⟨hc, .inl (by simp), fun blk hb => .inl (hg _ ?_)⟩
      simp only [Op.gives] at hb
      split at hb <;> cases hb
      simp only [grant, Call.layout, if_neg (Nat.pos_iff_ne_zero.mp hv.2), Block.region]
    all_goals refine ⟨hc, .inl (by simp), fun blk hb => ?_⟩; simp [Op.gives] at hb
  | allocZeroed lay =>
    cases hs
    cases r <;> simp only [resume]
    case ptr p =>
      by_cases hp : p = 0
      · simp only [hp, ne_eq, not_true_eq_false, if_false]
        refine ⟨hc, .inl (by simp), fun blk hb => ?_⟩; simp [Op.gives] at hb
      · simp only [ne_eq, hp, not_false_eq_true, if_true]
        exact ⟨hc, hg _ (by simp only [grant, Call.layout, if_neg (Nat.pos_iff_ne_zero.mp hv.2)])⟩
    all_goals refine ⟨hc, .inl (by simp), fun blk hb => ?_⟩; simp [Op.gives] at hb
  | realloc b ns =>
    have hcall : call = .getLayout ⟨ns, b.layout.align⟩ := by
      rcases start_realloc' e b ns with h | h | ⟨h, _⟩ | ⟨h, _⟩ <;> rw [h] at hs <;> cases hs; rfl
    subst hcall
    have h0 : 0 < ns := hv
    cases r <;> simp only [resume]
    case allocation a =>
      have hgr := hg ⟨a.ptr, ns⟩ (by simp only [grant, Call.layout, if_neg (Nat.pos_iff_ne_zero.mp h0)])
      by_cases hov : min ns b.layout.size = 0 ∨ b.ptr + min ns b.layout.size ≤ a.ptr ∨ a.ptr + min ns b.layout.size ≤ b.ptr
      · rw [if_pos hov]
        exact ⟨hc, hgr, by simp [hh]⟩
      · rw [if_neg hov]
        refine ⟨hc, .inr ⟨b, rfl, _, hgr, fun hd => hov ?_⟩, fun blk hb => by simp [Op.gives] at hb⟩
        rw [Region.disjoint_iff] at hd
        simp only [Block.region] at hd
        omega
    case none => refine ⟨hc, .inl (by simp), fun blk hb => .inr ⟨b, rfl, ?_⟩⟩; simp [Op.gives] at hb; subst hb; exact ⟨Nat.le_refl _, Nat.le_refl _⟩
    all_goals refine ⟨hc, .inl (by simp), fun blk hb => ?_⟩; simp [Op.gives] at hb
  | dealloc b => cases hs
  | api call' =>
    cases hs
    refine ⟨hc, .inl (by simp), fun blk hb => .inl (hg _ ?_)⟩
    simp only [Op.gives] at hb
    split at hb
    · rename_i lay reg h1 h2
      cases hb
      rw [h2]
      simp only [grant, h1] at h2
      split at h2
      · cases h2
      · split at h2 <;> cases h2 <;> rfl
    · cases hb

/-- Only while a byte is copied there is one held. -/
theorem held_none {l m : Loc} {x : GAct} (hl : (∀ b ns d i, l.pc ≠ .copy b ns d i) → l.held = none) (h : gnext e l x = some m) : (∀ b ns d i, m.pc ≠ .copy b ns d i) → m.held = none := by
  have hl' : ∀ pc, l.pc = pc → (∀ b ns d i, pc ≠ .copy b ns d i) → l.held = none := fun pc h1 h2 => hl (h1 ▸ h2)
  simp only [gnext] at h
  split at h
  case h_1 hpc => cases h; exact fun _ => hl' _ hpc (by simp)
  case h_2 hpc => cases h; exact fun _ => hl' _ hpc (by simp)
  case h_3 hpc => cases h; exact fun _ => hl' _ hpc (by simp)
  case h_4 hpc => cases h; exact fun _ => hl' _ hpc (by simp)
  case h_5 hpc =>
    split at h
    · simp only [Option.map_eq_some_iff] at h; obtain ⟨q, _, rfl⟩ := h; exact fun _ => hl' _ hpc (by simp)
    · cases h
  case h_6 hpc => split at h <;> cases h <;> exact fun _ => hl' _ hpc (by simp)
  case h_7 hpc => simp only [Option.map_eq_some_iff] at h; obtain ⟨q, _, rfl⟩ := h; exact fun _ => hl' _ hpc (by simp)
  case h_8 _ hpc => simp only [Option.map_eq_some_iff] at h; obtain ⟨q, _, rfl⟩ := h; exact fun _ => hl' _ hpc (by simp)
  case h_9 hpc => split at h <;> cases h; exact fun _ => hl' _ hpc (by simp)
  case h_10 hpc => split at h <;> cases h; exact fun _ => hl' _ hpc (by simp)
  case h_11 hpc => split at h <;> cases h; exact fun hm => absurd hpc (hm _ _ _ _)
  case h_12 hpc => split at h <;> cases h; exact fun _ => rfl
  case h_13 hpc => split at h <;> cases h; rename_i hc; exact fun _ => hc.1
  case h_14 hpc => split at h <;> cases h; exact fun _ => hl' _ hpc (by simp)
  case h_15 => cases h

theorem tr_next {xs : List GAct} {k : Nat} {l m : Loc} {x : GAct} (hv : ∀ op, GAct.invoke op ∈ xs → op.Valid e.target) (hk : xs[k]? = some x) (hh : (∀ b ns d i, l.pc ≠ .copy b ns d i) → l.held = none)
    (ht : Tr e xs k l) (h : gnext e l x = some m) : Tr e xs (k + 1) m := by
  simp only [gnext] at h
  split at h
  case h_1 hpc => cases h; exact ⟨k, by omega, hk, NoRet.start _ _⟩
  case h_2 hpc => cases h; simp only [Tr, hpc]
  case h_3 hpc => cases h; simp only [Tr, hpc]
  case h_4 hpc => cases h; simp only [Tr, hpc]
  case h_5 op call hpc =>
    split at h
    · rename_i hs
      simp only [Option.map_eq_some_iff] at h
      obtain ⟨q, hq, rfl⟩ := h
      simp only [Tr, hpc] at ht
      refine ⟨ht.succ hk (by simp), call, hs, ?_⟩
      cases hi : l.inner <;> simp only [hi, lnext, reduceCtorEq, Option.some.injEq] at hq
      subst hq
      exact ConcBoxes.enter_call call
    · cases h
  case h_6 op hpc =>
    simp only [Tr, hpc] at ht
    have hc := ht.succ hk (by simp)
    cases op with
    | alloc lay => simp only [start, pure] at h; cases h
    | allocZeroed lay => simp only [start, pure] at h; cases h
    | api call => simp only [start, pure] at h; cases h
    | dealloc b => simp only [start, pure] at h; cases h; exact ⟨hc, .inl (by simp), fun blk hb => by simp [Op.gives] at hb⟩
    | realloc b ns =>
      rcases start_realloc' e b ns with hs | hs | ⟨hs, hle⟩ | ⟨hs, _⟩ <;> rw [hs] at h <;> cases h
      · exact ⟨hc, .inl (by simp), fun blk hb => by simp [Op.gives] at hb⟩
      · refine ⟨hc, .inl (by simp), fun blk hb => .inr ⟨b, rfl, ?_⟩⟩
        simp only [Op.gives, if_true, Option.some.injEq] at hb
        subst hb
        exact ⟨Nat.le_refl _, Nat.le_refl _⟩
      · refine ⟨hc, .inl (by simp), fun blk hb => .inr ⟨b, rfl, ?_⟩⟩
        simp only [Op.gives] at hb
        split at hb <;> cases hb
        · exact ⟨Nat.le_refl _, Nat.le_refl _⟩
        · exact ⟨Nat.le_refl _, Nat.add_le_add_left hle _⟩
  case h_7 op call r hpc =>
    simp only [Option.map_eq_some_iff] at h
    obtain ⟨q, hq, rfl⟩ := h
    simp only [Tr, hpc] at ht
    obtain ⟨h1, call', h2, h3⟩ := ht
    have := lnext_ret h3 hq
    subst this
    have h4 := h1.succ hk (by simp)
    obtain ⟨i, hi, hi2, _⟩ := h1
    exact tr_resume (hv op (List.mem_of_getElem? hi2)) h4 h2 hk rfl (hh (by rw [hpc]; simp))
  case h_8 op x hx hpc =>
    simp only [Option.map_eq_some_iff] at h
    obtain ⟨q, hq, rfl⟩ := h
    simp only [Tr, hpc] at ht ⊢
    obtain ⟨h1, call', h2, h3⟩ := ht
    exact ⟨h1.succ hk (by simp), call', h2, lnext_call h3 hx hq⟩
  case h_9 lay p i q v hpc =>
    simp only [Tr, hpc] at ht
    split at h <;> cases h
    exact ⟨ht.1.succ hk (by simp), ht.2.succ hk (by simp)⟩
  case h_10 lay p i hpc =>
    simp only [Tr, hpc] at ht
    split at h <;> cases h
    refine ⟨ht.1.succ hk (by simp), .inl (by simp), fun blk hb => .inl ?_⟩
    simp only [Op.gives] at hb
    split at hb <;> cases hb
    exact ht.2.succ hk (by simp)
  case h_11 b ns d i q v hpc =>
    simp only [Tr, hpc] at ht
    split at h <;> cases h
    rename_i hc
    simp only [Tr, hpc]
    exact ⟨ht.1.succ hk (by simp), ht.2.1.succ hk (by simp), fun _ => hc.2.1⟩
  case h_12 b ns d i q v hpc =>
    simp only [Tr, hpc] at ht
    split at h <;> cases h
    exact ⟨ht.1.succ hk (by simp), ht.2.1.succ hk (by simp), fun h => absurd rfl h⟩
  case h_13 b ns d i hpc =>
    simp only [Tr, hpc] at ht
    split at h <;> cases h
    refine ⟨ht.1.succ hk (by simp), .inl (by simp), fun blk hb => ?_⟩
    simp only [Op.gives] at hb
    split at hb <;> cases hb
    · exact .inr ⟨_, rfl, Nat.le_refl _, Nat.le_refl _⟩
    · exact .inl (ht.2.1.succ hk (by simp))
  case h_14 hpc => split at h <;> cases h; trivial
  case h_15 => cases h

/-- What is known before every action. -/
theorem tr_at {xs : List GAct} (hv : ∀ op, GAct.invoke op ∈ xs → op.Valid e.target) {l' : Loc} (hr : grun e .start xs = some l') {k : Nat} {x : GAct} (hk : xs[k]? = some x) :
    ∃ l m, gnext e l x = some m ∧ Tr e xs k l := by
  have hlen : k < xs.length := (List.getElem?_eq_some_iff.mp hk).1
  have key : ∀ j, j ≤ xs.length → ∃ l, grun e .start (xs.take j) = some l ∧ Tr e xs j l ∧ ((∀ b ns d i, l.pc ≠ .copy b ns d i) → l.held = none) := by
    intro j
    induction j with
    | zero => exact fun _ => ⟨.start, rfl, trivial, fun _ => rfl⟩
    | succ j ih =>
      intro hj
      obtain ⟨l, h1, h2, h3⟩ := ih (by omega)
      have hx : xs[j]? = some xs[j] := List.getElem?_eq_getElem (by omega)
      have hsplit : xs = xs.take j ++ xs[j] :: xs.drop (j + 1) := by
        conv => lhs; rw [← List.take_append_drop j xs, List.drop_eq_getElem_cons (by omega : j < xs.length)]
      have hrun := hr
      rw [hsplit, grun_append, h1] at hrun
      simp only [Option.bind_some, grun] at hrun
      cases hn : gnext e l xs[j] with
      | none => rw [hn] at hrun; cases hrun
      | some m =>
        refine ⟨m, ?_, tr_next hv hx h3 h2 hn, held_none h3 hn⟩
        rw [List.take_add_one, hx, grun_append, h1]
        simp only [Option.toList_some, Option.bind_some, grun, hn]
  obtain ⟨l, h1, h2, h3⟩ := key k (by omega)
  have hsplit : xs = xs.take k ++ xs[k] :: xs.drop (k + 1) := by
    conv => lhs; rw [← List.take_append_drop k xs, List.drop_eq_getElem_cons hlen]
  have hrun := hr
  rw [hsplit, grun_append, h1] at hrun
  simp only [Option.bind_some, grun] at hrun
  rw [List.getElem?_eq_getElem hlen] at hk
  cases hk
  cases hn : gnext e l xs[k] with
  | none => rw [hn] at hrun; cases hrun
  | some m => exact ⟨l, m, hn, h2⟩

/-! ## Actions -/
section
variable {xs : List GAct} {k : Nat}

theorem at_ret (hv : ∀ op, GAct.invoke op ∈ xs → op.Valid e.target) {l' : Loc} (hr : grun e .start xs = some l') {op : Op} {r : Res} (hk : xs[k]? = some (.ret op r)) :
    InCall xs k op ∧ (r ≠ .ub ∨ ∃ b, op.takes = some b ∧ ∃ reg, Granted xs k reg ∧ ¬ reg.Disjoint b.region) ∧
    ∀ blk, op.gives r = some blk → Granted xs k blk.region ∨ ∃ b, op.takes = some b ∧ blk.region.Within b.region := by
  obtain ⟨l, m, h1, h2⟩ := tr_at hv hr hk
  have hpc : l.pc = .ret op r := by
    cases hp : l.pc <;> simp only [gnext, hp, reduceCtorEq] at h1
    split at h1
    · rename_i h; rw [h.1, h.2]
    · cases h1
  simpa only [Tr, hpc] using h2

theorem at_write (hv : ∀ op, GAct.invoke op ∈ xs → op.Valid e.target) {l' : Loc} (hr : grun e .start xs = some l') {p : Nat} {v : Byte} (hk : xs[k]? = some (.write p v)) : ∃ reg, Granted xs k reg ∧ reg.Has p := by
  obtain ⟨l, m, h1, h2⟩ := tr_at hv hr hk
  cases hp : l.pc <;> simp only [gnext, hp, reduceCtorEq] at h1 <;> simp only [Tr, hp] at h2
  · split at h1
    · rename_i h; exact ⟨_, h2.2, by simp only [Block.region]; omega, by simp only [Block.region]; omega⟩
    · cases h1
  · split at h1
    · rename_i h
      have := h2.2.2 (by rw [h.1]; simp)
      exact ⟨_, h2.2.1, by simp only [Block.region]; omega, by simp only [Block.region]; omega⟩
    · cases h1

theorem at_read (hv : ∀ op, GAct.invoke op ∈ xs → op.Valid e.target) {l' : Loc} (hr : grun e .start xs = some l') {p : Nat} {v : Byte} (hk : xs[k]? = some (.read p v)) :
    ∃ op b, InCall xs k op ∧ op.takes = some b ∧ b.region.Has p := by
  obtain ⟨l, m, h1, h2⟩ := tr_at hv hr hk
  cases hp : l.pc <;> simp only [gnext, hp, reduceCtorEq] at h1 <;> simp only [Tr, hp] at h2
  split at h1
  · rename_i h; exact ⟨_, _, h2.1, rfl, by simp only [Block.region]; omega, by simp only [Block.region]; omega⟩
  · cases h1

/-- The calls of the methods of `Bump` inside are those of the methods of the allocator. -/
theorem at_inner (hv : ∀ op, GAct.invoke op ∈ xs → op.Valid e.target) {l' : Loc} (hr : grun e .start xs = some l') {call : Call} (hk : xs[k]? = some (.bump (.invoke call))) :
    ∃ op, InCall xs k op ∧ start e op = .ret (.inl call) := by
  obtain ⟨l, m, h1, h2⟩ := tr_at hv hr hk
  cases hp : l.pc <;> simp only [gnext, hp, reduceCtorEq] at h1 <;> simp only [Tr, hp] at h2
  · split at h1
    · rename_i h; exact ⟨_, h2, h⟩
    · cases h1
  · obtain ⟨h3, c, h4, h5⟩ := h2
    simp only [Option.map_eq_some_iff] at h1
    obtain ⟨q, h1, _⟩ := h1
    cases hi : l.inner <;> simp only [hi, lnext, reduceCtorEq] at h1
    rw [hi] at h5
    cases h5
end

end Verif.Bump.Conc
