import Verif.Spec.GlobalInterleaving
import Verif.Proofs.GlobalContents
import Verif.Props.GlobalRaces
/-! # Executions with the global allocator are interleavings -/
set_option autoImplicit false
namespace Verif.MM
variable {n : Nat}

theorem earlier_tot {ord : List (Ev n)} {a b : Ev n} (ha : a ∈ ord) (hb : b ∈ ord) (hne : a ≠ b) : Earlier ord a b ∨ Earlier ord b a := by
  have h1 := List.idxOf_lt_length_iff.mpr ha
  have h2 := List.idxOf_lt_length_iff.mpr hb
  have h3 : ord.idxOf a ≠ ord.idxOf b := fun h => hne (by
    have e1 := List.getElem_idxOf h1
    have e2 := List.getElem_idxOf h2
    rw [← e1, ← e2]
    simp only [h])
  rcases Nat.lt_or_gt_of_ne h3 with h | h
  · exact .inl ⟨h, h2⟩
  · exact .inr ⟨h, h1⟩

theorem earlier_not {R : Ev n → Ev n → Prop} {ord : List (Ev n)} (hp : ord.Pairwise fun a b => ¬ R b a) {a b : Ev n} (h : Earlier ord a b) : ¬ R b a := by
  have h1 := List.pairwise_iff_getElem.mp hp (ord.idxOf a) (ord.idxOf b) (Nat.lt_trans h.1 h.2) h.2 h.1
  rwa [List.getElem_idxOf, List.getElem_idxOf] at h1

theorem earlier_of {R : Ev n → Ev n → Prop} {ord : List (Ev n)} (hp : ord.Pairwise fun a b => ¬ R b a) {a b : Ev n} (ha : a ∈ ord) (hb : b ∈ ord) (hne : a ≠ b) (h : R a b) : Earlier ord a b :=
  (earlier_tot ha hb hne).resolve_right fun h' => earlier_not hp h' h

theorem Earlier.mem {ord : List (Ev n)} {a b : Ev n} (h : Earlier ord a b) : a ∈ ord ∧ b ∈ ord :=
  ⟨List.idxOf_lt_length_iff.mp (Nat.lt_trans h.1 h.2), List.idxOf_lt_length_iff.mp h.2⟩

theorem Earlier.ne {ord : List (Ev n)} {a b : Ev n} (h : Earlier ord a b) : a ≠ b := fun h' => Nat.lt_irrefl _ (h' ▸ h.1)

end Verif.MM

namespace Verif.Bump.Conc
open MM
variable {n : Nat} {e : Env} {X : Graph n GAct} {src : MM.Ev n → MM.Ev n}

theorem WritesByte.event {a : MM.Ev n} {p : Nat} (h : WritesByte X a p) : X.IsEvent a := by
  rcases h with ⟨_, h⟩ | ⟨_, h⟩ | ⟨_, h, _⟩ <;> exact ⟨_, h⟩

theorem read_not_write {a : MM.Ev n} {p q : Nat} {v : Byte} (h : X.At a (.userRead p v) ∨ X.At a (.read p v)) : ¬ WritesByte X a q := by
  rintro (⟨_, h'⟩ | ⟨_, h'⟩ | ⟨_, h', _⟩) <;> rcases h with h | h <;> cases at_unique h h'

theorem reads_accesses {a : MM.Ev n} {p : Nat} {v : Byte} (h : X.At a (.userRead p v) ∨ X.At a (.read p v)) : Accesses X a p := .inl (h.imp (fun h => ⟨v, h⟩) fun h => ⟨v, h⟩)

theorem sc_atomic (hw : X.WellFormed gKind) {S : MM.Ev n → MM.Ev n → Prop} (hs : X.Ordered gKind S) {ord : List (MM.Ev n)} (ho : X.Order ord) (hb : ord.Pairwise fun a b => ¬ X.Before gKind S b a)
    {a : MM.Ev n} {v : Nat} (hr : X.Reads gKind a v) : (∃ w, Latest ord (X.IsWrite gKind) a w ∧ X.Writes gKind w v) ∨ ((∀ w, X.IsWrite gKind w → ¬ Earlier ord w a) ∧ v = X.initial) := by
  have hA : X.Atomic gKind a := .inl ⟨v, hr⟩
  have mem : ∀ {w}, X.IsWrite gKind w → w ∈ ord := fun {w} h => (ho.2.1 w).mpr (by obtain ⟨_, x, hx, _⟩ := h; exact ⟨x, hx⟩)
  have h1 := hw.rf_value _ _ hr
  cases hrf : X.rf a with
  | none =>
    rw [hrf] at h1
    refine .inr ⟨fun w hww h => ?_, h1⟩
    exact earlier_not hb h (.inr ⟨a, w, .inl rfl, hA, .inr hww, hs.cob _ _ (.inr (.inr ⟨⟨v, hr⟩, hww, h.ne.symm, .inl hrf⟩)), .inl rfl⟩)
  | some w =>
    rw [hrf] at h1
    have hwW : X.IsWrite gKind w := ⟨v, h1⟩
    have hS := hs.cob w a (.inr (.inl ⟨⟨v, hr⟩, hrf⟩))
    have hne : w ≠ a := fun h => hs.irrefl a (h ▸ hS)
    have ham : a ∈ ord := (ho.2.1 a).mpr (by obtain ⟨x, hx, _⟩ := hr; exact ⟨x, hx⟩)
    refine .inl ⟨w, ⟨hwW, earlier_of hb (mem hwW) ham hne (.inr ⟨w, a, .inl rfl, .inr hwW, hA, hS, .inl rfl⟩), fun w' hw' h => ?_⟩, h1⟩
    rcases hw.mo_total w' w hw' hwW with h2 | h2 | h2
    · exact .inl h2
    · exact .inr (earlier_of hb (mem hw') (mem hwW) (fun h => hw.mo_irrefl w (h ▸ h2)) (.inr ⟨w', w, .inl rfl, .inr hw', .inr hwW, hs.cob _ _ (.inl ⟨hw', hwW, h2⟩), .inl rfl⟩))
    · exact absurd (.inr ⟨a, w', .inl rfl, hA, .inr hw', hs.cob _ _ (.inr (.inr ⟨⟨v, hr⟩, hw', h.ne.symm, .inr ⟨w, hrf, h2⟩⟩)), .inl rfl⟩) (earlier_not hb h)

theorem ordered_of_possible (hp : GPossible X) : ∃ S, X.Ordered gKind S := by
  rcases hp.2 with h | h
  · exact Graph.ordered_of_seqCst h
  · exact ⟨_, Graph.ordered_of_coherent hp.1 h⟩

section
variable (he : e.Valid) (hi : X.initial ≤ e.len) (hp : GPossible X) (hx : GExecutes e X) (hd : Disciplined X src)
include he hi hp hx hd

theorem sc_bytes (hv : ReadsVisible X) {ord : List (MM.Ev n)} (ho : X.Order ord) {a : MM.Ev n} {p : Nat} {v : Byte} (ha : X.At a (.userRead p v) ∨ X.At a (.read p v)) :
    (∃ w, Latest ord (WritesByte X · p) a w ∧ StoresByte X w p v) ∨ ∀ w, WritesByte X w p → ¬ Earlier ord w a := by
  have ham : a ∈ ord := (ho.2.1 a).mpr (by rcases ha with h | h <;> exact ⟨_, h⟩)
  have hbef : ∀ w, WritesByte X w p → Earlier ord w a → X.hb w a := fun w hw h =>
    (accesses_ordered he hi hp hx hd (.inr hw) (reads_accesses ha) h.ne (.inl hw)).resolve_right (earlier_not ho.2.2 h)
  rcases hv a p v ha with ⟨w, h1, h2, h3⟩ | h1
  · refine .inl ⟨w, ⟨h1.writes, ?_, fun w' hw' h' => ?_⟩, h1⟩
    · exact earlier_of ho.2.2 ((ho.2.1 w).mpr h1.writes.event) ham (fun h => hp.1.hb_irrefl _ (h ▸ h2)) h2
    · by_cases hne : w' = w
      · exact .inl hne
      · refine .inr ?_
        rcases accesses_ordered he hi hp hx hd (.inr hw') (.inr h1.writes) hne (.inl hw') with h | h
        · exact earlier_of ho.2.2 ((ho.2.1 w').mpr hw'.event) ((ho.2.1 w).mpr h1.writes.event) hne h
        · exact absurd ⟨h, hbef w' hw' h'⟩ (h3 w' hw')
  · exact .inr fun w hw h => h1 w hw (hbef w hw h)

omit he hi in
/-- The blocks are not empty. -/
theorem gives_pos : ∀ a, X.IsEvent a → ∀ b, Gives X a b → 0 < b.layout.size := by
  refine hb_induction hp.1 fun a ha ih b hb => ?_
  obtain ⟨op, r, hat, hg⟩ := hb
  obtain ⟨t, k⟩ := a
  obtain ⟨l', hl'⟩ := hx.1 t
  obtain ⟨⟨i, hi, hop, -⟩, -, -⟩ := at_ret (valid_inv hx t) hl' hat
  have hv := hx.2 t op (List.mem_of_getElem? hop)
  cases op with
  | alloc l => cases r <;> simp only [Op.gives, reduceCtorEq] at hg; split at hg <;> cases hg; exact hv.2
  | allocZeroed l => cases r <;> simp only [Op.gives, reduceCtorEq] at hg; split at hg <;> cases hg; exact hv.2
  | realloc c ns =>
    obtain ⟨h1, h2⟩ := hd.taken (t, i) c ⟨_, hop, rfl⟩
    have := ih _ (by obtain ⟨op, r, h, _⟩ := h1; exact ⟨_, h⟩) (hp.1.hb_trans _ _ _ h2 (sb_hb hp.1 hi hat)) c h1
    cases r <;> simp only [Op.gives, reduceCtorEq] at hg
    split at hg <;> cases hg
    · exact this
    · exact hv
  | dealloc c => simp [Op.gives] at hg
  | api call =>
    cases r <;> simp only [Op.gives, reduceCtorEq] at hg
    split at hg
    · rename_i l reg h1 h2
      cases hg
      simp only [grant, h1] at h2
      split at h2
      · cases h2
      · simp only; omega
    · cases hg

/-- Who writes to a byte after `realloc` has read it to copy it, does so after this call has returned. -/
theorem write_after_copy {t : _root_.Fin n} {i j : Nat} {w : MM.Ev n} {c : Block} {q : Nat} {v : Byte} (ht : Takes X (t, i) c) (hij : i < j) (hn : NoRet (X.acts t) i j) (hr : X.At (t, j) (.read q v)) (hq : c.region.Has q)
    (hw : WritesByte X w q) (hh : X.hb (t, j) w) : ∃ k' b, j < k' ∧ Gives X (t, k') b ∧ NoRet (X.acts t) i k' ∧ X.hb (t, k') w := by
  have hthr : Through X src (t, j) (src (t, i)) := copy_through hp hd hij ht hn hr
  obtain ⟨h1, h2⟩ := hd.taken _ _ ht
  obtain ⟨g, d, hroot⟩ := exists_root hp.1 hx hd (src (t, i)) (by obtain ⟨_, _, h, _⟩ := h1; exact ⟨_, h⟩) c h1
  obtain ⟨reg, h3, h4⟩ := hroot.region hd _ h1
  have hgq := within_has h4 hq
  have hcyc : ∀ {P : Prop}, X.hb w (t, j) → P := fun h => absurd (hp.1.hb_trans _ _ _ hh h) (hp.1.hb_irrefl _)
  rcases classify hp hx hd (.inr hw) with ⟨p, k1, k2⟩ | ⟨g', reg', k1, k2, k3, k4⟩
  · exact hcyc (hp.1.hb_trans _ _ _ (value_before he hi hp hx hd k1 h3 k2 hgq) (hp.1.hb_trans _ _ _ (hroot.hb hp.1 hd) hthr.1))
  · cases grants_same he hi hp hx hd k1 h3 k2 hgq
    cases k4 with
    | value t' j' k' v' m1 m2 m3 m4 m5 => subst m1 m2; exact hcyc (value_through hp hd m3 m4 m5 hthr hroot)
    | user d' hu hr' =>
      rcases Nat.lt_trichotomy d' d with hlt | rfl | hlt
      · exact hcyc (through_lt hp hd (user_through hd hu) hr' hthr hroot hlt)
      · exact hcyc (hp.1.hb_trans _ _ _ (hd.before _ _ _ _ hu ht (hroot.unique hd hr')) (sb_hb hp.1 hij hr))
      · obtain ⟨r0, t2, i2, k', b2, c2, m1, m2, m3, m4, m5, m6, m7⟩ := hr'.anc hp.1 hd hlt
        cases m1.unique hd hroot
        cases hd.once _ _ _ _ m2 ht m3
        refine ⟨k', c2, in_call hr (by simp) hn m4 m6, m6, m5, ?_⟩
        have := (user_through hd hu).1
        rcases m7 with m7 | m7
        · rw [m7]; exact this
        · exact hp.1.hb_trans _ _ _ m7 this
    | copy t' i' k' d' v' b m1 m2 m3 m4 m5 m6 => exact absurd hw (read_not_write (.inr m5))

end

/-- The state of a thread after `k` actions, and what is known then. -/
theorem prefix_at {xs : List GAct} (hv : ∀ op, GAct.invoke op ∈ xs → op.Valid e.target) {l' : Loc} (hr : grun e .start xs = some l') {j : Nat} (hj : j ≤ xs.length) :
    ∃ l, grun e .start (xs.take j) = some l ∧ Tr e xs j l ∧ Tr3 xs j l ∧ ((∀ b ns d i, l.pc ≠ .copy b ns d i) → l.held = none) ∧
      ∀ x, xs[j]? = some x → ∃ m, gnext e l x = some m ∧ grun e .start (xs.take (j + 1)) = some m := by
  have hnext : ∀ j, j ≤ xs.length → ∀ l, grun e .start (xs.take j) = some l → ∀ x, xs[j]? = some x → ∃ m, gnext e l x = some m ∧ grun e .start (xs.take (j + 1)) = some m := by
    intro j hj l h1 x hx
    have hlt : j < xs.length := (List.getElem?_eq_some_iff.mp hx).1
    have hsplit : xs = xs.take j ++ xs[j] :: xs.drop (j + 1) := by
      conv => lhs; rw [← List.take_append_drop j xs, List.drop_eq_getElem_cons hlt]
    have hxx : xs[j] = x := (List.getElem?_eq_some_iff.mp hx).2
    have hrun := hr
    rw [hsplit, grun_append, h1] at hrun
    simp only [Option.bind_some, grun, hxx] at hrun
    cases hn : gnext e l x with
    | none => rw [hn] at hrun; cases hrun
    | some m =>
      refine ⟨m, rfl, ?_⟩
      rw [List.take_add_one, hx, grun_append, h1]
      simp only [Option.toList_some, Option.bind_some, grun, hn]
  have key : ∀ j, j ≤ xs.length → ∃ l, grun e .start (xs.take j) = some l ∧ Tr e xs j l ∧ Tr3 xs j l ∧ ((∀ b ns d i, l.pc ≠ .copy b ns d i) → l.held = none) := by
    intro j
    induction j with
    | zero => exact fun _ => ⟨.start, rfl, trivial, ⟨fun _ i _ h => absurd h (Nat.not_lt_zero _), fun _ => rfl, Inn.idle _ _, fun h => absurd rfl h⟩, fun _ => rfl⟩
    | succ j ih =>
      intro hj
      obtain ⟨l, h1, h2, h4, h3⟩ := ih (by omega)
      have hx : xs[j]? = some xs[j] := List.getElem?_eq_getElem (by omega)
      obtain ⟨m, hn, hm⟩ := hnext j (by omega) l h1 _ hx
      exact ⟨m, hm, tr_next hv hx h3 h2 hn, tr3_next hv hx h3 h2 h4 hn, held_none h3 hn⟩
  obtain ⟨l, h1, h2, h3, h4⟩ := key j hj
  exact ⟨l, h1, h2, h3, h4, hnext j hj l h1⟩


theorem exec_act_mem {s : Bump.State n} {t : _root_.Fin n} {x : Act} {p : Bump.Pc} (h : lnext e (s.pc t) x = some p) :
    (Bump.exec e s (evOf t x)).mem = match (generalizing := false) s.pc t, x with
      | .write call a, .write _ => writeBytes s.mem a.ptr (storedValue call)
      | _, _ => s.mem := by
  cases hp : s.pc t <;> rw [hp] at h <;> cases x <;> simp only [lnext, reduceCtorEq, Option.some.injEq] at h <;> simp only [evOf, Bump.exec, Bump.step, hp]
  case idle.invoke call => rfl
  case attempt.compute call l retry guess => split <;> rfl
  case cas.cas call l retry expect at_ new expect' new' seen =>
    split
    · split <;> rfl
    · split <;> rfl
  case load.load => rfl

theorem setPc_id (pc : _root_.Fin n → Pc) (t : _root_.Fin n) {p : Pc} (h : pc t = p) : setPc pc t p = pc := by
  funext u
  simp only [setPc]
  split
  · rename_i hu; rw [hu, h]
  · rfl

theorem bsetPc_id (pc : _root_.Fin n → Bump.Pc) (t : _root_.Fin n) {p : Bump.Pc} (h : pc t = p) : Bump.setPc pc t p = pc := by
  funext u
  simp only [Bump.setPc]
  split
  · rename_i hu; rw [hu, h]
  · rfl

/-- What an action does to the state of the machine. -/
structure Moved (s s' : State n) (t : _root_.Fin n) (l l' : Loc) (x : GAct) : Prop where
  pc : s'.pc = setPc s.pc t l'.pc
  inner : s'.bump.pc = Bump.setPc s.bump.pc t l'.inner
  consumed : s'.bump.consumed = (gKind.writes x).getD s.bump.consumed
  live : s'.live = match x with
    | .invoke op => (match op.takes with | some b => s.live.erase b | none => s.live)
    | .ret op r => (op.gives r).toList ++ s.live
    | _ => s.live
  mem : s'.bump.mem = match x, l.inner with
    | .write p v, _ | .userWrite p v, _ => writeBytes s.bump.mem p [v]
    | .bump (.write _), .write call a => writeBytes s.bump.mem a.ptr (storedValue call)
    | _, _ => s.bump.mem

theorem machine_step {s : State n} {a : MM.Ev n} {x : GAct} {l l' : Loc} (hat : X.At a x) (hpc : s.pc a.1 = l.pc) (hin : s.bump.pc a.1 = l.inner) (hn : gnext e l x = some l') {xs : List GAct} {k : Nat} (htr : Tr e xs k l)
    (hr : ∀ v, gKind.reads x = some v → v = s.bump.consumed) (hh : ∀ b ns dst i v, l.pc = .copy b ns dst i → l.held = some v → s.bump.mem (b.ptr + i) = v)
    (hi : ∀ op, x = .invoke op → ∀ b ∈ op.takes, b ∈ s.live) (hu : ∀ p v, x = .userWrite p v → ∃ b, blockAt X (src a) = some b ∧ b ∈ s.live ∧ b.region.Has p) :
    Moved s (run e s (machineEvents X src a)) a.1 l l' x := by
  have hev : machineEvents X src a = (match x with
    | .invoke op => [.invoke a.1 op]
    | .userWrite p v => match blockAt X (src a) with
      | some b => [.userWrite b (p - b.ptr) [v]]
      | none => []
    | .userRead _ _ | .read _ _ | .other => []
    | _ => [.step a.1]) := by
    simp only [Graph.At] at hat
    simp only [machineEvents, hat]
    cases x <;> rfl
  rw [hev]
  clear hev
  have hstep : ∀ evs : List (Event n), run e s evs = evs.foldl (exec e) s := fun _ => rfl
  simp only [gnext] at hn
  split at hn
  case h_1 op hl _ =>
    cases hn
    simp only [run, List.foldl_cons, List.foldl_nil, exec]
    rw [if_pos ⟨by rw [hpc, hl], hi op rfl⟩]
    exact ⟨rfl, (bsetPc_id _ _ hin).symm, rfl, rfl, rfl⟩
  case h_2 hl _ => cases hn; exact ⟨(setPc_id _ _ hpc).symm, (bsetPc_id _ _ hin).symm, rfl, rfl, rfl⟩
  case h_3 p v hl _ =>
    cases hn
    obtain ⟨b, h1, h2, h3, h4⟩ := hu p v rfl
    simp only [Block.region] at h3 h4
    simp only [h1, run, List.foldl_cons, List.foldl_nil, exec]
    rw [if_pos ⟨h2, by simp only [List.length_singleton]; omega⟩]
    refine ⟨(setPc_id _ _ hpc).symm, (bsetPc_id _ _ hin).symm, rfl, rfl, ?_⟩
    simp only [State.poke]
    rw [show b.ptr + (p - b.ptr) = p by omega]
  case h_4 hl _ => cases hn; exact ⟨(setPc_id _ _ hpc).symm, (bsetPc_id _ _ hin).symm, rfl, rfl, rfl⟩
  case h_5 op call hl _ =>
    split at hn
    · rename_i hs
      simp only [Option.map_eq_some_iff] at hn
      obtain ⟨q, hq, rfl⟩ := hn
      simp only [run, List.foldl_cons, List.foldl_nil, exec, step, hpc, hl, hs]
      rw [← hin] at hq
      obtain ⟨e1, e2, -⟩ := exec_act hq (fun v h => hr v h)
      have e3 := exec_act_mem hq
      refine ⟨rfl, e1, e2, rfl, ?_⟩
      simp only [evOf] at e3
      rw [e3, hin]
      cases l.inner <;> rfl
    · cases hn
  case h_6 op hl _ =>
    simp only [run, List.foldl_cons, List.foldl_nil, exec, step, hpc, hl]
    split at hn <;> cases hn <;> rename_i hs <;> simp only [hs] <;> exact ⟨rfl, (bsetPc_id _ _ hin).symm, rfl, rfl, rfl⟩
  case h_7 op call r hl _ =>
    simp only [Option.map_eq_some_iff] at hn
    obtain ⟨q, hq, rfl⟩ := hn
    have hpi : l.inner = .ret call r := by
      cases hli : l.inner <;> simp only [hli, lnext, reduceCtorEq] at hq
      split at hq <;> cases hq
      rename_i hc
      rw [hc.1, hc.2]
    rw [← hin] at hq
    simp only [run, List.foldl_cons, List.foldl_nil, exec, step, hpc, hl, hin, hpi]
    obtain ⟨e1, e2, -⟩ := exec_act hq (fun v h => hr v h)
    have e3 := exec_act_mem hq
    simp only [evOf, Bump.exec] at e1 e2 e3
    refine ⟨rfl, e1, e2, rfl, ?_⟩
    simp only [State.goto]
    rw [e3, hin, hpi]
  case h_8 op y hy hl _ =>
    simp only [Option.map_eq_some_iff] at hn
    obtain ⟨q, hq, rfl⟩ := hn
    simp only [Tr, hl] at htr
    obtain ⟨-, call, -, hcall⟩ := htr
    have hninv : ∀ c, y ≠ .invoke c := by
      rintro c rfl
      cases hli : l.inner <;> simp only [hli, lnext, reduceCtorEq] at hq
      rw [hli] at hcall; cases hcall
    have hnret : ∀ c r, l.inner ≠ .ret c r := by
      intro c r hli
      rw [hli] at hq
      cases y <;> simp only [lnext, reduceCtorEq] at hq
      exact hy _ _ rfl
    rw [← hin] at hq
    obtain ⟨e1, e2, -⟩ := exec_act hq (fun v h => hr v h)
    have e3 := exec_act_mem hq
    have hevo : evOf a.1 y = .step a.1 := by cases y <;> first | rfl | exact absurd rfl (hninv _)
    rw [hevo] at e1 e2 e3
    simp only [Bump.exec] at e1 e2 e3
    simp only [run, List.foldl_cons, List.foldl_nil, exec, step, hpc, hl, hin]
    refine ⟨(setPc_id _ _ (by rw [hpc, hl])).symm, e1, e2, rfl, ?_⟩
    simp only
    rw [e3, hin]
    cases hli : l.inner <;> cases y <;> rfl
  case h_9 lay p i q v hl _ =>
    split at hn <;> cases hn
    rename_i hc
    obtain ⟨hc1, rfl, rfl⟩ := hc
    simp only [run, List.foldl_cons, List.foldl_nil, exec, step, hpc, hl, hc1, if_true]
    exact ⟨rfl, (bsetPc_id _ _ hin).symm, rfl, rfl, rfl⟩
  case h_10 lay p i hl _ =>
    split at hn <;> cases hn
    rename_i hc
    simp only [run, List.foldl_cons, List.foldl_nil, exec, step, hpc, hl, hc, if_false]
    exact ⟨rfl, (bsetPc_id _ _ hin).symm, rfl, rfl, rfl⟩
  case h_11 b ns d i q v hl _ =>
    split at hn <;> cases hn
    exact ⟨(setPc_id s.pc a.1 hpc).symm, (bsetPc_id _ _ hin).symm, rfl, rfl, rfl⟩
  case h_12 b ns d i q v hl _ =>
    split at hn <;> cases hn
    rename_i hc
    obtain ⟨hc1, rfl⟩ := hc
    simp only [Tr, hl] at htr
    have hlt := htr.2.2 (by rw [hc1]; simp)
    simp only [run, List.foldl_cons, List.foldl_nil, exec, step, hpc, hl, hlt, if_true]
    rw [hh b ns d i v hl hc1]
    exact ⟨rfl, (bsetPc_id _ _ hin).symm, rfl, rfl, rfl⟩
  case h_13 b ns d i hl _ =>
    split at hn <;> cases hn
    rename_i hc
    simp only [run, List.foldl_cons, List.foldl_nil, exec, step, hpc, hl, hc.2, if_false]
    exact ⟨rfl, (bsetPc_id _ _ hin).symm, rfl, rfl, rfl⟩
  case h_14 op r op' r' hl _ =>
    split at hn <;> cases hn
    rename_i hc
    obtain ⟨rfl, rfl⟩ := hc
    simp only [run, List.foldl_cons, List.foldl_nil, exec, step, hpc, hl]
    exact ⟨rfl, (bsetPc_id _ _ hin).symm, rfl, rfl, rfl⟩
  case h_15 => cases hn

/-- What is at `q` after the events of `P`. -/
def SeesIn (X : Graph n GAct) (m : Mem) (P : List (MM.Ev n)) (q : Nat) (v : Byte) : Prop :=
  (∃ w ∈ P, StoresByte X w q v ∧ ∀ w' ∈ P, WritesByte X w' q → w' = w ∨ X.hb w' w) ∨ ((∀ w ∈ P, ¬ WritesByte X w q) ∧ v = m q)

/-- The state of the machine after the events of `P`. -/
structure GDone (e : Env) (X : Graph n GAct) (src : MM.Ev n → MM.Ev n) (m : Mem) (P : List (MM.Ev n)) (s : State n) : Prop where
  loc : ∀ t, ∃ k l, k ≤ (X.acts t).length ∧ (∀ j, (t, j) ∈ P ↔ j < k) ∧ grun e .start ((X.acts t).take k) = some l ∧ s.pc t = l.pc ∧ s.bump.pc t = l.inner ∧
    ∀ b ns dst i v, l.pc = .copy b ns dst i → l.held = some v → s.bump.mem (b.ptr + i) = v
  last : ∀ w v, w ∈ P → X.Writes gKind w v → (∀ w' ∈ P, X.IsWrite gKind w' → w' = w ∨ X.mo w' w) → s.bump.consumed = v
  none : (∀ w ∈ P, ¬ X.IsWrite gKind w) → s.bump.consumed = X.initial
  mem : ∀ q, SeesIn X m P q (s.bump.mem q)
  live : ∀ r b, r ∈ P → Gives X r b → (∀ i c, Takes X i c → src i = r → i ∉ P) → b ∈ s.live

theorem gdone_init (m : Mem) : GDone e X src m [] (init n X.initial m) where
  loc t := ⟨0, .start, Nat.zero_le _, by simp, rfl, rfl, rfl, fun _ _ _ _ _ h => by simp [Loc.start] at h⟩
  last w v h := by cases h
  none _ := rfl
  mem q := .inr ⟨(fun w h => by cases h), rfl⟩
  live r b h := by cases h

theorem blockAt_eq {r : MM.Ev n} {b : Block} (h : Gives X r b) : blockAt X r = some b := by
  obtain ⟨op, res, h1, h2⟩ := h
  simp only [Graph.At] at h1
  simp only [blockAt, h1, h2]

/-- What is known of the next event in the order. -/
structure Next (X : Graph n GAct) (S : MM.Ev n → MM.Ev n → Prop) (P : List (MM.Ev n)) (a : MM.Ev n) : Prop where
  notin : a ∉ P
  before : ∀ b, X.IsEvent b → X.Before gKind S b a → b ∈ P
  after : ∀ b ∈ P, ¬ X.Before gKind S a b
  events : ∀ b ∈ P, X.IsEvent b

theorem next_of {S : MM.Ev n → MM.Ev n → Prop} (hw : X.WellFormed gKind) (hs : X.Ordered gKind S) {P Q : List (MM.Ev n)} {a : MM.Ev n} (ho : X.Order (P ++ a :: Q))
    (hb : (P ++ a :: Q).Pairwise fun a b => ¬ X.Before gKind S b a) : Next X S P a := by
  rw [List.pairwise_append] at hb
  obtain ⟨_, hb2, hb3⟩ := hb
  rw [List.pairwise_cons] at hb2
  refine ⟨fun h => ?_, fun b hb0 hb1 => ?_, fun b hb0 => hb3 b hb0 a (by simp), fun b hb => (ho.2.1 b).mp (by simp [hb])⟩
  · have := ho.1
    rw [List.nodup_append] at this
    exact this.2.2 a h a (by simp) rfl
  · have := (ho.2.1 b).mpr hb0
    rcases List.mem_append.mp this with h1 | h1
    · exact h1
    · rcases List.mem_cons.mp h1 with rfl | h1
      · exact absurd hb1 (Graph.before_irrefl hw hs _)
      · exact absurd hb1 (hb2.1 b h1)

theorem next_reads (hw : X.WellFormed gKind) {S : MM.Ev n → MM.Ev n → Prop} (hs : X.Ordered gKind S) {P : List (MM.Ev n)} {a : MM.Ev n} (hN : Next X S P a) {m : Mem} {s : State n} (h : GDone e X src m P s)
    {x : GAct} (hat : X.At a x) {v : Nat} (hv : gKind.reads x = some v) : v = s.bump.consumed := by
  have hR : X.Reads gKind a v := ⟨x, hat, hv⟩
  have hA : X.Atomic gKind a := .inl ⟨v, hR⟩
  have h1 := hw.rf_value _ _ hR
  cases hrf : X.rf a with
  | none =>
    rw [hrf] at h1
    rw [h1]
    refine (h.none fun w hwP hww => ?_).symm
    refine hN.after w hwP (.inr ⟨a, w, .inl rfl, hA, .inr hww, hs.cob _ _ (.inr (.inr ⟨⟨v, hR⟩, hww, ?_, .inl hrf⟩)), .inl rfl⟩)
    rintro rfl; exact hN.notin hwP
  | some w =>
    rw [hrf] at h1
    have hwW : X.IsWrite gKind w := ⟨v, h1⟩
    have hwP : w ∈ P := hN.before w (by obtain ⟨y, hy, _⟩ := h1; exact ⟨y, hy⟩) (.inr ⟨w, a, .inl rfl, .inr hwW, hA, hs.cob _ _ (.inr (.inl ⟨⟨v, hR⟩, hrf⟩)), .inl rfl⟩)
    refine (h.last w v hwP h1 fun w' hw'P hw'W => ?_).symm
    rcases hw.mo_total w' w hw'W hwW with h2 | h2 | h2
    · exact .inl h2
    · exact .inr h2
    · exfalso
      refine hN.after w' hw'P (.inr ⟨a, w', .inl rfl, hA, .inr hw'W, hs.cob _ _ (.inr (.inr ⟨⟨v, hR⟩, hw'W, ?_, .inr ⟨w, hrf, h2⟩⟩)), .inl rfl⟩)
      rintro rfl; exact hN.notin hw'P

/-- Where the thread of the next event is. -/
theorem next_loc (hw : X.WellFormed gKind) (hx : GExecutes e X) {S : MM.Ev n → MM.Ev n → Prop} {P : List (MM.Ev n)} {a : MM.Ev n} (hN : Next X S P a) {m : Mem} {s : State n} (h : GDone e X src m P s) {x : GAct} (hat : X.At a x) :
    ∃ l l', (∀ j, (a.1, j) ∈ P ↔ j < a.2) ∧ s.pc a.1 = l.pc ∧ s.bump.pc a.1 = l.inner ∧ (∀ b ns dst i v, l.pc = .copy b ns dst i → l.held = some v → s.bump.mem (b.ptr + i) = v) ∧
      Tr e (X.acts a.1) a.2 l ∧ Tr3 (X.acts a.1) a.2 l ∧ ((∀ b ns d i, l.pc ≠ .copy b ns d i) → l.held = none) ∧ gnext e l x = some l' ∧ grun e .start ((X.acts a.1).take (a.2 + 1)) = some l' := by
  obtain ⟨t, k⟩ := a
  have hlen : k < (X.acts t).length := (List.getElem?_eq_some_iff.mp hat).1
  obtain ⟨k', l, hk', hmem, hl, h1, h2, h3⟩ := h.loc t
  have hkk : k' = k := by
    refine Nat.le_antisymm (Nat.le_of_not_lt fun hlt => ?_) (Nat.le_of_not_lt fun hlt => ?_)
    · exact hN.notin ((hmem k).mpr hlt)
    · have h1 := hw.sb t k' k hlt hlen
      have := hN.before (t, k') ((Graph.isEvent_iff _).mpr (by simp only; omega)) (.inl h1)
      exact Nat.lt_irrefl _ ((hmem k').mp this)
  subst hkk
  obtain ⟨l', hl'⟩ := hx.1 t
  obtain ⟨l0, k1, k2, k3, k7, k4⟩ := prefix_at (valid_inv hx t) hl' (Nat.le_of_lt hlen)
  rw [hl] at k1
  cases k1
  obtain ⟨l'', k5, k6⟩ := k4 x hat
  exact ⟨l, l'', hmem, h1, h2, h3, k2, k3, k7, k5, k6⟩

section
variable (he : e.Valid) (hi : X.initial ≤ e.len) (hp : GPossible X) (hx : GExecutes e X) (hd : Disciplined X src) {m : Mem}
include he hi hp hx hd

omit he hi hp hx hd in
/-- The program owns what it passes or uses. -/
theorem next_live {S : MM.Ev n → MM.Ev n → Prop} {P : List (MM.Ev n)} {a : MM.Ev n} (hN : Next X S P a) {s : State n} (h : GDone e X src m P s) {b : Block} (hb : Gives X (src a) b) (hh : X.hb (src a) a)
    (ha : ∀ i c, Takes X i c → src i = src a → i = a ∨ X.hb a i) : b ∈ s.live := by
  refine h.live _ _ (hN.before _ (by obtain ⟨_, _, h, _⟩ := hb; exact ⟨_, h⟩) (.inl hh)) hb fun i c hi hs hm => ?_
  rcases ha i c hi hs with rfl | h'
  · exact hN.notin hm
  · exact hN.after i hm (.inl h')

theorem next_use {S : MM.Ev n → MM.Ev n → Prop} {P : List (MM.Ev n)} {a : MM.Ev n} (hN : Next X S P a) {s : State n} (h : GDone e X src m P s) {p : Nat} (hu : UserUses X a p) :
    ∃ b, blockAt X (src a) = some b ∧ b ∈ s.live ∧ b.region.Has p := by
  obtain ⟨b, h1, h2, h3⟩ := hd.used a p hu
  exact ⟨b, blockAt_eq h1, next_live hN h h1 h3 fun i c hi hs => .inr (hd.before a p i c hu hi hs), h2⟩

theorem next_take {S : MM.Ev n → MM.Ev n → Prop} {P : List (MM.Ev n)} {a : MM.Ev n} (hN : Next X S P a) {s : State n} (h : GDone e X src m P s) {op : Op} (hat : X.At a (.invoke op)) : ∀ b ∈ op.takes, b ∈ s.live := by
  intro b hb
  have ht : Takes X a b := ⟨op, hat, hb⟩
  obtain ⟨h1, h2⟩ := hd.taken _ _ ht
  exact next_live hN h h1 h2 fun i c hi hs => .inl (hd.once _ _ _ _ hi ht hs)

/-- Reading gives what is in the memory of the machine. -/
theorem next_byte (hv : ReadsVisibleFrom X m) {S : MM.Ev n → MM.Ev n → Prop} {P : List (MM.Ev n)} {a : MM.Ev n} (hN : Next X S P a) {s : State n} (h : GDone e X src m P s) {p : Nat} {v : Byte}
    (ha : X.At a (.userRead p v) ∨ X.At a (.read p v)) : s.bump.mem p = v := by
  have hbef : ∀ w ∈ P, WritesByte X w p → X.hb w a := fun w hw h =>
    (accesses_ordered he hi hp hx hd (.inr h) (reads_accesses ha) (fun h => hN.notin (h ▸ hw)) (.inl h)).resolve_right fun h => hN.after w hw (.inl h)
  rcases hv a p v ha with ⟨w, h1, h2, h3⟩ | ⟨h1, rfl⟩
  · have hwP : w ∈ P := hN.before _ h1.writes.event (.inl h2)
    rcases h.mem p with ⟨w', k1, k2, k3⟩ | ⟨k1, -⟩
    · rcases k3 w hwP h1.writes with rfl | k4
      · exact k2.unique h1
      · exact absurd ⟨k4, hbef w' k1 k2.writes⟩ (h3 w' k2.writes)
    · exact absurd h1.writes (k1 w hwP)
  · rcases h.mem p with ⟨w', k1, k2, k3⟩ | ⟨-, k2⟩
    · exact absurd (hbef w' k1 k2.writes) (h1 w' k2.writes)
    · exact k2

omit he hi hp hx hd in
theorem held_copy {l l' : Loc} {x : GAct} (hl : (∀ b ns d i, l.pc ≠ .copy b ns d i) → l.held = none) (h : gnext e l x = some l') {b : Block} {ns dst i : Nat} {v : Byte} (hpc : l'.pc = .copy b ns dst i) (hh : l'.held = some v) :
    x = .read (b.ptr + i) v := by
  have hl' : ∀ pc, l.pc = pc → (∀ b ns d i, pc ≠ .copy b ns d i) → ¬ l.held = some v := fun pc h1 h2 h3 => by rw [hl (h1 ▸ h2)] at h3; cases h3
  simp only [gnext] at h
  split at h
  case h_1 hp => cases h; cases hpc
  case h_2 hp => cases h; rw [hp] at hpc; cases hpc
  case h_3 hp => cases h; rw [hp] at hpc; cases hpc
  case h_4 hp => cases h; rw [hp] at hpc; cases hpc
  case h_5 hp =>
    split at h
    · simp only [Option.map_eq_some_iff] at h; obtain ⟨q, _, rfl⟩ := h; cases hpc
    · cases h
  case h_6 hp => split at h <;> cases h <;> cases hpc
  case h_7 hp => simp only [Option.map_eq_some_iff] at h; obtain ⟨q, _, rfl⟩ := h; exact absurd hh (hl' _ hp (by simp))
  case h_8 _ hp => simp only [Option.map_eq_some_iff] at h; obtain ⟨q, _, rfl⟩ := h; exact absurd hh (hl' _ hp (by simp))
  case h_9 hp => split at h <;> cases h; cases hpc
  case h_10 hp => split at h <;> cases h; cases hpc
  case h_11 hp =>
    split at h <;> cases h
    rename_i hc
    simp only [hp] at hpc
    cases hpc
    cases hh
    rw [hc.2.2]
  case h_12 hp => split at h <;> cases h; cases hh
  case h_13 hp => split at h <;> cases h; cases hpc
  case h_14 hp => split at h <;> cases h; cases hpc
  case h_15 => cases h

omit he hi hp hx hd in
theorem stored_value {call : Call} (h : storedValue call ≠ []) : call.value = some (storedValue call) := by
  cases call <;> simp only [storedValue, ne_eq, not_true_eq_false] at h <;> rfl

omit he hi hp hx hd in
/-- What an action does to the memory. -/
theorem moved_mem {s s' : State n} {a : MM.Ev n} {l l' : Loc} {x : GAct} (hat : X.At a x) (hn : gnext e l x = some l') (h3 : Tr3 (X.acts a.1) a.2 l) (hM : Moved s s' a.1 l l' x) (q : Nat) :
    (WritesByte X a q → StoresByte X a q (s'.bump.mem q)) ∧ (¬ WritesByte X a q → s'.bump.mem q = s.bump.mem q) := by
  have hone : ∀ p v, (q = p → writeBytes s.bump.mem p [v] q = v) ∧ (q ≠ p → writeBytes s.bump.mem p [v] q = s.bump.mem q) := by
    intro p v
    refine ⟨fun h => ?_, fun h => ?_⟩
    · subst h; simp [writeBytes]
    · simp only [writeBytes, List.length_singleton]; rw [if_neg (by omega)]
  have hm := hM.mem
  have hW : WritesByte X a q → (∃ v, x = .userWrite q v) ∨ (∃ v, x = .write q v) ∨ ∃ r, x = .bump (.write r) ∧ r.Has q := by
    rintro (⟨v, h⟩ | ⟨v, h⟩ | ⟨r, h, h'⟩)
    · exact .inl ⟨v, at_unique hat h⟩
    · exact .inr (.inl ⟨v, at_unique hat h⟩)
    · exact .inr (.inr ⟨r, at_unique hat h, h'⟩)
  have hsame : s'.bump.mem = s.bump.mem → ((∀ p v, x ≠ .userWrite p v) ∧ (∀ p v, x ≠ .write p v) ∧ ∀ r, x ≠ .bump (.write r)) →
      (WritesByte X a q → StoresByte X a q (s'.bump.mem q)) ∧ (¬ WritesByte X a q → s'.bump.mem q = s.bump.mem q) := by
    rintro h ⟨k1, k2, k3⟩
    refine ⟨fun hw => ?_, fun _ => by rw [h]⟩
    rcases hW hw with ⟨v, h⟩ | ⟨v, h⟩ | ⟨r, h, _⟩
    · exact absurd h (k1 _ _)
    · exact absurd h (k2 _ _)
    · exact absurd h (k3 _)
  cases x with
  | write p v =>
    simp only at hm
    rw [hm]
    refine ⟨fun hw => ?_, fun hw => (hone p v).2 fun h => hw (.inr (.inl ⟨v, h ▸ hat⟩))⟩
    rcases hW hw with ⟨v', h⟩ | ⟨v', h⟩ | ⟨r, h, _⟩ <;> cases h
    rw [(hone q v).1 rfl]
    exact .inr (.inl hat)
  | userWrite p v =>
    simp only at hm
    rw [hm]
    refine ⟨fun hw => ?_, fun hw => (hone p v).2 fun h => hw (.inl ⟨v, h ▸ hat⟩)⟩
    rcases hW hw with ⟨v', h⟩ | ⟨v', h⟩ | ⟨r, h, _⟩ <;> cases h
    rw [(hone q v).1 rfl]
    exact .inl hat
  | bump y =>
    have hin := gnext_inner hn
    simp only [GAct.bump?] at hin
    cases y with
    | write r =>
      cases hli : l.inner <;> rw [hli] at hin <;> simp only [lnext, reduceCtorEq] at hin
      rename_i call al
      split at hin
      case isFalse => cases hin
      rename_i hr
      simp only [hli] at hm
      rw [hm]
      subst hr
      refine ⟨fun hw => ?_, fun hw => ?_⟩
      · rcases hW hw with ⟨v', h⟩ | ⟨v', h⟩ | ⟨r, h, hq⟩ <;> cases h
        have hq1 := hq.1
        have hq2 := hq.2
        simp only at hq1 hq2
        have hne : storedValue call ≠ [] := fun h => by rw [h] at hq2; simp at hq2; omega
        obtain ⟨j, hj⟩ := h3.2.2.1.1 call (by rw [hli]; rfl)
        refine .inr (.inr ⟨_, j, call, storedValue call, hat, hq, hj, stored_value hne, ?_⟩)
        simp only [writeBytes]
        rw [if_pos ⟨hq1, hq2⟩, List.getElem?_eq_getElem (by omega), List.getD_eq_getElem?_getD, List.getElem?_eq_getElem (by omega)]
        rfl
      · simp only [writeBytes]
        rw [if_neg (fun (h : al.ptr ≤ q ∧ q < al.ptr + (storedValue call).length) => hw (.inr (.inr ⟨_, hat, h⟩)))]
    | _ => exact hsame hm (by simp)
  | _ => exact hsame hm (by simp)

/-- A byte that is being copied is not written. -/
theorem copied_kept {S : MM.Ev n → MM.Ev n → Prop} {P : List (MM.Ev n)} {a : MM.Ev n} (hN : Next X S P a) {u : _root_.Fin n} {k : Nat} {l : Loc} (hk : k ≤ (X.acts u).length) (hmem : ∀ j, (u, j) ∈ P ↔ j < k)
    (hl : grun e .start ((X.acts u).take k) = some l) {b : Block} {ns dst i : Nat} {v : Byte} (hpc : l.pc = .copy b ns dst i) (hh : l.held = some v) : ¬ WritesByte X a (b.ptr + i) := by
  intro hw
  obtain ⟨lf, hlf⟩ := hx.1 u
  obtain ⟨l0, k1, k2, k3, -, -⟩ := prefix_at (valid_inv hx u) hlf hk
  rw [hl] at k1
  cases k1
  simp only [Tr, hpc] at k2
  obtain ⟨⟨i1, m1, m2, m3⟩, -, -⟩ := k2
  obtain ⟨i0, m4, m5, m6⟩ := k3.2.2.2 (by rw [hpc]; simp)
  cases m5 i1 _ m1 m2 m3
  simp only [Tr2, hpc] at m6
  obtain ⟨m7, j0, m8, m9, m10⟩ := m6.2.2 v hh
  have m10 : X.At (u, j0) (.read (b.ptr + i) v) := m10
  have htk : Takes X (u, i1) b := ⟨_, m2, rfl⟩
  have hjP : (u, j0) ∈ P := (hmem j0).mpr m9
  have hhb : X.hb (u, j0) a := (accesses_ordered he hi hp hx hd (.inl (.inr ⟨v, m10⟩)) (.inr hw) (fun h => hN.notin (h ▸ hjP)) (.inr hw)).resolve_right fun h => hN.after _ hjP (.inl h)
  obtain ⟨k', b', n1, n2, n3, n4⟩ := write_after_copy he hi hp hx hd htk m8 (fun j op r h1 h2 => m3 j op r h1 (by omega)) m10 ⟨Nat.le_add_right _ _, Nat.add_lt_add_left (Nat.lt_of_lt_of_le m7 (Nat.min_le_right _ _)) _⟩ hw hhb
  obtain ⟨op, r, n5, -⟩ := n2
  have hk'P : (u, k') ∈ P := hN.before _ ⟨_, n5⟩ (.inl n4)
  exact m3 k' op r (by omega) ((hmem k').mp hk'P) n5

/-- One event. -/
theorem gdone_step (hv : ReadsVisibleFrom X m) {S : MM.Ev n → MM.Ev n → Prop} (hs : X.Ordered gKind S) {P : List (MM.Ev n)} {a : MM.Ev n} (hN : Next X S P a) (hev : X.IsEvent a) {s : State n} (h : GDone e X src m P s) :
    GDone e X src m (P ++ [a]) (run e s (machineEvents X src a)) := by
  obtain ⟨x, hat⟩ := hev
  obtain ⟨l, l', hmem, hpc, hin, hheld, ht1, ht3, hnone, hn, hrun⟩ := next_loc hp.1 hx hN h hat
  have hM := machine_step (src := src) hat hpc hin hn ht1 (fun v hv => next_reads hp.1 hs hN h hat hv) hheld (fun op hop => by subst hop; exact next_take he hi hp hx hd hN h hat)
    (fun p v hxu => by subst hxu; exact next_use he hi hp hx hd hN h (.inr ⟨v, hat⟩))
  generalize run e s (machineEvents X src a) = s' at hM
  have hmm := moved_mem hat hn ht3 hM
  refine ⟨fun u => ?_, ?_, ?_, fun q => ?_, fun r b hr hb hno => ?_⟩
  · by_cases hu : u = a.1
    · subst hu
      refine ⟨a.2 + 1, l', (List.getElem?_eq_some_iff.mp hat).1, fun j => ?_, hrun, by rw [hM.pc, setPc_self], by rw [hM.inner, Bump.setPc_self], fun b ns dst i v h1 h2 => ?_⟩
      · obtain ⟨t, k⟩ := a
        simp only [List.mem_append, hmem, List.mem_singleton, Prod.mk.injEq, true_and]; omega
      · have hxr := held_copy hnone hn h1 h2
        subst hxr
        rw [hM.mem]
        exact next_byte he hi hp hx hd hv hN h (.inr hat)
    · obtain ⟨k, l0, h1, h2, h3, h4, h5, h6⟩ := h.loc u
      refine ⟨k, l0, h1, fun j => ?_, h3, by rw [hM.pc, setPc_ne _ _ hu]; exact h4, by rw [hM.inner, Bump.setPc_ne _ _ hu]; exact h5, fun b ns dst i v h7 h8 => ?_⟩
      · obtain ⟨t, k⟩ := a
        simp only at hu
        simp only [List.mem_append, h2, List.mem_singleton, Prod.mk.injEq, hu, false_and, or_false]
      · rw [(hmm _).2 (copied_kept he hi hp hx hd hN h1 h2 h3 h7 h8)]
        exact h6 b ns dst i v h7 h8
  · intro w v hwP hwv hmax
    rw [hM.consumed]
    cases hwx : gKind.writes x with
    | none =>
      have hnw : ∀ v, ¬ X.Writes gKind a v := by
        rintro v ⟨y, hy, hyv⟩
        rw [at_unique hat hy, hyv] at hwx; cases hwx
      have hwP' : w ∈ P := by
        rcases List.mem_append.mp hwP with h1 | h1
        · exact h1
        · simp only [List.mem_singleton] at h1; subst h1; exact absurd hwv (hnw _)
      exact h.last w v hwP' hwv fun w' h1 h2 => hmax w' (List.mem_append_left _ h1) h2
    | some new =>
      have hW : X.Writes gKind a new := ⟨x, hat, hwx⟩
      rcases List.mem_append.mp hwP with h1 | h1
      · exfalso
        rcases hmax a (by simp) ⟨_, hW⟩ with h2 | h2
        · exact hN.notin (h2 ▸ h1)
        · exact hN.after w h1 (.inr ⟨a, w, .inl rfl, .inr ⟨_, hW⟩, .inr ⟨_, hwv⟩, hs.cob _ _ (.inl ⟨⟨_, hW⟩, ⟨_, hwv⟩, h2⟩), .inl rfl⟩)
      · simp only [List.mem_singleton] at h1
        subst h1
        obtain ⟨y, hy, hyv⟩ := hwv
        rw [← at_unique hat hy, hwx] at hyv
        simpa using hyv
  · intro hno
    rw [hM.consumed]
    have hwx : gKind.writes x = none := by
      cases hwx : gKind.writes x with
      | none => rfl
      | some v => exact absurd ⟨v, x, hat, hwx⟩ (hno a (by simp))
    rw [hwx]
    exact h.none fun w hwP => hno w (List.mem_append_left _ hwP)
  · by_cases hw : WritesByte X a q
    · refine .inl ⟨a, by simp, (hmm q).1 hw, fun w' hw' hW => ?_⟩
      rcases List.mem_append.mp hw' with h1 | h1
      · exact .inr ((accesses_ordered he hi hp hx hd (.inr hW) (.inr hw) (fun h => hN.notin (h ▸ h1)) (.inl hW)).resolve_right fun h => hN.after _ h1 (.inl h))
      · exact .inl (by simpa using h1)
    · rw [(hmm q).2 hw]
      have hcase : ∀ w ∈ P ++ [a], WritesByte X w q → w ∈ P := by
        intro w h1 h2
        rcases List.mem_append.mp h1 with h1 | h1
        · exact h1
        · simp only [List.mem_singleton] at h1; subst h1; exact absurd h2 hw
      rcases h.mem q with ⟨w, h1, h2, h3⟩ | ⟨h1, h2⟩
      · exact .inl ⟨w, List.mem_append_left _ h1, h2, fun w' h4 h5 => h3 w' (hcase w' h4 h5) h5⟩
      · exact .inr ⟨fun w h4 h5 => h1 w (hcase w h4 h5) h5, h2⟩
  · rw [hM.live]
    rcases List.mem_append.mp hr with hrP | hra
    · have hlive := h.live r b hrP hb fun i c h1 h2 h3 => hno i c h1 h2 (List.mem_append_left _ h3)
      cases x with
      | invoke op =>
        simp only
        cases htk : op.takes with
        | none => exact hlive
        | some c =>
          simp only
          refine (List.mem_erase_of_ne fun hbc => ?_).mpr hlive
          subst hbc
          have hT : Takes X a b := ⟨op, hat, htk⟩
          obtain ⟨h1, h2⟩ := hd.taken _ _ hT
          by_cases hsr : src a = r
          · exact hno a b hT hsr (by simp)
          · have hpos := gives_pos hp hx hd r (hN.events r hrP) b hb
            rcases C93_one_owner he hi hp hx hd hb h1 (fun h => hsr h.symm) (fun hdis => hdis b.ptr ⟨⟨Nat.le_refl _, Nat.lt_add_of_pos_right hpos⟩, ⟨Nat.le_refl _, Nat.lt_add_of_pos_right hpos⟩⟩) with ⟨i, c, k1, k2, k3⟩ | ⟨i, c, k1, k2, k3⟩
            · refine hno i c k1 k2 (List.mem_append_left _ (hN.before i ?_ (.inl (hp.1.hb_trans _ _ _ k3 h2))))
              obtain ⟨_, h, _⟩ := k1; exact ⟨_, h⟩
            · cases hd.once _ _ _ _ k1 hT k2
              exact hN.after r hrP (.inl k3)
      | ret op res => exact List.mem_append_right _ hlive
      | _ => exact hlive
    · simp only [List.mem_singleton] at hra
      subst hra
      obtain ⟨op, res, h1, h2⟩ := hb
      cases at_unique hat h1
      simp only [h2]
      simp

/-- All events. -/
theorem gdone_run (hv : ReadsVisibleFrom X m) {S : MM.Ev n → MM.Ev n → Prop} (hs : X.Ordered gKind S) (P Q : List (MM.Ev n)) (ho : X.Order (P ++ Q)) (hb : (P ++ Q).Pairwise fun a b => ¬ X.Before gKind S b a) :
    GDone e X src m P (machineAfter e X src m P) := by
  generalize hlen : P.length = k
  induction k generalizing P Q with
  | zero => rw [List.length_eq_zero_iff.mp hlen]; exact gdone_init m
  | succ k ih =>
    have hne : P ≠ [] := fun h => by rw [h] at hlen; cases hlen
    obtain ⟨P', a, rfl⟩ : ∃ P' a, P = P' ++ [a] := ⟨_, _, (List.dropLast_append_getLast hne).symm⟩
    rw [List.append_assoc, List.singleton_append] at ho hb
    have h1 := ih P' (a :: Q) ho hb (by simpa using hlen)
    have h2 := gdone_step he hi hp hx hd hv hs (next_of hp.1 hs ho hb) ((ho.2.1 a).mp (by simp)) h1
    simpa [machineAfter, run, List.flatMap_append, List.foldl_append] using h2

/-- What the machine does for one event. -/
theorem same_step (hv : ReadsVisibleFrom X m) {S : MM.Ev n → MM.Ev n → Prop} (hs : X.Ordered gKind S) {P : List (MM.Ev n)} {a : MM.Ev n} (hN : Next X S P a) (hev : X.IsEvent a) {s : State n} (h : GDone e X src m P s) :
    Same X s (run e s (machineEvents X src a)) a := by
  obtain ⟨x, hat⟩ := hev
  obtain ⟨l, l', hmem, hpc, hin, hheld, ht1, ht3, hnone, hn, hrun⟩ := next_loc hp.1 hx hN h hat
  have hM := machine_step (src := src) hat hpc hin hn ht1 (fun v hv => next_reads hp.1 hs hN h hat hv) hheld (fun op hop => by subst hop; exact next_take he hi hp hx hd hN h hat)
    (fun p v hxu => by subst hxu; exact next_use he hi hp hx hd hN h (.inr ⟨v, hat⟩))
  generalize run e s (machineEvents X src a) = s' at hM
  have hmm := moved_mem hat hn ht3 hM
  refine ⟨fun op h1 => ?_, fun op r h1 => ?_, fun v h1 => ?_, fun v h1 => ?_, fun p h1 => ?_, fun p v h1 => next_byte he hi hp hx hd hv hN h h1, fun p v h1 => ((hmm p).1 h1.writes).unique h1, fun p h1 => (hmm p).2 h1⟩
  · cases at_unique hat h1
    have h2 := hM.pc
    refine ⟨?_, next_take he hi hp hx hd hN h hat, ?_⟩
    · cases hl : l.pc <;> simp [gnext, hl] at hn
      rw [hpc, hl]
    · rw [h2, setPc_self]
      cases hl : l.pc <;> simp [gnext, hl] at hn
      rw [← hn]
  · cases at_unique hat h1
    have h2 := hM.pc
    refine ⟨?_, ?_, fun b hb => ?_⟩
    · cases hl : l.pc <;> simp [gnext, hl] at hn
      rw [hpc, hl, hn.1.1, hn.1.2]
    · rw [h2, setPc_self]
      cases hl : l.pc <;> simp [gnext, hl] at hn
      rw [← hn.2]
    · rw [hM.live]
      simp only [Option.mem_def] at hb
      simp [hb]
  · obtain ⟨y, h1, h2⟩ := h1
    cases at_unique hat h1
    exact (next_reads hp.1 hs hN h hat h2).symm
  · obtain ⟨y, h1, h2⟩ := h1
    cases at_unique hat h1
    rw [hM.consumed, h2]; rfl
  · obtain ⟨b, -, h2, h3⟩ := next_use he hi hp hx hd hN h h1
    exact ⟨b, h2, h3⟩

end
end Verif.Bump.Conc
