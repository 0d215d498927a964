import Verif.Model.Program
import Verif.Proofs.Compose
import Verif.Proofs.ConcGlobalRun
/-! # Programs with data structures in memory of the global allocator: the invariant -/
set_option linter.unusedSectionVars false
namespace Verif.Program
open Verif Compose AllocTraits

/-- The state of the specification after the calls. -/
def safter (M : Machine) : M.Sp → List M.Op → M.Sp
  | sp, [] => sp
  | sp, op :: ops => safter M (M.sexec sp op).2 ops

theorem safter_append {M : Machine} : ∀ {ops : List M.Op} {sp : M.Sp} {op : M.Op}, safter M sp (ops ++ [op]) = (M.sexec (safter M sp ops) op).2
  | [], _, _ => rfl
  | _ :: ops, _, _ => safter_append (ops := ops)

theorem srun_append {M : Machine} : ∀ {ops : List M.Op} {sp : M.Sp} {op : M.Op}, (∀ r ∈ M.srun sp ops, M.halts r = false) →
    M.srun sp (ops ++ [op]) = M.srun sp ops ++ [(M.sexec (safter M sp ops) op).1]
  | [], sp, op, _ => by simp [Machine.srun, safter]
  | o :: ops, sp, op, h => by
    have h0 : M.halts (M.sexec sp o).1 = false := h _ (by simp only [Machine.srun]; split <;> simp)
    have h1 : M.srun sp (o :: ops) = (M.sexec sp o).1 :: M.srun (M.sexec sp o).2 ops := by simp [Machine.srun, h0]
    have h2 : M.srun sp (o :: (ops ++ [op])) = (M.sexec sp o).1 :: M.srun (M.sexec sp o).2 (ops ++ [op]) := by simp [Machine.srun, h0]
    rw [h1] at h ⊢
    rw [List.cons_append, h2, srun_append (ops := ops) fun r hr => h r (by simp [hr])]
    rfl

section
variable {ι : Type} [DecidableEq ι] {M : ι → Machine} {n : Nat}

theorem setPart_self (p : ∀ i, Phase (M i)) (i : ι) (x : Phase (M i)) : setPart p i x i = x := by simp [setPart]
theorem setPart_other (p : ∀ i, Phase (M i)) {i j : ι} (x : Phase (M i)) (h : j ≠ i) : setPart p i x j = p j := by simp [setPart, h]

/-- What is known of a structure. -/
structure UseInv (M : Machine) (Rel : M.St → Mem → M.Sp → Prop) (live : List Block) (ended : Bool) (m : Mem) (u : Use M) : Prop where
  live : ∀ b ∈ u.blocks, b ∈ live
  own : ∀ x, M.own x → ∃ b ∈ u.blocks, b.region.Has x
  answers : u.calls.map (·.2) = M.srun u.made (u.calls.map (·.1))
  going : ended = false → (∀ r ∈ u.calls.map (·.2), M.halts r = false) ∧ Rel u.vars m (safter M u.made (u.calls.map (·.1)))

def PhaseInv (M : Machine) (Rel : M.St → Mem → M.Sp → Prop) (live : List Block) (ended : Bool) (m : Mem) : Phase M → Prop
  | .off => True
  | .rest u => UseInv M Rel live ended m u
  | .busy u op view => UseInv M Rel live ended view u ∧ M.permitted u.vars view op

structure PInv (Rel : ∀ i, (M i).St → Mem → (M i).Sp → Prop) (e : Bump.Env) (s : State M n) : Prop where
  al : Bump.Conc.Reachable e s.al
  ub : s.ub = false
  part : ∀ i, PhaseInv (M i) (Rel i) s.al.live s.ended s.mem (s.part i)
  apart : ∀ i j u v, i ≠ j → (s.part i).use = some u → (s.part j).use = some v → ∀ b ∈ u.blocks, b ∉ v.blocks

variable {Rel : ∀ i, (M i).St → Mem → (M i).Sp → Prop} {e : Bump.Env}

theorem UseInv.congr {M : Machine} {Rel : M.St → Mem → M.Sp → Prop} {live live' : List Block} {ended : Bool} {m m' : Mem} {u : Use M} (hM : M.SoundBy Rel) (h : UseInv M Rel live ended m u)
    (hl : ∀ b ∈ u.blocks, b ∈ live') (hm : ∀ b ∈ u.blocks, ∀ x, b.region.Has x → m' x = m x) : UseInv M Rel live' ended m' u :=
  ⟨hl, h.own, h.answers, fun he => ⟨(h.going he).1, hM.2.2 _ _ _ _ (h.going he).2 fun x hx => by
    obtain ⟨b, hb, hx⟩ := h.own x hx
    exact hm b hb x hx⟩⟩

theorem PhaseInv.congr {M : Machine} {Rel : M.St → Mem → M.Sp → Prop} {live live' : List Block} {ended : Bool} {m m' : Mem} {p : Phase M} (hM : M.SoundBy Rel) (h : PhaseInv M Rel live ended m p)
    (hl : ∀ u, p.use = some u → ∀ b ∈ u.blocks, b ∈ live → b ∈ live')
    (hm : ∀ u, p.use = some u → ∀ b ∈ u.blocks, b ∈ live → ∀ x, b.region.Has x → m' x = m x) : PhaseInv M Rel live' ended m' p := by
  cases p with
  | off => trivial
  | rest u =>
    have h : UseInv M Rel live ended m u := h
    exact UseInv.congr hM h (fun b hb => hl u rfl b hb (h.live b hb)) fun b hb => hm u rfl b hb (h.live b hb)
  | busy u op view =>
    have h : UseInv M Rel live ended view u ∧ M.permitted u.vars view op := h
    exact ⟨UseInv.congr hM h.1 (fun b hb => hl u rfl b hb (h.1.live b hb)) fun _ _ _ _ => rfl, h.2⟩

/-- After the end of the process less is known. -/
theorem PhaseInv.ended {M : Machine} {Rel : M.St → Mem → M.Sp → Prop} {live : List Block} {b b' : Bool} {m : Mem} {p : Phase M} (h : PhaseInv M Rel live b m p) (hb : b' = false → b = false) : PhaseInv M Rel live b' m p := by
  cases p with
  | off => trivial
  | rest u => exact ⟨h.live, h.own, h.answers, fun he => h.going (hb he)⟩
  | busy u op view => exact ⟨⟨h.1.live, h.1.own, h.1.answers, fun he => h.1.going (hb he)⟩, h.2⟩

theorem reachable_exec {s : Bump.Conc.State n} (h : Bump.Conc.Reachable e s) {ev : Bump.Conc.Event n} (hev : ev.Valid e.target) : Bump.Conc.Reachable e (Bump.Conc.exec e s ev) := by
  obtain ⟨c, m, evs, hc, hv, rfl⟩ := h
  refine ⟨c, m, evs ++ [ev], hc, fun x hx => ?_, by rw [Bump.Conc.run_append]; rfl⟩
  rcases List.mem_append.mp hx with hx | hx
  · exact hv x hx
  · rw [List.mem_singleton.mp hx]; exact hev

/-- A block that is not disturbed stays with the users, with its contents. -/
theorem exec_keeps (hv : e.Valid) {s : Bump.Conc.State n} (h : Bump.Conc.Reachable e s) {ev : Bump.Conc.Event n} {b : Block} (hb : b ∈ s.live) (hd : ¬ Disturbs ev b) :
    b ∈ (Bump.Conc.exec e s ev).live ∧ ∀ x, b.region.Has x → (Bump.Conc.exec e s ev).bump.mem x = s.bump.mem x := by
  constructor
  · cases ev with
    | invoke t op =>
      simp only [Bump.Conc.exec]
      split
      · cases ht : op.takes with
        | none => exact hb
        | some c =>
          simp only
          refine (List.mem_erase_of_ne ?_).mpr hb
          rintro rfl
          exact hd ht
      · exact hb
    | step t =>
      simp only [Bump.Conc.exec, Bump.Conc.step]
      split <;> (try split) <;> first | exact hb | exact List.mem_append_right _ hb
    | userWrite c off bs =>
      simp only [Bump.Conc.exec]
      split <;> exact hb
    | reset => exact absurd trivial hd
  · intro x hx
    refine Bump.Conc.frame_exec (h.inv hv) ev (i := none) hb (fun _ off bs he => hd (by rw [he]; rfl)) (fun t _ h => by cases h) hx

theorem copyBack_spec (hv : e.Valid) {m : Mem} : ∀ {blocks : List Block} {s : Bump.Conc.State n}, Bump.Conc.Reachable e s → (∀ b ∈ blocks, b ∈ s.live) →
    Bump.Conc.Reachable e (copyBack e s blocks m) ∧ (copyBack e s blocks m).live = s.live ∧
    (∀ b ∈ blocks, ∀ x, b.region.Has x → (copyBack e s blocks m).bump.mem x = m x) ∧
    (∀ b ∈ s.live, b ∉ blocks → ∀ x, b.region.Has x → (copyBack e s blocks m).bump.mem x = s.bump.mem x)
  | [], s, h, _ => ⟨h, rfl, (fun _ hb => by cases hb), fun _ _ _ _ _ => rfl⟩
  | b :: bs, s, h, hl => by
    have hb := hl b (by simp)
    let s1 := Bump.Conc.exec e s (.userWrite b 0 (readBytes m b.ptr b.layout.size))
    have h1 : Bump.Conc.Reachable e s1 := reachable_exec h trivial
    have e1 : s1 = s.poke b.ptr (readBytes m b.ptr b.layout.size) := by
      show (if b ∈ s.live ∧ 0 + (readBytes m b.ptr b.layout.size).length ≤ b.layout.size then s.poke (b.ptr + 0) _ else s) = _
      rw [if_pos ⟨hb, by simp [readBytes]⟩, Nat.add_zero]
    have hlive : s1.live = s.live := by rw [e1]; rfl
    have hin : ∀ x, b.region.Has x → s1.bump.mem x = m x := by
      intro x hx
      have h1 : b.ptr ≤ x := hx.1
      have h2 : x < b.ptr + b.layout.size := hx.2
      rw [e1]
      have := readBytes_writeBytes_self s.bump.mem b.ptr (readBytes m b.ptr b.layout.size)
      have e2 := congrArg (fun l => l[x - b.ptr]?) this
      simp only [readBytes, List.length_map, List.length_range, List.getElem?_map, List.getElem?_range (show x - b.ptr < b.layout.size by omega), Option.map_some, Option.some.injEq] at e2
      rw [show b.ptr + (x - b.ptr) = x by omega] at e2
      exact e2
    obtain ⟨k1, k2, k3, k4⟩ := copyBack_spec hv (blocks := bs) (s := s1) h1 (fun c hc => by rw [hlive]; exact hl c (by simp [hc]))
    refine ⟨k1, k2.trans hlive, fun c hc x hx => ?_, fun c hc hn x hx => ?_⟩
    · by_cases hcb : c ∈ bs
      · exact k3 c hcb x hx
      · rcases List.mem_cons.mp hc with rfl | hc
        · rw [← hin x hx]
          exact k4 c (by rw [hlive]; exact hb) hcb x hx
        · exact absurd hc hcb
    · rw [List.mem_cons, not_or] at hn
      have e2 := k4 c (by rw [hlive]; exact hc) hn.2 x hx
      refine e2.trans ?_
      exact (exec_keeps hv h hc (ev := .userWrite b 0 (readBytes m b.ptr b.layout.size)) (fun h => hn.1 h.symm)).2 x hx

theorem use_setPart {p : ∀ i, Phase (M i)} {i j : ι} {x : Phase (M i)} (hx : x.use = (p i).use) : (setPart p i x j).use = (p j).use := by
  by_cases h : j = i
  · subst h; rw [setPart_self, hx]
  · rw [setPart_other _ _ h]

theorem pinv_init {c : Nat} {m : Mem} (h : c ≤ e.len) : PInv Rel e (initial M n c m) :=
  ⟨⟨c, m, [], h, fun _ hx => (by cases hx), rfl⟩, rfl, fun _ => trivial, fun _ _ _ _ _ h => by cases h⟩

theorem PInv.live {s : State M n} (h : PInv Rel e s) {i : ι} {u : Use (M i)} (hu : (s.part i).use = some u) : ∀ b ∈ u.blocks, b ∈ s.al.live := by
  have := h.part i
  cases hp : s.part i with
  | off => rw [hp] at hu; cases hu
  | rest u' => rw [hp] at hu this; cases hu; exact this.live
  | busy u' op view => rw [hp] at hu this; cases hu; exact this.1.live

theorem pinv_step (hv : e.Valid) (hM : ∀ i, (M i).SoundBy (Rel i)) {s : State M n} (h : PInv Rel e s) (hn : s.ended = false) {ev : Event M n} (hp : ev.Permitted e s) : PInv Rel e (exec e s ev) := by
  cases ev with
  | al ev =>
    obtain ⟨hval, hdist⟩ := hp
    refine ⟨reachable_exec h.al hval, h.ub, fun i => ?_, h.apart⟩
    refine PhaseInv.congr (hM i) (h.part i) (fun u hu b hb hl => ?_) (fun u hu b hb hl x hx => ?_)
    · exact (exec_keeps hv h.al hl fun hd => hdist b hd ⟨i, u, hu, hb⟩).1
    · exact (exec_keeps hv h.al hl fun hd => hdist b hd ⟨i, u, hu, hb⟩).2 x hx
  | make i blocks =>
    obtain ⟨hoff, hbl, hown, hready⟩ := hp
    refine ⟨h.al, h.ub, fun j => ?_, fun j k u v hjk hu hw b hb hc => ?_⟩
    · by_cases hj : j = i
      · subst hj
        simp only [exec, setPart_self]
        exact ⟨fun b hb => (hbl b hb).1, hown, rfl, fun _ => ⟨(fun r hr => by cases hr), (hM j).1 _ hready⟩⟩
      · simp only [exec, setPart_other _ _ hj]
        exact h.part j
    · by_cases hj : j = i <;> by_cases hk : k = i
      · exact hjk (hj.trans hk.symm)
      · subst hj
        simp only [exec, setPart_self, setPart_other _ _ hk, Phase.use, Option.some.injEq] at hu hw
        subst hu
        exact (hbl b hb).2 ⟨k, v, hw, hc⟩
      · subst hk
        simp only [exec, setPart_self, setPart_other _ _ hj, Phase.use, Option.some.injEq] at hu hw
        subst hw
        exact (hbl b hc).2 ⟨j, u, hu, hb⟩
      · simp only [exec, setPart_other _ _ hj, setPart_other _ _ hk] at hu hw
        exact h.apart j k u v hjk hu hw b hb hc
  | call i op =>
    obtain ⟨u, hu, hperm⟩ := hp
    have hi := h.part i
    rw [hu] at hi
    have hx : (Phase.busy u op s.mem).use = (s.part i).use := by rw [hu]; rfl
    simp only [exec, hu]
    refine ⟨h.al, h.ub, fun j => ?_, fun j k u v hjk hu hw => ?_⟩
    · by_cases hj : j = i
      · subst hj
        simp only [setPart_self]
        exact ⟨hi, hperm⟩
      · simp only [setPart_other _ _ hj]
        exact h.part j
    · rw [use_setPart hx] at hu hw
      exact h.apart j k u v hjk hu hw
  | write i b off bs =>
    obtain ⟨u, op, view, hu, hb⟩ := hp
    simp only [exec, hu]
    have hux : (s.part i).use = some u := by rw [hu]; rfl
    refine ⟨reachable_exec (ev := .userWrite b off bs) h.al trivial, h.ub, fun j => ?_, h.apart⟩
    by_cases hj : j = i
    · subst hj
      have hi := h.part j
      rw [hu] at hi ⊢
      refine ⟨UseInv.congr (hM j) hi.1 (fun c hc => ?_) fun _ _ _ _ => rfl, hi.2⟩
      have := hi.1.live c hc
      show c ∈ (Bump.Conc.exec e s.al (.userWrite b off bs)).live
      simp only [Bump.Conc.exec]
      split <;> exact this
    · refine PhaseInv.congr (hM j) (h.part j) (fun v hw c hc hl => ?_) (fun v hw c hc hl x hx => ?_)
      · exact (exec_keeps hv h.al hl fun hd => h.apart i j u v (Ne.symm hj) hux hw b hb (by cases (hd : b = c); exact hc)).1
      · exact (exec_keeps hv h.al hl fun hd => h.apart i j u v (Ne.symm hj) hux hw b hb (by cases (hd : b = c); exact hc)).2 x hx
  | finish i =>
    obtain ⟨u, op, view, hu⟩ := hp
    have hux : (s.part i).use = some u := by rw [hu]; rfl
    have hi := h.part i
    rw [hu] at hi
    obtain ⟨hi, hperm⟩ := hi
    obtain ⟨hnh, hrel⟩ := hi.going hn
    obtain ⟨v', m', hex, hrel', hout⟩ := (hM i).2.1 _ _ _ op hrel hperm
    obtain ⟨k1, k2, k3, k4⟩ := copyBack_spec hv (m := m') h.al hi.live
    simp only [exec, hu, hex]
    refine ⟨k1, h.ub, fun j => ?_, fun j k u1 v hjk hu1 hw b hb => ?_⟩
    · show PhaseInv (M j) (Rel j) (copyBack e s.al u.blocks m').live _ (copyBack e s.al u.blocks m').bump.mem (setPart s.part i _ j)
      by_cases hj : j = i
      · subst hj
        simp only [setPart_self]
        refine ⟨fun b hb => by rw [k2]; exact hi.live b hb, hi.own, ?_, fun hh => ⟨fun r hr => ?_, ?_⟩⟩
        · simp only [List.map_append, List.map_cons, List.map_nil]
          rw [srun_append (fun r hr => hnh r (by rw [hi.answers]; exact hr)), hi.answers]
        · simp only [List.map_append, List.map_cons, List.map_nil, List.mem_append, List.mem_singleton] at hr
          rcases hr with hr | rfl
          · exact hnh r hr
          · exact hh
        · simp only [List.map_append, List.map_cons, List.map_nil, safter_append]
          refine (hM j).2.2 _ m' _ _ (hrel' hh) fun x hx => ?_
          obtain ⟨b, hb, hx⟩ := hi.own x hx
          exact k3 b hb x hx
      · simp only [setPart_other _ _ hj]
        refine PhaseInv.congr (hM j) ((h.part j).ended fun _ => hn) (fun v hw c hc hl => by rw [k2]; exact hl) (fun v hw c hc hl x hx => ?_)
        exact k4 c hl (fun hcb => h.apart i j u v (Ne.symm hj) hux hw c hcb hc) x hx
    · have key : ∀ k (w : Use (M k)), (setPart s.part i (.rest { u with vars := v', calls := u.calls ++ [(op, ((M i).sexec (safter (M i) u.made (u.calls.map (·.1))) op).1)] }) k).use = some w → ∃ w', (s.part k).use = some w' ∧ w'.blocks = w.blocks := by
        intro k w hw
        by_cases hk : k = i
        · subst hk
          rw [setPart_self] at hw
          cases hw
          exact ⟨u, hux, rfl⟩
        · rw [setPart_other _ _ hk] at hw
          exact ⟨w, hw, rfl⟩
      obtain ⟨w1, q1, e1⟩ := key j u1 hu1
      obtain ⟨w2, q2, e2⟩ := key k v hw
      rw [← e1] at hb
      rw [← e2]
      exact h.apart j k w1 w2 hjk q1 q2 b hb
  | gone i =>
    refine ⟨h.al, h.ub, fun j => ?_, fun j k u v hjk hu hw => ?_⟩
    · by_cases hj : j = i
      · subst hj
        simp only [exec, setPart_self]
        trivial
      · simp only [exec, setPart_other _ _ hj]
        exact h.part j
    · by_cases hj : j = i
      · subst hj; simp only [exec, setPart_self] at hu; cases hu
      by_cases hk : k = i
      · subst hk; simp only [exec, setPart_self] at hw; cases hw
      simp only [exec, setPart_other _ _ hj, setPart_other _ _ hk] at hu hw
      exact h.apart j k u v hjk hu hw

theorem Reach.inv (hv : e.Valid) (hM : ∀ i, (M i).SoundBy (Rel i)) {s : State M n} (h : Reach M n e s) : PInv Rel e s := by
  induction h with
  | init h => exact pinv_init h
  | step _ hn hp ih => exact pinv_step hv hM ih hn hp

theorem PInv.own {s : State M n} (h : PInv Rel e s) {i : ι} {u : Use (M i)} (hu : (s.part i).use = some u) : ∀ x, (M i).own x → ∃ b ∈ u.blocks, b.region.Has x := by
  have := h.part i
  cases hp : s.part i with
  | off => rw [hp] at hu; cases hu
  | rest u' => rw [hp] at hu this; cases hu; exact this.own
  | busy u' op view => rw [hp] at hu this; cases hu; exact this.1.own

theorem PInv.answers {s : State M n} (h : PInv Rel e s) {i : ι} {u : Use (M i)} (hu : (s.part i).use = some u) : u.calls.map (·.2) = (M i).srun u.made (u.calls.map (·.1)) := by
  have := h.part i
  cases hp : s.part i with
  | off => rw [hp] at hu; cases hu
  | rest u' => rw [hp] at hu this; cases hu; exact this.answers
  | busy u' op view => rw [hp] at hu this; cases hu; exact this.1.answers

/-- Run the events, if a check says that each is permitted. -/
def checkedRun (ok : State M n → Event M n → Bool) (e : Bump.Env) : State M n → List (Event M n) → Option (State M n)
  | s, [] => some s
  | s, ev :: evs => if s.ended = false ∧ ok s ev = true then checkedRun ok e (exec e s ev) evs else none

theorem checkedRun_reach (hv : e.Valid) (hM : ∀ i, (M i).SoundBy (Rel i)) {ok : State M n → Event M n → Bool} (hok : ∀ s ev, PInv Rel e s → s.ended = false → ok s ev = true → ev.Permitted e s) :
    ∀ {evs : List (Event M n)} {s s' : State M n}, Reach M n e s → checkedRun ok e s evs = some s' → Reach M n e s'
  | [], _, _, h, he => by cases he; exact h
  | ev :: evs, s, s', h, he => by
    simp only [checkedRun] at he
    split at he
    · rename_i hc
      exact checkedRun_reach hv hM hok (.step h hc.1 (hok s ev (h.inv hv hM) hc.1 hc.2)) he
    · cases he

/-- Such a check, if the structures can be listed. -/
def checkEvent (parts : List ι) (valid : Bump.Conc.Event n → Bool) (perm : ∀ i, (M i).St → Mem → (M i).Op → Bool) (room : ∀ _ : ι, List Block → Mem → Bool) (s : State M n) : Event M n → Bool
  | .al ev => valid ev && parts.all fun i => match (s.part i).use with
    | none => true
    | some u => match ev with
      | .invoke _ op => match op.takes with | some b => decide (b ∉ u.blocks) | none => true
      | .step _ => true
      | .userWrite c _ _ => decide (c ∉ u.blocks)
      | .reset => false
  | .make i blocks => (s.part i).use.isNone && (blocks.all fun b => decide (b ∈ s.al.live) && parts.all fun i => match (s.part i).use with | none => true | some u => decide (b ∉ u.blocks)) && room i blocks s.mem
  | .call i op => match s.part i with | .rest u => perm i u.vars s.mem op | _ => false
  | .write i b _ _ => match s.part i with | .busy u _ _ => decide (b ∈ u.blocks) | _ => false
  | .finish i => match s.part i with | .busy _ _ _ => true | _ => false
  | .gone i => match s.part i with | .rest _ => true | _ => false

theorem checkEvent_sound {parts : List ι} (hparts : ∀ i, i ∈ parts) {valid : Bump.Conc.Event n → Bool} (hvalid : ∀ ev, valid ev = true → ev.Valid e.target)
    {perm : ∀ i, (M i).St → Mem → (M i).Op → Bool} (hperm : ∀ i s m sp op, Rel i s m sp → perm i s m op = true → (M i).permitted s m op)
    {room : ∀ _ : ι, List Block → Mem → Bool} (hroom : ∀ i blocks m, room i blocks m = true → (∀ x, (M i).own x → ∃ b ∈ blocks, b.region.Has x) ∧ (M i).ready m)
    {s : State M n} {ev : Event M n} (h : PInv Rel e s) (hn : s.ended = false) (hc : checkEvent parts valid perm room s ev = true) : ev.Permitted e s := by
  cases ev with
  | al ev =>
    simp only [checkEvent, Bool.and_eq_true, List.all_eq_true] at hc
    refine ⟨hvalid ev hc.1, fun b hd ⟨i, u, hu, hb⟩ => ?_⟩
    have := hc.2 i (hparts i)
    rw [hu] at this
    cases ev with
    | invoke t op =>
      have hd : op.takes = some b := hd
      simp only [hd, decide_eq_true_eq] at this
      exact this hb
    | step t => exact hd
    | userWrite c off bs =>
      have hd : c = b := hd
      simp only [decide_eq_true_eq, hd] at this
      exact this hb
    | reset => simp at this
  | make i blocks =>
    simp only [checkEvent, Bool.and_eq_true, List.all_eq_true, decide_eq_true_eq, Option.isNone_iff_eq_none] at hc
    refine ⟨hc.1.1, fun b hb => ⟨(hc.1.2 b hb).1, fun ⟨j, u, hu, hbu⟩ => ?_⟩, hroom i blocks _ hc.2⟩
    have := (hc.1.2 b hb).2 j (hparts j)
    rw [hu] at this
    simp only [decide_eq_true_eq] at this
    exact this hbu
  | call i op =>
    simp only [checkEvent] at hc
    cases hp : s.part i with
    | off => rw [hp] at hc; cases hc
    | busy _ _ _ => rw [hp] at hc; cases hc
    | rest u =>
      rw [hp] at hc
      have hi := h.part i
      rw [hp] at hi
      exact ⟨u, hp, hperm i _ _ _ _ (hi.going hn).2 hc⟩
  | write i b off bs =>
    simp only [checkEvent] at hc
    cases hp : s.part i with
    | off => rw [hp] at hc; cases hc
    | rest _ => rw [hp] at hc; cases hc
    | busy u op view => rw [hp] at hc; exact ⟨u, op, view, hp, by simpa using hc⟩
  | finish i =>
    simp only [checkEvent] at hc
    cases hp : s.part i with
    | off => rw [hp] at hc; cases hc
    | rest _ => rw [hp] at hc; cases hc
    | busy u op view => exact ⟨u, op, view, hp⟩
  | gone i =>
    simp only [checkEvent] at hc
    cases hp : s.part i with
    | off => rw [hp] at hc; cases hc
    | busy _ _ _ => rw [hp] at hc; cases hc
    | rest u => exact ⟨u, hp⟩
end

end Verif.Program
