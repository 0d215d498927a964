import Verif.Spec.Pinned
import Verif.Proofs.ConcBoxes
/-! Proofs about pinned boxes: places do not change, and what is there is not written to by others. -/
set_option autoImplicit false
namespace Verif.ConcBoxes
open Verif Bump Unsync.BumpBoxes
variable {n : Nat} {e : Env} {panics : List Byte → Bool}

/-- A use of a variable writes to its place only, and changes no other variable; looking and assigning do not change the variable itself. -/
theorem use_frame {w w' : World n} {t : Fin n} {u : Use} {a : Ans} (hp : Permitted e.target w (.use t u)) (hx : useVar panics w t u = .ret (a, w')) :
    ∃ g, (w.vars t)[u.var]? = some (some g) ∧ (∀ z, ¬ g.region.Has z → w'.st.mem z = w.st.mem z) ∧ (∀ v j, (v, j) ≠ (t, u.var) → (w'.vars v)[j]? = (w.vars v)[j]?) ∧
      (PinUse u.var u → w'.vars = w.vars) ∧ (u = .deref u.var → w'.st = w.st) := by
  replace hp := hp.2
  have poke_out : ∀ {g : Handle} {v : List Byte}, g.ty.layout.size = v.length → ∀ z, ¬ g.region.Has z → (poke w.st g v).mem z = w.st.mem z := by
    intro g v hsz z hz
    unfold poke
    split
    · rfl
    · exact ptrWrite_out hsz z hz
  have set_out : ∀ {k : Nat} {o : Option Handle} (v : Fin n) (j : Nat), (v, j) ≠ (t, k) → (upd w.vars t ((w.vars t).set k o) v)[j]? = (w.vars v)[j]? := by
    intro k o v j hne
    by_cases hv : v = t
    · subst hv
      rw [upd_self, List.getElem?_set_ne]
      intro h; subst h; exact hne rfl
    · rw [upd_ne _ hv]
  cases u with
  | boxed k v | leakInto k v =>
    obtain ⟨g, hk, -, hsz⟩ := hp
    simp only [useVar, hk] at hx
    cases hx
    exact ⟨g, hk, poke_out hsz, set_out, fun h => (by rcases h with h | ⟨_, h⟩ <;> cases h), fun h => by cases h⟩
  | replace k v =>
    obtain ⟨g, hk, -, hsz⟩ := hp
    simp only [useVar, hk] at hx
    cases hx
    exact ⟨g, hk, poke_out hsz, fun _ _ _ => rfl, fun _ => rfl, fun h => by cases h⟩
  | assign k v =>
    obtain ⟨g, hk, -, hsz⟩ := hp
    simp only [useVar, hk] at hx
    cases hx
    exact ⟨g, hk, poke_out hsz, fun _ _ _ => rfl, fun _ => rfl, fun h => by cases h⟩
  | deref k =>
    obtain ⟨g, hk, -⟩ := hp
    simp only [useVar, hk] at hx
    cases hx
    exact ⟨g, hk, fun _ _ => rfl, fun _ _ _ => rfl, fun _ => rfl, fun _ => rfl⟩
  | take k | leak k | intoRaw k | fromRaw k | drop k =>
    obtain ⟨g, hk, -⟩ := hp
    simp only [useVar, hk] at hx
    cases hx
    exact ⟨g, hk, fun _ _ => rfl, set_out, fun h => (by rcases h with h | ⟨_, h⟩ <;> cases h), fun h => by cases h⟩

/-- The memory that a call returned. -/
theorem returned_apart (he : e.Valid) {w : World n} {s : SWorld n} (hr : Rel e w s) {u : Fin n} {call : Call} {r : Ret} (hpc : w.st.pc u = .ret call r) {p : Nat} {L : Layout} (hp : r.ptr? = some p) (hL : call.layout = some L)
    {t : Fin n} {k : Nat} {h : Handle} (hk : (w.vars t)[k]? = some (some h)) : Region.Disjoint ⟨p, L.size⟩ h.region := by
  by_cases h0 : L.size = 0
  · rw [Region.disjoint_iff]; exact .inl h0
  rcases hr.own t k h hk with hz | hz
  · rw [Region.disjoint_iff]; exact .inr (.inl hz)
  have hstep : Bump.step e w.st u = { w.st with pc := setPc w.st.pc u .idle, hist := .resp u call r :: w.st.hist } := by
    unfold Bump.step; rw [hpc]
  have hg : grant call r = some ⟨p, L.size⟩ := by
    simp only [grant, hL, if_neg h0]
    cases hc : r <;> rw [hc] at hp <;> simp [Ret.ptr?] at hp <;> simp [hp]
  have := ((reach_step hr.reach u).inv2 he).B
  rw [hstep] at this
  simp only [handedOut, hg, Option.toList_some, List.singleton_append, List.pairwise_cons] at this
  exact this.1 _ hz

theorem pinned_step (he : e.Valid) {w w' : World n} {s : SWorld n} (hr : Rel e w s) {ev : Event n} (hp : Permitted e.target w ev) {o : Option (Obs n)} (hx : exec e panics w ev = .ret (o, w'))
    {t : Fin n} {k : Nat} {h : Handle} (hk : (w.vars t)[k]? = some (some h)) (hb : h.hold = .boxed) (hpin : Pinned t k ev) :
    (w'.vars t)[k]? = some (some h) ∧ ((∀ v, ev ≠ .use t (.assign k v)) → ∀ x, h.region.Has x → w'.st.mem x = w.st.mem x) ∧
    ∀ u call nd r p L, o = some (.returned u call nd r) → r.ptr? = some p → call.layout = some L → Region.Disjoint ⟨p, L.size⟩ h.region := by
  by_cases hab : w.aborted = true
  · have : exec e panics w ev = .ret (none, w) := by cases ev <;> simp only [exec, hab, if_true] <;> rfl
    rw [this] at hx
    cases hx
    exact ⟨hk, fun _ _ _ => rfl, fun u call nd r p L h => by cases h⟩
  have kept : ∀ u, ∀ x, h.region.Has x → (Bump.step e w.st u).mem x = w.st.mem x := by
    intro u x hx
    rcases hr.own t k h hk with h0 | h0
    · simp only [Handle.region, Region.Has] at hx; omega
    · exact (keeps_step he hr.reach u).mem _ h0 x hx
  cases ev with
  | call u call nd =>
    simp only [exec, hab] at hx
    cases hx
    refine ⟨?_, fun _ x _ => ?_, fun u call nd r p L h => by cases h⟩
    · show ((if w.st.pc u = .idle then _ else w : World n).vars t)[k]? = _
      split <;> exact hk
    · show (if w.st.pc u = .idle then _ else w : World n).st.mem x = _
      split
      · rename_i hi
        simp only [Bump.exec, hi, if_true]
      · rfl
  | step u =>
    cases hpc : w.st.pc u with
    | ret call r =>
      simp only [exec, hab, hpc] at hx
      cases hx
      refine ⟨?_, fun _ x hx => kept u x hx, fun v c nd r' p L h hp hL => ?_⟩
      · show ((match newVar call (w.flag u) r with | some h => upd w.vars u (w.vars u ++ [some h]) | none => w.vars) t)[k]? = _
        cases newVar call (w.flag u) r with
        | some g =>
          show (upd w.vars u (w.vars u ++ [some g]) t)[k]? = _
          by_cases hv : t = u
          · subst hv
            rw [upd_self, List.getElem?_append_left (List.getElem?_eq_some_iff.mp hk).1]
            exact hk
          · rw [upd_ne _ hv]
            exact hk
        | none => exact hk
      · cases h
        exact returned_apart he hr hpc hp hL hk
    | idle | attempt _ _ _ _ | cas _ _ _ _ _ _ | load _ | write _ _ =>
      simp only [exec, hab, hpc] at hx
      cases hx
      exact ⟨hk, fun _ x hx => kept u x hx, fun v c nd r' p L h => by cases h⟩
  | use v u =>
    obtain ⟨a, w1, x, h1, -⟩ := use_rel (panics := panics) hr hp
    simp only [exec, hab, h1] at hx
    cases hx
    obtain ⟨g, hg, f1, f2, f3, f4⟩ := use_frame hp h1
    by_cases hv : (t, k) = (v, u.var)
    · obtain ⟨rfl, rfl⟩ := Prod.mk.inj hv
      have hu := hpin.2 u rfl rfl
      refine ⟨by rw [f3 hu]; exact hk, fun hno x _ => ?_, fun _ _ _ _ _ _ h => by cases h⟩
      rcases hu with hu | ⟨v, hu⟩
      · rw [f4 hu]
      · exact absurd (by rw [hu]; rfl) (hno v)
    · refine ⟨(f2 t k hv).trans hk, fun _ x hx => f1 x fun hx' => hr.apart t v k u.var h g hv hk hg x ⟨hx, hx'⟩, fun _ _ _ _ _ _ h => by cases h⟩
  | send v u j =>
    obtain ⟨-, g, hg, hh, -⟩ := hp
    simp only [exec, hg] at hx
    rw [if_neg hab] at hx
    cases hx
    refine ⟨?_, fun _ _ _ => rfl, fun _ _ _ _ _ _ h => by cases h⟩
    have hne : ¬ (t = v ∧ k = j) := by
      rintro ⟨rfl, rfl⟩
      rw [hk] at hg
      cases hg
      rw [hb] at hh
      simp at hh
    have h1 : (upd w.vars v ((w.vars v).set j none) t)[k]? = some (some h) := by
      by_cases hv : t = v
      · subst hv
        rw [upd_self, List.getElem?_set_ne (fun h => hne ⟨rfl, h.symm⟩)]
        exact hk
      · rw [upd_ne _ hv]
        exact hk
    show (upd (upd w.vars v _) u _ t)[k]? = _
    by_cases hu : t = u
    · subst hu
      rw [upd_self, List.getElem?_append_left (List.getElem?_eq_some_iff.mp h1).1]
      exact h1
    · rw [upd_ne _ hu]
      exact h1
  | reset => exact absurd rfl hpin.1

theorem pinned_run (he : e.Valid) {w : World n} {s : SWorld n} (hr : Rel e w s) {evs : List (Event n)} (hs : SafeRun e panics w evs)
    {t : Fin n} {k : Nat} {h : Handle} (hk : (w.vars t)[k]? = some (some h)) (hb : h.hold = .boxed) (hpin : ∀ ev ∈ evs, Pinned t k ev) :
    ∃ os w', run e panics w evs = .ret (os, w') ∧ Rel e w' (replay panics s os) ∧ (w'.vars t)[k]? = some (some h) ∧
      ((∀ v, .use t (.assign k v) ∉ evs) → ∀ x, h.region.Has x → w'.st.mem x = w.st.mem x) ∧
      ∀ u call nd r p L, .returned u call nd r ∈ os → r.ptr? = some p → call.layout = some L → Region.Disjoint ⟨p, L.size⟩ h.region := by
  induction evs generalizing w s with
  | nil => exact ⟨[], w, rfl, hr, hk, fun _ _ _ => rfl, fun _ _ _ _ _ _ h => by cases h⟩
  | cons ev evs ih =>
    obtain ⟨hp, hs⟩ := hs
    obtain ⟨o, w1, e1, r1⟩ := sim_step' (panics := panics) he hr hp
    obtain ⟨k1, k2, k3⟩ := pinned_step he hr hp e1 hk hb (hpin ev (by simp))
    obtain ⟨s1, hr1, hrep⟩ : ∃ s1, Rel e w1 s1 ∧ ∀ os, replay panics s (o.toList ++ os) = replay panics s1 os := by
      cases o with
      | none => exact ⟨s, r1, fun _ => rfl⟩
      | some ob => exact ⟨_, r1.2, fun _ => rfl⟩
    obtain ⟨os, w2, e2, r2, j1, j2, j3⟩ := ih hr1 (hs _ _ e1) k1 (fun ev h => hpin ev (by simp [h]))
    refine ⟨o.toList ++ os, w2, by simp only [run, e1, bind, Outcome.bind, e2]; rfl, by rw [hrep]; exact r2, j1, fun hno x hx => ?_, fun u call nd r p L hm => ?_⟩
    · rw [j2 (fun v h => hno v (by simp [h])) x hx, k2 (fun v h => hno v (by simp [h])) x hx]
    · rcases List.mem_append.mp hm with hm | hm
      · exact k3 u call nd r p L (by cases o <;> simp at hm; rw [hm])
      · exact j3 u call nd r p L hm

theorem safe_append' {w : World n} {xs ys : List (Event n)} (h : SafeRun e panics w (xs ++ ys)) : SafeRun e panics w xs ∧ ∀ os w', run e panics w xs = .ret (os, w') → SafeRun e panics w' ys := by
  induction xs generalizing w with
  | nil => exact ⟨trivial, fun os w' hx => by cases hx; exact h⟩
  | cons x xs ih =>
    obtain ⟨h1, h2⟩ := h
    refine ⟨⟨h1, fun o w' hx => (ih (h2 o w' hx)).1⟩, fun os w' hx => ?_⟩
    simp only [run, bind, Outcome.bind] at hx
    split at hx
    · rename_i y he
      split at hx
      · rename_i z hz
        cases hx
        exact (ih (h2 _ _ he)).2 _ _ hz
      · cases hx
      · cases hx
    · cases hx
    · cases hx
end Verif.ConcBoxes

namespace Verif.Unsync.BumpBoxes
open Verif Unsync
variable {t : Target} {b : MemBump} {panics : List Byte → Bool}

theorem pinned_step {m0 : Mem} {w w' : World} {s : SWorld} (hv : b.Valid t) (hr : WRel t b m0 w s) {op : Op} (hp : Permitted t w op) {r : Resp} (hx : exec t b panics w op = .ret (r, w'))
    {k : Nat} {h : Handle} (hk : w.hs[k]? = some (some h)) (hb : h.hold = .boxed) (hpin : Pinned k op) :
    w'.hs[k]? = some (some h) := by
  obtain ⟨p1, p2, p3, p4, p5, p6, p7⟩ := hpin
  have hlt := (List.getElem?_eq_some_iff.mp hk).1
  have push : ∀ o : Option Handle, (w.hs ++ [o])[k]? = some (some h) := fun o => by rw [List.getElem?_append_left hlt]; exact hk
  have set : ∀ (j : Nat) (o : Option Handle), j ≠ k → (w.hs.set j o)[k]? = some (some h) := fun j o hj => by rw [List.getElem?_set_ne hj]; exact hk
  cases op with
  | bumpBox ty =>
    simp only [exec] at hx
    split at hx <;> first | (cases hx; done) | (cases hx; exact hk) | (cases hx; exact push _)
  | getBoxed ty v =>
    simp only [exec] at hx
    split at hx <;> first | (cases hx; done) | (cases hx; exact hk) | (cases hx; exact push _)
  | level => simp only [exec] at hx; cases hx; exact hk
  | reset => exact absurd rfl p1
  | write j v =>
    obtain ⟨g, hg, -⟩ := hp
    simp only [exec, hg] at hx
    cases hx
    exact set j _ fun e => (p2 v).1 (by rw [e])
  | deref j | replace j v | assign j v =>
    obtain ⟨g, hg, -⟩ := hp
    simp only [exec, hg] at hx
    cases hx
    exact hk
  | take j =>
    obtain ⟨g, hg, -⟩ := hp
    simp only [exec, hg] at hx
    cases hx
    exact set j _ fun e => p3 (by rw [e])
  | leak j =>
    obtain ⟨g, hg, -⟩ := hp
    simp only [exec, hg] at hx
    cases hx
    exact set j _ fun e => p4 (by rw [e])
  | intoRaw j =>
    obtain ⟨g, hg, -⟩ := hp
    simp only [exec, hg] at hx
    cases hx
    exact set j _ fun e => p5 (by rw [e])
  | fromRaw j =>
    obtain ⟨g, hg, -⟩ := hp
    simp only [exec, hg] at hx
    cases hx
    exact set j _ fun e => p6 (by rw [e])
  | drop j =>
    obtain ⟨g, hg, -⟩ := hp
    simp only [exec, hg] at hx
    cases hx
    exact set j _ fun e => p7 (by rw [e])

theorem pinned_run {m0 : Mem} {w : World} {s : SWorld} (hv : b.Valid t) (hr : WRel t b m0 w s) {ops : List Op} (hs : SafeRun t b panics w ops)
    {k : Nat} {h : Handle} (hk : w.hs[k]? = some (some h)) (hb : h.hold = .boxed) (hpin : ∀ op ∈ ops, Pinned k op) :
    ∃ rs w', run t b panics w ops = .ret (rs, w') ∧ WRel t b m0 w' (srun (b.slab t) panics s ops).2 ∧ w'.hs[k]? = some (some h) := by
  induction ops generalizing w s with
  | nil => exact ⟨[], w, rfl, hr, hk⟩
  | cons op ops ih =>
    obtain ⟨hp, hs⟩ := hs
    obtain ⟨w1, e1, r1⟩ := sim_step (panics := panics) hv hr hp
    obtain ⟨rs, w2, e2, r2, k2⟩ := ih r1 (hs _ _ e1) (pinned_step hv hr hp e1 hk hb (hpin op (by simp))) (fun op h => hpin op (by simp [h]))
    exact ⟨_, w2, by simp only [run, e1, bind, Outcome.bind, e2]; rfl, r2, k2⟩
end Verif.Unsync.BumpBoxes
