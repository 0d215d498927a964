import Verif.Proofs.GlobalInterleaving
import Verif.Proofs.GlobalComplete
/-!
# C95: executions of programs that use the global allocator are interleavings

In the memory model of the language, and by it: programs that fulfill the contract can be understood as if one thread ran at a time, although the allocator and the program access memory concurrently. See `Spec/GlobalInterleaving`. By this the
theorems on the machine of `Model/ConcGlobal` (C70 to C74) hold for executions in the memory model.
-/
set_option autoImplicit false
namespace Verif.Bump.Conc
open MM
variable {n : Nat} {e : Env} {X : Graph n GAct} {src : MM.Ev n → MM.Ev n}

/-- **C95** There is an order of all actions, in which happens-before and so the order of each thread is kept, such that every read gets what was written latest. -/
theorem C95_sequentially_consistent (he : e.Valid) (hi : X.initial ≤ e.len) (hp : GPossible X) (hx : GExecutes e X) (hd : Disciplined X src) (hv : ReadsVisible X) : ∃ ord, X.Order ord ∧ SequentiallyConsistent X ord := by
  obtain ⟨S, hs⟩ := ordered_of_possible hp
  obtain ⟨ord, ho, hb⟩ := Graph.exists_total hp.1 hs
  exact ⟨ord, ho, fun a v hr => sc_atomic hp.1 hs ho hb hr, fun a p v ha => sc_bytes he hi hp hx hd hv ho ha⟩

/-- **C95** The machine that executes one action after the other, in some order in which happens-before is kept, on one memory, does the same. Every state that it goes through is reachable. -/
theorem C95_interleaving (he : e.Valid) (hi : X.initial ≤ e.len) (hp : GPossible X) (hx : GExecutes e X) (hd : Disciplined X src) {m : Mem} (hv : ReadsVisibleFrom X m) :
    ∃ ord, X.Order ord ∧ ∀ P a Q, ord = P ++ a :: Q → Reachable e (machineAfter e X src m P) ∧ Same X (machineAfter e X src m P) (machineAfter e X src m (P ++ [a])) a := by
  obtain ⟨S, hs⟩ := ordered_of_possible hp
  obtain ⟨ord, ho, hb⟩ := Graph.exists_total hp.1 hs
  refine ⟨ord, ho, fun P a Q h => ?_⟩
  subst h
  refine ⟨⟨X.initial, m, _, hi, fun ev hev => ?_, rfl⟩, ?_⟩
  · obtain ⟨b, hbP, hev⟩ := List.mem_flatMap.mp hev
    simp only [machineEvents] at hev
    split at hev
    · rename_i op hop
      simp only [List.mem_singleton] at hev
      subst hev
      exact hx.2 b.1 op (List.mem_of_getElem? hop)
    · split at hev <;> simp at hev
      subst hev; trivial
    all_goals simp at hev
    all_goals subst hev; trivial
  · have h1 := gdone_run he hi hp hx hd hv hs P (a :: Q) ho hb
    have h2 := same_step he hi hp hx hd hv hs (next_of hp.1 hs ho hb) ((ho.2.1 a).mp (by simp)) h1
    simpa [machineAfter, run, List.flatMap_append, List.foldl_append] using h2

/-- **C95** And conversely: every run of the machine, of calls and accesses that are possible when it is their turn, is an execution of the memory model in which the contract is fulfilled, with the same actions in the same order. That holds with the order of
time as happens-before; and with any weaker happens-before, that contains the order of each thread, if the contract is fulfilled with this. So nothing is lost by considering interleavings, and the assumptions of C93, C94 and C95 are met by every run. -/
theorem C95_complete (he : e.Valid) {c : Nat} (hc : c ≤ e.len) {m : Mem} {ds : List (Doing n)} (h : AllPossible e (init n c m) ds) :
    ∃ (X : Graph n GAct) (src : MM.Ev n → MM.Ev n) (ord : List (MM.Ev n)), X.initial = c ∧ X.Order ord ∧ ord.map (fun a => (a.1, (X.acts a.1)[a.2]?)) = (actionsOf e (init n c m) ds).map (fun y => (y.1, some y.2)) ∧
      ord.flatMap (machineEvents X src) = ds.flatMap Doing.events ∧ X.hb = Earlier ord ∧ X.WellFormed gKind ∧ X.SeqCst gKind ∧ X.Coherent gKind ∧ GExecutes e X ∧ Disciplined X src ∧ ReadsVisibleFrom X m ∧
      ∀ (hb : MM.Ev n → MM.Ev n → Prop) (src' : MM.Ev n → MM.Ev n), (∀ t j k, j < k → k < (X.acts t).length → hb (t, j) (t, k)) → (∀ a b c, hb a b → hb b c → hb a c) → (∀ a b, hb a b → Earlier ord a b) →
        Disciplined { X with hb := hb } src' → ({ X with hb := hb } : Graph n GAct).Order ord ∧ ({ X with hb := hb } : Graph n GAct).WellFormed gKind ∧ ({ X with hb := hb } : Graph n GAct).SeqCst gKind ∧
          ({ X with hb := hb } : Graph n GAct).Coherent gKind ∧ GExecutes e { X with hb := hb } ∧ ReadsVisibleFrom { X with hb := hb } m := by
  obtain ⟨X, src, ord, own, loc, k1, -, k3, k4, k5⟩ := goes_all ds (built_init c) (fun _ => rfl) h
  have hX : ({ X with hb := X.hb } : Graph n GAct) = X := rfl
  have htime : ∀ a b, X.hb a b → Earlier ord a b := fun a b h => k1.hb ▸ h
  have hsb : ∀ t j k, j < k → k < (X.acts t).length → X.hb (t, j) (t, k) := fun t j k h1 h2 => k1.hb ▸ k1.sb t j k h1 h2
  have htr : ∀ a b c, X.hb a b → X.hb b c → X.hb a c := fun a b c h1 h2 => by rw [k1.hb] at h1 h2 ⊢; exact ⟨Nat.lt_trans h1.1 h2.1, h2.2⟩
  have hp := k1.possible hsb htr htime
  refine ⟨X, src, ord, k3, k1.order htime, by simp only [List.map_nil, List.nil_append] at k5; exact k5, by simpa using k4, k1.hb, hp.1, hp.2.1, hp.2.2, k1.executes, k1.disc, k1.reads, fun hb src' h1 h2 h3 h4 => ?_⟩
  have hp' := k1.possible h1 h2 h3
  exact ⟨k1.order h3, hp'.1, hp'.2.1, hp'.2.2, k1.executes, k1.visible he (k3 ▸ hc) h1 h2 h3 h4⟩

end Verif.Bump.Conc
