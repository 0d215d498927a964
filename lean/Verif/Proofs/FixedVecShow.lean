import Verif.Proofs.FixedVecTrace
/-! # Reading vectors -/
namespace Verif.FVec
open Verif Uninit

variable {V : Type} {t : Target} {T : Layout} {checks : Bool} {panics : V → Bool} {w : World V} {sw : SWorld V}

theorem reach_rel (hT : T.ValidType t) (hz : T.size = 0 → Subsingleton V) (h : Reach t T checks panics w) : ∃ sw, WRel t T w sw := by
  obtain ⟨mem, ops, rs, hs, hr⟩ := h
  obtain ⟨w', e, r⟩ := sim_run hT hz (wrel_init mem) hs
  rw [hr] at e
  cases e
  exact ⟨_, r⟩

theorem shows_iff (r : WRel t T w sw) {i : Nat} {xs : List V} : Shows t T checks panics w i xs ↔ ∃ se, sw.vecs i = some se ∧ se.drain = none ∧ se.items = xs := by
  have hi := r.ents i
  simp only [Shows, exec, Op.target]
  cases he : w.ents i with
  | none =>
    rw [he] at hi
    cases hs : sw.vecs i with
    | none => simp
    | some se => rw [hs] at hi; exact hi.elim
  | some e =>
    rw [he] at hi
    cases hs : sw.vecs i with
    | none => rw [hs] at hi; exact hi.elim
    | some se =>
      rw [hs] at hi
      have hi : EntRel t T w.heap e se := hi
      cases hd : e.drain with
      | none =>
        simp only [hd, execVec, FixedVec.asSlice, hi.ok.elem, hi.len, readSlice_eq hi.items, bind, Outcome.bind, pure]
        simp [hi.none_of hd]
      | some d =>
        obtain ⟨sd, hsd, _⟩ := hi.some_of hd
        simp [hd, execDrain, hsd]

theorem showsLen_of (r : WRel t T w sw) {i : Nat} {se : SVec V} (hs : sw.vecs i = some se) (hd : se.drain = none) : ShowsLen t T checks panics w i se.items.length := by
  have hi := r.ents i
  simp only [ShowsLen, exec, Op.target]
  cases he : w.ents i with
  | none => rw [he, hs] at hi; exact hi.elim
  | some e =>
    rw [he, hs] at hi
    have hi : EntRel t T w.heap e se := hi
    cases hd' : e.drain with
    | none => simp [hd', execVec, FixedVec.len, hi.len]
    | some d => obtain ⟨sd, hsd, _⟩ := hi.some_of hd'; rw [hd] at hsd; cases hsd

theorem showsCap_iff (r : WRel t T w sw) {i : Nat} {c : Nat} : ShowsCap t T checks panics w i c ↔ ∃ se, sw.vecs i = some se ∧ se.drain = none ∧ se.cap = c := by
  have hi := r.ents i
  simp only [ShowsCap, exec, Op.target]
  cases he : w.ents i with
  | none =>
    rw [he] at hi
    cases hs : sw.vecs i with
    | none => simp
    | some se => rw [hs] at hi; exact hi.elim
  | some e =>
    rw [he] at hi
    cases hs : sw.vecs i with
    | none => rw [hs] at hi; exact hi.elim
    | some se =>
      rw [hs] at hi
      have hi : EntRel t T w.heap e se := hi
      cases hd : e.drain with
      | none =>
        simp only [hd, execVec, FixedVec.capacity]
        simp [hi.none_of hd, hi.cap]
      | some d =>
        obtain ⟨sd, hsd, _⟩ := hi.some_of hd
        simp [hd, execDrain, hsd]

/-- If the lists of the others are not changed then they are read as before. -/
theorem othersKept_of {w' : World V} {sw' : SWorld V} (r : WRel t T w sw) (r' : WRel t T w' sw') {i : Nat} (h : ∀ j se, j ≠ i → sw.vecs j = some se → sw'.vecs j = some se) :
    OthersKept t T checks panics w w' i := by
  intro j ys hj hs
  rw [shows_iff r] at hs
  obtain ⟨se, h1, h2, h3⟩ := hs
  rw [shows_iff r']
  exact ⟨se, h j se hj h1, h2, h3⟩

/-- An operation on a vector and what is left to show. -/
theorem step_of (hT : T.ValidType t) (hz : T.size = 0 → Subsingleton V) (h : Reach t T checks panics w) {i : Nat} {op : Op V} (ht : op.target = some i) (hnd : ¬ op.OnDrain) (hp : Permitted t T w op)
    (hN : NoWrap t checks op) :
    ∃ sw se, WRel t T w sw ∧ sw.vecs i = some se ∧ se.drain = none ∧ se.items.length ≤ se.cap ∧ Sim t T (exec t T checks panics w op) (sexecVec t T panics sw i se op) := by
  obtain ⟨sw, r⟩ := reach_rel hT hz h
  have hsim := sim_step (checks := checks) (panics := panics) hT hz r hp hN
  cases op with
  | new a l => simp [Op.target] at ht
  | setLen j vs n =>
    obtain ⟨e, he, hfree, hd, _⟩ := hp
    cases ht
    obtain ⟨se, hs, hr⟩ := r.get he
    refine ⟨sw, se, r, hs, hr.none_of hd, items_le_cap hr, ?_⟩
    simp only [sexec, Op.target, hs, Option.bind_some, Option.map_some, hr.none_of hd] at hsim
    exact hsim
  | _ =>
    obtain ⟨i', e, ht', he, hfree, hdr⟩ := hp
    rw [ht] at ht'
    cases ht'
    obtain ⟨se, hs, hr⟩ := r.get he
    cases hd : e.drain with
    | some d => rw [hd] at hdr; exact absurd (hdr.mpr rfl) hnd
    | none =>
      refine ⟨sw, se, r, hs, hr.none_of hd, items_le_cap hr, ?_⟩
      simp only [Op.target, Option.some.injEq] at ht
      subst ht
      simp only [sexec, Op.target, hs, Option.bind_some, Option.map_some, hr.none_of hd] at hsim
      exact hsim

end Verif.FVec
