import Verif.Proofs.BumpBorrowsStep
/-! # What the actions keep -/
set_option autoImplicit false
namespace Verif.BumpBorrows
open Verif Verif.Borrows
open Verif.VecBorrows (Ref mem_endRefs mem_endMutRefs mem_keepRefs)

theorem inv_disjoint {o : Obj} {w : Nat} {s : St} {col : Nat → Col} (hi : Inv o w s col) {r : Ref} (h : r ∈ s.refs) :
    o.env.base ≤ r.lo ∧ r.hi ≤ o.env.base + o.env.len ∧ ∀ q ∈ s.refs, q.owner ≠ r.owner → r.hi ≤ q.lo ∨ q.hi ≤ r.lo := by
  obtain ⟨p, p1, p2, p3⟩ := (hi.refs r h).owner
  obtain ⟨b1, _, b3, _⟩ := hi.p.pieces p (List.mem_of_getElem? p1)
  have hl := hi.p.level
  refine ⟨by omega, by omega, fun q hq hne => ?_⟩
  obtain ⟨u, u1, u2, u3⟩ := (hi.refs q hq).owner
  have := hi.p.other p1 u1 (fun e => hne e.symm)
  omega

theorem inv_other {o : Obj} {w : Nat} {s s' : St} {col : Nat → Col} (hv : Inv o w s col) {a : Act} (hp : Permitted o w s a) (hs : step o w s a = some s')
    {r : Ref} (h : r ∈ s.refs) (hn : a ≠ .reset) (ha : ¬ a.On r.owner) : r ∈ s'.refs := by
  have giv : ∀ (j : Nat) (p : Piece) (k : Kind) (x : Option (Nat × Borrows.Mem)), r.owner ≠ j → s.give j p k x = some s' → r ∈ s'.refs := by
    intro j p k x hj hx
    cases x with
    | none => cases hx
    | some q => obtain ⟨t, m⟩ := q; cases hx; exact List.mem_cons_of_mem _ (mem_endRefs.2 ⟨h, hj⟩)
  have own : ∀ (j : Nat) (p : Piece) (k : Kind) (x : Option Borrows.Mem), r.owner ≠ j → s.own j p k x = some s' → r ∈ s'.refs := by
    intro j p k x hj hx
    cases x with
    | none => cases hx
    | some m => cases hx; exact mem_endRefs.2 ⟨h, hj⟩
  have keep : ∀ (q : Ref), q ∈ s.refs → q.owner ≠ r.owner → ∀ (a : Access) (lo hi : Nat), q.lo ≤ lo → hi ≤ q.hi → r ∈ VecBorrows.keepRefs a q.tag q.from_ lo hi s.refs := by
    intro q hq hne a lo hi h1 h2
    have := (inv_disjoint hv h).2.2 q hq hne
    exact mem_keepRefs.2 ⟨h, Or.inr (Or.inr (Or.inl (by omega)))⟩
  cases a with
  | share t =>
    simp only [step] at hs
    cases hx : s.mem.retagCell t o.lo o.hi with
    | none => rw [hx] at hs; cases hs
    | some q => rw [hx] at hs; cases hs; exact h
  | level t =>
    simp only [step] at hs
    cases hx : touchCell o t .read s.mem with
    | none => rw [hx] at hs; cases hs
    | some q => rw [hx] at hs; cases hs; exact h
  | alloc t l at_ =>
    simp only [step, tryAlloc] at hs
    cases hx : s.mem.retagCell t o.env.base (o.env.base + o.env.len) with
    | none => rw [hx] at hs; cases hs
    | some q =>
      rw [hx] at hs
      simp only [Option.bind_eq_bind, Option.bind_some] at hs
      cases hy : touchCell o t .write q.2 with
      | none => rw [hy] at hs; cases hs
      | some m =>
        rw [hy] at hs
        simp only [Option.bind_some] at hs
        cases at_ <;> (simp only at hs; split at hs <;> cases hs <;> exact h)
  | reset => exact absurd rfl hn
  | leak j | uninit j | boxLeak j =>
    simp only [step] at hs
    split at hs
    · cases hs; exact h
    · exact giv j _ _ _ (fun e => ha e.symm) hs
  | boxed j | useRaw j _ _ _ | intoRaw j | fromRaw j | take j | dropBox j =>
    simp only [step] at hs
    split at hs
    · cases hs; exact h
    · exact own j _ _ _ (fun e => ha e.symm) hs
  | deref j mu =>
    have hj : r.owner ≠ j := fun e => ha e.symm
    simp only [step] at hs
    split at hs
    · cases hs; exact h
    · rename_i p _
      cases hx : deref p mu s.mem with
      | none => rw [hx] at hs; cases hs
      | some q =>
        rw [hx] at hs
        cases hs
        refine List.mem_cons_of_mem _ ?_
        cases mu with
        | true => exact mem_endRefs.2 ⟨h, hj⟩
        | false => exact mem_endMutRefs.2 ⟨h, Or.inl hj⟩
  | use q a lo hi =>
    obtain ⟨hq, _, h1, h2⟩ := hp
    simp only [step] at hs
    cases hx : s.mem.access a q.tag lo hi with
    | none => rw [hx] at hs; cases hs
    | some m => rw [hx] at hs; cases hs; exact keep q hq ha a lo hi h1 h2
  | reborrow q mu lo hi =>
    obtain ⟨hq, _, h1, _, h2⟩ := hp
    simp only [step] at hs
    cases hx : s.mem.retag mu q.tag lo hi with
    | none => rw [hx] at hs; cases hs
    | some m => rw [hx] at hs; cases hs; exact List.mem_cons_of_mem _ (keep q hq ha _ lo hi h1 h2)

theorem inv_allocated {o : Obj} (ho : o.Valid) {w : Nat} {s s' : St} {col : Nat → Col} (hi : Inv o w s col) {t : Nat} {l : Layout} {at_ : Option Nat}
    (hp : Permitted o w s (.alloc t l at_)) (hs : step o w s (.alloc t l at_) = some s') :
    s'.refs = s.refs ∧ s'.shares = s.shares ∧ s.level ≤ s'.level ∧
    ((s'.pieces = s.pieces ∧ s'.level = s.level) ∨
      ∃ p, s'.pieces = s.pieces ++ [p] ∧ p.kind = .raw ∧ p.hi = p.lo + l.size ∧ l.align ∣ p.lo ∧ o.env.base + s.level ≤ p.lo ∧ p.hi = o.env.base + s'.level ∧
        p.hi ≤ o.env.base + o.env.len ∧ ∀ q ∈ s.pieces, q.hi ≤ p.lo) := by
  obtain ⟨ht, hsz, hal, hat⟩ := hp
  have hpl : ∀ (a : Alloc), o.env.slab.place l s.level = some a → ∀ (tag : Nat), s.level ≤ a.level ∧
      ∃ p : Piece, s.pieces ++ [⟨a.ptr, a.ptr + l.size, tag, .raw⟩] = s.pieces ++ [p] ∧ p.kind = .raw ∧ p.hi = p.lo + l.size ∧ l.align ∣ p.lo ∧ o.env.base + s.level ≤ p.lo ∧
        p.hi = o.env.base + a.level ∧ p.hi ≤ o.env.base + o.env.len ∧ ∀ q ∈ s.pieces, q.hi ≤ p.lo := by
    intro a ha tag
    rw [Slab.place_eq_some] at ha
    obtain ⟨k1, k2, k3⟩ := ha
    have hle := le_alignUp hal (o.env.slab.base + s.level)
    have hd := dvd_alignUp l.align (o.env.slab.base + s.level)
    have hbase : o.env.slab.base = o.env.base := rfl
    have hlen : o.env.slab.len = o.env.len := rfl
    refine ⟨by omega, _, rfl, rfl, rfl, by rw [k1]; exact hd, by simp only; omega, by simp only; omega, by simp only; omega, fun q hq => ?_⟩
    obtain ⟨_, _, b3, _⟩ := hi.p.pieces q.key (List.mem_map.2 ⟨q, hq, rfl⟩)
    have b3' : q.hi ≤ o.env.base + s.level := b3
    simp only; omega
  simp only [step, tryAlloc] at hs
  cases hx : s.mem.retagCell t o.env.base (o.env.base + o.env.len) with
  | none => rw [hx] at hs; cases hs
  | some q =>
    rw [hx] at hs
    simp only [Option.bind_eq_bind, Option.bind_some] at hs
    cases hy : touchCell o t .write q.2 with
    | none => rw [hy] at hs; cases hs
    | some m =>
      rw [hy] at hs
      simp only [Option.bind_some] at hs
      cases at_ with
      | none =>
        simp only [Bump.tryAllocSeq_spec ho.env hi.p.level hsz hal] at hs
        cases hpq : o.env.slab.place l s.level with
        | none => rw [hpq] at hs; cases hs; exact ⟨rfl, rfl, Nat.le_refl _, Or.inl ⟨rfl, rfl⟩⟩
        | some a =>
          rw [hpq] at hs; cases hs
          obtain ⟨h1, h2⟩ := hpl a hpq q.1
          exact ⟨rfl, rfl, h1, Or.inr h2⟩
      | some n =>
        simp only [Bump.tryAllocAtSeq_spec ho.env hsz hal (hat n rfl)] at hs
        cases hpq : o.env.slab.place l n with
        | none => rw [hpq] at hs; cases hs; exact ⟨rfl, rfl, Nat.le_refl _, Or.inl ⟨rfl, rfl⟩⟩
        | some a =>
          rw [hpq] at hs
          simp only at hs
          by_cases hc : s.level = n
          · rw [if_pos hc] at hs; cases hs
            obtain ⟨h1, h2⟩ := hpl a (hc ▸ hpq) q.1
            exact ⟨rfl, rfl, h1, Or.inr h2⟩
          · rw [if_neg hc] at hs; cases hs; exact ⟨rfl, rfl, Nat.le_refl _, Or.inl ⟨rfl, rfl⟩⟩

end Verif.BumpBorrows
