import Verif.Proofs.ChainOps
import Verif.Spec.Chain
import Mathlib.Data.List.Pairwise
/-! # C30–C32: `unsync::Chain` -/
namespace Verif
open Unsync

theorem Unsync.CInv.linkOf_iff {t : Target} {s : CState} {P : Nat → List LPtr} (hi : CInv t s P) {c : Nat} {p : LPtr} :
    s.LinkOf c p ↔ p ∈ P c := by
  constructor
  · intro h
    cases hr : s.roots c with
    | none =>
      exfalso
      induction h with
      | front h => rw [hr] at h; cases h
      | next _ _ _ ih => exact ih
    | some r =>
      have gen : ∀ {r ps}, Chained t s.heap r ps → ∀ {p q rec}, p ∈ ps → s.heap.link p.addr = some rec → rec.next = some q → q ∈ ps := by
        intro r ps
        induction ps generalizing r with
        | nil => intro _ p q rec hp; cases hp
        | cons x xs ih =>
          intro hc p q rec hp hl hn
          cases r with
          | none => exact absurd hc id
          | some r =>
            obtain ⟨rfl, rec', h1, h2, h3⟩ := hc
            rcases List.mem_cons.mp hp with rfl | hp
            · rw [h1] at hl; cases hl
              rw [hn] at h3
              obtain ⟨qs, _, rfl, _⟩ := h3.some_cons
              simp
            · exact List.mem_cons_of_mem _ (ih h3 hp hl hn)
      have hc := hi.chained c r hr
      induction h with
      | front h =>
        rw [hr] at h; cases h
        obtain ⟨qs, _, hP, _⟩ := hc.some_cons
        rw [hP]; simp
      | next h hl hn ih => exact gen hc ih hl hn
  · intro hp
    cases hr : s.roots c with
    | none => rw [hi.gone c hr] at hp; cases hp
    | some r =>
      have gen : ∀ {r ps}, Chained t s.heap r ps → (∀ p, r = some p → s.LinkOf c p) → ∀ p ∈ ps, s.LinkOf c p := by
        intro r ps
        induction ps generalizing r with
        | nil => intro _ _ p hp; cases hp
        | cons x xs ih =>
          intro hc hf p hp
          cases r with
          | none => exact absurd hc id
          | some r =>
            obtain ⟨rfl, rec', h1, h2, h3⟩ := hc
            rcases List.mem_cons.mp hp with rfl | hp
            · exact hf _ rfl
            · exact ih h3 (fun q hq => .next (hf _ rfl) h1 hq) p hp
      exact gen (hi.chained c r hr) (fun p h => .front (by rw [hr, h])) p hp

theorem Unsync.LPtr.used_eq (t : Target) (m : Mem) (p : LPtr) : p.used t m = p.level t m := rfl
theorem Unsync.LPtr.dataRegion_start (t : Target) (p : LPtr) : (p.dataRegion t).start = p.data t := rfl

theorem Unsync.CInv.remaining {t : Target} {s : CState} {P : Nat → List LPtr} (hi : CInv t s P) {c : Nat} {root : LPtr}
    (hr : s.roots c = some (some root)) :
    chainCapacity s c = .ret root.cap ∧ chainRemaining t s c = .ret (root.cap - root.used t s.mem) := by
  obtain ⟨qs, rec, hPc, hl, hlay, _⟩ := (hi.chained c _ hr).some_cons
  have hmem : root ∈ P c := by rw [hPc]; simp
  have h2 : (root.asBump t).level t s.mem ≤ root.cap := (hi.cap c root hmem).2
  have h1 : chainCapacity s c = .ret root.cap := by simp only [chainCapacity, hr, hl]; rfl
  refine ⟨h1, ?_⟩
  simp only [chainRemaining, hr, hl, h1, bind, Outcome.bind, Usize.checkedSub, h2, if_true, Outcome.unwrap]
  rfl

/-- Every operation returns and keeps the invariant. -/
theorem Unsync.cexec_inv {t : Target} {s : CState} {P : Nat → List LPtr} (hi : CInv t s P) {op : COp} (ha : op.Allowed t s) :
    ∃ r s' P', cexec t s op = .ret (r, s') ∧ CInv t s' P' ∧ ((∀ c T, op ≠ .bumpBox c T) → r ≠ .panicked) := by
  cases op with
  | new c size hp =>
    cases hL : linkLayoutFromSize t size with
    | none => exact ⟨.errNew ⟨size, .layout⟩, s, P, by simp only [cexec, chainNew, hL]; rfl, hi, fun _ => by simp⟩
    | some L =>
      cases hp with
      | none => exact ⟨.errNew ⟨L.size, .exhausted⟩, s, P, by simp only [cexec, chainNew, hL]; rfl, hi, fun _ => by simp⟩
      | some a =>
        obtain ⟨s', h1, h2, _⟩ := chainNew_inv hi ha hL rfl
        exact ⟨_, s', _, h1, h2, fun _ => by simp⟩
  | bumpBox c T =>
    obtain ⟨r, s', h1, h2, _⟩ := chainBumpBox_inv hi ha
    exact ⟨r, s', P, h1, h2, fun h => absurd rfl (h c T)⟩
  | chain c d =>
    obtain ⟨s', P', h1, h2, _⟩ := chainChain_inv hi ha.1 ha.2.1 ha.2.2
    exact ⟨_, s', P', h1, h2, fun _ => by simp⟩
  | capacity c =>
    cases hr : s.roots c with
    | none => exact absurd hr ha
    | some r =>
      cases r with
      | none => exact ⟨.num 0, s, P, by simp only [cexec, chainCapacity, hr]; rfl, hi, fun _ => by simp⟩
      | some root =>
        exact ⟨.num root.cap, s, P, by simp only [cexec, (hi.remaining hr).1]; rfl, hi, fun _ => by simp⟩
  | remaining c =>
    cases hr : s.roots c with
    | none => exact absurd hr ha
    | some r =>
      cases r with
      | none => exact ⟨.num 0, s, P, by simp only [cexec, chainRemaining, hr]; rfl, hi, fun _ => by simp⟩
      | some root =>
        exact ⟨.num _, s, P, by simp only [cexec, (hi.remaining hr).2]; rfl, hi, fun _ => by simp⟩
  | drop c =>
    obtain ⟨s', h1, h2, _⟩ := chainDrop_inv hi ha
    exact ⟨_, s', _, h1, h2, fun _ => by simp⟩
  | write c b off bytes =>
    exact ⟨.unit, _, P, rfl, (write_inv hi ha).1, fun _ => by simp⟩

theorem Unsync.CReach.inv {t : Target} {s : CState} (h : CReach t s) : ∃ P, CInv t s P := by
  induction h with
  | init =>
    refine ⟨fun _ => [], ?_, ?_, ?_, ?_, ?_, ⟨?_, ?_, ?_, ?_⟩, ?_, ?_, ?_, ?_, ?_⟩ <;> simp
  | step h ha hx ih =>
    obtain ⟨P, hi⟩ := ih
    obtain ⟨r, s', P', h1, h2, _⟩ := cexec_inv hi ha
    rw [h1] at hx
    cases hx
    exact ⟨P', h2⟩

/-! ## C30 -/

/-- **C30** In every history every operation that safe code can do returns: no link is used or freed when it is not allocated, nor freed with a layout
other than the one it was allocated with, destructors never nest deeper than `chainDepth = 2` frames however long the chains are, and
their loops terminate (violations of each are `ub` in the model). Only `bump_box` can panic. -/
theorem C30_operations_safe {t : Target} {s : CState} (h : CReach t s) {op : COp} (ha : op.Allowed t s) :
    ∃ r s', cexec t s op = .ret (r, s') ∧ ((∀ c T, op ≠ .bumpBox c T) → r ≠ .panicked) := by
  obtain ⟨P, hi⟩ := h.inv
  obtain ⟨r, s', P', h1, h2, h3⟩ := cexec_inv hi ha
  exact ⟨r, s', h1, h3⟩

/-- **C30** In every history: no link is freed twice, and each of the links allocated so far is either freed or belongs to a chain that exists, to exactly one,
at all times. -/
theorem C30_freed_once {t : Target} {s : CState} (h : CReach t s) :
    s.heap.freed.Nodup ∧
    (∀ k, k < s.serials ↔ (k ∈ s.heap.freed ∨ ∃ a rec, s.heap.link a = some rec ∧ rec.serial = k)) ∧
    (∀ a rec, s.heap.link a = some rec → rec.serial ∉ s.heap.freed) ∧
    (∀ a rec, s.heap.link a = some rec → ∃ c p, s.LinkOf c p ∧ p.addr = a ∧ s.roots c ≠ none ∧
      ∀ c' p', s.LinkOf c' p' → p'.addr = a → c' = c ∧ p' = p) ∧
    (∀ c p, s.LinkOf c p → ∃ rec, s.heap.link p.addr = some rec) := by
  obtain ⟨P, hi⟩ := h.inv
  refine ⟨hi.serials.nodup, hi.serials.iff, fun a rec ha hm => hi.serials.excl _ hm a rec ha rfl, ?_, ?_⟩
  · intro a rec ha
    obtain ⟨c, p, hp, hpa⟩ := hi.covered a rec ha
    refine ⟨c, p, hi.linkOf_iff.mpr hp, hpa, ?_, ?_⟩
    · intro hr; rw [hi.gone c hr] at hp; cases hp
    · intro c' p' hp' hpa'
      exact hi.unique (hi.linkOf_iff.mp hp') hp (by rw [hpa, hpa'])
  · intro c p hp
    exact (hi.alloc (hi.linkOf_iff.mp hp)).imp fun _ h => h.1

/-- **C30** If no chain exists any more, every link ever allocated has been freed exactly once, and nothing is allocated. -/
theorem C30_no_leak {t : Target} {s : CState} (h : CReach t s) (hnone : ∀ c, s.roots c = none) :
    s.heap.freed.Perm (List.range s.serials) ∧ ∀ a, s.heap.link a = none := by
  obtain ⟨P, hi⟩ := h.inv
  have hl : ∀ a, s.heap.link a = none := by
    intro a
    cases ha : s.heap.link a with
    | none => rfl
    | some rec =>
      obtain ⟨c, p, hp, _⟩ := hi.covered a rec ha
      rw [hi.gone c (hnone c)] at hp; cases hp
  refine ⟨?_, hl⟩
  rw [List.perm_ext_iff_of_nodup hi.serials.nodup List.nodup_range]
  intro k
  rw [List.mem_range, hi.serials.iff]
  constructor
  · exact .inl
  · rintro (h | ⟨a, rec, ha, _⟩)
    · exact h
    · rw [hl a] at ha; cases ha

/-- **C30** Dropping a chain frees exactly its links; the links of other chains stay. -/
theorem C30_drop_frees {t : Target} {s : CState} (h : CReach t s) {c : Nat} (hc : s.roots c ≠ none) {r : CRet} {s' : CState}
    (hx : cexec t s (.drop c) = .ret (r, s')) :
    s'.roots c = none ∧ (∀ p, s.LinkOf c p → s'.heap.link p.addr = none) ∧
    (∀ d, d ≠ c → s'.roots d = s.roots d ∧ ∀ p, s.LinkOf d p ↔ s'.LinkOf d p) := by
  obtain ⟨P, hi⟩ := h.inv
  obtain ⟨s'', h1, h2, h3, h4, h5, h6, h7⟩ := chainDrop_inv hi hc
  rw [h1] at hx; cases hx
  refine ⟨by rw [h6]; simp, ?_, ?_⟩
  · intro p hp
    have hp := hi.linkOf_iff.mp hp
    cases hl : s'.heap.link p.addr with
    | none => rfl
    | some rec =>
      exfalso
      obtain ⟨rec0, hr0, _⟩ := hi.alloc hp
      -- its serial has been freed and the link can not be another chain's
      obtain ⟨d, q, hq, hqa⟩ := h2.covered _ _ hl
      by_cases hd : d = c
      · subst hd; rw [pathSet_same] at hq; cases hq
      · rw [pathSet_other _ _ hd] at hq
        exact hi.apart d c hd q hq p hp hqa
  · intro d hd
    refine ⟨by rw [h6]; simp [hd], fun p => ?_⟩
    rw [hi.linkOf_iff, h2.linkOf_iff, pathSet_other _ _ hd]

/-! ## C31 -/

/-- **C31** In every history: the blocks handed out and still borrowed are aligned, pairwise disjoint, lie in the used part of the data of a link of the chain
they were allocated from, and that link's memory is allocated; links do not overlap. -/
theorem C31_blocks_disjoint {t : Target} {s : CState} (h : CReach t s) :
    (s.granted.map fun g => g.2.region).Pairwise Region.Disjoint ∧
    (∀ c b, (c, b) ∈ s.granted → b.layout.align ∣ b.ptr ∧ ∃ p rec, s.LinkOf c p ∧ b.region.Within (p.dataRegion t) ∧
      b.ptr + b.layout.size ≤ (p.dataRegion t).start + p.used t s.mem ∧
      s.heap.link p.addr = some rec ∧ (p.dataRegion t).Within ⟨p.addr, rec.layout.size⟩) ∧
    (∀ c d p q, s.LinkOf c p → s.LinkOf d q → (c = d ∧ p = q) ∨ ∀ rec rec', s.heap.link p.addr = some rec → s.heap.link q.addr = some rec' →
      Region.Disjoint ⟨p.addr, rec.layout.size⟩ ⟨q.addr, rec'.layout.size⟩) := by
  obtain ⟨P, hi⟩ := h.inv
  refine ⟨hi.gdisj, ?_, ?_⟩
  · intro c b hb
    obtain ⟨p, hp, k1, k2, k3, k4⟩ := hi.grants _ hb
    obtain ⟨rec, hl, hlay⟩ := hi.alloc hp
    have hcap := (hi.cap c p hp).2
    have hbs := p.block_size t
    refine ⟨k4, p, rec, hi.linkOf_iff.mpr hp, ⟨k1, ?_⟩, k2, hl, ?_, ?_⟩
    · show b.ptr + b.layout.size ≤ p.data t + p.cap
      simp only at k2; omega
    · show p.addr ≤ p.addr + 3 * t.wordBytes; omega
    · rw [hlay]
      show p.addr + 3 * t.wordBytes + p.cap ≤ p.addr + (p.block t).size
      omega
  · intro c d p q hp hq
    have hp := hi.linkOf_iff.mp hp
    have hq := hi.linkOf_iff.mp hq
    by_cases he : p.addr = q.addr
    · exact .inl (hi.unique hp hq he)
    · exact .inr fun rec rec' h1 h2 => hi.linkdisj _ _ _ _ h1 h2 he

/-- **C31** Whatever is done next, blocks borrowed from chains that are not dropped or moved stay borrowed with their bytes unchanged, except for bytes
that the owner itself writes. -/
theorem C31_blocks_kept {t : Target} {s : CState} (h : CReach t s) {op : COp} (ha : op.Allowed t s) {r : CRet} {s' : CState}
    (hx : cexec t s op = .ret (r, s')) {c : Nat} {b : Block} (hb : (c, b) ∈ s.granted) (he : ¬ op.Ends c) :
    (c, b) ∈ s'.granted ∧ ((∀ c' off bytes, op ≠ .write c' b off bytes) → ∀ x, b.region.Has x → s'.mem x = s.mem x) := by
  obtain ⟨P, hi⟩ := h.inv
  obtain ⟨p, hp, k1, k2, k3, k4⟩ := hi.grants _ hb
  have hcap := (hi.cap c p hp).2
  have hbs := p.block_size t
  have hin : ∀ x, b.region.Has x → p.addr + 3 * t.wordBytes ≤ x ∧ (p.block t).Has x := by
    intro x hx
    have h1 : b.ptr ≤ x := hx.1
    have h2 : x < b.ptr + b.layout.size := hx.2
    simp only [LPtr.data] at k1 k2
    exact ⟨by omega, by show p.addr ≤ x; omega, by show x < p.addr + (p.block t).size; omega⟩
  have hother : ∀ {d root}, root ∈ P d → ∀ x, b.region.Has x → ¬ Region.Has ⟨root.addr + 2 * t.wordBytes, t.wordBytes⟩ x := by
    intro d root hroot x hx hh
    obtain ⟨h1, h2⟩ := hin x hx
    have hh1 : root.addr + 2 * t.wordBytes ≤ x := hh.1
    have hh2 : x < root.addr + 2 * t.wordBytes + t.wordBytes := hh.2
    by_cases hne : p.addr = root.addr
    · omega
    · have hbr := root.block_size t
      exact hi.blocks hp hroot hne x ⟨h2, by show root.addr ≤ x; omega, by show x < root.addr + (root.block t).size; omega⟩
  cases op with
  | new d size hpp =>
    cases hL : linkLayoutFromSize t size with
    | none =>
      simp only [cexec, chainNew, hL] at hx; cases hx; exact ⟨hb, fun _ _ _ => rfl⟩
    | some L =>
      cases hpp with
      | none => simp only [cexec, chainNew, hL] at hx; cases hx; exact ⟨hb, fun _ _ _ => rfl⟩
      | some a =>
        obtain ⟨s'', h1, h2, h3, h4, h5, h6, _⟩ := chainNew_inv hi ha hL rfl
        rw [h1] at hx; cases hx
        refine ⟨by rw [h3]; exact hb, fun _ x hx => h6 x fun hh => ?_⟩
        obtain ⟨rec, hl, hlay⟩ := hi.alloc hp
        refine (ha.2.2 a L rfl hL).2.2.2 _ _ hl x ⟨hh, ?_⟩
        rw [hlay]; exact (hin x hx).2
  | bumpBox d T =>
    obtain ⟨r', s'', h1, h2, h3, h4, h5, h6, h7, h8, h9, _⟩ := chainBumpBox_inv hi ha
    rw [h1] at hx; cases hx
    constructor
    · by_cases hp : ∃ p, r = .ptr p
      · obtain ⟨p, hp⟩ := hp
        rw [h8 p hp]; exact List.mem_cons_of_mem _ hb
      · rw [h9 fun p hpp => hp ⟨p, hpp⟩]; exact hb
    · intro _ x hx
      cases hr : s.roots d with
      | none => exact absurd hr ha.1
      | some ro =>
        cases ro with
        | none => rw [(h7 hr).2]
        | some root =>
          obtain ⟨qs, _, hPd, _⟩ := (hi.chained d _ hr).some_cons
          exact (h6 root hr).2 x (hother (d := d) (by rw [hPd]; simp) x hx)
  | chain d e =>
    obtain ⟨s'', P', h1, h2, h3, h4, h5, h6, h7, h8, h9, _⟩ := chainChain_inv hi ha.1 ha.2.1 ha.2.2
    rw [h1] at hx; cases hx
    refine ⟨?_, fun _ x _ => by rw [h9]⟩
    rw [h8]
    exact List.mem_filter.mpr ⟨hb, by simpa using fun h => he h.symm⟩
  | capacity d =>
    simp only [cexec, bind, Outcome.bind] at hx
    split at hx
    · cases hx; exact ⟨hb, fun _ _ _ => rfl⟩
    · cases hx
    · cases hx
  | remaining d =>
    simp only [cexec] at hx
    split at hx
    · cases hx
    · cases hx; exact ⟨hb, fun _ _ _ => rfl⟩
    · cases hx; exact ⟨hb, fun _ _ _ => rfl⟩
  | drop d =>
    obtain ⟨s'', h1, h2, h3, h4, _⟩ := chainDrop_inv hi ha
    rw [h1] at hx; cases hx
    refine ⟨?_, fun _ x _ => by rw [h4]⟩
    rw [h3]
    exact List.mem_filter.mpr ⟨hb, by simpa using fun h => he h.symm⟩
  | write d b' off bytes =>
    simp only [cexec] at hx
    cases hx
    refine ⟨hb, fun hne x hx => ?_⟩
    apply writeBytes_of_not_mem
    intro hh
    have hbb : b ≠ b' := fun h => hne d off bytes (by rw [h])
    obtain ⟨hb', hoff⟩ := ha
    have hpw := List.pairwise_map.mp hi.gdisj
    have hdisj : Region.Disjoint b.region b'.region := by
      have hsymm : Std.Symm fun (g g' : Nat × Block) => g.2 ≠ g'.2 → Region.Disjoint g.2.region g'.2.region :=
        ⟨fun _ _ h h' => (h h'.symm).symm⟩
      exact List.Pairwise.forall_of_forall (R := fun (g g' : Nat × Block) => g.2 ≠ g'.2 → Region.Disjoint g.2.region g'.2.region)
        (fun g _ h => absurd rfl h) (hpw.imp (S := fun (g g' : Nat × Block) => g.2 ≠ g'.2 → Region.Disjoint g.2.region g'.2.region) fun h _ => h) hb hb' hbb
    exact hdisj x ⟨hx, by show b'.ptr ≤ x; omega, by show x < b'.ptr + b'.layout.size; omega⟩

/-- **C31** `chain c d` (both non-empty): the front link of `d` becomes the front of `c`, followed by all links that `c` had, unmoved; `d` is gone, as are its other
links. No memory is written. -/
theorem C31_chain_joins {t : Target} {s : CState} (h : CReach t s) {c d : Nat} (hc : s.roots c ≠ none) (hcd : c ≠ d) {root : LPtr}
    (hd : s.roots d = some (some root)) {r : CRet} {s' : CState} (hx : cexec t s (.chain c d) = .ret (r, s')) :
    s'.roots c = some (some root) ∧ s'.roots d = none ∧ s'.mem = s.mem ∧
    (∀ p, s'.LinkOf c p ↔ (p = root ∨ s.LinkOf c p)) ∧
    (∀ p, s.LinkOf d p → p ≠ root → s'.heap.link p.addr = none) ∧
    (∀ e, e ≠ c → e ≠ d → s'.roots e = s.roots e ∧ ∀ p, s'.LinkOf e p ↔ s.LinkOf e p) := by
  obtain ⟨P, hi⟩ := h.inv
  obtain ⟨s'', P', h1, h2, h3, h4, h5, h6, h7, h8, h9, h10, h11, h12⟩ := chainChain_inv hi hc (by rw [hd]; simp) hcd
  rw [h1] at hx; cases hx
  obtain ⟨qs, _, hPd, _⟩ := (hi.chained d _ hd).some_cons
  refine ⟨h12 root hd, h6, h9, ?_, ?_, ?_⟩
  · intro p
    rw [h2.linkOf_iff, h4, hPd, hi.linkOf_iff]
    simp
  · intro p hp hne
    have hp := hi.linkOf_iff.mp hp
    cases hl : s'.heap.link p.addr with
    | none => rfl
    | some rec =>
      exfalso
      obtain ⟨e, q, hq, hqa⟩ := h2.covered _ _ hl
      by_cases he : e = d
      · subst he; rw [h5] at hq; cases hq
      · by_cases hec : e = c
        · subst hec
          rw [h4, hPd] at hq
          rcases List.mem_append.mp hq with hq | hq
          · have : q = root := by simpa using hq
            subst this
            exact hne (hi.unique hp (c := d) (d := d) (by rw [hPd]; simp) hqa.symm).2
          · exact hi.apart e d he q hq p hp hqa
        · rw [h3 e hec he] at hq
          exact hi.apart e d he q hq p hp hqa
  · intro e h1' h2'
    refine ⟨h7 e h1' h2', fun p => ?_⟩
    rw [h2.linkOf_iff, h3 e h1' h2', hi.linkOf_iff]

/-- **C31** `bump_box` places the value at the first aligned free place of the front link, and fails exactly if it does not fit there. -/
theorem C31_bump_box_in_front {t : Target} {s : CState} (h : CReach t s) {c : Nat} {T : Layout} (hT : T.ValidType t) {root : LPtr}
    (hr : s.roots c = some (some root)) (hs : 0 < T.size) :
    ∃ r s', cexec t s (.bumpBox c T) = .ret (r, s') ∧
      match Slab.place ⟨(root.dataRegion t).start, root.cap⟩ T (root.used t s.mem) with
      | none => r = .err .exhausted ∧ root.used t s'.mem = root.used t s.mem
      | some a => r = .ptr a.ptr ∧ root.used t s'.mem = a.level ∧ (c, ⟨a.ptr, T⟩) ∈ s'.granted := by
  obtain ⟨P, hi⟩ := h.inv
  obtain ⟨r, s', h1, h2, h3, h4, h5, h6, h7, h8, h9, _⟩ := chainBumpBox_inv hi (c := c) (T := T) ⟨by rw [hr]; simp, hT⟩
  refine ⟨r, s', h1, ?_⟩
  obtain ⟨k, _⟩ := h6 root hr
  unfold uSpecApply at k
  simp only [UCall.layout, UCall.atLevel, UCall.failure, UCall.success] at k
  rw [if_neg (by have := hT.1.2; omega)] at k
  unfold specPlace at k
  rw [if_neg (by omega)] at k
  simp only [LPtr.dataRegion_start, LPtr.used_eq]
  cases hp : Slab.place ⟨root.data t, root.cap⟩ T (root.level t s.mem) with
  | none => rw [hp] at k; simp only [Prod.mk.injEq] at k; exact k
  | some a =>
    rw [hp] at k; simp only [Prod.mk.injEq] at k
    exact ⟨k.1, k.2, by rw [h8 _ k.1]; simp⟩

/-! ## C32 -/

/-- **C32** `capacity` is the capacity of the front link, `remaining_capacity` its unused bytes (neither panics). -/
theorem C32_front_only {t : Target} {s : CState} (h : CReach t s) {c : Nat} :
    (s.roots c = some none → chainCapacity s c = .ret 0 ∧ chainRemaining t s c = .ret 0) ∧
    ∀ root, s.roots c = some (some root) → chainCapacity s c = .ret (root.dataRegion t).size ∧
      ∃ n, chainRemaining t s c = .ret n ∧ n + root.used t s.mem = root.cap ∧ n ≤ (root.dataRegion t).size := by
  obtain ⟨P, hi⟩ := h.inv
  constructor
  · intro hr
    simp only [chainCapacity, chainRemaining, hr]
    exact ⟨rfl, rfl⟩
  · intro root hr
    obtain ⟨h1, h2⟩ := hi.remaining hr
    obtain ⟨qs, _, hPc, _⟩ := (hi.chained c _ hr).some_cons
    have h3 : root.used t s.mem ≤ root.cap := (hi.cap c root (by rw [hPc]; simp)).2
    exact ⟨h1, _, h2, by omega, by show _ ≤ root.cap; omega⟩

/-- **C32** A successful `bump_box` decreases `remaining_capacity` by at least the size of the value, leaving `capacity`. -/
theorem C32_decreases {t : Target} {s : CState} (h : CReach t s) {c : Nat} {T : Layout} (hT : T.ValidType t) {p : Nat} {s' : CState}
    (hx : cexec t s (.bumpBox c T) = .ret (.ptr p, s')) :
    ∃ cap n n', chainCapacity s c = .ret cap ∧ chainCapacity s' c = .ret cap ∧
      chainRemaining t s c = .ret n ∧ chainRemaining t s' c = .ret n' ∧ n' + T.size ≤ n ∧ 0 < T.size := by
  obtain ⟨P, hi⟩ := h.inv
  have hne : s.roots c ≠ none := by
    intro hr; simp only [cexec, chainBumpBox, hr] at hx; cases hx
  obtain ⟨r, s'', h1, h2, h3, h4, h5, h6, h7, h8, h9, _⟩ := chainBumpBox_inv hi (c := c) (T := T) ⟨hne, hT⟩
  rw [h1] at hx; cases hx
  cases hr : s.roots c with
  | none => exact absurd hr hne
  | some ro =>
    cases ro with
    | none => have := (h7 hr).1; cases this
    | some root =>
      obtain ⟨j1, j2⟩ := hi.remaining hr
      obtain ⟨i1, i2⟩ := h2.remaining (c := c) (root := root) (by rw [h3]; exact hr)
      refine ⟨_, _, _, j1, i1, j2, i2, ?_⟩
      obtain ⟨qs, _, hPc, _⟩ := (hi.chained c _ hr).some_cons
      have hm : root ∈ P c := by rw [hPc]; simp
      have hcap := (h2.cap c root hm).2
      obtain ⟨k, _⟩ := h6 root hr
      have hpos : 0 < T.align := hT.1.1.pos
      unfold uSpecApply at k
      simp only [UCall.layout, UCall.atLevel, UCall.failure, UCall.success] at k
      rw [if_neg (by have := hT.1.2; omega)] at k
      unfold specPlace at k
      by_cases hs : T.size = 0
      · rw [if_pos hs] at k; cases k
      · rw [if_neg hs] at k
        cases hp : Slab.place ⟨root.data t, root.cap⟩ T (root.level t s.mem) with
        | none => rw [hp] at k; cases k
        | some a =>
          rw [hp] at k
          simp only [Prod.mk.injEq] at k
          have hlev := place_level hpos hp
          simp only [LPtr.used_eq]
          omega

/-! ## C78 -/

/-- **C78** `Chain::new` either succeeds, and then the chain has one link with exactly the requested capacity, of which all remains, or it changes nothing.
The reported size of an error is the size requested from the heap, if the heap has been asked (it refused): that is three words (the pointer to the next link and the level) and the capacity, rounded up to words;
otherwise it is the requested capacity, and this happens exactly if three words and the capacity, rounded up, are no valid size. -/
theorem C78_new {t : Target} {s : CState} (h : CReach t s) {c size : Nat} {heap : Option Nat} (ha : (COp.new c size heap).Allowed t s)
    {r : CRet} {s' : CState} (hx : cexec t s (.new c size heap) = .ret (r, s')) :
    (r = .unit ∧ (∃ a, heap = some a) ∧ chainCapacity s' c = .ret size ∧ chainRemaining t s' c = .ret size ∧ (∃ p : LPtr, ∀ q, s'.LinkOf c q ↔ q = p) ∧
      ∀ d, d ≠ c → s'.roots d = s.roots d ∧ ∀ p, s'.LinkOf d p ↔ s.LinkOf d p) ∨
    (s' = s ∧ ∃ e : TryNewError, r = .errNew e ∧
      ((e.kind = .exhausted ∧ heap = none ∧ t.wordBytes ∣ e.allocationSize ∧ 3 * t.wordBytes + size ≤ e.allocationSize ∧ e.allocationSize < 4 * t.wordBytes + size ∧
          e.allocationSize + (t.wordBytes - 1) ≤ t.isizeMax) ∨
       (e.kind = .layout ∧ e.allocationSize = size ∧ ∀ L, t.wordBytes ∣ L → 3 * t.wordBytes + size ≤ L → t.isizeMax < L + (t.wordBytes - 1)))) := by
  obtain ⟨P, hi⟩ := h.inv
  have hw := t.wordBytes_pos
  cases hL : linkLayoutFromSize t size with
  | none =>
    simp only [cexec, chainNew, hL] at hx; cases hx
    refine .inr ⟨rfl, _, rfl, .inr ⟨rfl, rfl, fun L hd hle => ?_⟩⟩
    unfold linkLayoutFromSize at hL
    rw [layoutFromSize_eq] at hL
    have hup : alignUp t.wordBytes (t.wordBytes + size) + 2 * t.wordBytes ≤ L := by
      have h3 : t.wordBytes ∣ L - 2 * t.wordBytes := Nat.dvd_sub hd (Nat.dvd_mul_left _ _)
      have := alignUp_le hw (x := t.wordBytes + size) (by omega) h3
      omega
    by_cases hb : t.isizeMax < t.wordBytes + size + (t.wordBytes - 1)
    · omega
    · rw [if_neg hb] at hL
      have h1 : t.wordBytes ∣ 2 * t.wordBytes := Nat.dvd_mul_left _ _
      simp only [layoutExtend, nextLayout, alignUp_of_dvd hw h1, Nat.max_self, layoutFromSizeAlign] at hL
      by_cases hc : 2 * t.wordBytes + alignUp t.wordBytes (t.wordBytes + size) + (t.wordBytes - 1) ≤ t.isizeMax
      · rw [if_pos hc] at hL; cases hL
      · omega
  | some L =>
    obtain ⟨k1, k2⟩ := linkLayoutFromSize_some hL
    cases heap with
    | none =>
      simp only [cexec, chainNew, hL] at hx; cases hx
      refine .inr ⟨rfl, _, rfl, .inl ⟨rfl, rfl, ?_, ?_, ?_, k2⟩⟩ <;> simp only [TryNewError.allocationSize, k1, linkLayoutForValue_eq]
      · exact Nat.dvd_add (Nat.dvd_mul_left _ _) (dvd_alignUp _ _)
      · have := le_alignUp hw (t.wordBytes + size); omega
      · have := alignUp_lt hw (t.wordBytes + size); omega
    | some a =>
      obtain ⟨s'', h1, h2, h3, h4, h5, h6, h7⟩ := chainNew_inv hi ha hL rfl
      rw [h1] at hx; cases hx
      obtain ⟨j1, j2⟩ := h2.remaining (c := c) (root := ⟨a, size⟩) (by rw [h5]; simp)
      refine .inl ⟨rfl, ⟨a, rfl⟩, j1, ?_, ⟨⟨a, size⟩, fun q => ?_⟩, fun d hd => ⟨by rw [h5]; simp [hd], fun p => ?_⟩⟩
      · rw [j2, LPtr.used_eq, h7]; rfl
      · rw [h2.linkOf_iff, pathSet_same]; simp
      · rw [h2.linkOf_iff, pathSet_other _ _ hd, hi.linkOf_iff]

/-- A chain that the heap refuses: 40 bytes were requested for a capacity of 16; a chain for which there is no layout. -/
example : (match cexec .w64 ⟨⟨fun _ => none, []⟩, fun _ => 0, fun _ => none, 0, []⟩ (.new 0 16 none) with | .ret (r, _) => r | _ => .panicked) = .errNew ⟨40, .exhausted⟩ := rfl
example : (match cexec .w32 ⟨⟨fun _ => none, []⟩, fun _ => 0, fun _ => none, 0, []⟩ (.new 0 (2 ^ 31 - 15) none) with | .ret (r, _) => r | _ => .panicked) = .errNew ⟨2 ^ 31 - 15, .layout⟩ := by decide +kernel

/-! ## Examples: a history that meets the hypotheses -/

namespace ChainExample
/-- Two chains, a value in the first, joined, another value. -/
def s0 : CState := ⟨⟨fun _ => none, []⟩, fun _ => 0xAA, fun _ => none, 0, []⟩
def step (s : CState) (op : COp) : CState := match cexec .w64 s op with | .ret (_, s') => s' | _ => s0
def s1 : CState := step s0 (.new 0 16 (some 4096))
def s2 : CState := step s1 (.new 1 8 (some 8192))
def s3 : CState := step s2 (.bumpBox 0 ⟨8, 8⟩)
def s4 : CState := step s3 (.chain 0 1)
def s5 : CState := step s4 (.bumpBox 0 ⟨4, 4⟩)
def s6 : CState := step s5 (.drop 0)

theorem r1 : CReach .w64 s1 := by
  refine .step (op := .new 0 16 (some 4096)) (r := .unit) (s := s0) .init ⟨rfl, by decide, ?_⟩ rfl
  intro a L ha hL
  have : linkLayoutFromSize .w64 16 = some ⟨40, 8⟩ := rfl
  rw [this] at hL; cases ha; cases hL
  refine ⟨by decide, by decide, by decide, ?_⟩
  intro a' rec h; cases h
theorem r2 : CReach .w64 s2 := by
  refine .step (op := .new 1 8 (some 8192)) (r := .unit) r1 ⟨rfl, by decide, ?_⟩ rfl
  intro a L ha hL
  have : linkLayoutFromSize .w64 8 = some ⟨32, 8⟩ := rfl
  rw [this] at hL; cases ha; cases hL
  refine ⟨by decide, by decide, by decide, ?_⟩
  intro a' rec h
  have h : (if a' = 4096 then some (⟨⟨40, 8⟩, none, 0⟩ : LinkRec) else none) = some rec := h
  split at h
  · cases h; subst a'; apply Region.Disjoint.symm; apply Region.disjoint_of_le; decide
  · cases h
theorem r3 : CReach .w64 s3 :=
  .step (op := .bumpBox 0 ⟨8, 8⟩) (r := .ptr 4120) r2 ⟨by decide, ⟨⟨3, rfl⟩, by decide⟩, by decide⟩ rfl
theorem r4 : CReach .w64 s4 :=
  .step (op := .chain 0 1) (r := .unit) r3 ⟨by decide, by decide, by decide⟩ rfl
theorem r5 : CReach .w64 s5 :=
  .step (op := .bumpBox 0 ⟨4, 4⟩) (r := .ptr 8216) r4 ⟨by decide, ⟨⟨2, rfl⟩, by decide⟩, by decide⟩ rfl
theorem r6 : CReach .w64 s6 := .step (op := .drop 0) (r := .unit) r5 (show s5.roots 0 ≠ none by decide) rfl

/-- Two values in two different links are borrowed from the joined chain. -/
example : s5.granted = [(0, ⟨8216, ⟨4, 4⟩⟩), (0, ⟨4120, ⟨8, 8⟩⟩)] := rfl
example : s6.heap.freed = [0, 1] ∧ s6.serials = 2 := ⟨rfl, rfl⟩
end ChainExample

/-- **C32** Contrary to the documentation, `capacity` and `remaining_capacity` are not totals over the chain: here two links with 16 and 8 bytes of
which 8 and 4 are used. -/
theorem C32_not_total : ∃ s, CReach .w64 s ∧ (∀ p, s.LinkOf 0 p ↔ p ∈ ([⟨8192, 8⟩, ⟨4096, 16⟩] : List LPtr)) ∧
    (⟨8192, 8⟩ : LPtr).used .w64 s.mem = 4 ∧ (⟨4096, 16⟩ : LPtr).used .w64 s.mem = 8 ∧
    chainCapacity s 0 = .ret 8 ∧ chainRemaining .w64 s 0 = .ret 4 := by
  refine ⟨ChainExample.s5, ChainExample.r5, ?_, rfl, rfl, rfl, rfl⟩
  intro p
  constructor
  · intro h
    induction h with
    | front h => cases h; simp
    | next h hl hn ih =>
      rcases List.mem_cons.mp ih with rfl | ih
      · cases hl; cases hn; simp
      · rcases List.mem_cons.mp ih with rfl | ih
        · cases hl; cases hn
        · cases ih
  · intro h
    have hf : ChainExample.s5.LinkOf 0 ⟨8192, 8⟩ := .front rfl
    rcases List.mem_cons.mp h with rfl | h
    · exact hf
    · rcases List.mem_cons.mp h with rfl | h
      · exact .next hf rfl rfl
      · cases h

end Verif
