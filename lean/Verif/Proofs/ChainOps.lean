import Verif.Proofs.Chain
/-! The operations of `Chain` keep the invariant. -/
namespace Verif.Unsync
open Verif

theorem setRoot_same (s : CState) (c : Nat) (r : Option (Option LPtr)) : (s.setRoot c r).roots c = r := by simp [CState.setRoot]
theorem setRoot_other (s : CState) {c d : Nat} (r : Option (Option LPtr)) (h : d ≠ c) : (s.setRoot c r).roots d = s.roots d := by
  simp [CState.setRoot, h]

def pathSet (P : Nat → List LPtr) (c : Nat) (ps : List LPtr) : Nat → List LPtr := fun x => if x = c then ps else P x
theorem pathSet_same (P : Nat → List LPtr) (c : Nat) (ps : List LPtr) : pathSet P c ps c = ps := by simp [pathSet]
theorem pathSet_other (P : Nat → List LPtr) {c d : Nat} (ps : List LPtr) (h : d ≠ c) : pathSet P c ps d = P d := by simp [pathSet, h]

theorem chainNew_inv {t : Target} {s : CState} {P : Nat → List LPtr} (hi : CInv t s P) {c size : Nat} {hp : Option Nat}
    (ha : (COp.new c size hp).Allowed t s) {L : Layout} (hL : linkLayoutFromSize t size = some L) {a : Nat} (he : hp = some a) :
    ∃ s', cexec t s (.new c size hp) = .ret (.unit, s') ∧ CInv t s' (pathSet P c [⟨a, size⟩]) ∧ s'.granted = s.granted ∧
      s'.heap.freed = s.heap.freed ∧ s'.roots = (fun x => if x = c then some (some ⟨a, size⟩) else s.roots x) ∧
      (∀ x, ¬ Region.Has ⟨a, L.size⟩ x → s'.mem x = s.mem x) ∧ LPtr.level t s'.mem ⟨a, size⟩ = 0 := by
  subst he
  obtain ⟨hroot, hszW, hheap⟩ := ha
  obtain ⟨ha0, haw, hanw, hdis⟩ := hheap a L rfl hL
  obtain ⟨hLe, hLsz⟩ := linkLayoutFromSize_some hL
  have hpos := t.wordBytes_pos
  have hLa : L.align = t.wordBytes := by rw [hLe, linkLayoutForValue_eq]
  have hblk := LPtr.block_size t ⟨a, size⟩
  have hLs : L.size = ((⟨a, size⟩ : LPtr).block t).size := by
    rw [hLe]; simp only [LPtr.block, linkLayoutForValue_eq]
  have hLfor : L = linkLayoutForValue t ⟨a, size⟩ := by rw [hLe, linkLayoutForValue_eq, linkLayoutForValue_eq]
  simp only at hblk
  -- the address is fresh
  have hfresh : s.heap.link a = none := by
    cases h : s.heap.link a with
    | none => rfl
    | some rec =>
      exfalso
      obtain ⟨c', p, hp, hpa⟩ := hi.covered a rec h
      obtain ⟨rec', h1, h2⟩ := hi.alloc hp
      rw [hpa, h] at h1
      cases h1
      have hb := p.block_size t
      have hs : rec.layout.size = (p.block t).size := by rw [h2]; rfl
      exact hdis a rec h a ⟨⟨Nat.le_refl _, by simp only; omega⟩, ⟨Nat.le_refl _, by simp only; omega⟩⟩
  have hPc : P c = [] := hi.gone c hroot
  have hmemo : ∀ x, ¬ Region.Has ⟨a, L.size⟩ x → writeZeros s.mem a L.size x = s.mem x := by
    intro x hx
    apply writeBytes_of_not_mem
    rw [List.length_replicate]; exact hx
  have hother : ∀ d, ∀ p ∈ P d, p.addr ≠ a ∧ (∀ x, (p.block t).Has x → ¬ Region.Has ⟨a, L.size⟩ x) := by
    intro d p hp
    obtain ⟨rec, h1, h2⟩ := hi.alloc hp
    refine ⟨fun h => (by rw [h, hfresh] at h1; cases h1), fun x hx1 hx2 => ?_⟩
    have := hdis _ _ h1
    rw [h2] at this
    exact this x ⟨hx2, hx1⟩
  have hlev : ∀ d, ∀ p ∈ P d, p.level t (writeZeros s.mem a L.size) = p.level t s.mem := by
    intro d p hp
    apply level_congr
    intro x h1 h2
    apply hmemo
    apply (hother d p hp).2
    have := p.block_size t
    exact ⟨by show p.addr ≤ x; omega, by show x < p.addr + (p.block t).size; omega⟩
  have hzero : LPtr.level t (writeZeros s.mem a L.size) ⟨a, size⟩ = 0 := by
    have : LPtr.level t (writeZeros s.mem a L.size) ⟨a, size⟩ = LPtr.level t (fun _ => 0) ⟨a, size⟩ := by
      apply level_congr
      intro x h1 h2
      simp only at h1 h2
      obtain ⟨i, rfl⟩ : ∃ i, x = a + i := ⟨x - a, by omega⟩
      unfold writeZeros
      rw [writeBytes_of_mem (by rw [List.length_replicate]; omega), List.getElem_replicate]
    rw [this]
    cases t <;> rfl
  have hexec : cexec t s (.new c size (some a)) = .ret (.unit, CState.setRoot ⟨s.heap.set a (some ⟨L, none, s.serials⟩),
      writeZeros s.mem a L.size, s.roots, s.serials + 1, s.granted⟩ c (some (some ⟨a, size⟩))) := by
    simp only [cexec, chainNew, hL]; rfl
  refine ⟨_, hexec, ?_, rfl, rfl, rfl, hmemo, hzero⟩
  have hlink : ∀ x, x ≠ a → (s.heap.set a (some ⟨L, none, s.serials⟩)).link x = s.heap.link x := by
    intro x hx; simp [LHeap.set, hx]
  have hlinka : (s.heap.set a (some ⟨L, none, s.serials⟩)).link a = some ⟨L, none, s.serials⟩ := by simp [LHeap.set]
  have hmemP : ∀ d, ∀ p ∈ pathSet P c [⟨a, size⟩] d, (p = ⟨a, size⟩ ∧ d = c) ∨ (p ∈ P d ∧ d ≠ c) := by
    intro d p hp
    by_cases hd : d = c
    · subst hd; rw [pathSet_same] at hp; exact .inl ⟨by simpa using hp, rfl⟩
    · rw [pathSet_other _ _ hd] at hp; exact .inr ⟨hp, hd⟩
  constructor
  · intro d r hr
    by_cases hd : d = c
    · subst hd
      rw [setRoot_same] at hr
      cases hr
      rw [pathSet_same]
      exact ⟨rfl, _, hlinka, hLfor, trivial⟩
    · rw [setRoot_other _ _ hd] at hr
      rw [pathSet_other _ _ hd]
      refine (hi.chained d r hr).congr fun x hx => ?_
      obtain ⟨p, hp, rfl⟩ := List.mem_map.mp hx
      exact hlink _ (hother d p hp).1
  · intro d hr
    by_cases hd : d = c
    · subst hd; rw [setRoot_same] at hr; cases hr
    · rw [setRoot_other _ _ hd] at hr
      rw [pathSet_other _ _ hd]; exact hi.gone d hr
  · intro d
    by_cases hd : d = c
    · subst hd; rw [pathSet_same]; simp
    · rw [pathSet_other _ _ hd]; exact hi.nodup d
  · intro d e hde p hp q hq
    rcases hmemP d p hp with ⟨rfl, rfl⟩ | ⟨hp', hd⟩ <;> rcases hmemP e q hq with ⟨rfl, rfl⟩ | ⟨hq', he⟩
    · exact absurd rfl hde
    · exact fun h => (hother e q hq').1 h.symm
    · exact (hother d p hp').1
    · exact hi.apart d e hde p hp' q hq'
  · intro x rec hx
    by_cases hxa : x = a
    · subst hxa
      exact ⟨c, ⟨x, size⟩, by rw [pathSet_same]; simp, rfl⟩
    · replace hx := (hlink x hxa).symm.trans hx
      obtain ⟨d, p, hp, hpa⟩ := hi.covered x rec hx
      refine ⟨d, p, ?_, hpa⟩
      rw [pathSet_other]
      · exact hp
      · rintro rfl; rw [hPc] at hp; cases hp
  · have hs := hi.serials
    have hlt : ∀ x rec, s.heap.link x = some rec → rec.serial < s.serials := fun x rec hx => (hs.iff _).mpr (.inr ⟨x, rec, hx, rfl⟩)
    have hcase : ∀ x rec, (s.heap.set a (some ⟨L, none, s.serials⟩)).link x = some rec →
        (x = a ∧ rec.serial = s.serials) ∨ (x ≠ a ∧ s.heap.link x = some rec) := by
      intro x rec hx
      by_cases hxa : x = a
      · subst hxa; rw [hlinka] at hx; cases hx; exact .inl ⟨rfl, rfl⟩
      · rw [hlink x hxa] at hx; exact .inr ⟨hxa, hx⟩
    show SInv (s.heap.set a (some ⟨L, none, s.serials⟩)) (s.serials + 1)
    constructor
    · intro x x' rec rec' h1 h2 h3
      rcases hcase x rec h1 with ⟨rfl, e1⟩ | ⟨n1, k1⟩ <;> rcases hcase x' rec' h2 with ⟨rfl, e2⟩ | ⟨n2, k2⟩
      · rfl
      · have := hlt _ _ k2; omega
      · have := hlt _ _ k1; omega
      · exact hs.inj _ _ _ _ k1 k2 h3
    · exact hs.nodup
    · intro k
      constructor
      · intro hk
        by_cases hk2 : k = s.serials
        · exact .inr ⟨a, _, hlinka, hk2.symm⟩
        · rcases (hs.iff k).mp (by omega) with h | ⟨x, rec, hx, hk⟩
          · exact .inl h
          · exact .inr ⟨x, rec, (hlink x (by rintro rfl; rw [hfresh] at hx; exact absurd hx.symm (by simp))).trans hx, hk⟩
      · rintro (h | ⟨x, rec, hx, hk⟩)
        · have := (hs.iff k).mpr (.inl h); omega
        · rcases hcase x rec hx with ⟨_, e⟩ | ⟨_, e⟩
          · omega
          · have := hlt _ _ e; omega
    · intro k hk x rec hx
      have hkl := (hs.iff k).mpr (.inl hk)
      rcases hcase x rec hx with ⟨_, e⟩ | ⟨_, e⟩
      · omega
      · exact hs.excl k hk _ _ e
  · intro x rec hx
    by_cases hxa : x = a
    · subst hxa
      replace hx := hlinka.symm.trans hx
      cases hx
      rw [hLa] at haw
      exact ⟨ha0, haw, hanw⟩
    · replace hx := (hlink x hxa).symm.trans hx
      exact hi.linkok x rec hx
  · intro x y rec rec' hx hy hxy
    by_cases hxa : x = a
    · subst hxa
      replace hx := hlinka.symm.trans hx
      replace hy := (hlink y (fun h => hxy h.symm)).symm.trans hy
      cases hx
      exact hdis y rec' hy
    · replace hx := (hlink x hxa).symm.trans hx
      by_cases hya : y = a
      · subst hya
        replace hy := hlinka.symm.trans hy
        cases hy
        exact (hdis x rec hx).symm
      · replace hy := (hlink y hya).symm.trans hy
        exact hi.linkdisj x y rec rec' hx hy hxy
  · intro d p hp
    rcases hmemP d p hp with ⟨rfl, rfl⟩ | ⟨hp, hd⟩
    · refine ⟨?_, ?_⟩
      · show size ≤ _
        omega
      · show LPtr.level t (writeZeros s.mem a L.size) _ ≤ _
        rw [hzero]; exact Nat.zero_le _
    · show _ ∧ LPtr.level t (writeZeros s.mem a L.size) p ≤ _
      rw [hlev d p hp]
      exact hi.cap d p hp
  · intro g hg
    obtain ⟨p, hp, k⟩ := hi.grants g hg
    refine ⟨p, ?_, ?_⟩
    · rw [pathSet_other]
      · exact hp
      · intro h; rw [h, hPc] at hp; cases hp
    · show _ ∧ _ ≤ _ + LPtr.level t (writeZeros s.mem a L.size) p ∧ _
      rw [hlev _ p hp]
      exact k
  · exact hi.gdisj

/-- Removing the links of a handle's path (or a part of it) from heap and handles. -/
theorem CInv.remove {t : Target} {s : CState} {P : Nat → List LPtr} (hi : CInv t s P) {c : Nat} {fr : List Nat}
    (hfr : fr.Perm ((P c).map (serialOf s.heap) ++ s.heap.freed)) :
    CInv t { (({ s with heap := s.heap.without (P c) fr } : CState).setRoot c none) with granted := s.granted.filter fun g => g.1 ≠ c }
      (pathSet P c []) := by
  have hlink : ∀ {x rec}, (s.heap.without (P c) fr).link x = some rec → x ∉ (P c).map LPtr.addr ∧ s.heap.link x = some rec := by
    intro x rec hr
    simp only [LHeap.without] at hr
    split at hr
    · cases hr
    · exact ⟨by assumption, hr⟩
  have hkeep : ∀ d, d ≠ c → ∀ x ∈ (P d).map LPtr.addr, (s.heap.without (P c) fr).link x = s.heap.link x := by
    intro d hd x hx
    obtain ⟨p, hp, rfl⟩ := List.mem_map.mp hx
    simp only [LHeap.without]
    rw [if_neg]
    intro hm
    obtain ⟨q, hq, he⟩ := List.mem_map.mp hm
    exact hi.apart d c hd p hp q hq he.symm
  have hmemP : ∀ d, ∀ p ∈ pathSet P c [] d, p ∈ P d ∧ d ≠ c := by
    intro d p hp
    by_cases hd : d = c
    · subst hd; rw [pathSet_same] at hp; cases hp
    · rw [pathSet_other _ _ hd] at hp; exact ⟨hp, hd⟩
  constructor
  · intro d r hr
    by_cases hd : d = c
    · subst hd; simp [CState.setRoot] at hr
    · have hr' : s.roots d = some r := by simpa [CState.setRoot, hd] using hr
      rw [pathSet_other _ _ hd]
      exact (hi.chained d r hr').congr (hkeep d hd)
  · intro d hr
    by_cases hd : d = c
    · subst hd; rw [pathSet_same]
    · have hr' : s.roots d = none := by simpa [CState.setRoot, hd] using hr
      rw [pathSet_other _ _ hd]; exact hi.gone d hr'
  · intro d
    by_cases hd : d = c
    · subst hd; rw [pathSet_same]; simp
    · rw [pathSet_other _ _ hd]; exact hi.nodup d
  · intro d e hde p hp q hq
    exact hi.apart d e hde p (hmemP d p hp).1 q (hmemP e q hq).1
  · intro x rec hx
    obtain ⟨h1, h2⟩ := hlink hx
    obtain ⟨d, p, hp, hpa⟩ := hi.covered x rec h2
    refine ⟨d, p, ?_, hpa⟩
    rw [pathSet_other]
    · exact hp
    · rintro rfl; exact h1 (List.mem_map.mpr ⟨p, hp, hpa⟩)
  · exact hi.serials.without (hi.nodup c) (fun p hp => (hi.alloc hp).imp fun _ h => h.1) hfr
  · intro x rec hx; exact hi.linkok x rec (hlink hx).2
  · intro x y rec rec' hx hy; exact hi.linkdisj x y rec rec' (hlink hx).2 (hlink hy).2
  · intro d p hp; exact hi.cap d p (hmemP d p hp).1
  · intro g hg
    obtain ⟨hg, hgc⟩ := List.mem_filter.mp hg
    obtain ⟨p, hp, k⟩ := hi.grants g hg
    exact ⟨p, by rw [pathSet_other _ _ (by simpa using hgc)]; exact hp, k⟩
  · exact hi.gdisj.sublist ((List.filter_sublist).map _)

theorem chainDrop_inv {t : Target} {s : CState} {P : Nat → List LPtr} (hi : CInv t s P) {c : Nat} (ha : s.roots c ≠ none) :
    ∃ s', cexec t s (.drop c) = .ret (.unit, s') ∧ CInv t s' (pathSet P c []) ∧
      s'.granted = s.granted.filter (fun g => g.1 ≠ c) ∧ s'.mem = s.mem ∧ s'.serials = s.serials ∧
      s'.roots = (fun x => if x = c then none else s.roots x) ∧
      s'.heap.freed = ((P c).map (serialOf s.heap)).reverse ++ s.heap.freed := by
  cases hr : s.roots c with
  | none => exact absurd hr ha
  | some root =>
    have hlen := hi.serials.length_le (hi.nodup c) (fun p hp => (hi.alloc hp).imp fun _ h => h.1)
    have hd := dropLoop_spec (d := 1) (f := s.serials + 1) (fuel := s.serials + 1) (hi.chained c root hr) (hi.nodup c) (by omega)
    have hexec : cexec t s (.drop c) = .ret (.unit, { (({ s with heap := s.heap.without (P c) (((P c).map (serialOf s.heap)).reverse ++ s.heap.freed) } : CState).setRoot c none)
        with granted := s.granted.filter fun g => g.1 ≠ c }) := by
      simp only [cexec, chainDrop, hr, chainDepth, hd, bind, Outcome.bind]; rfl
    refine ⟨_, hexec, hi.remove ?_, rfl, rfl, rfl, rfl, rfl⟩
    exact (List.reverse_perm _).append_right _

/-- Renaming: handle `c` gets the path of `d` in front; used for `chain`. -/
theorem chainChain_inv {t : Target} {s : CState} {P : Nat → List LPtr} (hi : CInv t s P) {c d : Nat} (hc : s.roots c ≠ none) (hd : s.roots d ≠ none)
    (hcd : c ≠ d) :
    ∃ s' P', cexec t s (.chain c d) = .ret (.unit, s') ∧ CInv t s' P' ∧ (∀ x, x ≠ c → x ≠ d → P' x = P x) ∧
      P' c = (P d).take 1 ++ P c ∧ P' d = [] ∧ s'.roots d = none ∧ (∀ x, x ≠ c → x ≠ d → s'.roots x = s.roots x) ∧
      s'.granted = s.granted.filter (fun g => g.1 ≠ d) ∧ s'.mem = s.mem ∧ s'.serials = s.serials ∧
      s'.heap.freed.Perm (((P d).drop 1).map (serialOf s.heap) ++ s.heap.freed) ∧
      (∀ rd, s.roots d = some (some rd) → s'.roots c = some (some rd)) := by
  cases hrc : s.roots c with
  | none => exact absurd hrc hc
  | some selfBump =>
  cases hrd : s.roots d with
  | none => exact absurd hrd hd
  | some newRoot =>
  have hchc := hi.chained c _ hrc
  have hchd := hi.chained d _ hrd
  cases newRoot with
  | none =>
    have hPd := hchd.none_nil
    have hcons := hi.remove (c := d) (fr := s.heap.freed) (by rw [hPd]; exact List.Perm.refl _)
    have hexec : cexec t s (.chain c d) = .ret (.unit, { ((((s.setRoot c (some none)).setRoot c (some selfBump)) : CState).setRoot d none)
        with granted := s.granted.filter fun g => g.1 ≠ d }) := by
      simp only [cexec, chainChain, hrc, hrd, bind, Outcome.bind, pure]; rfl
    refine ⟨_, pathSet P d [], hexec, ?_, ?_, ?_, pathSet_same _ _ _, ?_, ?_, rfl, rfl, rfl, ?_, ?_⟩
    · have e : s.heap.without (P d) s.heap.freed = s.heap := by rw [hPd]; simp [LHeap.without]
      rw [e] at hcons
      refine cast ?_ hcons
      congr 1
      simp only [CState.setRoot]
      congr 1
      funext x
      by_cases hx : x = c
      · subst hx; simp [hcd, hrc]
      · simp [hx]
    · intro x _ hx; exact pathSet_other _ _ hx
    · rw [pathSet_other _ _ hcd, hPd]; rfl
    · simp [CState.setRoot]
    · intro x h1 h2; simp [CState.setRoot, h1, h2]
    · rw [hPd]; exact List.Perm.refl _
    · intro rd h; cases h
  | some root =>
    obtain ⟨tail, rec, hPd, hl, hlay, htail⟩ := hchd.some_cons
    have hnd := hi.nodup d
    rw [hPd, List.map_cons, List.nodup_cons] at hnd
    have hlen : tail.length ≤ s.serials + 1 := by
      have := hi.serials.length_le (hi.nodup d) (fun p hp => (hi.alloc hp).imp fun _ h => h.1)
      rw [hPd] at this
      simp only [List.length_cons] at this
      omega
    -- the heap after `set_next`
    have hset : ∃ fr, Link.setNext t chainDepth (s.serials + 1) s.heap root selfBump =
        .ret ((s.heap.set root.addr (some { rec with next := selfBump })).without tail fr) ∧
        fr.Perm (tail.map (serialOf s.heap) ++ s.heap.freed) := by
      have hne : ∀ a ∈ tail.map LPtr.addr, a ≠ root.addr := fun a ha h => hnd.1 (h ▸ ha)
      have hser : ∀ q ∈ tail, serialOf (s.heap.set root.addr (some { rec with next := selfBump })) q = serialOf s.heap q := by
        intro q hq
        unfold serialOf
        simp [LHeap.set, hne q.addr (List.mem_map.mpr ⟨q, hq, rfl⟩)]
      cases hn : rec.next with
      | none =>
        rw [hn] at htail
        have := htail.none_nil
        subst this
        refine ⟨s.heap.freed, ?_, List.Perm.refl _⟩
        simp only [Link.setNext, hl, hn, pure]
        simp [LHeap.without, LHeap.set]
      | some q =>
        rw [hn] at htail
        obtain ⟨tl, recq, rfl, hq1, hq2, hq3⟩ := htail.some_cons
        have hch' : Chained t (s.heap.set root.addr (some { rec with next := selfBump })) (some q) (q :: tl) := by
          refine htail.congr fun a ha => ?_
          simp [LHeap.set, hne a ha]
        have hdb := dropBox_spec (d := 0) (fuel := s.serials + 1) hch' hnd.2 (by simp only [List.length_cons] at hlen; omega)
        refine ⟨_, by simp only [Link.setNext, hl, hn, chainDepth]; exact hdb, ?_⟩
        have e : (q :: tl).map (serialOf (s.heap.set root.addr (some { rec with next := selfBump }))) = (q :: tl).map (serialOf s.heap) :=
          List.map_congr_left hser
        rw [List.map_cons] at e
        have e1 : serialOf (s.heap.set root.addr (some { rec with next := selfBump })) q = serialOf s.heap q := hser q (by simp)
        have e2 : tl.map (serialOf (s.heap.set root.addr (some { rec with next := selfBump }))) = tl.map (serialOf s.heap) :=
          List.map_congr_left fun x hx => hser x (List.mem_cons_of_mem _ hx)
        rw [e1, e2]
        simp only [List.map_cons, List.cons_append]
        exact ((List.reverse_perm _).append_right _).cons _
    obtain ⟨fr, hset, hfr⟩ := hset
    generalize hh : (s.heap.set root.addr (some { rec with next := selfBump })).without tail fr = h' at hset
    have hlink : ∀ a, a ≠ root.addr → a ∉ tail.map LPtr.addr → h'.link a = s.heap.link a := by
      intro a h1 h2
      rw [← hh]
      simp only [LHeap.without, h2, if_false, LHeap.set, h1]
    have hroot : h'.link root.addr = some { rec with next := selfBump } := by
      rw [← hh]
      simp only [LHeap.without, hnd.1, if_false, LHeap.set, if_true]
    have hgone : ∀ a ∈ tail.map LPtr.addr, h'.link a = none := by
      intro a h2
      rw [← hh]
      simp only [LHeap.without, h2, if_true]
    have hfreed : h'.freed = fr := by rw [← hh]; rfl
    -- any link of the new heap is a link of the old heap, with the same layout and serial
    have hold : ∀ a r, h'.link a = some r → a ∉ tail.map LPtr.addr ∧ ∃ r0, s.heap.link a = some r0 ∧ r0.layout = r.layout ∧ r0.serial = r.serial := by
      intro a r ha
      by_cases h1 : a = root.addr
      · subst h1; rw [hroot] at ha; cases ha; exact ⟨hnd.1, rec, hl, rfl, rfl⟩
      · by_cases h2 : a ∈ tail.map LPtr.addr
        · rw [hgone a h2] at ha; cases ha
        · rw [hlink a h1 h2] at ha; exact ⟨h2, r, ha, rfl, rfl⟩
    have hkeep : ∀ x, x ≠ d → ∀ a ∈ (P x).map LPtr.addr, h'.link a = s.heap.link a := by
      intro x hx a ha
      obtain ⟨p, hp, rfl⟩ := List.mem_map.mp ha
      apply hlink
      · exact hi.apart x d hx p hp root (by rw [hPd]; simp)
      · intro hm
        obtain ⟨q, hq, he⟩ := List.mem_map.mp hm
        exact hi.apart x d hx p hp q (by rw [hPd]; simp [hq]) he.symm
    have hP' : ∀ x, ∀ p ∈ pathSet (pathSet P c (root :: P c)) d [] x,
        x ≠ d ∧ ((p ∈ P x) ∨ (x = c ∧ p = root)) := by
      intro x p hp
      by_cases hx : x = d
      · subst hx; rw [pathSet_same] at hp; cases hp
      · rw [pathSet_other _ _ hx] at hp
        refine ⟨hx, ?_⟩
        by_cases hxc : x = c
        · subst hxc; rw [pathSet_same] at hp
          rcases List.mem_cons.mp hp with rfl | hp
          · exact .inr ⟨rfl, rfl⟩
          · exact .inl hp
        · rw [pathSet_other _ _ hxc] at hp; exact .inl hp
    have hrootd : root ∈ P d := by rw [hPd]; simp
    have hexec : cexec t s (.chain c d) = .ret (.unit, { (((({ (s.setRoot c (some none)) with heap := h' } : CState).setRoot c (some (some root))).setRoot d (some none)).setRoot d none)
        with granted := s.granted.filter fun g => g.1 ≠ d }) := by
      simp only [cexec, chainChain, hrc, hrd, bind, Outcome.bind]
      rw [show (s.setRoot c (some none)).heap = s.heap from rfl, show (s.setRoot c (some none)).serials = s.serials from rfl, hset]; rfl
    refine ⟨_, pathSet (pathSet P c (root :: P c)) d [], hexec, ?_, ?_, ?_, pathSet_same _ _ _, ?_, ?_, rfl, rfl, rfl, ?_, ?_⟩
    · constructor
      · intro x r hr
        by_cases hx : x = d
        · subst hx; simp [CState.setRoot] at hr
        · by_cases hxc : x = c
          · subst hxc
            have hr : some (some root) = some r := by simpa [CState.setRoot, hx] using hr
            cases hr
            rw [pathSet_other _ _ hx, pathSet_same]
            exact ⟨rfl, _, hroot, hlay, hchc.congr (hkeep x hx)⟩
          · have hr' : s.roots x = some r := by simpa [CState.setRoot, hx, hxc] using hr
            rw [pathSet_other _ _ hx, pathSet_other _ _ hxc]
            exact (hi.chained x r hr').congr (hkeep x hx)
      · intro x hr
        by_cases hx : x = d
        · subst hx; rw [pathSet_same]
        · by_cases hxc : x = c
          · subst hxc; simp [CState.setRoot, hx] at hr
          · have hr' : s.roots x = none := by simpa [CState.setRoot, hx, hxc] using hr
            rw [pathSet_other _ _ hx, pathSet_other _ _ hxc]; exact hi.gone x hr'
      · intro x
        by_cases hx : x = d
        · subst hx; rw [pathSet_same]; simp
        · rw [pathSet_other _ _ hx]
          by_cases hxc : x = c
          · subst hxc
            rw [pathSet_same, List.map_cons, List.nodup_cons]
            refine ⟨fun hm => ?_, hi.nodup x⟩
            obtain ⟨q, hq, he⟩ := List.mem_map.mp hm
            exact hi.apart x d hx q hq root hrootd he
          · rw [pathSet_other _ _ hxc]; exact hi.nodup x
      · intro x y hxy p hp q hq
        replace ⟨hx, hp⟩ := hP' x p hp
        replace ⟨hy, hq⟩ := hP' y q hq
        rcases hp with hp | ⟨rfl, rfl⟩ <;> rcases hq with hq | ⟨rfl, rfl⟩
        · exact hi.apart x y hxy p hp q hq
        · exact hi.apart x d hx p hp q hrootd
        · exact fun h => hi.apart y d hy q hq p hrootd h.symm
        · exact absurd rfl hxy
      · intro a r ha
        obtain ⟨h1, r0, h2, _⟩ := hold a r ha
        obtain ⟨x, p, hp, hpa⟩ := hi.covered a r0 h2
        by_cases hx : x = d
        · subst hx
          rw [hPd] at hp
          rcases List.mem_cons.mp hp with rfl | hp
          · exact ⟨c, p, by rw [pathSet_other _ _ hcd, pathSet_same]; simp, hpa⟩
          · exact absurd (List.mem_map.mpr ⟨p, hp, hpa⟩) h1
        · refine ⟨x, p, ?_, hpa⟩
          rw [pathSet_other _ _ hx]
          by_cases hxc : x = c
          · subst hxc; rw [pathSet_same]; simp [hp]
          · rw [pathSet_other _ _ hxc]; exact hp
      · have hw : SInv (s.heap.without tail fr) s.serials :=
          hi.serials.without hnd.2 (fun p hp => (htail.mem p hp).imp fun _ h => h.1) hfr
        have hcor : ∀ a r, h'.link a = some r → ∃ r0, (s.heap.without tail fr).link a = some r0 ∧ r0.serial = r.serial := by
          intro a r ha
          obtain ⟨h1, r0, h2, _, h3⟩ := hold a r ha
          exact ⟨r0, by simp only [LHeap.without, h1, if_false]; exact h2, h3⟩
        have hcor2 : ∀ a r0, (s.heap.without tail fr).link a = some r0 → ∃ r, h'.link a = some r ∧ r0.serial = r.serial := by
          intro a r0 ha
          simp only [LHeap.without] at ha
          split at ha
          · cases ha
          · rename_i h1
            by_cases h2 : a = root.addr
            · subst h2
              rw [hl] at ha
              cases ha
              exact ⟨_, hroot, rfl⟩
            · exact ⟨r0, by rw [hlink a h2 h1]; exact ha, rfl⟩
        show SInv h' s.serials
        constructor
        · intro a a' r r' h1 h2 h3
          obtain ⟨q, k1, k2⟩ := hcor a r h1
          obtain ⟨q', k1', k2'⟩ := hcor a' r' h2
          exact hw.inj a a' q q' k1 k1' (by omega)
        · rw [hfreed]; exact hw.nodup
        · intro k
          rw [hw.iff k, hfreed]
          show (k ∈ fr ∨ _) ↔ _
          constructor
          · rintro (h | ⟨a, r, h1, h2⟩)
            · exact .inl h
            · obtain ⟨q, k1, k2⟩ := hcor2 a r h1
              exact .inr ⟨a, q, k1, by omega⟩
          · rintro (h | ⟨a, r, h1, h2⟩)
            · exact .inl h
            · obtain ⟨q, k1, k2⟩ := hcor a r h1
              exact .inr ⟨a, q, k1, by omega⟩
        · intro k hk a r h1
          rw [hfreed] at hk
          obtain ⟨q, k1, k2⟩ := hcor a r h1
          have := hw.excl k hk a q k1
          omega
      · intro a r ha
        obtain ⟨_, r0, h2, h3, _⟩ := hold a r ha
        rw [← h3]; exact hi.linkok a r0 h2
      · intro a b r r' ha hb hab
        obtain ⟨_, r0, h2, h3, _⟩ := hold a r ha
        obtain ⟨_, r0', h2', h3', _⟩ := hold b r' hb
        rw [← h3, ← h3']; exact hi.linkdisj a b r0 r0' h2 h2' hab
      · intro x p hp
        obtain ⟨hx, hp⟩ := hP' x p hp
        rcases hp with hp | ⟨rfl, rfl⟩
        · exact hi.cap x p hp
        · exact hi.cap d p hrootd
      · intro g hg
        obtain ⟨hg, hgd⟩ := List.mem_filter.mp hg
        obtain ⟨p, hp, k⟩ := hi.grants g hg
        refine ⟨p, ?_, k⟩
        have hgd : g.1 ≠ d := by simpa using hgd
        rw [pathSet_other _ _ hgd]
        by_cases hgc : g.1 = c
        · rw [hgc, pathSet_same]; rw [hgc] at hp; simp [hp]
        · rw [pathSet_other _ _ hgc]; exact hp
      · exact hi.gdisj.sublist ((List.filter_sublist).map _)
    · intro x h1 h2; rw [pathSet_other _ _ h2, pathSet_other _ _ h1]
    · rw [pathSet_other _ _ hcd, pathSet_same, hPd]; rfl
    · simp [CState.setRoot]
    · intro x h1 h2; simp [CState.setRoot, h1, h2]
    · rw [hPd]
      show h'.freed.Perm _
      rw [hfreed]; exact hfr
    · intro rd h
      cases h
      simp [CState.setRoot, hcd]

/-- `bump_box` in the front link of a chain. -/
theorem chainBumpBox_inv {t : Target} {s : CState} {P : Nat → List LPtr} (hi : CInv t s P) {c : Nat} {T : Layout}
    (ha : (COp.bumpBox c T).Allowed t s) :
    ∃ r s', cexec t s (.bumpBox c T) = .ret (r, s') ∧ CInv t s' P ∧ s'.roots = s.roots ∧ s'.heap = s.heap ∧ s'.serials = s.serials ∧
      (∀ root, s.roots c = some (some root) →
        ((r, root.level t s'.mem) = (match uSpecApply t ⟨root.data t, root.cap⟩ (root.level t s.mem) (.bumpBox T) with
          | (.panicked, n) => (CRet.panicked, n)
          | (.ptr p, n) => (.ptr p, n)
          | (.err f, n) => (.err f, n)
          | (_, n) => (.unit, n))) ∧
        ∀ x, ¬ Region.Has ⟨root.addr + 2 * t.wordBytes, t.wordBytes⟩ x → s'.mem x = s.mem x) ∧
      (s.roots c = some none → r = .err .exhausted ∧ s' = s) ∧
      (∀ p, r = .ptr p → s'.granted = (c, ⟨p, T⟩) :: s.granted) ∧ ((∀ p, r ≠ .ptr p) → s'.granted = s.granted) ∧
      ((∀ p, r ≠ .ptr p) → ∀ q d, q ∈ P d → q.level t s'.mem = q.level t s.mem) := by
  obtain ⟨hroot, hT⟩ := ha
  have hW := Bump.isizeMax_lt t
  cases hr : s.roots c with
  | none => exact absurd hr hroot
  | some ro =>
  cases ro with
  | none =>
    refine ⟨.err .exhausted, s, by simp only [cexec, chainBumpBox, hr]; rfl, hi, rfl, rfl, rfl, fun root h => (by cases h), fun _ => ⟨rfl, rfl⟩,
      fun p h => (by cases h), fun _ => rfl, fun _ _ _ _ => rfl⟩
  | some root =>
    obtain ⟨qs, rec, hPc, hl, hlay, _⟩ := (hi.chained c _ hr).some_cons
    have hmem : root ∈ P c := by rw [hPc]; simp
    have hv := hi.valid hmem
    have hcap := hi.cap c root hmem
    have hlevle : (root.asBump t).level t s.mem ≤ (root.asBump t).cap := hcap.2
    have hslab : (root.asBump t).slab t = ⟨root.data t, root.cap⟩ := by
      simp only [MemBump.slab, LPtr.asBump, LPtr.data]
      congr 1
      omega
    have hspec := runCall_spec hv hlevle (c := .bumpBox T) hT
    have hfacts := uSpecApply_facts (t := t) (b := root.asBump t) (c := .bumpBox T) hT hlevle
    rw [hslab] at hspec hfacts
    have hlv : (root.asBump t).level t s.mem = root.level t s.mem := rfl
    rw [hlv] at hspec hfacts
    have hheader : ∀ x, ¬ Region.Has ⟨root.addr + 2 * t.wordBytes, t.wordBytes⟩ x → ¬ ((root.asBump t).addr ≤ x ∧ x < (root.asBump t).addr + t.wordBytes) :=
      fun x hx h => hx h
    -- levels of the other links do not change if only the header of the front link is written
    have hothers : ∀ m', (∀ x, ¬ Region.Has ⟨root.addr + 2 * t.wordBytes, t.wordBytes⟩ x → m' x = s.mem x) →
        ∀ d, ∀ q ∈ P d, q.addr ≠ root.addr → q.level t m' = q.level t s.mem := by
      intro m' hm d q hq hne
      apply level_congr
      intro x h1 h2
      apply hm
      intro hx
      have hb1 := q.block_size t
      have hb2 := root.block_size t
      have hd := hi.blocks hq hmem hne
      simp only [Region.Has] at hx
      exact hd x ⟨⟨by show q.addr ≤ x; omega, by show x < q.addr + (q.block t).size; omega⟩,
        ⟨by show root.addr ≤ x; omega, by show x < root.addr + (root.block t).size; omega⟩⟩
    generalize hu : uSpecApply t ⟨root.data t, root.cap⟩ (root.level t s.mem) (.bumpBox T) = u at *
    -- all consequences from a new memory
    have fin : ∀ m' gr, (∀ x, ¬ Region.Has ⟨root.addr + 2 * t.wordBytes, t.wordBytes⟩ x → m' x = s.mem x) →
        root.level t s.mem ≤ root.level t m' → root.level t m' ≤ root.cap →
        (gr = s.granted ∨ ∃ p, gr = (c, ⟨p, T⟩) :: s.granted ∧ root.data t + root.level t s.mem ≤ p ∧ p + T.size ≤ root.data t + root.level t m' ∧
          0 < T.size ∧ T.align ∣ p) → CInv t { s with mem := m', granted := gr } P := by
      intro m' gr hm hle1 hle2 hgr
      have hlev : ∀ d, ∀ q ∈ P d, q.level t s.mem ≤ q.level t m' ∧ q.level t m' ≤ q.cap := by
        intro d q hq
        by_cases he : q.addr = root.addr
        · obtain ⟨_, rfl⟩ := hi.unique hq hmem he
          exact ⟨hle1, hle2⟩
        · rw [hothers m' hm d q hq he]; exact ⟨Nat.le_refl _, (hi.cap d q hq).2⟩
      have hold : ∀ g ∈ s.granted, ∃ p ∈ P g.1, p.data t ≤ g.2.ptr ∧ g.2.ptr + g.2.layout.size ≤ p.data t + p.level t m' ∧
          0 < g.2.layout.size ∧ g.2.layout.align ∣ g.2.ptr := by
        intro g hg
        obtain ⟨p, hp, k1, k2, k3⟩ := hi.grants g hg
        have := (hlev _ p hp).1
        exact ⟨p, hp, k1, by omega, k3⟩
      refine ⟨hi.chained, hi.gone, hi.nodup, hi.apart, hi.covered, hi.serials, hi.linkok, hi.linkdisj,
        fun d q hq => ⟨(hi.cap d q hq).1, (hlev d q hq).2⟩, ?_, ?_⟩
      · rcases hgr with rfl | ⟨p, rfl, k1, k2, k3, k4⟩
        · exact hold
        · intro g hg
          rcases List.mem_cons.mp hg with rfl | hg
          · exact ⟨root, hmem, by show _ ≤ p; omega, k2, k3, k4⟩
          · exact hold g hg
      · rcases hgr with rfl | ⟨p, rfl, k1, k2, k3, k4⟩
        · exact hi.gdisj
        · show ((_ :: s.granted).map fun g => g.2.region).Pairwise Region.Disjoint
          rw [List.map_cons, List.pairwise_cons]
          refine ⟨fun q hq => ?_, hi.gdisj⟩
          obtain ⟨g, hg, rfl⟩ := List.mem_map.mp hq
          obtain ⟨p', hp', j1, j2, j3, j4⟩ := hi.grants g hg
          by_cases he : p'.addr = root.addr
          · obtain ⟨_, rfl⟩ := hi.unique hp' hmem he
            apply Region.Disjoint.symm
            apply Region.disjoint_of_le
            simp only [Block.region]; omega
          · intro x ⟨hx1, hx2⟩
            have hb1 := p'.block_size t
            have hb2 := root.block_size t
            have hc1 := (hi.cap _ p' hp').2
            simp only [Block.region, Region.Has] at hx1 hx2
            simp only [LPtr.data] at k1 k2 j1 j2
            exact hi.blocks hp' hmem he x ⟨⟨by show p'.addr ≤ x; omega, by show x < p'.addr + (p'.block t).size; omega⟩,
              ⟨by show root.addr ≤ x; omega, by show x < root.addr + (root.block t).size; omega⟩⟩
    rcases hspec with ⟨h1, h2, h3⟩ | ⟨m', h1, h2, h3⟩
    · have hbb : (root.asBump t).bumpBox t s.mem T = .panic := by
        simp only [runCall] at h2
        cases hb : (root.asBump t).bumpBox t s.mem T with
        | panic => rfl
        | ub => rw [hb] at h2; cases h2
        | ret x => rw [hb] at h2; cases x; cases h2
      refine ⟨.panicked, s, by simp only [cexec, chainBumpBox, hr, hl, hbb]; rfl, hi, rfl, rfl, rfl, ?_, fun h => (by cases h), fun p h => (by cases h),
        fun _ => rfl, fun _ _ _ _ => rfl⟩
      rintro root' ⟨⟩
      rw [hu]
      obtain ⟨u1, u2⟩ := u
      simp only at h1 h3
      subst h1 h3
      exact ⟨rfl, fun _ _ => rfl⟩
    · have hlev := h3.level (by
        have := hfacts.2.1
        have : (root.asBump t).cap = root.cap := rfl
        omega)
      have hm : ∀ x, ¬ Region.Has ⟨root.addr + 2 * t.wordBytes, t.wordBytes⟩ x → m' x = s.mem x := fun x hx => h3.other (hheader x hx)
      have hlev' : root.level t m' = u.2 := hlev
      have hbb : ∃ e, (root.asBump t).bumpBox t s.mem T = .ret (e, m') ∧ u.1 = (match e with | .ok p => Ret.ptr p | .error f => .err f) := by
        simp only [runCall] at h2
        cases hb : (root.asBump t).bumpBox t s.mem T with
        | panic => rw [hb] at h2; cases h2
        | ub => rw [hb] at h2; cases h2
        | ret x =>
          rw [hb] at h2
          obtain ⟨e, m''⟩ := x
          simp only [bind, Outcome.bind, pure, Outcome.ret.injEq, Prod.mk.injEq] at h2
          obtain ⟨h2a, rfl⟩ := h2
          exact ⟨e, rfl, h2a.symm⟩
      obtain ⟨e, hbb, hue⟩ := hbb
      have hc1 : root.level t s.mem ≤ root.level t m' := by rw [hlev']; exact hfacts.1
      have hc2 : root.level t m' ≤ root.cap := by rw [hlev']; exact hfacts.2.1
      obtain ⟨u1, u2⟩ := u
      simp only at hue hlev'
      cases e with
      | ok p =>
        simp only at hue
        subst hue
        obtain ⟨k1, k2, k3, k4⟩ := hfacts.2.2 T p rfl rfl
        have hdd : (root.asBump t).addr + t.wordBytes = root.data t := by simp only [LPtr.asBump, LPtr.data]; omega
        rw [hdd] at k1 k2
        refine ⟨.ptr p, _, by simp only [cexec, chainBumpBox, hr, hl, hbb]; rfl, fin m' _ hm hc1 hc2 (.inr ⟨p, rfl, k1, by rw [hlev']; exact k2, k3, k4⟩),
          rfl, rfl, rfl, ?_, fun h => (by cases h), ?_, fun h => absurd rfl (h p), fun h => absurd rfl (h p)⟩
        · rintro root' ⟨⟩
          rw [hu]
          exact ⟨by rw [show ({ s with mem := m', granted := (c, ⟨p, T⟩) :: s.granted } : CState).mem = m' from rfl, hlev'], hm⟩
        · rintro p' ⟨⟩; rfl
      | error f =>
        simp only at hue
        subst hue
        refine ⟨.err f, _, by simp only [cexec, chainBumpBox, hr, hl, hbb]; rfl, fin m' s.granted hm hc1 hc2 (.inl rfl),
          rfl, rfl, rfl, ?_, fun h => (by cases h), fun p h => (by cases h), fun _ => rfl, ?_⟩
        · rintro root' ⟨⟩
          rw [hu]
          exact ⟨by rw [show ({ s with mem := m' } : CState).mem = m' from rfl, hlev'], hm⟩
        · intro _ q d hq
          show q.level t m' = _
          by_cases he : q.addr = root.addr
          · obtain ⟨_, rfl⟩ := hi.unique hq hmem he
            rw [hlev']
            -- a failing call does not change the level
            have hz : (uSpecApply t ⟨q.data t, q.cap⟩ (q.level t s.mem) (.bumpBox T)).2 = q.level t s.mem := by
              have h1' : (uSpecApply t ⟨q.data t, q.cap⟩ (q.level t s.mem) (.bumpBox T)).1 = .err f := by rw [hu]
              revert h1'
              unfold uSpecApply
              simp only [UCall.layout, UCall.atLevel]
              split
              · intro _; rfl
              · cases specPlace ⟨q.data t, q.cap⟩ (q.level t s.mem) T none with
                | none => intro h; cases h
                | some x => cases x with
                  | error f => intro _; rfl
                  | ok a => intro h; cases h
            rw [hu] at hz
            exact hz
          · exact hothers m' hm d q hq he

theorem write_inv {t : Target} {s : CState} {P : Nat → List LPtr} (hi : CInv t s P) {c : Nat} {b : Block} {off : Nat} {bytes : List Byte}
    (ha : (COp.write c b off bytes).Allowed t s) : CInv t { s with mem := writeBytes s.mem (b.ptr + off) bytes } P ∧
      ∀ d, ∀ q ∈ P d, q.level t (writeBytes s.mem (b.ptr + off) bytes) = q.level t s.mem := by
  obtain ⟨hg, hoff⟩ := ha
  obtain ⟨p, hp, k1, k2, k3, k4⟩ := hi.grants _ hg
  have hlev : ∀ d, ∀ q ∈ P d, q.level t (writeBytes s.mem (b.ptr + off) bytes) = q.level t s.mem := by
    intro d q hq
    apply level_congr
    intro x h1 h2
    apply writeBytes_of_not_mem
    intro hx
    simp only [LPtr.data] at k1 k2
    by_cases he : q.addr = p.addr
    · obtain ⟨_, rfl⟩ := hi.unique hq hp he
      omega
    · have hb1 := q.block_size t
      have hb2 := p.block_size t
      have hc := (hi.cap _ p hp).2
      exact hi.blocks hq hp he x ⟨⟨by show q.addr ≤ x; omega, by show x < q.addr + (q.block t).size; omega⟩,
        ⟨by show p.addr ≤ x; omega, by show x < p.addr + (p.block t).size; omega⟩⟩
  refine ⟨⟨hi.chained, hi.gone, hi.nodup, hi.apart, hi.covered, hi.serials, hi.linkok, hi.linkdisj, ?_, ?_, hi.gdisj⟩, hlev⟩
  · intro d q hq
    show _ ∧ q.level t (writeBytes s.mem (b.ptr + off) bytes) ≤ _
    rw [hlev d q hq]; exact hi.cap d q hq
  · intro g hg
    obtain ⟨p, hp, k⟩ := hi.grants g hg
    refine ⟨p, hp, ?_⟩
    show _ ∧ _ ≤ _ + p.level t (writeBytes s.mem (b.ptr + off) bytes) ∧ _
    rw [hlev _ p hp]; exact k

end Verif.Unsync
