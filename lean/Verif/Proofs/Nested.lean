import Verif.Model.Nested
import Verif.Proofs.Linked
import Verif.Proofs.FixedVec
/-!
# Proofs for vectors of values that contain vectors

Every tree of the specification is laid out in memory: `ATree` is a tree of the bits of the values.
-/
set_option autoImplicit false
namespace Verif.Nested
open Linked (Ended destroy var all all_append all_single all_set all_var var_lt set_var var_set_none var_map destroy_append destroy_log perm_count)
open FVec (FixedVec Drain Heap Holds VecOk DrainRel SDrain)

/-! ## Every value is destroyed, kept or forgotten, exactly once -/

theorem idsAll_append (xs ys : List Tree) : idsAll (xs ++ ys) = idsAll xs ++ idsAll ys := by
  induction xs with
  | nil => rfl
  | cons x xs ih => simp [idsAll, ih]

theorem idsAll_reverse (xs : List Tree) : (idsAll xs.reverse).Perm (idsAll xs) := by
  induction xs with
  | nil => exact .refl _
  | cons x xs ih =>
    simp only [List.reverse_cons, idsAll_append, idsAll, List.append_nil]
    exact (ih.append_right _).trans List.perm_append_comm

theorem idsAll_filterMap (xs : List (Option Tree)) : idsAll (xs.filterMap id) = all Tree.ids xs := by
  induction xs with
  | nil => rfl
  | cons x xs ih => cases x <;> simp_all [all, idsAll]

theorem all_map_some (xs : List Tree) : all Tree.ids (xs.map some) = idsAll xs := by
  induction xs with
  | nil => rfl
  | cons x xs ih => simp_all [all, idsAll]

theorem Tree.ids_eq (t : Tree) : t.ids = t.id :: idsAll t.kids := by
  cases t; simp [Tree.ids, Tree.id, Tree.kids]

theorem idsAll_slot {ts : List Tree} {i : Nat} {k : Tree} (h : ts[i]? = some k) :
    (idsAll ts).Perm (k.ids ++ idsAll (ts.eraseIdx i)) ∧ ∀ k' : Tree, (idsAll (ts.set i k')).Perm (k'.ids ++ idsAll (ts.eraseIdx i)) := by
  induction ts generalizing i with
  | nil => simp at h
  | cons t ts ih => cases i with
    | zero =>
      simp only [List.getElem?_cons_zero, Option.some.injEq] at h
      subst h
      simp [idsAll]
    | succ i =>
      obtain ⟨h1, h2⟩ := ih (i := i) (by simpa using h)
      simp only [List.set_cons_succ, List.eraseIdx_cons_succ, idsAll]
      constructor
      · refine (List.Perm.append_left _ h1).trans ?_
        rw [← List.append_assoc, ← List.append_assoc]
        exact List.perm_append_comm.append_right _
      · intro k'
        refine (List.Perm.append_left _ (h2 k')).trans ?_
        rw [← List.append_assoc, ← List.append_assoc]
        exact List.perm_append_comm.append_right _

theorem Tree.ids_path {t u : Tree} {path : List Nat} (h : t.at path = some u) :
    ∃ rest, t.ids.Perm (u.ids ++ rest) ∧ ∀ v : Tree, (t.put path v).ids.Perm (v.ids ++ rest) := by
  induction path generalizing t with
  | nil =>
    cases t with | node id cap kids =>
    simp only [Tree.at, Option.some.injEq] at h
    subst h
    exact ⟨[], by simp, fun v => by simp [Tree.put]⟩
  | cons i path ih =>
    cases t with | node id cap kids =>
    simp only [Tree.at] at h
    cases hk : kids[i]? with
    | none => rw [hk] at h; cases h
    | some k =>
      rw [hk] at h
      obtain ⟨rest, h1, h2⟩ := ih h
      obtain ⟨s1, s2⟩ := idsAll_slot hk
      refine ⟨id :: rest ++ idsAll (kids.eraseIdx i), ?_, ?_⟩
      · simp only [Tree.ids]
        refine ((s1.trans (h1.append_right _)).cons id).trans ?_
        simp only [List.append_assoc, List.cons_append]
        exact List.perm_middle.symm
      · intro v
        simp only [Tree.put, hk, Tree.ids]
        refine (((s2 _).trans ((h2 v).append_right _)).cons id).trans ?_
        simp only [List.append_assoc, List.cons_append]
        exact List.perm_middle.symm

/-- `dropEach` destroys the first values, and keeps the others. -/
theorem dropEach_spec (panics : Nat → Bool) (log : List Nat) (ts : List Tree) :
    ∃ pre lost k, (dropEach panics log ts).2.1 = log ++ pre ∧ (dropEach panics log ts).2.2 = ts.drop k ∧ k ≤ ts.length ∧
      (pre ++ lost).Perm (idsAll (ts.take k)) ∧ ((dropEach panics log ts).1 ≠ .aborted → lost = []) ∧ ((dropEach panics log ts).1 = .ok → k = ts.length) := by
  induction ts generalizing log with
  | nil => exact ⟨[], [], 0, by simp [dropEach], by simp [dropEach], Nat.le_refl _, by simp [idsAll], fun _ => rfl, fun _ => rfl⟩
  | cons t ts ih =>
    obtain ⟨pre, rest, h1, h2, h3⟩ := destroy_log panics false log t.ids
    simp only [dropEach]
    rcases hd : destroy panics false log t.ids with ⟨r, l⟩
    rw [hd] at h2 h3
    simp only at h2 h3
    subst h2
    cases r with
    | ok =>
      have := h3 (by simp)
      subst this
      obtain ⟨pre', lost, k, g1, g2, g3, g4, g5, g6⟩ := ih (log ++ pre)
      refine ⟨pre ++ pre', lost, k + 1, by simpa using g1, by simpa using g2, by simpa using g3, ?_, g5, fun h => by simpa using g6 h⟩
      simp only [List.take_succ_cons, idsAll, h1, List.append_nil, List.append_assoc]
      exact List.Perm.append_left _ (by simpa using g4)
    | unwound =>
      refine ⟨pre, rest, 1, rfl, by simp, by simp, by simp [idsAll, h1], h3, by simp⟩
    | aborted =>
      refine ⟨pre, rest, 1, rfl, by simp, by simp, by simp [idsAll, h1], h3, by simp⟩

/-- The values made are the ones held, destroyed, forgotten or (after an abort) lost. -/
def SInv (s : Spec) : Prop :=
  ∃ lost, (all Tree.ids s.vals ++ s.log ++ s.leaked ++ lost).Perm (List.range s.made) ∧ (s.aborted = false → lost = [])

theorem SInv.init (l : Nat) : SInv (Spec.init l) := ⟨[], by simp [Spec.init, all], fun _ => rfl⟩

theorem idsAll_take_drop (ts : List Tree) (n a : Nat) : (idsAll ts).count a = (idsAll (ts.take n)).count a + (idsAll (ts.drop n)).count a := by
  rw [← List.count_append, ← idsAll_append, List.take_append_drop]

theorem SInv.exec {slab : Slab} {L : Layout} {panics : Nat → Bool} {s : Spec} (h : SInv s) (ha : s.aborted = false) (op : Op) :
    SInv (s.exec slab L panics op).2 := by
  have h0 := h
  obtain ⟨lost, h, hl⟩ := h
  have hl := hl ha
  subst hl
  rw [List.append_nil, perm_count] at h
  -- a change of the value at a path
  have key : ∀ (v : Nat) (path : List Nat) (f : Tree → Tree → Resp × Spec),
      (∀ t x, var s.vals v = some t → t.at path = some x → (∃ rest : List Nat, (∀ a, (all Tree.ids s.vals).count a = x.ids.count a + rest.count a + (all Tree.ids (s.vals.set v none)).count a) ∧
        ∀ x' : Tree, ∀ a, (all Tree.ids (s.vals.set v (some (t.put path x')))).count a = x'.ids.count a + rest.count a + (all Tree.ids (s.vals.set v none)).count a) → SInv (f t x).2) →
      SInv (s.onValue v path f).2 := by
    intro v path f hf
    unfold Spec.onValue
    cases hv : var s.vals v with
    | none => exact h0
    | some t =>
      simp only
      cases hx : t.at path with
      | none => exact h0
      | some x =>
        refine hf t x hv hx ?_
        obtain ⟨rest, r1, r2⟩ := Tree.ids_path hx
        refine ⟨rest, fun a => ?_, fun x' a => ?_⟩
        · have := perm_count.mp (all_var (f := Tree.ids) hv) a
          have := perm_count.mp r1 a
          simp only [List.count_append] at *; omega
        · have := perm_count.mp (all_set (f := Tree.ids) (var_lt hv) (some (t.put path x'))) a
          have := perm_count.mp (r2 x') a
          simp only [Option.elim_some, List.count_append] at *; omega
  cases op with
  | make cap =>
    simp only [Spec.exec]
    cases room slab L s.level cap with
    | none => exact h0
    | some l =>
      refine ⟨[], ?_, fun _ => rfl⟩
      simp only [all_append, all_single, Tree.ids, idsAll, List.append_nil, List.range_succ]
      rw [perm_count]
      intro a
      have := h a
      simp only [List.count_append] at this ⊢
      omega
  | alloc L =>
    simp only [Spec.exec]
    cases slab.place L s.level with
    | none => exact h0
    | some a => exact h0
  | push v path u =>
    refine key v path _ fun t x hv hx ⟨rest, r1, r2⟩ => ?_
    cases hu : var (s.vals.set v none) u with
    | none => exact h0
    | some y =>
      simp only
      split
      · have hne := (var_set_none hu).1
        have hq := perm_count.mp (all_var (f := Tree.ids) hu)
        have hu' : var ((s.vals.set v (some (t.put path (.node x.id x.cap (x.kids ++ [y])))))) u = some y := by
          have := (var_set_none hu).2
          unfold var at this ⊢
          rwa [List.getElem?_set_ne hne]
        have hq' := perm_count.mp (all_var (f := Tree.ids) hu')
        refine ⟨[], ?_, fun _ => rfl⟩
        simp only [List.append_nil]
        rw [perm_count]
        intro a
        have h1 := h a; have h3 := hq' a; have h4 := r1 a; have h5 := r2 (.node x.id x.cap (x.kids ++ [y])) a
        rw [Tree.ids_eq x] at h4
        simp only [Tree.ids, idsAll_append, idsAll, List.append_nil, List.count_append, List.count_cons] at h1 h3 h4 h5 ⊢
        omega
      · exact h0
  | pop v path =>
    refine key v path _ fun t x hv hx ⟨rest, r1, r2⟩ => ?_
    cases hy : x.kids.getLast? with
    | none => exact h0
    | some y =>
      refine ⟨[], ?_, fun _ => rfl⟩
      simp only [List.append_nil, all_append, all_single]
      rw [perm_count]
      intro a
      have hk : x.kids = x.kids.dropLast ++ [y] := (List.dropLast_append_getLast? y hy).symm
      have h1 := h a; have h4 := r1 a; have h5 := r2 (.node x.id x.cap x.kids.dropLast) a
      rw [Tree.ids_eq x, hk] at h4
      simp only [Tree.ids, idsAll_append, idsAll, List.append_nil, List.count_append, List.count_cons] at h1 h4 h5 ⊢
      omega
  | truncate v path n =>
    refine key v path _ fun t x hv hx ⟨rest, r1, r2⟩ => ?_
    obtain ⟨pre, lost, k, g1, g2, g3, g4, g5, g6⟩ := dropEach_spec panics s.log (x.kids.drop n).reverse
    rcases hd : dropEach panics s.log (x.kids.drop n).reverse with ⟨r, log, left⟩
    rw [hd] at g1 g2 g5 g6
    simp only at g1 g2 g5 g6 ⊢
    refine ⟨lost, ?_, fun hn => g5 (by simpa using hn)⟩
    rw [perm_count]
    intro a
    have h1 := h a; have h4 := r1 a; have h5 := r2 (.node x.id x.cap (x.kids.take n ++ left.reverse)) a
    have h6 := perm_count.mp g4 a
    have h7 := idsAll_take_drop x.kids n a
    have h8 := perm_count.mp (idsAll_reverse (x.kids.drop n)) a
    have h9 := idsAll_take_drop (x.kids.drop n).reverse k a
    have h10 := perm_count.mp (idsAll_reverse left) a
    rw [Tree.ids_eq x] at h4
    rw [g1]
    rw [g2] at h10 h5 ⊢
    simp only [Tree.ids, idsAll_append, List.count_append, List.count_cons] at h1 h4 h5 h6 ⊢
    omega
  | drain v path p q front back =>
    refine key v path _ fun t x hv hx ⟨rest, r1, r2⟩ => ?_
    split
    · rename_i hpq
      obtain ⟨pre, lost, k, g1, g2, g3, g4, g5, g6⟩ := dropEach_spec panics s.log ((((x.kids.take q).drop p).drop front).reverse.drop back).reverse
      simp only
      rcases hd : dropEach panics s.log ((((x.kids.take q).drop p).drop front).reverse.drop back).reverse with ⟨r, log, left⟩
      rw [hd] at g1 g2 g5 g6
      simp only at g1 g2 g5 g6 ⊢
      refine ⟨lost, ?_, fun hn => g5 (by simpa using hn)⟩
      rw [perm_count]
      intro a
      have hp : (x.kids.take q).take p = x.kids.take p := by rw [List.take_take, Nat.min_eq_left hpq.1]
      have h1 := h a; have h4 := r1 a
      have h6 := perm_count.mp g4 a
      have c1 := idsAll_take_drop x.kids q a
      have c2 := idsAll_take_drop (x.kids.take q) p a
      rw [hp] at c2
      have c3 := idsAll_take_drop ((x.kids.take q).drop p) front a
      have c4 := perm_count.mp (idsAll_reverse (((x.kids.take q).drop p).drop front)) a
      have c5 := idsAll_take_drop (((x.kids.take q).drop p).drop front).reverse back a
      have c6 := perm_count.mp (idsAll_reverse ((((x.kids.take q).drop p).drop front).reverse.drop back)) a
      have c7 := idsAll_take_drop ((((x.kids.take q).drop p).drop front).reverse.drop back).reverse k a
      rw [Tree.ids_eq x] at h4
      rw [g1]
      by_cases hr : r = .ok
      · subst hr
        have h5 := r2 (.node x.id x.cap (x.kids.take p ++ x.kids.drop q)) a
        have hk := g6 rfl
        have c8 : (idsAll (((((x.kids.take q).drop p).drop front).reverse.drop back).reverse.drop k)).count a = 0 := by
          rw [hk, List.drop_length]; rfl
        simp only [if_true, all_append, all_map_some, List.append_nil] at h5 ⊢
        simp only [Tree.ids, idsAll_append, List.count_append, List.count_cons] at h1 h4 h5 h6 ⊢
        omega
      · have h5 := r2 (.node x.id x.cap (x.kids.take p)) a
        simp only [hr, if_false, all_append, all_map_some, List.append_nil] at h5 ⊢
        rw [g2]
        simp only [Tree.ids, idsAll_append, List.count_append, List.count_cons] at h1 h4 h5 h6 ⊢
        omega
    · exact h0
  | drainForget v path p q =>
    refine key v path _ fun t x hv hx ⟨rest, r1, r2⟩ => ?_
    split
    · refine ⟨[], ?_, fun _ => rfl⟩
      rw [perm_count]
      intro a
      have h1 := h a; have h4 := r1 a; have h5 := r2 (.node x.id x.cap (x.kids.take p)) a
      have c1 := idsAll_take_drop x.kids p a
      rw [Tree.ids_eq x] at h4
      simp only [List.append_nil, Tree.ids, List.count_append, List.count_cons] at h1 h4 h5 ⊢
      omega
    · exact h0
  | swap v path u =>
    refine key v path _ fun t x hv hx ⟨rest, r1, r2⟩ => ?_
    cases hu : var (s.vals.set v none) u with
    | none => exact h0
    | some y =>
      have hne := (var_set_none hu).1
      have hu' : var ((s.vals.set v (some (t.put path y)))) u = some y := by
        have := (var_set_none hu).2
        unfold var at this ⊢
        rwa [List.getElem?_set_ne hne]
      have hq' := perm_count.mp (all_var (f := Tree.ids) hu')
      have hs := perm_count.mp (all_set (f := Tree.ids) (var_lt hu') (some x))
      refine ⟨[], ?_, fun _ => rfl⟩
      simp only [List.append_nil]
      rw [perm_count]
      intro a
      have h1 := h a; have h3 := hq' a; have h4 := r1 a; have h5 := r2 y a; have h6 := hs a
      simp only [Option.elim_some, List.count_append] at h1 h3 h4 h5 h6 ⊢
      omega
  | split v path n =>
    refine key v path _ fun t x hv hx ⟨rest, r1, r2⟩ => ?_
    split
    · refine ⟨[], ?_, fun _ => rfl⟩
      simp only [all_append, all_single, List.append_nil, List.range_succ]
      rw [perm_count]
      intro a
      have h1 := h a; have h4 := r1 a; have h5 := r2 (.node x.id n (x.kids.take n)) a
      have c1 := idsAll_take_drop x.kids n a
      rw [Tree.ids_eq x] at h4
      simp only [Tree.ids, List.count_append, List.count_cons, List.count_nil] at h1 h4 h5 ⊢
      omega
    · exact h0
  | read v path => exact key v path _ fun t x hv hx _ => h0
  | len v path => exact key v path _ fun t x hv hx _ => h0
  | capacity v path => exact key v path _ fun t x hv hx _ => h0
  | drop v =>
    simp only [Spec.exec]
    cases hv : var s.vals v with
    | none => exact h0
    | some t =>
      have hp := perm_count.mp (all_var (f := Tree.ids) hv)
      obtain ⟨pre, rest, h1, h2, h3⟩ := destroy_log panics false s.log t.ids
      refine ⟨rest, ?_, fun hn => h3 (by simpa using hn)⟩
      simp only [h2]
      rw [perm_count]
      intro a
      have := h a; have := hp a
      rw [h1] at this
      simp only [List.count_append] at *
      omega
  | forget v =>
    simp only [Spec.exec]
    cases hv : var s.vals v with
    | none => exact h0
    | some t =>
      have hp := perm_count.mp (all_var (f := Tree.ids) hv)
      refine ⟨[], ?_, fun _ => rfl⟩
      simp only [List.append_nil]
      rw [perm_count]
      intro a
      have := h a; have := hp a
      simp only [List.count_append] at *
      omega

theorem SInv.run {slab : Slab} {L : Layout} {panics : Nat → Bool} (ops : List Op) {s : Spec} (h : SInv s) (ha : s.aborted = false) : SInv (s.run slab L panics ops).2 := by
  induction ops generalizing s with
  | nil => exact h
  | cons op ops ih =>
    have h1 := h.exec (slab := slab) (L := L) (panics := panics) ha op
    simp only [Spec.run]
    cases hx : (s.exec slab L panics op).2.aborted with
    | true => simpa using h1
    | false => simpa using ih h1 hx

/-! ## Trees of bits -/

inductive ATree where
  | node (bits : Node) (kids : List ATree)

def ATree.bits : ATree → Node | .node b _ => b
def ATree.kids : ATree → List ATree | .node _ ks => ks

/-- The memory of the vector in a value. -/
def reg (n : Node) : Region := ⟨n.kids.uninit.addr, n.kids.uninit.len⟩

mutual
/-- The memory of all the vectors. -/
def ATree.regs : ATree → List Region
  | .node b ks => reg b :: regsAll ks
def regsAll : List ATree → List Region
  | [] => []
  | a :: as => a.regs ++ regsAll as
end

mutual
def ATree.tree (t : Target) : ATree → Tree
  | .node b ks => .node b.id (b.kids.uninit.capacity t) (treeAll t ks)
def treeAll (t : Target) : List ATree → List Tree
  | [] => []
  | a :: as => a.tree t :: treeAll t as
end

mutual
/-- Memory has the elements of all the vectors. -/
def ATree.Ok (t : Target) (L : Layout) (mem : Nat → Option Node) : ATree → Prop
  | .node b ks => VecOk t L b.kids ∧ L.size ∣ b.kids.uninit.len ∧ b.kids.length = ks.length ∧ Holds L mem b.kids.uninit.addr (ks.map ATree.bits) ∧ OkAll t L mem ks
def OkAll (t : Target) (L : Layout) (mem : Nat → Option Node) : List ATree → Prop
  | [] => True
  | a :: as => a.Ok t L mem ∧ OkAll t L mem as
end

def ATree.at : ATree → List Nat → Option ATree
  | a, [] => some a
  | .node _ kids, i :: path => match kids[i]? with | some k => k.at path | none => none
def ATree.put : ATree → List Nat → ATree → ATree
  | _, [], new => new
  | .node b kids, i :: path, new => match kids[i]? with | some k => .node b (kids.set i (k.put path new)) | none => .node b kids

section
variable {t : Target} {L : Layout} {mem mem1 mem2 : Nat → Option Node}

theorem treeAll_eq (as : List ATree) : treeAll t as = as.map (ATree.tree t) := by
  induction as with
  | nil => rfl
  | cons a as ih => simp [treeAll, ih]

theorem okAll_iff {as : List ATree} : OkAll t L mem as ↔ ∀ a ∈ as, a.Ok t L mem := by
  induction as with
  | nil => simp [OkAll]
  | cons a as ih => simp [OkAll, ih]

theorem regsAll_append (xs ys : List ATree) : regsAll (xs ++ ys) = regsAll xs ++ regsAll ys := by
  induction xs with
  | nil => rfl
  | cons x xs ih => simp [regsAll, ih]

theorem regsAll_perm {xs ys : List ATree} (h : xs.Perm ys) : (regsAll xs).Perm (regsAll ys) := by
  have : ∀ zs, regsAll zs = zs.flatMap ATree.regs := by
    intro zs
    induction zs with
    | nil => rfl
    | cons z zs ih => simp [regsAll, ih]
  rw [this, this]
  exact h.flatMap_right _

theorem mem_regsAll {as : List ATree} {R : Region} : R ∈ regsAll as ↔ ∃ a ∈ as, R ∈ a.regs := by
  induction as with
  | nil => simp [regsAll]
  | cons a as ih => simp [regsAll, ih]

theorem ATree.tree_id (a : ATree) : (a.tree t).id = a.bits.id := by cases a; simp [ATree.tree, Tree.id, ATree.bits]
theorem ATree.tree_cap (a : ATree) : (a.tree t).cap = a.bits.kids.uninit.capacity t := by cases a; simp [ATree.tree, Tree.cap, ATree.bits]
theorem ATree.tree_kids (a : ATree) : (a.tree t).kids = a.kids.map (ATree.tree t) := by cases a; simp [ATree.tree, Tree.kids, ATree.kids, treeAll_eq]

theorem ATree.tree_at (a : ATree) (path : List Nat) : (a.tree t).at path = (a.at path).map (ATree.tree t) := by
  induction path generalizing a with
  | nil => cases a; simp [ATree.at, ATree.tree, Tree.at]
  | cons i path ih =>
    cases a with | node b ks =>
    simp only [ATree.at, ATree.tree, Tree.at, treeAll_eq, List.getElem?_map]
    cases ks[i]? with
    | none => rfl
    | some k => exact ih k

theorem ATree.tree_put (a u : ATree) (path : List Nat) : (a.put path u).tree t = (a.tree t).put path (u.tree t) := by
  induction path generalizing a with
  | nil => cases a; simp [ATree.put, Tree.put]
  | cons i path ih =>
    cases a with | node b ks =>
    simp only [ATree.put, ATree.tree, Tree.put, treeAll_eq, List.getElem?_map]
    cases ks[i]? with
    | none => simp [ATree.tree, treeAll_eq]
    | some k => simp [ATree.tree, treeAll_eq, ih, List.map_set]

theorem ATree.bits_put (a u : ATree) (i : Nat) (path : List Nat) : (a.put (i :: path) u).bits = a.bits := by
  cases a with | node b ks =>
  simp only [ATree.put]
  cases ks[i]? <;> rfl

theorem disjoint_symm {R S : Region} (h : R.Disjoint S) : S.Disjoint R := fun x hx => h x ⟨hx.2, hx.1⟩
theorem disjoint_of_within {R R0 S : Region} (h : R.Within R0) (hd : R0.Disjoint S) : R.Disjoint S := by
  intro x hx
  refine hd x ⟨?_, hx.2⟩
  have := hx.1
  simp only [Region.Has, Region.Within] at *
  omega

/-- An element lies in the memory of its vector. -/
theorem slot_within {f : FixedVec} (hf : VecOk t L f) {i : Nat} (hi : i < f.length) : Region.Within ⟨f.uninit.addr + i * L.size, L.size⟩ ⟨f.uninit.addr, f.uninit.len⟩ := by
  have h1 := hf.bytes
  have h2 : (i + 1) * L.size ≤ f.length * L.size := Nat.mul_le_mul_right _ hi
  rw [Nat.add_mul] at h2
  simp only [Region.Within]
  omega

/-- Two elements of a vector. -/
theorem slots_disjoint {p i j : Nat} (h : i ≠ j) : Region.Disjoint ⟨p + i * L.size, L.size⟩ ⟨p + j * L.size, L.size⟩ := by
  intro x hx
  simp only [Region.Has] at hx
  rcases Nat.lt_or_gt_of_ne h with h | h
  · have h2 : (i + 1) * L.size ≤ j * L.size := Nat.mul_le_mul_right _ h
    rw [Nat.add_mul] at h2
    omega
  · have h2 : (j + 1) * L.size ≤ i * L.size := Nat.mul_le_mul_right _ h
    rw [Nat.add_mul] at h2
    omega

theorem getElem?_lt {α : Type} {xs : List α} {i : Nat} {x : α} (h : xs[i]? = some x) : i < xs.length := (List.getElem?_eq_some_iff.mp h).1

mutual
/-- Only the memory of the vectors counts. -/
theorem ATree.Ok.frame : (a : ATree) → a.Ok t L mem → (∀ x v, mem x = some v → (∃ R ∈ a.regs, Region.Within ⟨x, L.size⟩ R) → mem2 x = some v) → a.Ok t L mem2
  | .node b ks, h, hk => by
    simp only [ATree.Ok] at h ⊢
    obtain ⟨h1, h2, h3, h4, h5⟩ := h
    refine ⟨h1, h2, h3, ?_, OkAll.frame ks h5 fun x v hx hR => hk x v hx ?_⟩
    · intro i v hi
      have := getElem?_lt hi
      rw [List.length_map, ← h3] at this
      exact hk _ v (h4 i v hi) ⟨reg b, by simp [ATree.regs], slot_within h1 this⟩
    · obtain ⟨R, hR, hw⟩ := hR
      exact ⟨R, by simp [ATree.regs, hR], hw⟩
theorem OkAll.frame : (as : List ATree) → OkAll t L mem as → (∀ x v, mem x = some v → (∃ R ∈ regsAll as, Region.Within ⟨x, L.size⟩ R) → mem2 x = some v) → OkAll t L mem2 as
  | [], _, _ => trivial
  | a :: as, h, hk => by
    simp only [OkAll] at h ⊢
    refine ⟨ATree.Ok.frame a h.1 fun x v hx hR => hk x v hx ?_, OkAll.frame as h.2 fun x v hx hR => hk x v hx ?_⟩
    · obtain ⟨R, hR, hw⟩ := hR
      exact ⟨R, by simp [regsAll, hR], hw⟩
    · obtain ⟨R, hR, hw⟩ := hR
      exact ⟨R, by simp [regsAll, hR], hw⟩
end

/-! ## Destructors -/

mutual
theorem dropNode_eq {panics : Nat → Bool} : (a : ATree) → (d : Nat) → (a.tree t).ids.length ≤ d → a.Ok t L mem → (u : Bool) → (log : List Nat) →
    dropNode panics mem d u log a.bits = .ret (destroy panics u log (a.tree t).ids)
  | .node b ks, 0, hd, _, _, _ => by simp [ATree.tree, Tree.ids] at hd
  | .node b ks, d + 1, hd, h, u, log => by
    simp only [ATree.tree, Tree.ids, List.length_cons, Nat.add_le_add_iff_right] at hd
    simp only [ATree.Ok] at h
    obtain ⟨h1, h2, h3, h4, h5⟩ := h
    have := dropSlice_eq (panics := panics) ks d hd b.kids.uninit.addr h4 h5
    simp only [dropNode, ATree.bits, ATree.tree, Tree.ids, destroy, FixedVec.asMutPtr, h3, h1.elem]
    by_cases hp : panics b.id
    · cases u <;> simp [hp, this]
    · simp [hp, this]
theorem dropSlice_eq {panics : Nat → Bool} : (as : List ATree) → (d : Nat) → (idsAll (treeAll t as)).length ≤ d → (p : Nat) → Holds L mem p (as.map ATree.bits) → OkAll t L mem as →
    (u : Bool) → (log : List Nat) → dropSlice L mem (dropNode panics mem d) p u as.length log = .ret (destroy panics u log (idsAll (treeAll t as)))
  | [], _, _, _, _, _, u, log => by simp [dropSlice, treeAll, idsAll, destroy]
  | a :: as, d, hd, p, hh, ho, u, log => by
    simp only [treeAll, idsAll, List.length_append] at hd
    simp only [OkAll] at ho
    rw [List.map_cons, FVec.holds_cons] at hh
    have h1 := dropNode_eq (panics := panics) a d (by omega) ho.1 u log
    have h2 := dropSlice_eq (panics := panics) as d (by omega) (p + L.size) hh.2 ho.2
    simp only [List.length_cons, dropSlice, hh.1, h1, treeAll, idsAll, destroy_append, bind, Outcome.bind]
    rcases destroy panics u log (a.tree t).ids with ⟨r, l⟩
    cases r
    · exact h2 false l
    · exact h2 true l
    · rfl
end

/-! ## Reaching a value -/

theorem walk_none (w : World) {a : ATree} (h : a.Ok t L w.mem) {path : List Nat} (hp : a.at path = none) (place : Option Nat) :
    w.walk place a.bits path = .ret none := by
  induction path generalizing a place with
  | nil => simp [ATree.at] at hp
  | cons i path ih =>
    cases a with | node b ks =>
    simp only [ATree.Ok] at h
    obtain ⟨h1, h2, h3, h4, h5⟩ := h
    simp only [ATree.at] at hp
    simp only [World.walk, ATree.bits, FixedVec.len, h3]
    cases hk : ks[i]? with
    | none =>
      rw [if_neg (by simpa using hk)]
    | some k =>
      rw [hk] at hp
      have hi := getElem?_lt hk
      have hm := h4 i k.bits (by simp [hk])
      rw [if_pos hi]
      simp only [FixedVec.index, h3, hi, if_true, FVec.read, World.heap, h1.elem, hm, bind, Outcome.bind]
      exact ih (okAll_iff.mp h5 k (List.mem_of_getElem? hk)) hp _

theorem regsAll_slot {ks : List ATree} {i : Nat} {k : ATree} (h : ks[i]? = some k) :
    (regsAll ks).Perm (k.regs ++ regsAll (ks.eraseIdx i)) ∧ ∀ k' : ATree, (regsAll (ks.set i k')).Perm (k'.regs ++ regsAll (ks.eraseIdx i)) := by
  induction ks generalizing i with
  | nil => simp at h
  | cons a as ih => cases i with
    | zero =>
      simp only [List.getElem?_cons_zero, Option.some.injEq] at h
      subst h
      simp [regsAll]
    | succ i =>
      obtain ⟨h1, h2⟩ := ih (i := i) (by simpa using h)
      simp only [List.set_cons_succ, List.eraseIdx_cons_succ, regsAll]
      constructor
      · refine (List.Perm.append_left _ h1).trans ?_
        rw [← List.append_assoc, ← List.append_assoc]
        exact List.perm_append_comm.append_right _
      · intro k'
        refine (List.Perm.append_left _ (h2 k')).trans ?_
        rw [← List.append_assoc, ← List.append_assoc]
        exact List.perm_append_comm.append_right _

theorem mem_set_erase {α : Type} {xs : List α} {i : Nat} {x y : α} (h : y ∈ xs.set i x) : y = x ∨ y ∈ xs.eraseIdx i := by
  induction xs generalizing i with
  | nil => simp at h
  | cons z zs ih => cases i with
    | zero => simpa using h
    | succ i =>
      simp only [List.set_cons_succ, List.mem_cons, List.eraseIdx_cons_succ] at h ⊢
      rcases h with h | h
      · exact .inr (.inl h)
      · rcases ih h with h | h
        · exact .inl h
        · exact .inr (.inr h)

theorem pairwise_perm {xs ys : List Region} (h : xs.Perm ys) (hx : xs.Pairwise Region.Disjoint) : ys.Pairwise Region.Disjoint :=
  h.pairwise hx disjoint_symm

/-- A value inside of another one: its place, and what there is besides it. If this is kept, another value can be put at the place. -/
theorem path_ok {w : World} {i : Nat} {path : List Nat} {a u : ATree} (h : a.Ok t L w.mem) (hd : a.regs.Pairwise Region.Disjoint) (hat : a.at (i :: path) = some u) (place : Option Nat) :
    ∃ rest p, w.walk place a.bits (i :: path) = .ret (some (some p, u.bits)) ∧ (∃ R ∈ rest, Region.Within ⟨p, L.size⟩ R) ∧ u.Ok t L w.mem ∧
      a.regs.Perm (u.regs ++ rest) ∧ (∀ u' : ATree, (a.put (i :: path) u').regs.Perm (u'.regs ++ rest)) ∧
      ∀ (mem2 : Nat → Option Node) (u' : ATree),
        (∀ x v, w.mem x = some v → (∃ R ∈ rest, Region.Within ⟨x, L.size⟩ R) → Region.Disjoint ⟨x, L.size⟩ ⟨p, L.size⟩ → mem2 x = some v) →
        mem2 p = some u'.bits → u'.Ok t L mem2 → (a.put (i :: path) u').Ok t L mem2 := by
  induction path generalizing a i place with
  | nil =>
    cases a with | node b ks =>
    simp only [ATree.Ok] at h
    obtain ⟨h1, h2, h3, h4, h5⟩ := h
    simp only [ATree.at] at hat
    cases hk : ks[i]? with
    | none => rw [hk] at hat; cases hat
    | some k =>
      rw [hk] at hat
      simp only [Option.some.injEq] at hat
      subst hat
      have hi := getElem?_lt hk
      have hm := h4 i k.bits (by simp [hk])
      obtain ⟨s1, s2⟩ := regsAll_slot hk
      refine ⟨reg b :: regsAll (ks.eraseIdx i), b.kids.uninit.addr + i * L.size, ?_, ⟨reg b, by simp, slot_within h1 (by omega)⟩, okAll_iff.mp h5 k (List.mem_of_getElem? hk), ?_, ?_, ?_⟩
      · simp only [World.walk, ATree.bits, FixedVec.len, h3, hi, if_true, FixedVec.index, FVec.read, World.heap, h1.elem, hm, bind, Outcome.bind, FixedVec.asMutPtr]
      · simp only [ATree.regs]
        exact (s1.cons _).trans List.perm_middle.symm
      · intro u'
        simp only [ATree.put, hk, ATree.regs]
        exact ((s2 u').cons _).trans List.perm_middle.symm
      · intro mem2 u' hkeep hp hu
        simp only [ATree.put, hk, ATree.Ok]
        refine ⟨h1, h2, by simpa using h3, ?_, ?_⟩
        · intro j v hj
          by_cases hij : i = j
          · subst hij
            rw [List.getElem?_map, List.getElem?_set] at hj
            simp only [if_true, hi, Option.map_some, Option.some.injEq] at hj
            subst hj
            exact hp
          · rw [List.getElem?_map, List.getElem?_set_ne hij, ← List.getElem?_map] at hj
            have hjl := getElem?_lt hj
            rw [List.length_map] at hjl
            exact hkeep _ v (h4 j v hj) ⟨reg b, by simp, slot_within h1 (by omega)⟩ (slots_disjoint (Ne.symm hij))
        · rw [okAll_iff]
          intro c hc
          rcases mem_set_erase hc with rfl | hc
          · exact hu
          · refine ATree.Ok.frame c (okAll_iff.mp h5 c (List.mem_of_mem_eraseIdx hc)) fun x v hx hR => ?_
            obtain ⟨R, hR, hw⟩ := hR
            have hRe : R ∈ regsAll (ks.eraseIdx i) := mem_regsAll.mpr ⟨c, hc, hR⟩
            refine hkeep x v hx ⟨R, by simp [hRe], hw⟩ ?_
            have hdis : (reg b).Disjoint R := by
              simp only [ATree.regs, List.pairwise_cons] at hd
              exact hd.1 R (mem_regsAll.mpr ⟨c, List.mem_of_mem_eraseIdx hc, hR⟩)
            exact disjoint_symm (disjoint_of_within (slot_within h1 (by omega)) (disjoint_symm (disjoint_of_within hw (disjoint_symm hdis))))
  | cons j path ih =>
    cases a with | node b ks =>
    simp only [ATree.Ok] at h
    obtain ⟨h1, h2, h3, h4, h5⟩ := h
    simp only [ATree.at] at hat
    cases hk : ks[i]? with
    | none => rw [hk] at hat; cases hat
    | some k =>
      rw [hk] at hat
      have hi := getElem?_lt hk
      have hm := h4 i k.bits (by simp [hk])
      obtain ⟨s1, s2⟩ := regsAll_slot hk
      simp only [ATree.regs, List.pairwise_cons] at hd
      have hd2 := pairwise_perm s1 hd.2
      have hkOk := okAll_iff.mp h5 k (List.mem_of_getElem? hk)
      obtain ⟨rest, p, g1, ⟨Rp, hRp, hwp⟩, g3, g4, g5, g6⟩ := ih hkOk (List.pairwise_append.mp hd2).1 hat (some (b.kids.uninit.addr + i * L.size))
      refine ⟨reg b :: rest ++ regsAll (ks.eraseIdx i), p, ?_, ⟨Rp, by simp [hRp], hwp⟩, g3, ?_, ?_, ?_⟩
      · rw [← g1]
        conv => lhs; unfold World.walk
        simp only [ATree.bits, FixedVec.len, h3, hi, if_true, FixedVec.index, FVec.read, World.heap, h1.elem, hm, bind, Outcome.bind, FixedVec.asMutPtr]
      · simp only [ATree.regs]
        refine ((s1.trans (g4.append_right _)).cons _).trans ?_
        simp only [List.append_assoc, List.cons_append]
        exact List.perm_middle.symm
      · intro u'
        rw [ATree.put, hk]
        simp only [ATree.regs]
        refine (((s2 _).trans ((g5 u').append_right _)).cons _).trans ?_
        simp only [List.append_assoc, List.cons_append]
        exact List.perm_middle.symm
      · intro mem2 u' hkeep hp hu
        -- the place lies in the memory of an inner vector
        have hRk : Rp ∈ k.regs := g4.mem_iff.mpr (by simp [hRp])
        have hout : ∀ x (R : Region), Region.Within ⟨x, L.size⟩ R → R.Disjoint Rp → Region.Disjoint ⟨x, L.size⟩ ⟨p, L.size⟩ := fun x R hw hdis =>
          disjoint_of_within hw (disjoint_symm (disjoint_of_within hwp (disjoint_symm hdis)))
        have hbR : (reg b).Disjoint Rp := hd.1 Rp (mem_regsAll.mpr ⟨k, List.mem_of_getElem? hk, hRk⟩)
        rw [ATree.put, hk]
        simp only [ATree.Ok]
        refine ⟨h1, h2, by simpa using h3, ?_, ?_⟩
        · have : (ks.set i (k.put (j :: path) u')).map ATree.bits = ks.map ATree.bits := by
            rw [List.map_set, ATree.bits_put]
            have : (ks.map ATree.bits)[i]? = some k.bits := by simp [hk]
            obtain ⟨hl, he⟩ := List.getElem?_eq_some_iff.mp this
            rw [← he]; exact List.set_getElem_self hl
          rw [this]
          intro l v hl
          have hll := getElem?_lt hl
          rw [List.length_map] at hll
          exact hkeep _ v (h4 l v hl) ⟨reg b, by simp, slot_within h1 (by omega)⟩ (hout _ _ (slot_within h1 (by omega)) hbR)
        · rw [okAll_iff]
          intro c hc
          rcases mem_set_erase hc with rfl | hc
          · refine g6 mem2 u' (fun x v hx hR hdx => ?_) hp hu
            obtain ⟨R, hR, hw⟩ := hR
            exact hkeep x v hx ⟨R, by simp [hR], hw⟩ hdx
          · refine ATree.Ok.frame c (okAll_iff.mp h5 c (List.mem_of_mem_eraseIdx hc)) fun x v hx hR => ?_
            obtain ⟨R, hR, hw⟩ := hR
            have hRe : R ∈ regsAll (ks.eraseIdx i) := mem_regsAll.mpr ⟨c, hc, hR⟩
            refine hkeep x v hx ⟨R, by simp [hRe], hw⟩ (hout x R hw ?_)
            exact disjoint_symm ((List.pairwise_append.mp hd2).2.2 Rp hRk R hRe)

/-- Memory has these values, whose vectors do not overlap and end before the bound. -/
structure Good (t : Target) (L : Layout) (bound : Nat) (mem : Nat → Option Node) (as : List ATree) : Prop where
  ok : ∀ a ∈ as, a.Ok t L mem
  disjoint : (regsAll as).Pairwise Region.Disjoint
  below : ∀ R ∈ regsAll as, R.size = 0 ∨ R.start + R.size ≤ bound

variable {bound : Nat}

theorem Good.perm {as bs : List ATree} (h : Good t L bound mem as) (hp : as.Perm bs) : Good t L bound mem bs :=
  ⟨fun a ha => h.ok a (hp.mem_iff.mpr ha), pairwise_perm (regsAll_perm hp) h.disjoint, fun R hR => h.below R ((regsAll_perm hp).mem_iff.mpr hR)⟩

theorem Good.right {as bs : List ATree} (h : Good t L bound mem (as ++ bs)) : Good t L bound mem bs := by
  refine ⟨fun a ha => h.ok a (by simp [ha]), ?_, fun R hR => h.below R (by simp [regsAll_append, hR])⟩
  have := h.disjoint
  rw [regsAll_append] at this
  exact (List.pairwise_append.mp this).2.1

theorem Good.mono {as : List ATree} {bound' : Nat} (h : Good t L bound mem as) (hb : bound ≤ bound') : Good t L bound' mem as :=
  ⟨h.ok, h.disjoint, fun R hR => (h.below R hR).imp_right fun h => Nat.le_trans h hb⟩

/-- A value somewhere in a variable is changed to `u'`, and `new` ones come from it or are new, where `moved` ones came from variables. -/
theorem focus {a u : ATree} {path : List Nat} {moved others : List ATree} (hs : 0 < L.size) (hg : Good t L bound mem (a :: (moved ++ others))) (hat : a.at path = some u) :
    ∃ place, (∀ w : World, w.mem = mem → w.walk none a.bits path = .ret (some (place, u.bits))) ∧ u.Ok t L mem ∧ (∀ m ∈ moved, m.Ok t L mem) ∧ (u.regs ++ regsAll moved).Pairwise Region.Disjoint ∧
      ∀ (mem1 : Nat → Option Node) (u' : ATree) (new : List ATree), FVec.Kept L (reg u.bits) mem mem1 → u'.Ok t L mem1 → (∀ n ∈ new, n.Ok t L mem1) → (u'.regs ++ regsAll new).Pairwise Region.Disjoint →
        (∀ R ∈ u'.regs ++ regsAll new, ∃ R0 ∈ u.regs ++ regsAll moved, R.Within R0) →
        ∃ mem2, (∀ (W : World) (v : Nat), W.mem = mem1 → var W.vals v = some a.bits →
            W.store L v place u'.bits = { W with mem := mem2, vals := W.vals.set v (some (a.put path u').bits) }) ∧
          Good t L bound mem2 (a.put path u' :: (new ++ others)) := by
  have hza : L.size = 0 → Subsingleton Node := fun h => by omega
  have haOk := hg.ok a (by simp)
  have hdis := hg.disjoint
  simp only [regsAll, regsAll_append] at hdis
  have hbel := hg.below
  simp only [regsAll, regsAll_append] at hbel
  -- the same for both kinds of place
  suffices H : ∃ place rest, (∀ w : World, w.mem = mem → w.walk none a.bits path = .ret (some (place, u.bits))) ∧ u.Ok t L mem ∧ a.regs.Perm (u.regs ++ rest) ∧
      (∀ u' : ATree, (a.put path u').regs.Perm (u'.regs ++ rest)) ∧
      ∀ (mem1 : Nat → Option Node) (u' : ATree), (∀ x v, mem x = some v → (∃ R ∈ rest, Region.Within ⟨x, L.size⟩ R) → mem1 x = some v) → u'.Ok t L mem1 →
        (∀ R ∈ u'.regs, ∀ S ∈ rest, R.Disjoint S) →
        ∃ mem2, (∀ (W : World) (v : Nat), W.mem = mem1 → var W.vals v = some a.bits →
            W.store L v place u'.bits = { W with mem := mem2, vals := W.vals.set v (some (a.put path u').bits) }) ∧
          (a.put path u').Ok t L mem2 ∧ (∀ x v, mem1 x = some v → (∀ R ∈ rest, Region.Disjoint ⟨x, L.size⟩ R) → mem2 x = some v) by
    obtain ⟨place, rest, h1, h2, h3, h4, h5⟩ := H
    have hall : (u.regs ++ regsAll moved ++ (rest ++ regsAll others)).Pairwise Region.Disjoint := by
      refine pairwise_perm ?_ hdis
      refine List.perm_iff_count.mpr fun R => ?_
      have := List.perm_iff_count.mp h3 R
      simp only [List.count_append] at this ⊢
      omega
    have hbel' : ∀ R ∈ u.regs ++ regsAll moved ++ (rest ++ regsAll others), R.size = 0 ∨ R.start + R.size ≤ bound := by
      intro R hR
      refine hbel R ?_
      have := h3.mem_iff (a := R)
      simp only [List.mem_append] at this hR ⊢
      rcases hR with (hR | hR) | (hR | hR)
      · exact .inl (this.mpr (.inl hR))
      · exact .inr (.inl hR)
      · exact .inl (this.mpr (.inr hR))
      · exact .inr (.inr hR)
    obtain ⟨hd1, hd2, hd3⟩ := List.pairwise_append.mp hall
    refine ⟨place, h1, h2, fun m hm => hg.ok m (by simp [hm]), hd1, fun mem1 u' new hkept hu hnew hpw hin => ?_⟩
    have hureg : reg u.bits ∈ u.regs := by cases u; simp [ATree.regs, ATree.bits]
    have hother : ∀ R ∈ u'.regs ++ regsAll new, ∀ S ∈ rest ++ regsAll others, R.Disjoint S := fun R hR S hS => by
      obtain ⟨R0, hR0, hw⟩ := hin R hR
      exact disjoint_of_within hw (hd3 R0 hR0 S hS)
    obtain ⟨mem2, g1, g2, g3⟩ := h5 mem1 u' (fun x v hx hR => by
      obtain ⟨R, hR, hw⟩ := hR
      exact hkept x v hx (disjoint_of_within hw (disjoint_symm (hd3 _ (by simp [hureg]) R (by simp [hR]))))) hu
      (fun R hR S hS => hother R (by simp [hR]) S (by simp [hS]))
    refine ⟨mem2, g1, ?_, ?_, ?_⟩
    · intro b hb
      simp only [List.mem_cons, List.mem_append] at hb
      rcases hb with rfl | hb | hb
      · exact g2
      · refine ATree.Ok.frame b (hnew b hb) fun x v hx hR => g3 x v hx fun S hS => ?_
        obtain ⟨R, hR, hw⟩ := hR
        exact disjoint_of_within hw (hother R (by simp [mem_regsAll.mpr ⟨b, hb, hR⟩]) S (by simp [hS]))
      · refine ATree.Ok.frame b (hg.ok b (by simp [hb])) fun x v hx hR => ?_
        obtain ⟨R, hR, hw⟩ := hR
        have hRo : R ∈ regsAll others := mem_regsAll.mpr ⟨b, hb, hR⟩
        refine g3 x v (hkept x v hx (disjoint_of_within hw (disjoint_symm (hd3 _ (by simp [hureg]) R (by simp [hRo]))))) fun S hS => ?_
        exact disjoint_of_within hw (disjoint_symm ((List.pairwise_append.mp hd2).2.2 S hS R hRo))
    · have hp : (u'.regs ++ regsAll new ++ (rest ++ regsAll others)).Pairwise Region.Disjoint := List.pairwise_append.mpr ⟨hpw, hd2, hother⟩
      refine pairwise_perm ?_ hp
      simp only [regsAll, regsAll_append]
      refine List.perm_iff_count.mpr fun R => ?_
      have := List.perm_iff_count.mp (h4 u') R
      simp only [List.count_append] at this ⊢
      omega
    · intro R hR
      simp only [regsAll, regsAll_append, List.mem_append] at hR
      have hc : R ∈ u'.regs ++ regsAll new ∨ R ∈ rest ++ regsAll others := by
        rcases hR with hR | hR | hR
        · have := (h4 u').mem_iff.mp hR
          simp only [List.mem_append] at this ⊢
          rcases this with h | h
          · exact .inl (.inl h)
          · exact .inr (.inl h)
        · exact .inl (by simp [hR])
        · exact .inr (by simp [hR])
      rcases hc with hc | hc
      · obtain ⟨R0, hR0, hw⟩ := hin R hc
        have := hbel' R0 (List.mem_append_left _ hR0)
        simp only [Region.Within] at hw
        omega
      · exact hbel' R (List.mem_append_right _ hc)
  cases path with
  | nil =>
    simp only [ATree.at, Option.some.injEq] at hat
    subst hat
    refine ⟨none, [], fun w _ => rfl, haOk, by simp, fun u' => by simp [ATree.put], fun mem1 u' _ hu _ => ⟨mem1, ?_, by simpa [ATree.put] using hu, fun x v hx _ => hx⟩⟩
    intro W v hW _
    subst hW
    simp [World.store, ATree.put]
  | cons i path =>
    have haP := (List.pairwise_append.mp hdis).1
    obtain ⟨rest, p, g1, ⟨Rp, hRp, hwp⟩, g3, g4, g5, g6⟩ := path_ok (w := { World.init 0 mem with mem := mem }) haOk haP hat none
    refine ⟨some p, rest, ?_, g3, g4, g5, fun mem1 u' hk hu hd => ⟨FVec.writeBits L mem1 p (some u'.bits), ?_, ?_, ?_⟩⟩
    · intro w hw
      subst hw
      have hwalk : ∀ (pl : Option Nat) (n : Node) (q : List Nat), w.walk pl n q = World.walk { World.init 0 w.mem with mem := w.mem } pl n q := by
        intro pl n q
        induction q generalizing pl n with
        | nil => rfl
        | cons j q ih =>
          unfold World.walk
          have hh : ({ World.init 0 w.mem with mem := w.mem } : World).heap = w.heap := rfl
          rw [hh]
          split
          · simp only [bind, Outcome.bind]
            cases n.kids.index w.heap j with
            | ret k => exact ih _ _
            | panic => rfl
            | ub => rfl
          · rfl
      rw [hwalk, g1]
    · intro W v hW hv
      subst hW
      simp only [World.store, ATree.bits_put, set_var hv]
    · have hkeepP : FVec.Kept L ⟨p, L.size⟩ mem1 (FVec.writeBits L mem1 p (some u'.bits)) := FVec.writeBits_kept hza ⟨Nat.le_refl _, Nat.le_refl _⟩
      refine g6 _ u' (fun x v hx hR hdx => hkeepP x v (hk x v hx hR) hdx) FVec.writeBits_self ?_
      refine ATree.Ok.frame u' hu fun x v hx hR => hkeepP x v hx ?_
      obtain ⟨R, hR, hw⟩ := hR
      exact disjoint_of_within hw (disjoint_symm (disjoint_of_within hwp (disjoint_symm (hd R hR Rp hRp))))
    · intro x v hx hR
      exact FVec.writeBits_kept (R := Rp) hza hwp x v hx (hR Rp hRp)

/-! ## The methods that run destructors -/

theorem truncateLoop_eq {drop : List Nat → Node → Outcome (Ended × List Nat)} {panics : Nat → Bool} {p : Nat} (xs ys : List ATree) (hh : Holds L mem p ((xs ++ ys).map ATree.bits))
    (hd : ∀ y ∈ ys, ∀ log, drop log y.bits = .ret (destroy panics false log (y.tree t).ids)) (log : List Nat) :
    truncateLoop L mem drop ys.length (p + (xs ++ ys).length * L.size) (xs ++ ys).length log =
      .ret ((dropEach panics log (ys.reverse.map (ATree.tree t))).1, xs.length + (dropEach panics log (ys.reverse.map (ATree.tree t))).2.2.length, (dropEach panics log (ys.reverse.map (ATree.tree t))).2.1) := by
  induction hn : ys.length generalizing ys log with
  | zero =>
    have : ys = [] := List.eq_nil_of_length_eq_zero hn
    subst this
    simp [truncateLoop, dropEach]
  | succ n ih =>
    obtain ⟨zs, y, rfl⟩ : ∃ zs y, ys = zs ++ [y] := by
      rcases List.eq_nil_or_concat ys with rfl | ⟨zs, y, rfl⟩
      · simp at hn
      · exact ⟨zs, y, by simp⟩
    simp only [List.length_append, List.length_cons, List.length_nil] at hn
    have hh' := hh
    rw [← List.append_assoc, List.map_append, FVec.holds_append, List.map_cons, FVec.holds_cons] at hh'
    have hm : mem (p + (xs.length + zs.length) * L.size) = some y.bits := by have := hh'.2.1; rwa [List.length_map, List.length_append] at this
    have hp : p + (xs.length + (zs.length + 1)) * L.size - L.size = p + (xs.length + zs.length) * L.size := by
      rw [show xs.length + (zs.length + 1) = (xs.length + zs.length) + 1 by omega, Nat.add_mul (xs.length + zs.length) 1]; omega
    have hy := hd y (by simp) log
    have hl : xs.length + (zs.length + 1) - 1 = xs.length + zs.length := by omega
    simp only [truncateLoop, List.length_append, List.length_cons, List.length_nil, Nat.zero_add, hp, hm, hy, bind, Outcome.bind, hl,
      List.reverse_append, List.reverse_cons, List.reverse_nil, List.nil_append, List.singleton_append, List.map_cons, dropEach]
    rcases hr : destroy panics false log (y.tree t).ids with ⟨r, l⟩
    cases r with
    | ok =>
      have := ih zs hh'.1 (fun z hz => hd z (by simp [hz])) l (by omega)
      simp only [List.length_append] at this
      simp only [this]
    | unwound => simp [pure]
    | aborted => simp [pure]

theorem takeFront_eq {h : Heap Node} {addr n : Nat} (k : Nat) {d : Drain} {ys tl : List ATree} (r : DrainRel L h.mem addr n d ⟨ys.map ATree.bits, tl.map ATree.bits⟩) :
    ∃ d', takeFront L h k d = .ret ((ys.take k).map ATree.bits, d') ∧ DrainRel L h.mem addr n d' ⟨(ys.drop k).map ATree.bits, tl.map ATree.bits⟩ := by
  induction k generalizing d ys with
  | zero => exact ⟨d, by simp [takeFront], by simpa using r⟩
  | succ k ih =>
    obtain ⟨d1, e, r1, _⟩ := FVec.next_eq r
    cases ys with
    | nil => exact ⟨d1, by simp [takeFront, e, bind, Outcome.bind, pure], by simpa using r1⟩
    | cons y ys =>
      simp only [List.map_cons, List.head?_cons, List.tail_cons] at e r1
      obtain ⟨d2, e2, r2⟩ := ih r1
      exact ⟨d2, by simp [takeFront, e, e2, bind, Outcome.bind, pure], by simpa using r2⟩

theorem takeBack_eq {h : Heap Node} {addr n : Nat} (k : Nat) {d : Drain} {ys tl : List ATree} (r : DrainRel L h.mem addr n d ⟨ys.map ATree.bits, tl.map ATree.bits⟩) :
    ∃ d', takeBack L h k d = .ret ((ys.reverse.take k).map ATree.bits, d') ∧ DrainRel L h.mem addr n d' ⟨(ys.reverse.drop k).reverse.map ATree.bits, tl.map ATree.bits⟩ := by
  induction k generalizing d ys with
  | zero => exact ⟨d, by simp [takeBack], by simpa using r⟩
  | succ k ih =>
    obtain ⟨d1, e, r1, _⟩ := FVec.nextBack_eq r
    rcases List.eq_nil_or_concat ys with rfl | ⟨zs, y, rfl⟩
    · exact ⟨d1, by simp [takeBack, e, bind, Outcome.bind, pure], by simpa using r1⟩
    · simp only [List.concat_eq_append, List.map_append, List.map_cons, List.map_nil, List.getLast?_append, List.getLast?_singleton, Option.some_or, List.dropLast_concat] at e r1
      obtain ⟨d2, e2, r2⟩ := ih r1
      exact ⟨d2, by simp [takeBack, e, e2, bind, Outcome.bind, pure], by simpa using r2⟩

theorem dropItems_eq {drop : List Nat → Node → Outcome (Ended × List Nat)} {panics : Nat → Bool} {h : Heap Node} {addr n : Nat} {d : Drain} {ys tl : List ATree}
    (r : DrainRel L h.mem addr n d ⟨ys.map ATree.bits, tl.map ATree.bits⟩) (hd : ∀ y ∈ ys, ∀ log, drop log y.bits = .ret (destroy panics false log (y.tree t).ids)) (log : List Nat) :
    ∃ d', dropItems L h drop ys.length d log = .ret ((dropEach panics log (ys.map (ATree.tree t))).1, d', (dropEach panics log (ys.map (ATree.tree t))).2.1) ∧
      d'.tail = d.tail ∧ d'.tailLen = d.tailLen ∧ d'.elements = d.elements := by
  induction ys generalizing d log with
  | nil => exact ⟨d, by simp [dropItems, dropEach], rfl, rfl, rfl⟩
  | cons y ys ih =>
    obtain ⟨d1, e, r1, h2, h3, h4, h5, h6⟩ := FVec.next_eq r
    simp only [List.map_cons, List.head?_cons, List.tail_cons] at e r1
    have hy := hd y (by simp) log
    simp only [List.length_cons, dropItems, e, hy, bind, Outcome.bind, List.map_cons, dropEach]
    rcases hr : destroy panics false log (y.tree t).ids with ⟨r, l⟩
    cases r with
    | ok =>
      obtain ⟨d2, e2, g1, g2, g3⟩ := ih r1 (fun z hz => hd z (by simp [hz])) l
      exact ⟨d2, by simp [e2], by rw [g1, h2], by rw [g2, h3], by rw [g3, h6]⟩
    | unwound => exact ⟨d1, by simp [pure], h2, h3, h6⟩
    | aborted => exact ⟨d1, by simp [pure], h2, h3, h6⟩

/-! ## New vectors -/

theorem fits_valid {T : Layout} (hT : T.ValidType t) {size : Nat} (h : size ≤ t.isizeMax) (hd : T.align ∣ size) : size + (T.align - 1) ≤ t.isizeMax := by
  obtain ⟨k, hk⟩ := hT.1.1
  have hle := hT.1.2
  have hpos : 0 < T.align := by rw [hk]; exact Nat.two_pow_pos k
  have hM : ∃ m, t.isizeMax + 1 = 2 ^ m := by
    cases t
    · exact ⟨15, by decide⟩
    · exact ⟨31, by decide⟩
    · exact ⟨63, by decide⟩
  obtain ⟨m, hm⟩ := hM
  have hkm : k ≤ m := by
    rw [← Nat.pow_le_pow_iff_right (a := 2) (by decide), ← hk, ← hm]
    omega
  have hdv : T.align ∣ t.isizeMax + 1 := by rw [hk, hm]; exact Nat.pow_dvd_pow 2 hkm
  obtain ⟨x, rfl⟩ := hd
  obtain ⟨y, hy⟩ := hdv
  have hxy : x < y := by
    have : T.align * x < T.align * y := by omega
    exact Nat.lt_of_mul_lt_mul_left this
  have : T.align * (x + 1) ≤ T.align * y := Nat.mul_le_mul_left _ hxy
  rw [Nat.mul_add] at this
  omega

theorem fixedVec_eq {e : Bump.Env} (he : e.Valid) {level : Nat} (hl : level ≤ e.len) (hL : L.ValidType e.target) (hs : 0 < L.size) (cap : Nat) (m : Mem) :
    (room e.slab L level cap = none ∧ AllocExt.fixedVec e.target (Bump.localAlloc e) level m L cap = .ret (none, level, m)) ∨
    ∃ l f, room e.slab L level cap = some l ∧ AllocExt.fixedVec e.target (Bump.localAlloc e) level m L cap = .ret (some f, l, m) ∧ level ≤ l ∧ l ≤ e.len ∧
      f.length = 0 ∧ VecOk e.target L f ∧ f.uninit.len = L.size * cap ∧ (cap = 0 ∨ e.base + level ≤ f.uninit.addr ∧ f.uninit.addr + f.uninit.len ≤ e.base + l) := by
  have hpos := hL.1.1.pos
  have hW := Bump.isizeMax_lt e.target
  have hlen := he.len_le
  by_cases h0 : cap = 0
  · subst h0
    refine .inr ⟨level, FixedVec.new (Uninit.empty L), by simp [room], ?_, Nat.le_refl _, hl, rfl, ?_, by simp [FixedVec.new, Uninit.empty], .inl rfl⟩
    · have h1 : 0 + (L.align - 1) ≤ e.target.isizeMax := by have := hL.1.2; omega
      have h2 : 0 < e.target.W := by omega
      simp only [AllocExt.fixedVec, Usize.checkedMul, Nat.mul_zero, h2, if_true, layoutFromSizeAlign, h1, AllocExt.sliceMemory, AllocTraits.NonZeroLayout.fromLayout, bind, Outcome.bind, AllocExt.orNone, pure]
    · exact ⟨rfl, Nat.dvd_refl _, by simp [FixedVec.new, Uninit.empty], by simp [FixedVec.new]⟩
  · have hsz : 0 < L.size * cap := Nat.mul_pos hs (by omega)
    have hdv : L.align ∣ L.size * cap := Nat.dvd_trans hL.2 (Nat.dvd_mul_right _ _)
    by_cases hbig : L.size * cap ≤ e.target.isizeMax
    · have h1 := fits_valid hL hbig hdv
      have h2 : L.size * cap < e.target.W := by omega
      have hspec := Bump.tryAllocSeq_spec he hl (l := ⟨L.size * cap, L.align⟩) hsz hpos
      have hnz : L.size * cap ≠ 0 := by omega
      have hexp : AllocExt.fixedVec e.target (Bump.localAlloc e) level m L cap = (do
          let (r, c) ← Bump.tryAllocSeq e level ⟨L.size * cap, L.align⟩
          match r with
          | none => pure (none, c, m)
          | some a => do
            let u ← Outcome.unwrap (AllocExt.castSlice e.target (Uninit.fromMemory a.ptr (L.size * cap)) L)
            pure (some (FixedVec.new u), c, m)) := by
        simp only [AllocExt.fixedVec, Usize.checkedMul, h2, if_true, layoutFromSizeAlign, h1, AllocExt.sliceMemory, AllocTraits.NonZeroLayout.fromLayout, hnz, if_false, AllocExt.allocLayout, Bump.localAlloc,
          AllocTraits.NonZeroLayout.toLayout, bind, pure]
        rw [hspec]
        cases e.slab.place ⟨L.size * cap, L.align⟩ level with
        | none => rfl
        | some a =>
          simp only [Outcome.bind, AllocExt.orNone]
          cases AllocExt.castSlice e.target (Uninit.fromMemory a.ptr (L.size * cap)) L <;> rfl
      rw [hexp, hspec]
      cases hp : e.slab.place ⟨L.size * cap, L.align⟩ level with
      | none => exact .inl ⟨by simp [room, h0, hp], rfl⟩
      | some a =>
        obtain ⟨p1, p2, p3⟩ := Slab.place_eq_some.mp hp
        simp only [Bump.Env.slab] at p1 p2 p3
        have hle := le_alignUp hpos (e.base + level)
        have hal : L.align ∣ a.ptr := by rw [p1]; exact dvd_alignUp _ _
        have hcs : AllocExt.castSlice e.target (Uninit.fromMemory a.ptr (L.size * cap)) L = some ⟨a.ptr, L.size * cap, L, Uninit.sliceCap e.target (L.size * cap) L⟩ := by
          rcases Uninit.castSlice_eq (t := e.target) (v := Uninit.fromMemory a.ptr (L.size * cap)) hpos with ⟨_, h⟩ | ⟨h, _⟩
          · simp only [AllocExt.castSlice, h]; rfl
          · exact absurd hal h
        refine .inr ⟨a.level, FixedVec.new ⟨a.ptr, L.size * cap, L, Uninit.sliceCap e.target (L.size * cap) L⟩, by simp [room, h0, hp], ?_, by omega, by omega, rfl, ?_, rfl, .inr ⟨by simp only [FixedVec.new]; omega, ?_⟩⟩
        · simp [hcs, Outcome.unwrap, bind, Outcome.bind, pure]
        · exact ⟨rfl, hal, by simpa [FixedVec.new] using hbig, by simp [FixedVec.new]⟩
        · simp only [FixedVec.new]; omega
    · refine .inl ⟨?_, ?_⟩
      · simp only [room, h0, if_false, Option.map_eq_none_iff]
        rw [Slab.place_eq_none]
        simp only [Bump.Env.slab]
        have := le_alignUp hpos (e.base + level)
        omega
      · simp only [AllocExt.fixedVec, Usize.checkedMul]
        split
        · rfl
        · rename_i size hsz'
          split at hsz'
          · simp only [Option.some.injEq] at hsz'
            subst hsz'
            have : ¬ L.size * cap + (L.align - 1) ≤ e.target.isizeMax := by omega
            simp only [layoutFromSizeAlign, this, if_false]
          · cases hsz'

/-! ## Changes of one vector -/

theorem ATree.put_at {a u : ATree} {path : List Nat} (h : a.at path = some u) : a.put path u = a := by
  induction path generalizing a with
  | nil => simp only [ATree.at, Option.some.injEq] at h; simp [ATree.put, h]
  | cons i path ih =>
    cases a with | node b ks =>
    simp only [ATree.at] at h
    cases hk : ks[i]? with
    | none => rw [hk] at h; cases h
    | some k =>
      rw [hk] at h
      obtain ⟨hl, he⟩ := List.getElem?_eq_some_iff.mp hk
      simp only [ATree.put, hk, ih h]
      rw [← he, List.set_getElem_self hl]

/-- A vector with another number of elements. -/
def resized (b : Node) (n : Nat) : Node := { b with kids := { b.kids with length := n } }

/-- The first elements remain. -/
theorem prefix_ok {b : Node} {pre suf : List ATree} (h : (ATree.node b (pre ++ suf)).Ok t L mem) : (ATree.node (resized b pre.length) pre).Ok t L mem ∧ ∀ s ∈ suf, s.Ok t L mem := by
  simp only [ATree.Ok] at h
  obtain ⟨h1, h2, h3, h4, h5⟩ := h
  rw [List.length_append] at h3
  rw [List.map_append, FVec.holds_append] at h4
  rw [okAll_iff] at h5
  refine ⟨?_, fun s hs => h5 s (by simp [hs])⟩
  simp only [ATree.Ok, resized]
  exact ⟨⟨h1.elem, h1.aligned, h1.small, by have := h1.fits; simp only; omega⟩, h2, trivial, h4.1, okAll_iff.mpr fun s hs => h5 s (by simp [hs])⟩

/-- The elements are distributed. -/
theorem parts_regs {b b' : Node} {ks moved pre new lost : List ATree} (hb : reg b' = reg b) (hp : (pre ++ new ++ lost).Perm (ks ++ moved))
    (hd : ((ATree.node b ks).regs ++ regsAll moved).Pairwise Region.Disjoint) :
    ((ATree.node b' pre).regs ++ regsAll new).Pairwise Region.Disjoint ∧
      ∀ R ∈ (ATree.node b' pre).regs ++ regsAll new, ∃ R0 ∈ (ATree.node b ks).regs ++ regsAll moved, R.Within R0 := by
  have hperm : ((ATree.node b' pre).regs ++ regsAll new ++ regsAll lost).Perm ((ATree.node b ks).regs ++ regsAll moved) := by
    simp only [ATree.regs, hb, List.cons_append]
    refine List.Perm.cons _ ?_
    rw [← regsAll_append, ← regsAll_append, ← regsAll_append]
    exact regsAll_perm hp
  refine ⟨(List.pairwise_append.mp (pairwise_perm hperm.symm hd)).1, fun R hR => ⟨R, hperm.mem_iff.mp (List.mem_append_left _ hR), Nat.le_refl _, Nat.le_refl _⟩⟩

/-! ## The program does what the specification says -/

/-- The values in variables. -/
def held (vs : List (Option ATree)) : List ATree := all (fun a => [a]) vs

theorem held_var {vs : List (Option ATree)} {v : Nat} {a : ATree} (h : var vs v = some a) : (held vs).Perm (a :: held (vs.set v none)) :=
  all_var (f := fun a : ATree => [a]) h
theorem held_set {vs : List (Option ATree)} {v : Nat} (h : v < vs.length) (a : ATree) : (held (vs.set v (some a))).Perm (a :: held (vs.set v none)) :=
  all_set (f := fun a : ATree => [a]) h (some a)
theorem held_append (vs : List (Option ATree)) (new : List ATree) : held (vs ++ new.map some) = held vs ++ new := by
  unfold held
  rw [all_append]
  congr 1
  induction new with
  | nil => rfl
  | cons x xs ih => simp [all] at ih ⊢; simp [ih]

structure Ref (e : Bump.Env) (L : Layout) (s : Spec) (w : World) (vs : List (Option ATree)) : Prop where
  svals : s.vals = vs.map (Option.map (ATree.tree e.target))
  wvals : w.vals = vs.map (Option.map ATree.bits)
  level : w.level = s.level
  made : w.made = s.made
  log : w.log = s.log
  aborted : w.aborted = s.aborted
  le : s.level ≤ e.len
  good : Good e.target L (e.base + s.level) w.mem (held vs)

theorem Ref.init {e : Bump.Env} {l : Nat} (hl : l ≤ e.len) (mem : Nat → Option Node) : Ref e L (Spec.init l) (World.init l mem) [] :=
  ⟨rfl, rfl, rfl, rfl, rfl, rfl, hl, by simp [held, all], by simp [held, all, regsAll], by simp [held, all, regsAll]⟩

variable {e : Bump.Env} {s : Spec} {w : World} {vs : List (Option ATree)}

theorem ref_onValue (h : Ref e L s w vs) (v : Nat) (path : List Nat) (sf : Tree → Tree → Resp × Spec) (wf : Option Nat → Node → Outcome (Resp × World)) :
    (s.onValue v path sf = (.absent, s) ∧ w.onValue v path wf = .ret (.absent, w)) ∨
    ∃ a u, var vs v = some a ∧ a.at path = some u ∧ s.onValue v path sf = sf (a.tree e.target) (u.tree e.target) ∧
      ∀ place, w.walk none a.bits path = .ret (some (place, u.bits)) → w.onValue v path wf = wf place u.bits := by
  unfold Spec.onValue World.onValue
  rw [h.svals, h.wvals, var_map, var_map]
  cases hv : var vs v with
  | none => exact .inl ⟨rfl, rfl⟩
  | some a =>
    have haOk := h.good.ok a ((held_var hv).mem_iff.mpr (by simp))
    simp only [Option.map_some]
    cases hu : a.at path with
    | none =>
      refine .inl ⟨?_, ?_⟩
      · rw [ATree.tree_at, hu]; rfl
      · rw [walk_none w haOk hu none]; rfl
    | some u =>
      refine .inr ⟨a, u, rfl, hu, ?_, fun place hw => ?_⟩
      · rw [ATree.tree_at, hu]; rfl
      · rw [hw]; rfl

theorem ids_le_all {ts : List (Option Tree)} {v : Nat} {t : Tree} (h : var ts v = some t) : t.ids.length ≤ (all Tree.ids ts).length := by
  have := (all_var (f := Tree.ids) h).length_eq
  rw [List.length_append] at this
  omega

/-- The number of values made bounds the depth. -/
theorem ids_le (h : Ref e L s w vs) (hs : SInv s) {v : Nat} {path : List Nat} {a u : ATree} (hv : var vs v = some a) (hat : a.at path = some u) : (u.tree e.target).ids.length ≤ w.made := by
  obtain ⟨lost, hp, _⟩ := hs
  have h1 := hp.length_eq
  simp only [List.length_append, List.length_range] at h1
  have h2 : var s.vals v = some (a.tree e.target) := by rw [h.svals, var_map, hv]; rfl
  have h3 := ids_le_all h2
  have h4 : (a.tree e.target).at path = some (u.tree e.target) := by rw [ATree.tree_at, hat]; rfl
  obtain ⟨rest, r1, _⟩ := Tree.ids_path h4
  have h5 := r1.length_eq
  rw [List.length_append] at h5
  rw [h.made]
  omega

theorem ids_le_idsAll {ts : List Tree} {x : Tree} (h : x ∈ ts) : x.ids.length ≤ (idsAll ts).length := by
  induction ts with
  | nil => simp at h
  | cons y ys ih =>
    simp only [idsAll, List.length_append]
    rcases List.mem_cons.mp h with rfl | h
    · omega
    · have := ih h; omega

/-- Dropping an element. -/
theorem dropOne_eq {panics : Nat → Bool} {u k : ATree} (hu : (u.tree e.target).ids.length ≤ w.made) (hk : k ∈ u.kids) (hok : k.Ok e.target L w.mem) (log : List Nat) :
    w.dropOne panics log k.bits = .ret (destroy panics false log (k.tree e.target).ids) := by
  refine dropNode_eq k w.made ?_ hok false log
  rw [Tree.ids_eq, List.length_cons, ATree.tree_kids] at hu
  have := ids_le_idsAll (List.mem_map_of_mem (f := ATree.tree e.target) hk)
  omega

/-- The state after a change of the value at a path. -/
theorem Ref.change (h : Ref e L s w vs) {v : Nat} {path : List Nat} {a u : ATree} (hv : var vs v = some a) (hat : a.at path = some u) (hs : 0 < L.size) :
    ∃ place, w.walk none a.bits path = .ret (some (place, u.bits)) ∧ u.Ok e.target L w.mem ∧ u.regs.Pairwise Region.Disjoint ∧
      ∀ (mem1 : Nat → Option Node) (u' : ATree) (new : List ATree), FVec.Kept L (reg u.bits) w.mem mem1 → u'.Ok e.target L mem1 → (∀ n ∈ new, n.Ok e.target L mem1) → (u'.regs ++ regsAll new).Pairwise Region.Disjoint →
        (∀ R ∈ u'.regs ++ regsAll new, ∃ R0 ∈ u.regs, R.Within R0) →
        ∃ mem2, (∀ (W : World), W.mem = mem1 → W.vals = w.vals →
            W.store L v place u'.bits = { W with mem := mem2, vals := w.vals.set v (some (a.put path u').bits) }) ∧
          ∀ (s' : Spec) (w' : World), s'.vals = s.vals.set v (some ((a.tree e.target).put path (u'.tree e.target))) ++ new.map (fun n => some (n.tree e.target)) →
            w'.vals = w.vals.set v (some (a.put path u').bits) ++ new.map (fun n => some n.bits) → w'.mem = mem2 → s'.level = s.level → w'.level = w.level →
            w'.made = s'.made → w'.log = s'.log → w'.aborted = s'.aborted → ∃ vs', Ref e L s' w' vs' := by
  have hg : Good e.target L (e.base + s.level) w.mem (a :: ([] ++ held (vs.set v none))) := h.good.perm (by simpa using held_var hv)
  obtain ⟨place, h1, h2, _, h3, h4⟩ := focus hs hg hat
  simp only [regsAll, List.append_nil] at h3 h4
  refine ⟨place, h1 w rfl, h2, h3, fun mem1 u' new g1 g2 g3 g4 g5 => ?_⟩
  obtain ⟨mem2, k1, k2⟩ := h4 mem1 u' new g1 g2 g3 g4 g5
  have hvw : var w.vals v = some a.bits := by rw [h.wvals, var_map, hv]; rfl
  refine ⟨mem2, fun W hm hW => ?_, fun s' w' e1 e2 e3 e4 e5 e6 e7 e8 => ⟨vs.set v (some (a.put path u')) ++ new.map some, ?_, ?_, ?_, e6, e7, e8, ?_, ?_⟩⟩
  · rw [k1 W v hm (by rw [hW]; exact hvw), hW]
  · rw [e1, h.svals, ← ATree.tree_put]
    simp [List.map_set]
  · rw [e2, h.wvals]
    simp [List.map_set]
  · rw [e5, e4, h.level]
  · rw [e4]; exact h.le
  · rw [e4, e3]
    refine k2.perm ?_
    rw [held_append]
    refine List.Perm.trans ?_ ((held_set (var_lt hv) _).append_right _).symm
    exact List.Perm.cons _ List.perm_append_comm

theorem take_drop_middle {α : Type} (xs : List α) {a b : Nat} (h1 : a ≤ b) : xs.take a ++ ((xs.take b).drop a ++ xs.drop b) = xs := by
  have h : (xs.take b).take a = xs.take a := by rw [List.take_take, Nat.min_eq_left h1]
  rw [← List.append_assoc, ← h, List.take_append_drop, List.take_append_drop]

theorem reverse_drop_reverse {α : Type} (xs : List α) (k : Nat) : (xs.reverse.drop k).reverse = xs.take (xs.length - k) := by
  rw [List.drop_reverse, List.reverse_reverse]

theorem bits_node (b : Node) (ks : List ATree) : (ATree.node b ks).bits = b := rfl
theorem kids_node (b : Node) (ks : List ATree) : (ATree.node b ks).kids = ks := rfl

theorem drain_eq (f : FixedVec) (a b : Nat) : f.drain t true (.included a) (.excluded b) =
    if a ≤ b ∧ b ≤ f.length then .ret ({ f with length := a }, ⟨0, b - a, b - a, f.length - b, f.uninit.addr + a * f.uninit.T.size⟩) else .panic := by
  simp only [FixedVec.drain, FVec.FixedVec.drainStart, FVec.FixedVec.drainEnd, Outcome.assert, bind, Outcome.bind, pure, FixedVec.asMutPtr]
  by_cases h1 : a ≤ b <;> by_cases h2 : b ≤ f.length <;> simp [h1, h2]

/-- The vector is divided. -/
theorem split_ok {b : Node} {ks : List ATree} (hs : 0 < L.size) (hL : L.ValidType t) (h : (ATree.node b ks).Ok t L mem) (hd : (ATree.node b ks).regs.Pairwise Region.Disjoint) (n id : Nat) :
    if n ≤ b.kids.uninit.capacity t then
      ∃ f g, b.kids.splitAndShrinkTo t n = .ret (f, g) ∧ f.uninit.capacity t = n ∧ g.uninit.capacity t = b.kids.uninit.capacity t - n ∧
        (ATree.node ⟨b.id, f⟩ (ks.take n)).Ok t L mem ∧ (ATree.node ⟨id, g⟩ (ks.drop n)).Ok t L mem ∧
        ((ATree.node ⟨b.id, f⟩ (ks.take n)).regs ++ regsAll [ATree.node ⟨id, g⟩ (ks.drop n)]).Pairwise Region.Disjoint ∧
        ∀ R ∈ (ATree.node ⟨b.id, f⟩ (ks.take n)).regs ++ regsAll [ATree.node ⟨id, g⟩ (ks.drop n)], ∃ R0 ∈ (ATree.node b ks).regs, R.Within R0
    else b.kids.splitAndShrinkTo t n = .panic := by
  simp only [ATree.Ok] at h
  obtain ⟨k1, ⟨c, hc⟩, k3, k4, k5⟩ := h
  have hcap : b.kids.uninit.capacity t = c := by
    simp only [Uninit.SliceView.capacity, k1.elem, hc]
    rw [if_neg (by omega), Nat.mul_div_cancel_left _ hs]
  have hfit := k1.fits
  rw [hcap] at hfit ⊢
  have hT : b.kids.uninit.T.ValidType t := by rw [k1.elem]; exact hL
  have hsp := Uninit.splitAt_eq hT (by rw [k1.elem]; exact k1.aligned) k1.small (n := n)
  rw [k1.elem] at hsp
  by_cases hn : n ≤ c
  · rw [if_pos hn]
    have hle : n * L.size ≤ b.kids.uninit.len := by rw [hc, Nat.mul_comm]; exact Nat.mul_le_mul_left _ hn
    have hrest : b.kids.uninit.len - n * L.size = L.size * (c - n) := by rw [hc, Nat.mul_sub, Nat.mul_comm n]
    rw [if_pos hle] at hsp
    have hsub : Usize.saturatingSub b.kids.length n = b.kids.length - n := by simp [Usize.saturatingSub]
    refine ⟨⟨{ b.kids.uninit with len := n * L.size }, b.kids.length - (b.kids.length - n)⟩, ⟨⟨b.kids.uninit.addr + n * L.size, b.kids.uninit.len - n * L.size, L, Uninit.sliceCap t (b.kids.uninit.len - n * L.size) L⟩, b.kids.length - n⟩, ?_, ?_, ?_, ?_, ?_, ?_, ?_⟩
    · simp only [FixedVec.splitAndShrinkTo, FixedVec.capacity, hcap, Outcome.assert, hn, hsp, hsub, bind, Outcome.bind, pure]
      simp [k1.elem]
    · simp only [Uninit.SliceView.capacity, k1.elem]
      rw [if_neg (by omega), Nat.mul_div_cancel _ hs]
    · simp only [Uninit.SliceView.capacity]
      rw [if_neg (by omega), hrest, Nat.mul_div_cancel_left _ hs]
    · rw [← List.take_append_drop n ks, List.map_append, FVec.holds_append] at k4
      simp only [ATree.Ok]
      refine ⟨⟨k1.elem, k1.aligned, ?_, ?_⟩, Nat.dvd_mul_left _ _, ?_, k4.1, okAll_iff.mpr fun k hk => okAll_iff.mp k5 k (List.mem_of_mem_take hk)⟩
      · have := k1.small; simp only; omega
      · simp only [Uninit.SliceView.capacity, k1.elem]
        rw [if_neg (by omega), Nat.mul_div_cancel _ hs]; omega
      · rw [List.length_take, ← k3]; omega
    · simp only [ATree.Ok]
      refine ⟨⟨rfl, Nat.dvd_add k1.aligned (Nat.dvd_trans hL.2 (Nat.dvd_mul_left _ _)), ?_, ?_⟩, by rw [hrest]; exact Nat.dvd_mul_right _ _, by rw [List.length_drop, ← k3], ?_, okAll_iff.mpr fun k hk => okAll_iff.mp k5 k (List.mem_of_mem_drop hk)⟩
      · have := k1.small; simp only; omega
      · simp only [Uninit.SliceView.capacity]
        rw [if_neg (by omega), hrest, Nat.mul_div_cancel_left _ hs]; omega
      · by_cases hkn : n ≤ ks.length
        · rw [← List.take_append_drop n ks, List.map_append, FVec.holds_append, List.length_map, List.length_take, Nat.min_eq_left hkn] at k4
          exact k4.2
        · rw [List.drop_eq_nil_of_le (by omega)]; exact FVec.holds_nil
    · have hperm : (regsAll (ks.take n) ++ regsAll (ks.drop n)) = regsAll ks := by rw [← regsAll_append, List.take_append_drop]
      simp only [ATree.regs, List.pairwise_cons] at hd
      obtain ⟨d1, d2⟩ := hd
      have w1 : Region.Within (reg ⟨b.id, ⟨{ b.kids.uninit with len := n * L.size }, b.kids.length - (b.kids.length - n)⟩⟩) (reg b) := by simp only [reg, Region.Within]; omega
      have w2 : Region.Within (reg ⟨id, ⟨⟨b.kids.uninit.addr + n * L.size, b.kids.uninit.len - n * L.size, L, Uninit.sliceCap t (b.kids.uninit.len - n * L.size) L⟩, b.kids.length - n⟩⟩) (reg b) := by simp only [reg, Region.Within]; omega
      simp only [ATree.regs, regsAll, List.append_nil, List.cons_append]
      refine List.pairwise_cons.mpr ⟨fun R hR => ?_, ?_⟩
      · rcases List.mem_append.mp hR with hR | hR
        · exact disjoint_of_within w1 (d1 R (by rw [← hperm]; simp [hR]))
        · rcases List.mem_cons.mp hR with rfl | hR
          · intro x hx
            simp only [Region.Has, reg] at hx
            omega
          · exact disjoint_of_within w1 (d1 R (by rw [← hperm]; simp [hR]))
      · refine pairwise_perm (List.perm_middle.symm) (List.pairwise_cons.mpr ⟨fun R hR => ?_, by rw [hperm]; exact d2⟩)
        rw [hperm] at hR
        exact disjoint_of_within w2 (d1 R hR)
    · intro R hR
      simp only [ATree.regs, regsAll, List.append_nil, List.cons_append, List.mem_cons, List.mem_append] at hR ⊢
      have hperm : (regsAll (ks.take n) ++ regsAll (ks.drop n)) = regsAll ks := by rw [← regsAll_append, List.take_append_drop]
      rcases hR with rfl | hR | rfl | hR
      · exact ⟨reg b, .inl rfl, by simp only [reg, Region.Within]; omega⟩
      · exact ⟨R, .inr (by rw [← hperm]; simp [hR]), Nat.le_refl _, Nat.le_refl _⟩
      · exact ⟨reg b, .inl rfl, by simp only [reg, Region.Within]; omega⟩
      · exact ⟨R, .inr (by rw [← hperm]; simp [hR]), Nat.le_refl _, Nat.le_refl _⟩
  · rw [if_neg hn]
    simp only [FixedVec.splitAndShrinkTo, FixedVec.capacity, hcap, Outcome.assert, hn, bind, Outcome.bind]
    simp

/-- A drain that is used and dropped. -/
theorem drain_ok {drop : List Nat → Node → Outcome (Ended × List Nat)} {panics : Nat → Bool} {b : Node} {ks : List ATree} (hs : 0 < L.size) (h : (ATree.node b ks).Ok t L mem) (hd : (ATree.node b ks).regs.Pairwise Region.Disjoint)
    (hdrop : ∀ y ∈ ks, ∀ log, drop log y.bits = .ret (destroy panics false log (y.tree t).ids)) {p q : Nat} (hpq : p ≤ q) (hq : q ≤ ks.length) (front back : Nat) (log : List Nat) :
    ∃ (first last rest kids : List ATree) (d1 d2 : Drain) (hp : Heap Node),
      first = ((ks.take q).drop p).take front ∧ last = (((ks.take q).drop p).drop front).reverse.take back ∧ rest = ((((ks.take q).drop p).drop front).reverse.drop back).reverse ∧
      takeFront L ⟨mem, []⟩ front ⟨0, q - p, q - p, ks.length - q, b.kids.uninit.addr + p * L.size⟩ = .ret (first.map ATree.bits, d1) ∧
      takeBack L ⟨mem, []⟩ back d1 = .ret (last.map ATree.bits, d2) ∧
      dropDrain L ⟨mem, []⟩ drop d2 p log = .ret ((dropEach panics log (rest.map (ATree.tree t))).1, kids.length, hp, (dropEach panics log (rest.map (ATree.tree t))).2.1) ∧
      kids = ks.take p ++ (if (dropEach panics log (rest.map (ATree.tree t))).1 = .ok then ks.drop q else []) ∧
      FVec.Kept L (reg b) mem hp.mem ∧ (ATree.node (resized b kids.length) kids).Ok t L hp.mem ∧ (∀ n ∈ first ++ last, n.Ok t L hp.mem) ∧
      ((ATree.node (resized b kids.length) kids).regs ++ regsAll (first ++ last)).Pairwise Region.Disjoint ∧
      ∀ R ∈ (ATree.node (resized b kids.length) kids).regs ++ regsAll (first ++ last), ∃ R0 ∈ (ATree.node b ks).regs, R.Within R0 := by
  have hz : L.size = 0 → Subsingleton Node := fun h => by omega
  have h' := h
  simp only [ATree.Ok] at h
  obtain ⟨k1, k2, k3, k4, k5⟩ := h
  generalize hm : (ks.take q).drop p = mid
  have hks : ks.take p ++ (mid ++ ks.drop q) = ks := by rw [← hm]; exact take_drop_middle ks hpq
  have hmlen : mid.length = q - p := by rw [← hm, List.length_drop, List.length_take]; omega
  have hplen : (ks.take p).length = p := by rw [List.length_take]; omega
  have k4' := k4
  rw [← hks, List.map_append, List.map_append, FVec.holds_append, FVec.holds_append, List.length_map, List.length_map, hplen, hmlen] at k4'
  obtain ⟨a1, a2, a3⟩ := k4'
  have r0 : DrainRel L mem b.kids.uninit.addr p ⟨0, q - p, q - p, ks.length - q, b.kids.uninit.addr + p * L.size⟩ ⟨mid.map ATree.bits, (ks.drop q).map ATree.bits⟩ :=
    ⟨rfl, by simp [hmlen], Nat.le_refl _, by simp, by simpa using a2, by simpa using a3⟩
  obtain ⟨d1, b1, r1⟩ := takeFront_eq (h := ⟨mem, []⟩) front r0
  obtain ⟨d2, b2, r2⟩ := takeBack_eq (h := ⟨mem, []⟩) back r1
  generalize hfirst : mid.take front = first at *
  generalize hlast : (mid.drop front).reverse.take back = last at *
  generalize hrest : ((mid.drop front).reverse.drop back).reverse = rest at *
  -- what became of the drained elements
  have hmid : (first ++ last ++ rest).Perm mid := by
    rw [List.append_assoc, ← hfirst, ← hlast, ← hrest]
    conv => rhs; rw [← List.take_append_drop front mid]
    refine List.Perm.append_left _ ?_
    refine List.Perm.trans ?_ (List.reverse_perm (mid.drop front))
    conv => rhs; rw [← List.take_append_drop back (mid.drop front).reverse]
    exact List.Perm.append_left _ (List.reverse_perm _)
  have hsub : ∀ x ∈ first ++ last ++ rest, x ∈ ks := by
    intro x hx
    rw [← hks]
    simp [hmid.mem_iff.mp hx]
  obtain ⟨d3, c1, c2, c3, c4⟩ := dropItems_eq (h := ⟨mem, []⟩) (t := t) (drop := drop) (panics := panics) r2 (fun y hy log => hdrop y (hsub y (by simp [hy])) log) log
  have hdlen : d2.len = rest.length := by have := r2.rest_len; simp only [List.length_map] at this; simp only [Drain.len]; omega
  rcases hde : dropEach panics log (rest.map (ATree.tree t)) with ⟨r, log', left⟩
  rw [hde] at c1
  refine ⟨first, last, rest, ?_⟩
  simp only [hde] at c1 ⊢
  have hperm : ∀ tl lost : List ATree, (tl ++ lost) = ks.drop q → ((ks.take p ++ tl) ++ (first ++ last) ++ (rest ++ lost)).Perm (ks ++ []) := by
    intro tl lost htl
    rw [List.append_nil]
    conv => rhs; rw [← hks, ← htl]
    have e1 : (ks.take p ++ tl) ++ (first ++ last) ++ (rest ++ lost) = ks.take p ++ (tl ++ ((first ++ last ++ rest) ++ lost)) := by simp only [List.append_assoc]
    rw [e1]
    exact List.Perm.append_left _ ((List.perm_append_comm_assoc _ _ _).trans (hmid.append_right _))
  have htail : d3.elements + d3.tail * L.size = d2.elements + d2.tail * L.size := by rw [c2, c4]
  have htl : d3.tailLen = (ks.drop q).length := by rw [c3, r2.tail_len]; simp
  have hkok : ∀ mem1, FVec.Kept L (reg b) mem mem1 → ∀ k ∈ ks, k.Ok t L mem1 := by
    intro mem1 hk k hkk
    refine ATree.Ok.frame k (okAll_iff.mp k5 k hkk) fun x v hx hR => ?_
    obtain ⟨R, hR, hw⟩ := hR
    simp only [ATree.regs, List.pairwise_cons] at hd
    exact hk x v hx (disjoint_of_within hw (disjoint_symm (hd.1 R (mem_regsAll.mpr ⟨k, hkk, hR⟩))))
  by_cases hr : r = .ok
  · by_cases ht : d3.tailLen = 0
    · have hnil : ks.drop q = [] := List.eq_nil_of_length_eq_zero (by omega)
      have hparts := parts_regs (b := b) (b' := resized b (ks.take p ++ (if r = .ok then ks.drop q else [])).length) (ks := ks) (moved := []) (pre := ks.take p ++ (if r = .ok then ks.drop q else [])) (new := first ++ last) (lost := rest ++ []) rfl
        (hperm _ [] (by simp [hr])) (by simpa [regsAll] using hd)
      refine ⟨_, d1, d2, ⟨mem, []⟩, trivial, trivial, trivial, b1, b2, ?_, rfl, FVec.Kept.refl, ?_, fun n hn => hkok mem FVec.Kept.refl n (hsub n (List.mem_append_left _ hn)), hparts.1, by simpa [regsAll] using hparts.2⟩
      · simp [dropDrain, hdlen, c1, hr, ht, bind, Outcome.bind, pure, hnil]
        omega
      · rw [if_pos hr, hnil, List.append_nil]
        have h2 := h'
        rw [← hks] at h2
        exact (prefix_ok h2).1
    · -- the elements behind are moved
      have hcp := FVec.copy_eq hz (h := ⟨mem, []⟩) (R := reg b) (addr := b.kids.uninit.addr) (src := d2.elements + d2.tail * L.size) a1 r2.tail (by
        intro i hi
        simp only [List.length_map] at hi ⊢
        rw [List.length_drop] at hi
        have := slot_within k1 (i := p + i) (by omega)
        rw [hplen]
        rw [Nat.add_mul, ← Nat.add_assoc] at this
        exact this)
      simp only [List.length_map, hplen] at hcp
      obtain ⟨_, p2, p3⟩ := hcp
      have hparts := parts_regs (b := b) (b' := resized b (ks.take p ++ (if r = .ok then ks.drop q else [])).length) (ks := ks) (moved := []) (pre := ks.take p ++ (if r = .ok then ks.drop q else [])) (new := first ++ last) (lost := rest ++ []) rfl
        (hperm _ [] (by simp [hr])) (by simpa [regsAll] using hd)
      refine ⟨_, d1, d2, FVec.copy L ⟨mem, []⟩ (d2.elements + d2.tail * L.size) (b.kids.uninit.addr + p * L.size) (ks.drop q).length, trivial, trivial, trivial, b1, b2, ?_, rfl, p2, ?_, fun n hn => hkok _ p2 n (hsub n (List.mem_append_left _ hn)), hparts.1, by simpa [regsAll] using hparts.2⟩
      · have he : d3.elements = b.kids.uninit.addr + p * L.size := by rw [c4, r2.elements]
        have he2 : d2.elements = b.kids.uninit.addr + p * L.size := r2.elements
        simp only [dropDrain, hdlen, c1, hr, bind, Outcome.bind, pure]
        simp only [htail, htl] at ht ⊢
        simp only [he, ne_eq, not_true_eq_false, if_false, ht, not_false_eq_true, if_true]
        simp [hplen]
      · rw [if_pos hr]
        simp only [ATree.Ok]
        refine ⟨⟨k1.elem, k1.aligned, k1.small, ?_⟩, k2, rfl, by rw [List.map_append]; exact p3, okAll_iff.mpr fun k hk => hkok _ p2 k ?_⟩
        · have := k1.fits
          simp only [resized, List.length_append, List.length_drop, hplen]; omega
        · rcases List.mem_append.mp hk with hk | hk
          · exact List.mem_of_mem_take hk
          · exact List.mem_of_mem_drop hk
  · have hparts := parts_regs (b := b) (b' := resized b (ks.take p ++ (if r = .ok then ks.drop q else [])).length) (ks := ks) (moved := []) (pre := ks.take p ++ (if r = .ok then ks.drop q else [])) (new := first ++ last) (lost := rest ++ ks.drop q) rfl
      (hperm _ (ks.drop q) (by simp [hr])) (by simpa [regsAll] using hd)
    refine ⟨_, d1, d2, ⟨mem, []⟩, trivial, trivial, trivial, b1, b2, ?_, rfl, FVec.Kept.refl, ?_, fun n hn => hkok mem FVec.Kept.refl n (hsub n (List.mem_append_left _ hn)), hparts.1, by simpa [regsAll] using hparts.2⟩
    · simp [dropDrain, hdlen, c1, hr, bind, Outcome.bind, pure]
      omega
    · rw [if_neg hr, List.append_nil]
      have h2 := h'
      rw [← hks] at h2
      exact (prefix_ok h2).1

theorem ref_exec (he : e.Valid) (hL : L.ValidType e.target) (hs : 0 < L.size) (h : Ref e L s w vs) (hi : SInv s) (panics : Nat → Bool) {op : Op} (ho : op.Valid e.target) :
    ∃ w' vs', exec e L panics w op = .ret ((s.exec e.slab L panics op).1, w') ∧ Ref e L (s.exec e.slab L panics op).2 w' vs' := by
  have hz : L.size = 0 → Subsingleton Node := fun h => by omega
  cases op with
  | make cap =>
    simp only [exec, Spec.exec]
    rcases fixedVec_eq he h.le hL hs cap (fun _ => 0) with ⟨h1, h2⟩ | ⟨l, f, h1, h2, h3, h4, h5, h6, h7, h8⟩
    · rw [h.level, h1, h2]
      refine ⟨{ w with level := s.level }, vs, rfl, ?_⟩
      rw [← h.level]; exact h
    · rw [h.level, h1, h2]
      simp only [bind, Outcome.bind, pure]
      refine ⟨_, vs ++ [ATree.node ⟨w.made, f⟩ []].map some, by rw [h.wvals, h.svals, List.length_map, List.length_map], ?_⟩
      have hcap : f.uninit.capacity e.target = cap := by
        simp only [Uninit.SliceView.capacity, h6.elem, h7]
        rw [if_neg (by omega), Nat.mul_div_cancel_left _ hs]
      refine ⟨?_, ?_, rfl, by simp [h.made], h.log, h.aborted, h4, ?_⟩
      · simp [h.svals, ATree.tree, treeAll, hcap, h.made]
      · simp [h.wvals, ATree.bits]
      · rw [held_append]
        have hg := h.good.mono (bound' := e.base + l) (by omega)
        refine ⟨fun a ha => ?_, ?_, ?_⟩
        · rcases List.mem_append.mp ha with ha | ha
          · exact hg.ok a ha
          · simp only [List.mem_singleton] at ha
            subst ha
            simp only [ATree.Ok, OkAll, h5, List.length_nil, and_true]
            exact ⟨h6, by rw [h7]; exact Nat.dvd_mul_right _ _, by simpa using FVec.holds_nil⟩
        · rw [regsAll_append]
          refine List.pairwise_append.mpr ⟨hg.disjoint, by simp [regsAll, ATree.regs], fun R hR S hS => ?_⟩
          simp only [regsAll, ATree.regs, List.append_nil, List.mem_singleton] at hS
          subst hS
          have := h.good.below R hR
          intro x hx
          simp only [Region.Has, reg, h7] at hx
          rcases h8 with rfl | h8
          · simp at hx; omega
          · omega
        · intro R hR
          rw [regsAll_append] at hR
          rcases List.mem_append.mp hR with hR | hR
          · exact hg.below R hR
          · simp only [regsAll, ATree.regs, List.append_nil, List.mem_singleton] at hR
            subst hR
            simp only [reg]
            rcases h8 with rfl | h8
            · left; simpa using h7
            · right; exact h8.2
  | alloc L' =>
    simp only [exec, Spec.exec]
    have hspec := Bump.tryAllocSeq_spec he h.le (l := L') ho.2 ho.1.1.pos
    rw [h.level, hspec]
    cases hp : e.slab.place L' s.level with
    | none =>
      refine ⟨{ w with level := s.level }, vs, rfl, ?_⟩
      rw [← h.level]; exact h
    | some a =>
      obtain ⟨p1, p2, p3⟩ := Slab.place_eq_some.mp hp
      simp only [Bump.Env.slab] at p1 p2 p3
      have hle := le_alignUp ho.1.1.pos (e.base + s.level)
      refine ⟨{ w with level := a.level }, vs, rfl, h.svals, h.wvals, rfl, h.made, h.log, h.aborted, ?_, h.good.mono ?_⟩
      · simp only; omega
      · simp only; omega
  | push v path y =>
    simp only [exec, Spec.exec]
    rcases ref_onValue h v path _ _ with ⟨h1, h2⟩ | ⟨a, u, hv, hat, h1, h2⟩
    · exact ⟨w, vs, by rw [h1, h2], by rw [h1]; exact h⟩
    · rw [h1]
      have hvw : var (w.vals.set v none) y = (var (vs.set v none) y).map ATree.bits := by
        rw [h.wvals, ← var_map, List.map_set]; rfl
      have hvs : var (s.vals.set v none) y = (var (vs.set v none) y).map (ATree.tree e.target) := by
        rw [h.svals, ← var_map, List.map_set]; rfl
      rw [hvs]
      cases hy : var (vs.set v none) y with
      | none =>
        obtain ⟨place, g1, _⟩ := h.change hv hat hs
        rw [h2 place g1, hvw, hy]
        exact ⟨w, vs, rfl, h⟩
      | some m =>
        obtain ⟨hne, hym⟩ := var_set_none hy
        have hg : Good e.target L (e.base + s.level) w.mem (a :: ([m] ++ held ((vs.set v none).set y none))) :=
          h.good.perm ((held_var hv).trans (List.Perm.cons _ (held_var hy)))
        obtain ⟨place, g1, g2, g3, g4, g5⟩ := focus hs hg hat
        rw [h2 place (g1 w rfl), hvw, hy]
        cases u with | node b ks =>
        have g2' := g2
        simp only [ATree.Ok] at g2
        obtain ⟨k1, k2, k3, k4, k5⟩ := g2
        have hpush := FVec.push_eq hL k1 w.heap m.bits
        simp only [Option.map_some, bits_node, hpush, ATree.tree_kids, ATree.tree_cap, kids_node, List.length_map, ← k3]
        by_cases hc : b.kids.length < b.kids.uninit.capacity e.target
        · rw [if_pos hc, if_pos hc]
          simp only [bind, Outcome.bind, pure]
          -- the vector with one more element
          have hkept : FVec.Kept L (reg b) w.mem (FVec.writeBits L w.mem (b.kids.uninit.addr + b.kids.length * L.size) (some m.bits)) := by
            refine FVec.writeBits_kept hz ?_
            have := (FVec.cap_lt_iff k1 (by omega)).mp hc
            simp only [Region.Within, reg]; omega
          have hdis : ∀ c ∈ ks ++ [m], ∀ R ∈ c.regs, R.Disjoint (reg b) := by
            intro c hc R hR
            have := g4
            simp only [ATree.regs, List.cons_append, List.pairwise_cons, regsAll] at this
            refine disjoint_symm (this.1 R ?_)
            rcases List.mem_append.mp hc with hc | hc
            · simp [mem_regsAll.mpr ⟨c, hc, hR⟩]
            · simp only [List.mem_singleton] at hc; subst hc; simp [hR]
          obtain ⟨mem2, q1, q2⟩ := g5 _ (.node (resized b (b.kids.length + 1)) (ks ++ [m])) [] hkept (by
              simp only [ATree.Ok]
              refine ⟨⟨k1.elem, k1.aligned, k1.small, by simp only [resized]; omega⟩, k2, by simp [resized, k3], ?_, okAll_iff.mpr fun c hc => ?_⟩
              · have := FVec.holds_push (v := m.bits) hz k4
                simp only [List.map_append, List.map_cons, List.map_nil, List.length_map, ← k3] at this ⊢
                exact this
              · have hcok : c.Ok e.target L w.mem := by
                  rcases List.mem_append.mp hc with hc | hc
                  · exact okAll_iff.mp k5 c hc
                  · exact g3 c hc
                refine ATree.Ok.frame c hcok fun x v hx hR => ?_
                obtain ⟨R, hR, hw⟩ := hR
                exact hkept x v hx (disjoint_of_within hw (hdis c hc R hR)))
            (by simp) (parts_regs (lost := []) rfl (by simp) g4).1 (parts_regs (lost := []) rfl (by simp) g4).2
          have hvv : var (w.vals.set y none) v = some a.bits := by
            have : var w.vals v = some a.bits := by rw [h.wvals, var_map, hv]; rfl
            unfold var at this ⊢
            rwa [List.getElem?_set_ne hne.symm]
          have hst := q1 { w with mem := FVec.writeBits L w.mem (b.kids.uninit.addr + b.kids.length * L.size) (some m.bits), vals := w.vals.set y none } v rfl hvv
          simp only [bits_node, resized] at hst
          simp only [FVec.write, World.heap, hst]
          refine ⟨_, (vs.set v (some (a.put path (.node (resized b (b.kids.length + 1)) (ks ++ [m]))))).set y none, rfl, ?_, ?_, h.level, h.made, h.log, h.aborted, h.le, ?_⟩
          · simp only [List.map_set, h.svals, Option.map_some, Option.map_none, ATree.tree_put]
            simp [ATree.tree, treeAll_eq, resized, Tree.id]
          · simp only [List.map_set, h.wvals, Option.map_some, Option.map_none, resized]
            rw [List.set_comm _ _ hne.symm]
          · refine q2.perm ?_
            simp only [List.nil_append]
            have hvl : v < (vs.set y none).length := by rw [List.length_set]; exact var_lt hv
            rw [List.set_comm _ _ hne, List.set_comm _ _ hne]
            exact (held_set hvl _).symm
        · rw [if_neg hc, if_neg hc]
          simp only [bind, Outcome.bind, pure]
          obtain ⟨mem2, q1, q2⟩ := g5 w.mem (.node b ks) [m] FVec.Kept.refl g2' g3 g4 (fun R hR => ⟨R, hR, Nat.le_refl _, Nat.le_refl _⟩)
          have hyw : var w.vals y = some m.bits := by rw [h.wvals, var_map, hym]; rfl
          have hvw2 : var w.vals v = some a.bits := by rw [h.wvals, var_map, hv]; rfl
          have hst := q1 w v rfl hvw2
          rw [ATree.put_at hat, set_var hvw2] at hst
          simp only [bits_node] at hst
          have e1 : ({ w with mem := w.heap.mem, vals := w.vals.set y (some m.bits) } : World) = w := by rw [set_var hyw]; rfl
          rw [e1, hst]
          refine ⟨_, vs, rfl, h.svals, h.wvals, h.level, h.made, h.log, h.aborted, h.le, ?_⟩
          rw [ATree.put_at hat] at q2
          exact q2.perm ((held_var hv).trans (List.Perm.cons _ (held_var hy))).symm
  | pop v path =>
    simp only [exec, Spec.exec]
    rcases ref_onValue h v path _ _ with ⟨h1, h2⟩ | ⟨a, u, hv, hat, h1, h2⟩
    · exact ⟨w, vs, by rw [h1, h2], by rw [h1]; exact h⟩
    · rw [h1]
      obtain ⟨place, g1, g2, g3, g4⟩ := h.change hv hat hs
      rw [h2 place g1]
      cases u with | node b ks =>
      have g2' := g2
      simp only [ATree.Ok] at g2
      obtain ⟨k1, k2, k3, k4, k5⟩ := g2
      have hpop := FVec.pop_eq hL k1 (h := w.heap) (xs := ks.map ATree.bits) (by simpa using k3) k4
      simp only [bits_node, hpop, bind, Outcome.bind, pure, ATree.tree_kids, kids_node]
      have hvw : var w.vals v = some a.bits := by rw [h.wvals, var_map, hv]; rfl
      rcases List.eq_nil_or_concat ks with rfl | ⟨zs, z, rfl⟩
      · simp only [List.map_nil, List.getLast?_nil, List.dropLast_nil, List.length_nil]
        obtain ⟨mem2, q1, q2⟩ := g4 w.mem (.node b []) [] FVec.Kept.refl g2' (by simp) (by simpa [regsAll] using g3) (fun R hR => ⟨R, by simpa [regsAll] using hR, Nat.le_refl _, Nat.le_refl _⟩)
        have hst := q1 w rfl rfl
        rw [ATree.put_at hat, set_var hvw] at hst
        simp only [bits_node] at hst
        have e1 : ({ b with kids := { b.kids with length := 0 } } : Node) = b := by
          cases b with | mk i f => cases f; simp only [List.length_nil] at k3; simp [k3]
        rw [e1, hst]
        obtain ⟨vs', hr⟩ := q2 s { w with mem := mem2 } (by
            rw [← ATree.tree_put, ATree.put_at hat, List.map_nil, List.append_nil, set_var]
            rw [h.svals, var_map, hv]; rfl) (by rw [ATree.put_at hat, set_var hvw]; simp) rfl rfl rfl h.made h.log h.aborted
        exact ⟨_, vs', rfl, hr⟩
      · rw [List.concat_eq_append] at *
        simp only [List.map_append, List.map_cons, List.map_nil, List.getLast?_append, List.getLast?_singleton, Option.some_or, List.dropLast_concat, List.length_map]
        obtain ⟨o1, o2⟩ := prefix_ok g2'
        have hparts := parts_regs (b := b) (b' := resized b zs.length) (ks := zs ++ [z]) (moved := []) (pre := zs) (new := [z]) (lost := []) rfl (by simp) (by simpa [regsAll] using g3)
        obtain ⟨mem2, q1, q2⟩ := g4 w.mem (.node (resized b zs.length) zs) [z] FVec.Kept.refl o1 o2
          hparts.1 (by simpa [regsAll] using hparts.2)
        have hst := q1 w rfl rfl
        simp only [bits_node, resized] at hst
        rw [hst]
        obtain ⟨vs', hr⟩ := q2 { s with vals := s.vals.set v (some ((a.tree e.target).put path (.node b.id (b.kids.uninit.capacity e.target) (zs.map (ATree.tree e.target))))) ++ [some (z.tree e.target)] }
          { w with mem := mem2, vals := w.vals.set v (some (a.put path (.node (resized b zs.length) zs)).bits) ++ [some z.bits] }
          (by simp [ATree.tree, treeAll_eq, resized]) (by simp) rfl rfl rfl h.made h.log h.aborted
        have hlen : w.vals.length = s.vals.length := by rw [h.wvals, h.svals, List.length_map, List.length_map]
        refine ⟨_, vs', by rw [hlen], ?_⟩
        simp only [ATree.tree_id, ATree.tree_cap, bits_node]
        exact hr
  | truncate v path n =>
    simp only [exec, Spec.exec]
    rcases ref_onValue h v path _ _ with ⟨h1, h2⟩ | ⟨a, u, hv, hat, h1, h2⟩
    · exact ⟨w, vs, by rw [h1, h2], by rw [h1]; exact h⟩
    · rw [h1]
      obtain ⟨place, g1, g2, g3, g4⟩ := h.change hv hat hs
      rw [h2 place g1]
      have hids := ids_le h hi hv hat
      cases u with | node b ks =>
      have g2' := g2
      simp only [ATree.Ok] at g2
      obtain ⟨k1, k2, k3, k4, k5⟩ := g2
      have hloop := truncateLoop_eq (t := e.target) (drop := w.dropOne panics) (panics := panics) (ks.take n) (ks.drop n) (by rw [List.take_append_drop]; exact k4)
        (fun y hy log => dropOne_eq hids (List.mem_of_mem_drop hy) (okAll_iff.mp k5 y (List.mem_of_mem_drop hy)) log) w.log
      rw [List.take_append_drop, ← k3, List.length_drop, ← k3] at hloop
      obtain ⟨pre, lost, k, d1, d2, d3, d4, d5, d6⟩ := dropEach_spec panics w.log ((ks.drop n).reverse.map (ATree.tree e.target))
      rcases hd : dropEach panics w.log ((ks.drop n).reverse.map (ATree.tree e.target)) with ⟨r, log, left⟩
      rw [hd] at d1 d2 d5 d6 hloop
      simp only at d1 d2 d5 d6 hloop
      simp only [truncate, bits_node, k1.elem, FixedVec.endMutPtr, FixedVec.asMutPtr, hloop, bind, Outcome.bind, pure]
      have hd' : dropEach panics s.log (((ATree.node b ks).tree e.target).kids.drop n).reverse = (r, log, left) := by
        rw [ATree.tree_kids, ← h.log, ← hd]; simp [ATree.kids]
      rw [hd']
      simp only
      -- what remains
      have hrest : ∃ j, (ks.take n ++ (ks.drop n).take j) ++ (ks.drop n).drop j = ks ∧ left.reverse = ((ks.drop n).take j).map (ATree.tree e.target) := by
        refine ⟨(ks.drop n).length - k, by rw [List.append_assoc, List.take_append_drop, List.take_append_drop], ?_⟩
        rw [d2, ← List.map_drop, ← List.map_reverse, reverse_drop_reverse]
      obtain ⟨j, j1, j2⟩ := hrest
      have g2'' := g2'
      rw [← j1] at g2''
      obtain ⟨o1, o2⟩ := prefix_ok g2''
      have hparts := parts_regs (b := b) (b' := resized b (ks.take n ++ (ks.drop n).take j).length) (ks := ks) (moved := []) (pre := ks.take n ++ (ks.drop n).take j) (new := []) (lost := (ks.drop n).drop j) rfl
        (by rw [List.append_nil, List.append_nil, j1]) (by simpa [regsAll] using g3)
      obtain ⟨mem2, q1, q2⟩ := g4 w.mem (.node (resized b (ks.take n ++ (ks.drop n).take j).length) (ks.take n ++ (ks.drop n).take j)) [] FVec.Kept.refl o1 (by simp) hparts.1 (by simpa [regsAll] using hparts.2)
      have hlen : (ks.take n).length + left.length = (ks.take n ++ (ks.drop n).take j).length := by
        have := congrArg List.length j2
        rw [List.length_reverse, List.length_map] at this
        rw [List.length_append, this]
      rw [hlen]
      have hst := q1 { w with log := log, aborted := r = Ended.aborted } rfl rfl
      simp only [bits_node] at hst
      simp only [resized] at hst
      rw [hst]
      obtain ⟨vs', hr⟩ := q2 { s with vals := s.vals.set v (some ((a.tree e.target).put path (.node b.id (b.kids.uninit.capacity e.target) ((ks.take n ++ (ks.drop n).take j).map (ATree.tree e.target))))), log := log, aborted := r = Ended.aborted }
          { w with log := log, aborted := r = Ended.aborted, mem := mem2, vals := w.vals.set v (some (a.put path (.node (resized b (ks.take n ++ (ks.drop n).take j).length) (ks.take n ++ (ks.drop n).take j))).bits) }
          (by simp [ATree.tree, treeAll_eq, resized]) (by simp) rfl rfl rfl h.made rfl rfl
      refine ⟨_, vs', rfl, ?_⟩
      simp only [ATree.tree_id, ATree.tree_cap, bits_node, ATree.tree_kids, kids_node, j2, ← List.map_take, ← List.map_append]
      exact hr
  | drain v path p q front back =>
    simp only [exec, Spec.exec]
    rcases ref_onValue h v path _ _ with ⟨h1, h2⟩ | ⟨a, u, hv, hat, h1, h2⟩
    · exact ⟨w, vs, by rw [h1, h2], by rw [h1]; exact h⟩
    · rw [h1]
      obtain ⟨place, g1, g2, g3, g4⟩ := h.change hv hat hs
      rw [h2 place g1]
      have hids := ids_le h hi hv hat
      cases u with | node b ks =>
      have g2' := g2
      simp only [ATree.Ok] at g2
      obtain ⟨k1, k2, k3, k4, k5⟩ := g2
      rw [bits_node, drain_eq, ATree.tree_kids, kids_node, List.length_map, ← k3, k1.elem]
      by_cases hc : p ≤ q ∧ q ≤ b.kids.length
      · simp only [if_pos hc]
        obtain ⟨first, last, rest, kids, d1, d2, hp, f1, f2, f3, f4, f5, f6, f7, f8, f9, f10, f11, f12⟩ :=
          drain_ok (drop := w.dropOne panics) (panics := panics) hs g2' g3 (fun y hy log => dropOne_eq hids hy (okAll_iff.mp k5 y hy) log) hc.1 (by omega) front back w.log
        rw [← k3] at f4
        simp only [World.heap, f4, f5, f6, bind, Outcome.bind, pure]
        obtain ⟨mem2, q1, q2⟩ := g4 hp.mem (.node (resized b kids.length) kids) (first ++ last) f8 f9 f10 f11 f12
        rcases hde : dropEach panics w.log (rest.map (ATree.tree e.target)) with ⟨r, log, left⟩
        rw [hde] at f7
        simp only at f7 ⊢
        have hst := q1 { w with mem := hp.mem, log := log, aborted := r = Ended.aborted } rfl rfl
        simp only [bits_node] at hst
        simp only [resized] at hst
        rw [hst]
        have hde' : dropEach panics s.log ((((((ks.map (ATree.tree e.target)).take q).drop p).drop front).reverse.drop back).reverse) = (r, log, left) := by
          rw [← h.log, ← hde, f3]
          simp
        simp only [hde']
        obtain ⟨vs', hr⟩ := q2 { s with vals := s.vals.set v (some ((a.tree e.target).put path (.node b.id (b.kids.uninit.capacity e.target) (kids.map (ATree.tree e.target))))) ++ (first ++ last).map (fun n => some (n.tree e.target)), log := log, leaked := s.leaked ++ (if r = .ok then [] else idsAll (left ++ (ks.map (ATree.tree e.target)).drop q)), aborted := r = Ended.aborted }
          { w with mem := mem2, log := log, aborted := r = Ended.aborted, vals := w.vals.set v (some (a.put path (.node (resized b kids.length) kids)).bits) ++ (first ++ last).map (fun n => some n.bits) }
          (by simp [ATree.tree, treeAll_eq, resized]) (by simp) rfl rfl rfl h.made rfl rfl
        have e1 : (((ks.map (ATree.tree e.target)).take q).drop p).take front = first.map (ATree.tree e.target) := by rw [f1]; simp
        have e2 : ((((ks.map (ATree.tree e.target)).take q).drop p).drop front).reverse.take back = last.map (ATree.tree e.target) := by rw [f2]; simp
        have e3 : (ks.map (ATree.tree e.target)).take p ++ (if r = .ok then (ks.map (ATree.tree e.target)).drop q else []) = kids.map (ATree.tree e.target) := by
          rw [f7]
          by_cases hr : r = .ok <;> simp [hr]
        rw [e1, e2, e3]
        refine ⟨_, vs', by rw [List.length_map, List.length_map, List.length_map, List.length_map], ?_⟩
        simp only [ATree.tree_id, ATree.tree_cap, bits_node, ← List.map_append, List.map_map]
        exact hr
      · simp only [if_neg hc]
        exact ⟨w, vs, rfl, h⟩
  | drainForget v path p q =>
    simp only [exec, Spec.exec]
    rcases ref_onValue h v path _ _ with ⟨h1, h2⟩ | ⟨a, u, hv, hat, h1, h2⟩
    · exact ⟨w, vs, by rw [h1, h2], by rw [h1]; exact h⟩
    · rw [h1]
      obtain ⟨place, g1, g2, g3, g4⟩ := h.change hv hat hs
      rw [h2 place g1]
      cases u with | node b ks =>
      have g2' := g2
      simp only [ATree.Ok] at g2
      obtain ⟨k1, k2, k3, k4, k5⟩ := g2
      rw [bits_node, drain_eq, ATree.tree_kids, kids_node, List.length_map, ← k3]
      by_cases hc : p ≤ q ∧ q ≤ b.kids.length
      · simp only [if_pos hc]
        have hlen : (ks.take p).length = p := by rw [List.length_take]; omega
        have g2'' := g2'
        rw [← List.take_append_drop p ks] at g2''
        obtain ⟨o1, o2⟩ := prefix_ok g2''
        rw [hlen] at o1
        have hparts := parts_regs (b := b) (b' := resized b p) (ks := ks) (moved := []) (pre := ks.take p) (new := []) (lost := ks.drop p) rfl
          (by rw [List.append_nil, List.append_nil, List.take_append_drop]) (by simpa [regsAll] using g3)
        obtain ⟨mem2, q1, q2⟩ := g4 w.mem (.node (resized b p) (ks.take p)) [] FVec.Kept.refl o1 (by simp) hparts.1 (by simpa [regsAll] using hparts.2)
        have hst := q1 w rfl rfl
        simp only [bits_node] at hst
        simp only [resized] at hst
        rw [hst]
        obtain ⟨vs', hr⟩ := q2 { s with vals := s.vals.set v (some ((a.tree e.target).put path (.node b.id (b.kids.uninit.capacity e.target) ((ks.take p).map (ATree.tree e.target))))), leaked := s.leaked ++ idsAll ((ks.map (ATree.tree e.target)).drop p) }
          { w with mem := mem2, vals := w.vals.set v (some (a.put path (.node (resized b p) (ks.take p))).bits) }
          (by simp [ATree.tree, treeAll_eq, resized]) (by simp) rfl rfl rfl h.made h.log h.aborted
        refine ⟨_, vs', rfl, ?_⟩
        simp only [ATree.tree_id, ATree.tree_cap, bits_node, ← List.map_take]
        exact hr
      · simp only [if_neg hc]
        exact ⟨w, vs, rfl, h⟩
  | swap v path y =>
    simp only [exec, Spec.exec]
    rcases ref_onValue h v path _ _ with ⟨h1, h2⟩ | ⟨a, u, hv, hat, h1, h2⟩
    · exact ⟨w, vs, by rw [h1, h2], by rw [h1]; exact h⟩
    · rw [h1]
      have hvw : var (w.vals.set v none) y = (var (vs.set v none) y).map ATree.bits := by
        rw [h.wvals, ← var_map, List.map_set]; rfl
      have hvs : var (s.vals.set v none) y = (var (vs.set v none) y).map (ATree.tree e.target) := by
        rw [h.svals, ← var_map, List.map_set]; rfl
      rw [hvs]
      cases hy : var (vs.set v none) y with
      | none =>
        obtain ⟨place, g1, _⟩ := h.change hv hat hs
        rw [h2 place g1, hvw, hy]
        exact ⟨w, vs, rfl, h⟩
      | some m =>
        obtain ⟨hne, hym⟩ := var_set_none hy
        have hg : Good e.target L (e.base + s.level) w.mem (a :: ([m] ++ held ((vs.set v none).set y none))) :=
          h.good.perm ((held_var hv).trans (List.Perm.cons _ (held_var hy)))
        obtain ⟨place, g1, g2, g3, g4, g5⟩ := focus hs hg hat
        rw [h2 place (g1 w rfl), hvw, hy]
        have hperm : (u.regs ++ regsAll [m]).Perm (m.regs ++ regsAll [u]) := by
          simp only [regsAll, List.append_nil]
          exact List.perm_append_comm
        obtain ⟨mem2, q1, q2⟩ := g5 w.mem m [u] FVec.Kept.refl (g3 m (by simp)) (by simpa using g2) (pairwise_perm hperm g4)
          (fun R hR => ⟨R, hperm.mem_iff.mpr hR, Nat.le_refl _, Nat.le_refl _⟩)
        have hvv : var (w.vals.set y (some u.bits)) v = some a.bits := by
          have : var w.vals v = some a.bits := by rw [h.wvals, var_map, hv]; rfl
          unfold var at this ⊢
          rwa [List.getElem?_set_ne hne.symm]
        have hst := q1 { w with vals := w.vals.set y (some u.bits) } v rfl hvv
        simp only [Option.map_some, pure, hst]
        refine ⟨_, (vs.set v (some (a.put path m))).set y (some u), rfl, ?_⟩
        refine ⟨?_, ?_, h.level, h.made, h.log, h.aborted, h.le, ?_⟩
        · simp only [List.map_set, h.svals, Option.map_some, ATree.tree_put]
        · simp only [List.map_set, h.wvals, Option.map_some]
          rw [List.set_comm _ _ hne.symm]
        · refine q2.perm ?_
          have hyl : y < (vs.set v (some (a.put path m))).length := by rw [List.length_set]; exact var_lt hym
          refine List.Perm.trans ?_ (held_set hyl u).symm
          rw [List.set_comm _ _ hne, List.set_comm _ _ hne]
          have hvl : v < (vs.set y none).length := by rw [List.length_set]; exact var_lt hv
          refine List.Perm.trans ?_ (List.Perm.cons _ (held_set hvl _).symm)
          exact List.Perm.swap _ _ _
  | split v path n =>
    simp only [exec, Spec.exec]
    rcases ref_onValue h v path _ _ with ⟨h1, h2⟩ | ⟨a, u, hv, hat, h1, h2⟩
    · exact ⟨w, vs, by rw [h1, h2], by rw [h1]; exact h⟩
    · rw [h1]
      obtain ⟨place, g1, g2, g3, g4⟩ := h.change hv hat hs
      rw [h2 place g1]
      cases u with | node b ks =>
      have hsp := split_ok hs hL g2 g3 n w.made
      rw [ATree.tree_cap, ATree.tree_kids, kids_node, bits_node]
      by_cases hc : n ≤ b.kids.uninit.capacity e.target
      · rw [if_pos hc] at hsp
        obtain ⟨f, g, e1, e2, e3, e4, e5, e6, e7⟩ := hsp
        simp only [if_pos hc, e1]
        obtain ⟨mem2, q1, q2⟩ := g4 w.mem (.node ⟨b.id, f⟩ (ks.take n)) [.node ⟨w.made, g⟩ (ks.drop n)] FVec.Kept.refl e4 (by simpa using e5) e6 e7
        have hst := q1 w rfl rfl
        simp only [bits_node] at hst
        rw [hst]
        have hlen : w.vals.length = s.vals.length := by rw [h.wvals, h.svals, List.length_map, List.length_map]
        obtain ⟨vs', hr⟩ := q2 { s with vals := s.vals.set v (some ((a.tree e.target).put path (.node b.id n ((ks.take n).map (ATree.tree e.target))))) ++ [some (.node s.made (b.kids.uninit.capacity e.target - n) ((ks.drop n).map (ATree.tree e.target)))], made := s.made + 1 }
          { w with mem := mem2, vals := w.vals.set v (some (a.put path (.node ⟨b.id, f⟩ (ks.take n))).bits) ++ [some ⟨w.made, g⟩], made := w.made + 1 }
          (by simp [ATree.tree, treeAll_eq, e2, e3, h.made]) (by simp [ATree.bits]) rfl rfl rfl (by simp [h.made]) h.log h.aborted
        refine ⟨_, vs', by rw [hlen], ?_⟩
        simp only [ATree.tree_id, bits_node, ← List.map_take, ← List.map_drop]
        exact hr
      · rw [if_neg hc] at hsp
        simp only [if_neg hc, hsp]
        exact ⟨w, vs, rfl, h⟩
  | read v path =>
    simp only [exec, Spec.exec]
    rcases ref_onValue h v path _ _ with ⟨h1, h2⟩ | ⟨a, u, hv, hat, h1, h2⟩
    · exact ⟨w, vs, by rw [h1, h2], by rw [h1]; exact h⟩
    · obtain ⟨place, g1, _⟩ := h.change hv hat hs
      exact ⟨w, vs, by rw [h1, h2 place g1, ATree.tree_id]; rfl, by rw [h1]; exact h⟩
  | len v path =>
    simp only [exec, Spec.exec]
    rcases ref_onValue h v path _ _ with ⟨h1, h2⟩ | ⟨a, u, hv, hat, h1, h2⟩
    · exact ⟨w, vs, by rw [h1, h2], by rw [h1]; exact h⟩
    · obtain ⟨place, g1, g2, _⟩ := h.change hv hat hs
      cases u with | node b ks =>
      simp only [ATree.Ok] at g2
      exact ⟨w, vs, by rw [h1, h2 place g1, ATree.tree_kids]; simp [ATree.bits, ATree.kids, FixedVec.len, g2.2.2.1, pure], by rw [h1]; exact h⟩
  | capacity v path =>
    simp only [exec, Spec.exec]
    rcases ref_onValue h v path _ _ with ⟨h1, h2⟩ | ⟨a, u, hv, hat, h1, h2⟩
    · exact ⟨w, vs, by rw [h1, h2], by rw [h1]; exact h⟩
    · obtain ⟨place, g1, _⟩ := h.change hv hat hs
      exact ⟨w, vs, by rw [h1, h2 place g1, ATree.tree_cap]; rfl, by rw [h1]; exact h⟩
  | drop v =>
    simp only [exec, Spec.exec]
    rw [h.svals, h.wvals, var_map, var_map]
    cases hv : var vs v with
    | none => exact ⟨w, vs, rfl, h⟩
    | some a =>
      have hg := h.good.perm (held_var hv)
      have hids := ids_le h hi hv (path := []) (u := a) rfl
      have hd := dropNode_eq (panics := panics) a w.made hids (hg.ok a (by simp)) false w.log
      rw [h.log] at hd
      simp only [Option.map_some, World.dropOne, h.log, hd, bind, Outcome.bind, pure]
      refine ⟨_, vs.set v none, rfl, ?_⟩
      refine ⟨?_, ?_, h.level, h.made, rfl, rfl, h.le, ?_⟩
      · simp [List.map_set]
      · simp [List.map_set]
      · exact Good.right (as := [a]) hg
  | forget v =>
    simp only [exec, Spec.exec]
    rw [h.svals, h.wvals, var_map, var_map]
    cases hv : var vs v with
    | none => exact ⟨w, vs, rfl, h⟩
    | some a =>
      have hg := h.good.perm (held_var hv)
      refine ⟨_, vs.set v none, rfl, ?_, ?_, h.level, h.made, h.log, h.aborted, h.le, ?_⟩
      · simp [List.map_set]
      · simp [List.map_set]
      · exact Good.right (as := [a]) hg

theorem ref_run (he : e.Valid) (hL : L.ValidType e.target) (hs : 0 < L.size) (panics : Nat → Bool) (ops : List Op) (ho : ∀ op ∈ ops, op.Valid e.target)
    (h : Ref e L s w vs) (hi : SInv s) (ha : s.aborted = false) :
    ∃ w' vs', run e L panics w ops = .ret ((s.run e.slab L panics ops).1, w') ∧ Ref e L (s.run e.slab L panics ops).2 w' vs' := by
  induction ops generalizing s w vs with
  | nil => exact ⟨w, vs, rfl, h⟩
  | cons op ops ih =>
    obtain ⟨w1, vs1, h1, h2⟩ := ref_exec he hL hs h hi panics (ho op (by simp))
    have hs1 := hi.exec (slab := e.slab) (L := L) (panics := panics) ha op
    simp only [run, h1, bind, Outcome.bind, Spec.run, h2.aborted]
    cases hx : (s.exec e.slab L panics op).2.aborted with
    | true => exact ⟨w1, vs1, by simp [pure], by simpa using h2⟩
    | false =>
      obtain ⟨w2, vs2, h3, h4⟩ := ih (fun o hm => ho o (by simp [hm])) h2 hs1 hx
      exact ⟨w2, vs2, by simp [pure, h3], by simpa using h4⟩

end

theorem destroy_quiet {panics : Nat → Bool} (h : ∀ i, panics i = false) (log ids : List Nat) : destroy panics false log ids = (.ok, log ++ ids) := by
  induction ids generalizing log with
  | nil => simp [destroy]
  | cons i ids ih => simp [destroy, h, ih]

theorem dropEach_quiet {panics : Nat → Bool} (h : ∀ i, panics i = false) (log : List Nat) (ts : List Tree) : (dropEach panics log ts).1 = .ok := by
  induction ts generalizing log with
  | nil => rfl
  | cons t ts ih => simp [dropEach, destroy_quiet h, ih]

/-- What is lost was forgotten by the program, or follows a panic in a drain. -/
theorem leaked_exec {slab : Slab} {L : Layout} {panics : Nat → Bool} {s : Spec} {op : Op} (h : op.forgets = false) (hd : (∀ i, panics i = false) ∨ op.drains = false) : (s.exec slab L panics op).2.leaked = s.leaked := by
  cases op <;> simp only [Spec.exec, Spec.onValue]
  case forget => simp [Op.forgets] at h
  case drainForget => simp [Op.forgets] at h
  case drain v path a b front back =>
    have hq : ∀ i, panics i = false := by
      rcases hd with hd | hd
      · exact hd
      · simp [Op.drains] at hd
    cases var s.vals v with
    | none => rfl
    | some t =>
      simp only
      cases t.at path with
      | none => rfl
      | some u =>
        simp only
        split
        · simp [dropEach_quiet hq]
        · rfl
  all_goals repeat' split
  all_goals rfl

theorem leaked_run {slab : Slab} {L : Layout} {panics : Nat → Bool} (ops : List Op) {s : Spec} (h : ∀ op ∈ ops, op.forgets = false) (hd : (∀ i, panics i = false) ∨ ∀ op ∈ ops, op.drains = false) :
    (s.run slab L panics ops).2.leaked = s.leaked := by
  induction ops generalizing s with
  | nil => rfl
  | cons op ops ih =>
    have h1 := leaked_exec (slab := slab) (L := L) (panics := panics) (s := s) (op := op) (h op (by simp)) (hd.imp_right fun f => f op (by simp))
    have h2 := ih (s := (s.exec slab L panics op).2) (fun o ho => h o (by simp [ho])) (hd.imp_right fun f o ho => f o (by simp [ho]))
    simp only [Spec.run]
    cases hx : (s.exec slab L panics op).2.aborted with
    | true => simpa using h1
    | false => simpa using h2.trans h1

end Verif.Nested
