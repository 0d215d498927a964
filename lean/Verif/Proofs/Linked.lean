import Verif.Model.Linked
import Verif.Proofs.BumpGlobal
import Mathlib.Data.List.Nodup
/-!
# Proofs for structures linked by boxes

Every tree of the specification is laid out in memory: `ATree` is a tree with addresses.
-/
set_option autoImplicit false
namespace Verif.Linked
open Verif

/-! ## Variables -/

/-- Everything that `f` finds in the variables. -/
def all {α β : Type} (f : α → List β) (xs : List (Option α)) : List β := xs.flatMap (fun o => o.elim [] f)

section Vars
variable {α β : Type} {f : α → List β}

theorem all_append (xs ys : List (Option α)) : all f (xs ++ ys) = all f xs ++ all f ys := by
  simp [all]
theorem all_single (x : α) : all f [some x] = f x := by simp [all]

theorem all_set {xs : List (Option α)} {i : Nat} (h : i < xs.length) (o : Option α) :
    (all f (xs.set i o)).Perm (o.elim [] f ++ all f (xs.set i none)) := by
  induction xs generalizing i with
  | nil => simp at h
  | cons x xs ih => cases i with
    | zero => simp [all]
    | succ i =>
      have := ih (i := i) (by simpa using h)
      simp only [List.set_cons_succ, all, List.flatMap_cons] at this ⊢
      refine (List.Perm.append_left _ this).trans ?_
      rw [← List.append_assoc, ← List.append_assoc]
      exact List.perm_append_comm.append_right _

theorem var_lt {xs : List (Option α)} {i : Nat} {x : α} (h : var xs i = some x) : i < xs.length := by
  unfold var at h
  cases hx : xs[i]? with
  | none => rw [hx] at h; cases h
  | some y => exact (List.getElem?_eq_some_iff.mp hx).1

theorem set_var {xs : List (Option α)} {i : Nat} {x : α} (h : var xs i = some x) : xs.set i (some x) = xs := by
  unfold var at h
  cases hx : xs[i]? with
  | none => rw [hx] at h; cases h
  | some y =>
    rw [hx] at h
    have h : y = some x := h
    subst h
    obtain ⟨hl, he⟩ := List.getElem?_eq_some_iff.mp hx
    rw [← he]; exact List.set_getElem_self hl

theorem all_var {xs : List (Option α)} {i : Nat} {x : α} (h : var xs i = some x) :
    (all f xs).Perm (f x ++ all f (xs.set i none)) := by
  have := all_set (f := f) (var_lt h) (some x)
  rwa [set_var h] at this

theorem var_set_none {xs : List (Option α)} {i j : Nat} {x : α} (h : var (xs.set i none) j = some x) :
    i ≠ j ∧ var xs j = some x := by
  unfold var at h ⊢
  rw [List.getElem?_set] at h
  by_cases hij : i = j
  · subst hij
    by_cases hl : i < xs.length <;> simp [hl] at h
  · rw [if_neg hij] at h; exact ⟨hij, h⟩

theorem var_map {γ : Type} (g : α → γ) (xs : List (Option α)) (i : Nat) :
    var (xs.map (Option.map g)) i = (var xs i).map g := by
  unfold var
  rw [List.getElem?_map]
  cases xs[i]? with
  | none => rfl
  | some o => rfl

theorem set_map {γ : Type} (g : α → γ) (xs : List (Option α)) (i : Nat) (o : Option α) :
    (xs.map (Option.map g)).set i (o.map g) = (xs.set i o).map (Option.map g) := by
  rw [List.map_set]
end Vars

theorem eraseIdx_map' {α γ : Type} (g : α → γ) (xs : List α) (i : Nat) : (xs.map g).eraseIdx i = (xs.eraseIdx i).map g := by
  induction xs generalizing i with
  | nil => rfl
  | cons x xs ih => cases i <;> simp [ih]

/-! ## Destructors -/

theorem destroy_append (panics : Nat → Bool) (u : Bool) (log xs ys : List Nat) :
    destroy panics u log (xs ++ ys) = match destroy panics u log xs with
      | (.aborted, l) => (.aborted, l)
      | (.unwound, l) => destroy panics true l ys
      | (.ok, l) => destroy panics false l ys := by
  induction xs generalizing u log with
  | nil => cases u <;> simp [destroy]
  | cons x xs ih =>
    simp only [List.cons_append, destroy]
    by_cases hp : panics x
    · cases u <;> simp [hp, ih]
    · simp [hp, ih]

/-- The destructors that are run are the first ones of the list, all of them unless the program is aborted. -/
theorem destroy_log (panics : Nat → Bool) (u : Bool) (log xs : List Nat) :
    ∃ pre rest, xs = pre ++ rest ∧ (destroy panics u log xs).2 = log ++ pre ∧ ((destroy panics u log xs).1 ≠ .aborted → rest = []) := by
  induction xs generalizing u log with
  | nil => exact ⟨[], [], rfl, by simp [destroy], fun _ => rfl⟩
  | cons x xs ih =>
    simp only [destroy]
    by_cases hp : panics x
    · cases u
      · obtain ⟨pre, rest, h1, h2, h3⟩ := ih true (log ++ [x])
        refine ⟨x :: pre, rest, by simp [h1], ?_, ?_⟩
        · simpa [hp] using h2
        · simpa [hp] using h3
      · exact ⟨[x], xs, rfl, by simp [hp], by simp [hp]⟩
    · obtain ⟨pre, rest, h1, h2, h3⟩ := ih u (log ++ [x])
      refine ⟨x :: pre, rest, by simp [h1], ?_, ?_⟩
      · simpa [hp] using h2
      · simpa [hp] using h3

/-! ## Every value is destroyed, kept or forgotten, exactly once -/

theorem idsAll_append (xs ys : List Tree) : idsAll (xs ++ ys) = idsAll xs ++ idsAll ys := by
  induction xs with
  | nil => rfl
  | cons x xs ih => simp [idsAll, ih]

theorem idsAll_filterMap (xs : List (Option Tree)) : idsAll (xs.filterMap id) = all Tree.ids xs := by
  induction xs with
  | nil => rfl
  | cons x xs ih => cases x <;> simp_all [all, idsAll]

theorem Tree.ids_eq (t : Tree) : t.ids = t.id :: idsAll t.kids := by
  cases t; simp [Tree.ids, Tree.id, Tree.kids]

theorem idsAll_slot {ts : List Tree} {i : Nat} {k : Tree} (h : ts[i]? = some k) :
    (idsAll ts).Perm (k.ids ++ idsAll (ts.eraseIdx i)) ∧ ∀ k' : Tree, (idsAll (ts.set i k')).Perm (k'.ids ++ idsAll (ts.eraseIdx i)) := by
  induction ts generalizing i with
  | nil => simp at h
  | cons t ts ih => cases i with
    | zero =>
      simp only [List.getElem?_cons_zero, Option.some.injEq] at h
      subst h
      simp [idsAll]
    | succ i =>
      obtain ⟨h1, h2⟩ := ih (i := i) (by simpa using h)
      simp only [List.set_cons_succ, List.eraseIdx_cons_succ, idsAll]
      constructor
      · refine (List.Perm.append_left _ h1).trans ?_
        rw [← List.append_assoc, ← List.append_assoc]
        exact List.perm_append_comm.append_right _
      · intro k'
        refine (List.Perm.append_left _ (h2 k')).trans ?_
        rw [← List.append_assoc, ← List.append_assoc]
        exact List.perm_append_comm.append_right _

theorem Tree.ids_path {t u : Tree} {path : List Nat} (h : t.at path = some u) :
    ∃ rest, t.ids.Perm (u.ids ++ rest) ∧ ∀ v : Tree, (t.put path v).ids.Perm (v.ids ++ rest) := by
  induction path generalizing t with
  | nil =>
    cases t with | node id kids =>
    simp only [Tree.at, Option.some.injEq] at h
    subst h
    exact ⟨[], by simp, fun v => by simp [Tree.put]⟩
  | cons i path ih =>
    cases t with | node id kids =>
    simp only [Tree.at] at h
    cases hk : kids[i]? with
    | none => rw [hk] at h; cases h
    | some k =>
      rw [hk] at h
      obtain ⟨rest, h1, h2⟩ := ih h
      obtain ⟨s1, s2⟩ := idsAll_slot hk
      refine ⟨id :: rest ++ idsAll (kids.eraseIdx i), ?_, ?_⟩
      · simp only [Tree.ids]
        refine ((s1.trans (h1.append_right _)).cons id).trans ?_
        simp only [List.append_assoc, List.cons_append]
        exact List.perm_middle.symm
      · intro v
        simp only [Tree.put, hk, Tree.ids]
        refine (((s2 _).trans ((h2 v).append_right _)).cons id).trans ?_
        simp only [List.append_assoc, List.cons_append]
        exact List.perm_middle.symm

/-- The values made are the ones held, destroyed, forgotten or (after an abort) lost. -/
def SInv (s : Spec) : Prop :=
  ∃ lost, (all Tree.ids s.vals ++ all Tree.ids s.boxes ++ s.log ++ s.leaked ++ lost).Perm (List.range s.made) ∧ (s.aborted = false → lost = [])

theorem SInv.init (l : Nat) : SInv (Spec.init l) := ⟨[], by simp [Spec.init, all], fun _ => rfl⟩

theorem perm_count {xs ys : List Nat} : xs.Perm ys ↔ ∀ a, xs.count a = ys.count a := List.perm_iff_count

theorem SInv.drop {panics : Nat → Bool} {s : Spec} {t : Tree} {done : Resp}
    (h : (all Tree.ids s.vals ++ all Tree.ids s.boxes ++ s.log ++ s.leaked ++ t.ids).Perm (List.range s.made)) :
    SInv (s.drop panics t done).2 := by
  obtain ⟨pre, rest, h1, h2, h3⟩ := destroy_log panics false s.log t.ids
  refine ⟨rest, ?_, ?_⟩
  · simp only [Spec.drop, h2]
    rw [h1] at h
    rw [perm_count] at h ⊢
    intro a
    have := h a
    simp only [List.count_append] at this ⊢
    omega
  · intro hn
    simp only [Spec.drop, decide_eq_false_iff_not] at hn
    exact h3 hn

theorem SInv.exec {slab : Slab} {panics : Nat → Bool} {s : Spec} (h : SInv s) (ha : s.aborted = false) (op : Op) :
    SInv (s.exec slab panics op).2 := by
  have h0 := h
  obtain ⟨lost, h, hl⟩ := h
  have hl := hl ha
  subst hl
  rw [List.append_nil, perm_count] at h
  cases op with
  | make =>
    refine ⟨[], ?_, fun _ => rfl⟩
    simp only [Spec.exec, all_append, all_single, Tree.ids, idsAll, List.append_nil, List.range_succ]
    rw [perm_count]
    intro a
    have := h a
    simp only [List.count_append] at this ⊢
    omega
  | alloc L =>
    simp only [Spec.exec]
    cases slab.place L s.level with
    | none => exact h0
    | some a => exact h0
  | leakBox v L =>
    simp only [Spec.exec]
    cases hv : var s.vals v with
    | none => exact h0
    | some t =>
      have hp := perm_count.mp (all_var (f := Tree.ids) hv)
      simp only
      cases slab.place L s.level with
      | none =>
        simp only
        refine SInv.drop ?_
        rw [perm_count]
        intro a
        have := h a; have := hp a
        simp only [List.count_append] at *
        omega
      | some p =>
        refine ⟨[], ?_, fun _ => rfl⟩
        simp only [all_append, all_single, List.append_nil]
        rw [perm_count]
        intro a
        have := h a; have := hp a
        simp only [List.count_append] at *
        omega
  | attach v b =>
    simp only [Spec.exec]
    cases hv : var s.vals v with
    | none => exact h0
    | some t =>
      cases hb : var s.boxes b with
      | none => exact h0
      | some k =>
        have hp := perm_count.mp (all_var (f := Tree.ids) hv)
        have hq := perm_count.mp (all_var (f := Tree.ids) hb)
        have hs := perm_count.mp (all_set (f := Tree.ids) (var_lt hv) (some (.node t.id (t.kids ++ [k]))))
        refine ⟨[], ?_, fun _ => rfl⟩
        simp only [List.append_nil]
        rw [perm_count]
        intro a
        have h1 := h a; have h2 := hp a; have h3 := hq a; have h4 := hs a
        cases t with | node id kids =>
        simp only [Option.elim_some, Tree.id, Tree.kids, Tree.ids, idsAll_append, idsAll, List.append_nil, List.count_append, List.count_cons] at h1 h2 h3 h4 ⊢
        omega
  | unpack v i =>
    simp only [Spec.exec]
    cases hv : var s.vals v with
    | none => exact h0
    | some t =>
      simp only
      cases hk : t.kids[i]? with
      | none => exact h0
      | some k =>
        have hp := perm_count.mp (all_var (f := Tree.ids) hv)
        have hq := perm_count.mp (idsAll_slot hk).1
        have hs := perm_count.mp (all_set (f := Tree.ids) (var_lt hv) (some (.node t.id (t.kids.eraseIdx i))))
        refine ⟨[], ?_, fun _ => rfl⟩
        simp only [List.append_nil, all_append, all_single]
        rw [perm_count]
        intro a
        have h1 := h a; have h2 := hp a; have h3 := hq a; have h4 := hs a
        cases t with | node id kids =>
        simp only [Option.elim_some, Tree.id, Tree.kids, Tree.ids, List.count_append, List.count_cons] at h1 h2 h3 h4 ⊢
        omega
  | push b path k =>
    simp only [Spec.exec]
    cases hb : var s.boxes b with
    | none => exact h0
    | some t =>
      simp only
      cases hu : t.at path with
      | none => exact h0
      | some u =>
        cases hk : var (s.boxes.set b none) k with
        | none => exact h0
        | some t' =>
          obtain ⟨hne, hk'⟩ := var_set_none hk
          obtain ⟨rest, r1, r2⟩ := Tree.ids_path hu
          have hp := perm_count.mp (all_var (f := Tree.ids) hb)
          have hq := perm_count.mp (all_var (f := Tree.ids) hk)
          have hs := perm_count.mp (all_set (f := Tree.ids) (xs := s.boxes.set k none) (i := b) (by simpa using var_lt hb) (some (t.put path (.node u.id (u.kids ++ [t'])))))
          have r1 := perm_count.mp r1
          have r2 := perm_count.mp (r2 (.node u.id (u.kids ++ [t'])))
          refine ⟨[], ?_, fun _ => rfl⟩
          simp only [List.append_nil]
          rw [perm_count]
          intro a
          have h1 := h a; have h2 := hp a; have h3 := hq a; have h4 := hs a; have h5 := r1 a; have h6 := r2 a
          rw [List.set_comm _ _ hne.symm] at h4
          rw [List.set_comm _ _ hne.symm] at h4
          rw [Tree.ids_eq u] at h5
          simp only [Option.elim_some, Tree.ids, idsAll_append, idsAll, List.append_nil, List.count_append, List.count_cons] at h1 h2 h3 h4 h5 h6 ⊢
          omega
  | detach b path i =>
    simp only [Spec.exec]
    cases hb : var s.boxes b with
    | none => exact h0
    | some t =>
      simp only
      cases hu : t.at path with
      | none => exact h0
      | some u =>
        simp only
        cases hk : u.kids[i]? with
        | none => exact h0
        | some k =>
          obtain ⟨rest, r1, r2⟩ := Tree.ids_path hu
          have hp := perm_count.mp (all_var (f := Tree.ids) hb)
          have hq := perm_count.mp (idsAll_slot hk).1
          have hs := perm_count.mp (all_set (f := Tree.ids) (var_lt hb) (some (t.put path (.node u.id (u.kids.eraseIdx i)))))
          have r1 := perm_count.mp r1
          have r2 := perm_count.mp (r2 (.node u.id (u.kids.eraseIdx i)))
          refine ⟨[], ?_, fun _ => rfl⟩
          simp only [List.append_nil, all_append, all_single]
          rw [perm_count]
          intro a
          have h1 := h a; have h2 := hp a; have h3 := hq a; have h4 := hs a; have h5 := r1 a; have h6 := r2 a
          rw [Tree.ids_eq u] at h5
          simp only [Option.elim_some, Tree.ids, List.count_append, List.count_cons] at h1 h2 h3 h4 h5 h6 ⊢
          omega
  | replace b path v =>
    simp only [Spec.exec]
    cases hb : var s.boxes b with
    | none => exact h0
    | some t =>
      simp only
      cases hu : t.at path with
      | none => exact h0
      | some u =>
        cases hv : var s.vals v with
        | none => exact h0
        | some t' =>
          obtain ⟨rest, r1, r2⟩ := Tree.ids_path hu
          have hp := perm_count.mp (all_var (f := Tree.ids) hb)
          have hq := perm_count.mp (all_var (f := Tree.ids) hv)
          have hs := perm_count.mp (all_set (f := Tree.ids) (var_lt hb) (some (t.put path t')))
          have ht := perm_count.mp (all_set (f := Tree.ids) (var_lt hv) (some u))
          have r1 := perm_count.mp r1
          have r2 := perm_count.mp (r2 t')
          refine ⟨[], ?_, fun _ => rfl⟩
          simp only [List.append_nil]
          rw [perm_count]
          intro a
          have h1 := h a; have h2 := hp a; have h3 := hq a; have h4 := hs a; have h5 := r1 a; have h6 := r2 a; have h7 := ht a
          simp only [Option.elim_some, List.count_append] at h1 h2 h3 h4 h5 h6 h7 ⊢
          omega
  | read b path =>
    simp only [Spec.exec]
    cases var s.boxes b with
    | none => exact h0
    | some t =>
      simp only
      cases t.at path <;> exact h0
  | take b =>
    simp only [Spec.exec]
    cases hb : var s.boxes b with
    | none => exact h0
    | some t =>
      have hp := perm_count.mp (all_var (f := Tree.ids) hb)
      refine ⟨[], ?_, fun _ => rfl⟩
      simp only [all_append, all_single, List.append_nil]
      rw [perm_count]
      intro a
      have := h a; have := hp a
      simp only [List.count_append] at *
      omega
  | dropBox b =>
    simp only [Spec.exec]
    cases hb : var s.boxes b with
    | none => exact h0
    | some t =>
      have hp := perm_count.mp (all_var (f := Tree.ids) hb)
      simp only
      refine SInv.drop ?_
      rw [perm_count]
      intro a
      have := h a; have := hp a
      simp only [List.count_append] at *
      omega
  | dropVal v =>
    simp only [Spec.exec]
    cases hb : var s.vals v with
    | none => exact h0
    | some t =>
      have hp := perm_count.mp (all_var (f := Tree.ids) hb)
      simp only
      refine SInv.drop ?_
      rw [perm_count]
      intro a
      have := h a; have := hp a
      simp only [List.count_append] at *
      omega
  | forget b =>
    simp only [Spec.exec]
    cases hb : var s.boxes b with
    | none => exact h0
    | some t =>
      have hp := perm_count.mp (all_var (f := Tree.ids) hb)
      refine ⟨[], ?_, fun _ => rfl⟩
      simp only [List.append_nil]
      rw [perm_count]
      intro a
      have := h a; have := hp a
      simp only [List.count_append] at *
      omega

theorem SInv.run {slab : Slab} {panics : Nat → Bool} (ops : List Op) {s : Spec} (h : SInv s) (ha : s.aborted = false) :
    SInv (s.run slab panics ops).2 := by
  induction ops generalizing s with
  | nil => exact h
  | cons op ops ih =>
    have h1 := h.exec (slab := slab) (panics := panics) ha op
    simp only [Spec.run]
    cases hx : (s.exec slab panics op).2.aborted with
    | true => simpa [hx] using h1
    | false => simpa [hx] using ih h1 hx

/-! ## Trees in memory -/

inductive ATree where
  | node (addr id : Nat) (kids : List ATree)

def ATree.addr : ATree → Nat | .node a _ _ => a
def ATree.id : ATree → Nat | .node _ i _ => i
def ATree.kids : ATree → List ATree | .node _ _ ks => ks

mutual
def ATree.erase : ATree → Tree
  | .node _ id ks => .node id (eraseAll ks)
def eraseAll : List ATree → List Tree
  | [] => []
  | t :: ts => t.erase :: eraseAll ts
end

mutual
/-- What is in memory. -/
def ATree.cells : ATree → List (Nat × Node)
  | .node a id ks => (a, ⟨id, ks.map ATree.addr⟩) :: cellsAll ks
def cellsAll : List ATree → List (Nat × Node)
  | [] => []
  | t :: ts => t.cells ++ cellsAll ts
end

def ATree.at : ATree → List Nat → Option ATree
  | t, [] => some t
  | .node _ _ kids, i :: path => match kids[i]? with | some k => k.at path | none => none
/-- A value in a variable, and its boxes. -/
abbrev AVal := Nat × List ATree
def AVal.spec (v : AVal) : Tree := .node v.1 (v.2.map ATree.erase)
def AVal.node (v : AVal) : Node := ⟨v.1, v.2.map ATree.addr⟩

def ATree.put : ATree → List Nat → AVal → ATree
  | .node a _ _, [], v => .node a v.1 v.2
  | .node a id kids, i :: path, v => match kids[i]? with | some k => .node a id (kids.set i (k.put path v)) | none => .node a id kids

theorem eraseAll_eq (ts : List ATree) : eraseAll ts = ts.map ATree.erase := by
  induction ts with
  | nil => rfl
  | cons t ts ih => simp [eraseAll, ih]

theorem cellsAll_append (xs ys : List ATree) : cellsAll (xs ++ ys) = cellsAll xs ++ cellsAll ys := by
  induction xs with
  | nil => rfl
  | cons x xs ih => simp [cellsAll, ih]

theorem ATree.erase_id (t : ATree) : t.erase.id = t.id := by cases t; simp [ATree.erase, Tree.id, ATree.id]
theorem ATree.erase_kids (t : ATree) : t.erase.kids = t.kids.map ATree.erase := by
  cases t; simp [ATree.erase, Tree.kids, ATree.kids, eraseAll_eq]
theorem ATree.cells_eq (t : ATree) : t.cells = (t.addr, ⟨t.id, t.kids.map ATree.addr⟩) :: cellsAll t.kids := by
  cases t; simp [ATree.cells, ATree.addr, ATree.id, ATree.kids]

theorem ATree.erase_at (t : ATree) (path : List Nat) : t.erase.at path = (t.at path).map ATree.erase := by
  induction path generalizing t with
  | nil => simp [Tree.at, ATree.at]
  | cons i path ih =>
    cases t with | node a id kids =>
    simp only [ATree.erase, Tree.at, ATree.at, eraseAll_eq, List.getElem?_map]
    cases kids[i]? with
    | none => rfl
    | some k => exact ih k

theorem ATree.erase_put (t : ATree) (path : List Nat) (v : AVal) :
    (t.put path v).erase = t.erase.put path v.spec := by
  induction path generalizing t with
  | nil => cases t; simp [ATree.put, ATree.erase, Tree.put, AVal.spec, eraseAll_eq]
  | cons i path ih =>
    cases t with | node a id kids =>
    simp only [ATree.erase, Tree.put, ATree.put, eraseAll_eq, List.getElem?_map]
    cases hk : kids[i]? with
    | none => simp [ATree.erase, eraseAll_eq]
    | some k => simp [ATree.erase, eraseAll_eq, List.map_set, ih]

theorem ATree.addr_put (t : ATree) (path : List Nat) (v : AVal) : (t.put path v).addr = t.addr := by
  cases t with | node a id kids =>
  cases path with
  | nil => rfl
  | cons i path =>
    simp only [ATree.put]
    cases kids[i]? <;> rfl

theorem map_addr_set {kids : List ATree} {i : Nat} {k k' : ATree} (hk : kids[i]? = some k) (h : k'.addr = k.addr) :
    (kids.set i k').map ATree.addr = kids.map ATree.addr := by
  obtain ⟨hl, he⟩ := List.getElem?_eq_some_iff.mp hk
  rw [List.map_set, h, ← he]
  have : kids[i].addr = (kids.map ATree.addr)[i]'(by simpa using hl) := by simp
  rw [this]; exact List.set_getElem_self _

theorem cellsAll_slot {ts : List ATree} {i : Nat} {k : ATree} (h : ts[i]? = some k) :
    (cellsAll ts).Perm (k.cells ++ cellsAll (ts.eraseIdx i)) ∧ ∀ k' : ATree, (cellsAll (ts.set i k')).Perm (k'.cells ++ cellsAll (ts.eraseIdx i)) := by
  induction ts generalizing i with
  | nil => simp at h
  | cons t ts ih => cases i with
    | zero =>
      simp only [List.getElem?_cons_zero, Option.some.injEq] at h
      subst h
      simp [cellsAll]
    | succ i =>
      obtain ⟨h1, h2⟩ := ih (i := i) (by simpa using h)
      simp only [List.set_cons_succ, List.eraseIdx_cons_succ, cellsAll]
      constructor
      · refine (List.Perm.append_left _ h1).trans ?_
        rw [← List.append_assoc, ← List.append_assoc]
        exact List.perm_append_comm.append_right _
      · intro k'
        refine (List.Perm.append_left _ (h2 k')).trans ?_
        rw [← List.append_assoc, ← List.append_assoc]
        exact List.perm_append_comm.append_right _

theorem ATree.cells_path {t u : ATree} {path : List Nat} (h : t.at path = some u) :
    ∃ rest, t.cells.Perm (u.cells ++ rest) ∧
      ∀ v : AVal, (t.put path v).cells.Perm ((u.addr, v.node) :: cellsAll v.2 ++ rest) := by
  induction path generalizing t with
  | nil =>
    cases t with | node a id kids =>
    simp only [ATree.at, Option.some.injEq] at h
    subst h
    exact ⟨[], by simp, fun v => by simp [ATree.put, ATree.cells, ATree.addr, AVal.node]⟩
  | cons i path ih =>
    cases t with | node a id kids =>
    simp only [ATree.at] at h
    cases hk : kids[i]? with
    | none => rw [hk] at h; cases h
    | some k =>
      rw [hk] at h
      obtain ⟨rest, h1, h2⟩ := ih h
      obtain ⟨s1, s2⟩ := cellsAll_slot hk
      refine ⟨(a, ⟨id, kids.map ATree.addr⟩) :: rest ++ cellsAll (kids.eraseIdx i), ?_, ?_⟩
      · simp only [ATree.cells]
        refine ((s1.trans (h1.append_right _)).cons _).trans ?_
        simp only [List.append_assoc, List.cons_append]
        exact List.perm_middle.symm
      · intro v
        simp only [ATree.put, hk, ATree.cells]
        rw [map_addr_set hk (ATree.addr_put k path v)]
        refine (((s2 _).trans ((h2 v).append_right _)).cons _).trans ?_
        simp only [List.append_assoc, List.cons_append]
        refine (List.Perm.swap _ _ _).trans (List.Perm.cons _ ?_)
        exact List.perm_middle.symm

/-! ## Memory with these cells -/

/-- Memory below the bound has the cells, at distinct addresses. -/
structure Good (mem : Nat → Option Node) (bound : Nat) (cells : List (Nat × Node)) : Prop where
  nodup : (cells.map Prod.fst).Nodup
  mem : ∀ c ∈ cells, mem c.1 = some c.2
  lt : ∀ c ∈ cells, c.1 < bound

theorem Good.perm {mem bound} {c d : List (Nat × Node)} (h : Good mem bound c) (hp : c.Perm d) : Good mem bound d :=
  ⟨(hp.map Prod.fst).nodup_iff.mp h.nodup, fun x hx => h.mem x (hp.mem_iff.mpr hx), fun x hx => h.lt x (hp.mem_iff.mpr hx)⟩

theorem Good.perm' {mem mem' bound} {c d : List (Nat × Node)} (h : Good mem bound c) (he : mem' = mem) (hp : c.Perm d) : Good mem' bound d := by
  subst he; exact h.perm hp

theorem Good.right {mem bound} {c d : List (Nat × Node)} (h : Good mem bound (c ++ d)) : Good mem bound d :=
  ⟨by have := h.nodup; rw [List.map_append, List.nodup_append] at this; exact this.2.1,
   fun x hx => h.mem x (List.mem_append_right _ hx), fun x hx => h.lt x (List.mem_append_right _ hx)⟩

theorem Good.left {mem bound} {c d : List (Nat × Node)} (h : Good mem bound (c ++ d)) : Good mem bound c :=
  (h.perm List.perm_append_comm).right

theorem Good.mono {mem b b'} {c : List (Nat × Node)} (h : Good mem b c) (hb : b ≤ b') : Good mem b' c :=
  ⟨h.nodup, h.mem, fun x hx => Nat.lt_of_lt_of_le (h.lt x hx) hb⟩

theorem Good.rewrite {mem bound q n n'} {c : List (Nat × Node)} (h : Good mem bound ((q, n) :: c)) :
    Good (fun x => if x = q then some n' else mem x) bound ((q, n') :: c) := by
  have hn : q ∉ c.map Prod.fst := by have := h.nodup; simp only [List.map_cons, List.nodup_cons] at this; exact this.1
  refine ⟨by simpa using h.nodup, ?_, ?_⟩
  · intro x hx
    rcases List.mem_cons.mp hx with rfl | hx
    · simp
    · have : x.1 ≠ q := fun e => hn (e ▸ List.mem_map_of_mem hx)
      simp only [this, if_false]
      exact h.mem x (List.mem_cons_of_mem _ hx)
  · intro x hx
    rcases List.mem_cons.mp hx with rfl | hx
    · exact h.lt (q, n) (by simp)
    · exact h.lt x (List.mem_cons_of_mem _ hx)

theorem Good.fresh {mem bound bound' q n} {c : List (Nat × Node)} (h : Good mem bound c) (h1 : bound ≤ q) (h2 : q < bound') :
    Good (fun x => if x = q then some n else mem x) bound' ((q, n) :: c) := by
  have hne : ∀ x ∈ c, x.1 ≠ q := fun x hx => by have := h.lt x hx; omega
  refine ⟨?_, ?_, ?_⟩
  · simp only [List.map_cons, List.nodup_cons]
    refine ⟨fun hm => ?_, h.nodup⟩
    obtain ⟨x, hx, he⟩ := List.mem_map.mp hm
    exact hne x hx he
  · intro x hx
    rcases List.mem_cons.mp hx with rfl | hx
    · simp
    · simp only [hne x hx, if_false]; exact h.mem x hx
  · intro x hx
    rcases List.mem_cons.mp hx with rfl | hx
    · exact h2
    · have := h.lt x hx; omega

/-! ## The destructors reach every value of the tree, in order -/

theorem dropFields_nil (d : Bool → List Nat → Nat → Outcome (Ended × List Nat)) (u : Bool) (log : List Nat) :
    dropFields d u log [] = .ret (if u then .unwound else .ok, log) := rfl

theorem dropNode_spec {panics : Nat → Bool} {d : Bool → List Nat → Nat → Outcome (Ended × List Nat)} {n : Node} {ids : List Nat}
    (h : ∀ u log, dropFields d u log n.fields = .ret (destroy panics u log ids)) (u : Bool) (log : List Nat) :
    dropNode panics d u log n = .ret (destroy panics u log (n.id :: ids)) := by
  unfold dropNode
  simp only [destroy]
  by_cases hp : panics n.id
  · cases u <;> simp [hp, h]
  · simp [hp, h]

mutual
theorem dropBox_spec {panics : Nat → Bool} {mem : Nat → Option Node} : (t : ATree) → (fuel : Nat) → t.erase.ids.length ≤ fuel →
    (∀ c ∈ t.cells, mem c.1 = some c.2) → (u : Bool) → (log : List Nat) →
    dropBox panics mem fuel u log t.addr = .ret (destroy panics u log t.erase.ids)
  | .node a id ks, 0, hf, _, _, _ => by simp [ATree.erase, Tree.ids] at hf
  | .node a id ks, fuel + 1, hf, hm, u, log => by
    simp only [ATree.erase, Tree.ids, List.length_cons, Nat.add_le_add_iff_right] at hf
    simp only [ATree.cells] at hm
    have h0 := hm (a, ⟨id, ks.map ATree.addr⟩) (by simp)
    simp only at h0
    simp only [dropBox, ATree.addr, h0, ATree.erase, Tree.ids]
    exact dropNode_spec (fun u log => dropFields_spec ks fuel hf (fun c hc => hm c (List.mem_cons_of_mem _ hc)) u log) u log
theorem dropFields_spec {panics : Nat → Bool} {mem : Nat → Option Node} : (ts : List ATree) → (fuel : Nat) → (idsAll (eraseAll ts)).length ≤ fuel →
    (∀ c ∈ cellsAll ts, mem c.1 = some c.2) → (u : Bool) → (log : List Nat) →
    dropFields (dropBox panics mem fuel) u log (ts.map ATree.addr) = .ret (destroy panics u log (idsAll (eraseAll ts)))
  | [], _, _, _, u, log => by simp [dropFields, eraseAll, idsAll, destroy]
  | t :: ts, fuel, hf, hm, u, log => by
    simp only [eraseAll, idsAll, List.length_append] at hf
    simp only [cellsAll] at hm
    have h1 := dropBox_spec (panics := panics) (mem := mem) t fuel (by omega) (fun c hc => hm c (List.mem_append_left _ hc)) u log
    have h2 := dropFields_spec (panics := panics) (mem := mem) ts fuel (by omega) (fun c hc => hm c (List.mem_append_right _ hc))
    simp only [List.map_cons, dropFields, h1, eraseAll, idsAll, destroy_append]
    rcases destroy panics u log t.erase.ids with ⟨r, l⟩
    cases r
    · exact h2 false l
    · exact h2 true l
    · rfl
end

theorem walk_spec {w : World} {path : List Nat} {t : ATree} (hm : ∀ c ∈ t.cells, w.mem c.1 = some c.2) :
    w.walk t.addr path = .ret ((t.at path).map ATree.addr) := by
  induction path generalizing t with
  | nil => simp [World.walk, ATree.at]
  | cons i path ih =>
    cases t with | node a id kids =>
    simp only [ATree.cells] at hm
    have h0 := hm (a, ⟨id, kids.map ATree.addr⟩) (by simp)
    simp only at h0
    simp only [World.walk, ATree.addr, World.readAt, h0, bind, Outcome.bind, ATree.at, List.getElem?_map]
    cases hk : kids[i]? with
    | none => rfl
    | some k =>
      refine ih (fun c hc => hm c (List.mem_cons_of_mem _ ?_))
      exact (cellsAll_slot hk).1.mem_iff.mpr (List.mem_append_left _ hc)

/-! ## The refinement -/

structure Ref (e : Bump.Env) (s : Spec) (w : World) (vs : List (Option AVal)) (bs : List (Option ATree)) : Prop where
  svals : s.vals = vs.map (Option.map AVal.spec)
  wvals : w.vals = vs.map (Option.map AVal.node)
  sboxes : s.boxes = bs.map (Option.map ATree.erase)
  wboxes : w.boxes = bs.map (Option.map ATree.addr)
  level : w.level = s.level
  made : w.made = s.made
  log : w.log = s.log
  aborted : w.aborted = s.aborted
  le : s.level ≤ e.len
  good : Good w.mem (e.base + s.level) (all (fun v : AVal => cellsAll v.2) vs ++ all ATree.cells bs)

/-- The result of an operation of the model is that of the specification. -/
def Refines (e : Bump.Env) (r : Resp × Spec) (o : Outcome (Resp × World)) : Prop :=
  ∃ w vs bs, o = .ret (r.1, w) ∧ Ref e r.2 w vs bs

theorem SInv.length_box {s : Spec} (h : SInv s) {b : Nat} {t : Tree} (hb : var s.boxes b = some t) : t.ids.length ≤ s.made := by
  obtain ⟨lost, h, _⟩ := h
  have h1 := h.length_eq
  have h2 := (all_var (f := Tree.ids) hb).length_eq
  simp only [List.length_append, List.length_range] at h1 h2
  omega

theorem SInv.length_val {s : Spec} (h : SInv s) {b : Nat} {t : Tree} (hb : var s.vals b = some t) : t.ids.length ≤ s.made := by
  obtain ⟨lost, h, _⟩ := h
  have h1 := h.length_eq
  have h2 := (all_var (f := Tree.ids) hb).length_eq
  simp only [List.length_append, List.length_range] at h1 h2
  omega

section
variable {e : Bump.Env} {s : Spec} {w : World} {vs : List (Option AVal)} {bs : List (Option ATree)}

/-- Dropping a value whose boxes are in memory. -/
theorem dropValue_spec {panics : Nat → Bool} {w : World} {v : AVal} {done : Resp} (hl : v.spec.ids.length ≤ w.made)
    (hm : ∀ c ∈ cellsAll v.2, w.mem c.1 = some c.2) :
    w.dropValue panics v.node done = .ret (((destroy panics false w.log v.spec.ids).1.resp done), { w with log := (destroy panics false w.log v.spec.ids).2, aborted := (destroy panics false w.log v.spec.ids).1 = .aborted }) := by
  simp only [AVal.spec, Tree.ids, List.length_cons] at hl
  unfold World.dropValue
  have := dropNode_spec (panics := panics) (d := dropBox panics w.mem w.made) (n := v.node) (ids := idsAll (v.2.map ATree.erase))
    (fun u log => by rw [← eraseAll_eq]; exact dropFields_spec v.2 w.made (by rw [eraseAll_eq]; omega) hm u log) false w.log
  rw [this]
  rfl

theorem ref_exec (hv : e.Valid) (h : Ref e s w vs bs) (hs : SInv s) (panics : Nat → Bool) {op : Op} (ho : op.Valid e.target) :
    Refines e (s.exec e.slab panics op) (exec e panics w op) := by
  obtain ⟨hsv, hwv, hsb, hwb, hlv, hmd, hlg, hab, hle, hg⟩ := h
  have h : Ref e s w vs bs := ⟨hsv, hwv, hsb, hwb, hlv, hmd, hlg, hab, hle, hg⟩
  cases op with
  | make =>
    refine ⟨_, vs ++ [some (s.made, [])], bs, by simp only [exec, Spec.exec, pure, hwv, hsv, List.length_map]; rfl, ?_⟩
    refine ⟨by simp [Spec.exec, hsv, AVal.spec], by simp [hwv, AVal.node, hmd], hsb, hwb, hlv, by simp [Spec.exec, hmd], hlg, hab, hle, ?_⟩
    simpa [all_append, all_single, cellsAll, Spec.exec] using hg
  | alloc L =>
    have ht := Bump.tryAllocSeq_spec hv (c := s.level) hle ho.2 (Bump.Valid.align_pos ho.1)
    simp only [exec, Spec.exec, hlv, ht]
    cases hp : e.slab.place L s.level with
    | none =>
      exact ⟨_, vs, bs, rfl, hsv, hwv, hsb, hwb, rfl, hmd, hlg, hab, hle, hg⟩
    | some a =>
      have hq := hp
      rw [Slab.place_eq_some] at hq
      obtain ⟨k1, k2, k3⟩ := hq
      have := le_alignUp (Bump.Valid.align_pos ho.1) (e.slab.base + s.level)
      have hbase : e.slab.base = e.base := rfl
      have hlen : e.slab.len = e.len := rfl
      refine ⟨_, vs, bs, rfl, hsv, hwv, hsb, hwb, rfl, hmd, hlg, hab, by simp only; omega, hg.mono (by simp only; omega)⟩
  | leakBox v L =>
    simp only [exec, Spec.exec]
    rw [hsv, hwv, var_map, var_map]
    cases hx : var vs v with
    | none => exact ⟨w, vs, bs, rfl, h⟩
    | some x =>
      have ht := Bump.tryAllocSeq_spec hv (c := s.level) hle ho.2 (Bump.Valid.align_pos ho.1)
      have hperm := all_var (f := fun v : AVal => cellsAll v.2) hx
      have hg' := hg.perm (hperm.append_right _)
      simp only [Option.map_some, hlv, ht]
      cases hp : e.slab.place L s.level with
      | none =>
        have hlen : x.spec.ids.length ≤ w.made := by
          rw [hmd]; exact hs.length_val (b := v) (by rw [hsv, var_map, hx]; rfl)
        have := dropValue_spec (panics := panics) (w := { w with vals := (vs.map (Option.map AVal.node)).set v none, level := s.level }) (v := x) (done := .full) hlen
          (fun c hc => hg'.mem c (List.mem_append_left _ (List.mem_append_left _ hc)))
        simp only [bind, Outcome.bind]
        simp only at this
        rw [this]
        refine ⟨_, vs.set v none, bs, by simp only [Spec.drop, hlg]; rfl, ?_⟩
        refine ⟨?_, ?_, hsb, hwb, rfl, hmd, ?_, ?_, hle, ?_⟩
        · simp [Spec.drop, List.map_set]
        · simp [List.map_set]
        · simp [Spec.drop, hlg]
        · simp [Spec.drop, hlg]
        · simp only [Spec.drop]
          rw [List.append_assoc] at hg'
          exact hg'.right
      | some a =>
        have hq := hp
        rw [Slab.place_eq_some] at hq
        obtain ⟨k1, k2, k3⟩ := hq
        have := le_alignUp (Bump.Valid.align_pos ho.1) (e.slab.base + s.level)
        have hbase : e.slab.base = e.base := rfl
        have hlen : e.slab.len = e.len := rfl
        have hsz := ho.2
        simp only [bind, Outcome.bind]
        refine ⟨_, vs.set v none, bs ++ [some (.node a.ptr x.1 x.2)], by simp only [pure, hwb, hsb, List.length_map]; rfl, ?_⟩
        refine ⟨?_, ?_, ?_, ?_, rfl, hmd, hlg, hab, by simp only; omega, ?_⟩
        · simp [List.map_set]
        · simp [World.write, List.map_set]
        · simp [hsb, AVal.spec, ATree.erase, eraseAll_eq]
        · simp [hwb, ATree.addr]
        · simp only [World.write, all_append, all_single, ATree.cells]
          refine (hg'.fresh (q := a.ptr) (n := x.node) (bound' := e.base + a.level) (by omega) (by omega)).perm ?_
          show List.Perm ((a.ptr, x.node) :: _) _
          refine List.perm_iff_count.mpr fun c => ?_
          simp only [AVal.node, List.count_append, List.count_cons]
          omega
  | attach v b =>
    simp only [exec, Spec.exec]
    rw [hsv, hwv, hsb, hwb, var_map, var_map, var_map, var_map]
    cases hx : var vs v with
    | none => exact ⟨w, vs, bs, rfl, h⟩
    | some x =>
      cases hy : var bs b with
      | none => exact ⟨w, vs, bs, rfl, h⟩
      | some y =>
        refine ⟨_, vs.set v (some (x.1, x.2 ++ [y])), bs.set b none, rfl, ?_, ?_, ?_, ?_, hlv, hmd, hlg, hab, hle, ?_⟩
        · simp [List.map_set, AVal.spec, Tree.id, Tree.kids]
        · simp [List.map_set, AVal.node]
        · simp [List.map_set]
        · simp [List.map_set]
        · refine hg.perm ?_
          have h1 := List.perm_iff_count.mp (all_var (f := fun v : AVal => cellsAll v.2) hx)
          have h2 := List.perm_iff_count.mp (all_var (f := ATree.cells) hy)
          have h3 := List.perm_iff_count.mp (all_set (f := fun v : AVal => cellsAll v.2) (var_lt hx) (some (x.1, x.2 ++ [y])))
          refine List.perm_iff_count.mpr fun c => ?_
          have h1 := h1 c; have h2 := h2 c; have h3 := h3 c
          simp only [Option.elim_some, cellsAll_append, cellsAll, List.append_nil, List.count_append] at h1 h2 h3 ⊢
          omega
  | unpack v i =>
    simp only [exec, Spec.exec]
    rw [hsv, hwv, var_map, var_map]
    cases hx : var vs v with
    | none => exact ⟨w, vs, bs, rfl, h⟩
    | some x =>
      simp only [Option.map_some, AVal.spec, AVal.node, Tree.kids, List.getElem?_map]
      cases hk : x.2[i]? with
      | none => exact ⟨w, vs, bs, rfl, h⟩
      | some k =>
        refine ⟨_, vs.set v (some (x.1, x.2.eraseIdx i)), bs ++ [some k], by simp only [Option.map_some, pure, hwb, hsb, List.length_map]; rfl, ?_⟩
        refine ⟨?_, ?_, ?_, ?_, hlv, hmd, hlg, hab, hle, ?_⟩
        · simp [List.map_set, AVal.spec, Tree.id, eraseIdx_map']
        · simp [List.map_set, AVal.node, eraseIdx_map']
        · simp [hsb]
        · simp [hwb]
        · refine hg.perm ?_
          have h1 := List.perm_iff_count.mp (all_var (f := fun v : AVal => cellsAll v.2) hx)
          have h2 := List.perm_iff_count.mp (cellsAll_slot hk).1
          have h3 := List.perm_iff_count.mp (all_set (f := fun v : AVal => cellsAll v.2) (var_lt hx) (some (x.1, x.2.eraseIdx i)))
          refine List.perm_iff_count.mpr fun c => ?_
          have h1 := h1 c; have h2 := h2 c; have h3 := h3 c
          simp only [Option.elim_some, all_append, all_single, List.count_append] at h1 h2 h3 ⊢
          omega
  | push b path k =>
    simp only [exec, Spec.exec]
    rw [hsb, hwb, var_map, var_map]
    cases hx : var bs b with
    | none => exact ⟨w, vs, bs, rfl, h⟩
    | some t =>
      have hmem : ∀ c ∈ t.cells, w.mem c.1 = some c.2 := fun c hc =>
        hg.mem c (List.mem_append_right _ ((all_var (f := ATree.cells) hx).mem_iff.mpr (List.mem_append_left _ hc)))
      have hn1 := set_map ATree.erase bs b none
      have hn2 := set_map ATree.addr bs b none
      simp only [Option.map_none] at hn1 hn2
      simp only [Option.map_some, walk_spec hmem, ATree.erase_at, hn1, hn2, var_map, bind, Outcome.bind]
      cases hu : t.at path with
      | none => exact ⟨w, vs, bs, rfl, h⟩
      | some u =>
        cases hk : var (bs.set b none) k with
        | none => exact ⟨w, vs, bs, rfl, h⟩
        | some t' =>
          obtain ⟨hne, hk'⟩ := var_set_none hk
          obtain ⟨rest, r1, r2⟩ := ATree.cells_path hu
          have hu0 : w.mem u.addr = some ⟨u.id, u.kids.map ATree.addr⟩ :=
            hmem (u.addr, ⟨u.id, u.kids.map ATree.addr⟩) (r1.mem_iff.mpr (List.mem_append_left _ (by rw [ATree.cells_eq]; simp)))
          simp only [Option.map_some, World.readAt, hu0]
          refine ⟨_, vs, (bs.set b (some (t.put path (u.id, u.kids ++ [t'])))).set k none, rfl, hsv, hwv, ?_, ?_, hlv, hmd, hlg, hab, hle, ?_⟩
          · simp [List.map_set, ATree.erase_put, AVal.spec, ATree.erase_id, ATree.erase_kids]
          · have := set_var hx
            simp only [List.map_set, Option.map_some, ATree.addr_put, Option.map_none, World.write]
            congr 1
            have h9 : (bs.map (Option.map ATree.addr)).set b (some t.addr) = bs.map (Option.map ATree.addr) := by
              have := congrArg (List.map (Option.map ATree.addr)) this
              simpa [List.map_set] using this
            rw [h9]
          · have p1 := List.perm_iff_count.mp (all_var (f := ATree.cells) hx)
            have p2 := List.perm_iff_count.mp (all_var (f := ATree.cells) hk)
            have p3 := List.perm_iff_count.mp (all_set (f := ATree.cells) (xs := bs.set k none) (i := b) (by simpa using var_lt hx) (some (t.put path (u.id, u.kids ++ [t']))))
            have p4 := List.perm_iff_count.mp r1
            have p5 := List.perm_iff_count.mp (r2 (u.id, u.kids ++ [t']))
            have hA : Good w.mem (e.base + s.level) ((u.addr, ⟨u.id, u.kids.map ATree.addr⟩) ::
                (cellsAll u.kids ++ rest ++ t'.cells ++ all ATree.cells ((bs.set b none).set k none) ++ all (fun v : AVal => cellsAll v.2) vs)) := by
              refine hg.perm (List.perm_iff_count.mpr fun c => ?_)
              have p1 := p1 c; have p2 := p2 c; have p4 := p4 c
              rw [ATree.cells_eq u] at p4
              simp only [List.count_append, List.count_cons] at p1 p2 p4 ⊢
              omega
            refine (hA.rewrite (n' := ⟨u.id, (u.kids ++ [t']).map ATree.addr⟩)).perm' ?_ ?_
            · simp [World.write]
            · refine List.perm_iff_count.mpr fun c => ?_
              have p3 := p3 c; have p5 := p5 c
              rw [List.set_comm _ _ hne.symm] at p3
              rw [List.set_comm _ _ hne.symm] at p3
              simp only [Option.elim_some, cellsAll_append, cellsAll, AVal.node, List.append_nil, List.count_append, List.count_cons] at p3 p5 ⊢
              omega
  | detach b path i =>
    simp only [exec, Spec.exec]
    rw [hsb, hwb, var_map, var_map]
    cases hx : var bs b with
    | none => exact ⟨w, vs, bs, rfl, h⟩
    | some t =>
      have hmem : ∀ c ∈ t.cells, w.mem c.1 = some c.2 := fun c hc =>
        hg.mem c (List.mem_append_right _ ((all_var (f := ATree.cells) hx).mem_iff.mpr (List.mem_append_left _ hc)))
      simp only [Option.map_some, walk_spec hmem, ATree.erase_at, bind, Outcome.bind]
      cases hu : t.at path with
      | none => exact ⟨w, vs, bs, rfl, h⟩
      | some u =>
        obtain ⟨rest, r1, r2⟩ := ATree.cells_path hu
        have hu0 : w.mem u.addr = some ⟨u.id, u.kids.map ATree.addr⟩ :=
          hmem (u.addr, ⟨u.id, u.kids.map ATree.addr⟩) (r1.mem_iff.mpr (List.mem_append_left _ (by rw [ATree.cells_eq]; simp)))
        simp only [Option.map_some, World.readAt, hu0, ATree.erase_kids, List.getElem?_map]
        cases hk : u.kids[i]? with
        | none => exact ⟨w, vs, bs, rfl, h⟩
        | some k =>
          refine ⟨_, vs, bs.set b (some (t.put path (u.id, u.kids.eraseIdx i))) ++ [some k], by simp only [Option.map_some, pure, List.length_map]; rfl, ?_⟩
          refine ⟨hsv, hwv, ?_, ?_, hlv, hmd, hlg, hab, hle, ?_⟩
          · simp [List.map_set, ATree.erase_put, AVal.spec, ATree.erase_id, eraseIdx_map']
          · have := set_var hx
            simp only [List.map_append, List.map_set, Option.map_some, ATree.addr_put, World.write, List.map_cons, List.map_nil]
            congr 1
            have := congrArg (List.map (Option.map ATree.addr)) this
            simpa [List.map_set] using this.symm
          · have p1 := List.perm_iff_count.mp (all_var (f := ATree.cells) hx)
            have p2 := List.perm_iff_count.mp (cellsAll_slot hk).1
            have p3 := List.perm_iff_count.mp (all_set (f := ATree.cells) (var_lt hx) (some (t.put path (u.id, u.kids.eraseIdx i))))
            have p4 := List.perm_iff_count.mp r1
            have p5 := List.perm_iff_count.mp (r2 (u.id, u.kids.eraseIdx i))
            have hA : Good w.mem (e.base + s.level) ((u.addr, ⟨u.id, u.kids.map ATree.addr⟩) ::
                (cellsAll u.kids ++ rest ++ all ATree.cells (bs.set b none) ++ all (fun v : AVal => cellsAll v.2) vs)) := by
              refine hg.perm (List.perm_iff_count.mpr fun c => ?_)
              have p1 := p1 c; have p4 := p4 c
              rw [ATree.cells_eq u] at p4
              simp only [List.count_append, List.count_cons] at p1 p4 ⊢
              omega
            refine (hA.rewrite (n' := ⟨u.id, (u.kids.eraseIdx i).map ATree.addr⟩)).perm' ?_ ?_
            · simp [World.write, eraseIdx_map']
            · refine List.perm_iff_count.mpr fun c => ?_
              have p2 := p2 c; have p3 := p3 c; have p5 := p5 c
              simp only [Option.elim_some, AVal.node, all_append, all_single, List.count_append, List.count_cons] at p2 p3 p5 ⊢
              omega
  | replace b path v =>
    simp only [exec, Spec.exec]
    rw [hsb, hwb, hsv, hwv, var_map, var_map, var_map, var_map]
    cases hx : var bs b with
    | none => exact ⟨w, vs, bs, rfl, h⟩
    | some t =>
      have hmem : ∀ c ∈ t.cells, w.mem c.1 = some c.2 := fun c hc =>
        hg.mem c (List.mem_append_right _ ((all_var (f := ATree.cells) hx).mem_iff.mpr (List.mem_append_left _ hc)))
      simp only [Option.map_some, walk_spec hmem, ATree.erase_at, bind, Outcome.bind]
      cases hu : t.at path with
      | none => exact ⟨w, vs, bs, rfl, h⟩
      | some u =>
        cases hy : var vs v with
        | none => exact ⟨w, vs, bs, rfl, h⟩
        | some x =>
          obtain ⟨rest, r1, r2⟩ := ATree.cells_path hu
          have hu0 : w.mem u.addr = some ⟨u.id, u.kids.map ATree.addr⟩ :=
            hmem (u.addr, ⟨u.id, u.kids.map ATree.addr⟩) (r1.mem_iff.mpr (List.mem_append_left _ (by rw [ATree.cells_eq]; simp)))
          simp only [Option.map_some, World.readAt, hu0]
          refine ⟨_, vs.set v (some (u.id, u.kids)), bs.set b (some (t.put path x)), rfl, ?_, ?_, ?_, ?_, hlv, hmd, hlg, hab, hle, ?_⟩
          · cases u; simp [List.map_set, AVal.spec, ATree.erase, ATree.id, ATree.kids, eraseAll_eq]
          · simp [List.map_set, AVal.node]
          · simp [List.map_set, ATree.erase_put]
          · have := set_var hx
            simp only [List.map_set, Option.map_some, ATree.addr_put, World.write]
            have := congrArg (List.map (Option.map ATree.addr)) this
            simpa [List.map_set] using hwb.trans this.symm
          · have p1 := List.perm_iff_count.mp (all_var (f := ATree.cells) hx)
            have p2 := List.perm_iff_count.mp (all_var (f := fun v : AVal => cellsAll v.2) hy)
            have p3 := List.perm_iff_count.mp (all_set (f := ATree.cells) (var_lt hx) (some (t.put path x)))
            have p6 := List.perm_iff_count.mp (all_set (f := fun v : AVal => cellsAll v.2) (var_lt hy) (some (u.id, u.kids)))
            have p4 := List.perm_iff_count.mp r1
            have p5 := List.perm_iff_count.mp (r2 x)
            have hA : Good w.mem (e.base + s.level) ((u.addr, ⟨u.id, u.kids.map ATree.addr⟩) ::
                (cellsAll u.kids ++ rest ++ all ATree.cells (bs.set b none) ++ cellsAll x.2 ++ all (fun v : AVal => cellsAll v.2) (vs.set v none))) := by
              refine hg.perm (List.perm_iff_count.mpr fun c => ?_)
              have p1 := p1 c; have p2 := p2 c; have p4 := p4 c
              rw [ATree.cells_eq u] at p4
              simp only [List.count_append, List.count_cons] at p1 p2 p4 ⊢
              omega
            refine (hA.rewrite (n' := x.node)).perm' ?_ ?_
            · simp [World.write]
            · refine List.perm_iff_count.mpr fun c => ?_
              have p3 := p3 c; have p5 := p5 c; have p6 := p6 c
              simp only [Option.elim_some, List.count_append, List.count_cons] at p3 p5 p6 ⊢
              omega
  | read b path =>
    simp only [exec, Spec.exec]
    rw [hsb, hwb, var_map, var_map]
    cases hx : var bs b with
    | none => exact ⟨w, vs, bs, rfl, h⟩
    | some t =>
      have hmem : ∀ c ∈ t.cells, w.mem c.1 = some c.2 := fun c hc =>
        hg.mem c (List.mem_append_right _ ((all_var (f := ATree.cells) hx).mem_iff.mpr (List.mem_append_left _ hc)))
      simp only [Option.map_some, walk_spec hmem, ATree.erase_at, bind, Outcome.bind]
      cases hu : t.at path with
      | none => exact ⟨w, vs, bs, rfl, h⟩
      | some u =>
        obtain ⟨rest, r1, r2⟩ := ATree.cells_path hu
        have hu0 : w.mem u.addr = some ⟨u.id, u.kids.map ATree.addr⟩ :=
          hmem (u.addr, ⟨u.id, u.kids.map ATree.addr⟩) (r1.mem_iff.mpr (List.mem_append_left _ (by rw [ATree.cells_eq]; simp)))
        simp only [Option.map_some, World.readAt, hu0, ATree.erase_id]
        exact ⟨w, vs, bs, rfl, h⟩
  | take b =>
    simp only [exec, Spec.exec]
    rw [hsb, hwb, var_map, var_map]
    cases hx : var bs b with
    | none => exact ⟨w, vs, bs, rfl, h⟩
    | some t =>
      have hperm := all_var (f := ATree.cells) hx
      have hu0 : w.mem t.addr = some ⟨t.id, t.kids.map ATree.addr⟩ :=
        hg.mem (t.addr, ⟨t.id, t.kids.map ATree.addr⟩) (List.mem_append_right _ (hperm.mem_iff.mpr (List.mem_append_left _ (by rw [ATree.cells_eq]; simp))))
      simp only [Option.map_some, World.readAt, hu0, bind, Outcome.bind]
      refine ⟨_, vs ++ [some (t.id, t.kids)], bs.set b none, by simp only [pure, hwv, hsv, List.length_map]; rfl, ?_⟩
      refine ⟨?_, ?_, ?_, ?_, hlv, hmd, hlg, hab, hle, ?_⟩
      · cases t; simp [hsv, AVal.spec, ATree.erase, ATree.id, ATree.kids, eraseAll_eq]
      · simp [hwv, AVal.node]
      · simp [List.map_set]
      · simp [List.map_set]
      · have hA : Good w.mem (e.base + s.level) ([(t.addr, ⟨t.id, t.kids.map ATree.addr⟩)] ++
            (all (fun v : AVal => cellsAll v.2) (vs ++ [some (t.id, t.kids)]) ++ all ATree.cells (bs.set b none))) := by
          refine hg.perm (List.perm_iff_count.mpr fun c => ?_)
          have p1 := List.perm_iff_count.mp hperm c
          rw [ATree.cells_eq t] at p1
          simp only [all_append, all_single, List.count_append, List.count_cons, List.count_nil] at p1 ⊢
          omega
        exact hA.right
  | dropBox b =>
    simp only [exec, Spec.exec]
    rw [hsb, hwb, var_map, var_map]
    cases hx : var bs b with
    | none => exact ⟨w, vs, bs, rfl, h⟩
    | some t =>
      have hperm := all_var (f := ATree.cells) hx
      have hmem : ∀ c ∈ t.cells, w.mem c.1 = some c.2 := fun c hc =>
        hg.mem c (List.mem_append_right _ (hperm.mem_iff.mpr (List.mem_append_left _ hc)))
      have hlen : t.erase.ids.length ≤ w.made := by
        rw [hmd]; exact hs.length_box (b := b) (by rw [hsb, var_map, hx]; rfl)
      simp only [Option.map_some, dropBox_spec t w.made hlen hmem, bind, Outcome.bind]
      refine ⟨_, vs, bs.set b none, by simp only [Spec.drop, hlg, pure]; rfl, ?_⟩
      refine ⟨hsv, hwv, ?_, ?_, hlv, hmd, ?_, ?_, hle, ?_⟩
      · simp [Spec.drop, List.map_set]
      · simp [List.map_set]
      · simp [Spec.drop]
      · simp [Spec.drop]
      · have hg' := hg.perm (hperm.append_left _)
        refine (hg'.perm (d := t.cells ++ (all (fun v : AVal => cellsAll v.2) vs ++ all ATree.cells (bs.set b none))) ?_).right
        refine List.perm_iff_count.mpr fun c => ?_
        simp only [List.count_append]; omega
  | dropVal v =>
    simp only [exec, Spec.exec]
    rw [hsv, hwv, var_map, var_map]
    cases hx : var vs v with
    | none => exact ⟨w, vs, bs, rfl, h⟩
    | some x =>
      have hperm := all_var (f := fun v : AVal => cellsAll v.2) hx
      have hg' := hg.perm (hperm.append_right _)
      have hlen : x.spec.ids.length ≤ w.made := by
        rw [hmd]; exact hs.length_val (b := v) (by rw [hsv, var_map, hx]; rfl)
      have := dropValue_spec (panics := panics) (w := { w with vals := (vs.map (Option.map AVal.node)).set v none }) (v := x) (done := .unit) hlen
        (fun c hc => hg'.mem c (List.mem_append_left _ (List.mem_append_left _ hc)))
      simp only [Option.map_some]
      simp only at this
      rw [this]
      refine ⟨_, vs.set v none, bs, by simp only [Spec.drop, hlg]; rfl, ?_⟩
      refine ⟨?_, ?_, hsb, hwb, hlv, hmd, ?_, ?_, hle, ?_⟩
      · simp [Spec.drop, List.map_set]
      · simp [List.map_set]
      · simp [Spec.drop, hlg]
      · simp [Spec.drop, hlg]
      · simp only [Spec.drop]
        rw [List.append_assoc] at hg'
        exact hg'.right
  | forget b =>
    simp only [exec, Spec.exec]
    rw [hsb, hwb, var_map, var_map]
    cases hx : var bs b with
    | none => exact ⟨w, vs, bs, rfl, h⟩
    | some t =>
      have hperm := all_var (f := ATree.cells) hx
      refine ⟨_, vs, bs.set b none, rfl, hsv, hwv, ?_, ?_, hlv, hmd, hlg, hab, hle, ?_⟩
      · simp [List.map_set]
      · simp [List.map_set]
      · have hg' := hg.perm (hperm.append_left _)
        refine (hg'.perm (d := t.cells ++ (all (fun v : AVal => cellsAll v.2) vs ++ all ATree.cells (bs.set b none))) ?_).right
        refine List.perm_iff_count.mpr fun c => ?_
        simp only [List.count_append]; omega

theorem ref_run (hv : e.Valid) (panics : Nat → Bool) (ops : List Op) (ho : ∀ op ∈ ops, op.Valid e.target)
    (h : Ref e s w vs bs) (hs : SInv s) (ha : s.aborted = false) :
    ∃ w' vs' bs', run e panics w ops = .ret ((s.run e.slab panics ops).1, w') ∧ Ref e (s.run e.slab panics ops).2 w' vs' bs' := by
  induction ops generalizing s w vs bs with
  | nil => exact ⟨w, vs, bs, rfl, h⟩
  | cons op ops ih =>
    obtain ⟨w1, vs1, bs1, h1, h2⟩ := ref_exec hv h hs panics (ho op (by simp))
    have hs1 := hs.exec (slab := e.slab) (panics := panics) ha op
    simp only [run, h1, bind, Outcome.bind, Spec.run, h2.aborted]
    cases hx : (s.exec e.slab panics op).2.aborted with
    | true => exact ⟨w1, vs1, bs1, by simp [pure], by simpa using h2⟩
    | false =>
      obtain ⟨w2, vs2, bs2, h3, h4⟩ := ih (fun o hm => ho o (by simp [hm])) h2 hs1 hx
      exact ⟨w2, vs2, bs2, by simp [pure, h3], by simpa using h4⟩

theorem Ref.init {e : Bump.Env} {l : Nat} (hl : l ≤ e.len) (mem : Nat → Option Node) : Ref e (Spec.init l) (World.init l mem) [] [] :=
  ⟨rfl, rfl, rfl, rfl, rfl, rfl, rfl, rfl, hl, by simp [all], by simp [all], by simp [all]⟩
end

theorem filterMap_none {α : Type} {xs : List (Option α)} (h : ∀ x ∈ xs, x = none) : xs.filterMap id = [] := by
  induction xs with
  | nil => rfl
  | cons x xs ih =>
    have := h x (by simp)
    subst this
    simpa using ih (fun y hy => h y (by simp [hy]))

theorem leaked_exec {slab : Slab} {panics : Nat → Bool} {s : Spec} {op : Op} (h : ∀ b, op ≠ .forget b) : (s.exec slab panics op).2.leaked = s.leaked := by
  cases op <;> simp only [Spec.exec]
  case forget b => exact absurd rfl (h b)
  all_goals repeat' split
  all_goals rfl

/-- What is forgotten was forgotten by the program. -/
theorem leaked_run {slab : Slab} {panics : Nat → Bool} (ops : List Op) {s : Spec} (h : ∀ b, Op.forget b ∉ ops) : (s.run slab panics ops).2.leaked = s.leaked := by
  induction ops generalizing s with
  | nil => rfl
  | cons op ops ih =>
    have h1 := leaked_exec (slab := slab) (panics := panics) (s := s) (op := op) (fun b e => h b (by simp [e]))
    have h2 := ih (s := (s.exec slab panics op).2) (fun b hb => h b (by simp [hb]))
    simp only [Spec.run]
    cases hx : (s.exec slab panics op).2.aborted with
    | true => simpa using h1
    | false => simpa using h2.trans h1

end Verif.Linked
