import Verif.Spec.Unsize
/-! # C67, C69: the crate `unsize` -/
namespace Verif
open Unsize

/-! ## Borrow stack -/

/-- The stack from the item with the tag on. -/
def Unsize.from_ (s : List (Nat × Perm)) (tag : Nat) : List (Nat × Perm) := s.dropWhile (fun i => i.1 != tag)

theorem from_cons_self (tag : Nat) (p : Perm) (s : List (Nat × Perm)) : from_ ((tag, p) :: s) tag = (tag, p) :: s := by simp [from_]
theorem from_cons_ne {x tag : Nat} (h : x ≠ tag) (p : Perm) (s : List (Nat × Perm)) : from_ ((x, p) :: s) tag = from_ s tag := by simp [from_, h]
theorem from_append_of_not {s t : List (Nat × Perm)} {tag : Nat} (h : ∀ i ∈ s, i.1 ≠ tag) : from_ (s ++ t) tag = from_ t tag := by
  induction s with
  | nil => rfl
  | cons i s ih =>
    have := h i (by simp)
    simp only [List.cons_append]
    obtain ⟨x, p⟩ := i
    rw [from_cons_ne this, ih (fun j hj => h j (List.mem_cons_of_mem _ hj))]
theorem from_head {s : List (Nat × Perm)} {tag : Nat} {i : Nat × Perm} {rest : List (Nat × Perm)} (h : from_ s tag = i :: rest) : i.1 = tag := by
  induction s with
  | nil => cases h
  | cons j s ih =>
    obtain ⟨x, p⟩ := j
    by_cases hx : x = tag
    · subst hx; rw [from_cons_self] at h; cases h; rfl
    · rw [from_cons_ne hx] at h; exact ih h
theorem from_from (s : List (Nat × Perm)) (tag : Nat) : from_ (from_ s tag) tag = from_ s tag := by
  cases h : from_ s tag with
  | nil => rfl
  | cons i rest =>
    obtain ⟨x, p⟩ := i
    have := from_head h
    simp only at this
    subst this
    rw [from_cons_self]
theorem from_sublist (s : List (Nat × Perm)) (tag : Nat) : ∀ i ∈ from_ s tag, i ∈ s := fun _ h => (List.dropWhile_sublist _).mem h
theorem from_ne_nil {s : List (Nat × Perm)} {tag : Nat} : from_ s tag ≠ [] ↔ tag ∈ s.map Prod.fst := by
  induction s with
  | nil => simp [from_]
  | cons i s ih =>
    obtain ⟨x, p⟩ := i
    by_cases hx : x = tag
    · subst hx; rw [from_cons_self]; simp
    · rw [from_cons_ne hx, ih]; simp [Ne.symm hx]

theorem canRead_iff {w : World} {tag : Nat} : w.CanRead tag ↔ from_ w.stack tag ≠ [] := by
  rw [from_ne_nil]
  constructor
  · rintro ⟨w', h⟩
    unfold World.read at h
    split at h
    · assumption
    · cases h
  · intro h
    exact ⟨_, by unfold World.read; rw [if_pos h]⟩

theorem canWrite_iff {w : World} {tag : Nat} : w.CanWrite tag ↔ ∃ p rest, p ≠ Perm.ro ∧ from_ w.stack tag = (tag, p) :: rest := by
  constructor
  · rintro ⟨w', h⟩
    unfold World.write at h
    change (match from_ w.stack tag with | (x, .ro) :: _ => let _ := x; Outcome.ub | i :: rest => .ret { w with stack := i :: rest } | [] => .ub) = _ at h
    cases hf : from_ w.stack tag with
    | nil => rw [hf] at h; cases h
    | cons i rest =>
      obtain ⟨x, p⟩ := i
      have hx := from_head hf
      simp only at hx
      subst hx
      rw [hf] at h
      cases p with
      | ro => cases h
      | unique => exact ⟨_, _, by simp, rfl⟩
      | rw => exact ⟨_, _, by simp, rfl⟩
  · rintro ⟨p, rest, hp, h⟩
    refine ⟨{ w with stack := (tag, p) :: rest }, ?_⟩
    unfold World.write
    change (match from_ w.stack tag with | (x, .ro) :: _ => let _ := x; Outcome.ub | i :: rest => .ret { w with stack := i :: rest } | [] => .ub) = _
    rw [h]
    cases p with
    | ro => exact absurd rfl hp
    | unique => rfl
    | rw => rfl

theorem write_eq {w : World} {tag : Nat} (h : w.CanWrite tag) : w.write tag = .ret { w with stack := from_ w.stack tag } := by
  obtain ⟨p, rest, hp, h⟩ := canWrite_iff.mp h
  unfold World.write
  change (match from_ w.stack tag with | (x, .ro) :: _ => let _ := x; Outcome.ub | i :: rest => .ret { w with stack := i :: rest } | [] => .ub) = _
  rw [h]
  cases p with
  | ro => exact absurd rfl hp
  | unique => rfl
  | rw => rfl

theorem canWrite_read {w : World} {tag : Nat} (h : w.CanWrite tag) : w.CanRead tag := by
  obtain ⟨p, rest, _, h⟩ := canWrite_iff.mp h
  rw [canRead_iff, h]; simp

theorem canWrite_congr {w w' : World} {tag : Nat} (h : from_ w'.stack tag = from_ w.stack tag) : (w'.CanWrite tag ↔ w.CanWrite tag) ∧ (w'.CanRead tag ↔ w.CanRead tag) := by
  rw [canWrite_iff, canWrite_iff, canRead_iff, canRead_iff, h]; exact ⟨Iff.rfl, Iff.rfl⟩

/-- Counts and number of drops are the same, no tag that existed has another range. -/
structure Unsize.Same (w w' : World) : Prop where
  strong : w'.strong = w.strong
  weak : w'.weak = w.weak
  drops : w'.drops = w.drops
  next : w.next ≤ w'.next
  range : ∀ x, x < w.next → w'.range x = w.range x

theorem Unsize.Same.rfl' (w : World) : Same w w := ⟨rfl, rfl, rfl, Nat.le_refl _, fun _ _ => rfl⟩
theorem Unsize.Same.trans {a b c : World} (h : Same a b) (k : Same b c) : Same a c :=
  ⟨k.strong.trans h.strong, k.weak.trans h.weak, k.drops.trans h.drops, Nat.le_trans h.next k.next, fun x hx => (k.range x (Nat.lt_of_lt_of_le hx h.next)).trans (h.range x hx)⟩

theorem retag_spec {w : World} (hw : w.WF) {tag : Nat} {perm : Perm} {r : Region} (hr : perm = .ro → w.CanRead tag) (hwr : perm ≠ .ro → w.CanWrite tag) :
    ∃ w', w.retag tag perm r = .ret (w.next, w') ∧ w'.WF ∧ Same w w' ∧ w'.next = w.next + 1 ∧ w'.range w.next = r ∧
      from_ w'.stack w.next = w'.stack ∧ (∃ s, w'.stack = (w.next, perm) :: s) ∧
      (∀ x, x < w.next → from_ (from_ w.stack tag) x = from_ w.stack x → from_ w'.stack x = from_ w.stack x) := by
  by_cases hp : perm = .ro
  · have hr := hr hp
    rw [canRead_iff, from_ne_nil] at hr
    refine ⟨{ w with stack := (w.next, perm) :: ((w.stack.takeWhile (fun i => i.1 != tag)).filter (fun i => i.2 != .unique) ++ w.stack.dropWhile (fun i => i.1 != tag)), range := fun x => if x = w.next then r else w.range x, next := w.next + 1 }, ?_, ?_, ⟨rfl, rfl, rfl, by simp, fun x hx => if_neg (by omega)⟩, rfl, by simp, from_cons_self _ _ _, ⟨_, rfl⟩, ?_⟩
    · unfold World.retag
      rw [if_pos hp]
      unfold World.read
      rw [if_pos hr]
      rfl
    · intro i hi
      rcases List.mem_cons.mp hi with rfl | hi
      · exact Nat.lt_succ_self _
      · rcases List.mem_append.mp hi with hi | hi
        · exact Nat.lt_succ_of_lt (hw i ((List.takeWhile_sublist _).mem (List.mem_filter.mp hi).1))
        · exact Nat.lt_succ_of_lt (hw i ((List.dropWhile_sublist _).mem hi))
    · intro x hx hb
      show from_ ((w.next, perm) :: _) x = _
      rw [from_cons_ne (by omega)]
      change from_ (_ ++ from_ w.stack tag) x = _
      have hsplit : w.stack = w.stack.takeWhile (fun i => i.1 != tag) ++ from_ w.stack tag := (List.takeWhile_append_dropWhile).symm
      by_cases hin : ∃ i ∈ w.stack.takeWhile (fun i => i.1 != tag), i.1 = x
      · -- `x` is above the tag, so it is not below it unless nothing changes
        exfalso
        obtain ⟨i, hi, rfl⟩ := hin
        have h1 : from_ w.stack i.1 ≠ [] := by
          rw [from_ne_nil]; exact List.mem_map_of_mem ((List.takeWhile_sublist _).mem hi)
        have hlen : ∀ (a b : List (Nat × Perm)), i ∈ a → b.length < (from_ (a ++ b) i.1).length := by
          intro a
          induction a with
          | nil => intro b h; cases h
          | cons j a ih =>
            intro b h
            obtain ⟨y, p⟩ := j
            by_cases hy : y = i.1
            · subst hy; simp only [List.cons_append]; rw [from_cons_self]; simp; omega
            · simp only [List.cons_append]; rw [from_cons_ne hy]
              refine ih b ?_
              rcases List.mem_cons.mp h with h | h
              · exact absurd (by rw [h]) hy
              · exact h
        have h2 := hlen _ (from_ w.stack tag) hi
        rw [← hsplit, ← hb] at h2
        have h3 : (from_ (from_ w.stack tag) i.1).length ≤ (from_ w.stack tag).length := (List.dropWhile_sublist _).length_le
        omega
      · rw [from_append_of_not (fun i hi h => hin ⟨i, (List.mem_filter.mp hi).1, h⟩), hb]
  · have hwr := hwr hp
    refine ⟨{ w with stack := (w.next, perm) :: from_ w.stack tag, range := fun x => if x = w.next then r else w.range x, next := w.next + 1 }, ?_, ?_, ⟨rfl, rfl, rfl, by simp, fun x hx => if_neg (by omega)⟩, rfl, by simp, from_cons_self _ _ _, ⟨_, rfl⟩, ?_⟩
    · unfold World.retag
      rw [if_neg hp, write_eq hwr]
      rfl
    · intro i hi
      rcases List.mem_cons.mp hi with rfl | hi
      · exact Nat.lt_succ_self _
      · exact Nat.lt_succ_of_lt (hw i (from_sublist _ _ i hi))
    · intro x hx hb
      show from_ ((w.next, perm) :: _) x = _
      rw [from_cons_ne (by omega), hb]

theorem tag_lt {w : World} (hw : w.WF) {tag : Nat} (h : w.CanRead tag) : tag < w.next := by
  rw [canRead_iff, from_ne_nil] at h
  obtain ⟨i, hi, rfl⟩ := List.mem_map.mp h
  exact hw i hi

/-- `unsize_with` with a coercion that only unsizes. -/
theorem unsizeWith_eq {debug : Bool} {coerce : Coerce} {m : Meta} (hc : OnlyUnsizes coerce m) (addr tag : Nat) : unsizeWith debug ⟨addr, tag, []⟩ coerce = .ret ⟨addr, tag, [m]⟩ := by
  unfold unsizeWith
  rw [hc addr tag]
  simp [Outcome.assert, bind, Outcome.bind, pure]
theorem unsizeWith_new {debug : Bool} {m : Meta} (addr tag tag' : Nat) : unsizeWith debug ⟨addr, tag, []⟩ (fun _ => ⟨addr, tag', [m]⟩) = .ret ⟨addr, tag, [m]⟩ := by
  unfold unsizeWith
  simp [Outcome.assert, bind, Outcome.bind, pure]

theorem replace_raw {debug : Bool} {w : World} {ty : Ty} {k : Kind} {a tag tag' len : Nat} {e : List Meta} {m : Meta} (hk : k = .constPtr ∨ k = .mutPtr ∨ k = .rc ∨ k = .arc ∨ k = .weakRc ∨ k = .weakArc) :
    replacePtrBase debug w ty ⟨k, ⟨a, tag, e⟩, len⟩ ⟨a, tag', [m]⟩ = .ret (⟨k, ⟨a, tag, [m]⟩, len⟩, w) := by
  rcases hk with rfl | rfl | rfl | rfl | rfl | rfl <;>
    simp only [replacePtrBase, passByValue, bind, Outcome.bind, pure, unsizeWith_new]

theorem replace_new {debug : Bool} {w : World} {ty : Ty} {k : Kind} {a tag tag' len : Nat} {e : List Meta} {m : Meta} (hk : k = .nonNull ∨ k = .uninitView ∨ k = .uninit ∨ k = .wbox) :
    replacePtrBase debug w ty ⟨k, ⟨a, tag, e⟩, len⟩ ⟨a, tag', [m]⟩ = .ret (⟨k, ⟨a, tag', [m]⟩, len⟩, w) := by
  rcases hk with rfl | rfl | rfl | rfl <;>
    simp [replacePtrBase, passByValue, bind, Outcome.bind, pure, Outcome.assert]

/-- What is known after a number of reborrows: nothing of the original pointer was lost, `tag'` is on top of it with this permission. -/
structure Unsize.Derived (w w' : World) (tag tag' : Nat) (r : Region) (write : Bool) : Prop where
  wf : w'.WF
  same : Same w w'
  kept : from_ w'.stack tag = from_ w.stack tag
  new : w.next ≤ tag' ∧ tag' < w'.next
  range : w'.range tag' = r
  top : from_ w'.stack tag' = w'.stack
  read : w'.CanRead tag'
  write : write = true → w'.CanWrite tag'

theorem derive1 {w : World} (hw : w.WF) {tag : Nat} {perm : Perm} {r : Region} (hr : perm = .ro → w.CanRead tag) (hwr : perm ≠ .ro → w.CanWrite tag) :
    ∃ w', w.retag tag perm r = .ret (w.next, w') ∧ Derived w w' tag w.next r (perm != .ro) := by
  obtain ⟨w', h1, h2, h3, h4, h5, h6, ⟨s, h7⟩, h8⟩ := retag_spec hw (r := r) hr hwr
  refine ⟨w', h1, h2, h3, h8 tag ?_ (from_from _ _), ⟨Nat.le_refl _, by omega⟩, h5, h6, ?_, ?_⟩
  · refine tag_lt hw ?_
    by_cases hp : perm = .ro
    · exact hr hp
    · exact canWrite_read (hwr hp)
  · rw [canRead_iff, h6, h7]; simp
  · intro hp
    rw [canWrite_iff, h6, h7]
    exact ⟨perm, s, by simpa using hp, rfl⟩

theorem Unsize.Derived.step {w w1 : World} {tag tag1 : Nat} {r r1 : Region} {b : Bool} (d : Derived w w1 tag tag1 r1 b) (ht : tag < w.next) {perm : Perm} (hb : perm ≠ .ro → b = true) :
    ∃ w', w1.retag tag1 perm r = .ret (w1.next, w') ∧ Derived w w' tag w1.next r (perm != .ro) := by
  obtain ⟨w', h1, h2, h3, h4, h5, h6, ⟨s, h7⟩, h8⟩ := retag_spec d.wf (tag := tag1) (perm := perm) (r := r) (fun _ => d.read) (fun hp => d.write (hb hp))
  refine ⟨w', h1, h2, d.same.trans h3, ?_, ⟨d.same.next, by omega⟩, h5, h6, ?_, ?_⟩
  · rw [h8 tag (Nat.lt_of_lt_of_le ht d.same.next) (by rw [d.top]), d.kept]
  · rw [canRead_iff, h6, h7]; simp
  · intro hp
    rw [canWrite_iff, h6, h7]
    exact ⟨perm, s, by simpa using hp, rfl⟩

theorem replace_mut {debug : Bool} {w : World} (hw : w.WF) {ty : Ty} {k : Kind} {a tag tag' len : Nat} {e : List Meta} {m : Meta} (hk : k = .mutRef ∨ k = .box) (hc : w.CanWrite tag) :
    ∃ w' tag2, replacePtrBase debug w ty ⟨k, ⟨a, tag, e⟩, len⟩ ⟨a, tag', [m]⟩ = .ret (⟨k, ⟨a, tag2, [m]⟩, len⟩, w') ∧ Derived w w' tag tag2 (valueAt ty a) true := by
  have ht := tag_lt hw (canWrite_read hc)
  obtain ⟨w1, e1, d1⟩ := derive1 hw (tag := tag) (perm := .unique) (r := valueAt ty a) (fun h => by cases h) (fun _ => hc)
  obtain ⟨w2, e2, d2⟩ := d1.step ht (perm := .rw) (r := valueAt ty a) (fun _ => rfl)
  obtain ⟨w3, e3, d3⟩ := d2.step ht (perm := .unique) (r := valueAt ty a) (fun _ => rfl)
  refine ⟨w3, w2.next, ?_, d3⟩
  rcases hk with rfl | rfl <;>
    simp only [replacePtrBase, passByValue, bind, Outcome.bind, pure, e1, e2, unsizeWith_new, e3]

theorem replace_shared {debug : Bool} {w : World} (hw : w.WF) {ty : Ty} {a tag tag' len : Nat} {e : List Meta} {m : Meta} (hc : w.CanRead tag) :
    ∃ w' tag2, replacePtrBase debug w ty ⟨.sharedRef, ⟨a, tag, e⟩, len⟩ ⟨a, tag', [m]⟩ = .ret (⟨.sharedRef, ⟨a, tag2, [m]⟩, len⟩, w') ∧ Derived w w' tag tag2 (valueAt ty a) false := by
  have ht := tag_lt hw hc
  obtain ⟨w1, e1, d1⟩ := derive1 hw (tag := tag) (perm := .ro) (r := valueAt ty a) (fun _ => hc) (fun h => absurd rfl h)
  obtain ⟨w2, e2, d2⟩ := d1.step ht (perm := .ro) (r := valueAt ty a) (fun h => absurd rfl h)
  obtain ⟨w3, e3, d3⟩ := d2.step ht (perm := .ro) (r := valueAt ty a) (fun h => absurd rfl h)
  refine ⟨w3, w2.next, ?_, d3⟩
  simp only [replacePtrBase, passByValue, bind, Outcome.bind, pure, e1, e2, unsizeWith_new, e3]

/-- The provenance of the result: that of the original pointer, or (references, `Box`, `Pin`) a reborrow of it for the memory of the value. The original pointer is still as usable as before (when the result is no longer used). -/
structure Unsize.Provenance (w w' : World) (ty : Ty) (h h' : Handle) : Prop where
  wf : w'.WF
  read : w.CanRead h.ptr.tag → w'.CanRead h'.ptr.tag ∧ w'.CanRead h.ptr.tag
  write : w.CanWrite h.ptr.tag → w'.CanWrite h.ptr.tag ∧ (h.kind ≠ .sharedRef → w'.CanWrite h'.ptr.tag)
  range : (h'.ptr.tag = h.ptr.tag ∧ w'.range h'.ptr.tag = w.range h.ptr.tag) ∨ w'.range h'.ptr.tag = valueAt ty h.ptr.addr
  same : (∀ k, h.kind ≠ .pin k) → h.kind ≠ .sharedRef → h.kind ≠ .mutRef → h.kind ≠ .box → h'.ptr.tag = h.ptr.tag

theorem Unsize.Derived.provenance {w w0 w' : World} {ty : Ty} {h h' : Handle} {b : Bool} (hs : from_ w0.stack h.ptr.tag = from_ w.stack h.ptr.tag) (d : Derived w0 w' h.ptr.tag h'.ptr.tag (valueAt ty h.ptr.addr) b)
    (hb : h.kind ≠ .sharedRef → b = true) (hk : h.kind = .sharedRef ∨ h.kind = .mutRef ∨ h.kind = .box ∨ ∃ k, h.kind = .pin k) : Provenance w w' ty h h' where
  wf := d.wf
  read := fun hr => ⟨d.read, (canWrite_congr (d.kept.trans hs)).2.mpr hr⟩
  write := fun hw => ⟨(canWrite_congr (d.kept.trans hs)).1.mpr hw, fun hne => d.write (hb hne)⟩
  range := .inr d.range
  same := fun h1 h2 h3 h4 => by
    rcases hk with h | h | h | ⟨k, h⟩
    · exact absurd h h2
    · exact absurd h h3
    · exact absurd h h4
    · exact absurd h (h1 k)

/-- The result of `unsize`. -/
structure Unsize.Unsized (w w' : World) (h h' : Handle) (m : Meta) : Prop where
  /-- Same kind of handle. -/
  kind : h'.kind = h.kind
  /-- Same address. -/
  addr : h'.ptr.addr = h.ptr.addr
  /-- One word of metadata, the one of the coercion. -/
  meta_ : h'.ptr.extra = [m]
  /-- Same memory (of `Uninit`). -/
  len : h'.len = h.len
  /-- The counts of `Rc`/`Arc` and `Weak` are the same. -/
  strong : w'.strong = w.strong
  weak : w'.weak = w.weak
  /-- Nothing was dropped. -/
  drops : w'.drops = w.drops

theorem pinned_replace {debug : Bool} {w : World} (hw : w.WF) {ty : Ty} {a tag tag' len : Nat} {e : List Meta} {m : Meta} {k : Kind} (hp : Pinnable k) (hc : w.CanWrite tag) :
    ∃ w' tag2, replacePtr debug w ty ⟨a, tag', [m]⟩ k ⟨a, tag, e⟩ len = .ret (⟨k, ⟨a, tag2, [m]⟩, len⟩, w') ∧
      (k.base ≠ .wbox → Derived w w' tag tag2 (valueAt ty a) true) ∧ (k.base = .wbox → w' = w ∧ tag2 = tag') := by
  induction hp with
  | mutRef =>
    obtain ⟨w', tag2, h1, h2⟩ := replace_mut (debug := debug) (tag' := tag') (len := len) (e := e) (m := m) (ty := ty) (a := a) hw (.inl rfl) hc
    exact ⟨w', tag2, h1, fun _ => h2, (fun h => by cases h)⟩
  | box =>
    obtain ⟨w', tag2, h1, h2⟩ := replace_mut (debug := debug) (tag' := tag') (len := len) (e := e) (m := m) (ty := ty) (a := a) hw (.inr rfl) hc
    exact ⟨w', tag2, h1, fun _ => h2, (fun h => by cases h)⟩
  | wbox => exact ⟨w, tag', replace_new (.inr (.inr (.inr rfl))), (fun h => absurd rfl h), fun _ => ⟨rfl, rfl⟩⟩
  | pin hp ih =>
    obtain ⟨w', tag2, h1, h2, h3⟩ := ih
    refine ⟨w', tag2, ?_, h2, h3⟩
    simp only [replacePtr, h1, bind, Outcome.bind, pure]

theorem unsize_spec {debug : Bool} {w : World} (hw : w.WF) {ty : Ty} {h : Handle} (hv : h.Valid w) {coerce : Coerce} {m : Meta} (hc : OnlyUnsizes coerce m) :
    ∃ h' w', unsize debug w ty h coerce = .ret (h', w') ∧ Unsized w w' h h' m ∧ Provenance w w' ty h h' := by
  obtain ⟨k, ⟨a, tag, e⟩, len⟩ := h
  have raw : k = .constPtr ∨ k = .mutPtr ∨ k = .weakRc ∨ k = .weakArc → ∃ h' w', unsize debug w ty ⟨k, ⟨a, tag, e⟩, len⟩ coerce = .ret (h', w') ∧ Unsized w w' ⟨k, ⟨a, tag, e⟩, len⟩ h' m ∧ Provenance w w' ty ⟨k, ⟨a, tag, e⟩, len⟩ h' := by
    intro hk
    refine ⟨⟨k, ⟨a, tag, [m]⟩, len⟩, w, ?_, ⟨rfl, rfl, rfl, rfl, rfl, rfl, rfl⟩, ⟨hw, fun h => ⟨h, h⟩, fun h => ⟨h, fun _ => h⟩, .inl ⟨rfl, rfl⟩, fun _ _ _ _ => rfl⟩⟩
    have := replace_raw (debug := debug) (w := w) (ty := ty) (k := k) (a := a) (tag := tag) (tag' := tag) (len := len) (e := e) (m := m) (by rcases hk with rfl | rfl | rfl | rfl <;> simp)
    rcases hk with rfl | rfl | rfl | rfl <;> simp only [unsize, asSizedPtr, bind, Outcome.bind, pure, unsizeWith_eq hc, replacePtr, this]
  have new : k = .nonNull ∨ k = .uninitView ∨ k = .uninit ∨ k = .wbox → ∃ h' w', unsize debug w ty ⟨k, ⟨a, tag, e⟩, len⟩ coerce = .ret (h', w') ∧ Unsized w w' ⟨k, ⟨a, tag, e⟩, len⟩ h' m ∧ Provenance w w' ty ⟨k, ⟨a, tag, e⟩, len⟩ h' := by
    intro hk
    refine ⟨⟨k, ⟨a, tag, [m]⟩, len⟩, w, ?_, ⟨rfl, rfl, rfl, rfl, rfl, rfl, rfl⟩, ⟨hw, fun h => ⟨h, h⟩, fun h => ⟨h, fun _ => h⟩, .inl ⟨rfl, rfl⟩, fun _ _ _ _ => rfl⟩⟩
    have := replace_new (debug := debug) (w := w) (ty := ty) (k := k) (a := a) (tag := tag) (tag' := tag) (len := len) (e := e) (m := m) hk
    rcases hk with rfl | rfl | rfl | rfl <;> simp only [unsize, asSizedPtr, bind, Outcome.bind, pure, unsizeWith_eq hc, replacePtr, this]
  have count : k = .rc ∨ k = .arc → ∃ h' w', unsize debug w ty ⟨k, ⟨a, tag, e⟩, len⟩ coerce = .ret (h', w') ∧ Unsized w w' ⟨k, ⟨a, tag, e⟩, len⟩ h' m ∧ Provenance w w' ty ⟨k, ⟨a, tag, e⟩, len⟩ h' := by
    intro hk
    have hr : w.CanRead tag := by rcases hk with rfl | rfl <;> exact hv
    obtain ⟨w1, e1, d1⟩ := derive1 hw (tag := tag) (perm := .ro) (r := valueAt ty a) (fun _ => hr) (fun h => absurd rfl h)
    refine ⟨⟨k, ⟨a, tag, [m]⟩, len⟩, w1, ?_, ⟨rfl, rfl, rfl, rfl, d1.same.strong, d1.same.weak, d1.same.drops⟩,
      ⟨d1.wf, fun h => ⟨(canWrite_congr d1.kept).2.mpr h, (canWrite_congr d1.kept).2.mpr h⟩, fun h => ⟨(canWrite_congr d1.kept).1.mpr h, fun _ => (canWrite_congr d1.kept).1.mpr h⟩,
        .inl ⟨rfl, d1.same.range _ (tag_lt hw hr)⟩, fun _ _ _ _ => rfl⟩⟩
    have := replace_raw (debug := debug) (w := w1) (ty := ty) (k := k) (a := a) (tag := tag) (tag' := w.next) (len := len) (e := e) (m := m) (by rcases hk with rfl | rfl <;> simp)
    rcases hk with rfl | rfl <;> simp only [unsize, asSizedPtr, derefShared, bind, Outcome.bind, pure, e1, unsizeWith_eq hc, replacePtr, this]
  cases k with
  | constPtr => exact raw (by simp)
  | mutPtr => exact raw (by simp)
  | weakRc => exact raw (by simp)
  | weakArc => exact raw (by simp)
  | nonNull => exact new (by simp)
  | uninitView => exact new (by simp)
  | uninit => exact new (by simp)
  | wbox => exact new (by simp)
  | rc => exact count (by simp)
  | arc => exact count (by simp)
  | sharedRef =>
    have hr : w.CanRead tag := hv
    obtain ⟨w1, e1, d1⟩ := derive1 hw (tag := tag) (perm := .ro) (r := valueAt ty a) (fun _ => hr) (fun h => absurd rfl h)
    obtain ⟨w2, tag2, e2, d2⟩ := replace_shared (debug := debug) (tag' := w.next) (len := len) (e := e) (m := m) (ty := ty) (a := a) d1.wf ((canWrite_congr d1.kept).2.mpr hr)
    have hs := d1.same.trans d2.same
    refine ⟨⟨.sharedRef, ⟨a, tag2, [m]⟩, len⟩, w2, ?_, ⟨rfl, rfl, rfl, rfl, hs.strong, hs.weak, hs.drops⟩, Derived.provenance d1.kept d2 (fun h => absurd rfl h) (.inl rfl)⟩
    simp only [unsize, asSizedPtr, derefShared, bind, Outcome.bind, pure, e1, unsizeWith_eq hc, replacePtr, e2]
  | mutRef =>
    have hr : w.CanWrite tag := hv
    obtain ⟨w1, e1, d1⟩ := derive1 hw (tag := tag) (perm := .unique) (r := valueAt ty a) (fun h => by cases h) (fun _ => hr)
    obtain ⟨w2, tag2, e2, d2⟩ := replace_mut (debug := debug) (tag' := w.next) (len := len) (e := e) (m := m) (ty := ty) (a := a) d1.wf (.inl rfl) ((canWrite_congr d1.kept).1.mpr hr)
    have hs := d1.same.trans d2.same
    refine ⟨⟨.mutRef, ⟨a, tag2, [m]⟩, len⟩, w2, ?_, ⟨rfl, rfl, rfl, rfl, hs.strong, hs.weak, hs.drops⟩, Derived.provenance d1.kept d2 (fun _ => rfl) (.inr (.inl rfl))⟩
    simp only [unsize, asSizedPtr, derefMut, bind, Outcome.bind, pure, e1, unsizeWith_eq hc, replacePtr, e2]
  | box =>
    have hr : w.CanWrite tag := hv
    obtain ⟨w1, e1, d1⟩ := derive1 hw (tag := tag) (perm := .ro) (r := valueAt ty a) (fun _ => canWrite_read hr) (fun h => absurd rfl h)
    obtain ⟨w2, tag2, e2, d2⟩ := replace_mut (debug := debug) (tag' := w.next) (len := len) (e := e) (m := m) (ty := ty) (a := a) d1.wf (.inr rfl) ((canWrite_congr d1.kept).1.mpr hr)
    have hs := d1.same.trans d2.same
    refine ⟨⟨.box, ⟨a, tag2, [m]⟩, len⟩, w2, ?_, ⟨rfl, rfl, rfl, rfl, hs.strong, hs.weak, hs.drops⟩, Derived.provenance d1.kept d2 (fun _ => rfl) (.inr (.inr (.inl rfl)))⟩
    simp only [unsize, asSizedPtr, derefShared, bind, Outcome.bind, pure, e1, unsizeWith_eq hc, replacePtr, e2]
  | pin k =>
    obtain ⟨hp, hr⟩ : Pinnable k ∧ w.CanWrite tag := hv
    obtain ⟨w1, e1, d1⟩ := derive1 hw (tag := tag) (perm := .unique) (r := valueAt ty a) (fun h => by cases h) (fun _ => hr)
    obtain ⟨w2, tag2, e2, d2, d3⟩ := pinned_replace (debug := debug) (tag' := w.next) (len := len) (e := e) (m := m) (ty := ty) (a := a) d1.wf (Pinnable.pin hp) ((canWrite_congr d1.kept).1.mpr hr)
    have heq : unsize debug w ty ⟨.pin k, ⟨a, tag, e⟩, len⟩ coerce = .ret (⟨.pin k, ⟨a, tag2, [m]⟩, len⟩, w2) := by
      simp only [unsize, asSizedPtr, derefMut, bind, Outcome.bind, pure, e1, unsizeWith_eq hc, e2]
    by_cases hb : (Kind.pin k).base = .wbox
    · obtain ⟨rfl, rfl⟩ := d3 hb
      exact ⟨_, w2, heq, ⟨rfl, rfl, rfl, rfl, d1.same.strong, d1.same.weak, d1.same.drops⟩, Derived.provenance (b := true) rfl d1 (fun _ => rfl) (.inr (.inr (.inr ⟨k, rfl⟩)))⟩
    · have d2 := d2 hb
      have hs := d1.same.trans d2.same
      exact ⟨_, w2, heq, ⟨rfl, rfl, rfl, rfl, hs.strong, hs.weak, hs.drops⟩, Derived.provenance (b := true) d1.kept d2 (fun _ => rfl) (.inr (.inr (.inr ⟨k, rfl⟩)))⟩

/-! ## C67 -/

/-- **C67** For every kind of pointer, every type and every coercion that only unsizes, `unsize` succeeds without undefined behaviour, in debug and release builds: the result is the same kind of pointer with the same address and the metadata of
the coercion; nothing is dropped, no count changes, `Uninit`s keep their memory. -/
theorem C67_unsize {debug : Bool} {w : World} (hw : w.WF) {ty : Ty} {h : Handle} (hv : h.Valid w) {coerce : Coerce} {m : Meta} (hc : OnlyUnsizes coerce m) :
    ∃ h' w', unsize debug w ty h coerce = .ret (h', w') ∧ Unsized w w' h h' m := by
  obtain ⟨h', w', h1, h2, _⟩ := unsize_spec (debug := debug) (ty := ty) hw hv hc
  exact ⟨h', w', h1, h2⟩

/-- **C67** The coercions of the crate only unsize, and the metadata describes the same memory and the same destructor as the sized type. -/
theorem C67_to_dyn (ty : Ty) (trt : Nat) : OnlyUnsizes (toDyn ty trt) (.vtable ty trt) ∧ (Meta.vtable ty trt).layout = ty.layout ∧ (Meta.vtable ty trt).drops = ty.drops := ⟨fun _ _ => rfl, rfl, rfl⟩
theorem C67_to_slice (elem : Nat) (l : Layout) (n : Nat) : OnlyUnsizes (toSlice elem l n) (.len elem l n) ∧ (Meta.len elem l n).layout = (Ty.array elem l n).layout ∧ (Meta.len elem l n).drops = (Ty.array elem l n).drops :=
  ⟨fun _ _ => rfl, rfl, rfl⟩

/-- **C67** A coercion to a type with thin pointers (or with more than one word of metadata) panics, for every pointer. -/
theorem C67_not_unsized {debug : Bool} {w : World} (hw : w.WF) {ty : Ty} {h : Handle} (hv : h.Valid w) {coerce : Coerce} (hc : ∀ addr tag, (coerce ⟨addr, tag, []⟩).extra.length ≠ 1) : unsize debug w ty h coerce = .panic := by
  have hu : ∀ addr tag, unsizeWith debug ⟨addr, tag, []⟩ coerce = .panic := by
    intro addr tag
    have := hc addr tag
    simp [unsizeWith, Outcome.assert, bind, Outcome.bind, this]
  obtain ⟨k, ⟨a, tag, e⟩, len⟩ := h
  have key : ∃ x y w', asSizedPtr w ty ⟨k, ⟨a, tag, e⟩, len⟩ = .ret (⟨x, y, []⟩, w') := by
    cases k with
    | sharedRef => obtain ⟨w1, e1, _⟩ := derive1 hw (tag := tag) (perm := .ro) (r := valueAt ty a) (fun _ => hv) (fun h => absurd rfl h); exact ⟨a, w.next, w1, by simp only [asSizedPtr, derefShared, bind, Outcome.bind, pure, e1]⟩
    | rc => obtain ⟨w1, e1, _⟩ := derive1 hw (tag := tag) (perm := .ro) (r := valueAt ty a) (fun _ => hv) (fun h => absurd rfl h); exact ⟨a, w.next, w1, by simp only [asSizedPtr, derefShared, bind, Outcome.bind, pure, e1]⟩
    | arc => obtain ⟨w1, e1, _⟩ := derive1 hw (tag := tag) (perm := .ro) (r := valueAt ty a) (fun _ => hv) (fun h => absurd rfl h); exact ⟨a, w.next, w1, by simp only [asSizedPtr, derefShared, bind, Outcome.bind, pure, e1]⟩
    | box => obtain ⟨w1, e1, _⟩ := derive1 hw (tag := tag) (perm := .ro) (r := valueAt ty a) (fun _ => canWrite_read hv) (fun h => absurd rfl h); exact ⟨a, w.next, w1, by simp only [asSizedPtr, derefShared, bind, Outcome.bind, pure, e1]⟩
    | mutRef => obtain ⟨w1, e1, _⟩ := derive1 hw (tag := tag) (perm := .unique) (r := valueAt ty a) (fun h => by cases h) (fun _ => hv); exact ⟨a, w.next, w1, by simp only [asSizedPtr, derefMut, bind, Outcome.bind, pure, e1]⟩
    | pin k => obtain ⟨w1, e1, _⟩ := derive1 hw (tag := tag) (perm := .unique) (r := valueAt ty a) (fun h => by cases h) (fun _ => hv.2); exact ⟨a, w.next, w1, by simp only [asSizedPtr, derefMut, bind, Outcome.bind, pure, e1]⟩
    | _ => exact ⟨_, _, _, rfl⟩
  obtain ⟨x, y, w', h⟩ := key
  simp only [unsize, h, bind, Outcome.bind, hu]

/-! ## C69 -/

/-- **C69** The provenance of the result: exactly that of the original pointer for raw pointers, `NonNull`, `Rc`, `Arc`, `Weak`, `Uninit`, `UninitView`, `Box` (of `without_alloc`); a reborrow of the memory of the value for references and `Box`.
It can be read and written through just as the original one; and the original pointer can be used afterwards.
Missing: `Pin<without_alloc::Box<T>>` only has the provenance for the value, not for all the memory that its `Uninit` has, see `C69_violated_pin_box`. -/
theorem C69_provenance_partial {debug : Bool} {w : World} (hw : w.WF) {ty : Ty} {h : Handle} (hv : h.Valid w) {coerce : Coerce} {m : Meta} (hc : OnlyUnsizes coerce m) :
    ∃ h' w', unsize debug w ty h coerce = .ret (h', w') ∧ Provenance w w' ty h h' := by
  obtain ⟨h', w', h1, _, h2⟩ := unsize_spec (debug := debug) (ty := ty) hw hv hc
  exact ⟨h', w', h1, h2⟩

/-- **C69** is violated: the `Box` in a `Pin` afterwards has a pointer for the memory of the value only, also if its memory (`len`) is larger and the original pointer is for all of it. (The rest can be accessed with safe code: `Pin::into_inner` if the trait object is `Unpin`, `Box::into_raw`, `Uninit::as_memory`, `cast` to a larger type, `init`.) -/
theorem C69_violated_pin_box {debug : Bool} {w : World} (hw : w.WF) {ty : Ty} {a tag len : Nat} (hv : w.CanWrite tag) {coerce : Coerce} {m : Meta} (hc : OnlyUnsizes coerce m) :
    ∃ h' w', unsize debug w ty ⟨.pin .wbox, ⟨a, tag, []⟩, len⟩ coerce = .ret (h', w') ∧ h'.len = len ∧ w'.range h'.ptr.tag = ⟨a, ty.layout.size⟩ := by
  obtain ⟨w1, e1, d1⟩ := derive1 hw (tag := tag) (perm := .unique) (r := valueAt ty a) (fun h => by cases h) (fun _ => hv)
  refine ⟨⟨.pin .wbox, ⟨a, w.next, [m]⟩, len⟩, w1, ?_, rfl, d1.range⟩
  simp only [unsize, asSizedPtr, derefMut, bind, Outcome.bind, pure, e1, unsizeWith_eq hc, replacePtr, replace_new (debug := debug) (w := w1) (ty := ty) (k := .wbox) (a := a) (tag := tag) (tag' := w.next) (len := len) (e := []) (m := m) (by simp)]

/-! ## Examples -/

/-- A value of 4 bytes at 64 in memory of 16 bytes: the raw pointer for all memory and a unique pointer of the value. -/
def Unsize.exW : World := ⟨[(1, .unique), (0, .rw)], fun x => if x = 0 then ⟨64, 16⟩ else ⟨64, 4⟩, 2, 1, 1, 0⟩
def Unsize.exT : Ty := .named 7 ⟨4, 4⟩
theorem exW_wf : exW.WF := by intro i hi; simp [exW] at hi ⊢; rcases hi with rfl | rfl <;> decide
example : Handle.Valid exW ⟨.mutRef, ⟨64, 1, []⟩, 0⟩ := ⟨_, rfl⟩
example : Handle.Valid exW ⟨.pin .wbox, ⟨64, 0, []⟩, 16⟩ := ⟨.wbox, ⟨_, rfl⟩⟩
example : Handle.Valid exW ⟨.rc, ⟨64, 0, []⟩, 16⟩ := ⟨_, rfl⟩
example : (match unsize true exW exT ⟨.mutRef, ⟨64, 1, []⟩, 0⟩ (toDyn exT 3) with | .ret (h, _) => some h | _ => none) = some ⟨.mutRef, ⟨64, 5, [.vtable exT 3]⟩, 0⟩ := by decide
/-- A `&mut T` returned with the pointer of `as_sized_ptr` would not be usable: passing `self` invalidates it. -/
example : (do let (p, w) ← asSizedPtr exW exT ⟨.mutRef, ⟨64, 1, []⟩, 0⟩; let (_, w) ← passByValue w exT ⟨.mutRef, ⟨64, 1, []⟩, 0⟩; let _ ← w.write p.tag; pure ()) = Outcome.ub := by decide
example : ∃ h' w', unsize true exW exT ⟨.pin .wbox, ⟨64, 0, []⟩, 16⟩ (toDyn exT 3) = .ret (h', w') ∧ h'.len = 16 ∧ w'.range h'.ptr.tag = ⟨64, 4⟩ := C69_violated_pin_box exW_wf ⟨_, rfl⟩ (C67_to_dyn exT 3).1
example : unsize true exW exT ⟨.box, ⟨64, 1, []⟩, 0⟩ id = .panic :=
  C67_not_unsized exW_wf (h := ⟨.box, ⟨64, 1, []⟩, 0⟩) ⟨_, rfl⟩ (coerce := id) (by simp)

end Verif
