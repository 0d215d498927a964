import Verif.Props.BumpBorrows
/-! # C104: concrete programs -/
set_option autoImplicit false
namespace Verif.BumpBorrows
open Verif Verif.Borrows
open Verif.VecBorrows (Ref)

instance (s : St) (j : Nat) (k : Kind) : Decidable (s.Is j k) :=
  match h : s.pieces[j]? with
  | none => .isFalse (fun ⟨p, hp, _⟩ => by rw [h] at hp; cases hp)
  | some p => decidable_of_iff (p.kind = k) ⟨fun h' => ⟨p, h, h'⟩, fun ⟨p', hp, h'⟩ => by rw [h] at hp; cases hp; exact h'⟩

instance (s : St) (j : Nat) (P : Piece → Prop) [DecidablePred P] : Decidable (∀ p, s.pieces[j]? = some p → P p) :=
  match h : s.pieces[j]? with
  | none => .isTrue (fun p hp => by cases hp)
  | some p => decidable_of_iff (P p) ⟨fun h' u hu => by cases hu; exact h', fun h' => h' p rfl⟩

instance (x : Option Nat) (P : Nat → Prop) [DecidablePred P] : Decidable (∀ n, x = some n → P n) :=
  match x with
  | none => .isTrue (fun n hn => by cases hn)
  | some n => decidable_of_iff (P n) ⟨fun h' u hu => by cases hu; exact h', fun h' => h' n rfl⟩

instance (o : Obj) (w : Nat) (s : St) (a : Act) : Decidable (Permitted o w s a) := by
  cases a <;> unfold Permitted <;> infer_instance

/-- Runs a program as long as each action is permitted. -/
def checked (o : Obj) (w : Nat) (s : St) : List Act → Option St
  | [] => some s
  | a :: as => if Permitted o w s a then (step o w s a).bind (fun s' => checked o w s' as) else none

theorem checked_reach {o : Obj} {w : Nat} {s₀ : St} : ∀ (as : List Act) (s s' : St), Reach o w s₀ s → checked o w s as = some s' → Reach o w s₀ s'
  | [], s, s', h, e => by cases e; exact h
  | a :: as, s, s', h, e => by
    unfold checked at e
    by_cases hp : Permitted o w s a
    · rw [if_pos hp] at e
      cases hs : step o w s a with
      | none => rw [hs] at e; cases e
      | some s1 => rw [hs] at e; exact checked_reach as s1 s' (h.step hp hs) e
    · rw [if_neg hp] at e; cases e

/-- A `static BUMP: Bump<[u8; 16]>` at address 4088 (its tag is 0): the level, then 16 bytes. -/
def exObj : Obj := ⟨⟨.w64, 4096, 16, id⟩, 4088, 4112, 4088, 4096⟩
theorem exObj_valid : exObj.Valid :=
  ⟨⟨by decide, by decide, by decide, fun _ h => ⟨h.pos, Nat.dvd_refl _⟩⟩, by decide, by decide, by decide⟩

def exStart (p : Perm) : St := ⟨⟨fun b => if 4088 ≤ b ∧ b < 4112 then [⟨0, p⟩] else [], 1⟩, 0, [], [], []⟩

theorem exStart_start (p : Perm) (hp : p.grants .write = true) : Start exObj 0 (exStart p) := by
  refine ⟨?_, Nat.zero_lt_one, Nat.zero_le _, rfl, rfl, rfl⟩
  intro b h1 h2
  have h1' : 4088 ≤ b := h1
  have h2' : b < 4112 := h2
  have e : (exStart p).mem.stack b = [⟨0, p⟩] := if_pos ⟨h1', h2'⟩
  rw [e]
  refine ⟨p, [], rfl, hp, by simp, ?_⟩
  intro i hi
  rw [List.mem_singleton.1 hi]
  exact Nat.zero_lt_one

/-- A program: leaks a value, shares the `Bump`, makes a box in it, uses both at once, drops the box, resets and allocates again. -/
def exProg : List Act :=
  [.share 0, .alloc 1 ⟨2, 2⟩ none, .leak 0, .share 1, .alloc 5 ⟨4, 4⟩ (some 2), .boxed 1, .deref 1 true, .reborrow ⟨8, true, 4100, 4104, 1, []⟩ false 4100 4101,
   .use ⟨4, true, 4096, 4098, 0, []⟩ .write 4096 4098, .level 0, .use ⟨9, false, 4100, 4101, 1, [8]⟩ .read 4100 4101, .use ⟨8, true, 4100, 4104, 1, []⟩ .write 4100 4104,
   .deref 1 false, .deref 1 false, .dropBox 1, .alloc 1 ⟨16, 1⟩ none, .use ⟨4, true, 4096, 4098, 0, []⟩ .read 4096 4098, .reset, .alloc 0 ⟨16, 1⟩ none, .uninit 0]

theorem exProg_runs : (checked exObj 0 (exStart .unique) exProg).map (fun s => (s.level, s.shares, s.pieces, s.refs)) =
    some (16, [], [⟨4096, 4112, 17, .gone⟩], [⟨19, true, 4096, 4112, 0, []⟩]) := by decide +kernel

/-- The same with an owner that is shared mutable itself (an `UnsafeCell` around the `Bump`, or a raw pointer). -/
theorem exProg_runs' : (checked exObj 0 (exStart .sharedRW) exProg).map (fun s => (s.level, s.shares, s.pieces, s.refs)) =
    some (16, [], [⟨4096, 4112, 17, .gone⟩], [⟨19, true, 4096, 4112, 0, []⟩]) := by decide +kernel

/-- The state after the first `n` actions. -/
def exState (n : Nat) : St := (checked exObj 0 (exStart .unique) (exProg.take n)).getD (exStart .unique)
theorem exState_reach (n : Nat) (h : (checked exObj 0 (exStart .unique) (exProg.take n)).isSome = true) : Reach exObj 0 (exStart .unique) (exState n) := by
  refine checked_reach (exProg.take n) _ _ .refl ?_
  unfold exState
  cases e : checked exObj 0 (exStart .unique) (exProg.take n) with
  | none => rw [e] at h; cases h
  | some s => rfl

/-- C104_defined: allocating while there is a `&mut` to a value allocated before. -/
example : ∃ s', step exObj 0 (exState 4) (.alloc 5 ⟨4, 4⟩ (some 2)) = some s' :=
  C104_defined exObj_valid (exStart_start _ rfl) (exState_reach 4 (by decide +kernel)) (by decide +kernel)

/-- C104_refs_usable: which can be used afterwards. -/
example : ∃ m, (exState 8).mem.access .write 4 4096 4098 = some m :=
  (C104_refs_usable exObj_valid (exStart_start _ rfl) (exState_reach 8 (by decide +kernel)) (r := ⟨4, true, 4096, 4098, 0, []⟩) (by decide +kernel)).2 rfl

/-- C104_disjoint: of the leaked value and the box. -/
example : (4098 : Nat) ≤ 4100 ∨ (4104 : Nat) ≤ 4096 :=
  (C104_disjoint exObj_valid (exStart_start _ rfl) (exState_reach 8 (by decide +kernel)) (r := ⟨4, true, 4096, 4098, 0, []⟩) (by decide +kernel)).2.2
    ⟨8, true, 4100, 4104, 1, []⟩ (by decide +kernel) (by decide)

/-- C104_other: the leaked value stays when the box is dropped. -/
example {s' : St} (h : step exObj 0 (exState 14) (.dropBox 1) = some s') : (⟨4, true, 4096, 4098, 0, []⟩ : Ref) ∈ s'.refs :=
  C104_other exObj_valid (exStart_start _ rfl) (exState_reach 14 (by decide +kernel)) (by decide +kernel) h (by decide +kernel) (by decide) (by change ¬ (1 = 0); decide)

/-- C104_alloc: the second allocation, aligned to 4. -/
example {s' : St} (h : step exObj 0 (exState 4) (.alloc 5 ⟨4, 4⟩ (some 2)) = some s') : s'.refs = (exState 4).refs ∧ (exState 4).level ≤ s'.level :=
  have h' := C104_alloc exObj_valid (exStart_start _ rfl) (exState_reach 4 (by decide +kernel)) (by decide +kernel) h
  ⟨h'.1, h'.2.2.1⟩
example : (exState 5).pieces = (exState 4).pieces ++ [⟨4100, 4104, 6, .raw⟩] := by decide +kernel

/-- C104_give -/
example {s' : St} (h : step exObj 0 (exState 2) (.leak 0) = some s') : ∃ r rest, s'.refs = r :: rest ∧ r.mutable = true ∧ r.lo = 4096 ∧ r.hi = 4098 := by
  obtain ⟨r, rest, h1, h2, h3, h4, _⟩ := C104_give (j := 0) (p := ⟨4096, 4098, 2, .raw⟩) (by decide +kernel) (Or.inl rfl) h
  exact ⟨r, rest, h1, h2, h3, h4⟩

/-- C104_deref: two references by `deref` at once. -/
example {s' : St} (h : step exObj 0 (exState 13) (.deref 1 false) = some s') : ∃ r rest, s'.refs = r :: rest ∧ r.lo = 4100 ∧ ∃ q ∈ rest, q.owner = 1 := by
  obtain ⟨r, rest, h1, _, h3, _, _, _, _, h8, _⟩ := C104_deref (j := 1) (p := ⟨4100, 4104, 6, .box⟩) (by decide +kernel) h
  exact ⟨r, rest, h1, h3, ⟨11, false, 4100, 4104, 1, []⟩, h8 rfl _ (by decide +kernel) rfl, rfl⟩

/-- C104_own: the box is dropped. -/
example {s' : St} (h : step exObj 0 (exState 14) (.dropBox 1) = some s') : s'.pieces = [⟨4096, 4098, 2, .gone⟩, ⟨4100, 4104, 6, .gone⟩] := by
  have e := (C104_own (j := 1) (p := ⟨4100, 4104, 6, .box⟩) (by decide +kernel) (Or.inr (Or.inr (Or.inr (Or.inr ⟨rfl, rfl⟩)))) h).1
  rw [e]; decide +kernel

/-- C104_refs: a part of a reference that was reborrowed is used, it and what it comes from stay. -/
example {s' : St} (h : step exObj 0 (exState 10) (.use ⟨9, false, 4100, 4101, 1, [8]⟩ .read 4100 4101) = some s') : (⟨8, true, 4100, 4104, 1, []⟩ : Ref) ∈ s'.refs :=
  ((C104_refs (r := ⟨9, false, 4100, 4101, 1, [8]⟩) (by decide +kernel)).1 .read 4100 4101 h).2.2.2 _ (by decide +kernel) (Or.inr (Or.inl (by decide)))

/-- C104_reset: all 16 bytes can be allocated again. -/
example {s' : St} (h : step exObj 0 (exState 17) .reset = some s') : ∃ s'' p, step exObj 0 s' (.alloc 0 ⟨16, 1⟩ none) = some s'' ∧ s''.pieces = [p] ∧ p.lo = 4096 ∧ p.hi = 4112 :=
  (C104_reset exObj_valid (exStart_start _ rfl) (exState_reach 17 (by decide +kernel)) h).2.2.2.2 ⟨16, 1⟩ (by decide) (by decide) (Nat.one_dvd _) (by decide)

/-- Runs a program that may be wrong. -/
def run (o : Obj) (w : Nat) (s : St) : List Act → Option St
  | [] => some s
  | a :: as => (step o w s a).bind (fun s' => run o w s' as)

/-- The rules do reject wrong programs: the leaked value used after `reset` … -/
example : (run exObj 0 (exStart .unique) [.share 0, .alloc 1 ⟨2, 2⟩ none, .leak 0, .reset, .use ⟨4, true, 4096, 4098, 0, []⟩ .read 4096 4098]).isNone = true := by decide +kernel

/-- … two `&mut` to the same box … -/
example : (run exObj 0 (exStart .unique) [.share 0, .alloc 1 ⟨2, 2⟩ none, .boxed 0, .deref 0 true, .deref 0 true, .use ⟨4, true, 4096, 4098, 0, []⟩ .read 4096 4098]).isNone = true := by decide +kernel

/-- … and a `Bump` whose `storage` were not in an `UnsafeCell` (bump.rs:157): writing with a pointer made from `&self.storage` is undefined. -/
example : (((exStart .unique).mem.retag false 0 4096 4112).bind (fun p => p.2.access .write p.1 4096 4098)).isNone = true := by decide +kernel

/-- A reference to an `UnsafeCell` is made only from a pointer that may write. -/
example : insertByte 9 7 [⟨1, .unique⟩] = none ∧ insertByte 9 1 [⟨1, .sharedRO⟩] = none ∧ insertByte 9 1 [⟨1, .unique⟩] = some [⟨9, .sharedRW⟩, ⟨1, .unique⟩] := by decide

end Verif.BumpBorrows
