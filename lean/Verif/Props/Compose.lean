import Verif.Proofs.ComposeLocal
import Verif.Props.BumpBoxes
import Verif.Props.ExitMem
import Verif.Props.FixedVecBytes
/-! # C86: data structures in disjoint parts of one memory do not interfere -/
namespace Verif
open Compose

/-- A data structure of the repository, and where it is. -/
inductive Compose.Part where
  /-- an `unsync::MemBump`, used to allocate memory for others -/
  | alloc (t : Target) (b : Unsync.MemBump)
  /-- `LeakBox`es in an `unsync::MemBump` -/
  | boxes (t : Target) (b : Unsync.MemBump) (panics : List Byte → Bool)
  /-- pieces of memory and `without_alloc::Box`es, in the given bytes -/
  | pieces (t : Target) (panics : Layout → List Byte → Bool) (mine : Nat → Prop)
  /-- an `ExitStack` -/
  | exit (c : Exit.ExitMem.Cfg)
  /-- `FixedVec`s with elements of one type, in the given bytes -/
  | vecs (t : Target) (T : Layout) (checks : Bool) (panics : FVec.Bits T → Bool) (mine : Nat → Prop)
  /-- `Rc`s and `Weak`s to values of one type, in the given blocks -/
  | rcs (c : RcMem.Cfg) (checks : Bool) (mine : Nat → Prop)
  /-- `Chain`s, whose links are in the given bytes -/
  | chains (c : Unsync.ChainMem.Cfg) (mine : Nat → Prop)

namespace Compose
def Part.machine : Part → Machine
  | .alloc t b => allocMachine t b
  | .boxes t b panics => boxMachine t b panics
  | .pieces t panics mine => pieceMachine t panics mine
  | .exit c => exitMachine c
  | .vecs t T checks panics mine => vecMachine t T checks panics mine
  | .rcs c checks mine => rcMachine c checks mine
  | .chains c mine => chainMachine c mine

/-- Memory and types are existing ones. -/
def Part.Ok : Part → Prop
  | .alloc t b | .boxes t b _ => b.Valid t
  | .exit c => c.Valid
  | .vecs t T _ _ _ => T.ValidType t
  | .rcs c _ _ => c.Ok
  | .pieces _ _ _ => True
  | .chains _ _ => True

theorem Part.Ok.sound {p : Part} (h : p.Ok) : p.machine.Sound := by
  cases p with
  | alloc t b => exact allocMachine_sound h
  | boxes t b panics => exact boxMachine_sound h panics
  | pieces t panics mine => exact pieceMachine_sound panics mine
  | exit c => exact exitMachine_sound h
  | vecs t T checks panics mine => exact vecMachine_sound h checks panics mine
  | rcs c checks mine => exact rcMachine_sound h checks mine
  | chains c mine => exact chainMachine_sound c mine

theorem Part.Ok.local {p : Part} (h : p.Ok) : p.machine.Local := by
  cases p with
  | alloc t b => exact allocMachine_local h
  | boxes t b panics => exact boxMachine_local h panics
  | pieces t panics mine => exact pieceMachine_local panics mine
  | exit c => exact exitMachine_local h
  | vecs t T checks panics mine => exact vecMachine_local h checks panics mine
  | rcs c checks mine => exact rcMachine_local h checks mine
  | chains c mine => exact chainMachine_local c mine
end Compose

/-- **C86** Take any number of vectors, reference counted values, exit stacks, chains, bump allocators, boxes in bump allocators, and pieces of memory with boxes in them, of any types, in pairwise disjoint bytes of one memory, and a program which calls them in any order (each call being permitted
when it is made). No call is undefined behaviour; each structure answers to its own calls exactly what its specification says, whatever the calls to the others between them are; the program ends early only if a call aborts the process;
and bytes that do not belong to a structure which is called keep their value. -/
theorem C86_independent {ι : Type} [DecidableEq ι] {P : ι → Part} (hP : ∀ i, (P i).Ok) (ha : Apart fun i => (P i).machine) {m : Mem} (hm : ∀ i, (P i).machine.ready m)
    {ops : List (Σ i, (P i).machine.Op)} (hs : Compose.SafeRun (fun i => (P i).machine) (start _) m ops) :
    ∃ rs v' m', Compose.run (fun i => (P i).machine) (start _) m ops = some (rs, v', m') ∧ rs.length ≤ ops.length ∧
      (∀ i, only i rs = (P i).machine.srun ((P i).machine.sstart m) (only i (ops.take rs.length))) ∧
      (rs.length < ops.length → ∃ x ∈ rs.getLast?, (P x.1).machine.halts x.2 = true) ∧
      ∀ x, (∀ o ∈ ops, ¬ (P o.1).machine.own x) → m' x = m x :=
  run_each (fun i => (hP i).sound) ha hm hs

/-- **C86** What a structure answers is what it would answer if the program made only the calls to it, in any memory which has the same bytes where the structure is (in particular in the same memory); and these calls are permitted then. -/
theorem C86_as_if_alone {ι : Type} [DecidableEq ι] {P : ι → Part} (hP : ∀ i, (P i).Ok) (ha : Apart fun i => (P i).machine) {m m' : Mem} (hm : ∀ i, (P i).machine.ready m)
    {ops : List (Σ i, (P i).machine.Op)} (hs : Compose.SafeRun (fun i => (P i).machine) (start _) m ops) {rs : List (Σ i, (P i).machine.Resp)} {v' : Vars fun i => (P i).machine}
    (hr : Compose.run (fun i => (P i).machine) (start _) m ops = some (rs, v', m'))
    (i : ι) {mi : Mem} (hmi : (P i).machine.ready mi) (hown : ∀ x, (P i).machine.own x → mi x = m x) :
    (P i).machine.SafeRun (P i).machine.start mi (only i (ops.take rs.length)) ∧
      ∃ s1 m1, (P i).machine.run (P i).machine.start mi (only i (ops.take rs.length)) = some (only i rs, s1, m1) := by
  have halone := alone_of_safe (fun i => (hP i).local) ha hm hmi hown hs hr
  obtain ⟨rs', v1, m1, e, _, h, _, _⟩ := C86_independent hP ha hm hs
  rw [hr] at e
  cases e
  have hsame := alone_of_safe (fun i => (hP i).local) ha hm (hm i) (fun _ _ => rfl) hs hr
  obtain ⟨s1, m1, e1, _⟩ := (hP i).sound.run_srun (hm i) hsame
  obtain ⟨rs2, s2, m2, s3, m3, e2, e3⟩ := (hP i).local.run_same (hm i) hown hsame
  rw [e1] at e2
  cases e2
  exact ⟨halone, s3, m3, by rw [e3, h i]⟩

/-- **C86** Programs can be checked one structure at a time: if for each structure the calls to it are permitted in a program which makes only these, in some memory which has the same bytes where the structure is, then all calls are permitted in the program which makes them all, in the order in
which they are there; so each of them is answered as the specification of its structure says. -/
theorem C86_modular {ι : Type} [DecidableEq ι] {P : ι → Part} (hP : ∀ i, (P i).Ok) (ha : Apart fun i => (P i).machine) {m : Mem} (hm : ∀ i, (P i).machine.ready m) {ma : ι → Mem}
    (hma : ∀ i, (P i).machine.ready (ma i)) (hown : ∀ i x, (P i).machine.own x → ma i x = m x) {ops : List (Σ i, (P i).machine.Op)}
    (hs : ∀ i, (P i).machine.SafeRun (P i).machine.start (ma i) (only i ops)) :
    Compose.SafeRun (fun i => (P i).machine) (start _) m ops ∧
    ∃ rs v' m', Compose.run (fun i => (P i).machine) (start _) m ops = some (rs, v', m') ∧ rs.length ≤ ops.length ∧
      (∀ i, only i rs = (P i).machine.srun ((P i).machine.sstart m) (only i (ops.take rs.length))) ∧
      (rs.length < ops.length → ∃ x ∈ rs.getLast?, (P x.1).machine.halts x.2 = true) ∧
      ∀ x, (∀ o ∈ ops, ¬ (P o.1).machine.own x) → m' x = m x :=
  have h := safe_of_alone (fun i => (hP i).local) ha hma hown hs
  ⟨h, C86_independent hP ha hm h⟩

namespace Compose
/-- The memory that was allocated by the calls. -/
def granted : List AOp → List AResp → List Region
  | .get l :: ops, .some p :: rs => ⟨p, l.size⟩ :: granted ops rs
  | _ :: ops, _ :: rs => granted ops rs
  | _, _ => []

/-- An allocator, and parts that are in memory from it. -/
def withAlloc {ι : Type} (t : Target) (b : Unsync.MemBump) (P : ι → Part) : Option ι → Part
  | none => .alloc t b
  | some i => P i

/-- The answers of the allocator that has the level. -/
def answers (t : Target) (b : Unsync.MemBump) (n : Nat) (ops : List AOp) : List AResp := (allocMachine t b).srun n ops
def answer (t : Target) (b : Unsync.MemBump) (n : Nat) (op : AOp) : AResp × Nat := (allocMachine t b).sexec n op
theorem answers_cons {t : Target} {b : Unsync.MemBump} {n : Nat} {op : AOp} {ops : List AOp} : answers t b n (op :: ops) = (answer t b n op).1 :: answers t b (answer t b n op).2 ops := by
  show (if false = true then [(answer t b n op).1] else (answer t b n op).1 :: answers t b (answer t b n op).2 ops) = _
  simp only [Bool.false_eq_true, if_false]

theorem granted_spec {t : Target} {b : Unsync.MemBump} : ∀ {ops : List AOp} {n : Nat}, (∀ l, .get l ∈ ops → l.Valid t) →
    (granted ops (answers t b n ops)).Pairwise Region.Disjoint ∧
      ∀ r ∈ granted ops (answers t b n ops), b.addr + t.wordBytes + n ≤ r.start ∧ r.start + r.size ≤ b.addr + t.wordBytes + b.cap := by
  intro ops
  induction ops with
  | nil => intro n _; exact ⟨List.Pairwise.nil, fun r hr => by cases hr⟩
  | cons op ops ih =>
    intro n hv
    rw [answers_cons]
    have hv' : ∀ l, .get l ∈ ops → l.Valid t := fun l h => hv l (by simp [h])
    cases op with
    | level => exact ih (n := n) hv'
    | get l =>
      have hl := hv l (by simp)
      by_cases h0 : l.size = 0
      · have : answer t b n (.get l) = (.panicked, n) := by simp [answer, allocMachine, h0]
        rw [this]
        exact ih (n := n) hv'
      · cases hq : (⟨b.addr + t.wordBytes, b.cap⟩ : Slab).place l n with
        | none =>
          have : answer t b n (.get l) = (.none, n) := by simp [answer, allocMachine, h0, hq]
          rw [this]
          exact ih (n := n) hv'
        | some a =>
          have : answer t b n (.get l) = (.some a.ptr, a.level) := by simp [answer, allocMachine, h0, hq]
          rw [this]
          obtain ⟨p1, p2, p3, p4, p5⟩ := Unsync.place_level hl.1.pos hq
          simp only at p1 p2 p3 p4 p5
          obtain ⟨k1, k2⟩ := ih (n := a.level) hv'
          simp only [granted]
          refine ⟨List.pairwise_cons.mpr ⟨fun r hr => ?_, k1⟩, fun r hr => ?_⟩
          · have := k2 r hr
            intro x ⟨x1, x2⟩
            simp only [Region.Has] at x1 x2
            omega
          · rcases List.mem_cons.mp hr with rfl | hr
            · show b.addr + t.wordBytes + n ≤ a.ptr ∧ a.ptr + l.size ≤ _
              omega
            · have := k2 r hr
              omega
end Compose

/-- What is in memory that one bump has allocated for different purposes is apart, and apart from the bump. -/
theorem Compose.apart_of_granted {ι : Type} {t : Target} {b : Unsync.MemBump} {P : ι → Part} {n : Nat} {ops : List AOp} (hl : ∀ l, .get l ∈ ops → l.Valid t)
    (share : Nat → ι) (hown : ∀ i x, (P i).machine.own x → ∃ (k : Nat) (r : Region), (granted ops (answers t b n ops))[k]? = some r ∧ share k = i ∧ r.Has x) :
    Apart fun i => (withAlloc t b P i).machine := by
  obtain ⟨g1, g2⟩ := granted_spec (b := b) (n := n) hl
  intro i j hij x ⟨hx1, hx2⟩
  have hhead : ∀ i, (P i).machine.own x → ¬ (allocMachine t b).own x := by
    intro i h1 h2
    obtain ⟨k, r, hk, _, hr⟩ := hown i x h1
    have := g2 r (List.mem_of_getElem? hk)
    have h2 : Region.Has ⟨b.addr, t.wordBytes⟩ x := h2
    simp only [Region.Has] at hr h2
    omega
  cases i with
  | none =>
    cases j with
    | none => exact hij rfl
    | some j => exact hhead j hx2 hx1
  | some i =>
    cases j with
    | none => exact hhead i hx1 hx2
    | some j =>
      obtain ⟨k, r, hk, h1, hr⟩ := hown i x hx1
      obtain ⟨k', r', hk', h1', hr'⟩ := hown j x hx2
      have hne : k ≠ k' := by
        intro h
        subst h
        exact hij (by rw [← h1, ← h1'])
      obtain ⟨l1, e1⟩ := List.getElem?_eq_some_iff.mp hk
      obtain ⟨l2, e2⟩ := List.getElem?_eq_some_iff.mp hk'
      rcases Nat.lt_or_gt_of_ne hne with h | h
      · exact List.pairwise_iff_getElem.mp g1 k k' l1 l2 h x (by rw [e1, e2]; exact ⟨hr, hr'⟩)
      · exact List.pairwise_iff_getElem.mp g1 k' k l2 l1 h x (by rw [e1, e2]; exact ⟨hr', hr⟩)

/-- **C86** The memory can come from a bump allocator: if each of the structures is in memory that was allocated for it (by calls to `get` that are made in the program itself), they are apart from each other and from the allocator, and so
none of them interferes with another. -/
theorem C86_in_allocated_memory {ι : Type} [DecidableEq ι] {t : Target} {b : Unsync.MemBump} (hb : b.Valid t) {P : ι → Part} (hP : ∀ i, (P i).Ok) {m m1 : Mem}
    (hm : ∀ i, (withAlloc t b P i).machine.ready m) {ops : List (Σ i, (withAlloc t b P i).machine.Op)}
    {as : List AResp} (hl : ∀ l, .get l ∈ (only none ops : List AOp) → l.Valid t) (hrun : (allocMachine t b).run () m (only none ops) = some (as, (), m1))
    (share : Nat → ι) (hown : ∀ i x, (P i).machine.own x → ∃ (k : Nat) (r : Region), (granted (only none ops) as)[k]? = some r ∧ share k = i ∧ r.Has x)
    (hs : Compose.SafeRun (fun i => (withAlloc t b P i).machine) (start _) m ops) :
    ∃ rs v' m', Compose.run (fun i => (withAlloc t b P i).machine) (start _) m ops = some (rs, v', m') ∧ rs.length ≤ ops.length ∧
      (∀ i, only i rs = (withAlloc t b P i).machine.srun ((withAlloc t b P i).machine.sstart m) (only i (ops.take rs.length))) ∧
      (rs.length < ops.length → ∃ x ∈ rs.getLast?, (withAlloc t b P x.1).machine.halts x.2 = true) ∧
      ∀ x, (∀ o ∈ ops, ¬ (withAlloc t b P o.1).machine.own x) → m' x = m x := by
  have has : as = (allocMachine t b).srun (b.level t m) (only none ops) := by
    have hsafe : ∀ (ops : List AOp) (m : Mem), (∀ l, .get l ∈ ops → l.Valid t) → (allocMachine t b).SafeRun () m ops := by
      intro ops
      induction ops with
      | nil => intro m _; trivial
      | cons op ops ih =>
        intro m h
        refine ⟨?_, fun r s' m' _ _ => ih m' fun l h' => h l (by simp [h'])⟩
        cases op with
        | get l => exact h l (by simp)
        | level => trivial
    obtain ⟨s', m', e, _⟩ := (allocMachine_sound hb).run_srun (hm none) (hsafe _ m hl)
    have e : (allocMachine t b).run () m (only none ops) = some ((allocMachine t b).srun (b.level t m) (only none ops), s', m') := e
    rw [hrun] at e
    cases e
    rfl
  subst has
  refine C86_independent (P := withAlloc t b P) (fun i => ?_) (apart_of_granted hl share hown) hm hs
  cases i with
  | none => exact hb
  | some i => exact hP i

/-! ## A concrete case: an allocator, and in memory from it vectors of `u16`, a reference counted value, another bump with boxes in it, an exit stack and chains -/
namespace Compose.ExC86

def b : Unsync.MemBump := ⟨4096, 1024⟩
inductive Which where | vecs | rcs | boxes | exit | chains
  deriving DecidableEq, Repr
/-- `u16`s, in the first allocation. -/
def mineV (x : Nat) : Prop := 4104 ≤ x ∧ x < 4120
def u16 (n : Nat) : FVec.Bits ⟨2, 2⟩ := ⟨[UInt8.ofNat n, 0], rfl⟩
/-- The block of number 0 is the second allocation, other blocks are elsewhere. -/
def rc : RcMem.Cfg := ⟨.w64, ⟨3, 1⟩, fun a => if a = 0 then 4120 else 8192 + 24 * a⟩
/-- In the third allocation. -/
def nested : Unsync.MemBump := ⟨4144, 40⟩
/-- In the fourth. -/
def ex : Exit.ExitMem.Cfg := ⟨.w64, true, 4192, 0x42, 4224, ExC85.vt⟩

/-- In the fifth. -/
def ch : Unsync.ChainMem.Cfg := ⟨.w64, 0xDEADBEEF, fun _ => 0xDD⟩
def mineC (x : Nat) : Prop := 4240 ≤ x ∧ x < 4320

def P : Which → Part
  | .vecs => .vecs .w64 ⟨2, 2⟩ true (fun _ => false) mineV
  | .rcs => .rcs rc true (· = 0)
  | .boxes => .boxes .w64 nested Unsync.BumpBoxes.exPanics
  | .exit => .exit ex
  | .chains => .chains ch mineC

abbrev M (i : Option Which) : Machine := (withAlloc .w64 b P i).machine

def aop (o : AOp) : Σ i, (M i).Op := ⟨none, o⟩
def vop (o : FVec.Op (FVec.Bits ⟨2, 2⟩)) : Σ i, (M i).Op := ⟨some .vecs, o⟩
def rop (o : RcMem.BOp) : Σ i, (M i).Op := ⟨some .rcs, o⟩
def bop (o : Unsync.BumpBoxes.Op) : Σ i, (M i).Op := ⟨some .boxes, o⟩
def eop (o : Exit.ExitMem.BOp) : Σ i, (M i).Op := ⟨some .exit, o⟩

def cop (o : Unsync.COp) : Σ i, (M i).Op := ⟨some .chains, o⟩

def ops : List (Σ i, (M i).Op) := [
  aop (.get ⟨16, 8⟩), vop (.new 4104 10), vop (.push 0 (u16 1)), aop (.get ⟨24, 8⟩), aop (.get ⟨48, 8⟩), rop (.call (.new 0 [1, 2, 3])), bop (.getBoxed Unsync.BumpBoxes.exT [9, 9, 9, 9]), vop (.push 0 (u16 2)),
  aop (.get ⟨48, 8⟩), aop (.get ⟨80, 8⟩), cop (.new 0 8 (some 4240)), eop (.slot 0x42), cop (.bumpBox 0 ⟨4, 4⟩), rop (.call (.clone 0)), cop (.new 1 16 (some 4280)), bop (.assign 0 [2, 2, 2, 2]), eop (.pin ⟨4200, 0x42⟩ [3, 3, 3, 3] (List.replicate 24 0xCD)), vop (.splitBorrowed 0 1), vop (.push 1 (u16 3)),
  rop (.call (.replace 0 [4, 5, 6])), bop (.getBoxed Unsync.BumpBoxes.exP [1, 2, 3, 4, 5, 6, 7, 8]), eop (.write ⟨4200, 0x42⟩ [9, 9, 9, 9]), aop .level, eop .drop, bop (.deref 0), vop (.slice 1), rop (.call (.strongCount 0)),
  rop (.call (.deref 1)), bop (.take 1), vop (.drop 1), cop (.chain 0 1), cop (.write 0 ⟨4264, ⟨4, 4⟩⟩ 1 [255, 255, 255]), vop (.slice 0), cop (.remaining 0), cop (.drop 0), cop (.new 0 40 (some 4248)), aop (.get ⟨2000, 1⟩)]

/-- The memory at first. -/
def mem : Mem := fun x => if 4104 ≤ x ∧ x < 4144 then 7 else 0

theorem rc_ok : rc.Ok where
  type := by refine ⟨⟨⟨0, rfl⟩, ?_⟩, ?_⟩ <;> decide
  disjoint := by
    intro a b hab
    have e : (RcM.rcLayout .w64 ⟨3, 1⟩).size = 24 := by decide
    intro z hz
    simp only [Region.Has, RcMem.Cfg.region, rc, e] at hz
    split at hz <;> split at hz <;> omega
theorem ex_ok : ex.Valid where
  conf :=
    { M := ⟨⟨⟨2, rfl⟩, by decide⟩, by decide⟩
      slot := ⟨⟨⟨3, rfl⟩, by decide⟩, by decide⟩
      bump := ⟨⟨⟨3, rfl⟩, by decide⟩, by decide⟩
      pos := by decide
      aligned := by decide
      no_wrap := by decide }
  M := by decide
  top := by decide
  dtor := fun ty v => by simp [ex, ExC85.vt]
theorem b_ok : b.Valid .w64 := ⟨by decide, by decide, by decide, by decide⟩
theorem u16_ok : (⟨2, 2⟩ : Layout).ValidType .w64 := ⟨⟨⟨1, rfl⟩, by decide⟩, by decide⟩
theorem ok : ∀ i, (P i).Ok
  | .vecs => u16_ok
  | .rcs => rc_ok
  | .boxes => (⟨by decide, by decide, by decide, by decide⟩ : nested.Valid .w64)
  | .exit => ex_ok
  | .chains => trivial

theorem ready : ∀ i, (M i).ready mem
  | none => show b.level .w64 mem ≤ b.cap by decide +kernel
  | some .vecs => trivial
  | some .rcs => trivial
  | some .boxes => show nested.level .w64 mem ≤ nested.cap by decide +kernel
  | some .exit => ⟨by decide +kernel, by decide +kernel⟩
  | some .chains => trivial

def allocOps : List AOp := [.get ⟨16, 8⟩, .get ⟨24, 8⟩, .get ⟨48, 8⟩, .get ⟨48, 8⟩, .get ⟨80, 8⟩, .level, .get ⟨2000, 1⟩]
theorem only_alloc : (only none ops : List (M none).Op) = allocOps := by rfl
/-- What was allocated. -/
theorem allocated : granted allocOps (answers .w64 b 0 allocOps) = [⟨4104, 16⟩, ⟨4120, 24⟩, ⟨4144, 48⟩, ⟨4192, 48⟩, ⟨4240, 80⟩] := by decide +kernel

/-! That each call is permitted can be computed. -/
def checkV (bw : FVec.BWorld ⟨2, 2⟩) (op : FVec.Op (FVec.Bits ⟨2, 2⟩)) : Bool :=
  FVec.permB .w64 ⟨2, 2⟩ ⟨⟨fun _ => none, []⟩, bw.ents, bw.next⟩ op && FVec.noWrapB .w64 op && match op with | .new addr len => decide (4104 ≤ addr) && decide (addr + len ≤ 4120) | _ => true
def checkR (w : RcMem.BWorld) : RcMem.BOp → Bool
  | .call op => RcMem.sizedB rc op && RcM.permB (w.abs rc) op && RcM.boundB .w64 (w.abs rc) op && match op with | .new a _ => decide (a = 0) | _ => true
  | .raw _ _ _ => false
def checkE (s : Exit.ExitMem.BState) : Exit.ExitMem.BOp → Bool
  | .slot ty => decide (s.alive = true) && decide (ty = 0x42)
  | .pin h value image => decide (s.alive = true ∧ h ∈ s.open_ ∧ value.length = 4 ∧ h.vtable = 0x42 ∧ image.length = (ex.slotLayout h.vtable).size)
  | .write h value => decide (s.alive = true ∧ h ∈ s.live ∧ h.vtable = 0x42 ∧ value.length = 4)
  | .set _ _ => false
  | .popAll => s.alive
  | .drop => s.alive
def checkC (s : Unsync.ChainMem.BState) : Unsync.COp → Bool
  | .new h size heap => decide (s.roots h = none) && decide (size < 1000) && match heap with
    | none => true
    | some a => match Unsync.linkLayoutFromSize .w64 size with
      | none => true
      | some L => decide (4240 ≤ a ∧ L.align ∣ a ∧ a + L.size ≤ 4320) && (List.range 80).all fun k => match s.heap.block (4240 + k) with
        | none => true
        | some (L', _) => decide (a + L.size ≤ 4240 + k ∨ 4240 + k + L'.size ≤ a)
  | .bumpBox h T => decide (s.roots h ≠ none) && decide (T = ⟨4, 4⟩)
  | .chain h d => decide (s.roots h ≠ none ∧ s.roots d ≠ none ∧ h ≠ d)
  | .capacity h | .remaining h | .drop h => decide (s.roots h ≠ none)
  | .write h b off bytes => decide ((h, b) ∈ s.granted ∧ off + bytes.length ≤ b.layout.size)
def check : ∀ i, (M i).St → Mem → (M i).Op → Bool
  | none, _, _, op => match op with | .get l => decide (l ∈ [⟨16, 8⟩, ⟨24, 8⟩, ⟨48, 8⟩, ⟨80, 8⟩, ⟨2000, 1⟩]) | .level => true
  | some .vecs, w, _, op => checkV w op
  | some .rcs, w, m, op => checkR { w with m := m } op
  | some .boxes, w, m, op => Unsync.BumpBoxes.permittedB { w with mem := m } op
  | some .exit, w, m, op => checkE { w with mem := m } op
  | some .chains, w, _, op => checkC w op

theorem checkV_sound {bw : FVec.BWorld ⟨2, 2⟩} {m : Mem} {sw : FVec.SWorld (FVec.Bits ⟨2, 2⟩)} {op : FVec.Op (FVec.Bits ⟨2, 2⟩)} (hr : vecRel .w64 ⟨2, 2⟩ mineV bw m sw) (h : checkV bw op = true) :
    (vecMachine .w64 ⟨2, 2⟩ true (fun _ => false) mineV).permitted bw m op := by
  obtain ⟨w, q, r, _⟩ := hr
  simp only [checkV, Bool.and_eq_true] at h
  have hperm : FVec.permB .w64 ⟨2, 2⟩ w op = true := by
    rw [← h.1.1]
    have e1 : bw.ents = w.ents := r.ents
    have e2 : bw.next = w.next := r.next
    rw [e1, e2]
    rfl
  refine ⟨?_, ?_, fun addr len e x hx => ?_⟩
  · have := (FVec.bytes_permitted r).mpr (FVec.permB_sound q hperm)
    cases op <;> exact this
  · cases op with
    | drain i lo hi => exact .inr (by simpa [FVec.noWrapB] using h.1.2)
    | _ => trivial
  · subst e
    simp only [Bool.and_eq_true, decide_eq_true_eq] at h
    exact ⟨by have := hx.1; simp only at this; omega, by have := hx.2; simp only at this; omega⟩

theorem checkR_sound {w : RcMem.BWorld} {m : Mem} {op : RcMem.BOp} (h : checkR { w with m := m } op = true) : (rcMachine rc true (· = 0)).permitted w m op := by
  cases op with
  | raw a off bs => cases h
  | call op =>
    simp only [checkR, Bool.and_eq_true] at h
    refine ⟨⟨RcMem.sizedB_sound h.1.1.1, RcM.permB_sound h.1.1.2, RcM.boundB_sound h.1.2⟩, fun a v e => ?_, fun a off bs e => by cases e⟩
    cases e
    simpa using h.2

theorem checkE_sound {w : Exit.ExitMem.BState} {m : Mem} {op : Exit.ExitMem.BOp} (h : checkE { w with mem := m } op = true) : (exitMachine ex).permitted w m op := by
  cases op with
  | slot ty =>
    simp only [checkE, Bool.and_eq_true, decide_eq_true_eq] at h
    obtain ⟨h1, rfl⟩ := h
    exact ⟨h1, by decide, ⟨⟨⟨2, rfl⟩, by decide⟩, by decide⟩, ⟨⟨⟨3, rfl⟩, by decide⟩, by decide⟩⟩
  | pin g value image =>
    simp only [checkE, decide_eq_true_eq] at h
    exact ⟨h.1, h.2.1, by rw [h.2.2.2.1]; exact h.2.2.1, h.2.2.2.2⟩
  | write g value =>
    simp only [checkE, decide_eq_true_eq] at h
    exact ⟨h.1, h.2.1, by rw [h.2.2.1]; exact h.2.2.2⟩
  | set _ _ => cases h
  | popAll => exact h
  | drop => exact h

theorem checkC_sound {w : Unsync.ChainMem.BState} {m : Mem} {σ : Unsync.ChainMem.Chains} {op : Unsync.COp} (hr : chainRel ch mineC w m σ) (h : checkC w op = true) : (chainMachine ch mineC).permitted w m op := by
  cases op with
  | new k size heap =>
    simp only [checkC, Bool.and_eq_true, decide_eq_true_eq] at h
    obtain ⟨⟨h1, h2⟩, h3⟩ := h
    have key : ∀ a L, heap = some a → Unsync.linkLayoutFromSize .w64 size = some L → (4240 ≤ a ∧ L.align ∣ a ∧ a + L.size ≤ 4320) ∧
        ∀ a' L' n, w.heap.block a' = some (L', n) → Region.Disjoint ⟨a, L.size⟩ ⟨a', L'.size⟩ := by
      intro a L ha hL
      subst ha
      simp only [hL, Bool.and_eq_true, decide_eq_true_eq, List.all_eq_true, List.mem_range] at h3
      refine ⟨h3.1, fun a' L' n hb x ⟨x1, x2⟩ => ?_⟩
      have hin := hr.2 a' L' n hb
      have hsz : 16 ≤ L'.size := hin.1
      have hm : mineC a' := hin.2 a' ⟨Nat.le_refl _, by show a' < a' + L'.size; omega⟩
      have := h3.2 (a' - 4240) (by have := hm.2; have := hm.1; omega)
      rw [show 4240 + (a' - 4240) = a' by have := hm.1; omega, hb] at this
      simp only [decide_eq_true_eq] at this
      simp only [Region.Has] at x1 x2
      omega
    refine ⟨⟨h1, Nat.lt_trans h2 (by decide), fun a L ha hL => ?_⟩, fun k' size' a L e hL x hx => ?_⟩
    · obtain ⟨⟨k1, k2, k3⟩, k4⟩ := key a L ha hL
      exact ⟨by omega, k2, Nat.le_trans k3 (by decide), k4⟩
    · cases e
      obtain ⟨⟨k1, k2, k3⟩, k4⟩ := key a L rfl hL
      simp only [Region.Has] at hx
      exact ⟨by omega, by omega⟩
  | bumpBox k T =>
    simp only [checkC, Bool.and_eq_true, decide_eq_true_eq] at h
    obtain ⟨h1, rfl⟩ := h
    exact ⟨⟨h1, ⟨⟨2, rfl⟩, by decide⟩, by decide⟩, fun _ _ _ _ e => by cases e⟩
  | chain k d => exact ⟨by simp only [checkC, decide_eq_true_eq] at h; exact h, fun _ _ _ _ e => by cases e⟩
  | capacity k => exact ⟨by simp only [checkC, decide_eq_true_eq] at h; exact h, fun _ _ _ _ e => by cases e⟩
  | remaining k => exact ⟨by simp only [checkC, decide_eq_true_eq] at h; exact h, fun _ _ _ _ e => by cases e⟩
  | drop k => exact ⟨by simp only [checkC, decide_eq_true_eq] at h; exact h, fun _ _ _ _ e => by cases e⟩
  | write k b off bytes => exact ⟨by simp only [checkC, decide_eq_true_eq] at h; exact h, fun _ _ _ _ e => by cases e⟩

theorem check_sound : ∀ i, ∃ Rel, (M i).SoundBy Rel ∧ ∀ s m sp op, Rel s m sp → check i s m op = true → (M i).permitted s m op
  | none => by
    obtain ⟨Rel, h⟩ := allocMachine_sound b_ok
    refine ⟨Rel, h, fun s m sp op _ hc => ?_⟩
    cases op with
    | level => trivial
    | get l =>
      show l.Valid .w64
      have hc : l ∈ [⟨16, 8⟩, ⟨24, 8⟩, ⟨48, 8⟩, ⟨80, 8⟩, ⟨2000, 1⟩] := by simpa [check] using hc
      simp only [List.mem_cons, List.not_mem_nil, or_false] at hc
      rcases hc with rfl | rfl | rfl | rfl | rfl
      · exact ⟨⟨3, rfl⟩, by decide⟩
      · exact ⟨⟨3, rfl⟩, by decide⟩
      · exact ⟨⟨3, rfl⟩, by decide⟩
      · exact ⟨⟨3, rfl⟩, by decide⟩
      · exact ⟨⟨0, rfl⟩, by decide⟩
  | some .vecs => ⟨_, vecMachine_soundBy u16_ok true (fun _ => false) mineV, fun s m sp op hr hc => checkV_sound hr hc⟩
  | some .rcs => by
    obtain ⟨Rel, h⟩ := rcMachine_sound rc_ok true (· = 0)
    exact ⟨Rel, h, fun s m sp op _ hc => checkR_sound hc⟩
  | some .boxes => by
    obtain ⟨Rel, h⟩ := boxMachine_sound (t := .w64) (b := nested) (ok .boxes) Unsync.BumpBoxes.exPanics
    exact ⟨Rel, h, fun s m sp op _ hc => Unsync.BumpBoxes.permittedB_sound hc⟩
  | some .exit => by
    obtain ⟨Rel, h⟩ := exitMachine_sound ex_ok
    exact ⟨Rel, h, fun s m sp op _ hc => checkE_sound hc⟩
  | some .chains => ⟨_, chainMachine_soundBy ch mineC, fun s m sp op hr hc => checkC_sound hr hc⟩

/-- Which structure each allocation is for. -/
def share : Nat → Which
  | 0 => .vecs
  | 1 => .rcs
  | 2 => .boxes
  | 3 => .exit
  | _ => .chains

theorem owns : ∀ i x, (P i).machine.own x → ∃ (k : Nat) (r : Region), (granted allocOps (answers .w64 b 0 allocOps))[k]? = some r ∧ share k = i ∧ r.Has x := by
  intro i x h
  rw [allocated]
  cases i with
  | vecs => exact ⟨0, _, rfl, rfl, h⟩
  | rcs =>
    obtain ⟨a, rfl, h⟩ := h
    exact ⟨1, _, rfl, rfl, h⟩
  | boxes => exact ⟨2, _, rfl, rfl, h⟩
  | chains => exact ⟨4, _, rfl, rfl, h⟩
  | exit =>
    refine ⟨3, _, rfl, rfl, ?_⟩
    have e : (ex.slotLayout ex.M).size = 24 := by decide
    rcases h with h | h <;> simp only [Region.Has, ex, Target.wordBytes] at h e <;> simp only [Region.Has] <;> omega

theorem gets_valid : ∀ l, .get l ∈ allocOps → l.Valid .w64 := by
  intro l hl
  simp only [allocOps, List.mem_cons, List.not_mem_nil, or_false, AOp.get.injEq, reduceCtorEq, false_or] at hl
  rcases hl with rfl | rfl | rfl | rfl | rfl | rfl
  · exact ⟨⟨3, rfl⟩, by decide⟩
  · exact ⟨⟨3, rfl⟩, by decide⟩
  · exact ⟨⟨3, rfl⟩, by decide⟩
  · exact ⟨⟨3, rfl⟩, by decide⟩
  · exact ⟨⟨3, rfl⟩, by decide⟩
  · exact ⟨⟨0, rfl⟩, by decide⟩

theorem safe : Compose.SafeRun M (start M) mem ops :=
  safe_of_check (Rel := fun i => Classical.choose (check_sound i)) (fun i => (Classical.choose_spec (check_sound i)).1) (apart_of_granted gets_valid share owns)
    (fun i => (Classical.choose_spec (check_sound i)).2) ready (by decide +kernel)

theorem alloc_run : ∃ m1, (allocMachine .w64 b).run () mem allocOps = some (answers .w64 b 0 allocOps, (), m1) := by
  have hs : (allocMachine .w64 b).SafeRun () mem allocOps := by
    have v := fun l h => gets_valid l h
    exact ⟨v _ (by decide), fun _ _ _ _ _ => ⟨v _ (by decide), fun _ _ _ _ _ => ⟨v _ (by decide), fun _ _ _ _ _ => ⟨v _ (by decide), fun _ _ _ _ _ => ⟨v _ (by decide), fun _ _ _ _ _ => ⟨trivial, fun _ _ _ _ _ => ⟨v _ (by decide), fun _ _ _ _ _ => trivial⟩⟩⟩⟩⟩⟩⟩
  obtain ⟨_, m', e, _⟩ := (allocMachine_sound b_ok).run_srun (ready none) hs
  have h0 : b.level .w64 mem = 0 := by decide +kernel
  exact ⟨m', by rw [← h0]; exact e⟩

/-- The answers of each, with the types that they have. -/
def fromAlloc (rs : List (Σ i, (M i).Resp)) : List AResp := only none rs
def fromVecs (rs : List (Σ i, (M i).Resp)) : List (FVec.Resp (FVec.Bits ⟨2, 2⟩)) := only (some Which.vecs) rs
def fromRcs (rs : List (Σ i, (M i).Resp)) : List RcMem.BResp := only (some Which.rcs) rs
def fromBoxes (rs : List (Σ i, (M i).Resp)) : List Unsync.BumpBoxes.Resp := only (some Which.boxes) rs
def fromChains (rs : List (Σ i, (M i).Resp)) : List Unsync.CRet := only (some Which.chains) rs
def fromExit (rs : List (Σ i, (M i).Resp)) : List Exit.ExitMem.Seen := only (some Which.exit) rs

/-- The answers of the specifications. -/
def fromVecs' (ops : List (Σ i, (M i).Op)) : List (FVec.Resp (FVec.Bits ⟨2, 2⟩)) := (M (some .vecs)).srun ((M (some .vecs)).sstart mem) (only (some Which.vecs) ops)
def fromRcs' (ops : List (Σ i, (M i).Op)) : List RcMem.BResp := (M (some .rcs)).srun ((M (some .rcs)).sstart mem) (only (some Which.rcs) ops)
def fromBoxes' (ops : List (Σ i, (M i).Op)) : List Unsync.BumpBoxes.Resp := (M (some .boxes)).srun ((M (some .boxes)).sstart mem) (only (some Which.boxes) ops)
def fromChains' (ops : List (Σ i, (M i).Op)) : List Unsync.CRet := (M (some .chains)).srun ((M (some .chains)).sstart mem) (only (some Which.chains) ops)
def fromExit' (ops : List (Σ i, (M i).Op)) : List Exit.ExitMem.Seen := (M (some .exit)).srun ((M (some .exit)).sstart mem) (only (some Which.exit) ops)

/-- What they answer. -/
example : ∃ rs v m', Compose.run M (start M) mem ops = some (rs, v, m') ∧
    fromAlloc rs = [.some 4104, .some 4120, .some 4144, .some 4192, .some 4240, .num 216, .none] ∧
    fromVecs rs = [.num 0, .pushed (.ok ()), .pushed (.ok ()), .num 1, .pushed (.ok ()), .vals [u16 2, u16 3], .unit, .vals [u16 1]] ∧
    fromRcs rs = [.handle 0, .handle 1, .err, .num 2, .val [1, 2, 3]] ∧
    fromBoxes rs = [.made, .unwound, .made, .val [2, 2, 2, 2], .val [1, 2, 3, 4, 5, 6, 7, 8]] ∧
    fromExit rs = [.ret (.addr 4200), .ret (.addr 4216), .ret .unit, .unwound] ∧
    fromChains rs = [.unit, .ptr 4264, .unit, .unit, .unit, .num 16, .unit, .unit] := by
  obtain ⟨m1, hl⟩ := alloc_run
  obtain ⟨rs, v, m', e, h1, h2, h3, -⟩ := C86_in_allocated_memory (ops := ops) b_ok ok ready gets_valid hl share owns safe
  have hlen : rs.length = 37 := by
    have : (Compose.run M (start M) mem ops).map (fun x => x.1.length) = some 37 := by decide +kernel
    have e : Compose.run M (start M) mem ops = _ := e
    rw [e] at this
    simpa using this
  rw [hlen] at h2
  refine ⟨rs, v, m', e, (h2 none).trans ?_, (h2 (some .vecs)).trans ?_, (h2 (some .rcs)).trans ?_, (h2 (some .boxes)).trans ?_, (h2 (some .exit)).trans ?_, (h2 (some .chains)).trans ?_⟩
  · show (allocMachine .w64 b).srun (b.level .w64 mem) allocOps = ([.some 4104, .some 4120, .some 4144, .some 4192, .some 4240, .num 216, .none] : List AResp)
    show answers .w64 b (b.level .w64 mem) allocOps = _
    decide +kernel
  · show (fromVecs' ops) = _
    decide +kernel
  · show (fromRcs' ops) = _
    decide +kernel
  · show (fromBoxes' ops) = _
    decide +kernel
  · show (fromExit' ops) = _
    decide +kernel
  · show (fromChains' ops) = _
    decide +kernel

end Compose.ExC86

end Verif
