import Verif.Proofs.Program
import Verif.Props.Compose
import Verif.Props.ConcGlobal
/-! # C89: threads that use the data structures in memory of the global allocator -/
namespace Verif
open Compose AllocTraits

section
variable {ι : Type} [DecidableEq ι] {P : ι → Part} {n : Nat} {e : Bump.Env}

/-- The machines of the parts. -/
abbrev Program.machines (P : ι → Part) (i : ι) : Machine := (P i).machine

theorem Program.inv (he : e.Valid) (hP : ∀ i, (P i).Ok) {s : Program.State (Program.machines P) n} (hs : Program.Reach (Program.machines P) n e s) :
    ∃ Rel, Program.PInv Rel e s :=
  ⟨fun i => Classical.choose (hP i).sound, hs.inv he fun i => Classical.choose_spec (hP i).sound⟩

/-- **C89** Whatever the threads do, in whatever order: no call of a data structure is undefined behaviour; -/
theorem C89_no_ub (he : e.Valid) (hP : ∀ i, (P i).Ok) {s : Program.State (Program.machines P) n} (hs : Program.Reach (Program.machines P) n e s) : s.ub = false := by
  obtain ⟨_, h⟩ := Program.inv he hP hs
  exact h.ub

/-- **C89** and each structure has answered to its calls, since it was made, what its specification (which knows neither memory, nor the allocator, nor the other threads and structures) says. -/
theorem C89_answers (he : e.Valid) (hP : ∀ i, (P i).Ok) {s : Program.State (Program.machines P) n} (hs : Program.Reach (Program.machines P) n e s) {i : ι} {u : Program.Use (P i).machine}
    (hu : (s.part i).use = some u) : u.calls.map (·.2) = (P i).machine.srun u.made (u.calls.map (·.1)) := by
  obtain ⟨_, h⟩ := Program.inv he hP hs
  exact h.answers hu

/-- **C89** The allocator is in a state that it also reaches without the structures, so C70 to C74 hold; the blocks of a structure remain allocated, all its bytes are in them, and so in the storage of the allocator. -/
theorem C89_allocator (he : e.Valid) (hP : ∀ i, (P i).Ok) {s : Program.State (Program.machines P) n} (hs : Program.Reach (Program.machines P) n e s) :
    Bump.Conc.Reachable e s.al ∧ ∀ i u, (s.part i).use = some u → (∀ b ∈ u.blocks, b ∈ s.al.live) ∧ ∀ x, (P i).machine.own x → (∃ b ∈ u.blocks, b.region.Has x) ∧ Region.Has ⟨e.base, e.len⟩ x := by
  obtain ⟨_, h⟩ := Program.inv he hP hs
  refine ⟨h.al, fun i u hu => ⟨h.live hu, fun x hx => ?_⟩⟩
  obtain ⟨b, hb, hbx⟩ := h.own hu x hx
  exact ⟨⟨b, hb, hbx⟩, ((C70_live_blocks he h.al).2 b (h.live hu b hb)).2.2.has hbx⟩

/-- **C89** No data races: a byte of a structure is not a byte of another one, and no thread inside of the allocator is about to access it. -/
theorem C89_no_data_race (he : e.Valid) (hP : ∀ i, (P i).Ok) {s : Program.State (Program.machines P) n} (hs : Program.Reach (Program.machines P) n e s) {i : ι} {u : Program.Use (P i).machine}
    (hu : (s.part i).use = some u) {x : Nat} (hx : (P i).machine.own x) :
    (∀ j v, j ≠ i → (s.part j).use = some v → ¬ (P j).machine.own x) ∧ ∀ t, ¬ writesByte s.al t x ∧ ¬ readsByte s.al t x := by
  obtain ⟨_, h⟩ := Program.inv he hP hs
  obtain ⟨b, hb, hbx⟩ := h.own hu x hx
  have hbl := h.live hu b hb
  refine ⟨fun j v hj hv hx' => ?_, fun t => ?_⟩
  · obtain ⟨c, hc, hcx⟩ := h.own hv x hx'
    have hne : b ≠ c := by
      rintro rfl
      exact h.apart i j u v (Ne.symm hj) hu hv b hb hc
    exact Bump.Conc.apart_of_ne (h.al.inv he) (i := none) (j := none) hbl (h.live hv c hc) (.inr hne) x ⟨hbx, hcx⟩
  · have h2 := (C74_no_data_race he h.al (t := t) (x := x)).2
    exact ⟨fun hw => h2 (.inl hw) b hbl hbx, fun hr => h2 (.inr hr) b hbl hbx⟩

/-- The event is about this structure. -/
def Program.About (i : ι) : Program.Event (Program.machines P) n → Prop
  | .al _ => False
  | .make j _ | .call j _ | .write j _ _ _ | .finish j | .gone j => j = i

/-- **C89** The bytes of a structure are changed by its own calls only. -/
theorem C89_undisturbed (he : e.Valid) (hP : ∀ i, (P i).Ok) {s : Program.State (Program.machines P) n} (hs : Program.Reach (Program.machines P) n e s) {i : ι} {u : Program.Use (P i).machine}
    (hu : (s.part i).use = some u) {x : Nat} (hx : (P i).machine.own x) {ev : Program.Event (Program.machines P) n} (hp : ev.Permitted e s) (hev : ¬ Program.About i ev) :
    (Program.exec e s ev).mem x = s.mem x := by
  obtain ⟨_, h⟩ := Program.inv he hP hs
  obtain ⟨b, hb, hbx⟩ := h.own hu x hx
  have hbl := h.live hu b hb
  cases ev with
  | al ev => exact (Program.exec_keeps he h.al hbl fun hd => hp.2 b hd ⟨i, u, hu, hb⟩).2 x hbx
  | make j blocks => rfl
  | gone j => rfl
  | call j op =>
    obtain ⟨v, hv, -⟩ := hp
    simp only [Program.exec, hv]
    rfl
  | write j c off bs =>
    obtain ⟨v, op, view, hv, hc⟩ := hp
    have hji : j ≠ i := hev
    have hvu : (s.part j).use = some v := by rw [hv]; rfl
    simp only [Program.exec, hv]
    exact (Program.exec_keeps he h.al hbl (ev := .userWrite c off bs) fun hd => h.apart j i v u hji hvu hu c hc (by cases (hd : c = b); exact hb)).2 x hbx
  | finish j =>
    obtain ⟨v, op, view, hv⟩ := hp
    have hji : j ≠ i := hev
    have hvu : (s.part j).use = some v := by rw [hv]; rfl
    simp only [Program.exec, hv]
    cases hex : (P j).machine.exec v.vars view op with
    | none => rfl
    | some r =>
      obtain ⟨r, w, m⟩ := r
      exact (Program.copyBack_spec he (m := m) h.al (h.live hvu)).2.2.2 b hbl (fun hbv => h.apart j i v u hji hvu hu b hbv hb) x hbx
end

/-! ## A concrete case: two threads; vectors, a reference counted value, boxes in a bump, an exit stack and chains -/
namespace Program.ExC89
open Compose.ExC86 (Which u16 vop)

/-- The static storage: 300 bytes. -/
def env : Bump.Env := ⟨.w64, 4104, 300, id⟩
theorem env_valid : env.Valid := ⟨by decide, by decide, by decide, fun a h => ⟨h.pos, Nat.dvd_refl a⟩⟩
abbrev M (i : Which) : Machine := machines ExC86.P i
abbrev Ev := Event M 2

def inv (t : Fin 2) (op : Bump.Conc.Op) : Ev := .al (.invoke t op)
/-- Steps of both threads in turn. -/
def both (k : Nat) : List Ev := (List.replicate k [.al (.step 0), .al (.step 1)]).flatten
def vec (o : FVec.Op (FVec.Bits ⟨2, 2⟩)) : Ev := .call .vecs o
def rcs (o : RcM.Op (List Byte)) : Ev := .call .rcs (RcMem.BOp.call o)
def box (o : Unsync.BumpBoxes.Op) : Ev := .call .boxes o
def exit (o : Exit.ExitMem.BOp) : Ev := .call .exit o
def cha (o : Unsync.COp) : Ev := .call .chains o
def bV : Block := ⟨4104, ⟨16, 8⟩⟩
def bR : Block := ⟨4120, ⟨24, 8⟩⟩
def bB : Block := ⟨4144, ⟨48, 8⟩⟩
def bE : Block := ⟨4192, ⟨48, 8⟩⟩
def bC : Block := ⟨4240, ⟨80, 8⟩⟩

/-- Both threads allocate at the same time. Then calls of the structures overlap with each other and with further allocations. At last the memory of the reference counted value is freed. -/
def evs : List Ev :=
  [inv 0 (.alloc ⟨16, 8⟩), inv 1 (.alloc ⟨24, 8⟩)] ++ both 12 ++
  [.make .vecs [bV], .make .rcs [bR], vec (.new 4104 10), rcs (.new 0 [1, 2, 3]), .write .vecs bV 0 [99], .finish .rcs, inv 1 (.allocZeroed ⟨48, 8⟩), .finish .vecs, vec (.push 0 (u16 1))] ++ both 30 ++
  [rcs (.clone 0), .write .vecs bV 1 [5], .write .rcs bR 3 [1, 2, 3], .finish .vecs] ++ both 30 ++
  [.finish .rcs, vec (.push 0 (u16 2)), inv 0 (.allocZeroed ⟨48, 8⟩), .make .boxes [bB], box (.getBoxed Unsync.BumpBoxes.exT [9, 9, 9, 9])] ++ both 60 ++
  [.make .exit [bE], .finish .vecs, .finish .boxes, exit (.slot 0x42), rcs (.dropRc 0), vec (.slice 0), .finish .exit, box (.deref 0), exit (.pin ⟨4200, 0x42⟩ [3, 3, 3, 3] (List.replicate 24 0xCD)), .finish .vecs, .finish .rcs, .finish .boxes,
    rcs (.strongCount 1), .finish .exit, .finish .rcs, .gone .rcs, inv 1 (.alloc ⟨80, 8⟩)] ++ both 12 ++
  [inv 1 (.dealloc bR), .al (.userWrite bR 0 [1]), .make .chains [bC], cha (.new 0 8 (some 4240))] ++ both 5 ++
  [.write .chains bC 50 [1, 2], .finish .chains, cha (.new 1 16 (some 4280)), .finish .chains, cha (.bumpBox 0 ⟨4, 4⟩), .finish .chains, cha (.chain 1 0), .finish .chains, cha (.remaining 1), .finish .chains]

def validB : Bump.Conc.Event 2 → Bool
  | .invoke _ (.alloc l) | .invoke _ (.allocZeroed l) => decide (l ∈ [(⟨16, 8⟩ : Layout), ⟨24, 8⟩, ⟨48, 8⟩, ⟨80, 8⟩])
  | .invoke _ (.dealloc _) => true
  | .invoke _ _ => false
  | _ => true
theorem validB_sound (ev : Bump.Conc.Event 2) (h : validB ev = true) : ev.Valid env.target := by
  have key : ∀ l, l ∈ [(⟨16, 8⟩ : Layout), ⟨24, 8⟩, ⟨48, 8⟩, ⟨80, 8⟩] → l.Valid .w64 ∧ 0 < l.size := by
    intro l hl
    simp only [List.mem_cons, List.not_mem_nil, or_false] at hl
    rcases hl with rfl | rfl | rfl | rfl <;> exact ⟨⟨⟨3, rfl⟩, by decide⟩, by decide⟩
  cases ev with
  | invoke t op =>
    cases op with
    | alloc l => exact key l (by simpa [validB] using h)
    | allocZeroed l => exact key l (by simpa [validB] using h)
    | dealloc b => trivial
    | realloc _ _ => cases h
    | api _ => cases h
  | step t => trivial
  | userWrite _ _ _ => trivial
  | reset => trivial

def permB (i : Which) : (M i).St → Mem → (M i).Op → Bool := ExC86.check (some i)
def roomB (i : Which) (blocks : List Block) (m : Mem) : Bool :=
  match i with
  | .vecs => decide (blocks = [bV])
  | .rcs => decide (blocks = [bR])
  | .chains => decide (blocks = [bC])
  | .boxes => decide (blocks = [bB]) && decide (ExC86.nested.level .w64 m ≤ 40)
  | .exit => decide (blocks = [bE]) && decide (loadUsize .w64 m 4192 = 0 ∧ Exit.ExitMem.loadHandle .w64 m 4224 = none)
theorem roomB_sound (i : Which) (blocks : List Block) (m : Mem) (h : roomB i blocks m = true) : (∀ x, (M i).own x → ∃ b ∈ blocks, b.region.Has x) ∧ (M i).ready m := by
  cases i with
  | vecs =>
    simp only [roomB, decide_eq_true_eq] at h
    subst h
    exact ⟨fun x hx => ⟨bV, by simp, hx⟩, trivial⟩
  | chains =>
    simp only [roomB, decide_eq_true_eq] at h
    subst h
    exact ⟨fun x hx => ⟨bC, by simp, hx⟩, trivial⟩
  | rcs =>
    simp only [roomB, decide_eq_true_eq] at h
    subst h
    refine ⟨fun x hx => ⟨bR, by simp, ?_⟩, trivial⟩
    obtain ⟨a, rfl, h⟩ := hx
    exact h
  | boxes =>
    simp only [roomB, Bool.and_eq_true, decide_eq_true_eq] at h
    obtain ⟨rfl, h⟩ := h
    exact ⟨fun x hx => ⟨bB, by simp, hx⟩, h⟩
  | exit =>
    simp only [roomB, Bool.and_eq_true, decide_eq_true_eq] at h
    obtain ⟨rfl, h⟩ := h
    refine ⟨fun x hx => ⟨bE, by simp, ?_⟩, h⟩
    have e : (ExC86.ex.slotLayout ExC86.ex.M).size = 24 := by decide
    rcases hx with hx | hx <;> simp only [Region.Has, ExC86.ex, Target.wordBytes] at hx e <;> simp only [Region.Has, bE, Block.region] <;> omega

def parts : List Which := [.vecs, .rcs, .boxes, .exit, .chains]
def final : Option (State M 2) := checkedRun (checkEvent parts validB permB roomB) env (initial M 2 0 fun _ => 7) evs

theorem final_reach {s : State M 2} (h : final = some s) : Reach M 2 env s :=
  checkedRun_reach env_valid (Rel := fun i => Classical.choose (ExC86.check_sound (some i))) (fun i => (Classical.choose_spec (ExC86.check_sound (some i))).1)
    (fun s ev => checkEvent_sound (fun i => by cases i <;> simp [parts]) validB_sound (fun i s m sp op hr hc => (Classical.choose_spec (ExC86.check_sound (some i))).2 s m sp op hr hc) roomB_sound)
    (.init (Nat.zero_le _)) h

def vecCalls (s : State M 2) : List (FVec.Resp (FVec.Bits ⟨2, 2⟩)) := match s.part .vecs with | .rest u => u.calls.map (·.2) | _ => []
def boxCalls (s : State M 2) : List Unsync.BumpBoxes.Resp := match s.part .boxes with | .rest u => u.calls.map (·.2) | _ => []
def exitCalls (s : State M 2) : List Exit.ExitMem.Seen := match s.part .exit with | .rest u => u.calls.map (·.2) | _ => []
def chainCalls (s : State M 2) : List Unsync.CRet := match s.part .chains with | .rest u => u.calls.map (·.2) | _ => []

/-- Such a program, and what the structures answer in it. -/
example : ∃ s, Reach M 2 env s ∧ vecCalls s = [.num 0, .pushed (.ok ()), .pushed (.ok ()), .vals [u16 1, u16 2]] ∧ boxCalls s = [.made, .val [9, 9, 9, 9]] ∧ exitCalls s = [.ret (.addr 4200), .ret (.addr 4216)] ∧
    chainCalls s = [.unit, .unit, .ptr 4264, .unit, .num 4] ∧ s.al.live = [bC, bE, bB, bV] ∧ s.al.bump.consumed = 216 := by
  have h : final.isSome = true := by decide +kernel
  obtain ⟨s, hs⟩ := Option.isSome_iff_exists.mp h
  refine ⟨s, final_reach hs, ?_, ?_, ?_, ?_, ?_, ?_⟩
  · have : final.map vecCalls = some [.num 0, .pushed (.ok ()), .pushed (.ok ()), .vals [u16 1, u16 2]] := by decide +kernel
    rw [hs] at this; simpa using this
  · have : final.map boxCalls = some [.made, .val [9, 9, 9, 9]] := by decide +kernel
    rw [hs] at this; simpa using this
  · have : final.map exitCalls = some [.ret (.addr 4200), .ret (.addr 4216)] := by decide +kernel
    rw [hs] at this; simpa using this
  · have : final.map chainCalls = some [.unit, .unit, .ptr 4264, .unit, .num 4] := by decide +kernel
    rw [hs] at this; simpa using this
  · have : final.map (fun s => s.al.live) = some [bC, bE, bB, bV] := by decide +kernel
    rw [hs] at this; simpa using this
  · have : final.map (fun s => s.al.bump.consumed) = some 216 := by decide +kernel
    rw [hs] at this; simpa using this
end Program.ExC89

end Verif
