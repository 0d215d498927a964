import Verif.Model.BoxMem
import Verif.Spec.Uninit
/-!
# Specification of pieces of memory and boxes: there is no memory, variables hold their values

The position of a piece is only a name for it. What casting and splitting do to a piece is said by `pieces`, in terms of address, length, size and alignment.
-/
set_option autoImplicit false
namespace Verif.BoxMem
open Verif Uninit

/-- A variable with its value, if there is one. -/
inductive SHandle where
  | piece (v : AnyView) (val : Option (List Byte))
  | boxed (v : View) (val : List Byte)
  | ref (v : View) (val : List Byte)
  deriving DecidableEq, Repr

/-- The variables, the destructors run so far, and the values that were lost without their destructor being run. -/
structure SWorld where
  hs : Nat → Option SHandle
  dropped : List (Layout × List Byte)
  lost : List (List Byte)

instance (r : Region) (l : Layout) : Decidable (CanHold r l) := inferInstanceAs (Decidable (_ ∧ _))

/-- Number of elements that a slice in the memory has (`usize::MAX` if they have no size). -/
def fitting (t : Target) (len : Nat) (U : Layout) : Nat := if U.size = 0 then t.usizeMax else len / U.size

/-- The piece stays as it is, or becomes the first one, and then there may be a second one. -/
def pieces (t : Target) : AnyView → VOp → List AnyView
  | .sized v, .cast U => if CanHold ⟨v.addr, v.len⟩ U then [.sized ⟨v.addr, v.len, U⟩] else [.sized v]
  | .sized v, .castSlice U => if U.align ∣ v.addr then [.slice ⟨v.addr, v.len, U, fitting t v.len U⟩] else [.sized v]
  | .sized v, .splitAtByte n => if v.T.size ≤ n ∧ n ≤ v.len then [.sized ⟨v.addr, n, v.T⟩, .sized ⟨v.addr + n, v.len - n, unit⟩] else [.sized v]
  | .sized v, .splitToFit => [.sized ⟨v.addr, v.T.size, v.T⟩, .sized ⟨v.addr + v.T.size, v.len - v.T.size, unit⟩]
  | .sized v, .asMemory => [.sized ⟨v.addr, v.len, unit⟩]
  | .slice v, .asMemory => [.sized ⟨v.addr, v.len, unit⟩]
  | .sized v, .unsize U n => [.slice ⟨v.addr, v.len, U, n⟩]
  | .sized v, .splitLayout l => if CanHold ⟨v.addr, v.len⟩ l then [.sized ⟨v.addr, 0, unit⟩, .sized ⟨v.addr, v.len, unit⟩] else [.sized v]
  | .sized v, .splitCast U => if CanHold ⟨v.addr, v.len⟩ U then [.sized ⟨v.addr, 0, unit⟩, .sized ⟨v.addr, v.len, U⟩] else [.sized v]
  | .sized v, .splitSlice U => if U.align ∣ v.addr then [.sized ⟨v.addr, 0, unit⟩, .slice ⟨v.addr, v.len, U, fitting t v.len U⟩] else [.sized v]
  | .slice v, .splitAt n =>
    let at_ := n * v.T.size
    if at_ ≤ v.len then [.slice ⟨v.addr, at_, v.T, v.count⟩, .slice ⟨v.addr + at_, v.len - at_, v.T, fitting t (v.len - at_) v.T⟩] else [.slice v]
  | .slice v, .shrinkToFit =>
    let at_ := fitting t v.len v.T * v.T.size
    [.slice ⟨v.addr, at_, v.T, v.count⟩, .sized ⟨v.addr + at_, v.len - at_, unit⟩]
  | .slice v, .splitFirst =>
    let at_ := v.T.size
    if at_ ≤ v.len then [.slice ⟨v.addr + at_, v.len - at_, v.T, fitting t (v.len - at_) v.T⟩, .sized ⟨v.addr, at_, v.T⟩] else [.slice v]
  | .slice v, .splitLast =>
    let at_ := (fitting t v.len v.T - 1) * v.T.size
    if v.T.size ≤ v.len then [.slice ⟨v.addr, at_, v.T, v.count⟩, .sized ⟨v.addr + at_, v.len - at_, v.T⟩] else [.slice v]
  | v, _ => [v]

def sdeclare (w : SWorld) (k : Nat) (v : AnyView) : Resp × SWorld := (.views [v], { w with hs := upd w.hs k (some (.piece v none)) })

/-- The value that is in the variable. -/
def SHandle.val? : SHandle → Option (List Byte)
  | .piece _ o => o
  | .boxed _ v | .ref _ v => some v

/-- The value that is in the variable, if any, is not owned by anything from now on. -/
def SWorld.lose (w : SWorld) (o : Option (List Byte)) : SWorld := { w with lost := w.lost ++ o.toList }

/-- One statement. -/
def sexec (t : Target) (panics : Layout → List Byte → Bool) (w : SWorld) : Op → Resp × SWorld
  | .memory k addr len => sdeclare w k (.sized ⟨addr, len, unit⟩)
  | .place k T addr => sdeclare w k (.sized ⟨addr, T.size, T⟩)
  | .placeSlice k T addr n => sdeclare w k (.slice ⟨addr, n * T.size, T, fitting t (n * T.size) T⟩)
  | .zst k T => if T.size = 0 then sdeclare w k (.sized ⟨T.align, 0, T⟩) else (.panicked, w)
  | .view k k' op =>
    match w.hs k with
    | some (.piece v o) =>
      match pieces t v op with
      | [a] => (.views [a], { w with hs := upd w.hs k (some (.piece a none)) }.lose o)
      | [a, b] => (.views [a, b], { w with hs := upd (upd w.hs k (some (.piece a none))) k' (some (.piece b none)) }.lose o)
      | _ => (.unit, w)
    | _ => (.unit, w)
  | .remake k =>
    match w.hs k with
    | some (.piece (.sized v) o) => (.views [.sized ⟨v.addr, v.T.size, v.T⟩], { w with hs := upd w.hs k (some (.piece (.sized ⟨v.addr, v.T.size, v.T⟩) o)) })
    | _ => (.unit, w)
  | .write k val =>
    match w.hs k with
    | some (.piece v o) => (.unit, { w with hs := upd w.hs k (some (.piece v (some val))) }.lose o)
    | _ => (.unit, w)
  | .init k val =>
    match w.hs k with
    | some (.piece (.sized v) o) => (.unit, { w with hs := upd w.hs k (some (.ref v val)) }.lose o)
    | _ => (.unit, w)
  | .read k =>
    match w.hs k with
    | some (.piece v (some val)) => (.val val, { w with hs := upd w.hs k (some (.piece v none)) })
    | _ => (.unit, w)
  | .intoMut k =>
    match w.hs k with
    | some (.piece (.sized v) (some val)) => (.unit, { w with hs := upd w.hs k (some (.ref v val)) })
    | _ => (.unit, w)
  | .new k val =>
    match w.hs k with
    | some (.piece (.sized v) o) => (.unit, { w with hs := upd w.hs k (some (.boxed v val)) }.lose o)
    | _ => (.unit, w)
  | .deref k =>
    match w.hs k with
    | some (.boxed _ val) | some (.ref _ val) => (.val val, w)
    | _ => (.unit, w)
  | .replace k val =>
    match w.hs k with
    | some (.boxed v old) => (.val old, { w with hs := upd w.hs k (some (.boxed v val)) })
    | some (.ref v old) => (.val old, { w with hs := upd w.hs k (some (.ref v val)) })
    | _ => (.unit, w)
  | .take k =>
    match w.hs k with
    | some (.boxed v val) => (.val val, { w with hs := upd w.hs k (some (.piece (.sized v) none)) })
    | _ => (.unit, w)
  | .intoRaw k =>
    match w.hs k with
    | some (.boxed v val) => (.unit, { w with hs := upd w.hs k (some (.piece (.sized v) (some val))) })
    | _ => (.unit, w)
  | .fromRaw k =>
    match w.hs k with
    | some (.piece (.sized v) (some val)) => (.unit, { w with hs := upd w.hs k (some (.boxed v val)) })
    | _ => (.unit, w)
  | .leak k =>
    match w.hs k with
    | some (.boxed v val) => (.unit, { w with hs := upd w.hs k (some (.ref v val)) })
    | _ => (.unit, w)
  | .drop k =>
    match w.hs k with
    | some (.boxed v val) => (if panics v.T val then .unwound else .unit, { w with hs := upd w.hs k none, dropped := w.dropped ++ [(v.T, val)] })
    | _ => (.unit, w)
  | .release k => (.unit, { w with hs := upd w.hs k none }.lose ((w.hs k).bind SHandle.val?))

def srun (t : Target) (panics : Layout → List Byte → Bool) : SWorld → List Op → List Resp × SWorld
  | w, [] => ([], w)
  | w, op :: ops =>
    let (r, w) := sexec t panics w op
    let (rs, w) := srun t panics w ops
    (r :: rs, w)

/-- The bytes a variable stands for: all of the memory for `Uninit` and `Box` (which gives the memory back), the value for references. -/
def Handle.region : Handle → Region
  | .piece v _ => v.region
  | .boxed v => ⟨v.addr, v.len⟩
  | .ref v => ⟨v.addr, v.T.size⟩

/-- There is such memory, it is part of what the program may use, and no variable uses it. -/
def Unused (t : Target) (mine : Nat → Prop) (w : World) (r : Region) : Prop :=
  MemOk t r ∧ (∀ x, r.Has x → mine x) ∧ ∀ k h, w.hs k = some h → r.Disjoint h.region

/-- The variable is an `Uninit<T>` of a type with values of that size, in which there is a value if `full`. -/
def IsPiece (w : World) (k : Nat) (full : Bool) (size : Nat → Prop := fun _ => True) : Prop := ∃ v f, w.hs k = some (.piece (.sized v) f) ∧ (full = true → f = true) ∧ size v.T.size
def IsBox (w : World) (k : Nat) (size : Nat → Prop := fun _ => True) : Prop := ∃ v, w.hs k = some (.boxed v) ∧ size v.T.size
def IsRef (w : World) (k : Nat) (size : Nat → Prop := fun _ => True) : Prop := ∃ v, w.hs k = some (.ref v) ∧ size v.T.size

/-- What types and borrows permit, with the safety sections of `from_memory` (the memory is not used otherwise) and of `from_raw`, `read`, `into_mut` (there is a value). New variables have new names. -/
def Legal (t : Target) (mine : Nat → Prop) (w : World) : Op → Prop
  | .memory k addr len => w.hs k = none ∧ Unused t mine w ⟨addr, len⟩
  | .place k T addr => w.hs k = none ∧ T.ValidType t ∧ T.align ∣ addr ∧ Unused t mine w ⟨addr, T.size⟩
  | .placeSlice k T addr n => w.hs k = none ∧ T.ValidType t ∧ T.align ∣ addr ∧ Unused t mine w ⟨addr, n * T.size⟩
  | .zst k T => w.hs k = none ∧ T.ValidType t
  | .view k k' op => k' ≠ k ∧ w.hs k' = none ∧ ∃ v f, w.hs k = some (.piece v f) ∧ op.Applies t v
  | .remake k => IsPiece w k false
  | .write k val | .init k val | .new k val => IsPiece w k false (· = val.length)
  | .read k | .intoMut k | .fromRaw k => IsPiece w k true
  | .deref k => IsBox w k ∨ IsRef w k
  | .replace k val => IsBox w k (· = val.length) ∨ IsRef w k (· = val.length)
  | .take k | .intoRaw k | .leak k | .drop k => IsBox w k
  | .release k => IsRef w k ∨ ∃ v f, w.hs k = some (.piece v f)

/-- `split_at_byte` and `split_to_fit` are only used where they do what is documented (see C38, C39). -/
def NoBadSplit (w : World) : Op → Prop
  | .view k _ op => ∀ v f, w.hs k = some (.piece v f) → ByteOk v op
  | _ => True

/-- Every statement satisfies `P` when it is executed. -/
def SafeRun (P : World → Op → Prop) (t : Target) (panics : Layout → List Byte → Bool) : World → List Op → Prop
  | _, [] => True
  | w, op :: ops => P w op ∧ ∀ r w', exec t panics w op = .ret (r, w') → SafeRun P t panics w' ops

def Permitted (t : Target) (mine : Nat → Prop) (w : World) (op : Op) : Prop := Legal t mine w op ∧ NoBadSplit w op

/-- Before the program: no variables, memory with any contents. -/
def World.init (m : Mem) : World := ⟨m, fun _ => none, []⟩
def SWorld.init : SWorld := ⟨fun _ => none, [], []⟩

/-- The values that the program has moved into variables, and those it got back. -/
def inputOf : Op → List (List Byte)
  | .write _ v | .init _ v | .new _ v | .replace _ v => [v]
  | _ => []
def outputOf : Op → Resp → List (List Byte)
  | .replace .., .val v | .take .., .val v | .read .., .val v => [v]
  | _, _ => []
def inputsOf (ops : List Op) : List (List Byte) := (ops.map inputOf).flatten
def outputsOf (ops : List Op) (rs : List Resp) : List (List Byte) := (List.zipWith outputOf ops rs).flatten

/-- The statement does not use the variable other than to look at the value. -/
def NotUsed (k : Nat) : Op → Prop
  | .view j _ _ | .remake j | .write j _ | .init j _ | .read j | .intoMut j | .new j _ | .replace j _ | .take j | .intoRaw j | .fromRaw j | .leak j | .drop j | .release j => j ≠ k
  | _ => True

/-- The statement does not give up memory: no variable goes out of scope, and no memory is turned into a reference or a `MaybeUninit` (which are as long as the value only). -/
def KeepsMemory : Op → Prop
  | .remake _ | .init .. | .intoMut _ | .leak _ | .drop _ | .release _ => False
  | _ => True

/-- Values are only ever put into boxes, which are not taken apart with `into_raw` and not leaked. -/
def OnlyBoxes : Op → Prop
  | .write .. | .init .. | .intoRaw _ | .leak _ => False
  | _ => True

end Verif.BoxMem
