import Verif.Model.FixedVec
import Verif.Spec.Uninit
/-!
# Specification of `FixedVec`: lists of bounded length

The vectors are lists. Of the operations and answers the types of the model are used (`Op`, `Resp`, `Poll`, `Bound`), but none of its functions. Besides the answers, the specification tracks where the values go: `taken` are all values moved
to the vectors by the user, `handed` the ones returned, `dropped` the destructors run (in order), `leaked` the ones that are lost.
-/
namespace Verif.FVec
open Verif

/-- A drain in progress: elements yet to come and the elements behind the range. -/
structure SDrain (V : Type) where
  rest : List V
  tail : List V

structure SVec (V : Type) where
  items : List V
  cap : Nat
  drain : Option (SDrain V)
  borrows : List Nat

structure SWorld (V : Type) where
  vecs : Nat → Option (SVec V)
  next : Nat
  taken : List V
  handed : List V
  dropped : List V
  leaked : List V

section
variable {V : Type}

/-- Destructors run one by one, stopping after the first that panics: the values dropped, and whether one panicked. -/
def dropUntil (panics : V → Bool) : List V → List V × Bool
  | [] => ([], false)
  | x :: xs => if panics x then ([x], true) else (x :: (dropUntil panics xs).1, (dropUntil panics xs).2)

/-- All values of a list are dropped, even if one destructor panics; if a second panics the process is aborted. -/
def dropAll (panics : V → Bool) (unwinding : Bool) : List V → List V × Ended
  | [] => ([], if unwinding then .panic else .ok)
  | x :: xs =>
    if panics x && unwinding then ([x], .abort)
    else (x :: (dropAll panics (unwinding || panics x) xs).1, (dropAll panics (unwinding || panics x) xs).2)

/-- At most `n` items of the iterator: the items, the number of calls, whether it panicked. -/
def takeItems (poll : Nat → Poll V) (pos : Nat) : Nat → List V × Nat × Bool
  | 0 => ([], 0, false)
  | n + 1 =>
    match poll pos with
    | .done => ([], 1, false)
    | .panic => ([], 1, true)
    | .item v => let r := takeItems poll (pos + 1) n; (v :: r.1, r.2.1 + 1, r.2.2)

/-- First and one-past-last index of a range, as mathematical numbers. -/
def Bound.first : Bound → Nat
  | .included n => n
  | .excluded n => n + 1
  | .unbounded => 0
def Bound.past (len : Nat) : Bound → Nat
  | .included n => n + 1
  | .excluded n => n
  | .unbounded => len

/-- How many elements of the layout fit; no limit but the largest number if they are zero-sized. -/
def roomFor (t : Target) (T : Layout) (bytes : Nat) : Nat := if T.size = 0 then t.usizeMax else bytes / T.size

def SWorld.set (w : SWorld V) (i : Nat) (e : Option (SVec V)) : SWorld V := { w with vecs := fun x => if x = i then e else w.vecs x }

/-- Operations on a vector. -/
def sexecVec (t : Target) (T : Layout) (panics : V → Bool) (w : SWorld V) (i : Nat) (e : SVec V) : Op V → Resp V × SWorld V
  | .push _ v =>
    if e.items.length < e.cap then (.pushed (.ok ()), { w.set i (some { e with items := e.items ++ [v] }) with taken := w.taken ++ [v] })
    else (.pushed (.error v), { w with taken := w.taken ++ [v], handed := w.handed ++ [v] })
  | .pop _ => (.opt e.items.getLast?, { w.set i (some { e with items := e.items.dropLast }) with handed := w.handed ++ e.items.getLast?.toList })
  | .truncate _ n =>
    let (ds, pk) := dropUntil panics (e.items.drop n).reverse
    (if pk then .panic else .unit, { w.set i (some { e with items := e.items.take (e.items.length - ds.length) }) with dropped := w.dropped ++ ds })
  | .clear _ =>
    let (ds, pk) := dropUntil panics e.items.reverse
    (if pk then .panic else .unit, { w.set i (some { e with items := e.items.take (e.items.length - ds.length) }) with dropped := w.dropped ++ ds })
  | .fill _ it =>
    let (vs, n, pk) := takeItems it.poll it.pos (e.cap - e.items.length)
    (if pk then .panicAt n else .num n, { w.set i (some { e with items := e.items ++ vs }) with taken := w.taken ++ vs })
  | .extend _ it =>
    let (vs, n, pk) := takeItems it.poll it.pos (e.cap - e.items.length)
    let w' := { w.set i (some { e with items := e.items ++ vs }) with taken := w.taken ++ vs }
    if pk then (.panicAt n, w')
    else
      match it.poll (it.pos + n) with
      | .done => (.num (n + 1), w')
      | .panic => (.panicAt (n + 1), w')
      | .item v => (if panics v then .abort (n + 1) else .panicAt (n + 1), { w' with taken := w'.taken ++ [v], dropped := w'.dropped ++ [v] })
  | .setLen _ vs n => (.unit, { w.set i (some { e with items := (e.items ++ vs).take n }) with taken := w.taken ++ vs, leaked := w.leaked ++ (e.items ++ vs).drop n })
  | .len _ => (.num e.items.length, w)
  | .capacity _ => (.num e.cap, w)
  | .isEmpty _ => (.bool e.items.isEmpty, w)
  | .slice _ => (.vals e.items, w)
  | .index _ k =>
    match e.items[k]? with
    | some v => (.val v, w)
    | none => (.panic, w)
  | .replace _ k v =>
    match e.items[k]? with
    | some old => (.val old, { w.set i (some { e with items := e.items.set k v }) with taken := w.taken ++ [v], handed := w.handed ++ [old] })
    | none => (if panics v then .abort 0 else .panic, { w with taken := w.taken ++ [v], dropped := w.dropped ++ [v] })
  | .splitBorrowed _ n =>
    if n ≤ e.cap then
      (.num w.next, { (w.set i (some { e with items := e.items.take n })).set w.next
        (some ⟨e.items.drop n, if T.size = 0 then t.usizeMax else e.cap - n, none, i :: e.borrows⟩) with next := w.next + 1 })
    else (.panic, w)
  | .splitShrink _ n =>
    if n ≤ e.cap then
      (.num w.next, { (w.set i (some { e with items := e.items.take n, cap := if T.size = 0 then t.usizeMax else n })).set w.next
        (some ⟨e.items.drop n, if T.size = 0 then t.usizeMax else e.cap - n, none, e.borrows⟩) with next := w.next + 1 })
    else (.panic, w)
  | .shrinkToFit _ => (.unit, w)
  | .drain _ lo hi =>
    let a := lo.first
    let b := hi.past e.items.length
    if a ≤ b ∧ b ≤ e.items.length then
      (.unit, w.set i (some { e with items := e.items.take a, drain := some ⟨(e.items.drop a).take (b - a), e.items.drop b⟩ }))
    else (.panic, w)
  | .drop _ =>
    let (ds, r) := dropAll panics false e.items
    (match r with | .ok => .unit | .panic => .panic | .abort => .abort 0,
      { w.set i none with dropped := w.dropped ++ ds, leaked := w.leaked ++ e.items.drop ds.length })
  | .forget _ => (.unit, { w.set i none with leaked := w.leaked ++ e.items })
  | _ => (.unit, w)

/-- Operations on a drain. -/
def sexecDrain (panics : V → Bool) (w : SWorld V) (i : Nat) (e : SVec V) (d : SDrain V) : Op V → Resp V × SWorld V
  | .next _ => (.opt d.rest.head?, { w.set i (some { e with drain := some { d with rest := d.rest.tail } }) with handed := w.handed ++ d.rest.head?.toList })
  | .nextBack _ => (.opt d.rest.getLast?, { w.set i (some { e with drain := some { d with rest := d.rest.dropLast } }) with handed := w.handed ++ d.rest.getLast?.toList })
  | .drainLen _ => (.num d.rest.length, w)
  | .drainSlice _ => (.vals d.rest, w)
  | .drainReplace _ k v =>
    match d.rest[k]? with
    | some old => (.val old, { w.set i (some { e with drain := some { d with rest := d.rest.set k v } }) with taken := w.taken ++ [v], handed := w.handed ++ [old] })
    | none => (if panics v then .abort 0 else .panic, { w with taken := w.taken ++ [v], dropped := w.dropped ++ [v] })
  | .dropDrain _ =>
    let (ds, pk) := dropUntil panics d.rest
    if pk then (.panic, { w.set i (some { e with drain := none }) with dropped := w.dropped ++ ds, leaked := w.leaked ++ (d.rest.drop ds.length ++ d.tail) })
    else (.unit, { w.set i (some { e with items := e.items ++ d.tail, drain := none }) with dropped := w.dropped ++ ds })
  | .forgetDrain _ => (.unit, { w.set i (some { e with drain := none }) with leaked := w.leaked ++ (d.rest ++ d.tail) })
  | _ => (.unit, w)

/-- One call. -/
def sexec (t : Target) (T : Layout) (panics : V → Bool) (w : SWorld V) (op : Op V) : Resp V × SWorld V :=
  match op with
  | .new _ len => (.num w.next, { w.set w.next (some ⟨[], roomFor t T len, none, []⟩) with next := w.next + 1 })
  | op =>
    match op.target.bind fun i => (w.vecs i).map fun e => (i, e) with
    | none => (.unit, w)
    | some (i, e) =>
      match e.drain with
      | none => sexecVec t T panics w i e op
      | some d => sexecDrain panics w i e d op

def srun (t : Target) (T : Layout) (panics : V → Bool) : SWorld V → List (Op V) → List (Resp V) × SWorld V
  | w, [] => ([], w)
  | w, op :: ops =>
    match sexec t T panics w op with
    | (.abort n, w) => ([.abort n], w)
    | (r, w) => let (rs, w) := srun t T panics w ops; (r :: rs, w)

def SWorld.init : SWorld V := ⟨fun _ => none, 0, [], [], [], []⟩

/-- The values which are in the vectors and drains. -/
def SVec.contents (e : SVec V) : List V := e.items ++ match e.drain with | none => [] | some d => d.rest ++ d.tail
def SWorld.live (w : SWorld V) : List V := (List.range w.next).flatMap fun i => match w.vecs i with | none => [] | some e => e.contents

/-! ## What safe code can do -/

/-- The memory of a vector. -/
def Entry.region (e : Entry) : Region := ⟨e.vec.uninit.addr, e.vec.uninit.len⟩

/-- The operation is a method of `Drain`. -/
def Op.OnDrain : Op V → Prop
  | .next _ | .nextBack _ | .drainLen _ | .drainSlice _ | .drainReplace _ _ _ | .dropDrain _ | .forgetDrain _ => True
  | _ => False

/-- The borrow checker accepts the operation: the vector exists, no other vector borrows it, and it is borrowed by a drain exactly if it is an operation on that drain. New vectors are made from (aligned) memory that is not in use. -/
def Permitted (t : Target) (T : Layout) (w : World V) : Op V → Prop
  | .new addr len => T.align ∣ addr ∧ Uninit.MemOk t ⟨addr, len⟩ ∧ ∀ j e, w.ents j = some e → Region.Disjoint ⟨addr, len⟩ e.region
  -- the safety section of `set_len`: the new length is at most the capacity, and the elements are initialised
  | .setLen i vs n => ∃ e, w.ents i = some e ∧ (∀ j e', w.ents j = some e' → i ∉ e'.borrows) ∧ e.drain = none ∧ e.vec.len + vs.length ≤ e.vec.capacity t ∧ n ≤ e.vec.len + vs.length
  | op => ∃ i e, op.target = some i ∧ w.ents i = some e ∧ (∀ j e', w.ents j = some e' → i ∉ e'.borrows) ∧ (op.OnDrain ↔ e.drain.isSome)

/-- No bound of a `drain` is `usize::MAX`, or the overflow checks are on. -/
def NoWrap (t : Target) (checks : Bool) : Op V → Prop
  | .drain _ lo hi => checks = true ∨ (lo.first < t.W ∧ hi.past 0 < t.W)
  | _ => True

/-- All operations of the history are permitted when they are executed. -/
def SafeRun (t : Target) (T : Layout) (checks : Bool) (panics : V → Bool) : World V → List (Op V) → Prop
  | _, [] => True
  | w, op :: ops => Permitted t T w op ∧ NoWrap t checks op ∧ ∀ r w', exec t T checks panics w op = .ret (r, w') → SafeRun t T checks panics w' ops

/-! ## What the user sees of the values -/

def Poll.item? : Poll V → Option V
  | .item v => some v
  | _ => none
/-- The items among the first `n` answers. -/
def polled (it : Iter V) (n : Nat) : List V := (List.range n).filterMap fun k => (it.poll (it.pos + k)).item?

/-- Values that a call moves to the vectors. -/
def inputs : Op V → Resp V → List V
  | .push _ v, _ => [v]
  | .replace _ _ v, _ | .drainReplace _ _ v, _ => [v]
  | .setLen _ vs _, _ => vs
  | .fill _ it, .num n | .fill _ it, .panicAt n => polled it n
  | .extend _ it, .num n | .extend _ it, .panicAt n | .extend _ it, .abort n => polled it n
  | _, _ => []

/-- Values that a call moves to the user. -/
def outputs : Op V → Resp V → List V
  | .push _ _, .pushed (.error v) => [v]
  | .pop _, .opt (some v) | .next _, .opt (some v) | .nextBack _, .opt (some v) => [v]
  | .replace _ _ _, .val v | .drainReplace _ _ _, .val v => [v]
  | _, _ => []

/-- All of a history. -/
def inputsOf (ops : List (Op V)) (rs : List (Resp V)) : List V := (ops.zip rs).flatMap fun x => inputs x.1 x.2
def outputsOf (ops : List (Op V)) (rs : List (Resp V)) : List V := (ops.zip rs).flatMap fun x => outputs x.1 x.2

/-- The user does not use `mem::forget`, nor `set_len` (that may forget elements). -/
def Op.NoForget : Op V → Prop
  | .forget _ | .forgetDrain _ | .setLen _ _ _ => False
  | _ => True

/-- States that can be reached, from any contents of the memory. -/
def Reach (t : Target) (T : Layout) (checks : Bool) (panics : V → Bool) (w : World V) : Prop :=
  ∃ mem ops rs, SafeRun t T checks panics (World.init mem) ops ∧ run t T checks panics (World.init mem) ops = .ret (rs, w)

end
end Verif.FVec

/-! ## Looking at one vector -/
namespace Verif.FVec
open Verif
section
variable {V : Type}

/-- The user reads the elements `xs` from vector `i` (through its slice), and nothing changes by that. -/
def Shows (t : Target) (T : Layout) (checks : Bool) (panics : V → Bool) (w : World V) (i : Nat) (xs : List V) : Prop :=
  exec t T checks panics w (.slice i) = .ret (.vals xs, w)
/-- `len()` gives `n`. -/
def ShowsLen (t : Target) (T : Layout) (checks : Bool) (panics : V → Bool) (w : World V) (i : Nat) (n : Nat) : Prop :=
  exec t T checks panics w (.len i) = .ret (.num n, w)
/-- `capacity()` gives `c`. -/
def ShowsCap (t : Target) (T : Layout) (checks : Bool) (panics : V → Bool) (w : World V) (i : Nat) (c : Nat) : Prop :=
  exec t T checks panics w (.capacity i) = .ret (.num c, w)
/-- All the vectors except `i` that could be read before can still be, with the same elements. -/
def OthersKept (t : Target) (T : Layout) (checks : Bool) (panics : V → Bool) (w w' : World V) (i : Nat) : Prop :=
  ∀ j ys, j ≠ i → Shows t T checks panics w j ys → Shows t T checks panics w' j ys

/-- One step of an iteration over a drain. -/
inductive Pull where
  | front | back
  deriving DecidableEq, Repr
def Pull.op (i : Nat) : Pull → Op V
  | .front => .next i
  | .back => .nextBack i
/-- What a double ended iteration over a list yields, and what is left. -/
def pulls : List Pull → List V → List (Option V) × List V
  | [], xs => ([], xs)
  | .front :: ps, xs => (xs.head? :: (pulls ps xs.tail).1, (pulls ps xs.tail).2)
  | .back :: ps, xs => (xs.getLast? :: (pulls ps xs.dropLast).1, (pulls ps xs.dropLast).2)

/-- Room for elements of a layout in a region, at an aligned address. -/
def CanHoldArray (r : Region) (T : Layout) (n : Nat) : Prop := ∃ p, T.align ∣ p ∧ r.start ≤ p ∧ p + n * T.size ≤ r.start + r.size

end
end Verif.FVec
