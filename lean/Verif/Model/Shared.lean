import Verif.Spec.Shared
import Verif.Model.Rc
import Verif.Model.BumpGlobal
/-!
# `Rc` in values in `Rc`

`without_alloc::rc` (`/repo/without-alloc/src/rc.rs`) with values that contain `Rc` and `Weak` themselves, made by `LocalAllocLeakExt::rc` (`/repo/without-alloc/src/alloc.rs:116-122`) of a `Bump`. The counters are those of `Model/Rc`. A value is its
bits: its identity and its pointers, which are numbers of blocks. Reading a value and dropping it leave the bits in place.

Simplifications: blocks are numbered (that they are disjoint and that counters and values are kept on their bytes is C81, C83); the destructors of values run no code that uses the pointers, but those can panic, and then the pointers are dropped
by the language; the recursion of destructors has a bound, one more than there are blocks, and is `ub` if that is exceeded, which is proved not to happen.
-/
set_option autoImplicit false
namespace Verif.Shared
open Linked (var Ended)
open RcM (RcBox)

/-- The blocks, and the destructors that were run. Not code of the repository: the state that the
program of the user and the library have together. -/
structure State where
  blocks : List (RcBox Value)
  log : List Nat

/-- Not code of the repository: an auxiliary function of the machine. -/
def State.set (st : State) (b : Nat) (x : RcBox Value) : State := { st with blocks := st.blocks.set b x }

/-- The drop glue of the fields of a value, in order: the language runs the remaining ones also if
one of them unwinds. Not code of the repository: the semantics of the Rust language. -/
def dropFields (drop : Bool → State → Ptr → Outcome (Ended × State)) : Bool → State → List Ptr → Outcome (Ended × State)
  | unwinding, st, [] => .ret (if unwinding then .unwound else .ok, st)
  | unwinding, st, f :: fs => do
    match ← drop unwinding st f with
    | (.aborted, st) => pure (.aborted, st)
    | (.unwound, st) => dropFields drop true st fs
    | (.ok, st) => dropFields drop false st fs

/-- `drop_in_place` of a value: its destructor, then its fields. A panic while unwinding aborts the
program; destructors that some versions of the language run before they abort are left out. Not
code of the repository: the semantics of the Rust language. -/
def dropValue (panics : Nat → Bool) (drop : Bool → State → Ptr → Outcome (Ended × State)) (unwinding : Bool) (st : State) (v : Value) : Outcome (Ended × State) :=
  if panics v.id && unwinding then .ret (.aborted, { st with log := st.log ++ [v.id] })
  else dropFields drop (unwinding || panics v.id) { st with log := st.log ++ [v.id] } v.fields

/-- `Drop for Weak`, rc.rs:572-575, and `Drop for Rc`, rc.rs:520-530. -/
def dropPtr (t : Target) (checks : Bool) (panics : Nat → Bool) : Nat → Bool → State → Ptr → Outcome (Ended × State)
  | 0, _, _, _ => .ub
  | depth + 1, unwinding, st, p => match st.blocks[p.block]? with
    | none => .ub
    | some x =>
      if p.strong then do
        let (last, x) ← x.dropRc t checks
        if last then
          match x.val with
          | none => .ub
          | some v => dropValue panics (dropPtr t checks panics depth) unwinding (st.set p.block x) v
        else pure (if unwinding then .unwound else .ok, st.set p.block x)
      else do
        let x ← x.decWeak t checks
        pure (if unwinding then .unwound else .ok, st.set p.block x)

/-- The variables, the blocks, the level `consumed` of the bump (bump.rs:152), the number of values made, and the destructors that were run. -/
structure World where
  vals : List (Option Value)
  ptrs : List (Option Ptr)
  blocks : List (RcBox Value)
  level : Nat
  made : Nat
  log : List Nat
  aborted : Bool

/-- Not code of the repository: the state that the program of the user and the library have
together. -/
def World.init (level : Nat) : World := ⟨[], [], [], level, 0, [], false⟩

/-- Not code of the repository: an auxiliary function of the machine. -/
def World.finish (w : World) (done : Resp) (r : Ended × State) : Resp × World :=
  (endResp done r.1, { w with blocks := r.2.blocks, log := r.2.log, aborted := r.1 = .aborted })

/-- A value that is no longer in a variable is dropped. Not code of the repository: the semantics
of the Rust language. -/
def World.dropVal (t : Target) (checks : Bool) (panics : Nat → Bool) (w : World) (v : Value) (done : Resp) : Outcome (Resp × World) := do
  let r ← dropValue panics (dropPtr t checks panics (w.blocks.length + 1)) false ⟨w.blocks, w.log⟩ v
  pure (w.finish done r)

/-- A new pointer variable. Not code of the repository: an auxiliary function of the machine. -/
def World.add (w : World) (p : Ptr) : Resp × World := (.var w.ptrs.length, { w with ptrs := w.ptrs ++ [some p] })

/-- The block of the `Rc` in the variable. Not code of the repository: an auxiliary function of the
machine. -/
def World.strong (w : World) (p : Nat) : Option Nat := match var w.ptrs p with
  | some ⟨true, b⟩ => some b
  | _ => none

/-- The block of a pointer, rc.rs:303-308 and 466-478. -/
def World.block (w : World) (b : Nat) : Outcome (RcBox Value) := match w.blocks[b]? with | none => .ub | some x => .ret x
/-- `Deref for Rc`, rc.rs:536-538, and reads of the value. -/
def World.value (w : World) (b : Nat) : Outcome Value := match w.blocks[b]? with
  | some ⟨some v, _, _⟩ => .ret v
  | _ => .ub
/-- Not code of the repository: an auxiliary function of the machine. -/
def World.set (w : World) (b : Nat) (x : RcBox Value) : World := { w with blocks := w.blocks.set b x }
/-- The value in the block changes. Not code of the repository: an auxiliary function of the
machine. -/
def World.setVal (w : World) (b : Nat) (v : Value) : Outcome World := do let x ← w.block b; pure (w.set b { x with val := some v })

/-- `Clone for Rc`, rc.rs:563-568, and `Clone for Weak`, 601-606. -/
def World.clone (t : Target) (checks : Bool) (w : World) (q : Ptr) : Outcome (Resp × World) := do
  let x ← w.block q.block
  let x ← if q.strong then x.incStrong t checks else x.incWeak t checks
  pure ((w.set q.block x).add q)

/-- One operation of the program. Calls of the public methods; each case cites the method it runs.
(without-alloc/src/rc.rs:75-607, static-alloc/src/bump.rs:363-372.) -/
def exec (e : Bump.Env) (checks : Bool) (panics : Nat → Bool) (w : World) : Op → Outcome (Resp × World)
  | .make => pure (.var w.vals.length, { w with vals := w.vals ++ [some ⟨w.made, []⟩], made := w.made + 1 })
  -- alloc.rs:116-122 and `Rc::new` rc.rs:101-114; if there is no memory then `?` drops the value
  | .rc v L => match var w.vals v with
    | none => pure (.absent, w)
    | some x => do
      let w := { w with vals := w.vals.set v none }
      match ← Bump.tryAllocSeq e w.level L with
      | (none, c) => World.dropVal e.target checks panics { w with level := c } x .full
      | (some _, c) => pure (World.add { w with blocks := w.blocks ++ [RcBox.init x], level := c } ⟨true, w.blocks.length⟩)
  | .alloc L => do
    match ← Bump.tryAllocSeq e w.level L with
    | (none, c) => pure (.full, { w with level := c })
    | (some _, c) => pure (.unit, { w with level := c })
  | .clone p => match var w.ptrs p with
    | none => pure (.absent, w)
    | some q => w.clone e.target checks q
  -- `downgrade`, rc.rs:213-216
  | .downgrade p => match w.strong p with
    | none => pure (.absent, w)
    | some b => do
      let x ← w.block b
      let x ← x.incWeak e.target checks
      pure ((w.set b x).add ⟨false, b⟩)
  -- `upgrade`, rc.rs:408-416
  | .upgrade p => match var w.ptrs p with
    | some ⟨false, b⟩ => do
      let x ← w.block b
      if x.strong = 0 then pure (.refused, w) else do
      let x ← x.incStrong e.target checks
      pure ((w.set b x).add ⟨true, b⟩)
    | _ => pure (.absent, w)
  | .attach v p => match var w.vals v, var w.ptrs p with
    | some x, some q => pure (.unit, { w with vals := w.vals.set v (some { x with fields := x.fields ++ [q] }), ptrs := w.ptrs.set p none })
    | _, _ => pure (.absent, w)
  | .unpack v i => match var w.vals v with
    | none => pure (.absent, w)
    | some x => match x.fields[i]? with
      | none => pure (.absent, w)
      | some q => pure (World.add { w with vals := w.vals.set v (some { x with fields := x.fields.eraseIdx i }) } q)
  | .push p k => match w.strong p with
    | none => pure (.absent, w)
    | some b => do
      let x ← w.value b
      match (if p = k then none else var w.ptrs k) with
      | none => pure (.absent, w)
      | some q => do
        let w ← w.setVal b { x with fields := x.fields ++ [q] }
        pure (.unit, { w with ptrs := w.ptrs.set k none })
  | .pull p i => match w.strong p with
    | none => pure (.absent, w)
    | some b => do
      let x ← w.value b
      match x.fields[i]? with
      | none => pure (.absent, w)
      | some q => do
        let w ← w.setVal b { x with fields := x.fields.eraseIdx i }
        pure (w.add q)
  | .follow p i => match w.strong p with
    | none => pure (.absent, w)
    | some b => do
      let x ← w.value b
      match x.fields[i]? with
      | none => pure (.absent, w)
      | some q => w.clone e.target checks q
  | .read p => match w.strong p with
    | none => pure (.absent, w)
    | some b => do
      let x ← w.value b
      pure (.id x.id, w)
  -- rc.rs:251-258, 437-439, 458-460
  | .counts p => match var w.ptrs p with
    | none => pure (.absent, w)
    | some q => do
      let x ← w.block q.block
      pure (.nums x.strong x.weak, w)
  -- `ptr_eq`, rc.rs:296-298
  | .ptrEq p q => match w.strong p, w.strong q with
    | some b, some c => pure (.bool (b = c), w)
    | _, _ => pure (.absent, w)
  -- `get_mut`, rc.rs:264-270
  | .replace p v => match w.strong p, var w.vals v with
    | some b, some y => do
      let x ← w.block b
      if x.isUnique then do
        let old ← w.value b
        let w ← w.setVal b y
        pure (.unit, { w with vals := w.vals.set v (some old) })
      else pure (.refused, w)
    | _, _ => pure (.absent, w)
  -- `Rc::try_unwrap`, rc.rs:178-190; the `Weak` is put in the same variable
  | .tryUnwrap p => match w.strong p with
    | none => pure (.absent, w)
    | some b => do
      let x ← w.block b
      if x.strong ≠ 1 then pure (.refused, w) else do
      let x ← x.decStrong e.target checks
      let v ← w.value b
      pure (.var w.vals.length, { (w.set b x) with vals := w.vals ++ [some v], ptrs := w.ptrs.set p (some ⟨false, b⟩) })
  -- `Weak::try_unwrap`, rc.rs:371-384 (`self` is dropped at the end), and `Rc::new`, rc.rs:101-114
  | .recycle p v => match var w.ptrs p, var w.vals v with
    | some ⟨false, b⟩, some y => do
      let x ← w.block b
      if x.isUniqueToRcMemory then do
        let _ ← x.decWeak e.target checks
        pure (.unit, { (w.set b (.init y)) with vals := w.vals.set v none, ptrs := w.ptrs.set p (some ⟨true, b⟩) })
      else pure (.refused, w)
    | _, _ => pure (.absent, w)
  | .dropPtr p => match var w.ptrs p with
    | none => pure (.absent, w)
    | some q => do
      let w := { w with ptrs := w.ptrs.set p none }
      let r ← dropPtr e.target checks panics (w.blocks.length + 1) false ⟨w.blocks, w.log⟩ q
      pure (w.finish .unit r)
  | .dropVal v => match var w.vals v with
    | none => pure (.absent, w)
    | some x => World.dropVal e.target checks panics { w with vals := w.vals.set v none } x .unit
  | .forget p => match var w.ptrs p with
    | none => pure (.absent, w)
    | some _ => pure (.unit, { w with ptrs := w.ptrs.set p none })

/-- A program; it ends when it is aborted. Not code of the repository: the program of the user, any
sequence of these. -/
def run (e : Bump.Env) (checks : Bool) (panics : Nat → Bool) : World → List Op → Outcome (List Resp × World)
  | w, [] => .ret ([], w)
  | w, op :: ops => do
    let (r, w) ← exec e checks panics w op
    if w.aborted then pure ([r], w) else do
    let (rs, w) ← run e checks panics w ops
    pure (r :: rs, w)

/-- Layouts that exist, and are not empty: that of the inner box is not. Not code of the
repository: what the language, or the documented contract of the methods, demands of callers. -/
def Op.Valid (t : Target) : Op → Prop
  | .rc _ L | .alloc L => L.Valid t ∧ 0 < L.size
  | _ => True

end Verif.Shared
