import Verif.Spec.Dtor
import Verif.Model.Shared
/-!
# `Rc` in values in `Rc`, with destructors that use them

As `Model/Shared`, but the destructors of values are code of the user: `drop_in_place` only begins the destructor, the operations up to `endDrop` are made by it. Thereafter the language drops the fields of the value, which are read from its memory one at a
time, when it is their turn. Panics: a destructor that is run while a panic unwinds and that ends by a panic aborts the program. A panic that arrives in code of the user is caught there (or passed on, by `endDrop true`).

Simplification: `mem::replace` of the whole value by its own destructor is not there. Where some versions of the language abort earlier, when a second panic begins, the program just ends earlier.
-/
set_option autoImplicit false
namespace Verif.Dtor
open Shared (Ptr Value Resp)
open Linked (var)
open RcM (RcBox)

/-- Where a value that is being destroyed is: in a block, or in a local variable of `drop` resp. of
the function that failed. Not code of the repository: the semantics of the Rust language. -/
inductive Place where
  | block (b : Nat)
  | moved (v : Value)

/-- The calls of `drop_in_place` that did not return: the destructor of the user is running, or the
drop glue has come to field `i` of `n`. Not code of the repository: the semantics of the Rust language. -/
inductive Task where
  | body (place : Place) (unwinding : Bool)
  | glue (place : Place) (i n : Nat) (unwinding : Bool)

/-- Not code of the repository: the state that the program of the user and the library have
together. -/
structure World where
  base : Shared.World
  tasks : List Task

/-- Not code of the repository: the state in which the program starts. -/
def World.init (level : Nat) : World := ⟨.init level, []⟩

/-- The bits of a value. Not code of the repository: the semantics of the Rust language. -/
def read (blocks : List (RcBox Value)) : Place → Outcome Value
  | .moved v => .ret v
  | .block b => match blocks[b]? with
    | some ⟨some v, _, _⟩ => .ret v
    | _ => .ub

/-- `Drop for Weak`, rc.rs:572-575, and `Drop for Rc`, rc.rs:520-530, up to `drop_in_place`: whether that is called next. -/
def dropPtr (t : Target) (checks : Bool) (blocks : List (RcBox Value)) (p : Ptr) : Outcome (Bool × List (RcBox Value)) :=
  match blocks[p.block]? with
  | none => .ub
  | some x =>
    if p.strong then do
      let (last, x) ← x.dropRc t checks
      pure (last, blocks.set p.block x)
    else do
      let x ← x.decWeak t checks
      pure (false, blocks.set p.block x)

/-- The drop glue of the value at the place, from field `i` on; `n` fields are left. It is
interrupted when the destructor of another value is to be run: the block of that one, and the next
field. Not code of the repository: the semantics of the Rust language. -/
def glue (t : Target) (checks : Bool) (place : Place) : Nat → Nat → List (RcBox Value) → Outcome (List (RcBox Value) × Option (Nat × Nat))
  | 0, _, blocks => .ret (blocks, none)
  | n + 1, i, blocks => do
    let v ← read blocks place
    match v.fields[i]? with
    | none => .ub
    | some p => do
      let (begun, blocks) ← dropPtr t checks blocks p
      if begun then pure (blocks, some (p.block, i + 1)) else glue t checks place n (i + 1) blocks

/-- What happens until code of the user runs again; `u`: a panic is unwinding. Not code of the
repository: the semantics of the Rust language. -/
def settle (t : Target) (checks : Bool) : Bool → List (RcBox Value) → List Nat → List Task → Outcome (Bool × List (RcBox Value) × List Nat × List Task)
  | u, blocks, log, [] => .ret (u, blocks, log, [])
  | u, blocks, log, .body place w :: ts => .ret (u, blocks, log, .body place w :: ts)
  | u, blocks, log, .glue place i n w :: ts => do
    match ← glue t checks place (n - i) i blocks with
    | (blocks, none) => settle t checks (u || w) blocks log ts
    | (blocks, some (b, j)) => do
      let v ← read blocks (.block b)
      pure (false, blocks, log ++ [v.id], .body (.block b) (u || w) :: .glue place j n (u || w) :: ts)

/-- The destructor of a value that is not in a block is begun. Not code of the repository: the
semantics of the Rust language. -/
def World.dropVal (w : World) (v : Value) : World := ⟨{ w.base with log := w.base.log ++ [v.id] }, .body (.moved v) false :: w.tasks⟩

/-- A new pointer variable. Not code of the repository: an auxiliary function of the machine. -/
def World.add (w : World) (p : Ptr) : Resp × World := let (r, b) := w.base.add p; (r, { w with base := b })

/-- The value that is being destroyed changes. Not code of the repository: an auxiliary function of
the machine. -/
def World.setSelf (w : World) (place : Place) (u : Bool) (ts : List Task) (v : Value) : Outcome World := match place with
  | .moved _ => .ret ⟨w.base, .body (.moved v) u :: ts⟩
  | .block b => do
    let base ← w.base.setVal b v
    pure ⟨base, .body (.block b) u :: ts⟩

/-- One operation of the program or of a destructor. The methods of `Rc` and `Weak` are those of
`Shared.exec`, without-alloc/src/rc.rs:75-607, except for the ones that begin destructors: `drop`,
and alloc.rs:116-122, where `?` drops the value if there is no memory. -/
def exec (e : Bump.Env) (checks : Bool) (w : World) : Op → Outcome (Resp × World)
  | .call (.dropPtr p) => match var w.base.ptrs p with
    | none => pure (.absent, w)
    | some q => do
      let (begun, blocks) ← dropPtr e.target checks w.base.blocks q
      let base := { w.base with ptrs := w.base.ptrs.set p none, blocks := blocks }
      if begun then do
        let v ← read blocks (.block q.block)
        pure (.unit, ⟨{ base with log := base.log ++ [v.id] }, .body (.block q.block) false :: w.tasks⟩)
      else pure (.unit, { w with base := base })
  | .call (.dropVal v) => match var w.base.vals v with
    | none => pure (.absent, w)
    | some x => pure (.unit, { w with base := { w.base with vals := w.base.vals.set v none } }.dropVal x)
  | .call (.rc v L) => match var w.base.vals v with
    | none => pure (.absent, w)
    | some x => do
      let base := { w.base with vals := w.base.vals.set v none }
      match ← Bump.tryAllocSeq e w.base.level L with
      | (none, c) => pure (.full, { w with base := { base with level := c } }.dropVal x)
      | (some _, c) => pure ({ w with base := { base with blocks := base.blocks ++ [RcBox.init x], level := c } }.add ⟨true, base.blocks.length⟩)
  | .call op => do
    let (r, base) ← Shared.exec e checks (fun _ => false) w.base op
    pure (r, { w with base := base })
  | .selfTake i => match w.tasks with
    | .body place u :: ts => do
      let v ← read w.base.blocks place
      match v.fields[i]? with
      | none => pure (.absent, w)
      | some q => do
        let w ← w.setSelf place u ts { v with fields := v.fields.eraseIdx i }
        pure (w.add q)
    | _ => pure (.absent, w)
  | .selfPush k => match w.tasks with
    | .body place u :: ts => match var w.base.ptrs k with
      | none => pure (.absent, w)
      | some q => do
        let v ← read w.base.blocks place
        let w ← w.setSelf place u ts { v with fields := v.fields ++ [q] }
        pure (.unit, { w with base := { w.base with ptrs := w.base.ptrs.set k none } })
    | _ => pure (.absent, w)
  | .selfClone i => match w.tasks with
    | .body place _ :: _ => do
      let v ← read w.base.blocks place
      match v.fields[i]? with
      | none => pure (.absent, w)
      | some q => do
        let (r, base) ← w.base.clone e.target checks q
        pure (r, { w with base := base })
    | _ => pure (.absent, w)
  | .endDrop panics => match w.tasks with
    | .body place u :: ts =>
      if panics && u then pure (.aborted, { w with base := { w.base with aborted := true } })
      else do
        let v ← read w.base.blocks place
        let (u, blocks, log, ts) ← settle e.target checks false w.base.blocks w.base.log (.glue place 0 v.fields.length (u || panics) :: ts)
        pure (if u then .unwound else .unit, ⟨{ w.base with blocks := blocks, log := log }, ts⟩)
    | _ => pure (.absent, w)

/-- A program; it ends when it is aborted. Not code of the repository: the program of the user, any
sequence of these. -/
def run (e : Bump.Env) (checks : Bool) : World → List Op → Outcome (List Resp × World)
  | w, [] => .ret ([], w)
  | w, op :: ops => do
    let (r, w) ← exec e checks w op
    if w.base.aborted then pure ([r], w) else do
    let (rs, w) ← run e checks w ops
    pure (r :: rs, w)

/-- Layouts that exist, and are not empty. Not code of the repository: what the language demands of
callers. -/
def Op.Valid (t : Target) : Op → Prop
  | .call op => op.Valid t
  | _ => True

end Verif.Dtor
