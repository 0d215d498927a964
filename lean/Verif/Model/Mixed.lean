import Verif.Spec.Mixed
import Verif.Model.Rc
import Verif.Model.BumpGlobal
/-!
# `LeakBox`, `Rc` and `Weak` in one program

`LeakBox` (`/repo/static-alloc/src/leaked.rs`) from `Bump::leak_box` (`/repo/static-alloc/src/bump.rs:532-537`), and `Rc`, `Weak` (`/repo/without-alloc/src/rc.rs`) from `LocalAllocLeakExt::rc` (`/repo/without-alloc/src/alloc.rs:116-122`) of the same `Bump`, for
values that contain all of these, in any combination, and that have destructors which are code of the user. A value is its bits: its identity and its pointers, which are numbers of blocks. Reading a value and dropping it leave the bits in place. The counters
are those of `Model/Rc`. `drop_in_place` only begins the destructor, the operations up to `endDrop` are made by it; then the language drops the fields of the value, which are read from its memory one at a time. A panic that arrives in code of the user is
caught there, or passed on by `endDrop true`.

Simplifications: blocks are numbered (that they are disjoint and that the contents are kept on their bytes is C81, C83, C86); the types are not zero-sized; values that are changed through an `Rc` are in a `RefCell`, which is never borrowed for longer than one
operation; a destructor does not replace the whole value it destroys. Where some versions of the language abort earlier, when a second panic begins, the program just ends earlier.
-/
set_option autoImplicit false
namespace Verif.Mixed
open Linked (var)
open RcM (RcBox)

/-- A block of memory: the bits of a value that was put in a `LeakBox`, or an `RcBox`, rc.rs:60-73. -/
inductive Block where
  | box (v : Value)
  | rc (x : RcBox Value)

/-- Where a value that is being destroyed is: in a block, or in a local variable of `drop` resp. of
the function that failed. Not code of the repository: the semantics of the Rust language. -/
inductive Where where
  | block (b : Nat)
  | moved (v : Value)

/-- The calls of `drop_in_place` that did not return: the destructor of the user is running, or the
drop glue has come to field `i` of `n`. Not code of the repository: the semantics of the Rust language. -/
inductive Task where
  | body (at' : Where) (unwinding : Bool)
  | glue (at' : Where) (i n : Nat) (unwinding : Bool)

/-- The variables, the blocks, the level `consumed` of the bump (bump.rs:152), the number of values made, the destructors that were begun, and those that did not end. -/
structure World where
  vals : List (Option Value)
  ptrs : List (Option Ptr)
  blocks : List Block
  level : Nat
  made : Nat
  log : List Nat
  aborted : Bool
  tasks : List Task

/-- Not code of the repository: the state in which the program starts. -/
def World.init (level : Nat) : World := ⟨[], [], [], level, 0, [], false, []⟩

/-- The bits of the value in a block: `Deref for LeakBox`, leaked.rs:499-505, `Deref for Rc`, rc.rs:536-538, `drop_in_place` and `ptr::read`. -/
def bits (blocks : List Block) (b : Nat) : Outcome Value := match blocks[b]? with
  | some (.box v) => .ret v
  | some (.rc ⟨some v, _, _⟩) => .ret v
  | _ => .ub
/-- The counters of a block, rc.rs:303-308 and 466-478. -/
def counters (blocks : List Block) (b : Nat) : Outcome (RcBox Value) := match blocks[b]? with
  | some (.rc x) => .ret x
  | _ => .ub
/-- The value in the block changes: `DerefMut for LeakBox`, leaked.rs:508-513, or a write through a `RefCell` in an `Rc`. -/
def setBits (blocks : List Block) (b : Nat) (v : Value) : Outcome (List Block) := match blocks[b]? with
  | some (.box _) => .ret (blocks.set b (.box v))
  | some (.rc x) => .ret (blocks.set b (.rc { x with val := some v }))
  | none => .ub

/-- The bits of a value that is being destroyed. Not code of the repository: the semantics of the
Rust language. -/
def read (blocks : List Block) : Where → Outcome Value
  | .moved v => .ret v
  | .block b => bits blocks b

/-- `Drop for LeakBox`, leaked.rs:515-520, `Drop for Rc`, rc.rs:520-530, and `Drop for Weak`, rc.rs:572-575, up to `drop_in_place`: whether that is called next. -/
def dropPtr (t : Target) (checks : Bool) (blocks : List Block) (p : Ptr) : Outcome (Bool × List Block) := match p.kind with
  | .own => .ret (true, blocks)
  | .strong => do
    let x ← counters blocks p.block
    let (last, x) ← x.dropRc t checks
    pure (last, blocks.set p.block (.rc x))
  | .weak => do
    let x ← counters blocks p.block
    let x ← x.decWeak t checks
    pure (false, blocks.set p.block (.rc x))

/-- The drop glue of the value there, from field `i` on; `n` fields are left. It is interrupted when
the destructor of another value is to be run: the block of that one, and the next field. Not code of
the repository: the semantics of the Rust language. -/
def glue (t : Target) (checks : Bool) (at' : Where) : Nat → Nat → List Block → Outcome (List Block × Option (Nat × Nat))
  | 0, _, blocks => .ret (blocks, none)
  | n + 1, i, blocks => do
    let v ← read blocks at'
    match v.fields[i]? with
    | none => .ub
    | some p => do
      let (begun, blocks) ← dropPtr t checks blocks p
      if begun then pure (blocks, some (p.block, i + 1)) else glue t checks at' n (i + 1) blocks

/-- What happens until code of the user runs again; `u`: a panic is unwinding. Not code of the
repository: the semantics of the Rust language. -/
def settle (t : Target) (checks : Bool) : Bool → List Block → List Nat → List Task → Outcome (Bool × List Block × List Nat × List Task)
  | u, blocks, log, [] => .ret (u, blocks, log, [])
  | u, blocks, log, .body at' w :: ts => .ret (u, blocks, log, .body at' w :: ts)
  | u, blocks, log, .glue at' i n w :: ts => do
    match ← glue t checks at' (n - i) i blocks with
    | (blocks, none) => settle t checks (u || w) blocks log ts
    | (blocks, some (b, j)) => do
      let v ← bits blocks b
      pure (false, blocks, log ++ [v.id], .body (.block b) (u || w) :: .glue at' j n (u || w) :: ts)

/-- The destructor of a value that is not in a block is begun. Not code of the repository: the
semantics of the Rust language. -/
def World.dropVal (w : World) (v : Value) : World := { w with log := w.log ++ [v.id], tasks := .body (.moved v) false :: w.tasks }

/-- A new pointer variable. Not code of the repository: an auxiliary function of the machine. -/
def World.add (w : World) (p : Ptr) : Resp × World := (.var w.ptrs.length, { w with ptrs := w.ptrs ++ [some p] })

/-- The value at a place, if there is one. Not code of the repository: accesses by the program,
through the references of `bits`. -/
def World.at (w : World) : Place → Outcome (Option Value)
  | .val v => .ret (var w.vals v)
  | .block b => do
    let v ← bits w.blocks b
    pure (some v)
  | .self => match w.tasks with
    | .body at' _ :: _ => do
      let v ← read w.blocks at'
      pure (some v)
    | _ => .ret none

/-- Another value is written there. Not code of the repository: accesses by the program, through
the references of `setBits`. -/
def World.put (w : World) (x : Value) : Place → Outcome World
  | .val v => .ret { w with vals := w.vals.set v (some x) }
  | .block b => do
    let blocks ← setBits w.blocks b x
    pure { w with blocks := blocks }
  | .self => match w.tasks with
    | .body (.moved _) u :: ts => .ret { w with tasks := .body (.moved x) u :: ts }
    | .body (.block b) _ :: _ => do
      let blocks ← setBits w.blocks b x
      pure { w with blocks := blocks }
    | _ => .ret w

/-- Not code of the repository: where an access of the program begins. -/
def World.start (w : World) : Root → Option Place
  | .val v => some (.val v)
  | .ptr p => (var w.ptrs p).bind Ptr.target
  | .self => some .self

/-- Going from a value to that behind one of its pointers, and so on: `Deref`, leaked.rs:499-505, rc.rs:536-538. -/
def World.walk (w : World) : Place → List Nat → Outcome (Option Place)
  | pl, [] => .ret (some pl)
  | pl, i :: path => do
    match ← w.at pl with
    | none => pure none
    | some x => match (x.fields[i]?).bind Ptr.target with
      | none => pure none
      | some pl => w.walk pl path

/-- Not code of the repository: an access of the program. -/
def World.find (w : World) (root : Root) (path : List Nat) : Outcome (Option (Place × Value)) := match w.start root with
  | none => .ret none
  | some pl => do
    match ← w.walk pl path with
    | none => pure none
    | some pl => do
      match ← w.at pl with
      | none => pure none
      | some x => pure (some (pl, x))

/-- `Clone for Rc`, rc.rs:563-568, and `Clone for Weak`, 601-606. A `LeakBox` has none. -/
def World.clone (t : Target) (checks : Bool) (w : World) (q : Ptr) : Outcome (Resp × World) := match q.kind with
  | .own => .ret (.absent, w)
  | .strong => do
    let x ← counters w.blocks q.block
    let x ← x.incStrong t checks
    pure ({ w with blocks := w.blocks.set q.block (.rc x) }.add q)
  | .weak => do
    let x ← counters w.blocks q.block
    let x ← x.incWeak t checks
    pure ({ w with blocks := w.blocks.set q.block (.rc x) }.add q)

/-- `Bump::leak_box`, bump.rs:532-537, and `LocalAllocLeakExt::rc`, alloc.rs:116-122: memory for the value, otherwise `?` drops it. -/
def World.place (e : Bump.Env) (w : World) (v : Nat) (L : Layout) (k : Kind) (block : Value → Block) : Outcome (Resp × World) := match var w.vals v with
  | none => pure (.absent, w)
  | some x => do
    match ← Bump.tryAllocSeq e w.level L with
    | (none, c) => pure (.full, { w with vals := w.vals.set v none, level := c }.dropVal x)
    | (some _, c) => pure ({ w with vals := w.vals.set v none, blocks := w.blocks ++ [block x], level := c }.add ⟨k, w.blocks.length⟩)

/-- One operation of the program or of a destructor. Calls of the public methods; each case cites
the method it runs. (without-alloc/src/rc.rs:75-607, static-alloc/src/leaked.rs:161-557.) -/
def exec (e : Bump.Env) (checks : Bool) (w : World) : Op → Outcome (Resp × World)
  | .make => pure (.var w.vals.length, { w with vals := w.vals ++ [some ⟨w.made, []⟩], made := w.made + 1 })
  -- `LeakBox::new_from_raw_non_null`, leaked.rs:168-179
  | .box v L => w.place e v L .own .box
  -- `Rc::new`, rc.rs:101-114
  | .rc v L => w.place e v L .strong fun x => .rc (.init x)
  | .alloc L => do
    match ← Bump.tryAllocSeq e w.level L with
    | (none, c) => pure (.full, { w with level := c })
    | (some _, c) => pure (.unit, { w with level := c })
  | .clone p => match var w.ptrs p with
    | none => pure (.absent, w)
    | some q => w.clone e.target checks q
  -- `downgrade`, rc.rs:213-216
  | .downgrade p => match ofKind w.ptrs .strong p with
    | none => pure (.absent, w)
    | some b => do
      let x ← counters w.blocks b
      let x ← x.incWeak e.target checks
      pure ({ w with blocks := w.blocks.set b (.rc x) }.add ⟨.weak, b⟩)
  -- `upgrade`, rc.rs:408-416
  | .upgrade p => match ofKind w.ptrs .weak p with
    | none => pure (.absent, w)
    | some b => do
      let x ← counters w.blocks b
      if x.strong = 0 then pure (.refused, w) else do
      let x ← x.incStrong e.target checks
      pure ({ w with blocks := w.blocks.set b (.rc x) }.add ⟨.strong, b⟩)
  -- a pointer is moved: its bits are copied
  | .push root path k => do
    match ← w.find root path, (if root = .ptr k then none else var w.ptrs k) with
    | some (pl, x), some q => do
      let w ← { w with ptrs := w.ptrs.set k none }.put { x with fields := x.fields ++ [q] } pl
      pure (.unit, w)
    | _, _ => pure (.absent, w)
  | .pull root path i => do
    match ← w.find root path with
    | none => pure (.absent, w)
    | some (pl, x) => match x.fields[i]? with
      | none => pure (.absent, w)
      | some q => do
        let w ← w.put { x with fields := x.fields.eraseIdx i } pl
        pure (w.add q)
  | .follow root path i => do
    match ← w.find root path with
    | none => pure (.absent, w)
    | some (_, x) => match x.fields[i]? with
      | none => pure (.absent, w)
      | some q => w.clone e.target checks q
  | .read root path => do
    match ← w.find root path with
    | none => pure (.absent, w)
    | some (_, x) => pure (.id x.id, w)
  -- `mem::swap`, `RefCell::replace`
  | .swap root path v => if root = .val v then pure (.absent, w) else do
    match ← w.find root path, var w.vals v with
    | some (.self, _), _ => pure (.absent, w)
    | some (pl, x), some y => do
      let w ← { w with vals := w.vals.set v (some x) }.put y pl
      pure (.unit, w)
    | _, _ => pure (.absent, w)
  -- rc.rs:251-258, 437-439, 458-460
  | .counts p => match var w.ptrs p with
    | none => pure (.absent, w)
    | some q => if q.kind = .own then pure (.absent, w) else do
      let x ← counters w.blocks q.block
      pure (.nums x.strong x.weak, w)
  -- `ptr_eq`, rc.rs:296-298
  | .ptrEq p q => match ofKind w.ptrs .strong p, ofKind w.ptrs .strong q with
    | some b, some c => pure (.bool (b = c), w)
    | _, _ => pure (.absent, w)
  -- `get_mut`, rc.rs:264-270
  | .getMut p v => match ofKind w.ptrs .strong p, var w.vals v with
    | some b, some y => do
      let x ← counters w.blocks b
      if x.isUnique then do
        let old ← bits w.blocks b
        let blocks ← setBits w.blocks b y
        pure (.unit, { w with blocks := blocks, vals := w.vals.set v (some old) })
      else pure (.refused, w)
    | _, _ => pure (.absent, w)
  -- `LeakBox::take`, leaked.rs:426-433
  | .take p => match ofKind w.ptrs .own p with
    | none => pure (.absent, w)
    | some b => do
      let x ← bits w.blocks b
      pure (.var w.vals.length, { w with vals := w.vals ++ [some x], ptrs := w.ptrs.set p none })
  -- `Rc::try_unwrap`, rc.rs:178-190; the `Weak` is put in the same variable
  | .tryUnwrap p => match ofKind w.ptrs .strong p with
    | none => pure (.absent, w)
    | some b => do
      let x ← counters w.blocks b
      if x.strong ≠ 1 then pure (.refused, w) else do
      let x ← x.decStrong e.target checks
      let v ← bits w.blocks b
      pure (.var w.vals.length, { w with blocks := w.blocks.set b (.rc x), vals := w.vals ++ [some v], ptrs := w.ptrs.set p (some ⟨.weak, b⟩) })
  -- `Weak::try_unwrap`, rc.rs:371-384 (`self` is dropped at the end), and `Rc::new`, rc.rs:101-114
  | .recycle p v => match ofKind w.ptrs .weak p, var w.vals v with
    | some b, some y => do
      let x ← counters w.blocks b
      if x.isUniqueToRcMemory then do
        let _ ← x.decWeak e.target checks
        pure (.unit, { w with blocks := w.blocks.set b (.rc (.init y)), vals := w.vals.set v none, ptrs := w.ptrs.set p (some ⟨.strong, b⟩) })
      else pure (.refused, w)
    | _, _ => pure (.absent, w)
  | .dropPtr p => match var w.ptrs p with
    | none => pure (.absent, w)
    | some q => do
      let (begun, blocks) ← dropPtr e.target checks w.blocks q
      if begun then do
        let v ← bits blocks q.block
        pure (.unit, { w with ptrs := w.ptrs.set p none, blocks := blocks, log := w.log ++ [v.id], tasks := .body (.block q.block) false :: w.tasks })
      else pure (.unit, { w with ptrs := w.ptrs.set p none, blocks := blocks })
  | .dropVal v => match var w.vals v with
    | none => pure (.absent, w)
    | some x => pure (.unit, { w with vals := w.vals.set v none }.dropVal x)
  -- `LeakBox::leak`, leaked.rs:315-323
  | .forget p => match var w.ptrs p with
    | none => pure (.absent, w)
    | some _ => pure (.unit, { w with ptrs := w.ptrs.set p none })
  | .endDrop panics => match w.tasks with
    | .body at' u :: ts =>
      if panics && u then pure (.aborted, { w with aborted := true })
      else do
        let v ← read w.blocks at'
        let (u, blocks, log, ts) ← settle e.target checks false w.blocks w.log (.glue at' 0 v.fields.length (u || panics) :: ts)
        pure (if u then .unwound else .unit, { w with blocks := blocks, log := log, tasks := ts })
    | _ => pure (.absent, w)

/-- A program; it ends when it is aborted. Not code of the repository: the program of the user, any
sequence of these. -/
def run (e : Bump.Env) (checks : Bool) : World → List Op → Outcome (List Resp × World)
  | w, [] => .ret ([], w)
  | w, op :: ops => do
    let (r, w) ← exec e checks w op
    if w.aborted then pure ([r], w) else do
    let (rs, w) ← run e checks w ops
    pure (r :: rs, w)

/-- Layouts that exist, and are not empty. Not code of the repository: what the language demands of
callers. -/
def Op.Valid (t : Target) : Op → Prop
  | .box _ L | .rc _ L | .alloc L => L.Valid t ∧ 0 < L.size
  | _ => True

end Verif.Mixed
