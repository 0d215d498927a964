import Verif.Spec.Linked
import Verif.Model.BumpGlobal
/-!
# Boxes in values in boxes

`LeakBox` (`/repo/static-alloc/src/leaked.rs`) from `Bump::leak_box` (`/repo/static-alloc/src/bump.rs:532-537`), and in the same way `without_alloc::Box` from `boxed` (`/repo/without-alloc/src/alloc.rs:82-85`, `boxed.rs`), for types that contain such boxes
themselves. A box is an address. Memory has at an address the bits of a value: its identity and the addresses that are its boxes. Reading a value leaves the bits in place, and so does dropping it, so a double drop shows in the log. The calls are
made by one thread, one after the other.

Simplifications: memory is indexed by the addresses of the values (that their bytes are disjoint is C01, C11 and C83); the types are not zero-sized (they contain an address or an identity); the recursion of destructors has a bound, the number of
values made so far, and is `ub` if that is exceeded, which is proved not to happen.
-/
set_option autoImplicit false
namespace Verif.Linked
open Verif

/-- The bits of a value. Not code of the repository: a value of a type of the user, with boxes as
fields. -/
structure Node where
  id : Nat
  fields : List Nat
  deriving DecidableEq, Repr

/-- The drop glue of the fields of a value, in order: the language runs the remaining ones also if
one of them unwinds. `drop` is `<LeakBox as Drop>::drop`. Not code of the repository: the semantics
of the Rust language. (`drop` is static-alloc/src/leaked.rs:515-524.) -/
def dropFields (drop : Bool → List Nat → Nat → Outcome (Ended × List Nat)) : Bool → List Nat → List Nat → Outcome (Ended × List Nat)
  | unwinding, log, [] => .ret (if unwinding then .unwound else .ok, log)
  | unwinding, log, f :: fs => do
    match ← drop unwinding log f with
    | (.aborted, log) => pure (.aborted, log)
    | (.unwound, log) => dropFields drop true log fs
    | (.ok, log) => dropFields drop false log fs

/-- `drop_in_place` of a value with these bits: the destructor of the value, then its fields. A
panic while unwinding aborts the program; destructors that some versions of the language run before
they abort are left out. Not code of the repository: the semantics of the Rust language. -/
def dropNode (panics : Nat → Bool) (drop : Bool → List Nat → Nat → Outcome (Ended × List Nat)) (unwinding : Bool) (log : List Nat) (n : Node) : Outcome (Ended × List Nat) :=
  if panics n.id && unwinding then .ret (.aborted, log ++ [n.id])
  else dropFields drop (unwinding || panics n.id) (log ++ [n.id]) n.fields

/-- `<LeakBox as Drop>::drop`, leaked.rs:515-520, and `<Box as Drop>::drop`, boxed.rs:157-163: `ptr::drop_in_place` of the value. -/
def dropBox (panics : Nat → Bool) (mem : Nat → Option Node) : Nat → Bool → List Nat → Nat → Outcome (Ended × List Nat)
  | 0, _, _, _ => .ub
  | depth + 1, unwinding, log, p => match mem p with
    | none => .ub
    | some n => dropNode panics (dropBox panics mem depth) unwinding log n

/-- Memory, the variables, the level `consumed` of the bump (bump.rs:152), the number of values made, and the destructors that were run. -/
structure World where
  mem : Nat → Option Node
  vals : List (Option Node)
  boxes : List (Option Nat)
  level : Nat
  made : Nat
  log : List Nat
  aborted : Bool

/-- Not code of the repository: the state that the program of the user and the library have
together. -/
def World.init (level : Nat) (mem : Nat → Option Node) : World := ⟨mem, [], [], level, 0, [], false⟩

/-- `ptr::write`. Not code of the repository: the library core, as documented. -/
def World.write (w : World) (p : Nat) (n : Node) : World := { w with mem := fun x => if x = p then some n else w.mem x }
/-- `ptr::read`, or a read through a reference. Not code of the repository: the library core, as
documented. -/
def World.readAt (w : World) (p : Nat) : Outcome Node := match w.mem p with | none => .ub | some n => .ret n

/-- Going from box to box, `Deref`/`DerefMut` leaked.rs:498-513, boxed.rs:165-181: the address of the value at the path. -/
def World.walk (w : World) (p : Nat) : List Nat → Outcome (Option Nat)
  | [] => .ret (some p)
  | i :: path => do
    let n ← w.readAt p
    match n.fields[i]? with
    | none => pure none
    | some q => w.walk q path

/-- A value that is no longer in a variable is dropped. Not code of the repository: the semantics
of the Rust language. -/
def World.dropValue (panics : Nat → Bool) (w : World) (n : Node) (done : Resp) : Outcome (Resp × World) := do
  let (r, log) ← dropNode panics (dropBox panics w.mem w.made) false w.log n
  pure (r.resp done, { w with log := log, aborted := r = .aborted })

/-- One operation of the program. `leakBox`: bump.rs:532-537, that is `get` (421-428 ff., here `try_alloc`) and `new_from_raw_non_null` leaked.rs:168-179; if there is no memory then `?` drops the value. `take`: leaked.rs:426-433, boxed.rs:111-114.
`forget`: `LeakBox::leak` leaked.rs:315-323. `replace`: `mem::replace` through `DerefMut`. The
other ones are moves of boxes, which copy the address. -/
def exec (e : Bump.Env) (panics : Nat → Bool) (w : World) : Op → Outcome (Resp × World)
  | .make => pure (.var w.vals.length, { w with vals := w.vals ++ [some ⟨w.made, []⟩], made := w.made + 1 })
  | .leakBox v L => match var w.vals v with
    | none => pure (.absent, w)
    | some n => do
      let w := { w with vals := w.vals.set v none }
      match ← Bump.tryAllocSeq e w.level L with
      | (none, c) => World.dropValue panics { w with level := c } n .full
      | (some a, c) => pure (.var w.boxes.length, { (w.write a.ptr n) with boxes := w.boxes ++ [some a.ptr], level := c })
  | .alloc L => do
    match ← Bump.tryAllocSeq e w.level L with
    | (none, c) => pure (.full, { w with level := c })
    | (some _, c) => pure (.unit, { w with level := c })
  | .attach v b => match var w.vals v, var w.boxes b with
    | some n, some p => pure (.unit, { w with vals := w.vals.set v (some { n with fields := n.fields ++ [p] }), boxes := w.boxes.set b none })
    | _, _ => pure (.absent, w)
  | .unpack v i => match var w.vals v with
    | none => pure (.absent, w)
    | some n => match n.fields[i]? with
      | none => pure (.absent, w)
      | some p => pure (.var w.boxes.length, { w with vals := w.vals.set v (some { n with fields := n.fields.eraseIdx i }), boxes := w.boxes ++ [some p] })
  | .push b path k => match var w.boxes b with
    | none => pure (.absent, w)
    | some p => do
      match ← w.walk p path, var (w.boxes.set b none) k with
      | some q, some p' =>
        let n ← w.readAt q
        pure (.unit, { (w.write q { n with fields := n.fields ++ [p'] }) with boxes := w.boxes.set k none })
      | _, _ => pure (.absent, w)
  | .detach b path i => match var w.boxes b with
    | none => pure (.absent, w)
    | some p => do
      match ← w.walk p path with
      | none => pure (.absent, w)
      | some q =>
        let n ← w.readAt q
        match n.fields[i]? with
        | none => pure (.absent, w)
        | some p' => pure (.var w.boxes.length, { (w.write q { n with fields := n.fields.eraseIdx i }) with boxes := w.boxes ++ [some p'] })
  | .replace b path v => match var w.boxes b with
    | none => pure (.absent, w)
    | some p => do
      match ← w.walk p path, var w.vals v with
      | some q, some n' =>
        let n ← w.readAt q
        pure (.unit, { (w.write q n') with vals := w.vals.set v (some n) })
      | _, _ => pure (.absent, w)
  | .read b path => match var w.boxes b with
    | none => pure (.absent, w)
    | some p => do
      match ← w.walk p path with
      | none => pure (.absent, w)
      | some q =>
        let n ← w.readAt q
        pure (.id n.id, w)
  | .take b => match var w.boxes b with
    | none => pure (.absent, w)
    | some p => do
      let n ← w.readAt p
      pure (.var w.vals.length, { w with vals := w.vals ++ [some n], boxes := w.boxes.set b none })
  | .dropBox b => match var w.boxes b with
    | none => pure (.absent, w)
    | some p => do
      let w := { w with boxes := w.boxes.set b none }
      let (r, log) ← dropBox panics w.mem w.made false w.log p
      pure (r.resp .unit, { w with log := log, aborted := r = .aborted })
  | .dropVal v => match var w.vals v with
    | none => pure (.absent, w)
    | some n => World.dropValue panics { w with vals := w.vals.set v none } n .unit
  | .forget b => match var w.boxes b with
    | none => pure (.absent, w)
    | some _ => pure (.unit, { w with boxes := w.boxes.set b none })

/-- A program; it ends when it is aborted. Not code of the repository: the program of the user, any
sequence of these. -/
def run (e : Bump.Env) (panics : Nat → Bool) : World → List Op → Outcome (List Resp × World)
  | w, [] => .ret ([], w)
  | w, op :: ops => do
    let (r, w) ← exec e panics w op
    if w.aborted then pure ([r], w) else do
    let (rs, w) ← run e panics w ops
    pure (r :: rs, w)

/-- Layouts of types that exist, and are not zero-sized. Not code of the repository: what the
language, or the documented contract of the methods, demands of callers. -/
def Op.Valid (t : Target) : Op → Prop
  | .leakBox _ L | .alloc L => L.Valid t ∧ 0 < L.size
  | _ => True

end Verif.Linked
