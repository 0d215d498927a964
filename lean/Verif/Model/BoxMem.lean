import Verif.Model.Uninit
/-!
# `without_alloc::Uninit` and `Box` on the bytes of the memory

A program that gets pieces of memory (`Uninit`, `/repo/without-alloc/src/uninit.rs`), casts and splits them (`Model/Uninit`), puts values into them, directly or in a `Box` (`/repo/without-alloc/src/boxed.rs`), and gets the memory of the
boxes back. Values are byte strings of the size of their type. A destructor is logged with the type and the bytes it is run on, and may unwind. `Model/WBox` knows nothing about bytes: its places are just different.
-/
set_option autoImplicit false
namespace Verif.BoxMem
open Verif Uninit

/-- A variable of the program: `Uninit<'a, T>` or `Uninit<'a, [T]>` (uninit.rs:78-86; whether there is a value in the memory is known to the author of the program only), `Box<'a, T>` (boxed.rs:63-65), or `&'a mut T`. -/
inductive Handle where
  | piece (v : AnyView) (full : Bool)
  | boxed (v : View)
  | ref (v : View)
  deriving DecidableEq, Repr

/-- The memory, the variables that are in scope, and the destructors that were run. Not code of the
repository: the state that the program of the user and the library have together. -/
structure World where
  mem : Mem
  hs : Nat → Option Handle
  log : List (Layout × List Byte)

/-- The statements of the program. The first number is the variable that is used or declared. Not
code of the repository: the program of the user, any sequence of these. The methods are those of
without-alloc/src/uninit.rs and without-alloc/src/boxed.rs. -/
inductive Op where
  | memory (k addr len : Nat)
  | place (k : Nat) (T : Layout) (addr : Nat)
  | placeSlice (k : Nat) (T : Layout) (addr n : Nat)
  | zst (k : Nat) (T : Layout)
  | view (k k' : Nat) (op : VOp)        -- if there is a second piece then it is called `k'`
  | remake (k : Nat)
  | write (k : Nat) (val : List Byte)
  | init (k : Nat) (val : List Byte)
  | read (k : Nat)
  | intoMut (k : Nat)
  | new (k : Nat) (val : List Byte)
  | deref (k : Nat)
  | replace (k : Nat) (val : List Byte)
  | take (k : Nat)
  | intoRaw (k : Nat)
  | fromRaw (k : Nat)
  | leak (k : Nat)
  | drop (k : Nat)
  | release (k : Nat)
  deriving DecidableEq, Repr

/-- Results of these methods. -/
inductive Resp where
  | unit | unwound | panicked | val (v : List Byte) | views (vs : List AnyView)
  deriving DecidableEq, Repr

/-- Set a variable. Not code of the repository: an auxiliary function of the machine. -/
def upd {α : Type} (f : Nat → α) (k : Nat) (x : α) : Nat → α := fun j => if j = k then x else f j

/-- `ptr::drop_in_place` of a value. Not code of the repository: the semantics of the Rust
language. -/
def dropInPlace (log : List (Layout × List Byte)) (T : Layout) (bytes : List Byte) : List (Layout × List Byte) := log ++ [(T, bytes)]

/-- `Box::new`, boxed.rs:100-106: `into.borrow_mut().init(val)`; `borrow_mut` is uninit.rs:527-533, also `into_box` 359-361. -/
def boxNew (m : Mem) (into : View) (val : List Byte) : View × Mem :=
  let (m, _) := into.init m val
  (into, m)
/-- `Box::into_raw`, boxed.rs:136-144: pointer and size are passed to `Uninit::new`. -/
def boxIntoRaw (b : View) : View :=
  let ptr := b.addr
  let len := b.len
  ⟨ptr, len, b.T⟩
/-- `Box::from_raw`, boxed.rs:126-130. -/
def boxFromRaw (init : View) : View := init
/-- `Box::take`, boxed.rs:111-114. -/
def boxTake (m : Mem) (b : View) : List Byte × View :=
  let val := b.read m
  (val, boxIntoRaw b)
/-- `Box::leak`, boxed.rs:150-154; `into_mut` is uninit.rs:308-310. -/
def boxLeak (b : View) : View := boxIntoRaw b
/-- `Deref::deref` and `deref_mut`, boxed.rs:165-181: what is read through the reference. -/
def boxDeref (m : Mem) (b : View) : List Byte := readBytes m b.addr b.T.size

/-- Declare a variable that is the view. Not code of the repository: the semantics of the Rust
language. -/
def declare (w : World) (k : Nat) (v : AnyView) : Resp × World := (.views [v], { w with hs := upd w.hs k (some (.piece v false)) })

/-- Execute one statement; `panics` tells on which values destructors unwind. The use of a variable
that does not exist or has another type is `ub` here (in Rust it is impossible). Calls of the
public methods; each case cites the method it runs. (without-alloc/src/uninit.rs:120-530,
without-alloc/src/boxed.rs:98-180.) -/
def exec (t : Target) (panics : Layout → List Byte → Bool) (w : World) : Op → Outcome (Resp × World)
  -- `Uninit::from_memory`, uninit.rs:133-140
  | .memory k addr len => pure (declare w k (.sized (fromMemory addr len)))
  -- `Uninit::from_maybe_uninit`, uninit.rs:209-218, and `From`, 908-912
  | .place k T addr => do
    let v ← fromMaybeUninit T addr
    pure (declare w k (.sized v))
  -- `Uninit::from_maybe_uninit_slice`, uninit.rs:380-390, and `From`, 914-918
  | .placeSlice k T addr n => do
    let v ← fromMaybeUninitSlice t T addr n
    pure (declare w k (.slice v))
  -- `Uninit::invent_for_zst`, uninit.rs:193-196
  | .zst k T =>
    match inventForZst T with
    | .ret v => pure (declare w k (.sized v))
    | .panic => pure (.panicked, w)
    | .ub => .ub
  | .view k k' op =>
    match w.hs k with
    | some (.piece v _) =>
      match op.apply t v with
      | .ret [a] => pure (.views [a], { w with hs := upd w.hs k (some (.piece a false)) })
      | .ret [a, b] => pure (.views [a, b], { w with hs := upd (upd w.hs k (some (.piece a false))) k' (some (.piece b false)) })
      | .ret _ => .ub
      | .panic => pure (.panicked, { w with hs := upd w.hs k none })
      | .ub => .ub
    | _ => .ub
  -- `Uninit::from_maybe_uninit(u.into_maybe_uninit())`, uninit.rs:209-218 and 338-341
  | .remake k =>
    match w.hs k with
    | some (.piece (.sized v) full) => do
      let v ← fromMaybeUninit v.T v.intoMaybeUninit.start
      pure (.views [.sized v], { w with hs := upd w.hs k (some (.piece (.sized v) full)) })
    | _ => .ub
  -- `u.borrow_mut().init(val)`, uninit.rs:315-329 and 527-533
  | .write k val =>
    match w.hs k with
    | some (.piece (.sized v) _) => pure (.unit, { w with mem := (v.init w.mem val).1, hs := upd w.hs k (some (.piece (.sized v) true)) })
    | _ => .ub
  -- `u.init(val)`, uninit.rs:315-329
  | .init k val =>
    match w.hs k with
    | some (.piece (.sized v) _) => pure (.unit, { w with mem := (v.init w.mem val).1, hs := upd w.hs k (some (.ref v)) })
    | _ => .ub
  -- `Uninit::read`, uninit.rs:351-353
  | .read k =>
    match w.hs k with
    | some (.piece (.sized v) _) => pure (.val (v.read w.mem), { w with hs := upd w.hs k (some (.piece (.sized v) false)) })
    | _ => .ub
  -- `Uninit::into_mut`, uninit.rs:308-310
  | .intoMut k =>
    match w.hs k with
    | some (.piece (.sized v) _) => pure (.unit, { w with hs := upd w.hs k (some (.ref v)) })
    | _ => .ub
  | .new k val =>
    match w.hs k with
    | some (.piece (.sized v) _) =>
      let (b, m) := boxNew w.mem v val
      pure (.unit, { w with mem := m, hs := upd w.hs k (some (.boxed b)) })
    | _ => .ub
  | .deref k =>
    match w.hs k with
    | some (.boxed b) => pure (.val (boxDeref w.mem b), w)
    | some (.ref v) => pure (.val (readBytes w.mem v.addr v.T.size), w)
    | _ => .ub
  -- `mem::replace(&mut *x, val)`
  | .replace k val =>
    match w.hs k with
    | some (.boxed b) => pure (.val (boxDeref w.mem b), { w with mem := writeBytes w.mem b.addr val })
    | some (.ref v) => pure (.val (readBytes w.mem v.addr v.T.size), { w with mem := writeBytes w.mem v.addr val })
    | _ => .ub
  | .take k =>
    match w.hs k with
    | some (.boxed b) =>
      let (val, v) := boxTake w.mem b
      pure (.val val, { w with hs := upd w.hs k (some (.piece (.sized v) false)) })
    | _ => .ub
  | .intoRaw k =>
    match w.hs k with
    | some (.boxed b) => pure (.unit, { w with hs := upd w.hs k (some (.piece (.sized (boxIntoRaw b)) true)) })
    | _ => .ub
  | .fromRaw k =>
    match w.hs k with
    | some (.piece (.sized v) _) => pure (.unit, { w with hs := upd w.hs k (some (.boxed (boxFromRaw v))) })
    | _ => .ub
  | .leak k =>
    match w.hs k with
    | some (.boxed b) => pure (.unit, { w with hs := upd w.hs k (some (.ref (boxLeak b))) })
    | _ => .ub
  -- `Drop for Box`, boxed.rs:157-163
  | .drop k =>
    match w.hs k with
    | some (.boxed b) =>
      pure (if panics b.T (boxDeref w.mem b) then .unwound else .unit, { w with hs := upd w.hs k none, log := dropInPlace w.log b.T (boxDeref w.mem b) })
    | _ => .ub
  -- an `Uninit` or a reference goes out of scope: they have no drop glue
  | .release k => pure (.unit, { w with hs := upd w.hs k none })

/-- A program. Not code of the repository: the program of the user, any sequence of these. -/
def run (t : Target) (panics : Layout → List Byte → Bool) : World → List Op → Outcome (List Resp × World)
  | w, [] => .ret ([], w)
  | w, op :: ops => do
    let (r, w) ← exec t panics w op
    let (rs, w) ← run t panics w ops
    pure (r :: rs, w)

end Verif.BoxMem
