import Verif.Model.Bump
import Verif.Model.BumpBoxes
/-!
# Threads with boxes in one shared `Bump`, on the bytes of the memory

Threads call methods of one shared `static_alloc::Bump` (`/repo/static-alloc/src/bump.rs`; the machine of `Model/Bump`, in which the calls of different threads are interleaved step by step) and use what they got: `LeakBox`es, leaked references,
and the `Allocation`s of `get`/`get_at` (`/repo/static-alloc/src/leaked.rs`). Values are byte strings in the memory of the bump. Destructors are logged with the thread and with the bytes they are run on, and may unwind.

Simplification: a read or write of a value by its owner is one event. That no two threads access the same bytes is proved (`C88_no_data_race`), so other interleavings of these accesses do not give other results.
-/
namespace Verif.ConcBoxes
open Verif Bump Unsync.BumpBoxes

/-- What a thread can do with the things it has. Not code of the repository: the program of the
user, any sequence of these. The methods are those of static-alloc/src/leaked.rs:161-557. -/
inductive Use where
  /-- `Allocation::boxed`, bump.rs:819-824 -/
  | boxed (k : Nat) (val : List Byte)
  /-- `Allocation::leak`, bump.rs:803-807 -/
  | leakInto (k : Nat) (val : List Byte)
  | deref (k : Nat)
  | replace (k : Nat) (val : List Byte)
  | assign (k : Nat) (val : List Byte)
  | take (k : Nat)
  | leak (k : Nat)
  | intoRaw (k : Nat)
  | fromRaw (k : Nat)
  | drop (k : Nat)
  deriving DecidableEq, Repr

/-- What is answered. Results of these methods. -/
inductive Ans where
  | unit | unwound | val (v : List Byte)
  deriving DecidableEq, Repr

/-- What is observed: a call returned, a thread used a variable (with what answer), a thread gave a
variable to another one, or the bump was reset. Not code of the repository: an auxiliary function
of the machine. -/
inductive Obs (n : Nat) where
  | returned (t : Fin n) (call : Call) (needsDrop : Bool) (r : Ret)
  | used (t : Fin n) (u : Use) (a : Ans)
  | sent (t u : Fin n) (k : Nat)
  | reset
  deriving DecidableEq, Repr

/-- What happens: a thread starts a call (the flag tells whether the type has drop glue), makes a
step in its call, uses a variable, gives a variable to another thread, or the bump is reset. Not
code of the repository: the program of the user, any sequence of these. -/
inductive Event (n : Nat) where
  | call (t : Fin n) (call : Call) (needsDrop : Bool)
  | step (t : Fin n)
  | use (t : Fin n) (u : Use)
  | send (t u : Fin n) (k : Nat)
  | reset
  deriving DecidableEq, Repr

/-- The machine of `Model/Bump`, and for each thread its variables (`none` after they were moved
from) and the flag of its running call; the destructors that were run; whether the process was
aborted. Not code of the repository: the state that the program of the user and the library have
together. -/
structure World (n : Nat) where
  st : State n
  vars : Fin n → List (Option Handle)
  flag : Fin n → Bool
  log : List (Fin n × List Byte)
  aborted : Bool

/-- Function update. Not code of the repository: an auxiliary function of the machine. -/
def upd {n : Nat} {α : Type} (f : Fin n → α) (t : Fin n) (a : α) : Fin n → α := fun u => if u = t then a else f u

/-- The variable that the caller has after a call returned with success: a reference for `leak` (bump.rs:704) and `leak_at` (755), a box for `leak_box` (534-536) and `leak_box_at` (546-548), and an `Allocation` for `get` (443-447) and `get_at` (470-475). -/
def newVar (call : Call) (needsDrop : Bool) (r : Ret) : Option Handle :=
  match call, r with
  | .leak V _, .ptr p => some ⟨p, ⟨V, needsDrop⟩, .bare⟩
  | .leakAt V _ _, .allocation a => some ⟨a.ptr, ⟨V, needsDrop⟩, .bare⟩
  | .leakBox V _, .ptr p => some ⟨p, ⟨V, needsDrop⟩, .boxed⟩
  | .leakBoxAt V _ _, .ptr p => some ⟨p, ⟨V, needsDrop⟩, .boxed⟩
  | .get V, .allocation a => some ⟨a.ptr, ⟨V, needsDrop⟩, .uninit⟩
  | .getAt V _, .allocation a => some ⟨a.ptr, ⟨V, needsDrop⟩, .uninit⟩
  | _, _ => none

/-- The argument `val` that is dropped when the call returns: by the operator `?` in `leak_box` (bump.rs:533) and `leak_box_at` (545), and by unwinding. `leak` and `leak_at` give it back in the error (705, 749). -/
def droppedArg (call : Call) (r : Ret) : Option (List Byte) :=
  match call, r with
  | .leakBox _ v, .none => some v
  | .leakBoxAt _ v _, .err _ => some v
  | .leak _ v, .panicked => some v
  | .leakAt _ v _, .panicked => some v
  | .leakBox _ v, .panicked => some v
  | .leakBoxAt _ v _, .panicked => some v
  | _, _ => none

/-- The owner stores bytes at the place of the variable (`ptr::write` or an assignment). The
machine of `Model/Bump` records that in its history. Not code of the repository: the semantics of
the Rust language. -/
def poke {n : Nat} (st : State n) (h : Handle) (bytes : List Byte) : State n :=
  if bytes = [] then st else { st with mem := LeakBox.ptrWrite st.mem h.addr bytes, hist := .userWrite ⟨h.addr, h.ty.layout.size⟩ :: st.hist }

/-- Running the destructor of the value in place. Not code of the repository: the semantics of the
Rust language. -/
def dropLog {n : Nat} (t : Fin n) (log : List (Fin n × List Byte)) (needsDrop : Bool) (v : List Byte) : List (Fin n × List Byte) :=
  if needsDrop then log ++ [(t, v)] else log

/-- One use of a variable by thread `t`. Using a variable that was moved from is impossible in
Rust, and `ub` here. Calls of the public methods; each case cites the method it runs.
(static-alloc/src/leaked.rs:161-557.) -/
def useVar {n : Nat} (panics : List Byte → Bool) (w : World n) (t : Fin n) : Use → Outcome (Ans × World n)
  -- the value is written, then `LeakBox::from_raw`
  | .boxed k val =>
    match (w.vars t)[k]? with
    | some (some h) => pure (.unit, { w with st := poke w.st h val, vars := upd w.vars t ((w.vars t).set k (some (LeakBox.fromRaw h))) })
    | _ => .ub
  | .leakInto k val =>
    match (w.vars t)[k]? with
    | some (some h) => pure (.unit, { w with st := poke w.st h val, vars := upd w.vars t ((w.vars t).set k (some (LeakBox.intoRaw h))) })
    | _ => .ub
  -- `Deref`, leaked.rs:499-505
  | .deref k =>
    match (w.vars t)[k]? with
    | some (some h) => pure (.val (LeakBox.ptrRead w.st.mem h), w)
    | _ => .ub
  -- `mem::replace(&mut *this, val)` through `DerefMut`, leaked.rs:508-513
  | .replace k val =>
    match (w.vars t)[k]? with
    | some (some h) => pure (.val (LeakBox.ptrRead w.st.mem h), { w with st := poke w.st h val })
    | _ => .ub
  -- `*this = val` through `DerefMut`: the old value is dropped; also if that unwinds the new value is moved in
  | .assign k val =>
    match (w.vars t)[k]? with
    | some (some h) =>
      pure (if unwinds panics h (LeakBox.ptrRead w.st.mem h) then .unwound else .unit,
        { w with st := poke w.st h val, log := dropLog t w.log h.ty.needsDrop (LeakBox.ptrRead w.st.mem h) })
    | _ => .ub
  -- `LeakBox::take`, leaked.rs:426-433
  | .take k =>
    match (w.vars t)[k]? with
    | some (some h) => pure (.val (LeakBox.take w.st.mem h), { w with vars := upd w.vars t ((w.vars t).set k none) })
    | _ => .ub
  -- `LeakBox::leak`, leaked.rs:315-323, `LeakBox::into_raw`, 221-224
  | .leak k | .intoRaw k =>
    match (w.vars t)[k]? with
    | some (some h) => pure (.unit, { w with vars := upd w.vars t ((w.vars t).set k (some (LeakBox.intoRaw h))) })
    | _ => .ub
  -- `LeakBox::from_raw`, leaked.rs:238-244
  | .fromRaw k =>
    match (w.vars t)[k]? with
    | some (some h) => pure (.unit, { w with vars := upd w.vars t ((w.vars t).set k (some (LeakBox.fromRaw h))) })
    | _ => .ub
  -- `Drop for LeakBox`, leaked.rs:515-520
  | .drop k =>
    match (w.vars t)[k]? with
    | some (some h) =>
      pure (if unwinds panics h (LeakBox.ptrRead w.st.mem h) then .unwound else .unit,
        { w with vars := upd w.vars t ((w.vars t).set k none), log := dropLog t w.log h.ty.needsDrop (LeakBox.ptrRead w.st.mem h) })
    | _ => .ub

/-- The end of a call, seen by the caller: it gets the variable, and an argument that is not used
is dropped; if that unwinds while the call is unwinding already, the process is aborted.
static-alloc/src/bump.rs:532-553, 701-757: the value is moved in, or dropped by `?`, or returned in
the `LeakError`. -/
def afterReturn {n : Nat} (panics : List Byte → Bool) (w : World n) (t : Fin n) (call : Call) (r : Ret) : World n :=
  { w with
    vars := match newVar call (w.flag t) r with
      | some h => upd w.vars t (w.vars t ++ [some h])
      | none => w.vars
    log := match droppedArg call r with
      | some v => dropLog t w.log (w.flag t) v
      | none => w.log
    aborted := match droppedArg call r with
      | some v => w.flag t && panics v && decide (r = .panicked)
      | none => false }

/-- Execute one event. Events that are not possible have no effect, as in `Model/Bump`; after an
abort nothing happens. Calls of the public methods; each case cites the method it runs.
(static-alloc/src/bump.rs:351-786.) -/
def exec {n : Nat} (e : Env) (panics : List Byte → Bool) (w : World n) : Event n → Outcome (Option (Obs n) × World n)
  | .call t call needsDrop =>
    if w.aborted then pure (none, w) else
    pure (none, if w.st.pc t = .idle then { w with st := Bump.exec e w.st (.invoke t call), flag := upd w.flag t needsDrop } else w)
  | .step t =>
    if w.aborted then pure (none, w) else
    match w.st.pc t with
    | .ret call r => pure (some (.returned t call (w.flag t) r), afterReturn panics { w with st := Bump.step e w.st t } t call r)
    | _ => pure (none, { w with st := Bump.step e w.st t })
  | .use t u =>
    if w.aborted then pure (none, w) else do
    let (a, w') ← useVar panics w t u
    pure (some (.used t u a), w')
  -- a reference is moved to another thread
  | .send t u k =>
    if w.aborted then pure (none, w) else
    match (w.vars t)[k]? with
    | some (some h) =>
      let vars := upd w.vars t ((w.vars t).set k none)
      pure (some (.sent t u k), { w with vars := upd vars u (vars u ++ [some h]) })
    | _ => .ub
  -- `Bump::reset`, bump.rs:351-353; the references that are left can not be used any more
  | .reset =>
    if w.aborted then pure (none, w) else
    pure (some .reset, { w with st := Bump.exec e w.st .reset, vars := fun t => (w.vars t).map fun _ => none })

/-- A program of threads and its schedule: what is observed, in the order of time, and the end. Not
code of the repository: the program of the user, any sequence of these. -/
def run {n : Nat} (e : Env) (panics : List Byte → Bool) : World n → List (Event n) → Outcome (List (Obs n) × World n)
  | w, [] => .ret ([], w)
  | w, ev :: evs => do
    let (o, w) ← exec e panics w ev
    let (os, w) ← run e panics w evs
    pure (o.toList ++ os, w)

end Verif.ConcBoxes
