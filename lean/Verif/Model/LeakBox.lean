import Verif.Model.Owned
/-!
# Model of `static_alloc::leaked::LeakBox` (`/repo/static-alloc/src/leaked.rs`)

A box is the place it points to. Functions that take a box by value drop it at the end of their scope, unless it is moved or in a `ManuallyDrop`.
-/
namespace Verif.Owned
namespace LeakBox

/-- `LeakBox::new_from_raw_non_null`, leaked.rs:168-179 (called by `Bump::leak_box`, `leak_box_at`, bump.rs). -/
def newFromRawNonNull (s : PState) (pointer val : Nat) : Nat × PState := (pointer, ptrWrite s pointer val)
/-- `Drop for LeakBox`, leaked.rs:515-520. -/
def drop (needsDrop : Bool) (s : PState) (this : Nat) : Outcome (Bool × PState) := dropInPlace needsDrop s this
/-- `LeakBox::into_raw`, leaked.rs:221-224: `ManuallyDrop` inhibits the destructor. -/
def intoRaw (s : PState) (this : Nat) : Nat × PState := (this, s)
/-- `LeakBox::from_raw`, leaked.rs:238-244; also `from_mut_unchecked` 273-279, `from_mut` 441-450 and `From<&mut MaybeUninit<T>>` 526-534. -/
def fromRaw (s : PState) (pointer : Nat) : Nat × PState := (pointer, s)
/-- `LeakBox::leak`, leaked.rs:315-323. -/
def leak (s : PState) (this : Nat) : Nat × PState := intoRaw s this
/-- `LeakBox::take`, leaked.rs:426-433: `ManuallyDrop`, then `ptr::read`. -/
def take (s : PState) (this : Nat) : Outcome (Nat × PState) := do
  let val ← ptrRead s this
  pure (val, s)
/-- `LeakBox::assume_init`, leaked.rs:491-496: the argument is dropped at the end, as a `LeakBox<MaybeUninit<T>>`. -/
def assumeInit (s : PState) (this : Nat) : Outcome (Nat × PState) := do
  let pointer := this
  let (_, s) ← drop false s this
  pure (pointer, s)
/-- `LeakBox::write`, leaked.rs:476-483. -/
def write (s : PState) (this val : Nat) : Outcome (Nat × PState) :=
  let s := ptrWrite s this val
  assumeInit s this
/-- `Deref::deref`, leaked.rs:499-505, the value read through the reference. -/
def deref (s : PState) (this : Nat) : Outcome Nat := ptrRead s this
/-- `mem::replace(&mut *this, val)` through `DerefMut::deref_mut`, leaked.rs:508-513. -/
def replace (s : PState) (this val : Nat) : Outcome (Nat × PState) := do
  let old ← ptrRead s this
  pure (old, ptrWrite s this val)
/-- `*this = val` through `deref_mut`: the old value is dropped; if its destructor unwinds, the new
value is still moved in. `deref_mut` is static-alloc/src/leaked.rs:508-513. Not code of the
repository: the semantics of the Rust language. -/
def assign (s : PState) (this val : Nat) : Outcome (Bool × PState) := do
  let (unw, s) ← dropInPlace true s this
  pure (unw, ptrWrite s this val)

end LeakBox

/-- What a user does. Not code of the repository: the program of the user, any sequence of these.
The methods are those of static-alloc/src/leaked.rs:161-557. -/
inductive LOp where
  | make                              -- a new value in a variable
  | discard (v : Nat)                 -- drop a variable
  | allocate (p v : Nat)              -- `bump.leak_box(v)`, or `from_mut_unchecked` of a place that holds `v`
  | fromMaybeUninit (p : Nat)         -- `LeakBox::from(&mut MaybeUninit<T>)`, `bump_box`
  | fromMut (p bits : Nat)            -- `LeakBox::from_mut(&mut T)`, `T: Copy`
  | write (p v : Nat)
  | fill (p v : Nat)                  -- `MaybeUninit::write` through `deref_mut`
  | assumeInit (p : Nat)
  | deref (p : Nat)
  | replace (p v : Nat)
  | assign (p v : Nat)
  | take (p : Nat)
  | intoRaw (p : Nat)
  | fromRaw (p : Nat)
  | leak (p : Nat)
  | dropRaw (p : Nat)                 -- `drop_in_place` on the raw pointer
  | drop (p : Nat)
  deriving DecidableEq, Repr

/-- What an operation returns: the value read or moved out, or an unwinding destructor. Results of
these methods. -/
inductive LRet where
  | unit | val (v : Nat) | unwound
  deriving DecidableEq, Repr

/-- Not code of the repository: an auxiliary function of the machine. -/
def unwoundRet (b : Bool) : LRet := if b then .unwound else .unit

/-- Execute an operation. Calls of the public methods; each case cites the method it runs.
(static-alloc/src/leaked.rs:161-557.) -/
def lexec (s : OState) : LOp → Outcome (LRet × OState)
  | .make => pure (.val s.next, { s with owned := s.next :: s.owned, next := s.next + 1 })
  | .discard v => pure (unwoundRet (s.st.panics v), { s with st := { s.st with dropped := v :: s.st.dropped }, owned := s.owned.erase v })
  | .allocate p v =>
    let (b, st) := LeakBox.newFromRawNonNull s.st p v
    pure (.unit, { (s.setKind b (some .boxed)) with st := st, owned := s.owned.erase v })
  | .fromMaybeUninit p =>
    let (b, st) := LeakBox.fromRaw s.st p
    pure (.unit, { (s.setKind b (some .uninit)) with st := st })
  | .fromMut p bits =>
    let (b, st) := LeakBox.fromRaw (ptrWrite s.st p bits) p
    pure (.unit, { (s.setKind b (some .copy)) with st := st })
  | .write p v => do
    let (b, st) ← LeakBox.write s.st p v
    pure (.unit, { (s.setKind b (some .boxed)) with st := st, owned := s.owned.erase v })
  | .fill p v => pure (.unit, { (s.setKind p (some .uninitFull)) with st := ptrWrite s.st p v, owned := s.owned.erase v })
  | .assumeInit p => do
    let (b, st) ← LeakBox.assumeInit s.st p
    pure (.unit, { (s.setKind b (some .boxed)) with st := st })
  | .deref p => do
    let v ← LeakBox.deref s.st p
    pure (.val v, s)
  | .replace p v => do
    let (old, st) ← LeakBox.replace s.st p v
    pure (.val old, { s with st := st, owned := old :: s.owned.erase v })
  | .assign p v => do
    let (unw, st) ← LeakBox.assign s.st p v
    pure (unwoundRet unw, { s with st := st, owned := s.owned.erase v })
  | .take p => do
    let (v, st) ← LeakBox.take s.st p
    pure (.val v, { (s.setKind p none) with st := st, owned := v :: s.owned })
  | .intoRaw p =>
    let (b, st) := LeakBox.intoRaw s.st p
    pure (.unit, { (s.setKind b (some .raw)) with st := st })
  | .fromRaw p =>
    let (b, st) := LeakBox.fromRaw s.st p
    pure (.unit, { (s.setKind b (some .boxed)) with st := st })
  | .leak p =>
    let (b, st) := LeakBox.leak s.st p
    pure (.unit, { (s.setKind b (some .raw)) with st := st })
  | .dropRaw p => do
    let (unw, st) ← dropInPlace true s.st p
    pure (unwoundRet unw, { (s.setKind p none) with st := st })
  | .drop p => do
    -- the type decides whether there is drop glue
    let (unw, st) ← LeakBox.drop (s.kind p = some .boxed) s.st p
    pure (unwoundRet unw, { (s.setKind p (if s.kind p = some .uninitFull then some .raw else none)) with st := st })

/-- What types, borrow checker and the safety sections of the unsafe functions demand: values that
are moved in are held by the user, a place that is handed
to a constructor is not in use, boxes have the type required, `assume_init` only after filling,
`from_raw` only on pointers from `into_raw`. Not code of the repository: what the language, or the
documented contract of the methods, demands of callers. -/
def LOp.Allowed (s : OState) : LOp → Prop
  | .make => True
  | .discard v => v ∈ s.owned
  | .allocate p v => v ∈ s.owned ∧ s.kind p = none
  | .fromMaybeUninit p => s.kind p = none
  | .fromMut p _ => s.kind p = none
  | .write p v => v ∈ s.owned ∧ s.kind p = some .uninit
  | .fill p v => v ∈ s.owned ∧ s.kind p = some .uninit
  | .assumeInit p => s.kind p = some .uninitFull
  | .deref p => s.kind p = some .boxed ∨ s.kind p = some .copy
  | .replace p v => v ∈ s.owned ∧ s.kind p = some .boxed
  | .assign p v => v ∈ s.owned ∧ s.kind p = some .boxed
  | .take p | .intoRaw p | .leak p => s.kind p = some .boxed
  | .fromRaw p | .dropRaw p => s.kind p = some .raw
  | .drop p => s.kind p = some .boxed ∨ s.kind p = some .copy ∨ s.kind p = some .uninit ∨ s.kind p = some .uninitFull

/-- A sequence of calls, of either kind of box. Not code of the repository: the program of the
user, any sequence of these. -/
def boxRun {O : Type} (exec : OState → O → Outcome (LRet × OState)) : OState → List O → Outcome (List LRet × OState)
  | s, [] => .ret ([], s)
  | s, op :: ops => do
    let (r, s) ← exec s op
    let (rs, s) ← boxRun exec s ops
    pure (r :: rs, s)
/-- No handles and no values; memory with any contents. Not code of the repository: the state that
the program of the user and the library have together. -/
def OState.initial (mem : Nat → Option Nat) (panics : Nat → Bool) : OState := ⟨⟨mem, [], panics⟩, fun _ => none, [], 0⟩

/-- Reachable worlds, from one without handles and values (memory with any contents). Not code of
the repository: what programs can reach. -/
inductive LReach : OState → Prop
  | init {mem : Nat → Option Nat} {panics : Nat → Bool} : LReach ⟨⟨mem, [], panics⟩, fun _ => none, [], 0⟩
  | step {s s' : OState} {op : LOp} {r : LRet} (h : LReach s) (ha : op.Allowed s) (hx : lexec s op = .ret (r, s')) : LReach s'

end Verif.Owned
