import Verif.Model.LeakBox
/-!
# Model of `without_alloc::Box` (`/repo/without-alloc/src/boxed.rs`)

An `Uninit<T>` (see `Model/Uninit.lean` for its geometry) is here the place it points to.
-/
namespace Verif.Owned
namespace WBox

/-- `Box::new`, boxed.rs:100-106: `into.borrow_mut().init(val)`, uninit.rs:315-329. -/
def new (s : PState) (val into : Nat) : Nat × PState := (into, ptrWrite s into val)
/-- `Drop for Box`, boxed.rs:157-163. -/
def drop (s : PState) (this : Nat) : Outcome (Bool × PState) := dropInPlace true s this
/-- `Box::into_raw`, boxed.rs:136-144: `mem::forget`. -/
def intoRaw (s : PState) (b : Nat) : Nat × PState := (b, s)
/-- `Box::from_raw`, boxed.rs:126-130. -/
def fromRaw (s : PState) (init : Nat) : Nat × PState := (init, s)
/-- `Box::take`, boxed.rs:111-114: `read`, then `into_raw`. -/
def take (s : PState) (b : Nat) : Outcome ((Nat × Nat) × PState) := do
  let val ← ptrRead s b
  let (mem, s) := intoRaw s b
  pure ((val, mem), s)
/-- `Box::leak`, boxed.rs:150-154. -/
def leak (s : PState) (b : Nat) : Nat × PState :=
  let (raw, s) := intoRaw s b
  (raw, s)
/-- `CoerciblePtr::as_sized_ptr`, boxed.rs:88-90. -/
def asSizedPtr (b : Nat) : Nat := b
/-- `CoerciblePtr::replace_ptr`, boxed.rs:91-95; `Uninit::replace_ptr` uninit.rs:983-988. `new` is the coerced pointer. -/
def replacePtr (s : PState) (b new : Nat) : Nat × PState :=
  let (_, s) := intoRaw s b
  fromRaw s new
/-- `Deref::deref`, boxed.rs:165-173. -/
def deref (s : PState) (b : Nat) : Outcome Nat := ptrRead s b
/-- `mem::replace` through `DerefMut`, boxed.rs:175-181. -/
def replace (s : PState) (b val : Nat) : Outcome (Nat × PState) := do
  let old ← ptrRead s b
  pure (old, ptrWrite s b val)

end WBox

/-- What a user does with `Box`. Not code of the repository: the program of the user, any sequence
of these. The methods are those of without-alloc/src/boxed.rs:98-180. -/
inductive BOp where
  | make
  | discard (v : Nat)
  | memory (p : Nat)                  -- get an `Uninit<T>` for unused memory
  | release (p : Nat)                 -- give it up
  | new (v p : Nat)
  | deref (p : Nat)
  | replace (p v : Nat)
  | take (p : Nat)
  | intoRaw (p : Nat)
  | fromRaw (p : Nat)
  | leak (p : Nat)
  | unsize (p : Nat)                  -- `unsize` with a valid coercion: it keeps the address
  | drop (p : Nat)
  deriving DecidableEq, Repr

/-- Calls of the public methods; each case cites the method it runs.
(without-alloc/src/boxed.rs:98-180.) -/
def bexec (s : OState) : BOp → Outcome (LRet × OState)
  | .make => pure (.val s.next, { s with owned := s.next :: s.owned, next := s.next + 1 })
  | .discard v => pure (unwoundRet (s.st.panics v), { s with st := { s.st with dropped := v :: s.st.dropped }, owned := s.owned.erase v })
  | .memory p => pure (.unit, s.setKind p (some .uninit))
  | .release p => pure (.unit, s.setKind p none)
  | .new v p =>
    let (b, st) := WBox.new s.st v p
    pure (.unit, { (s.setKind b (some .boxed)) with st := st, owned := s.owned.erase v })
  | .deref p => do
    let v ← WBox.deref s.st p
    pure (.val v, s)
  | .replace p v => do
    let (old, st) ← WBox.replace s.st p v
    pure (.val old, { s with st := st, owned := old :: s.owned.erase v })
  | .take p => do
    let ((v, mem), st) ← WBox.take s.st p
    pure (.val v, { (s.setKind mem (some .uninit)) with st := st, owned := v :: s.owned })
  | .intoRaw p =>
    let (m, st) := WBox.intoRaw s.st p
    pure (.unit, { (s.setKind m (some .uninitFull)) with st := st })
  | .fromRaw p =>
    let (b, st) := WBox.fromRaw s.st p
    pure (.unit, { (s.setKind b (some .boxed)) with st := st })
  | .leak p =>
    let (b, st) := WBox.leak s.st p
    pure (.unit, { (s.setKind b (some .raw)) with st := st })
  | .unsize p =>
    let (b, st) := WBox.replacePtr s.st p (WBox.asSizedPtr p)
    pure (.unit, { (s.setKind b (some .boxed)) with st := st })
  | .drop p => do
    let (unw, st) ← WBox.drop s.st p
    pure (unwoundRet unw, { (s.setKind p none) with st := st })

/-- Not code of the repository: what the language, or the documented contract of the methods,
demands of callers. -/
def BOp.Allowed (s : OState) : BOp → Prop
  | .make => True
  | .discard v => v ∈ s.owned
  | .memory p => s.kind p = none
  | .release p => s.kind p = some .uninit
  | .new v p => v ∈ s.owned ∧ s.kind p = some .uninit
  | .deref p | .take p | .intoRaw p | .leak p | .unsize p | .drop p => s.kind p = some .boxed
  | .replace p v => v ∈ s.owned ∧ s.kind p = some .boxed
  | .fromRaw p => s.kind p = some .uninitFull

/-- Not code of the repository: what programs can reach. -/
inductive BReach : OState → Prop
  | init {mem : Nat → Option Nat} {panics : Nat → Bool} : BReach ⟨⟨mem, [], panics⟩, fun _ => none, [], 0⟩
  | step {s s' : OState} {op : BOp} {r : LRet} (h : BReach s) (ha : op.Allowed s) (hx : bexec s op = .ret (r, s')) : BReach s'

end Verif.Owned
