import Verif.Model.Unsync
/-!
# Model of `static_alloc::leaked::Alloca` (`/repo/static-alloc/src/leaked.rs:19-110`)

The frame of the call provides memory for one local variable `Bump<[u64; k]>`, at an address `frame layout`.
`debug` says whether the code is compiled with overflow checks and debug assertions. `u64Align` is `align_of::<u64>()`.
-/
namespace Verif.Unsync
open Verif

/-- `Alloca<T>`, leaked.rs:23-26; `T` is given by its layout. -/
structure Alloca where
  T : Layout
  len : Nat
  deriving DecidableEq, Repr

namespace Alloca
/-- `len + 1`: panics on overflow if checked, and wraps otherwise. static-alloc/src/leaked.rs:33,
41 use it; not code of the repository: the semantics of the Rust language. -/
def plusOne (t : Target) (debug : Bool) (len : Nat) : Outcome Nat :=
  if len + 1 < t.W then pure (len + 1) else if debug = true then .panic else pure ((len + 1) % t.W)

/-- `Alloca::new`, leaked.rs:31-39. -/
def new (t : Target) (debug : Bool) (T : Layout) (len : Nat) : Outcome (Option Alloca) := do
  let n ← plusOne t debug len
  match layoutArray t T n with
  | none => pure none
  | some _ => pure (some ⟨T, len⟩)

/-- `Alloca::padded_layout`, leaked.rs:41-43. -/
def paddedLayout (t : Target) (debug : Bool) (a : Alloca) : Outcome Layout := do
  let n ← plusOne t debug a.len
  Outcome.unwrap (layoutArray t a.T n)

/-- The table of stack slots of `Alloca::run`, leaked.rs:61-98: bound on the size and number of `u64`. -/
def table : List (Nat × Nat) :=
  [(8, 1), (16, 2), (32, 4), (64, 8), (128, 16), (256, 32), (512, 64), (1024, 128), (2048, 256),
   (2 ^ 12, 512), (2 ^ 13, 2 ^ 10), (2 ^ 14, 2 ^ 11), (2 ^ 15, 2 ^ 12), (2 ^ 16, 2 ^ 13), (2 ^ 17, 2 ^ 14), (2 ^ 18, 2 ^ 15),
   (2 ^ 19, 2 ^ 16), (2 ^ 20, 2 ^ 17)]

/-- The first entry of the table that is sufficient. static-alloc/src/leaked.rs:60-98, the chain of
`if`s. -/
def words (required : Nat) : Option Nat := (table.find? fun e => decide (required ≤ e.1)).map (·.2)

/-- The local variable of `run_with::<[u64; k]>`. static-alloc/src/leaked.rs:101-109. -/
def slot (t : Target) (u64Align k : Nat) (frame : Layout → Nat) : TBump :=
  ⟨frame (TBump.layout t ⟨0, ⟨8 * k, u64Align⟩⟩), ⟨8 * k, u64Align⟩⟩

/-- `Alloca::run_with`, leaked.rs:101-109: the pointer and length of the slice passed to the closure (or a panic before). -/
def runWith (t : Target) (debug : Bool) (u64Align : Nat) (frame : Layout → Nat) (m : Mem) (a : Alloca) (k : Nat) :
    Outcome (Nat × Nat) := do
  let local_ := slot t u64Align k frame
  let m := local_.init t m
  let mem ← local_.deref t debug
  let (r, _) ← mem.bumpArray t m a.T a.len
  match r with
  | .error _ => .panic -- `unwrap`
  | .ok p => pure (p, a.len)

/-- `Alloca::run`, leaked.rs:54-99. -/
def run (t : Target) (debug : Bool) (u64Align : Nat) (frame : Layout → Nat) (m : Mem) (a : Alloca) : Outcome (Nat × Nat) := do
  let padded ← a.paddedLayout t debug
  let requiredSize := padded.size
  match words requiredSize with
  | some k => a.runWith t debug u64Align frame m k
  | none => .panic
end Alloca
end Verif.Unsync
