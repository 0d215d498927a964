import Verif.Model.AllocExt
/-!
# Programs that use one allocator for many objects

A program calls the extension methods of `LocalAllocLeakExt` (`/repo/without-alloc/src/alloc.rs`, modelled in `Model/AllocExt`) in any order and writes to the objects it got. `w.objs` are the regions of memory of the objects, in the order in
which they were made. Writing stands for everything that owners of a box, a vector, an `Rc` or a slice do with their memory (by C75 a vector touches only its memory).
-/
namespace Verif.Arena
open Verif AllocTraits AllocExt Uninit

/-- Not code of the repository: the state that the program of the user and the library have
together. -/
structure World (σ : Type) where
  s : σ
  m : Mem
  objs : List Region

/-- Not code of the repository: the program of the user, any sequence of these. The methods are
those of without-alloc/src/alloc.rs:23-247. -/
inductive Op where
  /-- `alloc_layout` -/
  | layout (l : Layout)
  /-- `alloc_t` -/
  | uninit (V : Layout)
  | boxed (V : Layout) (bytes : List Byte)
  | rc (V : Layout) (bytes : List Byte)
  | vec (V : Layout) (n : Nat)
  /-- `copy_slice` of `n` elements at an offset in the `k`-th object -/
  | copy (T : Layout) (k off n : Nat)
  /-- the owner of the `k`-th object writes to it -/
  | write (k off : Nat) (bytes : List Byte)

section
variable {σ : Type}

/-- The method ends with `None` or a new object. Not code of the repository: an auxiliary function
of the machine. -/
def finish {α : Type} (objs : List Region) (place : α → Region) (x : Option α × σ × Mem) : Bool × World σ :=
  match x with
  | (none, s, m) => (false, ⟨s, m, objs⟩)
  | (some a, s, m) => (true, ⟨s, m, objs ++ [place a]⟩)

/-- Start of the `k`-th object. Not code of the repository: an auxiliary function of the machine. -/
def World.start (w : World σ) (k : Nat) : Nat := (w.objs.getD k ⟨0, 0⟩).start

/-- One call; the result tells whether it succeeded. Calls of the public methods; each case cites
the method it runs. (without-alloc/src/alloc.rs:23-247.) -/
def exec (t : Target) (A : LocalAlloc σ) (w : World σ) : Op → Outcome (Bool × World σ)
  -- alloc.rs:30-41
  | .layout l =>
    match NonZeroLayout.fromLayout l with
    | none => .ret (false, w)
    | some l => do let x ← allocLayout A w.s w.m l; pure (finish w.objs (fun v => (⟨v.addr, v.len⟩ : Region)) x)
  -- alloc.rs:65-74
  | .uninit V => do let x ← allocT A w.s w.m V; pure (finish w.objs (fun v => (⟨v.addr, v.len⟩ : Region)) x)
  -- alloc.rs:82-85
  | .boxed V bytes => do let x ← AllocExt.boxed A w.s w.m V bytes; pure (finish w.objs (fun v => (⟨v.addr, v.len⟩ : Region)) x)
  -- alloc.rs:116-122
  | .rc V bytes => do let x ← AllocExt.rc t A w.s w.m V bytes; pure (finish w.objs (fun v => (⟨v.addr, v.len⟩ : Region)) x)
  -- alloc.rs:94-108
  | .vec V n => do let x ← AllocExt.fixedVec t A w.s w.m V n; pure (finish w.objs (fun f => (⟨f.uninit.addr, f.uninit.len⟩ : Region)) x)
  -- alloc.rs:138-161
  | .copy T k off n => do let x ← copySlice t A w.s w.m T (w.start k + off) n; pure (finish w.objs (fun a => (⟨a.1, a.2 * T.size⟩ : Region)) x)
  | .write k off bytes => .ret (true, { w with m := writeBytes w.m (w.start k + off) bytes })

/-- Not code of the repository: the program of the user, any sequence of these. -/
def run (t : Target) (A : LocalAlloc σ) : World σ → List Op → Outcome (List Bool × World σ)
  | w, [] => .ret ([], w)
  | w, op :: ops => do
    let (r, w) ← exec t A w op
    let (rs, w) ← run t A w ops
    pure (r :: rs, w)

end
end Verif.Arena
