import Verif.Spec.GlobalRaces
/-!
# What is in the blocks

What a program expects of the bytes of its blocks (`Holds`), in terms of its own actions: its calls and its accesses. How blocks are placed in memory, and what the allocator writes, does not occur in that.
-/
set_option autoImplicit false
namespace Verif.Bump.Conc
open MM
variable {n : Nat}

/-- The event is in the execution of this method of `Bump`, which was called at `(a.1, j)`. -/
def Runs (X : Graph n GAct) (j : Nat) (a : MM.Ev n) (call : Call) : Prop :=
  j < a.2 ∧ X.At (a.1, j) (.bump (.invoke call)) ∧ ∀ i c, j < i → i < a.2 → ¬ X.At (a.1, i) (.bump (.invoke c))

/-- The event writes this byte to this address. Moving a value to its place writes its bytes, one after the other. -/
def StoresByte (X : Graph n GAct) (a : MM.Ev n) (p : Nat) (v : Byte) : Prop :=
  X.At a (.userWrite p v) ∨ X.At a (.write p v) ∨
  ∃ r j call bytes, X.At a (.bump (.write r)) ∧ r.Has p ∧ Runs X j a call ∧ call.value = some bytes ∧ bytes[p - r.start]? = some v

/-- The memory model for accesses that are not atomic ([intro.races]/13): a read has the value of a visible side effect, that is of a write that happens before it, without another one in between; if no write happens before, then it may have any value. -/
def ReadsVisible (X : Graph n GAct) : Prop := ∀ a p v, X.At a (.userRead p v) ∨ X.At a (.read p v) →
  (∃ w, StoresByte X w p v ∧ X.hb w a ∧ ∀ w', WritesByte X w' p → ¬ (X.hb w w' ∧ X.hb w' a)) ∨ ∀ w, WritesByte X w p → ¬ X.hb w a

/-- The program has not written to this byte through the block received at `r`, at the time of `a`. -/
def Untouched (X : Graph n GAct) (src : MM.Ev n → MM.Ev n) (a r : MM.Ev n) (p : Nat) : Prop := ∀ w, UserWrites X w p → src w = r → ¬ X.hb w a

/-- At the time of `a`, the block received at `r` holds `v` at offset `o`: it is what the program has written there last, through this block; or, if there is no such write: zero if it is of `alloc_zeroed`, the byte of the value that was moved there,
or what the block had held that was passed to `realloc`, when it was passed. -/
inductive Holds (X : Graph n GAct) (src : MM.Ev n → MM.Ev n) : MM.Ev n → MM.Ev n → Nat → Byte → Prop
  | written {a r w : MM.Ev n} {b : Block} {o : Nat} {v : Byte} : Gives X r b → X.At w (.userWrite (b.ptr + o) v) → src w = r → X.hb w a →
      (∀ w', UserWrites X w' (b.ptr + o) → src w' = r → X.hb w' a → w' = w ∨ X.hb w' w) → Holds X src a r o v
  | zeroed {a r : MM.Ev n} {l : Layout} {p o : Nat} : X.At r (.ret (.allocZeroed l) (.ptr p)) → p ≠ 0 → o < l.size → Untouched X src a r (p + o) → Holds X src a r o 0
  | value {a r : MM.Ev n} {call : Call} {res : Ret} {reg : Region} {bytes : List Byte} {o : Nat} {v : Byte} : X.At r (.ret (.api call) (.api res)) → grant call res = some reg → call.value = some bytes → bytes[o]? = some v →
      Untouched X src a r (reg.start + o) → Holds X src a r o v
  | kept {a : MM.Ev n} {t : Fin n} {i k : Nat} {c b : Block} {ns p o : Nat} {v : Byte} : X.At (t, k) (.ret (.realloc c ns) (.ptr p)) → X.At (t, i) (.invoke (.realloc c ns)) → i < k →
      (∀ j op r, i < j → j < k → ¬ X.At (t, j) (.ret op r)) → Gives X (t, k) b → o < c.layout.size → o < b.layout.size → Untouched X src a (t, k) (b.ptr + o) →
      Holds X src (t, i) (src (t, i)) o v → Holds X src a (t, k) o v

end Verif.Bump.Conc
