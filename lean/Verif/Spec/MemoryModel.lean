import Verif.Spec.Basic
/-!
# The memory model of the language, for one atomic object

Rust has the memory model of C++20 for atomics. This is the part of it that is about a single atomic object, in the usual axiomatic form: an execution is a graph whose events are the actions of the threads, with the relations
reads-from, modification order and happens-before, and it is possible if it satisfies axioms. Nothing is said here about time or interleaving.
-/
namespace Verif.MM

/-- What an action does with the atomic object: the value that it reads, the value that it writes. Both for a read-modify-write. -/
structure Kind (A : Type) where
  reads : A → Option Nat
  writes : A → Option Nat

/-- An event: the `k`th action of a thread. -/
abbrev Ev (n : Nat) := Fin n × Nat

/-- A candidate execution. -/
structure Graph (n : Nat) (A : Type) where
  /-- the actions of every thread, in program order -/
  acts : Fin n → List A
  /-- the value of the object at the start -/
  initial : Nat
  /-- the write from which a read takes its value, `none`: from the initial value -/
  rf : Ev n → Option (Ev n)
  /-- modification order -/
  mo : Ev n → Ev n → Prop
  /-- happens-before: contains the program order, and whatever other synchronisation there is -/
  hb : Ev n → Ev n → Prop

namespace Graph
variable {n : Nat} {A : Type} (X : Graph n A) (K : Kind A)

/-- The event is this action. -/
def At (a : Ev n) (x : A) : Prop := (X.acts a.1)[a.2]? = some x
def IsEvent (a : Ev n) : Prop := ∃ x, X.At a x
def Reads (a : Ev n) (v : Nat) : Prop := ∃ x, X.At a x ∧ K.reads x = some v
def Writes (a : Ev n) (v : Nat) : Prop := ∃ x, X.At a x ∧ K.writes x = some v
def IsRead (a : Ev n) : Prop := ∃ v, X.Reads K a v
def IsWrite (a : Ev n) : Prop := ∃ v, X.Writes K a v
def Atomic (a : Ev n) : Prop := X.IsRead K a ∨ X.IsWrite K a

/-- What holds whatever the orderings (`Relaxed`, ..., `SeqCst`) of the atomic operations are: happens-before is a strict order with the program order; the modification order is a total order of the writes; a read has the value of the
write that it reads from. ([intro.races] in C++20.) -/
structure WellFormed : Prop where
  sb : ∀ t j k, j < k → k < (X.acts t).length → X.hb (t, j) (t, k)
  hb_irrefl : ∀ a, ¬ X.hb a a
  hb_trans : ∀ a b c, X.hb a b → X.hb b c → X.hb a c
  mo_irrefl : ∀ a, ¬ X.mo a a
  mo_trans : ∀ a b c, X.mo a b → X.mo b c → X.mo a c
  mo_total : ∀ a b, X.IsWrite K a → X.IsWrite K b → a = b ∨ X.mo a b ∨ X.mo b a
  rf_value : ∀ r v, X.Reads K r v → match X.rf r with
    | none => v = X.initial
    | some w => X.Writes K w v

/-- Coherence-ordered before, without the transitive closure ([atomics.order]/3): a write and one that modifies later; a write and a read from it; a read and a later modification than the one it reads. -/
def Cob (a b : Ev n) : Prop :=
  (X.IsWrite K a ∧ X.IsWrite K b ∧ X.mo a b) ∨ (X.IsRead K b ∧ X.rf b = some a) ∨
  (X.IsRead K a ∧ X.IsWrite K b ∧ a ≠ b ∧ (X.rf a = none ∨ ∃ w, X.rf a = some w ∧ X.mo w b))

/-- All operations are `SeqCst` ([atomics.order]/4): there is a single total order of them that is consistent with happens-before and with coherence. -/
def SeqCst : Prop := ∃ S : Ev n → Ev n → Prop,
  (∀ a, ¬ S a a) ∧ (∀ a b c, S a b → S b c → S a c) ∧ (∀ a b, X.Atomic K a → X.Atomic K b → a = b ∨ S a b ∨ S b a) ∧
  (∀ a b, X.Atomic K a → X.Atomic K b → X.hb a b → S a b) ∧ (∀ a b, X.Cob K a b → S a b)

/-- What holds for atomic operations of any ordering, also `Relaxed`: the coherence axioms ([intro.races]/15-18), and a read-modify-write reads the last value before its own in the modification order ([atomics.order]/10). -/
structure Coherent : Prop where
  write_write : ∀ a b, X.IsWrite K a → X.IsWrite K b → X.hb a b → X.mo a b
  read_read : ∀ a b w, X.IsRead K a → X.IsRead K b → X.hb a b → X.rf a = some w → ∃ w', X.rf b = some w' ∧ (w' = w ∨ X.mo w w')
  read_write : ∀ a b w, X.IsRead K a → X.IsWrite K b → X.hb a b → X.rf a = some w → X.mo w b
  write_read : ∀ a b, X.IsWrite K a → X.IsRead K b → X.hb a b → ∃ w, X.rf b = some w ∧ (w = a ∨ X.mo a w)
  rmw : ∀ a, X.IsRead K a → X.IsWrite K a → match X.rf a with
    | none => ∀ w, X.IsWrite K w → ¬ X.mo w a
    | some w => X.mo w a ∧ ∀ w', X.IsWrite K w' → ¬ (X.mo w w' ∧ X.mo w' a)

/-- All the events, each of them once, in an order that respects happens-before. -/
def Order (ord : List (Ev n)) : Prop :=
  ord.Nodup ∧ (∀ a, a ∈ ord ↔ X.IsEvent a) ∧ ord.Pairwise fun a b => ¬ X.hb b a

end Graph

/-- The event `a` is before `b` in the list (the two are in it, and it has no event twice). -/
def Earlier {n : Nat} (ord : List (Ev n)) (a b : Ev n) : Prop := ord.idxOf a < ord.idxOf b ∧ ord.idxOf b < ord.length

end Verif.MM
