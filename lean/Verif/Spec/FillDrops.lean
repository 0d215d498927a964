import Verif.Model.FillDrops
import Verif.Spec.Fill
/-! # What filling does to the values: nothing is lost, nothing is destroyed twice -/
set_option autoImplicit false
namespace Verif.FillDrops
open Verif Fill FVec

variable {C α E V : Type}

/-- The values in what the iterator answered. -/
def taken (vals : α → List V) : List (Poll α) → List V
  | [] => []
  | .item a :: ps => vals a ++ taken vals ps
  | _ :: ps => taken vals ps

/-- The values in a `Result`. -/
def resultVals (vals : α → List V) (evals : E → List V) : Except E α → List V
  | .ok a => vals a
  | .error e => evals e

/-- The values in an `Option`. -/
def optionVals (vals : α → List V) (o : Option α) : List V := o.toList.flatMap vals

/-- The values in the elements of a `Vec`, resp. of the slice over which an `IterMut` goes. -/
def vecVals (vals : α → List V) (v : Vec α) : List V := v.items.flatMap vals
def sliceVals (vals : α → List V) (s : IterMut α) : List V := s.slice.flatMap vals

/-- For every iterator, whose answers and whose panics are arbitrary, and whatever destructors panic: when filling has ended, the values that were in the container and those of the items that were taken from the iterator are those that are in the container now and those
that were destroyed, each exactly once. If the process was aborted, then still no value was destroyed twice, and only values of these were destroyed. -/
def Conserves (F : FillImpl C α V) (cvals : C → List V) (vals : α → List V) : Prop :=
  ∀ {ι : Type} {next : Next ι α} {fuel : Nat} {c c' : C} {i i' : ι} {e : Ended} {d : List V}, F.fill fuel next c i = some (e, c', i', d) →
    ∃ n rest, i' = after next i n ∧ (cvals c ++ taken vals (answers next i n)).Perm (rest ++ d) ∧ (e ≠ .abort → rest = cvals c')

/-- Filling runs no destructor at all. -/
def DestroysNothing (F : FillImpl C α V) : Prop :=
  ∀ {ι : Type} {next : Next ι α} {fuel : Nat} {c c' : C} {i i' : ι} {e : Ended} {d : List V}, F.fill fuel next c i = some (e, c', i', d) → d = [] ∧ e ≠ .abort

/-- Without panics of destructors it is the function of `Model/Fill`, of which C63 to C66 are. -/
def Agrees (F : FillImpl C α V) (G : Fill.FillImpl C α) : Prop :=
  ∀ {ι : Type} {next : Next ι α} {fuel : Nat} {c : C} {i : ι},
    (F.fill fuel next c i = none ∧ G.fill fuel next c i = none) ∨
    ∃ u c' i' d, F.fill fuel next c i = some (if u then .panic else .ok, c', i', d) ∧ G.fill fuel next c i = some (u, c', i')

/-- A slice whose elements `old` are to be overwritten, the answers of the iterator, the elements written, the values destroyed, the end:
one element after the other is overwritten, and its values are destroyed, until there are no more elements or items, or something panics. The item is written also if the destructor of the element panics. -/
inductive Overwrites (panics : V → Bool) (vals : α → List V) : List α → List (Poll α) → List α → List V → Ended → Prop
  | full : Overwrites panics vals [] [] [] [] .ok
  | done (x : α) (xs : List α) : Overwrites panics vals (x :: xs) [.done] [] [] .ok
  | panicked (x : α) (xs : List α) : Overwrites panics vals (x :: xs) [.panic] [] [] .panic
  | next {x : α} {xs : List α} {a : α} {log : List (Poll α)} {new : List α} {d : List V} {e : Ended} (h : (vals x).countP panics = 0)
      (t : Overwrites panics vals xs log new d e) : Overwrites panics vals (x :: xs) (.item a :: log) (a :: new) (vals x ++ d) e
  | dropPanics {x : α} (xs : List α) (a : α) (h : (vals x).countP panics = 1) : Overwrites panics vals (x :: xs) [.item a] [a] (vals x) .panic
  | dropAborts {x : α} (xs : List α) (a : α) {d : List V} {v : V} (hd : d ++ [v] <+: vals x) (h : d.countP panics = 1) (hv : panics v = true) :
      Overwrites panics vals (x :: xs) [.item a] [a] (d ++ [v]) .abort

end Verif.FillDrops
