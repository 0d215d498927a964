/-!
# Linearizability

The textbook definition (Herlihy & Wing), for a sequential object given by `apply : S → Op → Res × S`: a concurrent history
of invocations and responses is linearizable if one can insert for the operations a linearization point between
invocation and response (pending operations may or may not have one), such that executing the operations atomically in the order of
these points gives the results which were returned.
-/
namespace Verif.Lin

/-- Observable events: thread `t` invokes `op`; thread `t` gets the response `r` for `op`. -/
inductive HEv (T Op Res : Type) where
  | inv (t : T) (op : Op)
  | resp (t : T) (op : Op) (r : Res)

/-- Observable events and linearization points. -/
inductive TEv (T Op Res : Type) where
  | inv (t : T) (op : Op)
  | lin (t : T) (op : Op) (r : Res)
  | resp (t : T) (op : Op) (r : Res)

variable {T Op Res S : Type}

/-- Forget the linearization points. -/
def TEv.erase : TEv T Op Res → Option (HEv T Op Res)
  | .inv t op => some (.inv t op)
  | .resp t op r => some (.resp t op r)
  | .lin _ _ _ => none

/-- The results at the linearization points (oldest first) are those of the sequential object started in `s`. -/
def Legal (apply : S → Op → Res × S) : S → List (TEv T Op Res) → Prop
  | _, [] => True
  | s, .lin _ op r :: tr => (apply s op).1 = r ∧ Legal apply (apply s op).2 tr
  | s, .inv _ _ :: tr => Legal apply s tr
  | s, .resp _ _ _ :: tr => Legal apply s tr

/-- What a thread is doing. -/
inductive TS (Op Res : Type) where
  | idle
  | called (op : Op)
  | decided (op : Op) (r : Res)

/-- The events of thread `t` (oldest first) are operations executed one after the other, each: invocation, then
linearization point, then the response with the same result; the last one may be incomplete. -/
def ThreadWf (t : T) : TS Op Res → List (TEv T Op Res) → Prop
  | _, [] => True
  | st, .inv u op :: tr => (u = t ∧ st = .idle ∧ ThreadWf t (.called op) tr) ∨ (u ≠ t ∧ ThreadWf t st tr)
  | st, .lin u op r :: tr =>
    (u = t ∧ st = .called op ∧ ThreadWf t (.decided op r) tr) ∨ (u ≠ t ∧ ThreadWf t st tr)
  | st, .resp u op r :: tr =>
    (u = t ∧ st = .decided op r ∧ ThreadWf t .idle tr) ∨ (u ≠ t ∧ ThreadWf t st tr)

/-- The history (oldest first) is linearizable with respect to the object started in `s`. -/
def Linearizable (apply : S → Op → Res × S) (s : S) (h : List (HEv T Op Res)) : Prop :=
  ∃ tr : List (TEv T Op Res), tr.filterMap TEv.erase = h ∧ Legal apply s tr ∧ ∀ t, ThreadWf t .idle tr

end Verif.Lin
