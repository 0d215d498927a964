import Verif.Model.ConcBoxes
import Verif.Spec.BumpBoxes
/-!
# Specification of boxes in a shared bump: there is no memory, every thread's variables hold their values

What the calls of the bump return is given by the observation (it is specified by C10: linearizability with the sequential bump). The specification tells everything else: which variables there are, what is read from them, which destructors run.
-/
namespace Verif.ConcBoxes
open Verif Bump Unsync.BumpBoxes

structure SWorld (n : Nat) where
  boxes : Fin n → List (Option SBox)
  dropped : List (Fin n × List Byte)

/-- Before the program: no variables. -/
def SWorld.init {n : Nat} : SWorld n := ⟨fun _ => [], []⟩

/-- The kind of variable that a call gives. -/
def holdOf : Call → Option Hold
  | .leak .. | .leakAt .. => some .bare
  | .leakBox .. | .leakBoxAt .. => some .boxed
  | .get .. | .getAt .. => some .uninit
  | _ => none

/-- The value and type a call has as arguments. -/
def sboxOf (call : Call) (needsDrop : Bool) : Option SBox :=
  match holdOf call, call.layout with
  | some h, some V => some ⟨⟨V, needsDrop⟩, h, call.value.getD []⟩
  | _, _ => none

/-- Running the destructor. -/
def sdestroy {n : Nat} (t : Fin n) (ty : VType) (v : List Byte) (w : SWorld n) : SWorld n :=
  if ty.needsDrop then { w with dropped := w.dropped ++ [(t, v)] } else w

def SWorld.set {n : Nat} (w : SWorld n) (t : Fin n) (k : Nat) (x : Option SBox) : SWorld n := { w with boxes := upd w.boxes t ((w.boxes t).set k x) }
def SWorld.push {n : Nat} (w : SWorld n) (t : Fin n) (x : SBox) : SWorld n := { w with boxes := upd w.boxes t (w.boxes t ++ [some x]) }

/-- A call has returned: with success (a pointer) there is a new variable with the value. If the call failed then the value was given back in the error, or else it was dropped. -/
def sreturned {n : Nat} (w : SWorld n) (t : Fin n) (call : Call) (needsDrop : Bool) (r : Ret) : SWorld n :=
  match sboxOf call needsDrop with
  | none => w
  | some x =>
    if r.ptr?.isSome then w.push t x
    else match call.value, r with
      | none, _ => w
      | some _, .leakErr .. => w
      | some v, _ => sdestroy t x.ty v w

/-- One use of a variable. -/
def suse {n : Nat} (panics : List Byte → Bool) (w : SWorld n) (t : Fin n) (x : SBox) : Use → Ans × SWorld n
  | .boxed k val => (.unit, w.set t k (some { x with hold := .boxed, val := val }))
  | .leakInto k val => (.unit, w.set t k (some { x with hold := .bare, val := val }))
  | .deref _ => (.val x.val, w)
  | .replace k val => (.val x.val, w.set t k (some { x with val := val }))
  | .assign k val => (if x.ty.needsDrop = true ∧ panics x.val = true then .unwound else .unit, sdestroy t x.ty x.val (w.set t k (some { x with val := val })))
  | .take k => (.val x.val, w.set t k none)
  | .leak k | .intoRaw k => (.unit, w.set t k (some { x with hold := .bare }))
  | .fromRaw k => (.unit, w.set t k (some { x with hold := .boxed }))
  | .drop k => (if x.ty.needsDrop = true ∧ panics x.val = true then .unwound else .unit, sdestroy t x.ty x.val (w.set t k none))

/-- The variable that is used. -/
def Use.var : Use → Nat
  | .boxed k _ | .leakInto k _ | .deref k | .replace k _ | .assign k _ | .take k | .leak k | .intoRaw k | .fromRaw k | .drop k => k

/-- What kind of variable the use is for. -/
def Use.kinds : Use → List Hold
  | .boxed .. | .leakInto .. => [.uninit]
  | .deref .. | .replace .. | .assign .. => [.boxed, .bare]
  | .take .. | .leak .. | .intoRaw .. | .drop .. => [.boxed]
  | .fromRaw .. => [.bare]

/-- The effect of what is observed; and whether it is right: a value that comes back in an error is the argument; a variable that is used is there, of the right kind, and the answer is the right one; a variable that is sent is a reference. -/
def sobs {n : Nat} (panics : List Byte → Bool) (w : SWorld n) : Obs n → Prop × SWorld n
  | .returned t call nd r => (∀ v f, r = .leakErr v f → call.value = some v, sreturned w t call nd r)
  | .used t u a =>
    match (w.boxes t)[u.var]? with
    | some (some x) => (x.hold ∈ u.kinds ∧ a = (suse panics w t x u).1, (suse panics w t x u).2)
    | _ => (False, w)
  | .sent t u k =>
    match (w.boxes t)[k]? with
    | some (some x) => (x.hold = .bare, (w.set t k none).push u x)
    | _ => (False, w)
  | .reset => (True, { w with boxes := fun t => (w.boxes t).map fun _ => none })

/-- All the answers are those of the specification. -/
def Explains {n : Nat} (panics : List Byte → Bool) : SWorld n → List (Obs n) → Prop
  | _, [] => True
  | w, o :: os => (sobs panics w o).1 ∧ Explains panics (sobs panics w o).2 os

/-- The state of the specification at the end. -/
def replay {n : Nat} (panics : List Byte → Bool) : SWorld n → List (Obs n) → SWorld n
  | w, [] => w
  | w, o :: os => replay panics (sobs panics w o).2 os

/-- The thread has the variable, of one of these kinds. -/
def Has {n : Nat} (w : World n) (t : Fin n) (k : Nat) (holds : List Hold) (size : Nat → Prop := fun _ => True) : Prop :=
  ∃ h, (w.vars t)[k]? = some (some h) ∧ h.hold ∈ holds ∧ size h.ty.layout.size

/-- What types and the borrow checker permit, and the safety sections of `from_raw`, `Allocation::boxed` and `Allocation::leak`: arguments exist; a thread uses variables that it has, between its calls; values have the size of their type; only
references can be moved to other threads (`LeakBox` and `Allocation` are not `Send`); a reset needs exclusive access: no call is running and there is no box any more (references and `Allocation`s are forgotten). -/
def Permitted {n : Nat} (t : Target) (w : World n) : Event n → Prop
  | .call _ call _ => call.Valid t
  | .step _ => True
  | .use u x => w.st.pc u = .idle ∧
    match x with
    | .boxed k val | .leakInto k val => Has w u k [.uninit] (· = val.length)
    | .deref k => Has w u k [.boxed, .bare]
    | .replace k val | .assign k val => Has w u k [.boxed, .bare] (· = val.length)
    | .take k | .leak k | .intoRaw k | .drop k => Has w u k [.boxed]
    | .fromRaw k => Has w u k [.bare]
  | .send u _ k => w.st.pc u = .idle ∧ Has w u k [.bare]
  | .reset => (∀ u, w.st.pc u = .idle) ∧ ∀ (u : Fin n) (k : Nat) (h : Handle), (w.vars u)[k]? = some (some h) → h.hold ≠ .boxed

/-- Every event is permitted when it happens. -/
def SafeRun {n : Nat} (e : Env) (panics : List Byte → Bool) : World n → List (Event n) → Prop
  | _, [] => True
  | w, ev :: evs => Permitted e.target w ev ∧ ∀ o w', exec e panics w ev = .ret (o, w') → SafeRun e panics w' evs

/-- Before the program: no variables; a level and memory with any contents. -/
def World.init {n : Nat} (c : Nat) (m : Mem) : World n := ⟨Bump.init n c m, fun _ => [], fun _ => false, [], false⟩

/-- The values that were moved into the bump, and those that came back to the user. -/
def inputOf {n : Nat} : Obs n → List (List Byte)
  | .returned _ call _ _ => call.value.toList
  | .used _ (.boxed _ v) _ | .used _ (.leakInto _ v) _ | .used _ (.replace _ v) _ | .used _ (.assign _ v) _ => [v]
  | _ => []
def outputOf {n : Nat} : Obs n → List (List Byte)
  | .returned _ _ _ (.leakErr v _) => [v]
  | .used _ (.replace ..) (.val v) | .used _ (.take ..) (.val v) => [v]
  | _ => []
def inputsOf {n : Nat} (os : List (Obs n)) : List (List Byte) := (os.map inputOf).flatten
def outputsOf {n : Nat} (os : List (Obs n)) : List (List Byte) := (os.map outputOf).flatten

/-- All types have destructors. -/
def AllDrop {n : Nat} (os : List (Obs n)) : Prop := ∀ t call nd r, Obs.returned t call nd r ∈ os → nd = true

/-- The observation tells that the variable `k` of thread `t` has this value now: it was put there, or read. -/
def Shows {n : Nat} (t : Fin n) (k : Nat) (v : List Byte) (o : Obs n) : Prop :=
  (∃ a, o = .used t (.boxed k v) a ∨ o = .used t (.leakInto k v) a ∨ o = .used t (.replace k v) a ∨ o = .used t (.assign k v) a) ∨ o = .used t (.deref k) (.val v)

/-- The observation is not about changing or moving the value in the variable `k` of thread `t`. -/
def Leaves {n : Nat} (t : Fin n) (k : Nat) (o : Obs n) : Prop :=
  o ≠ .reset ∧ (∀ u, o ≠ .sent t u k) ∧ ∀ u a, o = .used t u a → u.var = k → u ∈ [.deref k, .leak k, .intoRaw k, .fromRaw k]

/-- The events that are observed at once (calls are observed when they return); and the event that was observed. -/
def Event.direct {n : Nat} : Event n → Option (Event n)
  | .call .. | .step .. => none
  | ev => some ev
def Obs.event {n : Nat} : Obs n → Option (Event n)
  | .returned .. => none
  | .used t u _ => some (.use t u)
  | .sent t u k => some (.send t u k)
  | .reset => some .reset

/-- The call that thread `t` starts, and the call from which it returns: with the flag for drop glue. -/
def Event.callOf {n : Nat} (t : Fin n) : Event n → Option (Call × Bool)
  | .call u c nd => if u = t then some (c, nd) else none
  | _ => none
def Obs.callOf {n : Nat} (t : Fin n) : Obs n → Option (Call × Bool)
  | .returned u call nd _ => if u = t then some (call, nd) else none
  | _ => none

/-- A call panics, and the destructor of its argument panics too while it unwinds. -/
def Fatal {n : Nat} (panics : List Byte → Bool) (o : Obs n) : Prop :=
  ∃ t call v, o = .returned t call true .panicked ∧ call.value = some v ∧ panics v = true

end Verif.ConcBoxes
