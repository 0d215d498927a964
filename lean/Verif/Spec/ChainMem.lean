import Verif.Model.ChainMem
import Verif.Spec.Chain
import Verif.Spec.Slab
/-!
# Specification of chains: a chain is a list of slabs, the front is first

There are no pointers between the links and no memory: for each `Chain` variable there is the list of its slabs with their levels.
-/
namespace Verif.Unsync.ChainMem
open Verif

/-- A slab: where the link was allocated, the capacity, and how much of it is used. -/
structure SLink where
  addr : Nat
  cap : Nat
  level : Nat
  deriving DecidableEq, Repr

/-- The chains that exist, with their slabs. -/
abbrev Chains := Nat → Option (List SLink)
def Chains.set (σ : Chains) (h : Nat) (v : Option (List SLink)) : Chains := fun x => if x = h then v else σ x

/-- The slab begins behind the three words of the link. -/
def SLink.slab (t : Target) (l : SLink) : Slab := ⟨l.addr + 3 * t.wordBytes, l.cap⟩

/-- One operation: its answer and the chains behind it. -/
def sexec (t : Target) (σ : Chains) : BOp → CRet × Chains
  | .elsewhere _ _ => (.unit, σ)
  | .call (.write _ _ _ _) => (.unit, σ)
  | .call (.new h size heap) =>
    match linkLayoutFromSize t size, heap with
    | none, _ => (.errNew ⟨size, .layout⟩, σ)
    | some layout, none => (.errNew ⟨layout.size, .exhausted⟩, σ)
    | some _, some a => (.unit, σ.set h (some [⟨a, size, 0⟩]))
  | .call (.bumpBox h T) =>
    match σ h with
    | some (front :: rest) =>
      if T.size = 0 then (.panicked, σ) else
      match (front.slab t).place T front.level with
      | none => (.err .exhausted, σ)
      | some a => (.ptr a.ptr, σ.set h (some ({ front with level := a.level } :: rest)))
    | _ => (.err .exhausted, σ)
  | .call (.chain h d) =>
    -- only the front of `d` is kept
    (.unit, (σ.set h ((σ h).map fun ls => ((σ d).getD []).take 1 ++ ls)).set d none)
  | .call (.capacity h) => (.num (match (σ h).getD [] with | [] => 0 | front :: _ => front.cap), σ)
  | .call (.remaining h) => (.num (match (σ h).getD [] with | [] => 0 | front :: _ => front.cap - front.level), σ)
  | .call (.drop h) => (.unit, σ.set h none)

def srun (t : Target) : Chains → List BOp → List CRet × Chains
  | σ, [] => ([], σ)
  | σ, op :: ops =>
    let (r, σ) := sexec t σ op
    let (rs, σ) := srun t σ ops
    (r :: rs, σ)

/-- A program of the model on bytes. -/
def brun (c : Cfg) : BState → List BOp → Outcome (List CRet × BState)
  | s, [] => .ret ([], s)
  | s, op :: ops => do
    let (r, s) ← bexec c s op
    let (rs, s) ← brun c s ops
    pure (r :: rs, s)

/-- Each operation of the program is one that is possible when its turn comes. -/
def SafeRun (c : Cfg) : BState → List BOp → Prop
  | _, [] => True
  | s, op :: ops => op.Allowed c s ∧ ∀ r s', bexec c s op = .ret (r, s') → SafeRun c s' ops

/-- What is found when one follows the pointers in the bytes of the memory, beginning with `r`: allocated links of these addresses, capacities and levels, then a null pointer. -/
def Found (c : Cfg) (h : BHeap) : Option LPtr → List SLink → Prop
  | none, [] => True
  | some p, l :: ls => (∃ n, h.block p.addr = some (linkLayoutForValue c.t p, n)) ∧ l = ⟨p.addr, p.cap, loadUsize c.t h.mem (p.addr + 2 * c.t.wordBytes)⟩ ∧
      Found c h (loadNext c h.mem p.addr) ls
  | _, _ => False

/-- The memory shows the chains: following the pointers of each variable finds its slabs, and nothing else is allocated. -/
structure Shows (c : Cfg) (s : BState) (σ : Chains) : Prop where
  exist : ∀ h, s.roots h = none ↔ σ h = none
  found : ∀ h r ls, s.roots h = some r → σ h = some ls → Found c s.heap r ls
  allocated : ∀ a, s.heap.block a ≠ none ↔ ∃ h ls l, σ h = some ls ∧ l ∈ ls ∧ l.addr = a

end Verif.Unsync.ChainMem
