import Verif.Model.Fill
/-!
# The crate `fill` (`/repo/fill/src/fill.rs`), with the destructors that it runs

As `Model/Fill`, but items and elements have destructors, which are code of the user and may panic. `vals x`: the values inside of `x` with a destructor, in the order in which they are dropped. Filling gives how it ended, the container, the iterator, and the
values whose destructor was run (begun), in order. The iterator is passed by reference, unless it is `once(ok)`. Iterators that end by `abort` are not considered.

Simplification: for an assignment `*place = value` the language drops the old value, and writes the new one also if that destructor unwinds; this is one step here.
-/
set_option autoImplicit false
namespace Verif.FillDrops
open Verif Fill FVec

variable {C α E V : Type}

/-- Dropping several values one after the other, `unwinding`: while a panic unwinds. After a panic the rest is dropped as well, a second one aborts. Not code of the repository: the semantics of the Rust language. -/
def destroy (panics : V → Bool) : Bool → List V → Ended × List V
  | unwinding, [] => (if unwinding then .panic else .ok, [])
  | unwinding, v :: vs =>
    if panics v && unwinding then (.abort, [v])
    else
      let (e, d) := destroy panics (unwinding || panics v) vs
      (e, v :: d)

/-- An implementation of the trait `Fill<α>` for `C`, fill.rs:17-23: how it ended, the container, the iterator, what was destroyed. -/
structure FillImpl (C α V : Type) where
  fill : {ι : Type} → Nat → Next ι α → C → ι → Option (Ended × C × ι × List V)

/-- `fill_and_keep_tail`, fill.rs:29-36. -/
def fillAndKeepTail (F : FillImpl C α V) {ι : Type} (fuel : Nat) (next : Next ι α) (self : C) (iter : ι) : Option (Ended × C × ι × List V) := F.fill fuel next self iter

/-- `checked_fill`, fill.rs:89-114. The first component is the result if it ended normally; the third the iterator. -/
def checkedFill (F : FillImpl C α V) {ι : Type} (fuel : Nat) (next : Next ι α) (self : C) (iter : ι) : Option (Ended × Option (Option ι) × C × ι × List V) :=
  match fillAndKeepTail F fuel (overflowNext (fuseNext next)) self ((iter, false), true) with
  | none => none
  | some (e, self, ((iter, _), overflow), d) => some (e, if e = .ok then some (if overflow then some iter else none) else none, self, iter, d)

/-- How a loop ends that may only be left by a panic of the iterator. Not code of the repository: an auxiliary function of the model. -/
def ended (unwound : Bool) : Ended := if unwound then .panic else .ok

/-- `Fill for Vec`, fill.rs:119-127: nothing is dropped, because there is no reallocation (C63), and that would move the items. -/
def vecFill : FillImpl (Vec α) α V where
  fill := fun _ next self i =>
    let (u, self, i) := vecLoop next (self.cap - self.items.length) self i
    some (ended u, self, i, [])

/-- `Fill for VecDeque`, fill.rs:131-139. -/
def vecDequeFill : FillImpl (Vec α) α V where
  fill := fun _ next self i =>
    let (u, self, i) := vecLoop next (self.cap - self.items.length) self i
    some (ended u, self, i, [])

/-- `Fill for ()`, fill.rs:142-148. -/
def unitFill : FillImpl Unit Unit V where
  fill := fun fuel next _ i =>
    match unitLoop next fuel i with
    | none => none
    | some (u, (), i) => some (ended u, (), i, [])

/-- `Fill for Option`, fill.rs:154-164. The assignment `*self = iter.next()` drops the `None` that was there. -/
def optionFill : FillImpl (Option α) α V where
  fill := fun _ next self i =>
    match self with
    | none =>
      match next i with
      | (.item a, i) => some (.ok, some a, i, [])
      | (.done, i) => some (.ok, none, i, [])
      | (.panic, i) => some (.panic, none, i, [])
    | some a => some (.ok, some a, i, [])

/-- How the loop of `Fill for Result` ends. fill/src/fill.rs:172-193. -/
inductive LoopEnd (E : Type) where
  | ret | err (e : E) | unwound | aborted

/-- What an iterator `once` still has. Not code of the repository: an auxiliary function of the model. -/
def onceVals (vals : α → List V) : Option α → List V
  | none => []
  | some a => vals a

/-- `container.fill(once(ok))`, fill.rs:187: the iterator is moved into the call, which at its end drops it with what it still has. -/
def fillOnce (panics : V → Bool) (vals : α → List V) (F : FillImpl C α V) (fuel : Nat) (container : C) (ok : α) : Option (Ended × C × List V) :=
  match F.fill fuel onceNext container (some ok) with
  | none => none
  | some (e, container, rest, d) =>
    if e = .abort then some (.abort, container, d)
    else
      let (e, d') := destroy panics (e = .panic) (onceVals vals rest)
      some (e, container, d ++ d')

/-- The loop of `Fill for Result`, fill.rs:182-190. The call for the container gets more fuel than the two answers of `once` need. -/
def resultLoop {ι : Type} (panics : V → Bool) (vals : α → List V) (F : FillImpl C α V) (next : Next ι (Except E α)) : Nat → C → ι → Option (LoopEnd E × C × ι × List V)
  | 0, _, _ => none
  | fuel + 1, container, i =>
    match next i with
    | (.done, i) => some (.ret, container, i, [])
    | (.panic, i) => some (.unwound, container, i, [])
    | (.item (.error err), i) => some (.err err, container, i, [])
    | (.item (.ok ok), i) =>
      match fillOnce panics vals F (fuel + 2) container ok with
      | none => none
      | some (.abort, container, d) => some (.aborted, container, i, d)
      | some (.panic, container, d) => some (.unwound, container, i, d)
      | some (.ok, container, d) =>
        match resultLoop panics vals F next fuel container i with
        | none => none
        | some (l, container, i, d') => some (l, container, i, d ++ d')

/-- `Fill for Result`, fill.rs:169-194. The assignment `*self = Err(err)` drops the container. -/
def resultFill (panics : V → Bool) (cvals : C → List V) (vals : α → List V) (F : FillImpl C α V) : FillImpl (Except E C) (Except E α) V where
  fill := fun fuel next self i =>
    match self with
    | .error e => some (.ok, .error e, i, [])
    | .ok container =>
      match resultLoop panics vals F next fuel container i with
      | none => none
      | some (.ret, container, i, d) => some (.ok, .ok container, i, d)
      | some (.unwound, container, i, d) => some (.panic, .ok container, i, d)
      | some (.aborted, container, i, d) => some (.abort, .ok container, i, d)
      | some (.err err, container, i, d) =>
        let (e, d') := destroy panics false (cvals container)
        some (e, .error err, i, d ++ d')

/-- The loop of `Fill<T> for IterMut`, fill.rs:203-209. The assignment drops the element that was there. -/
def iterMutLoop {ι : Type} (panics : V → Bool) (vals : α → List V) (next : Next ι α) : Nat → IterMut α → ι → Option (Ended × IterMut α × ι × List V)
  | 0, _, _ => none
  | fuel + 1, self, i =>
    if self.len ≠ 0 then
      match next i with
      | (.item item, i) =>
        match self.slice[self.pos]? with
        | none => some ((destroy panics true (vals item)).1, self, i, (destroy panics true (vals item)).2) -- `unwrap`
        | some old =>
          let (e, d) := destroy panics false (vals old)
          let self := ⟨self.slice.set self.pos item, self.pos + 1⟩
          if e = .ok then
            match iterMutLoop panics vals next fuel self i with
            | none => none
            | some (e, self, i, d') => some (e, self, i, d ++ d')
          else some (e, self, i, d)
      | (.done, i) => some (.ok, self, i, [])
      | (.panic, i) => some (.panic, self, i, [])
    else some (.ok, self, i, [])

/-- `Fill<T> for IterMut<'_, T>`, fill.rs:197-211. -/
def iterMutFill (panics : V → Bool) (vals : α → List V) : FillImpl (IterMut α) α V where
  fill := fun fuel next self i => iterMutLoop panics vals next fuel self i

/-- `Fill<&mut T> for IterMut<'_, T>`, fill.rs:214-228: `mem::swap` drops nothing. -/
def swapFill : FillImpl (SwapState α) Nat V where
  fill := fun fuel next self i =>
    match swapLoop next fuel self i with
    | none => none
    | some (u, self, i) => some (ended u, self, i, [])

end Verif.FillDrops
