import Verif.Model.FixedVec
/-!
# Model of the crate `fill` (`/repo/fill/src/fill.rs`)

An iterator is a state `ι` and a function `next`; it may continue after `None`, be infinite or panic. Adaptors (`inspect`, `fuse`, ...) are iterators with a larger state. Filling gives whether it unwound, the container and the iterator
(which the caller can observe if it was passed as `&mut`). Loops get fuel; `none` means that the loop is still running when it is used up, so a call that does not return is one that gives `none` for all amounts of fuel.
`IntoIterator::into_iter` of the argument is not modelled, its result is the argument here.
-/
namespace Verif.Fill
open Verif

/-- `Iterator::next`. Not code of the repository: the library core, as documented. -/
abbrev Next (ι α : Type) := ι → FVec.Poll α × ι

/-- An implementation of the trait `Fill<α>` for `C`, fill.rs:17-23: gives whether it unwound, the container, the iterator. -/
structure FillImpl (C α : Type) where
  fill : {ι : Type} → Nat → Next ι α → C → ι → Option (Bool × C × ι)

section
variable {C α : Type}

/-- `fill_and_keep_tail`, fill.rs:29-36. -/
def fillAndKeepTail (F : FillImpl C α) {ι : Type} (fuel : Nat) (next : Next ι α) (self : C) (iter : ι) : Option (Bool × C × ι) := F.fill fuel next self iter

/-- `iter.inspect(|_| count += 1)`, fill.rs:57-58; `checks`: with overflow checks the closure panics (the item is dropped), else `count` wraps. -/
def countNext (t : Target) (checks : Bool) {ι : Type} (next : Next ι α) : Next (ι × Nat) α := fun (i, count) =>
  match next i with
  | (.item a, i) => if count + 1 < t.W then (.item a, (i, count + 1)) else if checks then (.panic, (i, count)) else (.item a, (i, (count + 1) % t.W))
  | (p, i) => (p, (i, count))

/-- `fill_count`, fill.rs:54-60. The count is `none` if it unwound. -/
def fillCount (t : Target) (checks : Bool) (F : FillImpl C α) {ι : Type} (fuel : Nat) (next : Next ι α) (self : C) (iter : ι) : Option (Option Nat × C × ι) :=
  match F.fill fuel (countNext t checks next) self (iter, 0) with
  | none => none
  | some (unwound, self, (iter, count)) => some (if unwound then none else some count, self, iter)

/-- `Fuse`: after the first `None` the inner iterator is not asked again. The state is the inner
one and whether it ended. Not code of the repository: the library core, as documented. -/
def fuseNext {ι : Type} (next : Next ι α) : Next (ι × Bool) α := fun (i, ended) =>
  if ended then (.done, (i, true))
  else
    match next i with
    | (.done, i) => (.done, (i, true))
    | (p, i) => (p, (i, false))

/-- `Overflow::next`, fill.rs:97-104. -/
def overflowNext {ι : Type} (next : Next ι α) : Next (ι × Bool) α := fun (i, overflow) =>
  match next i with
  | (.item a, i) => (.item a, (i, overflow && true))
  | (.done, i) => (.done, (i, overflow && false))
  | (.panic, i) => (.panic, (i, overflow))

/-- `checked_fill`, fill.rs:89-114. The first component is `none` if it unwound, else the result; the third the iterator. -/
def checkedFill (F : FillImpl C α) {ι : Type} (fuel : Nat) (next : Next ι α) (self : C) (iter : ι) : Option (Option (Option ι) × C × ι) :=
  match fillAndKeepTail F fuel (overflowNext (fuseNext next)) self ((iter, false), true) with
  | none => none
  | some (unwound, self, ((iter, _), overflow)) =>
    some (if unwound then none else some (if overflow then some iter else none), self, iter)

/-- `Vec` and `VecDeque` of `alloc`: capacity and elements. Not code of the repository: the library
alloc, as documented. -/
structure Vec (α : Type) where
  cap : Nat
  items : List α
  deriving DecidableEq, Repr

/-- `Vec::push`, `VecDeque::push_back`: reallocates if full. (How much it grows does not matter.)
Not code of the repository: the library alloc, as documented. -/
def Vec.push (v : Vec α) (a : α) : Vec α := ⟨if v.items.length < v.cap then v.cap else 2 * v.cap + 1, v.items ++ [a]⟩

/-- The loop `for item in iter.take(n) { self.push(item) }`. fill/src/fill.rs:120-126, 132-138. -/
def vecLoop {ι : Type} (next : Next ι α) : Nat → Vec α → ι → Bool × Vec α × ι
  | 0, self, i => (false, self, i)
  | n + 1, self, i =>
    match next i with
    | (.done, i) => (false, self, i)
    | (.panic, i) => (true, self, i)
    | (.item a, i) => vecLoop next n (self.push a) i

/-- `Fill for Vec`, fill.rs:119-127. -/
def vecFill : FillImpl (Vec α) α where
  fill := fun _ next self i => some (vecLoop next (self.cap - self.items.length) self i)

/-- `Fill for VecDeque`, fill.rs:131-139. -/
def vecDequeFill : FillImpl (Vec α) α where
  fill := fun _ next self i => some (vecLoop next (self.cap - self.items.length) self i)

/-- The loop of `Fill for ()`. fill/src/fill.rs:143-147. -/
def unitLoop {ι : Type} (next : Next ι Unit) : Nat → ι → Option (Bool × Unit × ι)
  | 0, _ => none
  | fuel + 1, i =>
    match next i with
    | (.done, i) => some (false, (), i)
    | (.panic, i) => some (true, (), i)
    | (.item (), i) => unitLoop next fuel i

/-- `Fill for ()`, fill.rs:142-148. -/
def unitFill : FillImpl Unit Unit where
  fill := fun fuel next _ i => unitLoop next fuel i

/-- `Fill for Option`, fill.rs:154-164. -/
def optionFill : FillImpl (Option α) α where
  fill := fun _ next self i =>
    match self with
    | none =>
      match next i with
      | (.item a, i) => some (false, some a, i)
      | (.done, i) => some (false, none, i)
      | (.panic, i) => some (true, none, i)
    | some a => some (false, some a, i)

/-- `core::iter::once`. -/
def onceNext : Next (Option α) α
  | some a => (.item a, none)
  | none => (.done, none)

/-- How the loop of `Fill for Result` ends. fill/src/fill.rs:172-193. -/
inductive LoopEnd (E : Type) where
  | ret | err (e : E) | unwound

/-- The loop of `Fill for Result`, fill.rs:182-190. The call for the container gets more fuel than the two answers of `once` need. -/
def resultLoop {E ι : Type} (F : FillImpl C α) (next : Next ι (Except E α)) : Nat → C → ι → Option (LoopEnd E × C × ι)
  | 0, _, _ => none
  | fuel + 1, container, i =>
    match next i with
    | (.done, i) => some (.ret, container, i)
    | (.panic, i) => some (.unwound, container, i)
    | (.item (.error err), i) => some (.err err, container, i)
    | (.item (.ok ok), i) =>
      match F.fill (fuel + 2) onceNext container (some ok) with
      | none => none
      | some (true, container, _) => some (.unwound, container, i)
      | some (false, container, _) => resultLoop F next fuel container i

/-- `Fill for Result`, fill.rs:169-194. -/
def resultFill {E : Type} (F : FillImpl C α) : FillImpl (Except E C) (Except E α) where
  fill := fun fuel next self i =>
    match self with
    | .error e => some (false, .error e, i)
    | .ok container =>
      match resultLoop F next fuel container i with
      | none => none
      | some (.ret, container, i) => some (false, .ok container, i)
      | some (.unwound, container, i) => some (true, .ok container, i)
      | some (.err err, _, i) => some (false, .error err, i)

/-- `core::slice::IterMut`: the slice it was made for and the position. -/
structure IterMut (α : Type) where
  slice : List α
  pos : Nat
  deriving DecidableEq, Repr

/-- `ExactSizeIterator::len` Not code of the repository: the library core, as documented. -/
def IterMut.len (s : IterMut α) : Nat := s.slice.length - s.pos

/-- The loop of `Fill<T> for IterMut`. fill/src/fill.rs:198-210. -/
def iterMutLoop {ι : Type} (next : Next ι α) : Nat → IterMut α → ι → Option (Bool × IterMut α × ι)
  | 0, _, _ => none
  | fuel + 1, self, i =>
    if self.len ≠ 0 then
      match next i with
      | (.item item, i) => iterMutLoop next fuel ⟨self.slice.set self.pos item, self.pos + 1⟩ i
      | (.done, i) => some (false, self, i)
      | (.panic, i) => some (true, self, i)
    else some (false, self, i)

/-- `Fill<T> for IterMut<'_, T>`, fill.rs:197-211. -/
def iterMutFill : FillImpl (IterMut α) α where
  fill := fun fuel next self i => iterMutLoop next fuel self i

/-- `IterMut` together with the variables of the program to which there are references `&mut T`.
Not code of the repository: the state that the program of the user and the library have together. -/
structure SwapState (α : Type) where
  it : IterMut α
  vars : Nat → α

/-- `mem::swap` of the element at the position and a variable; the iterator advances. Not code of
the repository: the library core, as documented. -/
def SwapState.swap (s : SwapState α) (x : Nat) : SwapState α :=
  match s.it.slice[s.it.pos]? with
  | none => s
  | some old => ⟨⟨s.it.slice.set s.it.pos (s.vars x), s.it.pos + 1⟩, fun y => if y = x then old else s.vars y⟩

/-- The loop of `Fill<&mut T> for IterMut`. The items are variables. fill/src/fill.rs:215-227. -/
def swapLoop {ι : Type} (next : Next ι Nat) : Nat → SwapState α → ι → Option (Bool × SwapState α × ι)
  | 0, _, _ => none
  | fuel + 1, self, i =>
    if self.it.len ≠ 0 then
      match next i with
      | (.item item, i) => swapLoop next fuel (self.swap item) i
      | (.done, i) => some (false, self, i)
      | (.panic, i) => some (true, self, i)
    else some (false, self, i)

/-- `Fill<&mut T> for IterMut<'_, T>`, fill.rs:214-228. -/
def swapFill : FillImpl (SwapState α) Nat where
  fill := fun fuel next self i => swapLoop next fuel self i

end
end Verif.Fill
