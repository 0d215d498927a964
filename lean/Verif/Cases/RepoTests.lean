import Verif.Model.Bump
import Verif.Model.Alloca
import Verif.Model.Chain
import Verif.Model.BumpBoxes
import Verif.Model.LeakBox
import Verif.Model.ExitStack
import Verif.Model.Fill
import Verif.Model.Rc
import Verif.Model.AllocExt
import Verif.Model.Compare
import Verif.Props.FixedVecOps
/-!
# The project's own tests, run on the model

The tests of the repository that exercise modelled code, translated call by call; the assertions of each test are checked on the results that the model gives (on a 64 bit target, at
addresses that the test leaves open). This does not prove anything about all inputs: it compares the model with what the authors observe the code to do.
-/
set_option autoImplicit false
namespace Verif.RepoTests
open Verif

def u64L : Layout := ⟨8, 8⟩
def u8L : Layout := ⟨1, 1⟩

/-! ## static-alloc/tests/leak.rs, threaded.rs, src/bump.rs `mod tests` -/
section
open Bump

/-- One thread makes these calls one after the other. -/
def seq (cs : List Call) : List (Event 1) := cs.flatMap fun c => .invoke 0 c :: List.replicate 8 (.step 0)
/-- The results, in order. -/
def results {n : Nat} (s : State n) : List Ret := (s.hist.filterMap fun | .resp _ _ r => some r | _ => none).reverse
/-- `Bump::<T>::uninit()` for a type of this size, at 4096. -/
def slab (size : Nat) : Env := ⟨.w64, 4096, size, id⟩
def after (size : Nat) (cs : List Call) : State 1 := run (slab size) (init 1 0 fun _ => 0xAA) (seq cs)

/-- leak.rs:5-22 `homogeneous`: three `u64` in `Bump<[u64; 3]>`, which keep their values, then not even an `u8`. -/
example : results (after 24 [.leak u64L [0,0,0,0,0,0,0,0], .leak u64L [255,0,0,0,0,0,0,0], .leak u64L [255,255,255,255,255,255,255,255], .leak u8L [0]]) =
    [.ptr 4096, .ptr 4104, .ptr 4112, .leakErr [0] .exhausted] := by decide +kernel
example : let m := (after 24 [.leak u64L [0,0,0,0,0,0,0,0], .leak u64L [255,0,0,0,0,0,0,0], .leak u64L [255,255,255,255,255,255,255,255], .leak u8L [0]]).mem
    (loadUsize .w64 m 4096, loadUsize .w64 m 4104, loadUsize .w64 m 4112) = (0, 255, 2 ^ 64 - 1) := by decide +kernel

/-- leak.rs:24-39 `heterogeneous`: an `u16`, an `Option<u8>` and an `Option<NonZeroU16>` fill `[u16; 3]`. -/
example : results (after 6 [.leak ⟨2, 2⟩ [0,0], .leak ⟨2, 1⟩ [1,0], .leak ⟨2, 2⟩ [0,0], .leak u8L [0]]) = [.ptr 4096, .ptr 4098, .ptr 4100, .leakErr [0] .exhausted] := by decide +kernel

/-- leak.rs:41-47 `zst`, and bump.rs:981-993 `zst_no_drop`: a zero-sized value in no space. -/
example : (results (after 0 [.leak ⟨0, 1⟩ []])).length = 1 ∧ ∀ r ∈ results (after 0 [.leak ⟨0, 1⟩ []]), r.ptr?.isSome = true := by decide +kernel

/-- leak.rs:49-68 `level`: allocating at the level that was read succeeds and discloses the next, at an old level it fails with the present level. -/
example : results (after 4 [.level, .leakAt ⟨2, 2⟩ [0,0] 0, .level, .leakAt ⟨2, 2⟩ [0,0] 0, .leakAt ⟨2, 2⟩ [10,0] 2, .level]) =
    [.level 0, .allocation ⟨4096, 2⟩, .level 2, .leakErr [0,0] (.mismatch 2), .allocation ⟨4098, 4⟩, .level 4] := by decide +kernel

/-- threaded.rs:4-21 `each_thread_one`: ten threads, all of which invoke before any of them makes progress, then take steps in turns. Every one gets its `u64`; then there is nothing left. -/
def tenThreads : List (Event 10) :=
  (List.finRange 10).map (fun t => .invoke t (.leak u64L [UInt8.ofNat t, 0,0,0,0,0,0,0])) ++ (List.replicate 40 ((List.finRange 10).map .step)).flatten
def joined : State 10 := run (slab 80) (init 10 0 fun _ => 0) tenThreads
example : (results joined).length = 10 ∧ (∀ r ∈ results joined, r.ptr?.isSome = true) ∧ (results joined).Nodup := by decide +kernel
example : (results (run (slab 80) joined (.invoke 0 (.leak u64L [0,0,0,0,0,0,0,0]) :: List.replicate 8 (.step 0)))).getLast? = some (.leakErr [0,0,0,0,0,0,0,0] .exhausted) := by decide +kernel

/-- vec_try.rs:13-17 `vec_fail_reserve`: the request for more than the whole slab fails (`try_reserve` is told so by the null pointer). -/
example : results (after (2 ^ 20) [.getLayout ⟨2 ^ 20 + 1, 1⟩]) = [.none] := by decide +kernel
end

/-! ## static-alloc/tests/leak_box.rs -/
section
open Owned

/-- What a program did: the results, and the destructors that were run. -/
def boxes {O : Type} (exec : OState → O → Outcome (LRet × OState)) (panics : Nat → Bool) (ops : List O) : Option (List LRet × List Nat) :=
  match boxRun exec (OState.initial (fun _ => none) panics) ops with
  | .ret (rs, s) => some (rs, s.st.dropped)
  | _ => none

/-- leak_box.rs:4-20 `leak_box_drops`: the first box is dropped at once, the other one later. -/
example : boxes lexec (fun _ => false) [.make, .allocate 4096 0, .drop 4096] = some ([.val 0, .unit, .unit], [0]) := rfl
example : boxes lexec (fun _ => false) [.make, .allocate 4096 0, .drop 4096, .make, .allocate 4104 1] = some ([.val 0, .unit, .unit, .val 1, .unit], [0]) := rfl
example : boxes lexec (fun _ => false) [.make, .allocate 4096 0, .drop 4096, .make, .allocate 4104 1, .drop 4104] = some ([.val 0, .unit, .unit, .val 1, .unit, .unit], [1, 0]) := rfl
/-- leak_box.rs:22-35 `leaking`: no destructor is run for the box that is forgotten; dropping it would have panicked. -/
example : boxes lexec (fun _ => true) [.make, .allocate 4096 0, .leak 4096] = some ([.val 0, .unit, .unit], []) := rfl
example : boxes lexec (fun _ => true) [.make, .allocate 4096 0, .drop 4096] = some ([.val 0, .unit, .unwound], [0]) := rfl
/-- leak_box.rs:37-43 `init`. -/
example : boxes lexec (fun _ => false) [.make, .fromMaybeUninit 4096, .write 4096 0, .deref 4096] = some ([.val 0, .unit, .unit, .val 0], []) := rfl
/-- leak_box.rs:45-60 `trait_impls`. -/
example : boxes lexec (fun _ => false) [.make, .make, .make, .fromMaybeUninit 4096, .write 4096 0, .replace 4096 1, .deref 4096, .replace 4096 2, .deref 4096] =
    some ([.val 0, .val 1, .val 2, .unit, .unit, .val 0, .val 1, .val 1, .val 2], []) := rfl
end

/-! ## static-alloc/tests/unsync.rs, alloca.rs, chain.rs -/
section
open Unsync

/-- unsync.rs:5-26 `raw_from_mem`: in 128 bytes (of zeros, at an address that is not aligned) there is place for three boxes; the values written stay apart. -/
def fromMem128 : Option MemBump := match MemBump.fromMem .w64 (fun _ => 0) ⟨4099, 128⟩ with | .ret (b, _) => b | _ => none
example : fromMem128 = some ⟨4104, 112⟩ := by decide
def u64T : BumpBoxes.VType := ⟨⟨8, 8⟩, false⟩
def rawFromMem : List BumpBoxes.Op :=
  [.bumpBox u64T, .bumpBox u64T, .bumpBox u64T, .write 0 [10,0,0,0,0,0,0,0], .write 1 [20,0,0,0,0,0,0,0], .write 2 [30,0,0,0,0,0,0,0],
   .replace 0 [11,0,0,0,0,0,0,0], .replace 1 [22,0,0,0,0,0,0,0], .replace 2 [33,0,0,0,0,0,0,0], .deref 0, .deref 1, .deref 2]
def rawResults : Option (List BumpBoxes.Resp) :=
  match MemBump.fromMem .w64 (fun _ => 0) ⟨4099, 128⟩ with
  | .ret (some b, m) => (match BumpBoxes.run .w64 b (fun _ => false) ⟨m, [], []⟩ rawFromMem with | .ret (rs, _) => some rs | _ => none)
  | _ => none
example : rawResults = some [.made, .made, .made, .unit, .unit, .unit, .val [10,0,0,0,0,0,0,0], .val [20,0,0,0,0,0,0,0], .val [30,0,0,0,0,0,0,0],
    .val [11,0,0,0,0,0,0,0], .val [22,0,0,0,0,0,0,0], .val [33,0,0,0,0,0,0,0]] := by decide +kernel

/-- unsync.rs:28-39 `allocate_with_fixed_capacity`: 16 times a byte, the 17th does not fit. The test (in this commit) runs on memory of the heap that is not initialised, see C25; here the level is 0. -/
def sixteen (n : Nat) : List (Option Ret) :=
  let b : MemBump := ⟨4096, 16⟩
  ((List.range n).foldl (fun (acc : List (Option Ret) × UState) _ =>
    match uexec .w64 b acc.2 (.call (.get ⟨1, 1⟩)) with
    | some (r, s) => (acc.1 ++ [some r], s)
    | none => (acc.1 ++ [none], acc.2)) ([], ⟨fun _ => 0, []⟩)).1
example : (sixteen 16).all (fun r => match r with | some (.allocation _) => true | _ => false) = true ∧ (sixteen 17).getLast? = some (some .none) := by decide +kernel
example : (match MemBump.new .w64 16 (fun _ => 4096) with | .ret b => some b.capacity | _ => none) = some 16 := by decide

/-- alloca.rs:3-10 `alloca_small`: a slice of 16. -/
example : (match Alloca.new .w64 true ⟨8, 8⟩ 16 with | .ret (some a) => (match a.run .w64 true 8 (fun _ => 4096) (fun _ => 0) with | .ret (_, n) => some n | _ => none) | _ => none) = some 16 := by decide +kernel

/-- chain.rs:4-34 `unsync_chain`: three boxes exactly fill 20 bytes; after chaining 40 more there is place again. -/
def chainOps : List COp :=
  [.new 0 20 (some 4096), .bumpBox 0 ⟨8, 8⟩, .remaining 0, .bumpBox 0 ⟨8, 8⟩, .remaining 0, .bumpBox 0 ⟨4, 4⟩, .remaining 0, .bumpBox 0 ⟨4, 4⟩,
   .new 1 40 (some 8192), .chain 0 1, .bumpBox 0 ⟨4, 4⟩]
def chainRun (s : CState) : List COp → Option (List CRet)
  | [] => some []
  | op :: ops => match cexec .w64 s op with | .ret (r, s) => (chainRun s ops).map (r :: ·) | _ => none
example : chainRun ⟨⟨fun _ => none, []⟩, fun _ => 0, fun _ => none, 0, []⟩ chainOps =
    some [.unit, .ptr 4120, .num 12, .ptr 4128, .num 4, .ptr 4136, .num 0, .err .exhausted, .unit, .unit, .ptr 8216] := by decide +kernel
end

/-! ## exit-stack/tests/stackful.rs -/
section
open Exit
/-- Run the operations, stop at the first one that panics. -/
def exits (c : Conf) (s : EState) : List EOp → Option (List ERet × EState)
  | [] => some ([], s)
  | op :: ops => match eexec c s op with | .ret r s => (exits c s ops).map fun (rs, s) => (r :: rs, s) | _ => none
def fresh : EState := ⟨fun _ => 0, none, fun _ => none, [], 0, [], true, fun _ => false⟩
/-- The `PinSlot` of a `DropCheck`, which is one pointer. -/
def filled : List Byte := List.replicate 24 7

/-- stackful.rs:7-24 `run_with_a_stack`: 32 values in `ExitStack<[usize; 96]>`. (Also `run_with_a_heap_stack`, which has more room.) The slots come at 24 bytes each. -/
def many (n : Nat) : List EOp := (List.range n).flatMap fun i => [.slot ⟨8, 8⟩, .pin (4104 + 24 * i) ⟨8, 8⟩ filled]
example : (exits ⟨.w64, true, 4096, ⟨768, 8⟩⟩ fresh (many 32)).map (·.1) = some ((List.range 32).flatMap fun i => [.addr (4104 + 24 * i), .addr (4104 + 24 * i)]) := by decide +kernel
example : (exits ⟨.w64, true, 4096, ⟨768, 8⟩⟩ fresh (many 32 ++ [.drop])).map (fun r => (r.2.dropped.length, r.2.dropped)) = some (32, List.range 32) := by decide +kernel
example : (exits ⟨.w64, true, 4096, ⟨2048 * 8, 8⟩⟩ fresh (many 32 ++ [.drop])).map (·.2.dropped.length) = some 32 := by decide +kernel

/-- stackful.rs:44-59 `set_with_various_sizes`: `set` with the type of the stack itself succeeds, for a zero-sized one and a large one. -/
example : (exits ⟨.w64, true, 4096, ⟨0, 1⟩⟩ fresh [.set (List.replicate 16 0), .drop]).map (fun r => (r.1, r.2.dropped)) = some ([.addr 4104, .unit], [0]) := by decide +kernel
example : (exits ⟨.w64, true, 4096, ⟨256, 8⟩⟩ fresh [.set (List.replicate 272 0), .drop]).map (fun r => (r.1, r.2.dropped)) = some ([.addr 4104, .unit], [0]) := by decide +kernel

/-- stackful.rs:61-81 `set_drops_correctly`: no destructor after the first `set`, one after the second, two at the end. -/
example : (exits ⟨.w64, true, 4096, ⟨8, 8⟩⟩ fresh [.set filled]).map (·.2.dropped.length) = some 0 ∧
    (exits ⟨.w64, true, 4096, ⟨8, 8⟩⟩ fresh [.set filled, .set filled]).map (·.2.dropped.length) = some 1 ∧
    (exits ⟨.w64, true, 4096, ⟨8, 8⟩⟩ fresh [.set filled, .set filled, .drop]).map (·.2.dropped.length) = some 2 := by decide +kernel
end

/-! ## fill/tests/alloc.rs, core.rs -/
section
open Fill
/-- A range; its state is the next number. -/
def upto (n : Nat) : Next Nat Nat := fun k => if k < n then (.item k, k + 1) else (.done, k)

/-- alloc.rs:3-22 `vec`: 20 numbers for a vector of capacity 10, with 10, 5 and 0 left over. -/
example : fillAndKeepTail vecFill 99 (upto 20) ⟨10, []⟩ 0 = some (false, ⟨10, List.range 10⟩, 10) := by decide
example : fillAndKeepTail vecFill 99 (upto 20) ⟨10, List.range 5⟩ 10 = some (false, ⟨10, [0, 1, 2, 3, 4, 10, 11, 12, 13, 14]⟩, 15) := by decide
example : fillAndKeepTail vecFill 99 (upto 20) ⟨10, []⟩ 15 = some (false, ⟨10, [15, 16, 17, 18, 19]⟩, 20) := by decide
/-- alloc.rs:25-33 `vec_deque`. -/
example : fillAndKeepTail vecDequeFill 99 (upto 20) ⟨10, []⟩ 0 = some (false, ⟨10, List.range 10⟩, 10) := by decide
/-- core.rs:3-10 `slice`: an infinite range. -/
example : fillAndKeepTail iterMutFill 99 (fun k : Nat => (.item k, k + 1)) ⟨List.replicate 8 0, 0⟩ 0 = some (false, ⟨List.range 8, 8⟩, 8) := by decide
/-- core.rs:12-20 `slice_and_swap`: the slices exchange two elements. -/
example : (fillAndKeepTail swapFill 99 (upto 4) ⟨⟨[0, 0], 0⟩, fun _ => 1⟩ 0).map (fun r => (r.2.1.it.slice, (List.range 4).map r.2.1.vars)) = some ([1, 1], [0, 0, 1, 1]) := by decide
/-- core.rs:22-30 `option`. -/
example : (fillAndKeepTail optionFill 99 onceNext none (some 42)).map (·.2.1) = some (some 42) ∧ (fillAndKeepTail optionFill 99 onceNext (some 42) (some 0xFF)).map (·.2.1) = some (some 42) := by decide
/-- core.rs:32-46 `result`: two numbers are stored; then the error replaces the iterator, and the item after it is not pulled. -/
def twoOk : Next Nat (Except Nat Nat) := fun k => if k < 2 then (.item (.ok k), k + 1) else (.done, k)
def errFirst : Next Nat (Except Nat Nat) := fun k => match k with | 0 => (.item (.error 0xee), 1) | 1 => (.item (.ok 4), 2) | k => (.done, k)
example : fillAndKeepTail (resultFill (E := Nat) iterMutFill) 99 twoOk (.ok ⟨[0, 0, 0, 0], 0⟩) 0 = some (false, .ok ⟨[0, 1, 0, 0], 2⟩, 2) := rfl
example : (⟨[0, 1, 0, 0], 2⟩ : IterMut Nat).len = 2 := rfl
example : fillAndKeepTail (resultFill (E := Nat) (iterMutFill (α := Nat))) 99 errFirst (.ok ⟨[0, 1, 0, 0], 2⟩) 0 = some (false, .error 0xee, 1) := rfl
end

/-! ## without-alloc/tests/fixed_vec.rs -/
section
open FVec Uninit

/-- fixed_vec.rs:6-33 `create`. -/
example : (FixedVec.new (empty ⟨1, 1⟩)).len = 0 ∧ (FixedVec.new (empty ⟨1, 1⟩)).isEmpty = true ∧ (FixedVec.new (empty ⟨1, 1⟩)).capacity .w64 = 0 := by decide
example : (match (fromMemory 4096 16).castSlice .w64 ⟨1, 1⟩ with | .ok u => some ((FixedVec.new u).len, (FixedVec.new u).isEmpty, (FixedVec.new u).capacity .w64) | .error _ => none) = some (0, true, 16) := by decide
example : (match fromMaybeUninitSlice .w64 ⟨1, 1⟩ 4099 16 with | .ret u => some ((FixedVec.new u).len, (FixedVec.new u).isEmpty, (FixedVec.new u).capacity .w64) | _ => none) = some (0, true, 16) := by decide
/-- The last part: `slab.fixed_vec::<usize>(16)` on a slab of exactly this size. -/
example : (match AllocExt.fixedVec .w64 (Bump.localAlloc ⟨.w64, 4096, 128, id⟩) 0 (fun _ => 9) ⟨8, 8⟩ 16 with
    | .ret (some f, _, _) => some (f.len, f.isEmpty, f.capacity .w64) | _ => none) = some (0, true, 16) := by decide +kernel

def vecs (T : Layout) (panics : Nat → Bool) (ops : List (Op Nat)) : Option (List (Resp Nat) × List Nat) := summary (run .w64 T true panics (World.init fun _ => none) ops)

/-- fixed_vec.rs:35-47 `indexing` (`vec[1..]` of one element is its slice without the first one). -/
example : vecs ⟨1, 1⟩ (fun _ => false) [.new 4096 16, .slice 0, .push 0 0, .slice 0, .replace 0 0 1, .pop 0] =
    some ([.num 0, .vals [], .pushed (.ok ()), .vals [0], .val 0, .opt (some 1)], []) := by decide +kernel

/-- fixed_vec.rs:49-83 `filling`: 16 pushes, then 16 pops in reverse order; no destructor (which would panic) is run. -/
def filling : List (Op Nat) :=
  [.new 4096 128, .len 0, .isEmpty 0, .capacity 0] ++ (List.range 16).map (.push 0) ++ [.len 0, .isEmpty 0, .capacity 0] ++ List.replicate 16 (.pop 0)
example : vecs ⟨8, 8⟩ (fun _ => true) filling =
    some ([.num 0, .num 0, .bool true, .num 16] ++ List.replicate 16 (.pushed (.ok ())) ++ [.num 16, .bool false, .num 16] ++ (List.range 16).reverse.map (fun i => .opt (some i)), []) := by decide +kernel

/-- fixed_vec.rs:85-127 `truncations`: the number of destructors that were run after each of the calls. -/
def truncations (ops : List (Op Nat)) : Option Nat := (vecs ⟨8, 8⟩ (fun _ => false) (.new 4096 8192 :: (List.replicate 16 (.push 0 0) ++ ops))).map (·.2.length)
example : truncations [] = some 0 ∧ truncations [.truncate 0 8] = some 8 ∧ truncations [.truncate 0 8, .truncate 0 8] = some 8 ∧ truncations [.truncate 0 8, .truncate 0 16] = some 8 ∧
    truncations [.truncate 0 8, .truncate 0 7] = some 9 ∧ truncations [.truncate 0 8, .truncate 0 7, .truncate 0 8] = some 9 ∧
    truncations [.truncate 0 8, .truncate 0 7, .truncate 0 1] = some 15 ∧ truncations [.truncate 0 8, .truncate 0 7, .truncate 0 1, .truncate 0 0] = some 16 ∧
    truncations [.truncate 0 8, .truncate 0 7, .truncate 0 1, .truncate 0 0, .truncate 0 0, .clear 0] = some 16 := by decide +kernel

/-- The range `0..16` as an iterator. -/
def range16 : Iter Nat := ⟨fun k => if k < 16 then .item k else .done, 0⟩
def drained (ops : List (Op Nat)) : Option (List (Resp Nat) × List Nat) := vecs ⟨8, 8⟩ (fun _ => false) ([.new 4096 128, .fill 0 range16, .drain 0 .unbounded (.excluded 8), .drainSlice 0] ++ ops ++ [.dropDrain 0, .slice 0])
/-- fixed_vec.rs:129-180 `drain_forward`, `drain_reverse`, `drain_double_ended`: the first 8 elements are drained, from the front, from the back and from both, some after they were replaced through `as_mut_slice`; the others stay. -/
example : drained (.drainReplace 0 0 0xFF :: List.replicate 9 (.next 0)) = some ([.num 0, .num 16, .unit, .vals (List.range 8), .val 0, .opt (some 0xFF)] ++ [1, 2, 3, 4, 5, 6, 7].map (fun i => .opt (some i)) ++
    [.opt none, .unit, .vals ((List.range 16).drop 8)], []) := by decide +kernel
example : drained (.drainReplace 0 7 0xFF :: .nextBack 0 :: List.replicate 8 (.next 0)) = some ([.num 0, .num 16, .unit, .vals (List.range 8), .val 7, .opt (some 0xFF)] ++ (List.range 7).map (fun i => .opt (some i)) ++
    [.opt none, .unit, .vals ((List.range 16).drop 8)], []) := by decide +kernel
example : drained ([.drainLen 0, .drainReplace 0 0 0xFF, .drainReplace 0 7 0xFF, .next 0, .drainLen 0, .nextBack 0, .drainLen 0] ++ List.replicate 7 (.next 0)) =
    some ([.num 0, .num 16, .unit, .vals (List.range 8), .num 8, .val 0, .val 7, .opt (some 0xFF), .num 7, .opt (some 0xFF), .num 6] ++ [1, 2, 3, 4, 5, 6].map (fun i => .opt (some i)) ++
    [.opt none, .unit, .vals ((List.range 16).drop 8)], []) := by decide +kernel
/-! src/fixed_vec.rs `mod tests` -/
/-- src/fixed_vec.rs:774-799 `init_and_use`. -/
def initAndUse : List (Op Nat) := [.new 4096 240, .capacity 0, .len 0] ++ (List.range 30).map (.push 0) ++ [.capacity 0, .len 0] ++ List.replicate 30 (.pop 0) ++ [.capacity 0, .len 0]
example : vecs ⟨8, 8⟩ (fun _ => false) initAndUse =
    some ([.num 0, .num 30, .num 0] ++ List.replicate 30 (.pushed (.ok ())) ++ [.num 30, .num 30] ++ (List.range 30).reverse.map (fun i => .opt (some i)) ++ [.num 30, .num 0], []) := by decide +kernel
/-- src/fixed_vec.rs:801-824 `zst_drop` (whose values are in fact not zero-sized). -/
example : (vecs ⟨8, 8⟩ (fun _ => false) ([.new 4096 240] ++ (List.range 30).map (.push 0) ++ [.drop 0])).map (·.2.length) = some 30 := by decide +kernel
/-- src/fixed_vec.rs:826-831 `zst`. -/
example : (FixedVec.new (empty ⟨0, 1⟩)).capacity .w64 = 2 ^ 64 - 1 := by decide
/-- src/fixed_vec.rs:833-863 `split_and_shrink`: 15 bytes for `u16`, split at 4, have the capacities 4 and 3 and one byte is left over; the values are in the memory in order. -/
def splitAndShrink : Option ((Nat × Nat × Nat × Nat) × (Nat × Nat)) :=
  match (fromMemory 4096 16).splitAtByte 15 with
  | some (aligned, _) => (match aligned.castSlice .w64 ⟨2, 2⟩ with
    | .ok u => (match (FixedVec.new u).splitAndShrinkTo .w64 4 with
      | .ret (vec, second) => (match second.shrinkToFit .w64, vec.shrinkToFit .w64 with
        | .ret (second, tail), .ret (_, tail1) => (match second.shrinkToFit .w64 with
          | .ret (_, tail2) => some ((vec.capacity .w64, tail1.len, second.capacity .w64, tail2.len), (tail.addr, tail.len))
          | _ => none)
        | _, _ => none)
      | _ => none)
    | _ => none)
  | none => none
example : splitAndShrink = some ((4, 0, 3, 0), (4110, 1)) := by decide
example : (match run .w64 ⟨2, 2⟩ true (fun _ => false) (World.init fun _ => some 0)
      ([.new 4096 15, .splitShrink 0 4, .shrinkToFit 1] ++ [0, 1, 2, 3].map (.push 0) ++ [4, 5, 6].map (.push 1) ++ [.len 0, .len 1, .forget 0, .forget 1]) with
    | .ret (rs, w) => some (rs.drop 10, (List.range 7).map fun i => w.heap.mem (4096 + 2 * i)) | _ => none) =
    some ([.num 4, .num 3, .unit, .unit], (List.range 7).map some) := by decide +kernel
/-- src/fixed_vec.rs:865-897 `drop_safe_in_truncation`: `truncate(1)` panics in the destructor of the last element; dropping the vector while unwinding drops the two others. -/
example : vecs ⟨16, 8⟩ (fun v => v == 2) [.new 4096 48, .push 0 0, .push 0 1, .push 0 2, .truncate 0 1, .drop 0] =
    some ([.num 0, .pushed (.ok ()), .pushed (.ok ()), .pushed (.ok ()), .panic, .unit], [2, 0, 1]) := by decide +kernel
/-- src/fixed_vec.rs:899-917 `fill_drops`: an infinite iterator is only asked for the one element that fits. -/
example : vecs ⟨16, 8⟩ (fun _ => false) [.new 4096 32, .push 0 0, .fill 0 ⟨fun k => .item (k + 1), 0⟩, .drop 0] = some ([.num 0, .pushed (.ok ()), .num 1, .unit], [0, 1]) := by decide +kernel
end

/-! ## without-alloc/tests/rc.rs, src/rc.rs `mod tests` -/
section
open RcM Uninit
def rcs (ops : List (Op Nat)) : Option (List (Resp Nat) × List Nat) := match run .w64 true (World.init fun _ => ⟨none, 0, 0⟩) ops with | .ret (rs, w) => some (rs, w.log) | _ => none

/-- rc.rs:7-17 `create`. -/
example : rcs [.new 64 0, .strongCount 0, .weakCount 0, .deref 0] = some ([.handle 0, .num 1, .num 1, .val 0], []) := by decide +kernel
/-- rc.rs:19-24 `failed_memory_layout`, src/rc.rs:754-766 `wrong_layout_panics`: memory of the size of the value is not enough. -/
example : newView .w64 ⟨8, 8⟩ (fromMemory 4096 0) = .panic ∧ newView .w64 ⟨4, 4⟩ (fromMemory 4096 4) = .panic := by decide
/-- rc.rs:26-65 `reference_juggling`: `get_mut` only while the `Rc` is the only handle; in the end the memory is returned, without a destructor. -/
example : rcs [.new 64 0, .replace 0 4, .clone 0, .replace 0 4, .dropRc 1, .replace 0 4, .downgrade 0, .replace 0 4, .dropWeak 2, .tryUnwrap 0, .strongCount 3, .weakCount 3, .weakTryUnwrap 3] =
    some ([.handle 0, .val 0, .handle 1, .err, .unit, .val 4, .handle 2, .err, .unit, .unwrapped 4 3, .num 0, .num 1, .memory 64], []) := by decide +kernel
/-- rc.rs:67-80 `raw_and_back`: the pointer of the raw value is that of the value in the `Rc`. -/
example : rcs [.new 64 0, .strongCount 0, .weakCount 0, .intoRaw 0, .fromRaw 64, .replace 1 0] = some ([.handle 0, .num 1, .num 1, .memory 64, .handle 1, .val 0], []) := by decide +kernel
example : (match newView .w64 ⟨8, 8⟩ (fromMemory 4096 1024) with
    | .ret v => (match intoRawView ⟨8, 8⟩ v with | .ret raw => (match fromRawView .w64 true ⟨8, 8⟩ raw with | .ret v' => some (valuePtr v', raw.addr) | _ => none) | _ => none) | _ => none) = some (4096, 4096) := by decide
/-- rc.rs:82-103 `downgrade_upgrade`. -/
example : rcs [.new 64 0, .strongCount 0, .weakCount 0, .downgrade 0, .upgrade 1, .strongCount 0, .weakCount 0, .dropWeak 1, .dropRc 0, .tryUnwrap 2, .strongCount 3, .weakCount 3, .upgrade 3] =
    some ([.handle 0, .num 1, .num 1, .handle 1, .handle 2, .num 2, .num 2, .unit, .unit, .unwrapped 0 3, .num 0, .num 1, .none], []) := by decide +kernel
/-- rc.rs:105-122 `compares`. -/
def nat : Cmp.Traits Nat := ⟨(· == ·), (· != ·), fun a b => some (compare a b), fun a b => decide (a < b), fun a b => decide (a ≤ b), fun a b => decide (a ≥ b), fun a b => decide (a > b), compare, fun n => [.usize n]⟩
def zeroOne : World Nat := (match run .w64 true (World.init fun _ => ⟨none, 0, 0⟩) [.new 64 0, .new 128 1] with | .ret (_, w) => w | _ => World.init fun _ => ⟨none, 0, 0⟩)
example : Cmp.Rc.eq nat zeroOne 0 0 = .ret true ∧ Cmp.Rc.eq nat zeroOne 1 1 = .ret true ∧ Cmp.Rc.ne nat zeroOne 0 0 = .ret false ∧ Cmp.Rc.eq nat zeroOne 0 1 = .ret false ∧
    Cmp.Rc.lt nat zeroOne 0 1 = .ret true ∧ Cmp.Rc.le nat zeroOne 0 1 = .ret true ∧ Cmp.Rc.gt nat zeroOne 1 0 = .ret true ∧ Cmp.Rc.ge nat zeroOne 1 0 = .ret true := ⟨rfl, rfl, rfl, rfl, rfl, rfl, rfl, rfl⟩
/-- src/rc.rs:697-711 `layout_box_compatible`: the value is at the address of the box. -/
example : (reprCOffsets 0 (fields .w64 ⟨8, 8⟩)).head? = some 0 := by decide
/-- src/rc.rs:713-752 `control_through_counters`: a value with one more count is not dropped; after the last handle is gone both counts are 0. -/
example : (do let b ← (RcBox.init 0).incStrong .w64 true; b.dropRc .w64 true) = .ret (false, (⟨some 0, 1, 1⟩ : RcBox Nat)) := rfl
example : (match run .w64 true (World.init fun _ => (⟨none, 0, 0⟩ : RcBox Nat)) [.new 64 0, .dropRc 0] with | .ret (_, w) => ((w.mem 64).strong, (w.mem 64).weak) | _ => (9, 9)) = (0, 0) := by decide
example : (match run .w64 true (World.init fun _ => (⟨none, 0, 0⟩ : RcBox Nat)) [.new 64 0, .tryUnwrap 0, .strongCount 1, .weakCount 1, .dropWeak 1] with
    | .ret (rs, w) => (rs, (w.mem 64).strong, (w.mem 64).weak) | _ => ([], 9, 9)) = ([.handle 0, .unwrapped 0 1, .num 0, .num 1, .unit], 0, 0) := by decide
end

/-! ## without-alloc/tests/box.rs -/
section
/-- box.rs:5-29 `recursive`: nine `List` nodes, each of a `usize` and a `Box` (pointer and length), in `Bump<[usize; 32]>`; the test needs them all to fit. -/
def nodes : Nat → Nat → Mem → Option (List Nat)
  | 0, _, _ => some []
  | n + 1, c, m => match AllocExt.boxed (Bump.localAlloc ⟨.w64, 4096, 256, id⟩) c m ⟨24, 8⟩ (List.replicate 24 1) with
    | .ret (some v, c, m) => (nodes n c m).map (v.addr :: ·)
    | _ => none
example : nodes 9 0 (fun _ => 0) = some ((List.range 9).map fun i => 4096 + 24 * i) := by decide +kernel
end

end Verif.RepoTests
