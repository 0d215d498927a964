import Verif.Cases.RepoTests
/-!
# The examples of the documentation, run on the model

As `Cases/RepoTests`, for the examples in doc comments which have an observable result. They are run on a 64 bit target, at addresses that the example leaves open.
-/
set_option autoImplicit false
namespace Verif.DocTests
open Verif RepoTests

/-! ## static-alloc/src/bump.rs -/
section
open Bump
def num (n : UInt8) : List Byte := [n,0,0,0,0,0,0,0]

/-- bump.rs:57-68: three `u64` in `Bump<[u64; 3]>`, the fourth fails. -/
example : results (after 24 [.leak u64L (num 0), .leak u64L (num 1), .leak u64L (num 2), .leak u64L (num 3)]) = [.ptr 4096, .ptr 4104, .ptr 4112, .leakErr (num 3) .exhausted] := by decide +kernel

/-- bump.rs:74-81: whether an `u128` can be placed in `[u8; 16]` depends on the address of the bump. -/
def u128L : Layout := ⟨16, 16⟩
def at_ (addr size : Nat) (cs : List Call) : State 1 := run ⟨.w64, addr, size, id⟩ (init 1 0 fun _ => 0) (seq cs)
example : results (at_ 4096 16 [.leak u128L (num 0 ++ num 0)]) = [.ptr 4096] ∧ results (at_ 4097 16 [.leak u128L (num 0 ++ num 0)]) = [.leakErr (num 0 ++ num 0) .exhausted] := by decide +kernel
/-- bump.rs:85-91: but in `[u128; 1]`, which is aligned, it always can. -/
example : results (at_ (16 * 257) 16 [.leak u128L (num 0 ++ num 0)]) = [.ptr 4112] := by decide +kernel

/-- bump.rs:101-132: a page table of 4096 bytes, aligned to as much, in `Bump<[u8; 1 << 18]>`, wherever this is. -/
example : results (at_ 4097 (2 ^ 18) [.alloc ⟨4096, 4096⟩]) = [.ptr 8192] := by decide +kernel

/-- bump.rs:193-242: `gather_data(0..=3)` in `Bump<[u64; 4]>`, calling `leak_at` with the level of the previous value: the pointers are those of a slice, which has the values. -/
def gathered : State 1 := after 32 [.level, .leakAt u64L (num 0) 0, .leakAt u64L (num 1) 8, .leakAt u64L (num 2) 16, .leakAt u64L (num 3) 24]
example : results gathered = [.level 0, .allocation ⟨4096, 8⟩, .allocation ⟨4104, 16⟩, .allocation ⟨4112, 24⟩, .allocation ⟨4120, 32⟩] := by decide +kernel
example : readBytes gathered.mem 4096 32 = num 0 ++ num 1 ++ num 2 ++ num 3 := by decide +kernel

/-- bump.rs:320-331: `reset` of a full bump makes place for another value. -/
example : results (run (slab 8) (init 1 0 fun _ => 0xAA) (seq [.leak ⟨8, 1⟩ (num 0), .leak u8L [0]] ++ [.reset] ++ seq [.leak u64L (num 0)])) = [.ptr 4096, .leakErr [0] .exhausted, .ptr 4096] := by decide +kernel

/-- bump.rs:679-687 and 420-434: the value can be read through the pointer. -/
example : results (after 24 [.leak u64L (num 42)]) = [.ptr 4096] ∧ readBytes (after 24 [.leak u64L (num 42)]).mem 4096 8 = num 42 := by decide +kernel

/-- bump.rs:724-735: `two` is one `u64` after `one`. -/
example : results (after 24 [.level, .leakAt u64L (num 1) 0, .leakAt u64L (num 2) 8]) = [.level 0, .allocation ⟨4096, 8⟩, .allocation ⟨4104, 16⟩] := by decide +kernel

/-- lib.rs:15-28: as global allocator for a vector of 128 `u32`, then `leak([0; 128])`: both are in `[u8; 1 << 16]`. -/
example : results (at_ 4097 (2 ^ 16) [.alloc ⟨512, 4⟩, .leak ⟨512, 4⟩ (List.replicate 512 0)]) = [.ptr 4100, .ptr 4612] := by decide +kernel
end

/-! ## static-alloc/src/leaked.rs -/
section
open Owned
/-- leaked.rs:125-135: a value written to the `MaybeUninit` of the stack, then used. -/
example : boxes lexec (fun _ => false) [.make, .fromMaybeUninit 4096, .write 4096 0, .deref 4096, .drop 4096] = some ([.val 0, .unit, .unit, .val 0, .unit], [0]) := rfl
/-- leaked.rs:192-204 and 208-220: `into_raw`, then `drop_in_place`, or `from_raw` and dropping the box: dropped once. -/
example : boxes lexec (fun _ => false) [.make, .allocate 4096 0, .intoRaw 4096, .dropRaw 4096] = some ([.val 0, .unit, .unit, .unit], [0]) := rfl
example : boxes lexec (fun _ => false) [.make, .allocate 4096 0, .intoRaw 4096, .fromRaw 4096, .drop 4096] = some ([.val 0, .unit, .unit, .unit, .unit], [0]) := rfl
/-- leaked.rs:255-271: `with_stack_drop` drops its value. -/
example : boxes lexec (fun _ => false) [.make, .allocate 4096 0, .drop 4096] = some ([.val 0, .unit, .unit], [0]) := rfl
/-- leaked.rs:289-298: `leak` does not. -/
example : boxes lexec (fun _ => false) [.make, .allocate 4096 0, .leak 4096] = some ([.val 0, .unit, .unit], []) := rfl
/-- leaked.rs:406-425: the value that was taken is alive until the variable is dropped. -/
example : boxes lexec (fun _ => false) [.make, .allocate 4096 0, .take 4096] = some ([.val 0, .unit, .val 0], []) := rfl
example : boxes lexec (fun _ => false) [.make, .allocate 4096 0, .take 4096, .discard 0] = some ([.val 0, .unit, .val 0, .unit], [0]) := rfl
end

/-! ## static-alloc/src/unsync/bump.rs -/
section
open Unsync
/-- unsync/bump.rs:141-149 and 208-220: `from_mem` of 128 bytes, `into_mem` and `from_mem_unchecked`. -/
def bump128 : MemBump := ⟨4104, 112⟩
example : (match MemBump.fromMem .w64 (fun _ => 0) ⟨4099, 128⟩ with | .ret (b, _) => b | _ => none) = some bump128 := by decide
example : (MemBump.intoMem .w64 bump128).size ≤ 128 ∧ MemBump.fromMemUnchecked .w64 (MemBump.intoMem .w64 bump128) = .ret bump128 := by decide
/-- unsync/bump.rs:357-373 and 377-391: `get_at`, then `get_unchecked` at the level before gives the same address; another box remains as it is. -/
example : (match bump128.getAt .w64 (fun _ => 0) ⟨8, 8⟩ 0 with | .ret (.ok a, _) => some a.ptr | _ => none) = some 4112 ∧ (match bump128.getUnchecked .w64 0 with | .ret a => some a.ptr | _ => none) = some 4112 := by decide +kernel
/-- This is because 0 is an aligned place; after a byte it is not (C26). -/
example : (match bump128.get .w64 (fun _ => 0) ⟨1, 1⟩ with
    | .ret (some _, m) => (match bump128.getAt .w64 m ⟨8, 8⟩ (bump128.level .w64 m), bump128.getUnchecked .w64 (bump128.level .w64 m) with | .ret (.ok a, _), .ret a' => some (a.ptr, a'.ptr) | _, _ => none)
    | _ => none) = some (4120, 4113) := by decide +kernel
/-- unsync/bump.rs:412-427: the value is dropped with the box. -/
example : (match BumpBoxes.run .w64 ⟨4096, 32⟩ (fun _ => false) ⟨fun _ => 0, [], []⟩ [.bumpBox ⟨⟨8, 8⟩, true⟩, .write 0 [255,0,0,0,0,0,0,0], .deref 0, .drop 0] with | .ret (rs, w) => some (rs, w.log) | _ => none) =
    some ([.made, .unit, .val [255,0,0,0,0,0,0,0], .unit], [[255,0,0,0,0,0,0,0]]) := by decide +kernel
end

/-! ## without-alloc/src/alloc.rs -/
section
open AllocExt
def slabAt (size : Nat) : AllocTraits.LocalAlloc Nat := Bump.localAlloc ⟨.w64, 4096, size, id⟩
/-- "Hello, World!" at address 64. -/
def hello : List Byte := [72, 101, 108, 108, 111, 44, 32, 87, 111, 114, 108, 100, 33]
def mem0 : Mem := writeBytes (fun _ => 0) 64 hello
/-- alloc.rs:129-137 `copy_slice` and 168-176 `copy_str`: the copy equals the data. -/
example : (match copySlice .w64 (slabAt 128) 0 mem0 ⟨1, 1⟩ 64 13 with | .ret (some (p, n), _, m) => some (p, n, readBytes m p n) | _ => none) = some (4096, 13, hello) := by decide +kernel
example : (match copyStr .w64 (slabAt 16) 0 mem0 64 13 with | .ret (some (p, n), _, m) => some (p, n, readBytes m p n) | _ => none) = some (4096, 13, hello) := by decide +kernel
/-- alloc.rs:209-221 `copy_dst`: an `usize` as `dyn Debug`, whose metadata is kept. In `Bump<[u8; 16]>` it fits even if this is not aligned. -/
example : (match copyDst (Bump.localAlloc ⟨.w64, 4097, 16, id⟩) 0 (writeBytes (fun _ => 0) 64 (num 1)) ⟨8, 8⟩ 64 77 with | .ret (some (p, n), _, m) => some (p, n, readBytes m p 8) | _ => none) = some (4104, 77, num 1) := by decide +kernel
end

/-! ## without-alloc/src/boxed.rs -/
section
open Owned
/-- boxed.rs:17-38: `Box::take` gives the value back, which is dropped in the end. -/
example : boxes bexec (fun _ => false) [.make, .memory 4096, .new 0 4096, .take 4096] = some ([.val 0, .unit, .unit, .val 0], []) := rfl
end

/-! ## without-alloc/src/fixed_vec.rs, lib.rs -/
section
open FVec Uninit
/-- fixed_vec.rs:21-35: 3, 2, 1. -/
example : vecs ⟨8, 8⟩ (fun _ => false) [.new 4096 120, .push 0 1, .push 0 2, .push 0 3, .pop 0, .pop 0, .pop 0, .pop 0] =
    some ([.num 0, .pushed (.ok ()), .pushed (.ok ()), .pushed (.ok ()), .opt (some 3), .opt (some 2), .opt (some 1), .opt none], []) := by decide +kernel
/-- fixed_vec.rs:72-86: "NO guarantees about space lost": indeed, see C50. -/
example : (match fromMaybeUninit ⟨1024, 1⟩ 4096, fromMaybeUninit ⟨1024, 1⟩ 4097 with
    | .ret u, .ret u' => (match FixedVec.fromUnaligned .w64 ⟨8, 8⟩ u, FixedVec.fromUnaligned .w64 ⟨8, 8⟩ u' with | .ret f, .ret f' => some (f.capacity .w64, f'.capacity .w64) | _, _ => none)
    | _, _ => none) = some (128, 0) := by decide +kernel
/-- fixed_vec.rs:131-145. -/
example : vecs ⟨8, 8⟩ (fun _ => false) [.new 4096 32, .push 0 0, .push 0 1, .push 0 2, .slice 0, .truncate 0 1, .slice 0] =
    some ([.num 0, .pushed (.ok ()), .pushed (.ok ()), .pushed (.ok ()), .vals [0, 1, 2], .unit, .vals [0]], [2, 1]) := by decide +kernel
/-- fixed_vec.rs:227-241: the second push fails, and returns the value. -/
example : vecs ⟨4, 4⟩ (fun _ => false) [.new 4096 4, .push 0 1, .push 0 2] = some ([.num 0, .pushed (.ok ()), .pushed (.error 2)], []) := by decide +kernel
/-- fixed_vec.rs:287-307: the elements of the part are gone with it, but the capacity is not. -/
example : vecs ⟨8, 8⟩ (fun _ => false) [.new 4096 64, .fill 0 ⟨fun k => if k < 7 then .item k else .done, 0⟩, .splitBorrowed 0 4, .push 1 7, .drain 1 .unbounded .unbounded, .drainSlice 1, .next 1, .next 1, .next 1, .next 1, .next 1, .dropDrain 1, .drop 1, .len 0, .capacity 0] =
    some ([.num 0, .num 8, .num 1, .pushed (.ok ()), .unit, .vals [4, 5, 6, 7], .opt (some 4), .opt (some 5), .opt (some 6), .opt (some 7), .opt none, .unit, .unit, .num 4, .num 8], []) := by decide +kernel
/-- fixed_vec.rs:694-707: 15 numbers are drained by `take(3)`, which drops the others; here they are what the iterator of `extend` yields. -/
example : vecs ⟨8, 8⟩ (fun _ => false) [.new 4096 120, .extend 0 ⟨fun k => if k < 15 then .item k else .done, 0⟩, .drain 0 .unbounded .unbounded, .next 0, .next 0, .next 0, .dropDrain 0, .isEmpty 0, .new 8192 24,
      .extend 1 ⟨fun k => if k < 3 then .item k else .done, 0⟩, .len 1, .capacity 1] =
    some ([.num 0, .num 16, .unit, .opt (some 0), .opt (some 1), .opt (some 2), .unit, .bool true, .num 1, .num 4, .num 3, .num 3], (List.range 15).drop 3) := by decide +kernel
/-- fixed_vec.rs:711-717 (`should_panic`): `extend` with an infinite iterator fills the vector and panics with the next item, which is dropped. -/
example : vecs ⟨8, 8⟩ (fun _ => false) [.new 4096 24, .extend 0 ⟨fun k => .item k, 0⟩, .slice 0] = some ([.num 0, .panicAt 4, .vals [0, 1, 2]], [3]) := by decide +kernel
/-- lib.rs:11-27 (crate without-alloc): a vector of capacity 16 in `Bump<[usize; 16]>`. -/
example : (match AllocExt.fixedVec .w64 (slabAt 128) 0 (fun _ => 9) ⟨8, 8⟩ 16 with | .ret (some f, _, _) => some (f.capacity .w64) | _ => none) = some 16 := by decide +kernel
end

/-! ## without-alloc/src/rc.rs -/
section
open RcM
/-- rc.rs:86-97: an `Rc` in memory of `Rc::<Foo>::layout()`. -/
example : (match AllocExt.rc .w64 (slabAt 1024) 0 (fun _ => 9) ⟨4, 4⟩ [0,0,0,0] with | .ret (some v, c, m) => some (v.addr, c, loadUsize .w64 m (AllocExt.strongAddr .w64 ⟨4, 4⟩ v.addr), loadUsize .w64 m (AllocExt.weakAddr .w64 ⟨4, 4⟩ v.addr)) | _ => none) =
    some (4096, 24, 1, 1) := by decide +kernel
/-- rc.rs:138-155: `into_raw` does not drop. -/
example : rcs [.new 64 0, .intoRaw 0] = some ([.handle 0, .memory 64], []) := by decide +kernel
/-- rc.rs:198-212: the weak count is 2, and 1 after the `Rc` is gone. -/
example : rcs [.new 64 0, .downgrade 0, .weakCount 0, .dropRc 0, .endDrop, .weakCount 1] = some ([.handle 0, .handle 1, .num 2, .unit, .unit, .num 1], [0]) := by decide +kernel
/-- rc.rs:278-295 `ptr_eq`. -/
example : rcs [.new 64 0, .clone 0, .new 128 0, .ptrEq 0 1, .ptrEq 0 2] = some ([.handle 0, .handle 1, .handle 2, .bool true, .bool false], []) := by decide +kernel
/-- rc.rs:358-370: the memory is returned by the last weak. -/
example : rcs [.new 64 0, .tryUnwrap 0, .weakTryUnwrap 1] = some ([.handle 0, .unwrapped 0 1, .memory 64], []) := by decide +kernel
/-- rc.rs:392-407: `upgrade` fails after both strong handles were dropped. -/
example : rcs [.new 64 0, .downgrade 0, .upgrade 1, .dropRc 0, .dropRc 2, .endDrop, .upgrade 1] = some ([.handle 0, .handle 1, .handle 2, .unit, .unit, .unit, .none], [0]) := by decide +kernel
/-- rc.rs:424-436 and 445-457: the counts after `try_unwrap`. -/
example : rcs [.new 64 0, .tryUnwrap 0, .strongCount 1, .weakCount 1] = some ([.handle 0, .unwrapped 0 1, .num 0, .num 1], []) := by decide +kernel
/-- rc.rs:500-519: the destructor is run when the second handle is dropped. -/
example : rcs [.new 64 0, .clone 0, .dropRc 0] = some ([.handle 0, .handle 1, .unit], []) ∧ rcs [.new 64 0, .clone 0, .dropRc 0, .dropRc 1] = some ([.handle 0, .handle 1, .unit, .unit], [0]) := by decide +kernel
/-- rc.rs:549-562 `get_mut`. -/
example : rcs [.new 64 0, .replace 0 0, .clone 0, .replace 0 0] = some ([.handle 0, .val 0, .handle 1, .err], []) := by decide +kernel
/-- rc.rs:585-600: clones of a `Weak`. -/
example : rcs [.new 64 0, .tryUnwrap 0, .weakCount 1, .cloneWeak 1, .weakCount 1, .weakCount 2] = some ([.handle 0, .unwrapped 0 1, .num 1, .handle 2, .num 2, .num 2], []) := by decide +kernel
/-- rc.rs:232-240: the sizes. -/
example : 4 ≤ (rcLayout .w64 ⟨4, 4⟩).size ∧ 0 < (rcLayout .w64 ⟨0, 1⟩).size := by decide
end

/-! ## without-alloc/src/uninit.rs -/
section
open Uninit
/-- uninit.rs:59-77: `MaybeUninit<[u32; 1024]>`, of which the first `u32` is a counter, then a part of the tail two `u64`. Where the counter and the values are, and the tail. -/
def counterAndValues (addr : Nat) : Option ((Nat × Nat) × (Nat × Nat)) :=
  match fromMaybeUninit ⟨4096, 4⟩ addr with
  | .ret u => (match u.cast ⟨4, 4⟩ with
    | .ok counter => (match counter.splitToFit with
      | .ret (counter, tail) => (match tail.splitCast .w64 ⟨16, 8⟩ with
        | .ret (some (_, values)) => some ((counter.addr, values.addr), (tail.addr, tail.len))
        | _ => none)
      | _ => none)
    | _ => none)
  | _ => none
/-- If the array is at a multiple of 8 the example works, but only because the values are in the first bytes of the tail: this starts after 16 bytes and not after 4, and reaches 12 bytes beyond the array (C38). -/
example : counterAndValues 4096 = some ((4096, 4112), (4112, 4092)) := by decide
example : 4096 + 4096 < 4112 + 4092 := by decide
/-- At any other multiple of 4, which the type permits, its `unwrap` panics (C41): the comment "these are not trivially aligned, but `Uninit` does that for us" is not true. -/
example : counterAndValues 4100 = none := by decide
end

end Verif.DocTests
